import Verif.Model.Base
import Verif.Model.RandomGen
import Mathlib.Algebra.Order.Field.Basic
import Mathlib.Algebra.BigOperators.Group.Finset.Basic

/-! # Specification: the stream of uniform values, cumulative distributions -/

namespace RB.Spec
variable {N : Nat} {K W R : Type}

/-- The `t`-th value of the stream of uniform values in [-1, 1] that starts at a state: each counter contributes `len` words. -/
def stream (G : Gen N K W R) (state : RNGState N K) (t : Int) : R :=
  G.uneg11 (G.word (state.counter + ((t / G.len : Int) : ZMod N)) state.key (t % G.len))

/-- The same value mapped to [0, 1]. -/
def unif01 [Field R] (G : Gen N K W R) (state : RNGState N K) (t : Int) : R := (stream G state t + 1) / 2

/-- The state after the counter was incremented `c` times. -/
def advance (state : RNGState N K) (c : Int) : RNGState N K := { state with counter := state.counter + ((c : Int) : ZMod N) }

/-- `cdf` is a cumulative distribution function over `{0..n-1}`. -/
structure IsCdf [Field R] [LinearOrder R] (n : Int) (f : Int → R) : Prop where
  pos : 0 < n
  nonneg : ∀ i, 0 ≤ i → i < n → 0 ≤ f i
  mono : ∀ i j, 0 ≤ i → i ≤ j → j < n → f i ≤ f j
  last : f (n - 1) = 1

/-- Probability mass of index `j`. -/
def mass [Field R] (f : Int → R) (j : Int) : R := if j = 0 then f 0 else f j - f (j - 1)

/-- Sum of the positive parts of the first `i` weights. -/
def posSum [Field R] [LinearOrder R] (v : Int → R) (i : Nat) : R := ∑ l ∈ Finset.range i, max 0 (v l)

end RB.Spec
