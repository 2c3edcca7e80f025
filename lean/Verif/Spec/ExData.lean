import Verif.Spec.SparseData
import Verif.Spec.Dense
import Mathlib.Algebra.BigOperators.Group.Finset.Basic
import Mathlib.Algebra.Field.Basic

/-! # Specification: the test matrices of the examples -/

namespace RB.Spec
open Finset

/-- `x` is a vector of length `m` and Euclidean norm 1 with exactly `k` nonzeros, all of the same magnitude. -/
structure UnitSign {T : Type} [Field T] (k m : Int) (x : Int → T) : Prop where
  outside : ∀ i, ¬ (0 ≤ i ∧ i < m) → x i = 0
  magnitude : ∀ i, x i ≠ 0 → x i * x i = 1 / (k : T)
  count : ∃ I : Finset Int, (I.card : Int) = k ∧ ∀ i, i ∈ I ↔ x i ≠ 0
  norm : ∑ i ∈ range m.toNat, x i * x i = 1

/-- The array holds the vector. -/
def VecIs {T : Type} (b : Buf T) (m : Int) (x : Int → T) : Prop := ∀ p, 0 ≤ p → p < m → b p = .val (x p)

/-- Element `p` of the array that `fill_dense` writes for an m x n operator of the uniform family, before scaling by sqrt(3): a value in
[-1, 1]. -/
def flatUnif {N : Nat} {K W T : Type} (G : Gen N K W T) (m n : Int) (seed : RNGState N K) (p : Int) : T :=
  denseRaw G .Uniform (max m n) seed (p / max m n) (p % max m n)

/-- The generator state after an m x n operator has been sampled. -/
def afterDense {N : Nat} {K W T : Type} (G : Gen N K W T) (m n : Int) (seed : RNGState N K) : RNGState N K :=
  { seed with counter := seed.counter + ((min m n * countersPerVector G.len (max m n) : Int) : ZMod N) }

end RB.Spec
