import Verif.Spec.Coo
import Verif.Spec.Sampling
import Mathlib.Algebra.Order.Floor.Ring
import Mathlib.Data.Finset.Card

/-! # Specification of one long-axis vector: merging of repeated samples -/

namespace RB.Spec
variable {N : Nat} {K W R T : Type}

/-- How often index `l` occurs among `x 0, ..., x (k-1)`. -/
def occurrences (x : Int → Int) (k l : Int) : Nat := ((Finset.range k.toNat).filter fun t : Nat => x t = l).card

/-- `out` (pairs of index and value) is a merged form of the samples `x 0, ..., x (k-1)` with signs `s`: its indices are
exactly the sampled ones, without repetition; an index sampled `c` times has the value `sqrt c` times the sign at its first occurrence. -/
structure Merged [Mul T] [NatCast T] (sqrt : T → T) (k : Int) (x : Int → Int) (s : Int → T) (out : List (Int × T)) : Prop where
  nodup : (out.map Prod.fst).Nodup
  value : ∀ e ∈ out, ∃ t, 0 ≤ t ∧ t < k ∧ x t = e.1 ∧ (∀ t', 0 ≤ t' → t' < t → x t' ≠ e.1) ∧ e.2 = sqrt (occurrences x k e.1) * s t
  all : ∀ t, 0 ≤ t → t < k → x t ∈ out.map Prod.fst

/-- The index of an entry along the shorter dimension (rows if the matrix is square). -/
def shortIdx (nRows nCols : Int) (e : Entry T) : Int := if nRows ≤ nCols then e.row else e.col

/-- The index of an entry along the longer dimension. -/
def longIdx (nRows nCols : Int) (e : Entry T) : Int := if nRows ≤ nCols then e.col else e.row

/-- Sample `t` of long-axis vector `i`: the stream of vector `i` starts `i * c` counters after the seed, where `c` counters hold the
`2k` words of a vector; the sample uses word `2t`. -/
def lasoSample [Field R] [LinearOrder R] [FloorRing R] (G : Gen N K W R) (seed : RNGState N K) (n k i t : Int) : Int :=
  ⌊(n : R) * unif01 G (advance seed (i * ((2 * k + G.len - 1) / G.len))) (2 * t)⌋

/-- The sign of that sample uses word `2t+1`. -/
def lasoSampleSign [Field R] [LinearOrder R] [One T] [Neg T] (G : Gen N K W R) (seed : RNGState N K) (k i t : Int) : T :=
  if 0 ≤ stream G (advance seed (i * ((2 * k + G.len - 1) / G.len))) (2 * t + 1) then 1 else -1

end RB.Spec
