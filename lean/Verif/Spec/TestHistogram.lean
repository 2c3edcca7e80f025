import Verif.Model.TestHistogram
import Mathlib.Data.Finset.Prod
import Mathlib.Algebra.BigOperators.Group.Finset.Basic

/-! # What the histogram test is about -/

namespace RB.Spec
variable {N : Nat} {K W R : Type}

/-- The number that the conversion gives for word `j` of block `i + 1` of the generator. -/
def draw (G : Gen N K W R) (f : W → R) (key : K) (i j : Nat) : R := f (G.word ((i + 1 : Nat) : ZMod N) key j)

/-- How many of the numbers of the first 1000 blocks satisfy `P`. -/
def countWhere (G : Gen N K W R) (f : W → R) (key : K) (P : R → Prop) [DecidablePred P] : Nat :=
  ((Finset.range 1000 ×ˢ Finset.range G.len.toNat).filter fun p => P (draw G f key p.1 p.2)).card

/-- The text of a histogram: 26 decimal numbers, each after a space. -/
def histogramText (h : Nat → Nat) : List Char := (List.range 26).flatMap fun b => ' ' :: (toString (h b)).toList

/-- The numbers of bin `b` of 26: those from `b/13 - 1` (included) to `(b+1)/13 - 1` (excluded). -/
def InBin [Field R] [LinearOrder R] (b : Nat) (u : R) : Prop := (b : R) / 13 - 1 ≤ u ∧ u < (b + 1) / 13 - 1

end RB.Spec
