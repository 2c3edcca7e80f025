import Verif.Spec.Mat
import Mathlib.Algebra.Order.Field.Basic
import Mathlib.Algebra.BigOperators.Group.Finset.Basic

/-! # Specification: singular values of a scaled matrix -/

namespace RB.Spec
variable {T : Type} [Field T] [LinearOrder T]

/-- The squared norm of `S x` divided by the number `d` of rows. -/
def meanSq (d n : Int) (S : Int → Int → T) (x : Int → T) : T :=
  (∑ i ∈ Finset.range d.toNat, (∑ j ∈ Finset.range n.toNat, S i j * x j) ^ 2) / d

/-- All singular values of `S / sqrt(d)` (d x n) are between `lo` and `hi`. -/
def SingularWithin (lo hi : T) (d n : Int) (S : Int → Int → T) : Prop :=
  ∀ x : Int → T, lo ^ 2 * ∑ j ∈ Finset.range n.toNat, x j ^ 2 ≤ meanSq d n S x ∧ meanSq d n S x ≤ hi ^ 2 * ∑ j ∈ Finset.range n.toNat, x j ^ 2

/-- `u` is a right singular vector of `S / sqrt(d)`: an eigenvector of `S^T S / d`, with the eigenvalue `lam`. -/
def IsSingularPair (d n : Int) (S : Int → Int → T) (lam : T) (u : Int → T) : Prop :=
  (∃ j, 0 ≤ j ∧ j < n ∧ u j ≠ 0) ∧
  ∀ j, 0 ≤ j → j < n → (∑ k ∈ Finset.range n.toNat, (∑ i ∈ Finset.range d.toNat, S i j * S i k) * u k) / d = lam * u j

/-- The squared cosine of the angle between `x` and `u` is at least `c`. -/
def Cos2Ge (c : T) (n : Int) (x u : Int → T) : Prop :=
  c * ((∑ j ∈ Finset.range n.toNat, x j ^ 2) * ∑ j ∈ Finset.range n.toNat, u j ^ 2) ≤ (∑ j ∈ Finset.range n.toNat, x j * u j) ^ 2

end RB.Spec
