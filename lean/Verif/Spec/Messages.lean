import Verif.Model.Messages
import Verif.Spec.Mat

/-! # Specification of error messages -/

namespace RB.Spec
variable {T : Type}

/-- The pair (i, j), `i < j`, is the first pair of an n x n matrix, row by row, that violates the symmetry check. -/
def FirstViolation [Field T] [LinearOrder T] (n : Int) (A : Int → Int → T) (tol : T) (i j : Int) : Prop :=
  let bad := fun i j => (|A i j| + |A j i| + 1) * tol < |A i j - A j i|
  0 ≤ i ∧ i < j ∧ j < n ∧ bad i j ∧ ∀ k l, 0 ≤ k → k < l → l < n → (k < i ∨ k = i ∧ l < j) → ¬ bad k l

/-- The text a user expects for the pair (i, j). -/
def symmetryText (i j : Int) (viol tol : List Char) : List Char :=
  "Symmetry check failed. |A(".toList ++ decimal i ++ ",".toList ++ decimal j ++ ") - A(".toList ++ decimal j ++ ",".toList ++ decimal i ++ ")| was ".toList ++ viol ++
    ", which exceeds tolerance of ".toList ++ tol ++ ".".toList

end RB.Spec
