import Verif.Model.ExQrcp
import Verif.Spec.Examples

/-! # Specification: QR decompositions with column pivoting -/

namespace RB.Spec

variable {T : Type}

/-- The order of the columns after k exchanges, if the i-th one exchanges the columns at positions i and p(i): the column at position q was at position
`swapSeq p k q` before. -/
def swapSeq (p : Int → Int) : Nat → (Int → Int)
  | 0 => fun q => q
  | i + 1 => fun q => swapSeq p i (if q = i then p i else if q = p i then i else q)

/-- `F` is a QR decomposition with column pivoting of the m x n matrix `A`: the permutation arises from min(m, n) exchanges of a column with itself or a later
one, the permuted matrix is an orthogonal matrix times the upper triangle R of `F.f`, and in each step the remaining column of largest norm was chosen. -/
structure QrcpIs [Ring T] [LinearOrder T] (m n : Int) (A : Int → Int → T) (F : Qrcp T) : Prop where
  perm : ∃ p : Int → Int, (∀ i, 0 ≤ i → i < min m n → i ≤ p i ∧ p i < n) ∧ ∀ q, 0 ≤ q → q < n → F.piv q = swapSeq p (min m n).toNat q + 1
  factor : ∃ Q, OrthoCols m m Q ∧ ∀ i j, InR m n i j → A i (F.piv j - 1) = prodEntry m Q (fun l j => if l ≤ j then F.f l j else 0) i j
  greedy : ∀ j c, 0 ≤ j → j < m → j ≤ c → c < n →
    ∑ l ∈ Finset.range m.toNat, (if j ≤ (l : Int) ∧ (l : Int) ≤ c then F.f l c ^ 2 else 0) ≤ F.f j j ^ 2

/-- The routine `qrcp`, given the entries of the m x n matrix `A` and no preference for columns, computes a QR decomposition with column pivoting. -/
def QrcpFor [Ring T] [LinearOrder T] (qrcp : Int → Int → (Int → Int) → (Int → Int → T) → Qrcp T) (m n : Int) (A : Int → Int → T) : Prop :=
  ∀ (p : Int → Int) (F : Int → Int → T), (∀ i, 0 ≤ i → i < n → p i = 0) → (∀ i j, InR m n i j → F i j = A i j) → QrcpIs m n A (qrcp m n p F)

end RB.Spec
