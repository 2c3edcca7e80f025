import Verif.Model.ExStab
import Verif.Spec.Examples

/-! # Specification: LU and LQ decompositions, row equivalence -/

namespace RB.Spec

variable {T : Type}

/-- `F` holds the factors of an LU decomposition of the m x n matrix `A` with partial pivoting (m ≤ n): the rows of A, permuted, are a unit lower triangular
matrix with entries of absolute value at most 1 times an upper triangular matrix. -/
structure LuIs [Ring T] [LinearOrder T] (m n : Int) (A : Int → Int → T) (F : Int → Int → T) : Prop where
  factor : ∃ r : Int → Int, (∀ i, 0 ≤ i → i < m → 0 ≤ r i ∧ r i < m) ∧ (∀ i j, 0 ≤ i → i < m → 0 ≤ j → j < m → r i = r j → i = j) ∧
    ∀ i j, InR m n i j → A (r i) j = prodEntry m (fun i l => if l < i then F i l else if l = i then 1 else 0) (fun l j => if l ≤ j then F l j else 0) i j
  pivots : ∀ i j, InR m m i j → j < i → |F i j| ≤ 1

/-- The routine for LU decompositions works for the m x n matrix `A`. -/
def LuFor [Ring T] [LinearOrder T] (L : RowLapack T) (m n : Int) (A : Int → Int → T) : Prop :=
  ∀ F : Int → Int → T, (∀ i j, InR m n i j → F i j = A i j) → LuIs m n A (L.lu m n F).2

/-- The routines for LQ decompositions work for m x n matrices (m ≤ n): `gelqf` finds a lower triangular L and a matrix Q with orthonormal rows such that the given
matrix is L Q, stores L in the lower triangle, and `unglq` obtains Q from what `gelqf` has stored. -/
def LqFor [Semiring T] (L : RowLapack T) (m n : Int) : Prop :=
  ∀ A : Int → Int → T, ∃ Q : Int → Int → T, OrthoCols n m (fun i j => Q j i) ∧
    (∀ i j, InR m n i j → A i j = prodEntry m (fun i l => if l ≤ i then (L.lq m n A).f i l else 0) Q i j) ∧
    ∀ G : Lq T, (∀ i j, InR m n i j → G.f i j = (L.lq m n A).f i j) → (∀ i, 0 ≤ i → i < m → G.tau i = (L.lq m n A).tau i) →
      ∀ i j, InR m n i j → L.unglq m n G i j = Q i j

/-- The rows of the m x n matrices `A` and `X` span the same space. -/
def RowEquiv [NonUnitalNonAssocSemiring T] (m n : Int) (A X : Int → Int → T) : Prop :=
  (∃ P : Int → Int → T, ∀ i j, InR m n i j → A i j = prodEntry m P X i j) ∧ ∃ P : Int → Int → T, ∀ i j, InR m n i j → X i j = prodEntry m P A i j

/-- The chosen stabilisation (not the one by LU) works for k x c matrices: the LAPACK routines work for the sizes that occur, and the sizes are as the functions require. -/
def StabOk {N : Nat} {K W WS R : Type} [Semiring T] [LT T] (P : PowEnv N K W WS R T) (k c : Int) : Prop :=
  match P.sm with
  | .LU => False
  | .LQ => LqFor P.L k c ∧ k < c
  | .sketch => LqFor P.L k ((5 * k + 4) / 4) ∧ LqFor P.L k c ∧ k < c ∧ ((5 * k + 4) / 4 < c ∨ 3 ≤ k) ∧ k < 2147483648 ∧ c < 2 ^ 60 ∧ 0 < P.tolSk
  | .none => True

/-- `S (A A^T)^q` for a k x m matrix `S` and an m x n matrix `A`. -/
def gramPowerR [NonUnitalNonAssocSemiring T] (m n : Int) (A : Int → Int → T) (S : Int → Int → T) : Nat → (Int → Int → T)
  | 0 => S
  | q + 1 => prodEntry n (prodEntry m (gramPowerR m n A S q) A) (fun i j => A j i)

end RB.Spec
