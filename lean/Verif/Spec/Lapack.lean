import Verif.Spec.Spmm
import Mathlib.Algebra.Order.Field.Basic
import Mathlib.Algebra.Order.Group.Unbundled.Abs

/-!
# Specification: symmetric positive definite matrices, triangular factors, orthonormal columns

Column-major storage throughout.
-/

namespace RB.Spec

variable {T : Type}

/-- The upper triangle of an n x n matrix `A` is stored with leading dimension `ld`. -/
def HoldsUpper (b : Buf T) (ld n : Int) (A : Int → Int → T) : Prop :=
  ∀ i j, 0 ≤ i → i ≤ j → j < n → b (addr .ColMajor ld i j) = .val (A i j)

/-- Nothing but the upper triangle of the n x n matrix changes. -/
def SameOutsideUpper (b b' : Buf T) (ld n : Int) : Prop :=
  ∀ p, (∀ i j, 0 ≤ i → i ≤ j → j < n → p ≠ addr .ColMajor ld i j) → b' p = b p

/-- The symmetric matrix with the upper triangle of `A`. -/
def symU (A : Int → Int → T) (i j : Int) : T := if i ≤ j then A i j else A j i

/-- The quadratic form `x^T A x` of the symmetric n x n matrix with the upper triangle of `A`. -/
def quadU [NonUnitalNonAssocSemiring T] (n : Int) (A : Int → Int → T) (x : Int → T) : T :=
  ∑ i ∈ Finset.range n.toNat, ∑ j ∈ Finset.range n.toNat, x i * symU A i j * x j

/-- The symmetric n x n matrix with the upper triangle of `A` is positive definite. -/
def PosDefU [NonUnitalNonAssocSemiring T] [LinearOrder T] (n : Int) (A : Int → Int → T) : Prop :=
  ∀ x : Int → T, (∃ i, 0 ≤ i ∧ i < n ∧ x i ≠ 0) → 0 < quadU n A x

/-- `R` is upper triangular with a positive diagonal. -/
def UpperPos [Zero T] [LinearOrder T] (n : Int) (R : Int → Int → T) : Prop :=
  (∀ i j, j < i → R i j = 0) ∧ ∀ i, 0 ≤ i → i < n → 0 < R i i

/-- `std::sqrt` on positive numbers, without rounding. -/
def SqrtOk [Mul T] [Zero T] [LinearOrder T] (sqrt : T → T) : Prop := ∀ x, 0 < x → 0 < sqrt x ∧ sqrt x * sqrt x = x

/-- The columns of the m x n matrix `Q` are orthonormal. -/
def OrthoCols [NonAssocSemiring T] (m n : Int) (Q : Int → Int → T) : Prop :=
  ∀ i j, InR n n i j → prodEntry m (fun r c => Q c r) Q i j = if i = j then 1 else 0

/-- The columns of the m x n matrix `A` are linearly independent. -/
def FullColRank [NonUnitalNonAssocSemiring T] (m n : Int) (A : Int → Int → T) : Prop :=
  ∀ x : Int → T, (∀ i, 0 ≤ i → i < m → ∑ j ∈ Finset.range n.toNat, A i j * x j = 0) → ∀ j, 0 ≤ j → j < n → x j = 0

/-- `lam` is an eigenvalue of the n x n matrix `A`. -/
def IsEigval [NonUnitalNonAssocSemiring T] (n : Int) (A : Int → Int → T) (lam : T) : Prop :=
  ∃ x : Int → T, (∃ i, 0 ≤ i ∧ i < n ∧ x i ≠ 0) ∧ ∀ i, 0 ≤ i → i < n → ∑ j ∈ Finset.range n.toNat, A i j * x j = lam * x i

/-- All Rayleigh quotients of the symmetric n x n matrix with the upper triangle of `A` are at least `c`
(over the real numbers: the smallest eigenvalue is at least `c`). -/
def RayleighGe [NonUnitalNonAssocSemiring T] [LinearOrder T] (n : Int) (A : Int → Int → T) (c : T) : Prop :=
  ∀ x : Int → T, c * ∑ i ∈ Finset.range n.toNat, x i * x i ≤ quadU n A x

/-- All Rayleigh quotients of the symmetric n x n matrix with the upper triangle of `A` are at most `c`. -/
def RayleighLe [NonUnitalNonAssocSemiring T] [LinearOrder T] (n : Int) (A : Int → Int → T) (c : T) : Prop :=
  ∀ x : Int → T, quadU n A x ≤ c * ∑ i ∈ Finset.range n.toNat, x i * x i

/-- The radius of the Gershgorin disc of column `i`: the sum of the absolute values of the other entries. -/
def discRadius [AddCommGroup T] [Lattice T] (n : Int) (G : Int → Int → T) (i : Int) : T :=
  ∑ j ∈ Finset.range n.toNat, if (j : Int) = i then 0 else |G j i|

/-- The product of an n x n matrix and a vector. -/
def mulVec [NonUnitalNonAssocSemiring T] (n : Int) (A : Int → Int → T) (x : Int → T) (i : Int) : T := ∑ j ∈ Finset.range n.toNat, A i j * x j

/-- The inner product of two vectors of length n. -/
def dotV [NonUnitalNonAssocSemiring T] (n : Int) (x y : Int → T) : T := ∑ i ∈ Finset.range n.toNat, x i * y i

/-- `A^k x`. -/
def powVec [NonUnitalNonAssocSemiring T] (n : Int) (A : Int → Int → T) (x : Int → T) : Nat → Int → T
  | 0 => x
  | k + 1 => mulVec n A (powVec n A x k)

/-- The vector of length n stored at the start of a buffer. -/
def HoldsVec (b : Buf T) (n : Int) (x : Int → T) : Prop := ∀ i, 0 ≤ i → i < n → b i = .val (x i)

/-- Nothing changes outside the first n elements. -/
def SameOutsideVec (b b' : Buf T) (n : Int) : Prop := ∀ p, (p < 0 ∨ n ≤ p) → b' p = b p

/-- `fill` fills the first n elements of any buffer that has them with `x`, and nothing else. -/
def Fills (n : Int) (x : Int → T) (fill : M (Buf T) Unit) : Prop :=
  ∀ v : Buf T, (∀ i, 0 ≤ i → i < n → v i ≠ .none) → M.wp fill v (fun _ v' => HoldsVec v' n x ∧ SameOutsideVec v v' n)

end RB.Spec
