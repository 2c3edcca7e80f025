import Verif.Model.ExLapack
import Verif.Spec.Lapack

/-! # Specification: singular value decompositions, orthonormal bases, total least squares -/

namespace RB.Spec

variable {T : Type}

/-- The buffer holds the m x n matrix `A` in column-major order with leading dimension `ld`. -/
abbrev HoldsC (b : Buf T) (ld m n : Int) (A : Int → Int → T) : Prop := Holds b .ColMajor ld m n A

/-- `F` is a (thin) singular value decomposition of the m x n matrix `A`: the columns of u and the rows of vt are orthonormal, the singular
values are nonnegative and in nonincreasing order, and `A = u diag(s) vt`. -/
structure SvdIs [NonAssocSemiring T] [LinearOrder T] (m n : Int) (A : Int → Int → T) (F : Svd T) : Prop where
  orthoU : OrthoCols m (min m n) F.u
  orthoV : OrthoCols n (min m n) fun i j => F.vt j i
  nonneg : ∀ l, 0 ≤ l → l < min m n → 0 ≤ F.s l
  sorted : ∀ l, 0 ≤ l → l + 1 < min m n → F.s (l + 1) ≤ F.s l
  prod : ∀ i j, InR m n i j → prodEntry (min m n) (fun i l => F.u i l * F.s l) F.vt i j = A i j

/-- `F` is a singular value decomposition with k singular values of the m x n matrix `A` (which then has rank at most k). -/
structure RankSvdIs [NonAssocSemiring T] [LinearOrder T] (m n k : Int) (A : Int → Int → T) (F : Svd T) : Prop where
  orthoU : OrthoCols m k F.u
  orthoV : OrthoCols n k fun i j => F.vt j i
  nonneg : ∀ l, 0 ≤ l → l < k → 0 ≤ F.s l
  sorted : ∀ l, 0 ≤ l → l + 1 < k → F.s (l + 1) ≤ F.s l
  prod : ∀ i j, InR m n i j → prodEntry k (fun i l => F.u i l * F.s l) F.vt i j = A i j

/-- The routine `svd`, given the entries of the m x n matrix `A`, computes a singular value decomposition of it. -/
def SvdFor [NonAssocSemiring T] [LinearOrder T] (svd : Int → Int → (Int → Int → T) → Svd T) (m n : Int) (A : Int → Int → T) : Prop :=
  ∀ F : Int → Int → T, (∀ i j, InR m n i j → F i j = A i j) → SvdIs m n A (svd m n F)

/-- The squared Frobenius norm of an m x n matrix. -/
def frobSq [NonUnitalNonAssocSemiring T] (m n : Int) (E : Int → Int → T) : T :=
  ∑ i ∈ Finset.range m.toNat, ∑ j ∈ Finset.range n.toNat, E i j * E i j

/-- `AB = [A, b]` is an m x (n+1) matrix. The vector `x` solves the equations `(A + E) x = b + r`, where `[E, r]` is the m x (n+1) matrix `E`. -/
def SolvesPerturbed [NonUnitalNonAssocSemiring T] (m n : Int) (AB E : Int → Int → T) (x : Int → T) : Prop :=
  ∀ i, 0 ≤ i → i < m → ∑ j ∈ Finset.range n.toNat, (AB i j + E i j) * x j = AB i n + E i n

/-- `x` is a solution of the total least squares problem: it solves the equations after a perturbation that is minimal (in Frobenius norm)
among all perturbations for which the equations have a solution. -/
def IsTls [NonUnitalNonAssocSemiring T] [LE T] (m n : Int) (AB : Int → Int → T) (x : Int → T) : Prop :=
  ∃ E, SolvesPerturbed m n AB E x ∧ ∀ E' x', SolvesPerturbed m n AB E' x' → frobSq m (n + 1) E ≤ frobSq m (n + 1) E'

/-- `x` is a solution of the total least squares problem up to the factor `c`: it solves the equations after a perturbation whose squared Frobenius norm is
at most `c` times that of every perturbation for which the equations have a solution. -/
def IsNearTls [NonUnitalNonAssocSemiring T] [LE T] (c : T) (m n : Int) (AB : Int → Int → T) (x : Int → T) : Prop :=
  ∃ E, SolvesPerturbed m n AB E x ∧ ∀ E' x', SolvesPerturbed m n AB E' x' → frobSq m (n + 1) E ≤ c * frobSq m (n + 1) E'

/-- The routine `orth`, given an m x n matrix, computes a matrix Q of the same size with orthonormal columns such that the given matrix is `Q R` for
some R (QR decomposition). -/
def OrthFor [NonAssocSemiring T] (orth : Int → Int → (Int → Int → T) → (Int → Int → T)) (m n : Int) : Prop :=
  ∀ F : Int → Int → T, OrthoCols m n (orth m n F) ∧ ∃ R, ∀ i j, InR m n i j → prodEntry n (orth m n F) R i j = F i j

/-- `(A^T A)^q S` for an m x n matrix `A`. -/
def gramPower [NonUnitalNonAssocSemiring T] (m n : Int) (A : Int → Int → T) (S : Int → Int → T) : Nat → (Int → Int → T)
  | 0 => S
  | q + 1 => prodEntry m (fun i j => A j i) (prodEntry n A (gramPower m n A S q))

end RB.Spec
