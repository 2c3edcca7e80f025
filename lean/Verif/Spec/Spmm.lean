import Verif.Model.Spmm
import Verif.Spec.SparseData
import Mathlib.Algebra.BigOperators.Ring.Finset
import Mathlib.Algebra.Ring.Defs

/-! # Specification: products of matrices -/

namespace RB.Spec
variable {T : Type}

/-- Entry (i, j) of the product of a matrix with `m` columns and a matrix with `m` rows. -/
def prodEntry [NonUnitalNonAssocSemiring T] (m : Int) (A B : Int → Int → T) (i j : Int) : T := ∑ k ∈ Finset.range m.toNat, A i k * B k j

/-- `op(A)`. -/
def opMat (op : Op) (A : Int → Int → T) : Int → Int → T :=
  match op with
  | .NoTrans => A
  | .Trans => fun i j => A j i

/-- The submatrix that starts at row `ro` and column `co`. -/
def subMat (ro co : Int) (A : Int → Int → T) : Int → Int → T := fun i j => A (ro + i) (co + j)

/-- Numbers of rows and columns of `A` when `op(A)` is m x n. -/
def rowsOf (op : Op) (m n : Int) : Int := match op with | .NoTrans => m | .Trans => n
/-- See `rowsOf`. -/
def colsOf (op : Op) (m n : Int) : Int := match op with | .NoTrans => n | .Trans => m

/-- The entries in the window of `d` rows from `ro` and `m` columns from `co`, with indices relative to the window. -/
def window (ro co d m : Int) (E : List (Entry T)) : List (Entry T) :=
  (E.filter fun e => ro ≤ e.row ∧ e.row < ro + d ∧ co ≤ e.col ∧ e.col < co + m).map
    fun e => { e with row := e.row - ro, col := e.col - co }

/-- The value of `x` after adding `w e` for every entry `e` in row `i`, one after the other, in the order of the list. -/
def acc [Add T] (E : List (Entry T)) (w : Entry T → T) (i : Int) (x : T) : T := E.foldl (fun x e => if e.row = i then x + w e else x) x

/-- The condition under which the CSC-based column kernels work: there is at least one column, and the nonzeros (if any) of a matrix with
two or more columns are not all in its first column. (The kernels compare cumulative counts when they look for a constant number of nonzeros
per column.) -/
def RegularOk (m : Int) (E : List (Entry T)) : Prop := 1 ≤ m ∧ (2 ≤ m → E ≠ [] → ∃ e ∈ E, e.col ≠ 0)

/-- The condition under which the COO kernel works on a window with entries `W` of a matrix with `nnz` entries. Its temporary arrays have `nnz`
elements, those after the entries of the window are zeros. So the kernel also works if it goes astray but finds only zeros: there are
no columns and the array has a second element, or the nonzeros are all in the first column and the arrays are so long that it does not read beyond
them. (In the latter case adding a product with zero must not change a number.) -/
def CooOk [Zero T] [Add T] [Mul T] (nnz m : Int) (W : List (Entry T)) : Prop :=
  RegularOk m W ∨ (m = 0 ∧ 2 ≤ nnz) ∨ (2 ≤ m ∧ m * W.length ≤ nnz ∧ ∀ x s : T, x + 0 * s = x)

/-! The sparse matrix types together. -/

/-- The object stores exactly the entries `E`; if a COO object claims to be sorted, it is. -/
def SpHolds (A : SpMat T) (E : List (Entry T)) : Prop :=
  match A with
  | .coo A => CooIs A E ∧ SortedBy A.sort E
  | .csc A => CscIs A E
  | .csr A => CsrIs A E

/-- Number of rows. -/
def spRows : SpMat T → Int | .coo A => A.nRows | .csc A => A.nRows | .csr A => A.nRows
/-- Number of columns. -/
def spCols : SpMat T → Int | .coo A => A.nCols | .csc A => A.nCols | .csr A => A.nCols
/-- Index base. -/
def spBase : SpMat T → IndexBase | .coo A => A.indexBase | .csc A => A.indexBase | .csr A => A.indexBase

/-- `A'` is `A`, except that the contents of the arrays of a COO object may differ. -/
def SameObject (A A' : SpMat T) : Prop :=
  match A, A' with
  | .coo A, .coo A' => A'.nRows = A.nRows ∧ A'.nCols = A.nCols ∧ A'.nnz = A.nnz ∧ A'.indexBase = A.indexBase ∧ A'.sort = A.sort ∧
      A'.ownMemory = A.ownMemory
  | A, A' => A' = A

/-- The window of `r` rows from `ro` and `c` columns from `co` is acceptable for products: CSC and CSR matrices can only be used as a
whole. (For COO matrices the offsets are not compared with the dimensions of the matrix.) -/
def WindowOk (A : SpMat T) (r c ro co : Int) : Prop :=
  match A with
  | .coo A => r ≤ A.nRows ∧ c ≤ A.nCols
  | .csc A => A.nRows = r ∧ A.nCols = c ∧ ro = 0 ∧ co = 0
  | .csr A => A.nRows = r ∧ A.nCols = c ∧ ro = 0 ∧ co = 0

/-- The entries of `op(A)`. -/
def opEntries (op : Op) (E : List (Entry T)) : List (Entry T) :=
  match op with
  | .NoTrans => E
  | .Trans => E.map Entry.swap

/-- The index and pointer arrays of a compressed object have no elements beyond those the format prescribes. -/
def ExactArrays : SpMat T → Prop
  | .coo _ => True
  | .csc A => (∀ q, A.nnz ≤ q → ptr A.rowidxs q = .none) ∧ ∀ j, A.nCols < j → ptr A.colptr j = .none
  | .csr A => (∀ q, A.nnz ≤ q → ptr A.colidxs q = .none) ∧ ∀ j, A.nRows < j → ptr A.rowptr j = .none

/-- The cases in which the code computes the product of `op(submat(A))` (d x m, with entries `W`) with a dense matrix. A transposed CSC
matrix is treated as a CSR matrix and vice versa. -/
def Supported [Zero T] [Add T] [Mul T] (A : SpMat T) (opA : Op) (layout : Layout) (opB : Op) (d m : Int) (W : List (Entry T)) : Prop :=
  match A, opA with
  | .coo A, _ => CooOk A.nnz m W
  | .csc _, .NoTrans | .csr _, .Trans => if layout = .RowMajor ∧ opB = .NoTrans then d < 2 ^ 31 else RegularOk m W
  | .csr _, .NoTrans | .csc _, .Trans => if layout = .RowMajor ∧ opB = .NoTrans then True else ∀ e ∈ W, e.col < 2 ^ 31

/-- Assumptions about the execution environment: `std::sort` sorts, and the number of OpenMP threads is positive and not absurdly large. -/
structure EnvOk (env : Env T) : Prop where
  srt : SortOk env.srt
  nt : 1 ≤ env.nt ∧ env.nt ≤ 2 ^ 30

end RB.Spec
