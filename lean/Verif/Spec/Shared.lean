import Verif.Model.Shared
import Verif.Spec.Spmm

/-! # Specification: stores into shared objects and data races -/

namespace RB.Spec
variable {N : Nat} {K T : Type}

/-- The call, started in state `s`, stores nothing to the shared object, however it ends. -/
def NoStores {σ α : Type} (m : M (σ × List Loc) α) (s : σ) : Prop := ∀ l, (m (s, l)).2.2 = l

/-- The call, started in state `s`, stores to location `p` of the shared object (it may end in any way after that). -/
def StoresTo {σ α : Type} (m : M (σ × List Loc) α) (s : σ) (p : Loc) : Prop := p ∈ (m (s, [])).2.2

/-- The array as another thread may see it: elements that were stored to without synchronisation have no determined value, and loading
one of them is undefined behaviour (it is a data race). -/
def racedBuf {X : Type} (b : Buf X) (written : Int → Prop) [DecidablePred written] : Buf X := fun i => if written i then .uninit else b i

/-- The COO matrix as a thread may see it while the locations `l` are stored to in another thread. -/
def racedCoo (l : List Loc) (A : CooMat T) : CooMat T :=
  { A with
    vals := A.vals.map fun b => racedBuf b fun i => Loc.vals i ∈ l
    rows := A.rows.map fun b => racedBuf b fun i => Loc.rows i ∈ l
    cols := A.cols.map fun b => racedBuf b fun i => Loc.cols i ∈ l }

/-- The sparse operator as a thread may see it while the locations `l` are stored to in another thread. -/
def racedOp (l : List Loc) (S : SparseSkOp N K T) : SparseSkOp N K T :=
  { S with
    vals := S.vals.map fun b => racedBuf b fun i => Loc.vals i ∈ l
    rows := S.rows.map fun b => racedBuf b fun i => Loc.rows i ∈ l
    cols := S.cols.map fun b => racedBuf b fun i => Loc.cols i ∈ l }

/-- The matrix need not be sorted for a product with `op(A)`: it is in a compressed format, or its `sort` member has the value that the
COO product needs. -/
def ReadySorted (A : SpMat T) (op : Op) : Prop :=
  match A with
  | .coo A => A.sort = match op with | .NoTrans => .CSC | .Trans => .CSR
  | _ => True

/-- The entries are in column-major order (for `op(A) = A`) or row-major order (for the transpose). -/
def InOrder (op : Op) (E : List (Entry T)) : Prop :=
  match op with
  | .NoTrans => E.Pairwise cscLe
  | .Trans => E.Pairwise csrLe

/-- The entries of a sparse operator are in the order that a sketch with `op(S)` from the left recognises: column-major for `op(S) = S`.
For the transpose the order is row-major, but entries that are in both orders are taken for column-major ones. -/
def SketchSorted (op : Op) (L : List (Entry T)) : Prop :=
  match op with
  | .NoTrans => L.Pairwise cscLe
  | .Trans => L.Pairwise csrLe ∧ ¬ L.Pairwise cscLe

end RB.Spec
