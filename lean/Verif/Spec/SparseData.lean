import Verif.Model.SparseData
import Verif.Spec.Coo
import Verif.Spec.Mat
import Mathlib.Data.List.Sort
import Mathlib.Algebra.Order.Group.Unbundled.Abs

/-! # Specification: what the three sparse matrix formats represent -/

namespace RB.Spec
variable {T : Type}

/-- The indices stored by an object in index base `base`: entry numbers start at `base.val`. -/
def rebase (k : Int) (E : List (Entry T)) : List (Entry T) := E.map fun e => { e with row := e.row + k, col := e.col + k }

/-- The COO object stores exactly the entries `E` (zero-based), in that order. -/
structure CooIs (A : CooMat T) (E : List (Entry T)) : Prop where
  nnz : A.nnz = E.length
  data : CooHolds (ptr A.vals) (ptr A.rows) (ptr A.cols) (rebase A.indexBase.val E)

/-- Compressed storage with `n` slices. Entry `e` has slice `major e` and index `minor e` within it; the `ℓ`-th stored value and index belong
to `E[ℓ]`. The pointer array starts at 0, is nondecreasing, ends at the number of entries, and `E[ℓ]` lies in its slice. -/
structure CsIs (major minor : Entry T → Int) (n : Int) (base : Int) (pt idxs : Buf Int) (vals : Buf T) (E : List (Entry T)) : Prop where
  ptrs : ∃ p : Int → Int, (∀ j, 0 ≤ j → j ≤ n → pt j = .val (p j)) ∧ p 0 = 0 ∧ p n = E.length ∧
    (∀ j, 0 ≤ j → j < n → p j ≤ p (j + 1)) ∧
    ∀ (l : Nat) (h : l < E.length), 0 ≤ major E[l] ∧ major E[l] < n ∧ p (major E[l]) ≤ l ∧ l < p (major E[l] + 1)
  data : ∀ (l : Nat) (h : l < E.length), vals l = .val E[l].val ∧ idxs l = .val (minor E[l] + base)

/-- The CSC object stores exactly the entries `E`. -/
structure CscIs (A : CscMat T) (E : List (Entry T)) : Prop where
  nnz : A.nnz = E.length
  data : CsIs Entry.col Entry.row A.nCols A.indexBase.val (ptr A.colptr) (ptr A.rowidxs) (ptr A.vals) E

/-- The CSR object stores exactly the entries `E`. -/
structure CsrIs (A : CsrMat T) (E : List (Entry T)) : Prop where
  nnz : A.nnz = E.length
  data : CsIs Entry.row Entry.col A.nRows A.indexBase.val (ptr A.rowptr) (ptr A.colidxs) (ptr A.vals) E

/-- Order of entries in CSC format: by column, then by row. -/
def cscLe (a b : Entry T) : Prop := a.col < b.col ∨ (a.col = b.col ∧ a.row ≤ b.row)
/-- Order of entries in CSR format: by row, then by column. -/
def csrLe (a b : Entry T) : Prop := a.row < b.row ∨ (a.row = b.row ∧ a.col ≤ b.col)

/-- The entries are in the order a sort flag announces. -/
def SortedBy (s : NonzeroSort) (E : List (Entry T)) : Prop :=
  match s with
  | .CSC => E.Pairwise cscLe
  | .CSR => E.Pairwise csrLe
  | .None => True

/-- `lt` is a strict weak ordering, what `std::sort` requires of its comparison. -/
structure StrictWeak {X : Type} (lt : X → X → Bool) : Prop where
  irrefl : ∀ a, lt a a = false
  trans : ∀ a b c, lt a b = true → lt b c = true → lt a c = true
  incomp : ∀ a b c, lt a b = false → lt b a = false → lt b c = false → lt c b = false → lt a c = false ∧ lt c a = false

/-- What the C++ standard guarantees of `std::sort`: for a strict weak ordering the result is a rearrangement without inversions. Nothing is
said about the order of equivalent elements. -/
def SortOk {X : Type} (srt : (X → X → Bool) → List X → List X) : Prop :=
  ∀ lt l, StrictWeak lt → (srt lt l).Perm l ∧ (srt lt l).Pairwise fun a b => lt b a = false

/-- The entry with row and column exchanged. -/
def Entry.swap (e : Entry T) : Entry T := { row := e.col, col := e.row, val := e.val }

/-! Dense matrices addressed by two strides: entry (i, j) is at position `i * sr + j * sc`. -/

/-- The buffer holds the m x n matrix `F`. -/
def StrHolds (b : Buf T) (sr sc m n : Int) (F : Int → Int → T) : Prop := ∀ i j, InR m n i j → b (i * sr + j * sc) = .val (F i j)
/-- The cells of the m x n matrix are allocated. -/
def StrAlloc (b : Buf T) (sr sc m n : Int) : Prop := ∀ i j, InR m n i j → b (i * sr + j * sc) ≠ .none
/-- `b'` differs from `b` only inside the m x n matrix. -/
def StrSame (b b' : Buf T) (sr sc m n : Int) : Prop := ∀ p, (∀ i j, InR m n i j → p ≠ i * sr + j * sc) → b' p = b p
/-- Different entries of the m x n matrix are at different positions. -/
def StrInj (sr sc m n : Int) : Prop :=
  ∀ i j i' j', InR m n i j → InR m n i' j' → i * sr + j * sc = i' * sr + j' * sc → i = i' ∧ j = j'

/-- `E` consists of exactly the entries of the m x n matrix `F` with absolute value above `tol`, each once. -/
structure Kept [Lattice T] [AddGroup T] (m n : Int) (F : Int → Int → T) (tol : T) (E : List (Entry T)) : Prop where
  mem : ∀ e, e ∈ E ↔ InR m n e.row e.col ∧ e.val = F e.row e.col ∧ tol < |e.val|
  nodup : (E.map Entry.pos).Nodup

/-- The matrix obtained by storing the entries one after the other in a zero matrix (of entries at the same position the last one
stays). -/
def overwrite [Zero T] (E : List (Entry T)) (i j : Int) : T := E.foldl (fun x e => if e.row = i ∧ e.col = j then e.val else x) 0

end RB.Spec
