import Verif.Model.SparseSkops
import Verif.Model.Util

/-!
# Model of RandBLAS/sparse_data/{base,coo_matrix,csc_matrix,csr_matrix,conversions}.hh

The loops of the CSC and CSR variants are the same up to exchanging rows and columns; they share helper definitions, whose comments cite
both places. Index types are unbounded unless stated. The arrays of a matrix are distinct objects.
-/

namespace RB
variable {T : Type}

/-- `IndexBase` (RandBLAS/sparse_data/base.hh:39-46). -/
inductive IndexBase where | Zero | One
  deriving DecidableEq, Repr

/-- `NonzeroSort` (RandBLAS/sparse_data/coo_matrix.hh:46-58). -/
inductive NonzeroSort where | CSC | CSR | None
  deriving DecidableEq, Repr

/-- The memory behind a pointer: nothing can be accessed through a null pointer. Used to model RandBLAS/sparse_data/coo_matrix.hh:218-236. -/
def ptr {X : Type} (p : Option (Buf X)) : Buf X := p.getD (fun _ => .none)

/-- `COOMatrix` (RandBLAS/sparse_data/coo_matrix.hh:123-258). -/
structure CooMat (T : Type) where
  nRows : Int
  nCols : Int
  ownMemory : Bool
  nnz : Int
  indexBase : IndexBase
  vals : Option (Buf T)
  rows : Option (Buf Int)
  cols : Option (Buf Int)
  sort : NonzeroSort

/-- `CSCMatrix` (RandBLAS/sparse_data/csc_matrix.hh:54-166). -/
structure CscMat (T : Type) where
  nRows : Int
  nCols : Int
  ownMemory : Bool
  nnz : Int
  indexBase : IndexBase
  vals : Option (Buf T)
  rowidxs : Option (Buf Int)
  colptr : Option (Buf Int)

/-- `CSRMatrix` (RandBLAS/sparse_data/csr_matrix.hh:54-172). -/
structure CsrMat (T : Type) where
  nRows : Int
  nCols : Int
  ownMemory : Bool
  nnz : Int
  indexBase : IndexBase
  vals : Option (Buf T)
  rowptr : Option (Buf Int)
  colidxs : Option (Buf Int)

/-- The standard constructor of `COOMatrix` (RandBLAS/sparse_data/coo_matrix.hh:206-210). -/
def mkCoo (nRows nCols : Int) : CooMat T := ⟨nRows, nCols, true, 0, .Zero, none, none, none, .None⟩
/-- The standard constructor of `CSCMatrix` (RandBLAS/sparse_data/csc_matrix.hh:128-132). -/
def mkCsc (nRows nCols : Int) : CscMat T := ⟨nRows, nCols, true, 0, .Zero, none, none, none⟩
/-- The standard constructor of `CSRMatrix` (RandBLAS/sparse_data/csr_matrix.hh:131-135). -/
def mkCsr (nRows nCols : Int) : CsrMat T := ⟨nRows, nCols, true, 0, .Zero, none, none, none⟩
/-- The expert constructor of `CSCMatrix` (RandBLAS/sparse_data/csc_matrix.hh:138-147). -/
def mkCscExpert (nRows nCols nnz : Int) (vals : Option (Buf T)) (rowidxs colptr : Option (Buf Int)) (base : IndexBase) : CscMat T :=
  ⟨nRows, nCols, false, nnz, base, vals, rowidxs, colptr⟩
/-- The expert constructor of `CSRMatrix` (RandBLAS/sparse_data/csr_matrix.hh:141-150). -/
def mkCsrExpert (nRows nCols nnz : Int) (vals : Option (Buf T)) (rowptr colidxs : Option (Buf Int)) (base : IndexBase) : CsrMat T :=
  ⟨nRows, nCols, false, nnz, base, vals, rowptr, colidxs⟩

/-! ## Sort order of coordinate data -/

/-- `increasing_by_csr` (RandBLAS/sparse_data/coo_matrix.hh:60-69). -/
def increasingByCsr (i0 j0 i1 j1 : Int) : Bool := if i0 > i1 then false else if i0 = i1 then decide (j0 ≤ j1) else true
/-- `increasing_by_csc` (RandBLAS/sparse_data/coo_matrix.hh:71-80). -/
def increasingByCsc (i0 j0 i1 j1 : Int) : Bool := if j0 > j1 then false else if j0 = j1 then decide (i0 ≤ i1) else true

/-- `coo_sort_type` (RandBLAS/sparse_data/coo_matrix.hh:82-108). The loop-carried flags are (csc_okay, csr_okay); after the `break` nothing
is read any more. -/
def cooSortType (nnz : Int) (rows cols : Buf Int) : Res NonzeroSort := do
  let (csc, csr) ← foldI 1 nnz (fun ell (st : Bool × Bool) =>
    if st.1 = false ∧ st.2 = false then pure st
    else do
      let i0 ← rows.rd (ell - 1)
      let j0 ← cols.rd (ell - 1)
      let i1 ← rows.rd ell
      let j1 ← cols.rd ell
      pure (if st.1 then increasingByCsc i0 j0 i1 j1 else st.1, if st.2 then increasingByCsr i0 j0 i1 j1 else st.2)) (true, true)
  pure (if csc then .CSC else if csr then .CSR else .None)

/-- The expert constructor of `COOMatrix` (RandBLAS/sparse_data/coo_matrix.hh:218-236). -/
def mkCooExpert (nRows nCols nnz : Int) (vals : Option (Buf T)) (rows cols : Option (Buf Int)) (computeSortType : Bool) (base : IndexBase) :
    Res (CooMat T) := do
  let s ← if computeSortType then cooSortType nnz (ptr rows) (ptr cols) else pure .None
  pure ⟨nRows, nCols, false, nnz, base, vals, rows, cols, s⟩

/-- `new X[n]{0}`. Used to model RandBLAS/sparse_data/csc_matrix.hh:193-207. -/
def newZero {σ X : Type} [Zero X] (n : Int) : M σ (Option (Buf X)) := if n < 0 then M.throw .runtime else pure (some (Buf.fill n 0))

/-- `reserve_coo` (RandBLAS/sparse_data/coo_matrix.hh:277-290). -/
def reserveCoo (nnz : Int) : M (CooMat T) Unit := do
  let A ← M.get
  M.require (A.ownMemory = true)
  M.require (A.vals.isNone)
  M.require (A.rows.isNone)
  M.require (A.cols.isNone)
  M.modify fun A => { A with nnz := nnz }
  M.when (nnz > 0) (M.modify fun A =>
    { A with vals := some (Buf.alloc T nnz), rows := some (Buf.alloc Int nnz), cols := some (Buf.alloc Int nnz) })

/-- `reserve_csc` (RandBLAS/sparse_data/csc_matrix.hh:193-207). -/
def reserveCsc [Zero T] (nnz : Int) : M (CscMat T) Unit := do
  let A ← M.get
  M.require (A.ownMemory = true)
  M.require (A.rowidxs.isNone)
  M.require (A.vals.isNone)
  M.when (A.colptr.isNone) (do
    let p ← newZero (A.nCols + 1)
    M.modify fun A => { A with colptr := p })
  M.modify fun A => { A with nnz := nnz }
  M.when (nnz > 0) (M.modify fun A => { A with rowidxs := some (Buf.fill nnz 0), vals := some (Buf.fill nnz 0) })

/-- `reserve_csr` (RandBLAS/sparse_data/csr_matrix.hh:200-213). -/
def reserveCsr [Zero T] (nnz : Int) : M (CsrMat T) Unit := do
  let A ← M.get
  M.require (A.ownMemory = true)
  M.require (A.colidxs.isNone)
  M.require (A.vals.isNone)
  M.when (A.rowptr.isNone) (do
    let p ← newZero (A.nRows + 1)
    M.modify fun A => { A with rowptr := p })
  M.modify fun A => { A with nnz := nnz }
  M.when (nnz > 0) (M.modify fun A => { A with colidxs := some (Buf.fill nnz 0), vals := some (Buf.fill nnz 0) })

/-! ## Sorting -/

/-- The comparison `sort_func` (RandBLAS/sparse_data/coo_matrix.hh:311-333) on (row, col, val) triples. -/
def sortLt (s : NonzeroSort) (t1 t2 : Int × Int × T) : Bool :=
  if s = .CSR then
    if t1.1 < t2.1 then true else if t1.1 > t2.1 then false else if t1.2.1 < t2.2.1 then true else false
  else
    if t1.2.1 < t2.2.1 then true else if t1.2.1 > t2.2.1 then false else if t1.1 < t2.1 then true else false

/-- Access to `vals`. Used to model RandBLAS/sparse_data/coo_matrix.hh:299-343. -/
def onCVals {α : Type} (m : M (Buf T) α) : M (CooBufs T) α := M.zoom CooBufs.vals (fun s b => { s with vals := b }) m
/-- Access to `rows`. Used to model RandBLAS/sparse_data/coo_matrix.hh:299-343. -/
def onCRows {α : Type} (m : M (Buf Int) α) : M (CooBufs T) α := M.zoom CooBufs.rows (fun s b => { s with rows := b }) m
/-- Access to `cols`. Used to model RandBLAS/sparse_data/coo_matrix.hh:299-343. -/
def onCCols {α : Type} (m : M (Buf Int) α) : M (CooBufs T) α := M.zoom CooBufs.cols (fun s b => { s with cols := b }) m

/-- The part of `sort_coo_data` after the early returns (RandBLAS/sparse_data/coo_matrix.hh:299-343). `srt lt l` is the result of
`std::sort` (external): some rearrangement of `l`, see `Spec.SortOk`. -/
def sortCooWork (srt : (Int × Int × T → Int × Int × T → Bool) → List (Int × Int × T) → List (Int × Int × T)) (s : NonzeroSort) (nnz : Int) :
    M (CooBufs T) Unit := do
  M.when (nnz < 0) (M.throw .runtime)  -- std::vector::reserve
  let nonzeros ← foldI 0 nnz (fun ell (l : List (Int × Int × T)) => do
    let r ← onCRows (M.rd ell)
    let c ← onCCols (M.rd ell)
    let v ← onCVals (M.rd ell)
    pure (l ++ [(r, c, v)])) []
  forI 0 nnz fun ell => do
    let t ← M.lift ((Buf.ofList (srt (sortLt s) nonzeros)).rd ell)
    onCVals (M.wr ell t.2.2)
    onCRows (M.wr ell t.1)
    onCCols (M.wr ell t.2.1)

/-- `sort_coo_data(s, nnz, vals, rows, cols)` (RandBLAS/sparse_data/coo_matrix.hh:292-343). -/
def sortCooRaw (srt : (Int × Int × T → Int × Int × T → Bool) → List (Int × Int × T) → List (Int × Int × T)) (s : NonzeroSort) (nnz : Int) :
    M (CooBufs T) Unit :=
  if s = .None then pure ()
  else do
    let b ← M.get
    let curr ← M.lift (cooSortType nnz b.rows b.cols)
    M.when (curr ≠ s) (sortCooWork srt s nnz)

/-- The arrays of a COO matrix. Used to model RandBLAS/sparse_data/coo_matrix.hh:345-350. -/
def CooMat.bufs (A : CooMat T) : CooBufs T := { vals := ptr A.vals, rows := ptr A.rows, cols := ptr A.cols }
/-- The matrix with new contents of its arrays (null pointers stay null). Used to model RandBLAS/sparse_data/coo_matrix.hh:345-350. -/
def CooMat.withBufs (A : CooMat T) (b : CooBufs T) : CooMat T :=
  { A with vals := A.vals.map fun _ => b.vals, rows := A.rows.map fun _ => b.rows, cols := A.cols.map fun _ => b.cols }

/-- `sort_coo_data(s, spmat)` (RandBLAS/sparse_data/coo_matrix.hh:345-350). -/
def sortCooData (srt : (Int × Int × T → Int × Int × T → Bool) → List (Int × Int × T) → List (Int × Int × T)) (s : NonzeroSort) :
    M (CooMat T) Unit := do
  let A ← M.get
  M.zoom CooMat.bufs CooMat.withBufs (sortCooRaw srt s A.nnz)
  M.modify fun A => { A with sort := s }

/-! ## Conversions between sparse formats -/

/-- The arrays of a compressed matrix: `colptr`/`rowptr`, `rowidxs`/`colidxs`, `vals`. Used to model RandBLAS/sparse_data/conversions.hh:54-58. -/
structure CsBufs (T : Type) where
  ptr : Buf Int
  idxs : Buf Int
  vals : Buf T

/-- Access to the pointer array. Used to model RandBLAS/sparse_data/conversions.hh:51-60. -/
def onPtr {α : Type} (m : M (Buf Int) α) : M (CsBufs T) α := M.zoom CsBufs.ptr (fun s b => { s with ptr := b }) m
/-- Access to the index array. Used to model RandBLAS/sparse_data/conversions.hh:54-58. -/
def onIdxs {α : Type} (m : M (Buf Int) α) : M (CsBufs T) α := M.zoom CsBufs.idxs (fun s b => { s with idxs := b }) m
/-- Access to `vals`. Used to model RandBLAS/sparse_data/conversions.hh:54-58. -/
def onCsVals {α : Type} (m : M (Buf T) α) : M (CsBufs T) α := M.zoom CsBufs.vals (fun s b => { s with vals := b }) m

/-- The arrays of a CSC matrix. Used to model RandBLAS/sparse_data/csc_matrix.hh:245-268. -/
def CscMat.bufs (A : CscMat T) : CsBufs T := { ptr := RB.ptr A.colptr, idxs := RB.ptr A.rowidxs, vals := RB.ptr A.vals }
/-- The matrix with new contents of its arrays. Used to model RandBLAS/sparse_data/csc_matrix.hh:245-268. -/
def CscMat.withBufs (A : CscMat T) (b : CsBufs T) : CscMat T :=
  { A with vals := A.vals.map fun _ => b.vals, rowidxs := A.rowidxs.map fun _ => b.idxs, colptr := A.colptr.map fun _ => b.ptr }
/-- The arrays of a CSR matrix. Used to model RandBLAS/sparse_data/conversions.hh:125-142. -/
def CsrMat.bufs (A : CsrMat T) : CsBufs T := { ptr := RB.ptr A.rowptr, idxs := RB.ptr A.colidxs, vals := RB.ptr A.vals }
/-- The matrix with new contents of its arrays. Used to model RandBLAS/sparse_data/conversions.hh:125-142. -/
def CsrMat.withBufs (A : CsrMat T) (b : CsBufs T) : CsrMat T :=
  { A with vals := A.vals.map fun _ => b.vals, colidxs := A.colidxs.map fun _ => b.idxs, rowptr := A.rowptr.map fun _ => b.ptr }

/-- `while (ell < nnz && major[ell] == j) { idxs[ell] = minor[ell]; vals[ell] = cvals[ell]; ++ell; }`
(RandBLAS/sparse_data/conversions.hh:54-58, 95-99), with `fuel = nnz - ell`. -/
def compressWhile (nnz : Int) (major minor : Buf Int) (cvals : Buf T) (j : Int) (fuel : Nat) (ell : Int) : M (CsBufs T) Int :=
  match fuel with
  | 0 => pure ell
  | fuel + 1 => do
    let c ← M.lift (major.rd ell)
    if c = j then do
      let i ← M.lift (minor.rd ell)
      onIdxs (M.wr ell i)
      let v ← M.lift (cvals.rd ell)
      onCsVals (M.wr ell v)
      compressWhile nnz major minor cvals j fuel (ell + 1)
    else pure ell

/-- The sweep over sorted coordinate data (RandBLAS/sparse_data/conversions.hh:51-60, 92-101). -/
def compressSweep (nMajor nnz : Int) (major minor : Buf Int) (cvals : Buf T) : M (CsBufs T) Unit := do
  onPtr (M.wr 0 0)
  let _ ← foldI 0 nMajor (fun j ell => do
    let ell ← compressWhile nnz major minor cvals j (nnz - ell).toNat ell
    onPtr (M.wr (j + 1) ell)
    pure ell) 0

/-- `coo_to_csc` (RandBLAS/sparse_data/conversions.hh:42-62). The second check compares `csc.n_cols` with itself, as in the code. -/
def cooToCsc [Zero T] (srt : (Int × Int × T → Int × Int × T → Bool) → List (Int × Int × T) → List (Int × Int × T)) :
    M (CooMat T × CscMat T) Unit := do
  let s ← M.get
  M.require (s.2.nRows = s.1.nRows)
  M.require (s.2.nCols = s.2.nCols)
  M.require (s.2.indexBase = .Zero)
  M.require (s.1.indexBase = .Zero)
  M.zoom Prod.fst (fun s c => (c, s.2)) (sortCooData srt .CSC)
  M.zoom Prod.snd (fun s c => (s.1, c)) (reserveCsc s.1.nnz)
  let s ← M.get
  M.zoom (fun s => s.2.bufs) (fun s b => (s.1, s.2.withBufs b))
    (compressSweep s.1.nCols s.1.nnz (ptr s.1.cols) (ptr s.1.rows) (ptr s.1.vals))

/-- `coo_to_csr` (RandBLAS/sparse_data/conversions.hh:84-103). -/
def cooToCsr [Zero T] (srt : (Int × Int × T → Int × Int × T → Bool) → List (Int × Int × T) → List (Int × Int × T)) :
    M (CooMat T × CsrMat T) Unit := do
  let s ← M.get
  M.require (s.2.nRows = s.1.nRows)
  M.require (s.2.nCols = s.1.nCols)
  M.require (s.2.indexBase = .Zero)
  M.require (s.1.indexBase = .Zero)
  M.zoom Prod.fst (fun s c => (c, s.2)) (sortCooData srt .CSR)
  M.zoom Prod.snd (fun s c => (s.1, c)) (reserveCsr s.1.nnz)
  let s ← M.get
  M.zoom (fun s => s.2.bufs) (fun s b => (s.1, s.2.withBufs b))
    (compressSweep s.1.nRows s.1.nnz (ptr s.1.rows) (ptr s.1.cols) (ptr s.1.vals))

/-- The sweep of `csc_to_coo` (RandBLAS/sparse_data/conversions.hh:71-79): the loop variable `i`, a position in the arrays, is stored as
the row index, as in the code. -/
def cscToCooSweep (nCols : Int) (colptr : Buf Int) (vals : Buf T) : M (CooBufs T) Unit := do
  let _ ← foldI 0 nCols (fun j ell => do
    let lo ← M.lift (colptr.rd j)
    let hi ← M.lift (colptr.rd (j + 1))
    foldI lo hi (fun i ell => do
      let v ← M.lift (vals.rd ell)
      onCVals (M.wr ell v)
      onCRows (M.wr ell i)
      onCCols (M.wr ell j)
      pure (ell + 1)) ell) 0

/-- `csc_to_coo` (RandBLAS/sparse_data/conversions.hh:64-82). `csc` is only read. -/
def cscToCoo (csc : CscMat T) : M (CooMat T) Unit := do
  let coo ← M.get
  M.require (csc.nRows = coo.nRows)
  M.require (csc.nCols = coo.nCols)
  M.require (csc.indexBase = .Zero)
  M.require (coo.indexBase = .Zero)
  reserveCoo csc.nnz
  M.zoom CooMat.bufs CooMat.withBufs (cscToCooSweep csc.nCols (ptr csc.colptr) (ptr csc.vals))
  M.modify fun A => { A with sort := .CSC }

/-- The sweep of `csr_to_coo` (RandBLAS/sparse_data/conversions.hh:112-120): the position `j` is stored as the column index, as in the
code. -/
def csrToCooSweep (nRows : Int) (rowptr : Buf Int) (vals : Buf T) : M (CooBufs T) Unit := do
  let _ ← foldI 0 nRows (fun i ell => do
    let lo ← M.lift (rowptr.rd i)
    let hi ← M.lift (rowptr.rd (i + 1))
    foldI lo hi (fun j ell => do
      let v ← M.lift (vals.rd ell)
      onCVals (M.wr ell v)
      onCRows (M.wr ell i)
      onCCols (M.wr ell j)
      pure (ell + 1)) ell) 0

/-- `csr_to_coo` (RandBLAS/sparse_data/conversions.hh:105-123). -/
def csrToCoo (csr : CsrMat T) : M (CooMat T) Unit := do
  let coo ← M.get
  M.require (csr.nRows = coo.nRows)
  M.require (csr.nCols = coo.nCols)
  M.require (csr.indexBase = .Zero)
  M.require (coo.indexBase = .Zero)
  reserveCoo csr.nnz
  M.zoom CooMat.bufs CooMat.withBufs (csrToCooSweep csr.nRows (ptr csr.rowptr) (ptr csr.vals))
  M.modify fun A => { A with sort := .CSR }

/-! ## Transposes -/

/-- `coo::transpose` (RandBLAS/sparse_data/coo_matrix.hh:363-372). -/
def cooTranspose (S : CooMat T) : Res (CooMat T) := do
  let St ← mkCooExpert S.nCols S.nRows S.nnz S.vals S.cols S.rows false S.indexBase
  pure (if S.sort = .CSC then { St with sort := .CSR } else if S.sort = .CSR then { St with sort := .CSC } else St)

/-- The copy loops of `transpose_as_csr` and `transpose_as_csc` with `share_memory == false`
(RandBLAS/sparse_data/conversions.hh:134-139, 153-158). -/
def copyCompressed (nnz nPtr : Int) (idxs : Buf Int) (vals : Buf T) (pt : Buf Int) : M (CsBufs T) Unit := do
  forI 0 nnz (fun i => do
    let x ← M.lift (idxs.rd i)
    onIdxs (M.wr i x)
    let v ← M.lift (vals.rd i)
    onCsVals (M.wr i v))
  forI 0 nPtr (fun i => do
    let x ← M.lift (pt.rd i)
    onPtr (M.wr i x))

/-- `transpose_as_csr` (RandBLAS/sparse_data/conversions.hh:125-142). -/
def transposeAsCsr [Zero T] (A : CscMat T) (share : Bool) : Res (CsrMat T) :=
  if share then .ok (mkCsrExpert A.nCols A.nRows A.nnz A.vals A.colptr A.rowidxs A.indexBase)
  else
    (M.bind (reserveCsr A.nnz) (fun _ => M.zoom CsrMat.bufs CsrMat.withBufs
      (copyCompressed A.nnz (A.nCols + 1) (ptr A.rowidxs) (ptr A.vals) (ptr A.colptr)))
      { (mkCsr A.nCols A.nRows : CsrMat T) with indexBase := A.indexBase }) |> fun r =>
    match r with
    | (.ok _, At) => .ok At
    | (.throw e, _) => .throw e
    | (.ub, _) => .ub

/-- `transpose_as_csc` (RandBLAS/sparse_data/conversions.hh:144-161). -/
def transposeAsCsc [Zero T] (A : CsrMat T) (share : Bool) : Res (CscMat T) :=
  if share then .ok (mkCscExpert A.nCols A.nRows A.nnz A.vals A.colidxs A.rowptr A.indexBase)
  else
    (M.bind (reserveCsc A.nnz) (fun _ => M.zoom CscMat.bufs CscMat.withBufs
      (copyCompressed A.nnz (A.nRows + 1) (ptr A.colidxs) (ptr A.vals) (ptr A.rowptr)))
      { (mkCsc A.nCols A.nRows : CscMat T) with indexBase := A.indexBase }) |> fun r =>
    match r with
    | (.ok _, At) => .ok At
    | (.throw e, _) => .throw e
    | (.ub, _) => .ub

/-! ## Index bases -/

/-- `for (ell = 0; ell < nnz; ++ell) x[ell] += by;`. Used to model RandBLAS/sparse_data/conversions.hh:173-186. -/
def shiftIdxs (nnz by' : Int) : M (Buf Int) Unit := forI 0 nnz fun ell => do
  let x ← M.rd ell
  M.wr ell (x + by')

/-- The shift applied by `reindex_inplace` when the base changes from `base`. Used to model RandBLAS/sparse_data/conversions.hh:173-186. -/
def reindexShift (base : IndexBase) : Int := if base = .One then -1 else 1

/-- `reindex_inplace(CSCMatrix)` (RandBLAS/sparse_data/conversions.hh:173-186). -/
def reindexCsc (desired : IndexBase) : M (CscMat T) Unit := do
  let A ← M.get
  M.when (A.indexBase ≠ desired) (do
    M.zoom (fun A : CscMat T => ptr A.rowidxs) (fun A b => { A with rowidxs := A.rowidxs.map fun _ => b })
      (shiftIdxs A.nnz (reindexShift A.indexBase))
    M.modify fun A => { A with indexBase := desired })

/-- `reindex_inplace(CSRMatrix)` (RandBLAS/sparse_data/conversions.hh:188-201). -/
def reindexCsr (desired : IndexBase) : M (CsrMat T) Unit := do
  let A ← M.get
  M.when (A.indexBase ≠ desired) (do
    M.zoom (fun A : CsrMat T => ptr A.colidxs) (fun A b => { A with colidxs := A.colidxs.map fun _ => b })
      (shiftIdxs A.nnz (reindexShift A.indexBase))
    M.modify fun A => { A with indexBase := desired })

/-- `reindex_inplace(COOMatrix)` (RandBLAS/sparse_data/conversions.hh:203-220). -/
def reindexCoo (desired : IndexBase) : M (CooMat T) Unit := do
  let A ← M.get
  M.when (A.indexBase ≠ desired) (do
    M.zoom CooMat.bufs CooMat.withBufs (forI 0 A.nnz fun ell => do
      let r ← onCRows (M.rd ell)
      onCRows (M.wr ell (r + reindexShift A.indexBase))
      let c ← onCCols (M.rd ell)
      onCCols (M.wr ell (c + reindexShift A.indexBase)))
    M.modify fun A => { A with indexBase := desired })

/-! ## Dense matrices -/

/-- `nnz_in_dense` (RandBLAS/sparse_data/base.hh:48-66). -/
def nnzInDense [Field T] [LinearOrder T] (nRows nCols sr sc : Int) (mat : Buf T) (absTol : T) : Res Int :=
  foldI 0 nRows (fun i nnz => foldI 0 nCols (fun j nnz => do
    let v ← mat.rd (i * sr + j * sc)
    pure (if |v| > absTol then nnz + 1 else nnz)) nnz) 0

/-- The body of the inner loop of `dense_to_coo` (RandBLAS/sparse_data/coo_matrix.hh:383-390). -/
def denseToCooStep [Field T] [LinearOrder T] (sr sc : Int) (mat : Buf T) (absTol : T) (i j nnz : Int) : M (CooBufs T) Int := do
  let v ← M.lift (mat.rd (i * sr + j * sc))
  if |v| > absTol then do
    onCVals (M.wr nnz v)
    onCRows (M.wr nnz i)
    onCCols (M.wr nnz j)
    pure (nnz + 1)
  else pure nnz

/-- `dense_to_coo(stride_row, stride_col, ...)` (RandBLAS/sparse_data/coo_matrix.hh:374-394). -/
def denseToCooStr [Field T] [LinearOrder T] (sr sc : Int) (mat : Buf T) (absTol : T) : M (CooMat T) Unit := do
  let A ← M.get
  let nnz ← M.lift (nnzInDense A.nRows A.nCols sr sc mat absTol)
  reserveCoo nnz
  M.zoom CooMat.bufs CooMat.withBufs (do
    let _ ← foldI 0 A.nRows (fun i nnz => foldI 0 A.nCols (fun j nnz => denseToCooStep sr sc mat absTol i j nnz) nnz) 0)

/-- `dense_to_coo(layout, ...)` (RandBLAS/sparse_data/coo_matrix.hh:396-403). -/
def denseToCoo [Field T] [LinearOrder T] (layout : Layout) (mat : Buf T) (absTol : T) : M (CooMat T) Unit := do
  let A ← M.get
  if layout = .ColMajor then denseToCooStr 1 A.nRows mat absTol else denseToCooStr A.nCols 1 mat absTol

/-- The body of the inner loops of `dense_to_csc`, `dense_to_csr` (RandBLAS/sparse_data/csc_matrix.hh:258-263,
RandBLAS/sparse_data/csr_matrix.hh:267-272): `x` is the row index for CSC and the column index for CSR, `v` the entry. -/
def denseToCsStep [Field T] [LinearOrder T] (absTol : T) (v : T) (x nnz : Int) : M (CsBufs T) Int :=
  if |v| > absTol then do
    onCsVals (M.wr nnz v)
    onIdxs (M.wr nnz x)
    pure (nnz + 1)
  else pure nnz

/-- The traversal of `dense_to_csc` and `dense_to_csr` (RandBLAS/sparse_data/csc_matrix.hh:254-266,
RandBLAS/sparse_data/csr_matrix.hh:263-275): `sMajor`, `sMinor` are the strides along the compressed and the other dimension. -/
def denseToCsSweep [Field T] [LinearOrder T] (nMajor nMinor sMajor sMinor : Int) (mat : Buf T) (absTol : T) : M (CsBufs T) Unit := do
  onPtr (M.wr 0 0)
  let _ ← foldI 0 nMajor (fun j nnz => do
    let nnz ← foldI 0 nMinor (fun i nnz => do
      let v ← M.lift (mat.rd (i * sMinor + j * sMajor))
      denseToCsStep absTol v i nnz) nnz
    onPtr (M.wr (j + 1) nnz)
    pure nnz) 0

/-- `dense_to_csc(stride_row, stride_col, ...)` (RandBLAS/sparse_data/csc_matrix.hh:245-268). -/
def denseToCscStr [Field T] [LinearOrder T] (sr sc : Int) (mat : Buf T) (absTol : T) : M (CscMat T) Unit := do
  let A ← M.get
  let nnz ← M.lift (nnzInDense A.nRows A.nCols sr sc mat absTol)
  reserveCsc nnz
  M.zoom CscMat.bufs CscMat.withBufs (denseToCsSweep A.nCols A.nRows sc sr mat absTol)

/-- `dense_to_csr(stride_row, stride_col, ...)` (RandBLAS/sparse_data/csr_matrix.hh:254-277). -/
def denseToCsrStr [Field T] [LinearOrder T] (sr sc : Int) (mat : Buf T) (absTol : T) : M (CsrMat T) Unit := do
  let A ← M.get
  let nnz ← M.lift (nnzInDense A.nRows A.nCols sr sc mat absTol)
  reserveCsr nnz
  M.zoom CsrMat.bufs CsrMat.withBufs (denseToCsSweep A.nRows A.nCols sr sc mat absTol)

/-- `dense_to_csc(layout, ...)` (RandBLAS/sparse_data/csc_matrix.hh:270-278). -/
def denseToCsc [Field T] [LinearOrder T] (layout : Layout) (mat : Buf T) (absTol : T) : M (CscMat T) Unit := do
  let A ← M.get
  if layout = .ColMajor then denseToCscStr 1 A.nRows mat absTol else denseToCscStr A.nCols 1 mat absTol

/-- `dense_to_csr(layout, ...)` (RandBLAS/sparse_data/csr_matrix.hh:279-287). -/
def denseToCsr [Field T] [LinearOrder T] (layout : Layout) (mat : Buf T) (absTol : T) : M (CsrMat T) Unit := do
  let A ← M.get
  if layout = .ColMajor then denseToCsrStr 1 A.nRows mat absTol else denseToCsrStr A.nCols 1 mat absTol

/-- The zeroing loop of the `*_to_dense` functions (RandBLAS/sparse_data/coo_matrix.hh:408-412, RandBLAS/sparse_data/csc_matrix.hh:219-223,
RandBLAS/sparse_data/csr_matrix.hh:228-232). -/
def zeroDense [Zero T] (nRows nCols sr sc : Int) : M (Buf T) Unit :=
  forI 0 nRows fun i => forI 0 nCols fun j => M.wr (i * sr + j * sc) 0

/-- The numeric value of an index base. Used to model RandBLAS/sparse_data/base.hh:39-46. -/
def IndexBase.val : IndexBase → Int
  | .Zero => 0
  | .One => 1

/-- `coo_to_dense(spmat, stride_row, stride_col, mat)` (RandBLAS/sparse_data/coo_matrix.hh:405-423). -/
def cooToDenseStr [Zero T] (A : CooMat T) (sr sc : Int) : M (Buf T) Unit := do
  zeroDense A.nRows A.nCols sr sc
  forI 0 A.nnz fun ell => do
    let i ← M.lift ((ptr A.rows).rd ell)
    let j ← M.lift ((ptr A.cols).rd ell)
    let v ← M.lift ((ptr A.vals).rd ell)
    M.wr ((if A.indexBase = .One then i - 1 else i) * sr + (if A.indexBase = .One then j - 1 else j) * sc) v

/-- `coo_to_dense(spmat, layout, mat)` (RandBLAS/sparse_data/coo_matrix.hh:425-432). -/
def cooToDense [Zero T] (A : CooMat T) (layout : Layout) : M (Buf T) Unit :=
  if layout = .ColMajor then cooToDenseStr A 1 A.nRows else cooToDenseStr A A.nCols 1

/-- `csc_to_dense(spmat, stride_row, stride_col, mat)` (RandBLAS/sparse_data/csc_matrix.hh:215-234). -/
def cscToDenseStr [Zero T] (A : CscMat T) (sr sc : Int) : M (Buf T) Unit := do
  M.require (A.indexBase = .Zero)
  zeroDense A.nRows A.nCols sr sc
  forI 0 A.nCols fun j => do
    let lo ← M.lift ((ptr A.colptr).rd j)
    let hi ← M.lift ((ptr A.colptr).rd (j + 1))
    forI lo hi fun ell => do
      let i ← M.lift ((ptr A.rowidxs).rd ell)
      let v ← M.lift ((ptr A.vals).rd ell)
      M.wr ((if A.indexBase = .One then i - 1 else i) * sr + j * sc) v

/-- `csc_to_dense(spmat, layout, mat)` (RandBLAS/sparse_data/csc_matrix.hh:236-243). -/
def cscToDense [Zero T] (A : CscMat T) (layout : Layout) : M (Buf T) Unit :=
  if layout = .ColMajor then cscToDenseStr A 1 A.nRows else cscToDenseStr A A.nCols 1

/-- `csr_to_dense(spmat, stride_row, stride_col, mat)` (RandBLAS/sparse_data/csr_matrix.hh:221-243). The column index is converted to
`int` (32 bits, wrapping). -/
def csrToDenseStr [Zero T] (A : CsrMat T) (sr sc : Int) : M (Buf T) Unit := do
  M.require (A.indexBase = .Zero)
  zeroDense A.nRows A.nCols sr sc
  forI 0 A.nRows fun i => do
    let lo ← M.lift ((ptr A.rowptr).rd i)
    let hi ← M.lift ((ptr A.rowptr).rd (i + 1))
    forI lo hi fun ell => do
      let j ← M.lift ((ptr A.colidxs).rd ell)
      let v ← M.lift ((ptr A.vals).rd ell)
      M.wr (i * sr + (if A.indexBase = .One then wrapInt 32 j - 1 else wrapInt 32 j) * sc) v

/-- `csr_to_dense(spmat, layout, mat)` (RandBLAS/sparse_data/csr_matrix.hh:245-253). -/
def csrToDense [Zero T] (A : CsrMat T) (layout : Layout) : M (Buf T) Unit :=
  if layout = .ColMajor then csrToDenseStr A 1 A.nRows else csrToDenseStr A A.nCols 1

end RB
