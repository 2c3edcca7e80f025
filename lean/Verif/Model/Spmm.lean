import Verif.Model.SparseData
import Verif.Core.Par

/-!
# Model of RandBLAS/sparse_data/{coo,csc,csr}_spmm_impl.hh and spmm_dispatch.hh

`C` is the shared buffer of the parallel loops; the sparse matrix, `B` and temporary arrays are only read there. `sched` is the schedule of
the parallel loop (see `Core/Par`), `nt` the number of threads OpenMP provides (assumed the same in both parallel regions of one call).
`B` and `C` do not overlap. Offsets and sizes are unbounded integers except where the code narrows to `int`.
-/

namespace RB
variable {T : Type}

/-- `Av[p] += x` on the shared buffer. Used to model RandBLAS/sparse_data/csc_spmm_impl.hh:45-67. -/
def addTo [Add T] (p : Int) (x : T) : Prog T Unit := do
  let w ← Prog.load p
  Prog.store p (w + x)

/-- `blas::axpy(n, a, x, 1, y, 1)` with `y` in the shared buffer (external, BLAS++; reference loop as in `blasAxpy`). Used to model RandBLAS/sparse_data/csc_spmm_impl.hh:197-211. -/
def progAxpy [Add T] [Mul T] (n : Int) (a : T) (xb : Buf T) (x y : Int) : Prog T Unit := do
  Prog.lift (if 0 ≤ n then .ok () else .throw .blas)
  forI 0 n fun i => do
    let v ← Prog.lift (xb.rd (x + i))
    addTo (y + i) (a * v)

/-! ## CSC kernels -/

/-- `apply_csc_to_vector_from_left_ki` (RandBLAS/sparse_data/csc_spmm_impl.hh:45-67). `v0`, `av0` are the positions the pointers `v`, `Av`
point to. The `while (i < colptr[c+1])` loop runs `i` from its current value to `colptr[c+1]`, which no one changes meanwhile. -/
def applyCscVec [Add T] [Mul T] (vals : Buf T) (rowidxs colptr : Buf Int) (lenV : Int) (v : Buf T) (v0 incv av0 incAv : Int) : Prog T Unit := do
  let _ ← foldI 0 lenV (fun c i => do
    let scale ← Prog.lift (v.rd (v0 + c * incv))
    let hi ← Prog.lift (colptr.rd (c + 1))
    forI i hi (fun i => do
      let row ← Prog.lift (rowidxs.rd i)
      let x ← Prog.lift (vals.rd i)
      addTo (av0 + row * incAv) (x * scale))
    pure (max i hi)) 0

/-- `apply_regular_csc_to_vector_from_left_ki` (RandBLAS/sparse_data/csc_spmm_impl.hh:69-90). -/
def applyRegularCscVec [Add T] [Mul T] (vals : Buf T) (rowidxs : Buf Int) (colNnz lenV : Int) (v : Buf T) (v0 incv av0 incAv : Int) :
    Prog T Unit :=
  forI 0 lenV fun c => do
    let scale ← Prog.lift (v.rd (v0 + c * incv))
    forI (c * colNnz) ((c + 1) * colNnz) fun j => do
      let row ← Prog.lift (rowidxs.rd j)
      let x ← Prog.lift (vals.rd j)
      addTo (av0 + row * incAv) (x * scale)

/-- The loop that sets `fixed_nnz_per_col` (RandBLAS/sparse_data/csc_spmm_impl.hh:115-117, RandBLAS/sparse_data/coo_spmm_impl.hh:124-126). -/
def fixedNnzPerCol (colptr : Buf Int) (m : Int) : Res Bool :=
  foldI 2 (m + 1) (fun ell (ok : Bool) =>
    if ok then do
      let a ← colptr.rd 1
      let b ← colptr.rd ell
      pure (decide (a = b))
    else pure ok) true

/-- The parallel loop over the columns of `B` and `C` (RandBLAS/sparse_data/csc_spmm_impl.hh:127-149, RandBLAS/sparse_data/coo_spmm_impl.hh:140-161). -/
def cscColumns [Add T] [Mul T] (sched : List Nat) (layoutB layoutC : Layout) (n m : Int) (vals : Buf T) (rowidxs colptr : Buf Int)
    (fixed : Bool) (B : Buf T) (ldb ldc : Int) : M (Buf T) Unit :=
  parForI sched 0 n fun j =>
    if fixed then do
      let colNnz ← Prog.lift (colptr.rd 1)
      applyRegularCscVec vals rowidxs colNnz m B ((layoutToStrides layoutB ldb).ics * j) (layoutToStrides layoutB ldb).irs
        ((layoutToStrides layoutC ldc).ics * j) (layoutToStrides layoutC ldc).irs
    else
      applyCscVec vals rowidxs colptr m B ((layoutToStrides layoutB ldb).ics * j) (layoutToStrides layoutB ldb).irs
        ((layoutToStrides layoutC ldc).ics * j) (layoutToStrides layoutC ldc).irs

/-- The scaled copy of the values, `vals = new T[A.nnz]{}; axpy(A.nnz, alpha, A.vals, 1, vals, 1)` if `alpha != 1`
(RandBLAS/sparse_data/csc_spmm_impl.hh:106-110, RandBLAS/sparse_data/csr_spmm_impl.hh:85-89). -/
def scaledVals {σ : Type} [Zero T] [One T] [Add T] [Mul T] [BEq T] (alpha : T) (nnz : Int) (vals : Buf T) : M σ (Buf T) :=
  if alpha == 1 then pure vals
  else do
    M.when (nnz < 0) (M.throw .runtime)
    let r ← M.onLocal (blasAxpy nnz alpha vals 0 1 0 1) (Buf.fill nnz 0)
    pure r.2

/-- `apply_csc_left_jki_p11` (RandBLAS/sparse_data/csc_spmm_impl.hh:92-155). -/
def cscLeftJki [Zero T] [One T] [Add T] [Mul T] [BEq T] (sched : List Nat) (alpha : T) (layoutB layoutC : Layout) (d n m : Int)
    (A : CscMat T) (B : Buf T) (ldb ldc : Int) : M (Buf T) Unit := do
  M.require (A.indexBase = .Zero)
  let vals ← scaledVals alpha A.nnz (ptr A.vals)
  M.require (d = A.nRows)
  M.require (m = A.nCols)
  let fixed ← M.lift (fixedNnzPerCol (ptr A.colptr) m)
  cscColumns sched layoutB layoutC n m vals (ptr A.rowidxs) (ptr A.colptr) fixed B ldb ldc

/-- `a + b` on `int`: overflow is undefined. Used to model RandBLAS/sparse_data/csc_spmm_impl.hh:183-188. -/
def addI32 (a b : Int) : Res Int := if FitsInt 32 (a + b) then .ok (a + b) else .ub

/-- The array `block_bounds` (RandBLAS/sparse_data/csc_spmm_impl.hh:183-188); `d / num_threads` and the last update are narrowed to `int`. -/
def blockBounds (nt d : Int) : M (Buf Int) Unit := do
  let bs := wrapInt 32 (d.tdiv nt)
  let bs := if bs = 0 then 1 else bs
  forI 0 nt (fun t => do
    let x ← M.rd t
    let y ← M.lift (addI32 x bs)
    M.wr (t + 1) y)
  let x ← M.rd nt
  M.wr nt (wrapInt 32 (x + d.tmod nt))

/-- One thread of the parallel region of `apply_csc_left_kib_rowmajor_1p1` (RandBLAS/sparse_data/csc_spmm_impl.hh:197-211), for the rows
`lo ≤ i < hi`. -/
def cscKibThread [Add T] [Mul T] (alpha : T) (n m : Int) (A : CscMat T) (B : Buf T) (ldb ldc lo hi : Int) : Prog T Unit :=
  forI 0 m fun k => do
    let a ← Prog.lift ((ptr A.colptr).rd k)
    let b ← Prog.lift ((ptr A.colptr).rd (k + 1))
    forI a b fun ell => do
      let i ← Prog.lift ((ptr A.rowidxs).rd ell)
      if lo ≤ i ∧ i < hi then do
        let x ← Prog.lift ((ptr A.vals).rd ell)
        progAxpy n (alpha * x) B (k * ldb) (i * ldc)
      else pure ()

/-- `apply_csc_left_kib_rowmajor_1p1` (RandBLAS/sparse_data/csc_spmm_impl.hh:157-215). -/
def cscLeftKib [Add T] [Mul T] (sched : List Nat) (nt : Int) (alpha : T) (d n m : Int) (A : CscMat T) (B : Buf T) (ldb ldc : Int) :
    M (Buf T) Unit := do
  M.require (A.indexBase = .Zero)
  M.require (d = A.nRows)
  M.require (m = A.nCols)
  let r ← M.onLocal (blockBounds nt d) (Buf.fill (nt + 1) 0)
  parForI sched 0 nt fun t => do
    let lo ← Prog.lift (r.2.rd t)
    let hi ← Prog.lift (r.2.rd (t + 1))
    cscKibThread alpha n m A B ldb ldc lo hi

/-! ## CSR kernels -/

/-- `apply_csr_to_vector_from_left_ik` (RandBLAS/sparse_data/csr_spmm_impl.hh:47-69). The column index is narrowed to `int`. -/
def applyCsrVec [Add T] [Mul T] (vals : Buf T) (rowptr colidxs : Buf Int) (v : Buf T) (v0 incv lenAv av0 incAv : Int) : Prog T Unit :=
  forI 0 lenAv fun i => do
    let x ← Prog.load (av0 + i * incAv)
    let lo ← Prog.lift (rowptr.rd i)
    let hi ← Prog.lift (rowptr.rd (i + 1))
    let x ← foldI lo hi (fun ell x => do
      let j ← Prog.lift (colidxs.rd ell)
      let a ← Prog.lift (vals.rd ell)
      let y ← Prog.lift (v.rd (v0 + wrapInt 32 j * incv))
      pure (x + a * y)) x
    Prog.store (av0 + i * incAv) x

/-- `apply_csr_left_jik_p11` (RandBLAS/sparse_data/csr_spmm_impl.hh:71-122). -/
def csrLeftJik [Zero T] [One T] [Add T] [Mul T] [BEq T] (sched : List Nat) (alpha : T) (layoutB layoutC : Layout) (d n m : Int)
    (A : CsrMat T) (B : Buf T) (ldb ldc : Int) : M (Buf T) Unit := do
  M.require (A.indexBase = .Zero)
  let vals ← scaledVals alpha A.nnz (ptr A.vals)
  M.require (d = A.nRows)
  M.require (m = A.nCols)
  parForI sched 0 n fun j =>
    applyCsrVec vals (ptr A.rowptr) (ptr A.colidxs) B ((layoutToStrides layoutB ldb).ics * j) (layoutToStrides layoutB ldb).irs d
      ((layoutToStrides layoutC ldc).ics * j) (layoutToStrides layoutC ldc).irs

/-- `apply_csr_left_ikb_rowmajor` (RandBLAS/sparse_data/csr_spmm_impl.hh:124-158). -/
def csrLeftIkb [Add T] [Mul T] (sched : List Nat) (alpha : T) (d n m : Int) (A : CsrMat T) (B : Buf T) (ldb ldc : Int) :
    M (Buf T) Unit := do
  M.require (A.indexBase = .Zero)
  M.require (d = A.nRows)
  M.require (m = A.nCols)
  parForI sched 0 d fun i => do
    let a ← Prog.lift ((ptr A.rowptr).rd i)
    let b ← Prog.lift ((ptr A.rowptr).rd (i + 1))
    forI a b fun ell => do
      let x ← Prog.lift ((ptr A.vals).rd ell)
      let k ← Prog.lift ((ptr A.colidxs).rd ell)
      progAxpy n (alpha * x) B (k * ldb) (i * ldc)

/-! ## COO kernel -/

/-- `set_filtered_coo` (RandBLAS/sparse_data/coo_spmm_impl.hh:47-77). The state is the new matrix's arrays. -/
def setFilteredCoo (A : CooBufs T) (nnz colStart colEnd rowStart rowEnd : Int) : M (CooBufs T) Int :=
  foldI 0 nnz (fun ell newNnz => do
    let r ← M.lift (A.rows.rd ell)
    let c ← M.lift (A.cols.rd ell)
    if rowStart ≤ r ∧ r < rowEnd ∧ colStart ≤ c ∧ c < colEnd then do
      let v ← M.lift (A.vals.rd ell)
      onCVals (M.wr newNnz v)
      onCRows (M.wr newNnz (r - rowStart))
      onCCols (M.wr newNnz (c - colStart))
      pure (newNnz + 1)
    else pure newNnz) 0

/-- `while (ell < nnz && sorted[ell] == i) ++ell;` (RandBLAS/sparse_data/base.hh:82-83), with `fuel = nnz - ell`. -/
def skipWhile (sorted : Buf Int) (i : Int) (fuel : Nat) (ell : Int) : Res Int :=
  match fuel with
  | 0 => pure ell
  | fuel + 1 => do
    let c ← sorted.rd ell
    if c = i then skipWhile sorted i fuel (ell + 1) else pure ell

/-- `sorted_nonzero_locations_to_pointer_array` (RandBLAS/sparse_data/base.hh:68-91). `temp` is a local array of `last_ptr_index + 1`
elements. -/
def sortedToPtr (nnz last : Int) : M (Buf Int) Unit := do
  forI 1 nnz (fun i => do
    let a ← M.rd (i - 1)
    let b ← M.rd i
    M.require (a ≤ b))
  M.when (last + 1 < 0) (M.throw .runtime)
  let sorted ← M.get
  let temp ← M.onLocal (do
    M.wr 0 0
    let _ ← foldI 0 last (fun i ell => do
      let ell ← M.lift (skipWhile sorted i (nnz - ell).toNat ell)
      M.wr (i + 1) ell
      pure ell) 0) (Buf.alloc Int (last + 1))
  M.wr 0 0
  forI 0 last fun i => do
    let x ← M.lift (temp.2.rd (i + 1))
    M.wr (i + 1) x

/-- Steps 2 and 3 of `apply_coo_left_jki_p11` (RandBLAS/sparse_data/coo_spmm_impl.hh:107-162), for CSC sort order. -/
def cooLeftCsc [Zero T] [Add T] [Mul T] (sched : List Nat) (alpha : T) (layoutB layoutC : Layout) (d n m : Int)
    (A : CooMat T) (ro co : Int) (B : Buf T) (ldb ldc : Int) : M (Buf T) Unit := do
  M.when (A.nnz < 0 ∨ m + 1 < 0) (M.throw .runtime)
  let r ← M.onLocal (setFilteredCoo A.bufs A.nnz co (co + m) ro (ro + d))
    { vals := Buf.fill A.nnz 0, rows := Buf.fill A.nnz 0, cols := Buf.fill (max A.nnz (m + 1)) 0 }
  let v ← M.onLocal (blasScal r.1 alpha 0 1) r.2.vals
  let p ← M.onLocal (sortedToPtr r.1 m) r.2.cols
  let fixed ← M.lift (fixedNnzPerCol p.2 m)
  cscColumns sched layoutB layoutC n m v.2 r.2.rows p.2 fixed B ldb ldc

/-- Access to `C` while a COO matrix is part of the state. Used to model RandBLAS/sparse_data/coo_spmm_impl.hh:80-163. -/
def onC {S α : Type} (m : M (Buf T) α) : M (S × Buf T) α := M.zoom Prod.snd (fun s b => (s.1, b)) m
/-- Access to the sparse matrix. Used to model RandBLAS/sparse_data/coo_spmm_impl.hh:80-163. -/
def onSp {S α : Type} (m : M S α) : M (S × Buf T) α := M.zoom Prod.fst (fun s b => (b, s.2)) m

/-- `apply_coo_left_jki_p11` (RandBLAS/sparse_data/coo_spmm_impl.hh:80-163). The state is the caller's matrix, which is sorted in place,
and `C`. The recursive call in Step 1 finds the matrix in CSC order. -/
def cooLeftJki [Zero T] [Add T] [Mul T] (srt : (Int × Int × T → Int × Int × T → Bool) → List (Int × Int × T) → List (Int × Int × T))
    (sched : List Nat) (alpha : T) (layoutB layoutC : Layout) (d n m : Int) (ro co : Int) (B : Buf T) (ldb ldc : Int) :
    M (CooMat T × Buf T) Unit := do
  let s ← M.get
  M.require (s.1.indexBase = .Zero)
  if s.1.sort ≠ .CSC then do
    onSp (sortCooData srt .CSC)
    let s1 ← M.get
    onC (cooLeftCsc sched alpha layoutB layoutC d n m s1.1 ro co B ldb ldc)
    onSp (sortCooData srt s.1.sort)
  else
    onC (cooLeftCsc sched alpha layoutB layoutC d n m s.1 ro co B ldb ldc)

/-! ## Dispatch -/

/-- The checks on leading dimensions and the update `C = beta * C` (RandBLAS/sparse_data/spmm_dispatch.hh:117-141). -/
def spmmScale [Zero T] [Mul T] [BEq T] (layout : Layout) (opB : Op) (d n m : Int) (ldb : Int) (beta : T) (ldc : Int) : M (Buf T) Unit := do
  let rowsB := if opB = .NoTrans then m else n
  let colsB := if opB = .NoTrans then n else m
  if layout = .ColMajor then do
    M.require (ldb ≥ rowsB)
    M.require (ldc ≥ d)
    forI 0 n fun i => safeScal d beta (i * ldc) 1
  else do
    M.require (ldc ≥ n)
    M.require (ldb ≥ colsB)
    forI 0 d fun i => safeScal n beta (i * ldc) 1

/-- `layout_opB` (RandBLAS/sparse_data/spmm_dispatch.hh:106-116). -/
def layoutOp (layout : Layout) (opB : Op) : Layout := if opB = .NoTrans then layout else layout.flip

/-- `left_spmm` for an untransposed CSC matrix (RandBLAS/sparse_data/spmm_dispatch.hh:86-160). -/
def leftSpmmCscN [Zero T] [One T] [Add T] [Mul T] [BEq T] (sched : List Nat) (nt : Int) (layout : Layout) (opB : Op) (d n m : Int) (alpha : T)
    (A : CscMat T) (ro co : Int) (B : Buf T) (ldb : Int) (beta : T) (ldc : Int) : M (Buf T) Unit := do
  M.require (A.indexBase = .Zero)
  M.require (A.nRows = d)
  M.require (A.nCols = m)
  M.require (ro = 0)
  M.require (co = 0)
  spmmScale layout opB d n m ldb beta ldc
  if alpha == 0 then pure ()
  else if layoutOp layout opB = .RowMajor ∧ layout = .RowMajor then cscLeftKib sched nt alpha d n m A B ldb ldc
  else cscLeftJki sched alpha (layoutOp layout opB) layout d n m A B ldb ldc

/-- `left_spmm` for an untransposed CSR matrix (RandBLAS/sparse_data/spmm_dispatch.hh:86-160). -/
def leftSpmmCsrN [Zero T] [One T] [Add T] [Mul T] [BEq T] (sched : List Nat) (layout : Layout) (opB : Op) (d n m : Int) (alpha : T)
    (A : CsrMat T) (ro co : Int) (B : Buf T) (ldb : Int) (beta : T) (ldc : Int) : M (Buf T) Unit := do
  M.require (A.indexBase = .Zero)
  M.require (A.nRows = d)
  M.require (A.nCols = m)
  M.require (ro = 0)
  M.require (co = 0)
  spmmScale layout opB d n m ldb beta ldc
  if alpha == 0 then pure ()
  else if layoutOp layout opB = .RowMajor ∧ layout = .RowMajor then csrLeftIkb sched alpha d n m A B ldb ldc
  else csrLeftJik sched alpha (layoutOp layout opB) layout d n m A B ldb ldc

/-- `left_spmm` for an untransposed COO matrix (RandBLAS/sparse_data/spmm_dispatch.hh:86-160). -/
def leftSpmmCooN [Zero T] [Add T] [Mul T] [BEq T] (srt : (Int × Int × T → Int × Int × T → Bool) → List (Int × Int × T) → List (Int × Int × T))
    (sched : List Nat) (layout : Layout) (opB : Op) (d n m : Int) (alpha : T)
    (ro co : Int) (B : Buf T) (ldb : Int) (beta : T) (ldc : Int) : M (CooMat T × Buf T) Unit := do
  let s ← M.get
  M.require (s.1.indexBase = .Zero)
  M.require (s.1.nRows ≥ d)
  M.require (s.1.nCols ≥ m)
  onC (spmmScale layout opB d n m ldb beta ldc)
  if alpha == 0 then pure ()
  else cooLeftJki srt sched alpha (layoutOp layout opB) layout d n m ro co B ldb ldc

/-- The three sparse matrix types. Used to model RandBLAS/sparse_data/spmm_dispatch.hh:48-160. -/
inductive SpMat (T : Type) where
  | coo (A : CooMat T)
  | csc (A : CscMat T)
  | csr (A : CsrMat T)

/-- The parameters of an execution that the program does not determine: the implementation of `std::sort`, the schedule of parallel loops,
the number of threads. Used to model RandBLAS/sparse_data/spmm_dispatch.hh:48-160. -/
structure Env (T : Type) where
  srt : (Int × Int × T → Int × Int × T → Bool) → List (Int × Int × T) → List (Int × Int × T)
  sched : List Nat
  nt : Int

/-- Run on the COO matrix `A` that is the sparse matrix of the state. Used to model RandBLAS/sparse_data/spmm_dispatch.hh:48-160. -/
def asCoo (A : CooMat T) (m : M (CooMat T × Buf T) Unit) : M (SpMat T × Buf T) Unit :=
  M.zoom (fun s : SpMat T × Buf T => (A, s.2)) (fun _ r => (SpMat.coo r.1, r.2)) m

/-- Run on the view `At`, which shares its arrays with the COO matrix `A` of the state, rows and columns exchanged. Used to model RandBLAS/sparse_data/spmm_dispatch.hh:48-160. -/
def asCooT (A At : CooMat T) (m : M (CooMat T × Buf T) Unit) : M (SpMat T × Buf T) Unit :=
  M.zoom (fun s : SpMat T × Buf T => (At, s.2))
    (fun _ r => (SpMat.coo { A with vals := r.1.vals, rows := r.1.cols, cols := r.1.rows }, r.2)) m

/-- `left_spmm` (RandBLAS/sparse_data/spmm_dispatch.hh:48-160). The state is the sparse matrix (a COO matrix is sorted in place) and `C`.
With `opA = Trans` the call works on a transposed view that shares the arrays of `A`; for COO their new contents are visible in `A`. -/
def leftSpmm [Zero T] [One T] [Add T] [Mul T] [BEq T] (env : Env T) (layout : Layout) (opA opB : Op) (d n m : Int) (alpha : T)
    (ro co : Int) (B : Buf T) (ldb : Int) (beta : T) (ldc : Int) : M (SpMat T × Buf T) Unit := do
  let s ← M.get
  match s.1, opA with
  | .coo A, .NoTrans => asCoo A (leftSpmmCooN env.srt env.sched layout opB d n m alpha ro co B ldb beta ldc)
  | .coo A, .Trans => do
    let At ← M.lift (cooTranspose A)
    asCooT A At (leftSpmmCooN env.srt env.sched layout opB d n m alpha co ro B ldb beta ldc)
  | .csc A, .NoTrans => onC (leftSpmmCscN env.sched env.nt layout opB d n m alpha A ro co B ldb beta ldc)
  | .csc A, .Trans => do
    let At ← M.lift (transposeAsCsr A true)
    onC (leftSpmmCsrN env.sched layout opB d n m alpha At co ro B ldb beta ldc)
  | .csr A, .NoTrans => onC (leftSpmmCsrN env.sched layout opB d n m alpha A ro co B ldb beta ldc)
  | .csr A, .Trans => do
    let At ← M.lift (transposeAsCsc A true)
    onC (leftSpmmCscN env.sched env.nt layout opB d n m alpha At co ro B ldb beta ldc)

/-- `right_spmm` (RandBLAS/sparse_data/spmm_dispatch.hh:162-200). `A` is the dense left factor. -/
def rightSpmm [Zero T] [One T] [Add T] [Mul T] [BEq T] (env : Env T) (layout : Layout) (opA opB : Op) (m d n : Int) (alpha : T)
    (A : Buf T) (lda : Int) (iOff jOff : Int) (beta : T) (ldc : Int) : M (SpMat T × Buf T) Unit :=
  leftSpmm env layout.flip opB.flip opA d m n alpha iOff jOff A lda beta ldc

/-- `spmm` with a sparse left factor (RandBLAS/sparse_data/spmm_dispatch.hh:279-283). -/
def spmmLeft [Zero T] [One T] [Add T] [Mul T] [BEq T] (env : Env T) (layout : Layout) (opA opB : Op) (m n k : Int) (alpha : T)
    (B : Buf T) (ldb : Int) (beta : T) (ldc : Int) : M (SpMat T × Buf T) Unit :=
  leftSpmm env layout opA opB m n k alpha 0 0 B ldb beta ldc

end RB
