import Verif.Model.Spmm
import Verif.Model.Sparse64

/-!
# Sparse products with machine integers

The functions of `Model/Spmm.lean` once more, now with the machine types of the code: dimensions, leading dimensions and positions have type
`int64_t`, stored indices have type `sint_t` with `w` bits. A signed operation whose value is not representable makes the execution undefined;
a conversion to `sint_t` wraps (C++20). Loop counters do not exceed their bounds, which are representable. The addition of an offset to a
pointer is covered by the model of memory. The functions that are shared with `Model/Spmm.lean` do no arithmetic on positions, or
(`blockBounds`) are modelled with machine integers there. `w >= 32` is assumed, so that integer promotion is not an issue.
-/

namespace RB
variable {T : Type}

/-! ## CSC kernels -/

/-- `apply_csc_to_vector_from_left_ki` (RandBLAS/sparse_data/csc_spmm_impl.hh:45-67). -/
def applyCscVec64 [Add T] [Mul T] (vals : Buf T) (rowidxs colptr : Buf Int) (lenV : Int) (v : Buf T) (v0 incv av0 incAv : Int) : Prog T Unit := do
  let _ ← foldI 0 lenV (fun c i => do
    let p ← Prog.lift (i64 (c * incv))
    let scale ← Prog.lift (v.rd (v0 + p))
    let c1 ← Prog.lift (i64 (c + 1))
    let hi ← Prog.lift (colptr.rd c1)
    forI i hi (fun i => do
      let row ← Prog.lift (rowidxs.rd i)
      let x ← Prog.lift (vals.rd i)
      let q ← Prog.lift (i64 (row * incAv))
      addTo (av0 + q) (x * scale))
    pure (max i hi)) 0

/-- `apply_regular_csc_to_vector_from_left_ki` (RandBLAS/sparse_data/csc_spmm_impl.hh:69-90). -/
def applyRegularCscVec64 [Add T] [Mul T] (vals : Buf T) (rowidxs : Buf Int) (colNnz lenV : Int) (v : Buf T) (v0 incv av0 incAv : Int) :
    Prog T Unit :=
  forI 0 lenV fun c => do
    let p ← Prog.lift (i64 (c * incv))
    let scale ← Prog.lift (v.rd (v0 + p))
    let lo ← Prog.lift (i64 (c * colNnz))
    let c1 ← Prog.lift (i64 (c + 1))
    let hi ← Prog.lift (i64 (c1 * colNnz))
    forI lo hi fun j => do
      let row ← Prog.lift (rowidxs.rd j)
      let x ← Prog.lift (vals.rd j)
      let q ← Prog.lift (i64 (row * incAv))
      addTo (av0 + q) (x * scale)

/-- The loop that sets `fixed_nnz_per_col` (RandBLAS/sparse_data/csc_spmm_impl.hh:115-117, RandBLAS/sparse_data/coo_spmm_impl.hh:124-126). -/
def fixedNnzPerCol64 (colptr : Buf Int) (m : Int) : Res Bool := do
  let hi ← i64 (m + 1)
  foldI 2 hi (fun ell (ok : Bool) =>
    if ok then do
      let a ← colptr.rd 1
      let b ← colptr.rd ell
      pure (decide (a = b))
    else pure ok) true

/-- The parallel loop over the columns of `B` and `C` (RandBLAS/sparse_data/csc_spmm_impl.hh:127-149, RandBLAS/sparse_data/coo_spmm_impl.hh:140-161). -/
def cscColumns64 [Add T] [Mul T] (sched : List Nat) (layoutB layoutC : Layout) (n m : Int) (vals : Buf T) (rowidxs colptr : Buf Int)
    (fixed : Bool) (B : Buf T) (ldb ldc : Int) : M (Buf T) Unit :=
  parForI sched 0 n fun j => do
    let bcol ← Prog.lift (i64 ((layoutToStrides layoutB ldb).ics * j))
    let ccol ← Prog.lift (i64 ((layoutToStrides layoutC ldc).ics * j))
    if fixed then do
      let colNnz ← Prog.lift (colptr.rd 1)
      applyRegularCscVec64 vals rowidxs colNnz m B bcol (layoutToStrides layoutB ldb).irs ccol (layoutToStrides layoutC ldc).irs
    else
      applyCscVec64 vals rowidxs colptr m B bcol (layoutToStrides layoutB ldb).irs ccol (layoutToStrides layoutC ldc).irs

/-- `apply_csc_left_jki_p11` (RandBLAS/sparse_data/csc_spmm_impl.hh:92-155). -/
def cscLeftJki64 [Zero T] [One T] [Add T] [Mul T] [BEq T] (sched : List Nat) (alpha : T) (layoutB layoutC : Layout) (d n m : Int)
    (A : CscMat T) (B : Buf T) (ldb ldc : Int) : M (Buf T) Unit := do
  M.require (A.indexBase = .Zero)
  let vals ← scaledVals alpha A.nnz (ptr A.vals)
  M.require (d = A.nRows)
  M.require (m = A.nCols)
  let fixed ← M.lift (fixedNnzPerCol64 (ptr A.colptr) m)
  cscColumns64 sched layoutB layoutC n m vals (ptr A.rowidxs) (ptr A.colptr) fixed B ldb ldc

/-- One thread of the parallel region of `apply_csc_left_kib_rowmajor_1p1` (RandBLAS/sparse_data/csc_spmm_impl.hh:197-211). -/
def cscKibThread64 [Add T] [Mul T] (alpha : T) (n m : Int) (A : CscMat T) (B : Buf T) (ldb ldc lo hi : Int) : Prog T Unit :=
  forI 0 m fun k => do
    let rowB ← Prog.lift (i64 (k * ldb))
    let a ← Prog.lift ((ptr A.colptr).rd k)
    let k1 ← Prog.lift (i64 (k + 1))
    let b ← Prog.lift ((ptr A.colptr).rd k1)
    forI a b fun ell => do
      let i ← Prog.lift ((ptr A.rowidxs).rd ell)
      if lo ≤ i ∧ i < hi then do
        let rowC ← Prog.lift (i64 (i * ldc))
        let x ← Prog.lift ((ptr A.vals).rd ell)
        progAxpy n (alpha * x) B rowB rowC
      else pure ()

/-- `apply_csc_left_kib_rowmajor_1p1` (RandBLAS/sparse_data/csc_spmm_impl.hh:157-215). -/
def cscLeftKib64 [Add T] [Mul T] (sched : List Nat) (nt : Int) (alpha : T) (d n m : Int) (A : CscMat T) (B : Buf T) (ldb ldc : Int) :
    M (Buf T) Unit := do
  M.require (A.indexBase = .Zero)
  M.require (d = A.nRows)
  M.require (m = A.nCols)
  let r ← M.onLocal (blockBounds nt d) (Buf.fill (nt + 1) 0)
  parForI sched 0 nt fun t => do
    let lo ← Prog.lift (r.2.rd t)
    let hi ← Prog.lift (r.2.rd (t + 1))
    cscKibThread64 alpha n m A B ldb ldc lo hi

/-! ## CSR kernels -/

/-- `apply_csr_to_vector_from_left_ik` (RandBLAS/sparse_data/csr_spmm_impl.hh:47-69). -/
def applyCsrVec64 [Add T] [Mul T] (vals : Buf T) (rowptr colidxs : Buf Int) (v : Buf T) (v0 incv lenAv av0 incAv : Int) : Prog T Unit :=
  forI 0 lenAv fun i => do
    let q ← Prog.lift (i64 (i * incAv))
    let x ← Prog.load (av0 + q)
    let lo ← Prog.lift (rowptr.rd i)
    let i1 ← Prog.lift (i64 (i + 1))
    let hi ← Prog.lift (rowptr.rd i1)
    let x ← foldI lo hi (fun ell x => do
      let j ← Prog.lift (colidxs.rd ell)
      let a ← Prog.lift (vals.rd ell)
      let p ← Prog.lift (i64 (wrapInt 32 j * incv))
      let y ← Prog.lift (v.rd (v0 + p))
      pure (x + a * y)) x
    Prog.store (av0 + q) x

/-- `apply_csr_left_jik_p11` (RandBLAS/sparse_data/csr_spmm_impl.hh:71-122). -/
def csrLeftJik64 [Zero T] [One T] [Add T] [Mul T] [BEq T] (sched : List Nat) (alpha : T) (layoutB layoutC : Layout) (d n m : Int)
    (A : CsrMat T) (B : Buf T) (ldb ldc : Int) : M (Buf T) Unit := do
  M.require (A.indexBase = .Zero)
  let vals ← scaledVals alpha A.nnz (ptr A.vals)
  M.require (d = A.nRows)
  M.require (m = A.nCols)
  parForI sched 0 n fun j => do
    let bcol ← Prog.lift (i64 ((layoutToStrides layoutB ldb).ics * j))
    let ccol ← Prog.lift (i64 ((layoutToStrides layoutC ldc).ics * j))
    applyCsrVec64 vals (ptr A.rowptr) (ptr A.colidxs) B bcol (layoutToStrides layoutB ldb).irs d ccol (layoutToStrides layoutC ldc).irs

/-- `apply_csr_left_ikb_rowmajor` (RandBLAS/sparse_data/csr_spmm_impl.hh:124-158). -/
def csrLeftIkb64 [Add T] [Mul T] (sched : List Nat) (alpha : T) (d n m : Int) (A : CsrMat T) (B : Buf T) (ldb ldc : Int) :
    M (Buf T) Unit := do
  M.require (A.indexBase = .Zero)
  M.require (d = A.nRows)
  M.require (m = A.nCols)
  parForI sched 0 d fun i => do
    let rowC ← Prog.lift (i64 (i * ldc))
    let a ← Prog.lift ((ptr A.rowptr).rd i)
    let i1 ← Prog.lift (i64 (i + 1))
    let b ← Prog.lift ((ptr A.rowptr).rd i1)
    forI a b fun ell => do
      let x ← Prog.lift ((ptr A.vals).rd ell)
      let k ← Prog.lift ((ptr A.colidxs).rd ell)
      let rowB ← Prog.lift (i64 (k * ldb))
      progAxpy n (alpha * x) B rowB rowC

/-! ## COO kernel -/

/-- `set_filtered_coo` (RandBLAS/sparse_data/coo_spmm_impl.hh:47-77). The differences have type `int64_t` and are converted to `sint_t`. -/
def setFilteredCoo64 (w : Nat) (A : CooBufs T) (nnz colStart colEnd rowStart rowEnd : Int) : M (CooBufs T) Int :=
  foldI 0 nnz (fun ell newNnz => do
    let r ← M.lift (A.rows.rd ell)
    let c ← M.lift (A.cols.rd ell)
    if rowStart ≤ r ∧ r < rowEnd ∧ colStart ≤ c ∧ c < colEnd then do
      let v ← M.lift (A.vals.rd ell)
      onCVals (M.wr newNnz v)
      let dr ← M.lift (i64 (r - rowStart))
      onCRows (M.wr newNnz (wrapInt w dr))
      let dc ← M.lift (i64 (c - colStart))
      onCCols (M.wr newNnz (wrapInt w dc))
      pure (newNnz + 1)
    else pure newNnz) 0

/-- `sorted_nonzero_locations_to_pointer_array` (RandBLAS/sparse_data/base.hh:68-91). The counter `ell` has type `int64_t`, the pointers have
type `sint_t`. -/
def sortedToPtr64 (w : Nat) (nnz last : Int) : M (Buf Int) Unit := do
  forI 1 nnz (fun i => do
    let a ← M.rd (i - 1)
    let b ← M.rd i
    M.require (a ≤ b))
  let len ← M.lift (i64 (last + 1))
  M.when (len < 0) (M.throw .runtime)
  let sorted ← M.get
  let temp ← M.onLocal (do
    M.wr 0 0
    let _ ← foldI 0 last (fun i ell => do
      let ell ← M.lift (skipWhile sorted i (nnz - ell).toNat ell)
      M.wr (i + 1) (wrapInt w ell)
      pure ell) 0) (Buf.alloc Int len)
  M.wr 0 0
  forI 0 last fun i => do
    let x ← M.lift (temp.2.rd (i + 1))
    M.wr (i + 1) x

/-- Steps 2 and 3 of `apply_coo_left_jki_p11` (RandBLAS/sparse_data/coo_spmm_impl.hh:107-162), for CSC sort order. -/
def cooLeftCsc64 [Zero T] [Add T] [Mul T] (w : Nat) (sched : List Nat) (alpha : T) (layoutB layoutC : Layout) (d n m : Int)
    (A : CooMat T) (ro co : Int) (B : Buf T) (ldb ldc : Int) : M (Buf T) Unit := do
  let m1 ← M.lift (i64 (m + 1))
  M.when (A.nnz < 0 ∨ m1 < 0) (M.throw .runtime)
  let colEnd ← M.lift (i64 (co + m))
  let rowEnd ← M.lift (i64 (ro + d))
  let r ← M.onLocal (setFilteredCoo64 w A.bufs A.nnz co colEnd ro rowEnd)
    { vals := Buf.fill A.nnz 0, rows := Buf.fill A.nnz 0, cols := Buf.fill (max A.nnz m1) 0 }
  let v ← M.onLocal (blasScal r.1 alpha 0 1) r.2.vals
  let p ← M.onLocal (sortedToPtr64 w r.1 m) r.2.cols
  let fixed ← M.lift (fixedNnzPerCol64 p.2 m)
  cscColumns64 sched layoutB layoutC n m v.2 r.2.rows p.2 fixed B ldb ldc

/-- `apply_coo_left_jki_p11` (RandBLAS/sparse_data/coo_spmm_impl.hh:80-163). -/
def cooLeftJki64 [Zero T] [Add T] [Mul T] (w : Nat)
    (srt : (Int × Int × T → Int × Int × T → Bool) → List (Int × Int × T) → List (Int × Int × T))
    (sched : List Nat) (alpha : T) (layoutB layoutC : Layout) (d n m : Int) (ro co : Int) (B : Buf T) (ldb ldc : Int) :
    M (CooMat T × Buf T) Unit := do
  let s ← M.get
  M.require (s.1.indexBase = .Zero)
  if s.1.sort ≠ .CSC then do
    onSp (sortCooData srt .CSC)
    let s1 ← M.get
    onC (cooLeftCsc64 w sched alpha layoutB layoutC d n m s1.1 ro co B ldb ldc)
    onSp (sortCooData srt s.1.sort)
  else
    onC (cooLeftCsc64 w sched alpha layoutB layoutC d n m s.1 ro co B ldb ldc)

/-! ## Dispatch -/

/-- The checks on leading dimensions and the update `C = beta * C` (RandBLAS/sparse_data/spmm_dispatch.hh:117-141). -/
def spmmScale64 [Zero T] [Mul T] [BEq T] (layout : Layout) (opB : Op) (d n m : Int) (ldb : Int) (beta : T) (ldc : Int) : M (Buf T) Unit := do
  let rowsB := if opB = .NoTrans then m else n
  let colsB := if opB = .NoTrans then n else m
  if layout = .ColMajor then do
    M.require (ldb ≥ rowsB)
    M.require (ldc ≥ d)
    forI 0 n fun i => do
      let p ← M.lift (i64 (i * ldc))
      safeScal d beta p 1
  else do
    M.require (ldc ≥ n)
    M.require (ldb ≥ colsB)
    forI 0 d fun i => do
      let p ← M.lift (i64 (i * ldc))
      safeScal n beta p 1

/-- `left_spmm` for an untransposed CSC matrix (RandBLAS/sparse_data/spmm_dispatch.hh:86-160). -/
def leftSpmmCscN64 [Zero T] [One T] [Add T] [Mul T] [BEq T] (sched : List Nat) (nt : Int) (layout : Layout) (opB : Op) (d n m : Int) (alpha : T)
    (A : CscMat T) (ro co : Int) (B : Buf T) (ldb : Int) (beta : T) (ldc : Int) : M (Buf T) Unit := do
  M.require (A.indexBase = .Zero)
  M.require (A.nRows = d)
  M.require (A.nCols = m)
  M.require (ro = 0)
  M.require (co = 0)
  spmmScale64 layout opB d n m ldb beta ldc
  if alpha == 0 then pure ()
  else if layoutOp layout opB = .RowMajor ∧ layout = .RowMajor then cscLeftKib64 sched nt alpha d n m A B ldb ldc
  else cscLeftJki64 sched alpha (layoutOp layout opB) layout d n m A B ldb ldc

/-- `left_spmm` for an untransposed CSR matrix (RandBLAS/sparse_data/spmm_dispatch.hh:86-160). -/
def leftSpmmCsrN64 [Zero T] [One T] [Add T] [Mul T] [BEq T] (sched : List Nat) (layout : Layout) (opB : Op) (d n m : Int) (alpha : T)
    (A : CsrMat T) (ro co : Int) (B : Buf T) (ldb : Int) (beta : T) (ldc : Int) : M (Buf T) Unit := do
  M.require (A.indexBase = .Zero)
  M.require (A.nRows = d)
  M.require (A.nCols = m)
  M.require (ro = 0)
  M.require (co = 0)
  spmmScale64 layout opB d n m ldb beta ldc
  if alpha == 0 then pure ()
  else if layoutOp layout opB = .RowMajor ∧ layout = .RowMajor then csrLeftIkb64 sched alpha d n m A B ldb ldc
  else csrLeftJik64 sched alpha (layoutOp layout opB) layout d n m A B ldb ldc

/-- `left_spmm` for an untransposed COO matrix (RandBLAS/sparse_data/spmm_dispatch.hh:86-160). -/
def leftSpmmCooN64 [Zero T] [Add T] [Mul T] [BEq T] (w : Nat)
    (srt : (Int × Int × T → Int × Int × T → Bool) → List (Int × Int × T) → List (Int × Int × T))
    (sched : List Nat) (layout : Layout) (opB : Op) (d n m : Int) (alpha : T)
    (ro co : Int) (B : Buf T) (ldb : Int) (beta : T) (ldc : Int) : M (CooMat T × Buf T) Unit := do
  let s ← M.get
  M.require (s.1.indexBase = .Zero)
  M.require (s.1.nRows ≥ d)
  M.require (s.1.nCols ≥ m)
  onC (spmmScale64 layout opB d n m ldb beta ldc)
  if alpha == 0 then pure ()
  else cooLeftJki64 w srt sched alpha (layoutOp layout opB) layout d n m ro co B ldb ldc

/-- `left_spmm` (RandBLAS/sparse_data/spmm_dispatch.hh:48-160), for a sparse matrix with indices of `w` bits. -/
def leftSpmm64 [Zero T] [One T] [Add T] [Mul T] [BEq T] (w : Nat) (env : Env T) (layout : Layout) (opA opB : Op) (d n m : Int) (alpha : T)
    (ro co : Int) (B : Buf T) (ldb : Int) (beta : T) (ldc : Int) : M (SpMat T × Buf T) Unit := do
  let s ← M.get
  match s.1, opA with
  | .coo A, .NoTrans => asCoo A (leftSpmmCooN64 w env.srt env.sched layout opB d n m alpha ro co B ldb beta ldc)
  | .coo A, .Trans => do
    let At ← M.lift (cooTranspose A)
    asCooT A At (leftSpmmCooN64 w env.srt env.sched layout opB d n m alpha co ro B ldb beta ldc)
  | .csc A, .NoTrans => onC (leftSpmmCscN64 env.sched env.nt layout opB d n m alpha A ro co B ldb beta ldc)
  | .csc A, .Trans => do
    let At ← M.lift (transposeAsCsr A true)
    onC (leftSpmmCsrN64 env.sched layout opB d n m alpha At co ro B ldb beta ldc)
  | .csr A, .NoTrans => onC (leftSpmmCsrN64 env.sched layout opB d n m alpha A ro co B ldb beta ldc)
  | .csr A, .Trans => do
    let At ← M.lift (transposeAsCsc A true)
    onC (leftSpmmCscN64 env.sched env.nt layout opB d n m alpha At co ro B ldb beta ldc)

/-- `right_spmm` (RandBLAS/sparse_data/spmm_dispatch.hh:162-200). -/
def rightSpmm64 [Zero T] [One T] [Add T] [Mul T] [BEq T] (w : Nat) (env : Env T) (layout : Layout) (opA opB : Op) (m d n : Int) (alpha : T)
    (A : Buf T) (lda : Int) (iOff jOff : Int) (beta : T) (ldc : Int) : M (SpMat T × Buf T) Unit :=
  leftSpmm64 w env layout.flip opB.flip opA d m n alpha iOff jOff A lda beta ldc

end RB
