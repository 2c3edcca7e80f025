import Verif.Model.Util
import Verif.Model.Sampling
import Verif.Model.SparseData
import Verif.Model.Sketch64

/-!
# Utilities, conversions of sparse matrices and the remaining sketching functions with machine integers

The functions of `Model/Util.lean`, of the conversions in `Model/SparseData.lean`, `sample_indices_iid`, `sketch_vector` and `sketch_symmetric` once more:
every intermediate result of type `int64_t` is checked, and stores to arrays of an index type of `w` bits convert the value. A conversion to a narrower type is
reduction modulo 2^w (C++20); a result of an addition or product that is not representable is undefined.
-/

namespace RB
variable {N : Nat} {K W WS R T : Type}

/-- `(_i)*inter_row_stride + (_j)*inter_col_stride` (the macros in RandBLAS/util.hh:68, 131, 308, 353). -/
def at64 (s : Strides) (i j : Int) : Res Int := do
  let a ← i64 (i * s.irs)
  let b ← i64 (j * s.ics)
  i64 (a + b)

/-- `require_symmetric` (RandBLAS/util.hh:126-147). -/
def requireSymmetric64 [Field T] [LinearOrder T] (layout : Layout) (A : Buf T) (n lda : Int) (tol : T) : Res Unit :=
  if tol < 0 then .ok ()
  else
    let s := layoutToStrides layout lda
    forI 0 n fun i => do
      let first ← i64 (i + 1)
      forI first n fun j => do
        let p ← at64 s i j
        let aij ← A.rd p
        let q ← at64 s j i
        let aji ← A.rd q
        let viol := |aij - aji|
        let relTol := (|aij| + |aji| + 1) * tol
        Res.errorIf (viol > relTol)

/-- `symmetrize` (RandBLAS/util.hh:306-327). -/
def symmetrize64 (layout : Layout) (uplo : Uplo) (n lda : Int) : M (Buf T) Unit :=
  let s := layoutToStrides layout lda
  match uplo with
  | .Upper => forI 0 n fun i => do
      let first ← M.lift (i64 (i + 1))
      forI first n fun j => do
        let p ← M.lift (at64 s i j)
        let v ← M.rd p
        let q ← M.lift (at64 s j i)
        M.wr q v
  | .Lower => forI 0 n fun i => do
      let first ← M.lift (i64 (i + 1))
      forI first n fun j => do
        let p ← M.lift (at64 s j i)
        let v ← M.rd p
        let q ← M.lift (at64 s i j)
        M.wr q v
  | .General => pure ()

/-- `overwrite_triangle` (RandBLAS/util.hh:351-372). -/
def overwriteTriangle64 [Zero T] (layout : Layout) (toOverwrite : Uplo) (n k lda : Int) : M (Buf T) Unit :=
  let s := layoutToStrides layout lda
  match toOverwrite with
  | .Upper => forI 0 n fun i => do
      let first ← M.lift (i64 (i + k))
      forI first n fun j => do
        let p ← M.lift (at64 s i j)
        M.wr p 0
  | .Lower => forI 0 n fun i => do
      let first ← M.lift (i64 (i + k))
      forI first n fun j => do
        let p ← M.lift (at64 s j i)
        M.wr p 0
  | .General => M.throw .runtime

/-- `transpose_square` (RandBLAS/util.hh:382-392); the macro is `A[(_i) + lda*(_j)]`. -/
def transposeSquare64 (n lda : Int) : M (Buf T) Unit :=
  forI 0 n fun i => do
    let first ← M.lift (i64 (i + 1))
    forI first n fun j => do
      let a ← M.lift (i64 (lda * j))
      let p ← M.lift (i64 (i + a))
      let b ← M.lift (i64 (lda * i))
      let q ← M.lift (i64 (j + b))
      let x ← M.rd p
      let y ← M.rd q
      M.wr p y
      M.wr q x

/-- The part of `flip_layout` (RandBLAS/util.hh:98-111) after the argument checks. -/
def flipLayoutBody64 [Zero T] (layoutIn layoutOut : Layout) (m n : Int) (ldaIn ldaOut lenOut : Int) : M (Vec T) Unit := do
  let sIn := layoutToStrides layoutIn ldaIn
  let sOut := layoutToStrides layoutOut ldaOut
  let A ← M.get
  M.when (lenOut ≥ A.size) (M.modify (fun A => A.resize lenOut))
  let Ain ← M.get
  M.zoom (fun A : Vec T => A.buf) (fun A b => { A with buf := b })
    (omatcopy64 m n Ain.buf sIn.irs sIn.ics 0 sOut.irs sOut.ics)
  let A ← M.get
  M.ubIf (A.size < lenOut ∨ lenOut < 0)
  M.modify (fun A => A.resize lenOut)

/-- `flip_layout` (RandBLAS/util.hh:80-111). -/
def flipLayout64 [Zero T] (layoutIn : Layout) (m n : Int) (ldaIn ldaOut : Int) : M (Vec T) Unit :=
  if layoutIn = .ColMajor then do
    M.require (ldaIn ≥ m)
    M.require (ldaOut ≥ n)
    let len ← M.lift (i64 (ldaOut * m))
    flipLayoutBody64 layoutIn .RowMajor m n ldaIn ldaOut len
  else do
    M.require (ldaIn ≥ n)
    M.require (ldaOut ≥ m)
    let len ← M.lift (i64 (ldaOut * n))
    flipLayoutBody64 layoutIn .ColMajor m n ldaIn ldaOut len

/-- `sample_indices_iid` (RandBLAS/util.hh:452-474) with samples of `w` bits: `sint_t sample_index = std::lower_bound(...) - cdf` converts the difference. -/
def sampleIndicesIidW [Field R] [LinearOrder R] (w : Nat) (G : Gen N K W R) (n : Int) (cdf : Buf R) (k : Int) (state : RNGState N K) :
    M (Buf Int) (RNGState N K) := do
  let rv ← M.lift (G.uneg11Generate state.counter state.key)
  let (ctr, _, idx) ← foldI 0 k (fun i (st : ZMod N × Buf R × Int) => do
    let x ← M.lift (st.2.1.rd st.2.2)
    let s ← M.lift (lowerBound cdf (uneg11ToU01 x) n.toNat 0 n)
    M.wr i (wrapInt w s)
    M.lift (nextWord G state.key G.len st.1 st.2.1 (st.2.2 + 1))) (state.counter, rv, 0)
  pure { state with counter := finishCtr ctr idx }

/-! ## Sketches -/

/-- `sketch_vector` with offsets (RandBLAS/skve.hh:140-164). -/
def sketchVector64 [Field R] [LinearOrder R] [FloorRing R] [Zero T] [One T] [Neg T] [Add T] [Mul T] [BEq T] (w : Nat) (E : SkEnv N K W WS R T)
    (opS : Op) (d m : Int) (alpha : T) (roS coS : Int) (x : Buf T) (incx : Int) (beta : T) (incy : Int) : M (SkOp N K T × Buf T) Unit :=
  let d' := if opS = .Trans then m else d
  let m' := if opS = .Trans then d else m
  sketchGeneralL64 w E .RowMajor opS .NoTrans d' 1 m' alpha roS coS x incx beta incy

/-- `sketch_symmetric` from the right, with offsets (RandBLAS/sksy.hh:158-177). -/
def sketchSymmetricR64 [Field R] [LinearOrder R] [FloorRing R] [Field T] [LinearOrder T] (w : Nat) (E : SkEnv N K W WS R T)
    (layout : Layout) (n d : Int) (alpha : T) (A : Buf T) (lda : Int) (roS coS : Int) (beta : T) (ldb : Int) (tol : T) :
    M (SkOp N K T × Buf T) Unit := do
  M.lift (requireSymmetric64 layout A n lda tol)
  sketchGeneralR64 w E layout .NoTrans .NoTrans n d n alpha A lda roS coS beta ldb

/-- `sketch_symmetric` from the left, with offsets (RandBLAS/sksy.hh:293-312). -/
def sketchSymmetricL64 [Field R] [LinearOrder R] [FloorRing R] [Field T] [LinearOrder T] (w : Nat) (E : SkEnv N K W WS R T)
    (layout : Layout) (d n : Int) (alpha : T) (roS coS : Int) (A : Buf T) (lda : Int) (beta : T) (ldb : Int) (tol : T) :
    M (SkOp N K T × Buf T) Unit := do
  M.lift (requireSymmetric64 layout A n lda tol)
  sketchGeneralL64 w E layout .NoTrans .NoTrans d n n alpha roS coS A lda beta ldb

/-! ## Conversions of sparse matrices -/

/-- The inner loop of `coo_to_csc`, `coo_to_csr` (RandBLAS/sparse_data/conversions.hh:54-58, 95-99): `(sint_t2) coo.rows[ell]`. -/
def compressWhileW (w : Nat) (nnz : Int) (major minor : Buf Int) (cvals : Buf T) (j : Int) (fuel : Nat) (ell : Int) : M (CsBufs T) Int :=
  match fuel with
  | 0 => pure ell
  | fuel + 1 => do
    let c ← M.lift (major.rd ell)
    if c = j then do
      let i ← M.lift (minor.rd ell)
      onIdxs (M.wr ell (wrapInt w i))
      let v ← M.lift (cvals.rd ell)
      onCsVals (M.wr ell v)
      compressWhileW w nnz major minor cvals j fuel (ell + 1)
    else pure ell

/-- The sweep over sorted coordinate data (RandBLAS/sparse_data/conversions.hh:51-60, 92-101): `csc.colptr[j+1] = (sint_t2) ell`. -/
def compressSweepW (w : Nat) (nMajor nnz : Int) (major minor : Buf Int) (cvals : Buf T) : M (CsBufs T) Unit := do
  onPtr (M.wr 0 0)
  let _ ← foldI 0 nMajor (fun j ell => do
    let ell ← compressWhileW w nnz major minor cvals j (nnz - ell).toNat ell
    onPtr (M.wr (j + 1) (wrapInt w ell))
    pure ell) 0

/-- `coo_to_csc` (RandBLAS/sparse_data/conversions.hh:42-62) from a matrix with `int64_t` indices to one with indices of `w` bits. (A source with other
indices does not compile: `sort_coo_data(s, COOMatrix<T>&)` takes the default index type.) -/
def cooToCscW [Zero T] (w : Nat) (srt : (Int × Int × T → Int × Int × T → Bool) → List (Int × Int × T) → List (Int × Int × T)) :
    M (CooMat T × CscMat T) Unit := do
  let s ← M.get
  M.require (s.2.nRows = s.1.nRows)
  M.require (s.2.nCols = s.2.nCols)
  M.require (s.2.indexBase = .Zero)
  M.require (s.1.indexBase = .Zero)
  M.zoom Prod.fst (fun s c => (c, s.2)) (sortCooData srt .CSC)
  M.zoom Prod.snd (fun s c => (s.1, c)) (reserveCsc s.1.nnz)
  let s ← M.get
  M.zoom (fun s => s.2.bufs) (fun s b => (s.1, s.2.withBufs b))
    (compressSweepW w s.1.nCols s.1.nnz (ptr s.1.cols) (ptr s.1.rows) (ptr s.1.vals))

/-- `coo_to_csr` (RandBLAS/sparse_data/conversions.hh:84-103), see `cooToCscW`. -/
def cooToCsrW [Zero T] (w : Nat) (srt : (Int × Int × T → Int × Int × T → Bool) → List (Int × Int × T) → List (Int × Int × T)) :
    M (CooMat T × CsrMat T) Unit := do
  let s ← M.get
  M.require (s.2.nRows = s.1.nRows)
  M.require (s.2.nCols = s.1.nCols)
  M.require (s.2.indexBase = .Zero)
  M.require (s.1.indexBase = .Zero)
  M.zoom Prod.fst (fun s c => (c, s.2)) (sortCooData srt .CSR)
  M.zoom Prod.snd (fun s c => (s.1, c)) (reserveCsr s.1.nnz)
  let s ← M.get
  M.zoom (fun s => s.2.bufs) (fun s b => (s.1, s.2.withBufs b))
    (compressSweepW w s.1.nRows s.1.nnz (ptr s.1.rows) (ptr s.1.cols) (ptr s.1.vals))

/-- `x[ell] += by` for an index type of `w` bits. For `w < 32` the sum is computed as `int` and converted back; for wider types the sum itself
must be representable. Used to model RandBLAS/sparse_data/conversions.hh:176-183. -/
def addIdxW (w : Nat) (x by' : Int) : Res Int := if w < 32 then .ok (wrapInt w (x + by')) else intW w (x + by')

/-- `for (ell = 0; ell < nnz; ++ell) x[ell] += by;` (RandBLAS/sparse_data/conversions.hh:176-183, 191-198). -/
def shiftIdxsW (w : Nat) (nnz by' : Int) : M (Buf Int) Unit := forI 0 nnz fun ell => do
  let x ← M.rd ell
  let y ← M.lift (addIdxW w x by')
  M.wr ell y

/-- `reindex_inplace(CSCMatrix)` (RandBLAS/sparse_data/conversions.hh:173-186). -/
def reindexCscW (w : Nat) (desired : IndexBase) : M (CscMat T) Unit := do
  let A ← M.get
  M.when (A.indexBase ≠ desired) (do
    M.zoom (fun A : CscMat T => ptr A.rowidxs) (fun A b => { A with rowidxs := A.rowidxs.map fun _ => b })
      (shiftIdxsW w A.nnz (reindexShift A.indexBase))
    M.modify fun A => { A with indexBase := desired })

/-- `reindex_inplace(CSRMatrix)` (RandBLAS/sparse_data/conversions.hh:188-201). -/
def reindexCsrW (w : Nat) (desired : IndexBase) : M (CsrMat T) Unit := do
  let A ← M.get
  M.when (A.indexBase ≠ desired) (do
    M.zoom (fun A : CsrMat T => ptr A.colidxs) (fun A b => { A with colidxs := A.colidxs.map fun _ => b })
      (shiftIdxsW w A.nnz (reindexShift A.indexBase))
    M.modify fun A => { A with indexBase := desired })

/-- `reindex_inplace(COOMatrix)` (RandBLAS/sparse_data/conversions.hh:203-220). -/
def reindexCooW (w : Nat) (desired : IndexBase) : M (CooMat T) Unit := do
  let A ← M.get
  M.when (A.indexBase ≠ desired) (do
    M.zoom CooMat.bufs CooMat.withBufs (forI 0 A.nnz fun ell => do
      let r ← onCRows (M.rd ell)
      let r' ← M.lift (addIdxW w r (reindexShift A.indexBase))
      onCRows (M.wr ell r')
      let c ← onCCols (M.rd ell)
      let c' ← M.lift (addIdxW w c (reindexShift A.indexBase))
      onCCols (M.wr ell c'))
    M.modify fun A => { A with indexBase := desired })

end RB
