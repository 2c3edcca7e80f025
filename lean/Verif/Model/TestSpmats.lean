import Verif.Model.ExData
import Verif.Model.TestLinop
import Verif.Model.TestCompare

/-!
# Model of the sparse test data and the conversion tests (test/test_datastructures/test_spmats)

The helpers of common.hh and the tests of test_csc.cc, test_csr.cc, test_coo.cc that convert diagonal and random matrices.
-/

namespace RB
variable {N : Nat} {K W T : Type}

/-! ## Random sparse data -/

/-- One entry of `iid_sparsify_random_dense` (test/test_datastructures/test_spmats/common.hh:75-82). -/
def sparsifyEntryTest [Field T] [LinearOrder T] (p : T) (nRows sr sc : Int) (spar temp : Buf T) (i j : Int) : M (Buf T) Unit := do
  let s ← M.lift (spar.rd (i + j * nRows))
  let v := (s + 1) / 2
  if v < p then M.wr (i * sr + j * sc) 0
  else do
    let x ← M.lift (temp.rd (i + j * nRows))
    M.wr (i * sr + j * sc) x

/-- `iid_sparsify_random_dense` with strides (test/test_datastructures/test_spmats/common.hh:48-85). A negative array size raises an error. `sqrt3` is the constant of
`fill_dense`; `s1`, `s2` are the schedules of the parallel loops in the two calls. -/
def iidSparsifyTest [Field T] [LinearOrder T] (s1 s2 : List Nat) (G : Gen N K W T) (sqrt3 : T) (nRows nCols sr sc : Int) (p : T) (seed : RNGState N K) :
    M (Buf T) Unit := do
  if nRows * nCols < 0 then M.throw .runtime else do
    let D ← M.lift (mkDenseDist nRows nCols .Uniform .Long)
    let (next, spar) ← M.onLocal (fillDense s1 G sqrt3 D seed) (Buf.alloc T (nRows * nCols))
    let (_, temp) ← M.onLocal (fillDense s2 G sqrt3 D next) (Buf.alloc T (nRows * nCols))
    forI 0 nRows fun i => forI 0 nCols fun j => sparsifyEntryTest p nRows sr sc spar temp i j

/-- `iid_sparsify_random_dense` with a layout (test/test_datastructures/test_spmats/common.hh:88-103). -/
def iidSparsifyLayout [Field T] [LinearOrder T] (s1 s2 : List Nat) (G : Gen N K W T) (sqrt3 : T) (nRows nCols : Int) (layout : Layout) (p : T) (seed : RNGState N K) :
    M (Buf T) Unit :=
  if layout = .ColMajor then iidSparsifyTest s1 s2 G sqrt3 nRows nCols 1 nRows p seed else iidSparsifyTest s1 s2 G sqrt3 nRows nCols nCols 1 p seed

/-! ## Diagonals -/

/-- The body of the loops of `coo_from_diag` (test/test_datastructures/test_spmats/common.hh:117-120, 124-127); `r`, `c` are the shifts of the row and the column. -/
def diagStep (vals : Buf T) (r c ell : Int) : M (CooBufs T) Unit := do
  onCRows (M.wr ell (ell + r))
  onCCols (M.wr ell (ell + c))
  let v ← M.lift (vals.rd ell)
  onCVals (M.wr ell v)

/-- `coo_from_diag` (test/test_datastructures/test_spmats/common.hh:105-131). -/
def cooFromDiag (vals : Buf T) (nnz offset : Int) : M (CooMat T) Unit := do
  reserveCoo nnz
  if offset ≥ 0 then do
    let A ← M.get
    M.require (nnz ≤ A.nRows)
    M.zoom CooMat.bufs CooMat.withBufs (forI 0 nnz (diagStep vals 0 offset))
  else M.zoom CooMat.bufs CooMat.withBufs (forI 0 nnz (diagStep vals (-offset) 0))

/-- The length of the diagonal (test/test_datastructures/test_spmats/test_csc.cc:77, test/test_datastructures/test_spmats/test_csr.cc:101). -/
def diagLen (m n offset : Int) : Int := if offset ≥ 0 then min m (n - offset) else min (m + offset) n

/-- The values of the diagonal (test/test_datastructures/test_spmats/test_csc.cc:79-81, test/test_datastructures/test_spmats/test_csr.cc:103-105). The loop counter is an `int`: the increment
after the last iteration overflows if the length is at least the largest `int`. -/
def diagValues [Field T] (len : Int) : M (Buf T) Unit := do
  forI 1 (len + 1) fun i => M.wr (i - 1) ((i : T) * (1 / 2))
  if intMax 32 ≤ len then M.lift .ub else pure ()

/-- The expected matrix (test/test_datastructures/test_spmats/test_csc.cc:83-91, test/test_datastructures/test_spmats/test_csr.cc:107-115). -/
def diagExpect (diag : Buf T) (m len offset : Int) : M (Buf T) Unit :=
  if offset ≥ 0 then forI 0 len fun ell => do
    let v ← M.lift (diag.rd ell)
    M.wr (ell + m * (ell + offset)) v
  else forI 0 len fun ell => do
    let v ← M.lift (diag.rd ell)
    M.wr ((ell - offset) + m * ell) v

/-- The data of both diagonal tests: the expected matrix and the COO matrix. Used to model test/test_datastructures/test_spmats/test_csc.cc:75-110. -/
def diagData [Field T] (m n offset : Int) : M Unit (Buf T × CooMat T) := do
  let len := diagLen m n offset
  M.require (len > 0)
  let diag ← M.onLocal (diagValues len) (zeroVec len)
  let expect ← M.onLocal (diagExpect diag.2 m len offset) (zeroVec (m * n))
  let coo ← M.onLocal (cooFromDiag diag.2 len offset) (mkCoo m n)
  pure (expect.2, coo.2)

/-- `test_csc_from_diag_coo` (test/test_datastructures/test_spmats/test_csc.cc:75-110). `srt` is `std::sort`, `atol`, `rtol` the tolerances of the comparison. -/
def testCscFromDiag [Field T] [LinearOrder T] (srt : (Int × Int × T → Int × Int × T → Bool) → List (Int × Int × T) → List (Int × Int × T)) (atol rtol : T) (m n offset : Int) : M Unit (Option (Int × Int)) := do
  let d ← diagData m n offset
  let q ← M.onLocal (cooToCsc srt) (d.2, mkCsc m n)
  let actual ← M.onLocal (cscToDense q.2.2 .ColMajor) (zeroVec (m * n))
  M.lift (matricesApproxEqual .ColMajor .ColMajor .NoTrans m n (fltBuf d.1) m (fltBuf actual.2) m (.fin atol) (.fin rtol))

/-- `test_csr_from_diag_coo` (test/test_datastructures/test_spmats/test_csr.cc:99-134). -/
def testCsrFromDiag [Field T] [LinearOrder T] (srt : (Int × Int × T → Int × Int × T → Bool) → List (Int × Int × T) → List (Int × Int × T)) (atol rtol : T) (m n offset : Int) : M Unit (Option (Int × Int)) := do
  let d ← diagData m n offset
  let q ← M.onLocal (cooToCsr srt) (d.2, mkCsr m n)
  let actual ← M.onLocal (csrToDense q.2.2 .ColMajor) (zeroVec (m * n))
  M.lift (matricesApproxEqual .ColMajor .ColMajor .NoTrans m n (fltBuf d.1) m (fltBuf actual.2) m (.fin atol) (.fin rtol))

/-! ## Random matrices -/

/-- `test_csc_from_random_sparsified` (test/test_datastructures/test_spmats/test_csc.cc:50-72): the first index where the reconstruction differs. -/
def testCscFromRandom [Field T] [LinearOrder T] (s1 s2 : List Nat) (G : Gen N K W T) (sqrt3 atol rtol : T) (layout : Layout) (m n : Int) (p : T) (seed : RNGState N K) :
    M Unit (Option Int) := do
  let dn ← M.onLocal (iidSparsifyLayout s1 s2 G sqrt3 m n layout p seed) (Buf.alloc T (m * n))
  let sp ← M.onLocal (denseToCsc layout dn.2 0) (mkCsc m n)
  let recon ← M.onLocal (cscToDense sp.2 layout) (Buf.alloc T (m * n))
  M.lift (buffsApproxEqual (fltBuf dn.2) (fltBuf recon.2) (m * n) (.fin atol) (.fin rtol))

/-- `test_csr_from_random_sparsified` (test/test_datastructures/test_spmats/test_csr.cc:75-97). -/
def testCsrFromRandom [Field T] [LinearOrder T] (s1 s2 : List Nat) (G : Gen N K W T) (sqrt3 atol rtol : T) (layout : Layout) (m n : Int) (p : T) (seed : RNGState N K) :
    M Unit (Option Int) := do
  let dn ← M.onLocal (iidSparsifyLayout s1 s2 G sqrt3 m n layout p seed) (Buf.alloc T (m * n))
  let sp ← M.onLocal (denseToCsr layout dn.2 0) (mkCsr m n)
  let recon ← M.onLocal (csrToDense sp.2 layout) (Buf.alloc T (m * n))
  M.lift (buffsApproxEqual (fltBuf dn.2) (fltBuf recon.2) (m * n) (.fin atol) (.fin rtol))

/-- `test_to_from_dense` (test/test_datastructures/test_spmats/test_coo.cc:72-88): the first index where the reconstruction differs, and the number of entries, for
the two other checks. `p` is 0.8. -/
def testCooToFromDense [Field T] [LinearOrder T] (s1 s2 : List Nat) (G : Gen N K W T) (sqrt3 atol rtol : T) (n : Int) (p : T) (seed : RNGState N K) :
    M Unit (Option Int × Int) := do
  let actual ← M.onLocal (iidSparsifyLayout s1 s2 G sqrt3 n n .ColMajor p seed) (zeroVec (n * n))
  let A ← M.onLocal (denseToCooStr 1 n actual.2 0) (mkCoo n n)
  let expect ← M.onLocal (cooToDenseStr A.2 1 n) (zeroVec (n * n))
  let r ← M.lift (buffsApproxEqual (fltBuf actual.2) (fltBuf expect.2) (n * n) (.fin atol) (.fin rtol))
  pure (r, A.2.nnz)

end RB
