import Verif.Model.TestSpmats
import Verif.Model.Sketch

/-!
# Model of the transposition tests (test/test_datastructures/test_spmats/test_conversions.cc) and of further tests of test_coo.cc and test_csr.cc
-/

namespace RB
variable {N : Nat} {K W R T : Type}

/-- `test_transposed_csr_as_csc` (test/test_datastructures/test_spmats/test_conversions.cc:48-74): the results of the two comparisons. The copy has its own arrays (C29), so
setting the values of the original to zero does not change it: the model keeps the new values of the original apart. -/
def testTransposedCsrAsCsc [Field T] [LinearOrder T] (s1 s2 : List Nat) (G : Gen N K W T) (sqrt3 atol rtol : T) (n m : Int) (p : T) (seed : RNGState N K) :
    M Unit (Option (Int × Int) × Option (Int × Int)) := do
  let dn ← M.onLocal (iidSparsifyLayout s1 s2 G sqrt3 m n .ColMajor p seed) (zeroVec (m * n))
  let A ← M.onLocal (denseToCsr .ColMajor dn.2 0) (mkCsr m n)
  let view ← M.lift (transposeAsCsc A.2 true)
  let At ← M.onLocal (cscToDense view .ColMajor) (zeroVec (n * m))
  let r1 ← M.lift (matricesApproxEqual1 .ColMajor .Trans m n (fltBuf dn.2) m (fltBuf At.2) n (.fin atol) (.fin rtol))
  let copy ← M.lift (transposeAsCsc A.2 false)
  let At0 ← M.onLocal (blasScal (m * n) 0 0 1) At.2
  let _ ← M.onLocal (blasScal A.2.nnz 0 0 1) (ptr A.2.vals)
  let At2 ← M.onLocal (cscToDense copy .ColMajor) At0.2
  let r2 ← M.lift (matricesApproxEqual1 .ColMajor .Trans m n (fltBuf dn.2) m (fltBuf At2.2) n (.fin atol) (.fin rtol))
  pure (r1, r2)

/-- `test_transposed_csc_as_csr` (test/test_datastructures/test_spmats/test_conversions.cc:76-102). The same remark. -/
def testTransposedCscAsCsr [Field T] [LinearOrder T] (s1 s2 : List Nat) (G : Gen N K W T) (sqrt3 atol rtol : T) (n m : Int) (p : T) (seed : RNGState N K) :
    M Unit (Option (Int × Int) × Option (Int × Int)) := do
  let dn ← M.onLocal (iidSparsifyLayout s1 s2 G sqrt3 m n .ColMajor p seed) (zeroVec (m * n))
  let A ← M.onLocal (denseToCsc .ColMajor dn.2 0) (mkCsc m n)
  let view ← M.lift (transposeAsCsr A.2 true)
  let At ← M.onLocal (csrToDense view .ColMajor) (zeroVec (n * m))
  let r1 ← M.lift (matricesApproxEqual1 .ColMajor .Trans m n (fltBuf dn.2) m (fltBuf At.2) n (.fin atol) (.fin rtol))
  let copy ← M.lift (transposeAsCsr A.2 false)
  let At0 ← M.onLocal (blasScal (m * n) 0 0 1) At.2
  let _ ← M.onLocal (blasScal A.2.nnz 0 0 1) (ptr A.2.vals)
  let At2 ← M.onLocal (csrToDense copy .ColMajor) At0.2
  let r2 ← M.lift (matricesApproxEqual1 .ColMajor .Trans m n (fltBuf dn.2) m (fltBuf At2.2) n (.fin atol) (.fin rtol))
  pure (r1, r2)

/-! ## The sort order of COO matrices -/

/-- One of the three parts of `test_sort_order` (test/test_datastructures/test_spmats/test_coo.cc:100-103, 105-108, 110-113): the two values that the test compares with `s`. -/
def sortAndDetect (srt : (Int × Int × T → Int × Int × T → Bool) → List (Int × Int × T) → List (Int × Int × T)) (s : NonzeroSort) : M (CooMat T) (NonzeroSort × NonzeroSort) := do
  sortCooData srt s
  let A ← M.get
  let d ← M.lift (cooSortType A.nnz (ptr A.rows) (ptr A.cols))
  pure (A.sort, d)

/-- The three parts of `test_sort_order` (test/test_datastructures/test_spmats/test_coo.cc:100-113). -/
def sortThrice (srt : (Int × Int × T → Int × Int × T → Bool) → List (Int × Int × T) → List (Int × Int × T)) : M (CooMat T) (List (NonzeroSort × NonzeroSort)) := do
  let a ← sortAndDetect srt .CSC
  let b ← sortAndDetect srt .CSR
  let c ← sortAndDetect srt .CSC
  pure [a, b, c]

/-- `test_sort_order` (test/test_datastructures/test_spmats/test_coo.cc:92-115): the compared values. `p` is 0.25. -/
def testSortOrder [Field T] [LinearOrder T] (srt : (Int × Int × T → Int × Int × T → Bool) → List (Int × Int × T) → List (Int × Int × T)) (s1 s2 : List Nat) (G : Gen N K W T)
    (sqrt3 : T) (n : Int) (p : T) (seed : RNGState N K) : M Unit (List (NonzeroSort × NonzeroSort)) := do
  let mat ← M.onLocal (iidSparsifyLayout s1 s2 G sqrt3 n n .ColMajor p seed) (zeroVec (n * n))
  let A ← M.onLocal (denseToCooStr 1 n mat.2 0) (mkCoo n n)
  let r ← M.onLocal (sortThrice srt) A.2
  pure r.1

/-! ## The diagonal CSR matrix -/

/-- The body of the first loop of `test_csr_to_dense_diagonal` (test/test_datastructures/test_spmats/test_csr.cc:56-58). -/
def diagCsrStep [Field T] (i : Int) : M (CsBufs T) Unit := do
  onCsVals (M.wr i (1 + (i : T)))
  onPtr (M.wr i i)
  onIdxs (M.wr i i)

/-- The CSR matrix of `test_csr_to_dense_diagonal` (test/test_datastructures/test_spmats/test_csr.cc:53-60). The loop counter is an `int`: it overflows if `n` is more than the
largest `int`. -/
def diagCsr [Field T] (n : Int) : M (CsrMat T) Unit := do
  reserveCsr n
  M.zoom CsrMat.bufs CsrMat.withBufs (do
    forI 0 n diagCsrStep
    if intMax 32 < n then M.lift .ub else pure ()
    onPtr (M.wr n n))

/-- `test_csr_to_dense_diagonal` (test/test_datastructures/test_spmats/test_csr.cc:51-73): the first index where the dense matrix differs from the expected one. The array `mat`
is not initialised, `eye` is zero. (The second loop has the same counter.) -/
def testCsrToDenseDiagonal [Field T] [LinearOrder T] (atol rtol : T) (n : Int) : M Unit (Option Int) := do
  let A ← M.onLocal (diagCsr n) (mkCsr n n)
  let mat ← M.onLocal (csrToDenseStr A.2 1 n) (Buf.alloc T (n * n))
  let eye ← M.onLocal (forI 0 n fun i => M.wr (i + n * i) (1 + (i : T))) (zeroVec (n * n))
  M.lift (buffsApproxEqual (fltBuf mat.2) (fltBuf eye.2) (n * n) (.fin atol) (.fin rtol))

/-! ## Sparse operators as COO matrices -/

/-- `sparseskop_to_dense` (test/test_datastructures/test_spmats/test_coo.cc:44-64). -/
def sparseskopToDense [Zero T] (S : SparseSkOp N K T) (layout : Layout) : M (Buf T) Unit := do
  forI 0 (S.dist.nRows * S.dist.nCols) fun i => M.wr i 0
  forI 0 S.nnz fun i => do
    let row ← M.lift ((ptr S.rows).rd i)
    let col ← M.lift ((ptr S.cols).rd i)
    let val ← M.lift ((ptr S.vals).rd i)
    M.wr (if layout = .ColMajor then row + col * S.dist.nRows else col + row * S.dist.nCols) val

/-- `sparse_skop_to_coo` (test/test_datastructures/test_spmats/test_coo.cc:142-166): whether the checks of the members hold, and the first index where the dense matrices
differ. -/
def testSkopToCoo [Field R] [LinearOrder R] [FloorRing R] [Field T] [LinearOrder T] (G : Gen N K W R) (sqrt : T → T) (order : Int → List (Int × T) → List (Int × T)) (atol rtol : T)
    (d m vecNnz : Int) (axis : Axis) (seed : RNGState N K) : M Unit (Bool × Option Int) := do
  let D ← M.lift (mkSparseDist d m vecNnz axis)
  let r ← M.onLocal (cooViewOfSkop G sqrt order) (mkSparseSkOp G.len D seed)
  let A := r.1
  let S := r.2
  let ok := S.dist.nRows = A.nRows ∧ S.dist.nCols = A.nCols ∧ (axis = .Short → S.dist.fullNnz = A.nnz) ∧ S.dist.fullNnz ≥ A.nnz ∧ S.nnz = A.nnz
  let Sd ← M.onLocal (sparseskopToDense S .ColMajor) (zeroVec (d * m))
  let Ad ← M.onLocal (cooToDense A .ColMajor) (zeroVec (d * m))
  let e ← M.lift (buffsApproxEqual (fltBuf Sd.2) (fltBuf Ad.2) (d * m) (.fin atol) (.fin rtol))
  pure (decide ok, e)

end RB
