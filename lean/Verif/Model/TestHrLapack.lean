import Verif.Model.HrEig
import Verif.Model.TestLinop

/-!
# Model of the tests of the handrolled linear algebra (test/test_handrolled_lapack.cc)

The routine under test is a parameter of the modelled tests, so that they can be judged as tests of any program. Arithmetic is exact; `eps` stands for
`std::numeric_limits<T>::epsilon()`, `sqrt` for `std::sqrt`, `iso` for the member `isometry_scale` of the distribution (`Model/Isometry.lean`), `atol` and `rtol` for the default
tolerances of the comparison. A product of two `int`s that is too large is undefined behaviour. A check that fails returns from the helper that makes it, not from the test.
The output of the tests to the screen is not modelled.
-/

namespace RB
variable {N : Nat} {K W WS R T : Type}

section
variable [Field T] [LinearOrder T]

/-! ## Cholesky -/

/-- Lines 38-39 and 48-49 of test/test_handrolled_lapack.cc: `iso_scale * B^T * B` for the m x n matrix B, both triangles. The state is the buffer of the n x n result. Used to model test/test_handrolled_lapack.cc:25-54. -/
def gramOf (m n : Int) (scale : T) (B : Buf T) : M (Buf T) Unit := do
  syrkUpperTrans n m scale B 0 m 0 n
  symmetrize .ColMajor .Upper n n

/-- `run_factor_gram_matrix` (test/test_handrolled_lapack.cc:25-54). `chol n` is the routine under test, `cholfunc`; its result is ignored. The vector C is a copy of the first
contents of B. -/
def testGram (E : SkEnv N K W WS R T) (iso atol rtol : T) (chol : Int → M (Buf T) Int) (n : Int) (seed : RNGState N K) : M Unit (Option (Int × Int)) := do
  M.ubIf (intMax 32 < 2 * n)
  let m := 2 * n
  let D ← M.lift (mkDenseDist m n .Gaussian .Long)
  M.ubIf (intMax 32 < n * n)
  let C ← M.onLocal (fillDense E.env.sched E.G E.sqrt3 D seed) (zeroVec (m * n))
  let A ← M.onLocal (do
    gramOf m n (iso * iso) C.2
    let _ ← chol n
    overwriteTriangle .ColMajor .Lower n 1 n) (zeroVec (n * n))
  let B ← M.onLocal (gramOf n n 1 A.2) C.2
  let A2 ← M.onLocal (gramOf m n (iso * iso) C.2) A.2
  M.lift (matricesApproxEqual1 .ColMajor .NoTrans n n (fltBuf B.2) n (fltBuf A2.2) n (.fin atol) (.fin rtol))

/-- `run_sequential_factor_gram_matrix` (test/test_handrolled_lapack.cc:56-60). -/
def testGramSeq (E : SkEnv N K W WS R T) (sqrt : T → T) (iso atol rtol : T) (n : Int) (seed : RNGState N K) : M Unit (Option (Int × Int)) :=
  testGram E iso atol rtol (fun n => potrfSeq sqrt n n) n seed

/-- `run_blocked_factor_gram_matrix` (test/test_handrolled_lapack.cc:62-66). -/
def testGramBlocked (E : SkEnv N K W WS R T) (sqrt : T → T) (iso atol rtol : T) (n b : Int) (seed : RNGState N K) : M Unit (Option (Int × Int)) :=
  testGram E iso atol rtol (fun n => potrfUpper sqrt n n b) n seed

/-- `run_blocked_factor_diagonal` (test/test_handrolled_lapack.cc:68-81). `chol` is the routine under test, in the code `potrf_upper(n, A, n, b)`; its result is ignored. -/
def testCholDiag (sqrt : T → T) (atol rtol : T) (chol : M (Buf T) Int) (n : Int) : M Unit (Option (Int × Int)) := do
  M.ubIf (intMax 32 < n * n)
  let s ← M.onLocal (forI 0 n fun i => do
    onFst (M.wr (i + i * n) (1 / ((i : T) + 1)))
    let a ← onFst (M.rd (i + i * n))
    onSnd (M.wr (i + i * n) (sqrt a))) (zeroVec (n * n), zeroVec (n * n))
  let A ← M.onLocal chol s.2.1
  M.lift (matricesApproxEqual1 .ColMajor .NoTrans n n (fltBuf s.2.2) n (fltBuf A.2) n (.fin atol) (.fin rtol))

/-! ## QR -/

/-- Lines 143-146 of test/test_handrolled_lapack.cc: the absolute values of `size` numbers, in a new vector. Used to model test/test_handrolled_lapack.cc:132-152. -/
def absCopy (size : Int) (A : Buf T) : M (Buf T) Unit := do
  blasCopy size A 0 1 0 1
  forI 0 size fun i => do
    let v ← M.rd i
    M.wr i |v|

/-- `verify_product` (test/test_handrolled_lapack.cc:132-152): the position of the first element of C that is not within its bound of the product A * B, if any. -/
def verifyProduct (eps : T) (m n k : Int) (A B C : Buf T) : M Unit (Option Int) := do
  let Cw ← M.onLocal (blasGemm .ColMajor .NoTrans .NoTrans m n k 1 A 0 m B 0 k 0 0 m) (zeroVec (m * n))
  let Ac ← M.onLocal (absCopy (m * k) A) (zeroVec (m * k))
  let Bc ← M.onLocal (absCopy (k * n) B) (zeroVec (k * n))
  let Eb ← M.onLocal (blasGemm .ColMajor .NoTrans .NoTrans m n k (2 * (k : T) * eps) Ac.2 0 m Bc.2 0 k 0 0 m) (zeroVec (m * n))
  M.lift (buffsWithinBounds (fltBuf Cw.2) (fltBuf C) (fltBuf Eb.2) (m * n))

/-- `verify_orthonormal_componentwise` (test/test_handrolled_lapack.cc:154-166): an entry of Q^T Q that is too far from that of the identity, if any. -/
def verifyOrtho (sqrt : T → T) (eps : T) (m n : Int) (Q : Buf T) (maxCond : T) : M Unit (Option (Int × Int)) := do
  M.ubIf (intMax 32 < n * n)
  let I ← M.onLocal (forI 0 n fun i => M.wr (i + i * n) 1) (zeroVec (n * n))
  let tol := maxCond * sqrt (m : T) * eps
  let G ← M.onLocal (blasGemm .ColMajor .Trans .NoTrans n n m 1 Q 0 m Q 0 m 0 0 n) (zeroVec (n * n))
  M.lift (matricesApproxEqual1 .ColMajor .NoTrans n n (fltBuf G.2) n (fltBuf I.2) n (.fin tol) (.fin tol))

/-- `run_cholqr_gaussian` and `run_qr_blocked_cgs` (test/test_handrolled_lapack.cc:173-187, 189-204): what the two checks report. They differ in the number of elements of R,
`rsize`, and in the routine under test, `qr`, whose state is the pair of the buffers of Q and R. 10 is the default of `max_cond`. -/
def testQr (E : SkEnv N K W WS R T) (sqrt : T → T) (iso eps : T) (rsize : Int) (qr : M (Buf T × Buf T) Unit) (m n : Int) (seed : RNGState N K) :
    M Unit (Option (Int × Int) × Option Int) := do
  let D ← M.lift (mkDenseDist m n .Gaussian .Long)
  M.ubIf (intMax 32 < m * n)
  let A ← M.onLocal (do
    let _ ← fillDense E.env.sched E.G E.sqrt3 D seed
    blasScal (m * n) iso 0 1) (zeroVec (m * n))
  M.ubIf (intMax 32 < rsize)
  let q ← M.onLocal qr (A.2, zeroVec rsize)
  let r1 ← verifyOrtho sqrt eps m n q.2.1 10
  let r2 ← verifyProduct eps m n n q.2.1 q.2.2 A.2
  pure (r1, r2)

/-- `run_cholqr_gaussian` (test/test_handrolled_lapack.cc:173-187). -/
def testCholQr (E : SkEnv N K W WS R T) (sqrt : T → T) (iso eps : T) (m n b : Int) (seed : RNGState N K) : M Unit (Option (Int × Int) × Option Int) :=
  testQr E sqrt iso eps (2 * n * n) (cholQr sqrt m n b true) m n seed

/-- `qr_block_cgs2` with an empty workspace (test/test_handrolled_lapack.cc:200-201, 255-256). -/
def cgs2Fresh (sqrt : T → T) (m n b : Int) : M (Buf T × Buf T) Unit :=
  M.zoom (fun s => (s, (⟨0, fun _ => .none⟩ : Vec T))) (fun _ t => t.1) (qrBlockCgs2 sqrt m n b)

/-- `run_qr_blocked_cgs` (test/test_handrolled_lapack.cc:189-204). -/
def testCgs2 (E : SkEnv N K W WS R T) (sqrt : T → T) (iso eps : T) (m n b : Int) (seed : RNGState N K) : M Unit (Option (Int × Int) × Option Int) :=
  testQr E sqrt iso eps (n * n) (cgs2Fresh sqrt m n b) m n seed

/-! ## Eigenvalues -/

/-- `posdef_with_random_eigvecs` (test/test_handrolled_lapack.cc:244-263). `n` is the size of the vector `eigvals`. The loop counter of type `int` (line 257) is an integer: a matrix
of more than 2^31 columns does not fit in memory. 64 is the default block size of `qr_block_cgs2`. -/
def posdefRandom (E : SkEnv N K W WS R T) (sqrt : T → T) (n : Int) (eigvals : Buf T) (seed : RNGState N K) : M Unit (Buf T) := do
  forI 0 n fun i => do
    let ev ← M.lift (eigvals.rd i)
    M.require (ev > 0)
  let D ← M.lift (mkDenseDist n n .Gaussian .Long)
  let w ← M.onLocal (fillDense E.env.sched E.G E.sqrt3 D seed) (zeroVec (n * n))
  let q ← M.onLocal (cgs2Fresh sqrt n n 64) (w.2, zeroVec (n * n))
  let w ← M.onLocal (forI 0 n fun i => do
    let ev ← M.lift (eigvals.rd i)
    blasScal n (sqrt ev) (i * n) 1) q.2.1
  let out ← M.onLocal (do
    syrkUpperNoTrans n n w.2 0 n n
    symmetrize .ColMajor .Upper n n) (zeroVec (n * n))
  pure out.2

/-- What `run_diag` reports: the wrong number of iterations, or the position of a wrong eigenvalue. Used to model test/test_handrolled_lapack.cc:268-283. -/
inductive DiagReport where
  | iters (iter : Int)
  | eigval (i : Int)
deriving DecidableEq

/-- `run_diag` (test/test_handrolled_lapack.cc:268-283). `eig` is the routine under test, in the code `posdef_eig_chol_iteration(n, A, eigvals, tol, 1, b)`; its state is the pair of the
buffers of A and of the eigenvalues. `tol` stands for 1e-3. -/
def testEigDiag (tol : T) (eig : M (Buf T × Buf T) Int) (n : Int) : M Unit (Option DiagReport) := do
  M.ubIf (intMax 32 < n * n)
  let s ← M.onLocal (forI 0 n fun i => do
    onSnd (M.wr i (1 / (1 + (i : T))))
    let e ← onSnd (M.rd i)
    onFst (M.wr (i + i * n) e)) (zeroVec (n * n), zeroVec n)
  let r ← M.onLocal eig (s.2.1, zeroVec n)
  if r.1 ≠ 0 then pure (some (.iters r.1))
  else do
    let p ← M.lift (buffsApproxEqual (fltBuf r.2.2) (fltBuf s.2.2) n (.fin tol) (.fin tol))
    pure (p.map DiagReport.eigval)

/-- `run_power_general_posdef` (test/test_handrolled_lapack.cc:306-329): whether the checks of the smallest and of the largest eigenvalue fail. `eigs A` is the routine under test, in the
code `exeigs_powermethod` with random start vectors; it returns the largest and the smallest eigenvalue, in this order. `tol` stands for 1e-3. -/
def testPower (E : SkEnv N K W WS R T) (sqrt : T → T) (tol : T) (eigs : Buf T → M (Buf T) (T × T)) (n : Int) (seed : RNGState N K) : M Unit (Bool × Bool) := do
  let ev ← M.onLocal (forI 0 n fun i => M.wr i (2 / sqrt (1 + (i : T)))) (zeroVec n)
  let A ← posdefRandom E sqrt n ev.2 seed
  M.ubIf (intMax 32 < 2 * n)
  let r ← M.onLocal (eigs A) (zeroVec (2 * n))
  let lo ← M.lift (ev.2.rd (n - 1))
  let hi ← M.lift (ev.2.rd 0)
  pure (approxEqualFails (.fin r.1.2) (.fin lo) (.fin tol) (.fin tol), approxEqualFails (.fin r.1.1) (.fin hi) (.fin tol) (.fin tol))

end
end RB
