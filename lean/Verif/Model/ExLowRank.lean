import Verif.Model.Spmm
import Verif.Model.DenseSkops
import Verif.Model.ExLapack

/-! # Model of examples/sparse-low-rank-approx/svd_rank1_plus_noise.cc and svd_matrixmarket.cc -/

namespace RB

variable {T : Type}

/-! ## The sum of two sparse matrices -/

/-- A key of `c_dict`. Used to model examples/sparse-low-rank-approx/svd_rank1_plus_noise.cc:125-128. -/
abbrev Coord := Int × Int

/-- The first loop of `sum_of_coo_matrices` (examples/sparse-low-rank-approx/svd_rank1_plus_noise.cc:125-128): `c_dict[(i, j)] = A.vals[ell]`. -/
def cooDictSet (A : CooMat T) (d : List (Coord × T)) : M (CooMat T) (List (Coord × T)) :=
  foldI 0 A.nnz (fun ell d => do
    let i ← M.lift ((ptr A.rows).rd ell)
    let j ← M.lift ((ptr A.cols).rd ell)
    let v ← M.lift ((ptr A.vals).rd ell)
    pure (mapSet d (i, j) v)) d

/-- The second loop (examples/sparse-low-rank-approx/svd_rank1_plus_noise.cc:129-132): `c_dict[(i, j)] = B.vals[ell] + c_dict[(i, j)]`; the lookup of a missing key inserts 0. -/
def cooDictAdd [Zero T] [Add T] (B : CooMat T) (d : List (Coord × T)) : M (CooMat T) (List (Coord × T)) :=
  foldI 0 B.nnz (fun ell d => do
    let i ← M.lift ((ptr B.rows).rd ell)
    let j ← M.lift ((ptr B.cols).rd ell)
    let v ← M.lift ((ptr B.vals).rd ell)
    pure (mapSet d (i, j) (v + (mapGet d (i, j)).getD 0))) d

/-- The third loop (examples/sparse-low-rank-approx/svd_rank1_plus_noise.cc:136-144), over the pairs in iteration order. -/
def cooDictWrite (l : List (Coord × T)) (ell : Int) : M (CooBufs T) Unit :=
  match l with
  | [] => pure ()
  | (k, v) :: l => do
    onCRows (M.wr ell k.1)
    onCCols (M.wr ell k.2)
    onCVals (M.wr ell v)
    cooDictWrite l (ell + 1)

/-- `sum_of_coo_matrices` (examples/sparse-low-rank-approx/svd_rank1_plus_noise.cc:102-146). The state becomes the matrix C that is returned.
`order` gives the iteration order of the `unordered_map`. The loop counters of type `int` overflow if a matrix has 2^31 or more nonzeros. -/
def sumOfCoo [Zero T] [Add T] (order : List (Coord × T) → List (Coord × T)) (A B : CooMat T) : M (CooMat T) Unit := do
  M.require (A.nRows = B.nRows)
  M.require (A.nCols = B.nCols)
  let d ← cooDictSet A []
  M.ubIf (2147483648 ≤ A.nnz)
  let d ← cooDictAdd B d
  M.ubIf (2147483648 ≤ B.nnz)
  M.set (mkCoo A.nRows A.nCols)
  reserveCoo d.length
  M.zoom CooMat.bufs CooMat.withBufs (cooDictWrite (order d) 0)

/-! ## The QB decomposition -/

/-- The arguments of `qb_decompose_sparse_matrix` that it may change. (A COO matrix is sorted and restored by the products.). Used to model examples/sparse-low-rank-approx/svd_rank1_plus_noise.cc:245. -/
structure QbSt (T : Type) where
  A : SpMat T
  q : Buf T
  b : Buf T
  work : Buf T

section
variable [Zero T] [One T] [Add T] [Mul T] [BEq T]

/-- `left_spmm(ColMajor, NoTrans, NoTrans, m, k, n, 1.0, A, 0, 0, B, n, 0.0, Q, m)` (examples/sparse-low-rank-approx/svd_rank1_plus_noise.cc:245, 253): Q = A B. -/
def qbMulA (env : Env T) (m n k : Int) : M (QbSt T) Unit := do
  let t ← M.get
  M.zoom (fun t : QbSt T => (t.A, t.q)) (fun t r => { t with A := r.1, q := r.2 })
    (leftSpmm env .ColMajor .NoTrans .NoTrans m k n 1 0 0 t.b n 0 m)

/-- `left_spmm(ColMajor, Trans, NoTrans, n, k, m, 1.0, A, 0, 0, Q, m, 0.0, B, n)` (examples/sparse-low-rank-approx/svd_rank1_plus_noise.cc:237, 247): B = A^T Q. -/
def qbMulAT (env : Env T) (m n k : Int) : M (QbSt T) Unit := do
  let t ← M.get
  M.zoom (fun t : QbSt T => (t.A, t.b)) (fun t r => { t with A := r.1, b := r.2 })
    (leftSpmm env .ColMajor .Trans .NoTrans n k m 1 0 0 t.q m 0 n)

/-- `right_spmm(ColMajor, Trans, NoTrans, k, n, m, 1.0, Q, m, A, 0, 0, 0.0, B, k)` (examples/sparse-low-rank-approx/svd_rank1_plus_noise.cc:255): B = Q^T A. -/
def qbProject (env : Env T) (m n k : Int) : M (QbSt T) Unit := do
  let t ← M.get
  M.zoom (fun t : QbSt T => (t.A, t.b)) (fun t r => { t with A := r.1, b := r.2 })
    (rightSpmm env .ColMajor .Trans .NoTrans k n m 1 t.q m 0 0 0 k)

/-- `householder_orth` on Q. Used to model examples/sparse-low-rank-approx/svd_rank1_plus_noise.cc:243-250. -/
def qbOrthQ (orth : Int → Int → (Int → Int → T) → (Int → Int → T)) (tau : T) (m k : Int) : M (QbSt T) Unit :=
  M.zoom (fun t : QbSt T => (t.q, t.work)) (fun t r => { t with q := r.1, work := r.2 }) (householderOrth orth tau m k)

/-- `householder_orth` on B. Used to model examples/sparse-low-rank-approx/svd_rank1_plus_noise.cc:243-250. -/
def qbOrthB (orth : Int → Int → (Int → Int → T) → (Int → Int → T)) (tau : T) (n k : Int) : M (QbSt T) Unit :=
  M.zoom (fun t : QbSt T => (t.b, t.work)) (fun t r => { t with b := r.1, work := r.2 }) (householderOrth orth tau n k)

/-- The body of the `while` loop (examples/sparse-low-rank-approx/svd_rank1_plus_noise.cc:243-250). -/
def qbPass (env1 env2 : Env T) (orth : Int → Int → (Int → Int → T) → (Int → Int → T)) (tau : T) (m n k : Int) : M (QbSt T) Unit := do
  qbMulA env1 m n k
  qbOrthQ orth tau m k
  qbMulAT env2 m n k
  qbOrthB orth tau n k

/-- Step 1 (examples/sparse-low-rank-approx/svd_rank1_plus_noise.cc:231-240). -/
def qbStart (env : Env T) (orth : Int → Int → (Int → Int → T) → (Int → Int → T)) (tau : T) (fillB fillQ : M (Buf T) Unit) (m n k p : Int) :
    M (QbSt T) Unit :=
  if p % 2 = 0 then M.zoom QbSt.b (fun t b => { t with b := b }) fillB
  else do
    M.zoom QbSt.q (fun t b => { t with q := b }) fillQ
    qbMulAT env m n k
    qbOrthB orth tau n k

/-- `qb_decompose_sparse_matrix` (examples/sparse-low-rank-approx/svd_rank1_plus_noise.cc:213-257; examples/sparse-low-rank-approx/svd_matrixmarket.cc:109-175, which first converts
the matrix to CSC and prints times). `fillB` and `fillQ` stand for the two calls of `fill_dense`; `env` gives the schedules of the parallel loops, which may differ
from call to call. The `while` loop runs while `p - p_done > 0` and adds 2 to `p_done`. -/
def qbDecompose (env : Int → Env T) (orth : Int → Int → (Int → Int → T) → (Int → Int → T)) (tau : T) (fillB fillQ : M (Buf T) Unit)
    (m n k p lwork : Int) : M (QbSt T) Unit := do
  M.require (max m n ≤ lwork)
  qbStart (env (-1)) orth tau fillB fillQ m n k p
  forI 0 ((p - p % 2 + 1) / 2) fun c => qbPass (env (2 * c)) (env (2 * c + 1)) orth tau m n k
  qbMulA (env (-2)) m n k
  qbOrthQ orth tau m k
  qbProject (env (-3)) m n k

end

/-! ## `qb_to_svd` -/

/-- The arrays of `qb_to_svd`. Used to model examples/sparse-low-rank-approx/svd_rank1_plus_noise.cc:282. -/
structure CvtSt (T : Type) where
  q : Buf T
  s : Buf T
  b : Buf T
  work : Buf T

/-- Run code on Q. Used to model examples/sparse-low-rank-approx/svd_rank1_plus_noise.cc:287-290. -/
def CvtSt.onQ {α : Type} (m : M (Buf T) α) : M (CvtSt T) α := M.zoom CvtSt.q (fun t b => { t with q := b }) m

/-- `lapack::gesdd(Job::OverwriteVec, k, n, B, ldb, svals, U, k, nullptr, k)` (examples/sparse-low-rank-approx/svd_rank1_plus_noise.cc:282), where U is the start of the work array. -/
def qbSvdOfB [Zero T] (svd : Int → Int → (Int → Int → T) → Svd T) (n k ldb : Int) : M (CvtSt T) Unit :=
  M.zoom (fun t => (⟨t.b, t.s, t.work, fun _ => .none⟩ : SvdSt T)) (fun t s => { t with b := s.a, s := s.s, work := s.u }) (gesddOverwrite svd k n ldb k k)

section
variable [Zero T] [One T] [Add T] [Mul T] [BEq T]

/-- Q = Q U with the copy of Q in a new array (examples/sparse-low-rank-approx/svd_rank1_plus_noise.cc:287-290). -/
def qbRotateHeap (m k ldq : Int) : M (CvtSt T) Unit := do
  let A ← CvtSt.onQ (readMat m k ldq)
  let (_, w) ← M.onLocal (writeMat m k m A) (Buf.alloc T (m * k))
  let t ← M.get
  CvtSt.onQ (blasGemm .ColMajor .NoTrans .NoTrans m k k 1 w 0 m t.work 0 k 0 0 ldq)

/-- Q = Q U with the copy of Q in the work array, from position k (k + 1) (examples/sparse-low-rank-approx/svd_rank1_plus_noise.cc:285, 289-290). -/
def qbRotateWork (m k ldq : Int) : M (CvtSt T) Unit := do
  let A ← CvtSt.onQ (readMat m k ldq)
  M.zoom CvtSt.work (fun t b => { t with work := b }) (M.at (k * (k + 1)) (writeMat m k m A))
  let t ← M.get
  CvtSt.onQ (blasGemm .ColMajor .NoTrans .NoTrans m k k 1 t.work (k * (k + 1)) m t.work 0 k 0 0 ldq)

/-- `qb_to_svd` (examples/sparse-low-rank-approx/svd_rank1_plus_noise.cc:259-297; examples/sparse-low-rank-approx/svd_matrixmarket.cc:177-212 is the same up to the place of a
declaration). `lapack::lacpy` is reading followed by writing. -/
def qbToSvd (svd : Int → Int → (Int → Int → T) → Svd T) (m n k ldq ldb lwork : Int) : M (CvtSt T) Unit := do
  M.require (0 ≤ lwork - k * k)
  qbSvdOfB svd n k ldb
  if lwork - k * k < m * k then qbRotateHeap m k ldq else qbRotateWork m k ldq

end

/-! ## The computation of the two programs -/

/-- `DenseDist D(rows, k); fill_dense(D, mat, state)` (examples/sparse-low-rank-approx/svd_rank1_plus_noise.cc:232-233, 235-236; svd_matrixmarket.cc has the same lines). -/
def qbFill {N : Nat} {K W : Type} [Mul T] (sched : List Nat) (G : Gen N K W T) (sqrt3 : T) (rows k : Int) (seed : RNGState N K) : M (Buf T) Unit := do
  let D ← M.lift (mkDenseDist rows k .Gaussian .Long)
  let _ ← fillDense sched G sqrt3 D seed
  pure ()

/-- The matrix and the arrays U, VT and svals of `main`. Used to model examples/sparse-low-rank-approx/svd_rank1_plus_noise.cc:331-336. -/
structure LrSt (T : Type) where
  A : SpMat T
  u : Buf T
  vt : Buf T
  s : Buf T

/-- The randomised algorithm of `main` (examples/sparse-low-rank-approx/svd_rank1_plus_noise.cc:331-336; examples/sparse-low-rank-approx/svd_matrixmarket.cc:225-238): `qb_decompose_sparse_matrix` with a new work array of max(m, n)
elements, then `qb_to_svd` with a new work array of `wk` elements. In both programs `wk` is m k + k^2 and p is 2. The arrays U, VT and svals are the state. -/
def lowRankSvd {N : Nat} {K W : Type} [Zero T] [One T] [Add T] [Mul T] [BEq T] (sched : List Nat) (G : Gen N K W T) (sqrt3 : T) (env : Int → Env T)
    (orth : Int → Int → (Int → Int → T) → (Int → Int → T)) (svd : Int → Int → (Int → Int → T) → Svd T) (tau : T) (seed : RNGState N K) (m n k p wk : Int) :
    M (LrSt T) Unit := do
  M.zoom (fun t : LrSt T => (⟨t.A, t.u, t.vt, Buf.alloc T (max m n)⟩ : QbSt T)) (fun t q => { t with A := q.A, u := q.q, vt := q.b })
    (qbDecompose env orth tau (qbFill sched G sqrt3 n k seed) (qbFill sched G sqrt3 m k seed) m n k p (max m n))
  M.zoom (fun t : LrSt T => (⟨t.u, t.s, t.vt, Buf.alloc T wk⟩ : CvtSt T)) (fun t q => { t with u := q.q, s := q.s, vt := q.b })
    (qbToSvd svd m n k m k wk)

end RB
