import Verif.Model.Sketch
import Verif.Model.ExQrcp

/-! # Model of examples/sparse-low-rank-approx/qrcp_matrixmarket.cc: power iteration and its stabilisation -/

namespace RB

variable {N : Nat} {K W WS R T : Type}

/-- What `lapack::gelqf` returns: L in the lower triangle of `f`, reflectors above, and their scalar factors. Used to model examples/sparse-low-rank-approx/qrcp_matrixmarket.cc:113-125. -/
structure Lq (T : Type) where
  f : Int → Int → T
  tau : Int → T

/-- LAPACK routines on the rows of m x n matrices (external): `getrf` (the pivots and the matrix that holds both factors), `gelqf` and `unglq`. Used to model examples/sparse-low-rank-approx/qrcp_matrixmarket.cc:113-125. -/
structure RowLapack (T : Type) where
  lu : Int → Int → (Int → Int → T) → (Int → Int) × (Int → Int → T)
  lq : Int → Int → (Int → Int → T) → Lq T
  unglq : Int → Int → Lq T → (Int → Int → T)

/-- A matrix with the arrays `piv_work`, `tau_work` and `sketch_orth_work` of `power_iter_col_sketch`. Used to model examples/sparse-low-rank-approx/qrcp_matrixmarket.cc:176-200. -/
structure StabSt (T : Type) where
  a : Buf T
  piv : Buf Int
  tau : Buf T
  sk : Buf T

/-- Run code on the matrix. Used to model examples/sparse-low-rank-approx/qrcp_matrixmarket.cc:176-200. -/
def StabSt.onA {α : Type} (m : M (Buf T) α) : M (StabSt T) α := M.zoom StabSt.a (fun s b => { s with a := b }) m
/-- Run code on the array for pivots. Used to model examples/sparse-low-rank-approx/qrcp_matrixmarket.cc:176-200. -/
def StabSt.onPiv {α : Type} (m : M (Buf Int) α) : M (StabSt T) α := M.zoom StabSt.piv (fun s b => { s with piv := b }) m
/-- Run code on the array for scalar factors. Used to model examples/sparse-low-rank-approx/qrcp_matrixmarket.cc:113-125. -/
def StabSt.onTau {α : Type} (m : M (Buf T) α) : M (StabSt T) α := M.zoom StabSt.tau (fun s b => { s with tau := b }) m
/-- Run code on the matrix and the array for scalar factors. Used to model examples/sparse-low-rank-approx/qrcp_matrixmarket.cc:250-260. -/
def StabSt.onAT {α : Type} (m : M (Buf T × Buf T) α) : M (StabSt T) α := M.zoom (fun s => (s.a, s.tau)) (fun s r => { s with a := r.1, tau := r.2 }) m

/-- `lapack::gelqf(m, n, A, m, tau)` (external, LAPACK++) on a matrix with leading dimension m. The return value, always 0, is omitted. Used to model examples/sparse-low-rank-approx/qrcp_matrixmarket.cc:113-125. -/
def gelqf [Zero T] (L : RowLapack T) (m n : Int) : M (Buf T × Buf T) Unit := do
  blasCheck (0 ≤ m)
  blasCheck (0 ≤ n)
  blasCheck (1 ≤ m)
  let A ← onFst (readMat m n m)
  let F := L.lq m n A
  onFst (writeMat m n m F.f)
  onSnd (forI 0 (min m n) fun i => M.wr i (F.tau i))

/-- `lapack::unglq(m, n, m, A, m, tau)` (external, LAPACK++). Used to model examples/sparse-low-rank-approx/qrcp_matrixmarket.cc:113-125. -/
def unglq [Zero T] (L : RowLapack T) (m n : Int) : M (Buf T × Buf T) Unit := do
  blasCheck (0 ≤ m)
  blasCheck (m ≤ n)
  blasCheck (1 ≤ m)
  let f ← onFst (readMat m n m)
  let t ← onSnd (readMat m 1 m)
  onFst (writeMat m n m (L.unglq m n ⟨f, fun i => t i 0⟩))

/-- `qr_row_stabilize` (examples/sparse-low-rank-approx/qrcp_matrixmarket.cc:113-125). -/
def qrRowStabilize [Zero T] (L : RowLapack T) (m n : Int) : M (Buf T × Buf T) Int := do
  gelqf L m n
  M.require (m < n)
  unglq L m n
  pure 0

/-- `lapack::getrf(m, n, A, m, ipiv)` (external, LAPACK++) on a matrix with leading dimension m. The return value, which the program ignores, is omitted. Used to model examples/sparse-low-rank-approx/qrcp_matrixmarket.cc:176-200. -/
def getrf [Zero T] (L : RowLapack T) (m n : Int) : M (StabSt T) Unit := do
  blasCheck (0 ≤ m)
  blasCheck (0 ≤ n)
  blasCheck (1 ≤ m)
  let A ← StabSt.onA (readMat m n m)
  StabSt.onA (writeMat m n m (L.lu m n A).2)
  StabSt.onPiv (forI 0 (min m n) fun i => M.wr i ((L.lu m n A).1 i))

section
variable [Field T] [LinearOrder T]

/-- One iteration of the loop that looks for small pivots and clears the lower triangle (examples/sparse-low-rank-approx/qrcp_matrixmarket.cc:186-191). -/
def luClearCol (tol : T) (m j : Int) : M (Buf T) Bool := do
  let d ← M.rd (j + j * m)
  forI (j + 1) m fun i => M.wr (i + j * m) 0
  pure (decide (tol < |d|))

/-- `lu_row_stabilize` (examples/sparse-low-rank-approx/qrcp_matrixmarket.cc:176-200). `tol` is the local variable of that name; the loop runs while the flag is true.
The function `abs` that is called (without qualification) is taken to be the absolute value. -/
def luRowStabilize (tol : T) (L : RowLapack T) (m n : Int) : M (StabSt T) Int := do
  M.require (m < n)
  StabSt.onPiv (forI 0 m fun i => M.wr i 0)
  getrf L m n
  let ok ← StabSt.onA (foldI 0 (m - 1) (fun j ok => if ok then luClearCol tol m j else pure false) true)
  M.when (ok = false) (M.throw .runtime)
  StabSt.onA (forI 0 m fun i => do
    let d ← M.rd (i + i * m)
    blasScal n (1 / d) i m)
  pure 0

/-- `blas::trsm(ColMajor, Left, Lower, NoTrans, NonUnit, m, n, 1, A, lda, B, ldb)`: `B = inv(A) * B`. Used to model examples/sparse-low-rank-approx/qrcp_matrixmarket.cc:127-173. -/
def trsmLeftLower (m n : Int) (A : Buf T) (a0 lda ldb : Int) : M (Buf T) Unit := do
  blasCheck (0 ≤ m)
  blasCheck (0 ≤ n)
  blasCheck (m ≤ lda)
  blasCheck (m ≤ ldb)
  forI 0 n fun j => forI 0 m fun k => do
    let x ← M.rd (k + j * ldb)
    let d ← M.lift (A.rd (a0 + (k + k * lda)))
    M.wr (k + j * ldb) (x / d)
    forI (k + 1) m fun i => do
      let x ← M.rd (i + j * ldb)
      let y ← M.rd (k + j * ldb)
      let a ← M.lift (A.rd (a0 + (i + k * lda)))
      M.wr (i + j * ldb) (x - y * a)

variable [Field R] [LinearOrder R] [FloorRing R]

/-- The sketch of the rows (examples/sparse-low-rank-approx/qrcp_matrixmarket.cc:129, 134-137, 156): `work = A * S` with a new m x d sparse operator S. -/
def rowSketch (E : SkEnv N K W WS R T) (seed : RNGState N K) (m n d : Int) : M (StabSt T) Unit := do
  let D ← M.lift (mkSparseDist n d (min (d / 2) 4) .Short)
  let s ← M.get
  M.zoom (fun s : StabSt T => ((SkOp.sparse (mkSparseSkOp E.GS.len D seed) : SkOp N K T), s.sk)) (fun s r => { s with sk := r.2 })
    (sketchGeneralRFull E .ColMajor .NoTrans .NoTrans m d n 1 s.a m 0 m)

/-- The loop that looks for small diagonal entries of L (examples/sparse-low-rank-approx/qrcp_matrixmarket.cc:159-166). The `int` counter overflows if
it has to pass 2^31 - 1. -/
def smallDiag (tol : T) (m : Int) : M (Buf T) Bool := do
  let o ← findI 0 (min m 2147483648) fun i => do
    let x ← M.rd (i * m + i)
    pure (if |x| < tol then some () else none)
  M.ubIf (o.isNone ∧ 2147483648 ≤ m)
  pure o.isSome

/-- `sketch_orthogonalize_rows` (examples/sparse-low-rank-approx/qrcp_matrixmarket.cc:127-173). `seed` is `RNGState(key)`. -/
def sketchOrthRows (E : SkEnv N K W WS R T) (tol : T) (L : RowLapack T) (seed : RNGState N K) (m n d : Int) : M (StabSt T) Int := do
  M.require (2 ≤ d)
  M.require (m ≤ d)
  rowSketch E seed m n d
  let s ← M.get
  let (_, r) ← M.onLocal (gelqf L m d) (s.sk, Buf.fill d 0)
  M.modify fun s => { s with sk := r.1 }
  let (small, _) ← M.onLocal (smallDiag tol m) r.1
  if small then do
    let (_, q) ← M.onLocal (qrRowStabilize L m n) (s.a, r.2)
    M.modify fun s => { s with a := q.1 }
    pure 1
  else do
    StabSt.onA (trsmLeftLower m n r.1 0 m m)
    pure 0

/-- `StabilizationMethod` (examples/sparse-low-rank-approx/qrcp_matrixmarket.cc:214-219). -/
inductive Stabil where
  | LU | LQ | sketch | none
  deriving DecidableEq

/-- The closure `stab_func` (examples/sparse-low-rank-approx/qrcp_matrixmarket.cc:250-260). `tolLU` and `tolSk` are the tolerances `10 eps` and `100 eps`. -/
def stabFunc (E : SkEnv N K W WS R T) (tolLU tolSk : T) (L : RowLapack T) (seed : RNGState N K) (sm : Stabil) (k cols : Int) : M (StabSt T) Unit :=
  match sm with
  | .LU => do let _ ← luRowStabilize tolLU L k cols
  | .LQ => do let _ ← StabSt.onAT (qrRowStabilize L k cols)
  | .sketch => do let _ ← sketchOrthRows E tolSk L seed k cols ((5 * k + 4) / 4)
  | .none => pure ()

/-- The arrays `Y` and `work`, and the local arrays of `power_iter_col_sketch`. Used to model examples/sparse-low-rank-approx/qrcp_matrixmarket.cc:280. -/
structure PowSt (T : Type) where
  y : Buf T
  w : Buf T
  piv : Buf Int
  tau : Buf T
  sk : Buf T

/-- Run code on Y. Used to model examples/sparse-low-rank-approx/qrcp_matrixmarket.cc:262-276. -/
def PowSt.onY {α : Type} (m : M (Buf T) α) : M (PowSt T) α := M.zoom PowSt.y (fun s b => { s with y := b }) m
/-- Run code on the work array. Used to model examples/sparse-low-rank-approx/qrcp_matrixmarket.cc:262-276. -/
def PowSt.onW {α : Type} (m : M (Buf T) α) : M (PowSt T) α := M.zoom PowSt.w (fun s b => { s with w := b }) m
/-- Run the stabilisation on Y. Used to model examples/sparse-low-rank-approx/qrcp_matrixmarket.cc:278-289. -/
def PowSt.stabY {α : Type} (m : M (StabSt T) α) : M (PowSt T) α :=
  M.zoom (fun s => (⟨s.y, s.piv, s.tau, s.sk⟩ : StabSt T)) (fun s r => { s with y := r.a, piv := r.piv, tau := r.tau, sk := r.sk }) m
/-- Run the stabilisation on the work array. Used to model examples/sparse-low-rank-approx/qrcp_matrixmarket.cc:262-276. -/
def PowSt.stabW {α : Type} (m : M (StabSt T) α) : M (PowSt T) α :=
  M.zoom (fun s => (⟨s.w, s.piv, s.tau, s.sk⟩ : StabSt T)) (fun s r => { s with w := r.a, piv := r.piv, tau := r.tau, sk := r.sk }) m

/-- `right_spmm(ColMajor, NoTrans, NoTrans, k, n, m, 1.0, work, k, A, 0, 0, 0.0, Y, k)` (examples/sparse-low-rank-approx/qrcp_matrixmarket.cc:280, 291): Y = work A. -/
def powMulA (env : Env T) (A : CscMat T) (k : Int) : M (PowSt T) Unit := do
  let s ← M.get
  M.zoom (fun t : PowSt T => (SpMat.csc A, t.y)) (fun t r => { t with y := r.2 })
    (rightSpmm env .ColMajor .NoTrans .NoTrans k A.nCols A.nRows 1 s.w k 0 0 0 k)

/-- `right_spmm(ColMajor, NoTrans, Trans, k, m, n, 1.0, Y, k, A, 0, 0, 0.0, work, k)` (examples/sparse-low-rank-approx/qrcp_matrixmarket.cc:272, 285): work = Y A^T. -/
def powMulAT (env : Env T) (A : CscMat T) (k : Int) : M (PowSt T) Unit := do
  let s ← M.get
  M.zoom (fun t : PowSt T => (SpMat.csc A, t.w)) (fun t r => { t with w := r.2 })
    (rightSpmm env .ColMajor .NoTrans .Trans k A.nRows A.nCols 1 s.y k 0 0 0 k)

/-- The arguments of the stabilisations that do not change: environments and seeds depend on `key`. Used to model examples/sparse-low-rank-approx/qrcp_matrixmarket.cc:262-276. -/
structure PowEnv (N : Nat) (K W WS R T : Type) where
  E : Int → SkEnv N K W WS R T
  seed : Int → RNGState N K
  tolLU : T
  tolSk : T
  L : RowLapack T
  sm : Stabil

/-- Up to the `while` loop (examples/sparse-low-rank-approx/qrcp_matrixmarket.cc:262-276). `fillY` and `fillW` stand for the calls of `fill_dense`. -/
def powStart (P : PowEnv N K W WS R T) (fillY fillW : M (Buf T) Unit) (A : CscMat T) (k p : Int) : M (PowSt T) Unit :=
  if p % 2 = 0 then PowSt.onW fillW
  else do
    PowSt.onY fillY
    powMulAT (P.E 0).env A k
    PowSt.stabW (stabFunc (P.E 1) P.tolLU P.tolSk P.L (P.seed 1) P.sm k A.nRows)

/-- The body of the `while` loop (examples/sparse-low-rank-approx/qrcp_matrixmarket.cc:278-289), where `done` is `p_done` at its beginning. -/
def powPass (P : PowEnv N K W WS R T) (A : CscMat T) (k done : Int) : M (PowSt T) Unit := do
  powMulA (P.E (done + 1)).env A k
  PowSt.stabY (stabFunc (P.E (done + 1)) P.tolLU P.tolSk P.L (P.seed (done + 1)) P.sm k A.nCols)
  powMulAT (P.E (done + 2)).env A k
  PowSt.stabW (stabFunc (P.E (done + 2)) P.tolLU P.tolSk P.L (P.seed (done + 2)) P.sm k A.nRows)

/-- `power_iter_col_sketch` (examples/sparse-low-rank-approx/qrcp_matrixmarket.cc:221-298), for a CSC matrix. The `while` loop runs while `p - p_done > 0` and adds 2
to `p_done`, which is `p % 2` before it. `(int64_t) (1.25*k + 1)` is computed with integers. -/
def powerIter (P : PowEnv N K W WS R T) (fillY fillW : M (Buf T) Unit) (A : CscMat T) (k p : Int) : M (Buf T × Buf T) Unit := do
  let s ← M.get
  let (_, t) ← M.onLocal (do
    powStart P fillY fillW A k p
    forI 0 ((p - p % 2 + 1) / 2) fun c => powPass P A k (p % 2 + 2 * c)
    powMulA (P.E (-1)).env A k)
    (⟨s.1, s.2, Buf.alloc Int k, Buf.alloc T (max A.nCols A.nRows), Buf.fill ((5 * k + 4) / 4 * A.nRows) 0⟩ : PowSt T)
  M.set (t.y, t.w)

/-- `run` (examples/sparse-low-rank-approx/qrcp_matrixmarket.cc:384-412) without printing. The arrays Q, R and piv are the state; `nb` and `qrcp` as in `sketchToTqrcp`. -/
def qrcpRun (P : PowEnv N K W WS R T) (sqrt : T → T) (nb : Int) (qrcp : Int → Int → (Int → Int) → (Int → Int → T) → Qrcp T) (fillY fillW : M (Buf T) Unit)
    (A : CscMat T) (k p : Int) : M (TqrSt T) Unit := do
  M.set ⟨Buf.fill (A.nRows * k) 0, Buf.fill (k * A.nCols) 0, Buf.fill A.nCols 0, fun _ => .none⟩
  M.zoom (fun s : TqrSt T => (s.y, s.q)) (fun s r => { s with y := r.1, q := r.2 }) (powerIter P fillY fillW A k p)
  sketchToTqrcp (P.E (-2)).env sqrt nb qrcp A k A.nRows k

end

end RB
