import Verif.Model.Spmm
import Verif.Model.ExLapack

/-! # Model of examples/sparse-low-rank-approx/qrcp_matrixmarket.cc -/

namespace RB

variable {T : Type}

/-! ## `col_swap` -/

/-- `blas::swap(m, &A[i * lda], 1, &A[j * lda], 1)` (external, BLAS++): exchange two columns of A. Used to model examples/sparse-low-rank-approx/qrcp_matrixmarket.cc:104-109. -/
def swapCols (m lda i j : Int) : M (Buf T) Unit := do
  blasCheck (0 ≤ m)
  forI 0 m fun r => do
    let x ← M.rd (i * lda + r)
    let y ← M.rd (j * lda + r)
    M.wr (i * lda + r) y
    M.wr (j * lda + r) x

/-- The matrix and the array `idx_copy`. Used to model examples/sparse-low-rank-approx/qrcp_matrixmarket.cc:104-109. -/
structure SwapSt (T : Type) where
  a : Buf T
  c : Buf Int

/-- Run code on the matrix. Used to model examples/sparse-low-rank-approx/qrcp_matrixmarket.cc:104-109. -/
def SwapSt.onA {α : Type} (m : M (Buf T) α) : M (SwapSt T) α := M.zoom SwapSt.a (fun s b => { s with a := b }) m
/-- Run code on `idx_copy`. Used to model examples/sparse-low-rank-approx/qrcp_matrixmarket.cc:104-109. -/
def SwapSt.onC {α : Type} (m : M (Buf Int) α) : M (SwapSt T) α := M.zoom SwapSt.c (fun s b => { s with c := b }) m

/-- `std::find(c + lo, c + hi, v)`: the position of the first element equal to v, or hi. Used to model examples/sparse-low-rank-approx/qrcp_matrixmarket.cc:104-109. -/
def findVal (lo hi v : Int) : M (Buf Int) Int := do
  let o ← findI lo hi fun p => do
    let x ← M.rd p
    pure (if x = v then some p else none)
  pure (o.getD hi)

/-- One iteration of the second loop of `col_swap` (examples/sparse-low-rank-approx/qrcp_matrixmarket.cc:104-109). -/
def colSwapStep (m k lda i : Int) : M (SwapSt T) Unit := do
  let v ← SwapSt.onC (M.rd i)
  let j := v - 1
  SwapSt.onA (swapCols m lda i j)
  let p ← SwapSt.onC (findVal i k (i + 1))
  SwapSt.onC (M.wr p (j + 1))

/-- `col_swap` (examples/sparse-low-rank-approx/qrcp_matrixmarket.cc:95-111). `idx` is the argument of that name. The `int` counter of the first loop
overflows if n ≥ 2^31. -/
def colSwap (m n k lda : Int) (idx : Buf Int) : M (Buf T) Unit := do
  M.when (k > n) (M.throw .runtime)
  let (_, c) ← M.onLocal (forI 0 n fun i => do
    let v ← M.lift (idx.rd i)
    M.wr i v) (Buf.fill n 0)
  M.ubIf (2147483648 ≤ n)
  let a ← M.get
  let (_, s) ← M.onLocal (forI 0 k (colSwapStep m k lda)) (⟨a, c⟩ : SwapSt T)
  M.set s.a

/-! ## `sketch_to_tqrcp` -/

/-- The result of a QR decomposition with column pivoting: the permutation (column numbers from 1) and the matrix that overwrites the
input (R in the upper triangle, the reflectors below). Used to model examples/sparse-low-rank-approx/qrcp_matrixmarket.cc:321-382. -/
structure Qrcp (T : Type) where
  piv : Int → Int
  f : Int → Int → T

/-- The arrays `sketch_to_tqrcp` works on; `pre` is the local array `precond`. Used to model examples/sparse-low-rank-approx/qrcp_matrixmarket.cc:347-353. -/
structure TqrSt (T : Type) where
  q : Buf T
  y : Buf T
  piv : Buf Int
  pre : Buf T

/-- Run code on Q. Used to model examples/sparse-low-rank-approx/qrcp_matrixmarket.cc:347-353. -/
def TqrSt.onQ {α : Type} (m : M (Buf T) α) : M (TqrSt T) α := M.zoom TqrSt.q (fun s b => { s with q := b }) m
/-- Run code on Y. Used to model examples/sparse-low-rank-approx/qrcp_matrixmarket.cc:359-363. -/
def TqrSt.onY {α : Type} (m : M (Buf T) α) : M (TqrSt T) α := M.zoom TqrSt.y (fun s b => { s with y := b }) m
/-- Run code on the pivots. Used to model examples/sparse-low-rank-approx/qrcp_matrixmarket.cc:347-353. -/
def TqrSt.onPiv {α : Type} (m : M (Buf Int) α) : M (TqrSt T) α := M.zoom TqrSt.piv (fun s b => { s with piv := b }) m
/-- Run code on `precond`. Used to model examples/sparse-low-rank-approx/qrcp_matrixmarket.cc:359-363. -/
def TqrSt.onPre {α : Type} (m : M (Buf T) α) : M (TqrSt T) α := M.zoom TqrSt.pre (fun s b => { s with pre := b }) m

/-- `lapack::geqp3(m, n, Y, ldy, piv, tau)` (external, LAPACK++). `qrcp m n p A` stands for the decomposition, where p is the content of `piv` on entry
(nonzero for columns to be moved to the front). The array `tau` is not modelled, its contents are not used. Used to model examples/sparse-low-rank-approx/qrcp_matrixmarket.cc:321-382. -/
def geqp3 [Zero T] (qrcp : Int → Int → (Int → Int) → (Int → Int → T) → Qrcp T) (m n ldy : Int) : M (TqrSt T) Unit := do
  blasCheck (0 ≤ m)
  blasCheck (0 ≤ n)
  blasCheck (max 1 m ≤ ldy)
  let p ← TqrSt.onPiv (readMat n 1 n)
  let A ← TqrSt.onY (readMat m n ldy)
  let f := qrcp m n (fun i => p i 0) A
  TqrSt.onY (writeMat m n ldy f.f)
  TqrSt.onPiv (forI 0 n fun i => M.wr i (f.piv i))

/-- Step 2 for column j (examples/sparse-low-rank-approx/qrcp_matrixmarket.cc:347-353). The bounds of the inner loop are read once; nothing they depend on changes in it. -/
def tqrCopyCol [Zero T] [Mul T] [BEq T] (A : CscMat T) (m ldq j : Int) : M (TqrSt T) Unit := do
  TqrSt.onQ (safeScal m 0 (j * ldq) 1)
  let p ← TqrSt.onPiv (M.rd j)
  let lo ← M.lift ((ptr A.colptr).rd (p - 1))
  let hi ← M.lift ((ptr A.colptr).rd p)
  forI lo hi fun l => do
    let i ← M.lift ((ptr A.rowidxs).rd l)
    let v ← M.lift ((ptr A.vals).rd l)
    TqrSt.onQ (M.wr (i + ldq * j) v)

/-- The copy of the preconditioner (examples/sparse-low-rank-approx/qrcp_matrixmarket.cc:359-363). The leading dimension of Y is taken to be k. -/
def tqrPrecond (k : Int) : M (TqrSt T) Unit :=
  forI 0 k fun j => forI 0 k fun i => do
    let v ← TqrSt.onY (M.rd (i + k * j))
    TqrSt.onPre (M.wr (i + k * j) v)

section
variable [Field T] [LinearOrder T]

/-- `lapack::potrf(Uplo::Upper, n, A, lda)` (external, LAPACK++): the blocked algorithm with block size `nb`, in exact arithmetic. Used to model examples/sparse-low-rank-approx/qrcp_matrixmarket.cc:321-382. -/
def lapackPotrf (sqrt : T → T) (nb n lda : Int) : M (Buf T) Int := do
  blasCheck (0 ≤ n)
  blasCheck (max 1 n ≤ lda)
  potrfUpper sqrt n lda nb

/-- `sketch_to_tqrcp` (examples/sparse-low-rank-approx/qrcp_matrixmarket.cc:321-382). A CSC matrix is not changed by products. -/
def sketchToTqrcp (env : Env T) (sqrt : T → T) (nb : Int) (qrcp : Int → Int → (Int → Int) → (Int → Int → T) → Qrcp T) (A : CscMat T) (k ldq ldy : Int) :
    M (TqrSt T) Unit := do
  TqrSt.onPiv (forI 0 A.nCols fun i => M.wr i 0)
  M.modify fun s => { s with pre := Buf.fill (k * k) 0 }
  geqp3 qrcp k A.nCols ldy
  forI 0 k (tqrCopyCol A A.nRows ldq)
  tqrPrecond k
  let s ← M.get
  TqrSt.onQ (trsmRightUpper A.nRows k s.pre 0 k ldq)
  let s ← M.get
  TqrSt.onPre (syrkUpperTrans k A.nRows 1 s.q 0 ldq 0 k)
  let _ ← TqrSt.onPre (lapackPotrf sqrt nb k k)
  let s ← M.get
  TqrSt.onQ (trsmRightUpper A.nRows k s.pre 0 k ldq)
  let s ← M.get
  M.zoom (fun t : TqrSt T => (SpMat.csc A, t.y)) (fun t r => { t with y := r.2 })
    (rightSpmm env .ColMajor .Trans .NoTrans k A.nCols A.nRows 1 s.q ldq 0 0 0 ldy)
  TqrSt.onY (colSwap k A.nCols k ldy s.piv)

end

end RB
