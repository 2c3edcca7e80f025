import Verif.Model.Base

/-! # Reference model of the BLAS++ routines RandBLAS calls (external code, assumed) -/

namespace RB

variable {T : Type}

/-- A BLAS++ argument check (`blas_error_if`). Used to model RandBLAS/skge.hh:179-199. -/
def blasCheck {σ : Type} (c : Prop) [Decidable c] : M σ Unit := if c then pure () else M.throw .blas

/-- `blas::scal(n, a, x, incx)` on the buffer in the state, starting at offset `x`.
External (BLAS++); reference loop. Used to model RandBLAS/dense_skops.hh:556-570. -/
def blasScal [Mul T] (n : Int) (a : T) (x incx : Int) : M (Buf T) Unit := do
  blasCheck (0 ≤ n)
  blasCheck (0 < incx)
  forI 0 n fun i => do
    let v ← M.rd (x + i * incx)
    M.wr (x + i * incx) (a * v)

/-- `blas::copy(n, src, incs, dst, incd)` from a read-only buffer. External (BLAS++); positive increments. Used to model RandBLAS/dense_skops.hh:571-579. -/
def blasCopy (n : Int) (src : Buf T) (s incs : Int) (d incd : Int) : M (Buf T) Unit := do
  blasCheck (0 ≤ n)
  forI 0 n fun i => do
    let v ← M.lift (src.rd (s + i * incs))
    M.wr (d + i * incd) v

/-- `blas::axpy(n, a, x, incx, y, incy)`: `y += a * x`, with `x` in a read-only buffer.
External (BLAS++); reference loop, positive increments. Used to model RandBLAS/sparse_data/csc_spmm_impl.hh:106-110. -/
def blasAxpy [Add T] [Mul T] (n : Int) (a : T) (xb : Buf T) (x incx : Int) (y incy : Int) : M (Buf T) Unit := do
  blasCheck (0 ≤ n)
  forI 0 n fun i => do
    let v ← M.lift (xb.rd (x + i * incx))
    let w ← M.rd (y + i * incy)
    M.wr (y + i * incy) (w + a * v)

/-- Entry (i, k) of `op(A)` in a buffer with the given layout and leading dimension, as an offset. Used to model RandBLAS/skge.hh:179-199. -/
def opIndex (layout : Layout) (ld : Int) (op : Op) (i k : Int) : Int :=
  match op with
  | .NoTrans => (layoutToStrides layout ld).at i k
  | .Trans => (layoutToStrides layout ld).at k i

/-- `blas::gemm` (external, BLAS++): `C = alpha * op(A) * op(B) + beta * C`, with BLAS++'s argument checks.
The state is the buffer of C, `c0` the offset of C in it; A and B are read-only buffers with offsets.
If alpha = 0, A and B are not read; if beta = 0, C is not read. Used to model examples/sparse-low-rank-approx/svd_rank1_plus_noise.cc:287-290. -/
def blasGemm [Zero T] [Add T] [Mul T] [BEq T] (layout : Layout) (opA opB : Op) (m n k : Int) (alpha : T)
    (A : Buf T) (a0 lda : Int) (B : Buf T) (b0 ldb : Int) (beta : T) (c0 ldc : Int) : M (Buf T) Unit := do
  blasCheck (0 ≤ m)
  blasCheck (0 ≤ n)
  blasCheck (0 ≤ k)
  let (arows, acols) := dimsBeforeOp m k opA
  let (brows, bcols) := dimsBeforeOp k n opB
  blasCheck (if layout = .ColMajor then arows ≤ lda else acols ≤ lda)
  blasCheck (if layout = .ColMajor then brows ≤ ldb else bcols ≤ ldb)
  blasCheck (if layout = .ColMajor then m ≤ ldc else n ≤ ldc)
  forI 0 m fun i => forI 0 n fun j => do
    let p := c0 + (layoutToStrides layout ldc).at i j
    let acc ← if alpha == 0 then pure 0
      else do
        let s ← foldI 0 k (fun l acc => do
          let a ← M.lift (A.rd (a0 + opIndex layout lda opA i l))
          let b ← M.lift (B.rd (b0 + opIndex layout ldb opB l j))
          pure (acc + a * b)) 0
        pure (alpha * s)
    if beta == 0 then M.wr p acc
    else do
      let c ← M.rd p
      M.wr p (acc + beta * c)

end RB
