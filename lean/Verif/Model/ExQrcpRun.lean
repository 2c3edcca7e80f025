import Verif.Model.ExStab
import Verif.Model.ExLowRank

/-! # The pivoted QR example with the sampling of the library -/

namespace RB
variable {N : Nat} {K W WS R T : Type}

/-- `run` (examples/sparse-low-rank-approx/qrcp_matrixmarket.cc:384-412) with the calls of `fill_dense` in `power_iter_col_sketch` (examples/sparse-low-rank-approx/qrcp_matrixmarket.cc:264-271): the k x m (or k x n)
Gaussian matrix is sampled into an array in the natural layout of its distribution, and the array is then used as a column-major matrix. `seed` is the state that `run` makes. -/
def qrcpProgram [Field T] [LinearOrder T] [Field R] [LinearOrder R] [FloorRing R] (P : PowEnv N K W WS R T) (sqrt : T → T) (nb : Int)
    (qrcp : Int → Int → (Int → Int) → (Int → Int → T) → Qrcp T) (sched : List Nat) (G : Gen N K W T) (sqrt3 : T) (seed : RNGState N K) (A : CscMat T) (k p : Int) : M (TqrSt T) Unit :=
  qrcpRun P sqrt nb qrcp (qbFill sched G sqrt3 k A.nCols seed) (qbFill sched G sqrt3 k A.nRows seed) A k p

end RB
