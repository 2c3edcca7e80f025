import Verif.Model.TestLinop
import Verif.Model.HrEig

/-! # Model of test/test_basic_rng/test_distortion.cc -/

namespace RB
variable {N : Nat} {K W T : Type} [Field T] [LinearOrder T]

/-- `fill_dense_unpacked(ColMajor, {n, 1}, n, 1, 0, 0, v, state)`, the first statement of `power_method` (test/handrolled_lapack.hh:234). -/
def startVec (sched : List Nat) (G : Gen N K W T) (sqrt3 : T) (n : Int) (seed : RNGState N K) : M (Buf T) Unit := do
  let D ← M.lift (mkDenseDist n 1 .Gaussian .Long)
  let _ ← fillDenseUnpacked sched G sqrt3 .ColMajor D n 1 0 0 seed
  pure ()

/-- The matrix S of `run_general` (test/test_basic_rng/test_distortion.cc:52-58): `fill_dense`, then `scal` with `inv_stddev / sqrt(d)`; `inv_stddev` is 1 for both families. -/
def distMatrix (sqrt : T → T) (sched : List Nat) (G : Gen N K W T) (sqrt3 : T) (family : ScalarDist) (d n : Int) (seed : RNGState N K) : M (Buf T) Unit := do
  let D ← M.lift (mkDenseDist d n family .Long)
  let _ ← fillDense sched G sqrt3 D seed
  blasScal (d * n) (1 / sqrt d) 0 1

/-- The Gram matrix of `run_general` (test/test_basic_rng/test_distortion.cc:59-61). -/
def distGram (d n : Int) (S : Buf T) : M (Buf T) Unit := do
  syrkUpperTrans n d 1 S 0 d 0 n
  symmetrize .ColMajor .Upper n n

/-- `TestSubspaceDistortion::run_general` (test/test_basic_rng/test_distortion.cc:49-77): whether both assertions hold. `n` is the code's `N`, `iters` the number of iterations that
`required_powermethod_iters` gives for the tolerances 1e-2 and 1e-6 (`powerIters`, Verif/Model/TestDistortionSizes.lean). The power method starts from the seed of the matrix; the second run from the state that
filling the first vector returned, which is the `next_state` of its distribution (C03). The output to `std::cout` is omitted. -/
def runGeneral (sqrt : T → T) (sched : List Nat) (G : Gen N K W T) (sqrt3 : T) (family : ScalarDist) (distortion : T) (d n iters : Int) (seed : RNGState N K) : M Unit Bool := do
  let S ← M.onLocal (distMatrix sqrt sched G sqrt3 family d n seed) (zeroVec (d * n))
  let A ← M.onLocal (distGram d n S.2) (zeroVec (n * n))
  let D ← M.lift (mkDenseDist n 1 .Gaussian .Long)
  let next ← M.lift (denseNextState G.len D seed)
  let r ← M.onLocal (exeigs sqrt n iters A.2 ⟨0, Buf.alloc T 0⟩ (startVec sched G sqrt3 n seed) (startVec sched G sqrt3 n next)) (zeroVec (2 * n))
  pure (decide (sqrt r.1.1 ≤ 1 + distortion) && decide (1 - distortion ≤ sqrt r.1.2))

end RB
