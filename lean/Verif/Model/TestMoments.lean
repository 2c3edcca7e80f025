import Verif.Model.TestDenseskop
import Verif.Model.TestLinop

/-! # Model of the test of the moments of dense operators (test/test_datastructures/test_denseskop.cc) -/

namespace RB
variable {N : Nat} {K W T : Type} [Field T] [LinearOrder T]

/-- `std::accumulate(A.data(), A.data() + size, 0.0) / size` (test/test_datastructures/test_denseskop.cc:122). For `float` the sum is taken in `double`; arithmetic is exact here. -/
def empiricalMean (A : Buf T) (size : Int) : Res T := do
  let s ← foldI 0 size (fun i s => do let a ← A.rd i; pure (s + a)) 0
  pure (s / size)

/-- The loop over squared deviations (test/test_datastructures/test_denseskop.cc:123-126). -/
def squaredDeviations (A : Buf T) (size : Int) (mean : T) : Res T :=
  foldI 0 size (fun i s => do let a ← A.rd i; pure (s + (a - mean) * (a - mean))) 0

/-- `EXPECT_NEAR(a, b, tol)` (googletest, as used in test/test_datastructures/test_denseskop.cc:131-132): whether the two numbers differ by at most `tol`. -/
def expectNear (a b tol : T) : Bool := decide (|a - b| ≤ tol)

/-- `test_mean_stddev` (test/test_datastructures/test_denseskop.cc:104-133): whether the check of the mean and the check of the standard deviation hold; neither ends the test. The size is
taken to be nonnegative and to fit the array. If the operator has a single entry, `sum / (size - 1)` is 0/0, which is not a number, and the second check fails. `tol` is 1e-2. -/
def testMeanStddev (sqrt : T → T) (sched : List Nat) (G : Gen N K W T) (sqrt3 tol expect : T) (nRows nCols : Int) (sd : ScalarDist) (state : RNGState N K) : M Unit (Bool × Bool) := do
  let size := nRows * nCols
  let D ← M.lift (mkDenseDist nRows nCols sd .Long)
  let A ← M.onLocal (fillDense sched G sqrt3 D state) (zeroVec size)
  let mean ← M.lift (empiricalMean A.2 size)
  let sum ← M.lift (squaredDeviations A.2 size mean)
  pure (expectNear mean 0 tol, if size = 1 then false else expectNear (sqrt (sum / ((size - 1 : Int) : T))) expect tol)

end RB
