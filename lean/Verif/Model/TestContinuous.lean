import Verif.Model.StatTests
import Verif.Model.DenseSkops

/-!
# Model of the tests of the scalar distributions (test/test_basic_rng/test_continuous.cc)

Floating point is exact. A test that is given a seed starts at the state made from it, which is an argument here.
-/

namespace RB
variable {N : Nat} {K W : Type}

/-- The function `F_true` of `kolmogorov_smirnov_tester` (test/test_basic_rng/test_continuous.cc:59-68). `ScalarDist` has two members, so the exception cannot be thrown. -/
noncomputable def trueCdfOf (erfc : EReal → ℝ) (sd : ScalarDist) (x : EReal) : ℝ :=
  if sd = .Gaussian then standardNormalCdf erfc x else uniformSymintervalCdf x (Real.sqrt 3)

/-- The first `n` elements of a vector that is passed to a function (no lines of its own: vectors passed as arguments are lists in the model of `kolmogorov_smirnov_tester`). -/
def vecElements {T : Type} (b : Buf T) : Nat → Res (List T)
  | 0 => .ok []
  | n + 1 => do
    let l ← vecElements b n
    let a ← b.rd n
    pure (l ++ [a])

/-- `TestScalarDistributions::run` (test/test_basic_rng/test_continuous.cc:110-120): the first `j` at which the assertion fails, or `none`. The lookup of the critical value replaces the number
of samples by a tabulated one. -/
noncomputable def runScalarKs (erfc : EReal → ℝ) (sched : List Nat) (G : Gen N K W ℝ) (sig : ℚ) (numSamples : Int) (sd : ScalarDist) (state : RNGState N K) :
    M Unit (Option Int) := do
  let (cv, numSamples, _) ← M.lift (criticalValueRepMutator numSamples sig)
  let D ← M.lift (mkDenseDist numSamples 1 sd .Long)
  let (_, samples) ← M.onLocal (fillDense sched G (Real.sqrt 3) D state) (Buf.fill numSamples (-1))
  let samples ← M.lift (vecElements samples numSamples.toNat)
  M.lift (kolmogorovSmirnovTester (trueCdfOf erfc sd) samples (cv : ℝ))

end RB
