import Verif.Model.TestSampling
import Mathlib.Analysis.SpecialFunctions.Pow.Real

/-!
# Model of the Kolmogorov-Smirnov test of sampling without replacement (test/test_basic_rng/test_discrete.cc:246-302)

Floating point is exact. Conventions as in `Verif.Model.TestSampling`.
-/

namespace RB
variable {N : Nat} {K W R : Type}

/-- A vector of doubles as a vector of real numbers. Simplification: an element that is not finite becomes an element that must not be read. Used to model test/test_basic_rng/test_discrete.cc:259-280. -/
def finiteValues (b : Buf (Option ℝ)) : Buf ℝ := fun i =>
  match b i with
  | .val (some x) => .val x
  | .val none => .uninit
  | .uninit => .uninit
  | .none => .none

/-- `fisher_yates_kolmogorov_smirnov_tester` (test/test_basic_rng/test_discrete.cc:246-257): `result.first`; the expectation holds if it is -1. `thresh` and
`below` are the two constants of `weights_to_cdf`. The distribution functions have `k + 1` elements (one if `k = 0`). -/
noncomputable def fisherYatesKsTester (ndebug : Bool) (idxsMajor : Buf Int) (trueCdf : Buf ℝ) (cv : ℝ) (k numSamples : Int) (thresh below : ℝ) : M Unit Int := do
  let (_, empiricalCdf) ← M.onLocal (fisherYatesCdf idxsMajor k numSamples thresh below) (fun _ => Cell.none)
  let result ← M.lift (ksCheckCritval ndebug (k + 1) (k + 1) trueCdf empiricalCdf cv)
  pure result.1

/-- `single_test_fisher_yates_kolmogorov_smirnov` (test/test_basic_rng/test_discrete.cc:259-280). -/
noncomputable def singleTestFisherYatesKs (ndebug : Bool) (G : Gen N K W R) (n k : Int) (sig : ℚ) (numSamples : Int) (thresh below : ℝ) (state : RNGState N K) :
    M Unit Int := do
  let (cv, numSamples, _) ← M.lift (criticalValueRepMutator numSamples sig)
  let (_, indices) ← M.onLocal (repeatedFisherYatesPublic G k n numSamples state) (Buf.fill (k * numSamples) 0)
  let (_, pmf) ← M.onLocal (hypergeometricPmfArr n k k) (fun _ => Cell.none)
  let (_, trueCdf) ← M.onLocal (weightsToCdf (k + 1) thresh below) (finiteValues pmf)
  fisherYatesKsTester ndebug indices trueCdf (cv : ℝ) k numSamples thresh below

/-- `incr_with_phase_transitions` (test/test_basic_rng/test_discrete.cc:282-294) with its default bounds: the new value of `K`. -/
noncomputable def incrWithPhaseTransitions (k : Int) : Int :=
  if k < 10 then k + 1
  else if k < 100 then k + truncToInt ((Real.sqrt k + 1) ^ 2)
  else truncToInt (k * (10 : ℝ) ^ (0.2 : ℝ))

/-- The values of `K` for which `test_fisher_yates_kolmogorov_smirnov` (test/test_basic_rng/test_discrete.cc:296-302) calls the test, from a given one on. `fuel`
bounds the number of iterations. -/
noncomputable def fisherYatesSizes (n : Int) : Nat → Int → List Int
  | 0, _ => []
  | fuel + 1, k => if k ≤ n then k :: fisherYatesSizes n fuel (incrWithPhaseTransitions k) else []

/-- `test_fisher_yates_kolmogorov_smirnov` (test/test_basic_rng/test_discrete.cc:296-302): the values of `K` with the results of the test for them. `thresh k` is the
threshold in `weights_to_cdf` for vectors of `k + 1` elements. The results are in the order of the calls. -/
noncomputable def testFisherYatesKs (ndebug : Bool) (G : Gen N K W R) (n : Int) (sig : ℚ) (numSamples : Int) (thresh : Int → ℝ) (below : ℝ) (state : RNGState N K)
    (fuel : Nat) : M Unit (List (Int × Int)) :=
  (fisherYatesSizes n fuel 0).foldlM (fun l k => do
    let r ← singleTestFisherYatesKs ndebug G n k sig numSamples (thresh k) below state
    pure (l ++ [(k, r)])) []

end RB
