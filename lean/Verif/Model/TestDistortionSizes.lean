import Mathlib.Analysis.SpecialFunctions.Log.Basic
import Mathlib.Analysis.SpecialFunctions.Sqrt
import Mathlib.Analysis.Real.Pi.Bounds

/-! # Model of the sizes that the distortion test computes

Real numbers stand for the floating-point ones. -/

namespace RB

/-- The conversion of a floating-point number to `int64_t`: towards zero. Used to model test/handrolled_lapack.hh:214-230. -/
noncomputable def truncZ (x : ℝ) : Int := if 0 ≤ x then ⌊x⌋ else ⌈x⌉

/-- `required_powermethod_iters` (test/handrolled_lapack.hh:214-230). In `(int64_t) std::log(..) / temp1` the cast applies to the logarithm; the quotient is converted again
when it initialises the `int64_t`. -/
noncomputable def powerIters (n : Int) (pFail tol : ℝ) : Int :=
  let expectationBound := ⌈(1 + Real.log (Real.sqrt (Real.pi * n))) / tol⌉
  let temp0 := 1 - tol
  let temp1 := Real.log (1 / temp0)
  let temp2 := tol * pFail * pFail
  let b1 := truncZ ((truncZ (Real.log (Real.exp 1 + 0.27 * temp0 * temp1 / temp2)) : ℝ) / temp1)
  let b2 := truncZ ((truncZ (Real.log (Real.sqrt n / pFail)) : ℝ) / temp1)
  max expectationBound (min b1 b2)

/-- N of `run_gaussian` (test/test_basic_rng/test_distortion.cc:99-102). -/
noncomputable def gaussN (tau p : ℝ) : Int := ⌈((Real.sqrt (-2 * Real.log p) + 1) / tau) * ((Real.sqrt (-2 * Real.log p) + 1) / tau)⌉

/-- d of `run_gaussian` (test/test_basic_rng/test_distortion.cc:103). -/
noncomputable def gaussD (distortion tau p : ℝ) : Int := ⌈((1 + tau) / distortion) ^ 2 * gaussN tau p⌉

/-- N of `run_uniform` (test/test_basic_rng/test_distortion.cc:110). -/
noncomputable def unifN (rate p : ℝ) : Int := ⌈Real.log (2 / p) / rate⌉

/-- d of `run_uniform` (test/test_basic_rng/test_distortion.cc:111-114); both factors `c6` and `epsnet_spectralnorm_factor` are 1. -/
noncomputable def unifD (distortion rate p : ℝ) : Int := ⌈unifN rate p * (1 * 1 * (rate + Real.log 9)) * (distortion ^ 2)⁻¹⌉

end RB
