import Mathlib.Analysis.SpecialFunctions.Gaussian.GaussianIntegral
import Mathlib.Analysis.SpecialFunctions.Log.Deriv
import Mathlib.Analysis.Calculus.Deriv.MeanValue
import Mathlib.MeasureTheory.Integral.Bochner.Basic

/-!
# Exponential moments of squares of sub-Gaussian variables

Finite probability spaces; the square is made linear by a Gaussian integral.
-/

namespace RB
open Finset MeasureTheory

theorem gauss_shift (a : ℝ) : Integrable (fun g : ℝ => Real.exp (a * g) * Real.exp (-(1 / 2) * g ^ 2)) ∧
    ∫ g : ℝ, Real.exp (a * g) * Real.exp (-(1 / 2) * g ^ 2) = Real.sqrt (2 * Real.pi) * Real.exp (a ^ 2 / 2) := by
  have e : (fun g : ℝ => Real.exp (a * g) * Real.exp (-(1 / 2) * g ^ 2)) = fun g => Real.exp (a ^ 2 / 2) * Real.exp (-(1 / 2) * (g - a) ^ 2) := by
    funext g
    rw [← Real.exp_add, ← Real.exp_add]
    congr 1
    ring
  constructor
  · rw [e]
    exact ((integrable_exp_neg_mul_sq (by norm_num : (0 : ℝ) < 1 / 2)).comp_sub_right a).const_mul _
  · rw [e, integral_const_mul, integral_sub_right_eq_self (fun g : ℝ => Real.exp (-(1 / 2) * g ^ 2)) a, integral_gaussian]
    rw [mul_comm]
    congr 2
    ring

theorem gauss_square {c : ℝ} (hc : 2 * c < 1) : Integrable (fun g : ℝ => Real.exp (c * g ^ 2) * Real.exp (-(1 / 2) * g ^ 2)) ∧
    ∫ g : ℝ, Real.exp (c * g ^ 2) * Real.exp (-(1 / 2) * g ^ 2) = Real.sqrt (2 * Real.pi) / Real.sqrt (1 - 2 * c) := by
  have e : (fun g : ℝ => Real.exp (c * g ^ 2) * Real.exp (-(1 / 2) * g ^ 2)) = fun g => Real.exp (-(1 / 2 - c) * g ^ 2) := by
    funext g
    rw [← Real.exp_add]
    congr 1
    ring
  constructor
  · rw [e]
    exact integrable_exp_neg_mul_sq (by linarith)
  · rw [e, integral_gaussian, ← Real.sqrt_div (by positivity)]
    congr 1
    have : 1 - 2 * c ≠ 0 := by linarith
    have : 1 / 2 - c ≠ 0 := by linarith
    field_simp

/-- A variable with Gaussian bounds of its exponential moments: bound of the exponential moment of its square. -/
theorem exp_sq_le {Ω : Type} [Fintype Ω] (w q : Ω → ℝ) {C c h : ℝ} (hq : ∀ s, ∑ ω, w ω * Real.exp (s * q ω) ≤ C * Real.exp (c * s ^ 2 / 2))
    (h0 : 0 ≤ h) (hc : 2 * (h * c) < 1) : ∑ ω, w ω * Real.exp (h * q ω ^ 2) ≤ C / Real.sqrt (1 - 2 * (h * c)) := by
  have hpi : 0 < Real.sqrt (2 * Real.pi) := Real.sqrt_pos.mpr (by positivity)
  have hsq : Real.sqrt (2 * h) ^ 2 = 2 * h := Real.sq_sqrt (by linarith)
  have h1 : ∀ ω, Real.sqrt (2 * Real.pi) * (w ω * Real.exp (h * q ω ^ 2)) =
      ∫ g : ℝ, w ω * (Real.exp (Real.sqrt (2 * h) * q ω * g) * Real.exp (-(1 / 2) * g ^ 2)) := by
    intro ω
    rw [integral_const_mul, (gauss_shift _).2, mul_pow, hsq]
    rw [show 2 * h * q ω ^ 2 / 2 = h * q ω ^ 2 by ring]
    ring
  have h2 : Real.sqrt (2 * Real.pi) * ∑ ω, w ω * Real.exp (h * q ω ^ 2) =
      ∫ g : ℝ, ∑ ω, w ω * (Real.exp (Real.sqrt (2 * h) * q ω * g) * Real.exp (-(1 / 2) * g ^ 2)) := by
    rw [mul_sum, integral_finset_sum _ fun ω _ => (gauss_shift _).1.const_mul _]
    exact sum_congr rfl fun ω _ => h1 ω
  have h3 : ∫ g : ℝ, ∑ ω, w ω * (Real.exp (Real.sqrt (2 * h) * q ω * g) * Real.exp (-(1 / 2) * g ^ 2)) ≤
      ∫ g : ℝ, C * (Real.exp (h * c * g ^ 2) * Real.exp (-(1 / 2) * g ^ 2)) := by
    refine integral_mono (integrable_finset_sum _ fun ω _ => (gauss_shift _).1.const_mul _) ((gauss_square hc).1.const_mul _) fun g => ?_
    have := hq (Real.sqrt (2 * h) * g)
    rw [mul_pow, hsq, show c * (2 * h * g ^ 2) / 2 = h * c * g ^ 2 by ring] at this
    have := mul_le_mul_of_nonneg_right this (Real.exp_pos (-(1 / 2) * g ^ 2)).le
    rw [sum_mul] at this
    refine le_trans (le_of_eq (sum_congr rfl fun ω _ => ?_)) (this.trans (le_of_eq (by ring)))
    rw [show Real.sqrt (2 * h) * q ω * g = Real.sqrt (2 * h) * g * q ω by ring]
    ring
  rw [integral_const_mul, (gauss_square hc).2] at h3
  rw [← h2] at h3
  have : Real.sqrt (2 * Real.pi) * ∑ ω, w ω * Real.exp (h * q ω ^ 2) ≤ Real.sqrt (2 * Real.pi) * (C / Real.sqrt (1 - 2 * (h * c))) := h3.trans (le_of_eq (by ring))
  exact le_of_mul_le_mul_left this hpi

/-- The same for several variables with a joint bound. -/
theorem exp_sq_sum_le {Ω : Type} [Fintype Ω] (d : Nat) (w : Ω → ℝ) (q : Nat → Ω → ℝ) {C c h : ℝ}
    (hq : ∀ s : Nat → ℝ, ∑ ω, w ω * Real.exp (∑ i ∈ range d, s i * q i ω) ≤ C * Real.exp (c * (∑ i ∈ range d, s i ^ 2) / 2))
    (h0 : 0 ≤ h) (hc : 2 * (h * c) < 1) : ∑ ω, w ω * Real.exp (h * ∑ i ∈ range d, q i ω ^ 2) ≤ C / Real.sqrt (1 - 2 * (h * c)) ^ d := by
  induction d generalizing w C with
  | zero => simpa using hq 0
  | succ d ih =>
    have key : ∀ s, ∑ ω, (w ω * Real.exp (h * ∑ i ∈ range d, q i ω ^ 2)) * Real.exp (s * q d ω) ≤ (C / Real.sqrt (1 - 2 * (h * c)) ^ d) * Real.exp (c * s ^ 2 / 2) := by
      intro s
      have := ih (fun ω => w ω * Real.exp (s * q d ω)) (C := C * Real.exp (c * s ^ 2 / 2)) (fun t => by
        have := hq (fun i => if i = d then s else t i)
        have e2 : ∑ i ∈ range (d + 1), (if i = d then s else t i) ^ 2 = ∑ i ∈ range d, t i ^ 2 + s ^ 2 := by
          rw [sum_range_succ, if_pos rfl]
          congr 1
          exact sum_congr rfl fun i hi => by rw [if_neg (by have := mem_range.mp hi; omega)]
        have e : ∀ ω, ∑ i ∈ range (d + 1), (if i = d then s else t i) * q i ω = ∑ i ∈ range d, t i * q i ω + s * q d ω := by
          intro ω
          rw [sum_range_succ, if_pos rfl]
          congr 1
          exact sum_congr rfl fun i hi => by rw [if_neg (by have := mem_range.mp hi; omega)]
        simp only [e, e2] at this
        refine le_trans (le_of_eq (sum_congr rfl fun ω _ => ?_)) (this.trans (le_of_eq ?_))
        · rw [Real.exp_add]; ring
        · rw [mul_add, add_div, Real.exp_add]; ring)
      refine le_trans (le_of_eq (sum_congr rfl fun ω _ => ?_)) (this.trans (le_of_eq ?_))
      · ring
      · ring
    have := exp_sq_le (fun ω => w ω * Real.exp (h * ∑ i ∈ range d, q i ω ^ 2)) (q d) key h0 hc
    rw [pow_succ, ← div_div]
    refine le_trans (le_of_eq (sum_congr rfl fun ω _ => ?_)) this
    rw [sum_range_succ, mul_add, Real.exp_add]
    ring

/-- `(1 + ε) exp (-ε) ≤ exp (-ε²/4)` for `0 ≤ ε ≤ 1`. -/
theorem one_add_mul_exp_le {ε : ℝ} (h0 : 0 ≤ ε) (h1 : ε ≤ 1) : (1 + ε) * Real.exp (-ε) ≤ Real.exp (-ε ^ 2 / 4) := by
  have hmono : MonotoneOn (fun x : ℝ => x - x ^ 2 / 4 - Real.log (1 + x)) (Set.Icc 0 1) := by
    refine monotoneOn_of_deriv_nonneg (convex_Icc 0 1) ?_ ?_ ?_
    · refine ((continuousOn_id).sub ((continuousOn_id.pow 2).div_const 4)).sub (ContinuousOn.log (continuousOn_const.add continuousOn_id) fun x hx => ?_)
      have := hx.1
      linarith
    · rw [interior_Icc]
      intro x hx
      have hx0 := hx.1
      exact (((hasDerivAt_id x).sub (((hasDerivAt_id x).pow 2).div_const 4)).sub (((hasDerivAt_id x).const_add 1).log (by simp only [id]; linarith))).differentiableAt.differentiableWithinAt
    · rw [interior_Icc]
      intro x hx
      have hx0 := hx.1
      have hx1 := hx.2
      have hd := (((hasDerivAt_id' x).sub (((hasDerivAt_id x).pow 2).div_const 4)).sub (((hasDerivAt_id x).const_add 1).log (by simp only [id]; linarith)))
      have : deriv (fun x : ℝ => x - x ^ 2 / 4 - Real.log (1 + x)) x = _ := hd.deriv
      rw [this]
      show 0 ≤ 1 - ((2 : ℕ) : ℝ) * x ^ (2 - 1) * 1 / 4 - 1 / (1 + x)
      rw [show ((2 : ℕ) : ℝ) * x ^ (2 - 1) * 1 = 2 * x by norm_num]
      rw [show (1 : ℝ) - 2 * x / 4 - 1 / (1 + x) = x * (1 - x) / (2 * (1 + x)) by field_simp; ring]
      exact div_nonneg (mul_nonneg hx0.le (by linarith)) (by linarith)
  have := hmono (Set.left_mem_Icc.mpr zero_le_one) ⟨h0, h1⟩ h0
  simp only [ne_eq, OfNat.ofNat_ne_zero, not_false_eq_true, zero_pow, zero_div, sub_zero, add_zero, Real.log_one] at this
  have hlog : Real.log (1 + ε) - ε ≤ -ε ^ 2 / 4 := by linarith
  have := Real.exp_le_exp.mpr hlog
  rwa [sub_eq_add_neg, Real.exp_add, Real.exp_log (by linarith)] at this

end RB
