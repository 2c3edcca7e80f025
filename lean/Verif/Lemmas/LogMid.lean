import Mathlib.Analysis.SpecialFunctions.Log.NegMulLog
import Mathlib.Analysis.Calculus.Deriv.MeanValue
import Mathlib.Analysis.Calculus.Deriv.Pow
import Mathlib.Algebra.BigOperators.Field
import Mathlib.Tactic.FieldSimp

/-!
# Midpoint rule for `-log` and `log²` on [0, 1]

These sums are the second and fourth moments of the radius of the Box-Muller transform.
-/

namespace RB
open Finset

/-- A function that is above a line which meets it in the middle of an interval has a mean of at least its value there. -/
theorem midpoint_le {f H : ℝ → ℝ} {a b : ℝ} (hab : a ≤ b) (hcont : Continuous H) (hderiv : ∀ u, a < u → u < b → HasDerivAt H (f u) u) (c : ℝ)
    (hsup : ∀ u, a < u → u < b → f ((a + b) / 2) + c * (u - (a + b) / 2) ≤ f u) : (b - a) * f ((a + b) / 2) ≤ H b - H a := by
  let D : ℝ → ℝ := fun u => H u - f ((a + b) / 2) * u - c / 2 * (u - (a + b) / 2) ^ 2
  have hD : ∀ u, a < u → u < b → HasDerivAt D (f u - f ((a + b) / 2) * 1 - c / 2 * (2 * (u - (a + b) / 2) ^ (2 - 1) * 1)) u := by
    intro u h1 h2
    exact ((hderiv u h1 h2).sub ((hasDerivAt_id u).const_mul _)).sub ((((hasDerivAt_id u).sub_const _).pow 2).const_mul _)
  have hmono : MonotoneOn D (Set.Icc a b) := by
    refine monotoneOn_of_deriv_nonneg (convex_Icc a b) ?_ ?_ ?_
    · exact (((hcont.sub (continuous_const.mul continuous_id)).sub (continuous_const.mul ((continuous_id.sub continuous_const).pow 2)))).continuousOn
    · rw [interior_Icc]
      exact fun u hu => (hD u hu.1 hu.2).differentiableAt.differentiableWithinAt
    · rw [interior_Icc]
      intro u hu
      rw [(hD u hu.1 hu.2).deriv]
      have := hsup u hu.1 hu.2
      simp only [pow_one, mul_one, Nat.add_one_sub_one]
      linarith
  have := hmono (Set.left_mem_Icc.mpr hab) (Set.right_mem_Icc.mpr hab) hab
  simp only [D] at this
  have e : (a - (a + b) / 2) ^ 2 = (b - (a + b) / 2) ^ 2 := by ring
  rw [e] at this
  linarith

/-- Sum of the midpoint inequalities over `M` equal intervals of [0, 1]. -/
theorem midpoint_sum_le {f H : ℝ → ℝ} (hcont : Continuous H) (hderiv : ∀ u, 0 < u → u < 1 → HasDerivAt H (f u) u) (c : ℝ → ℝ)
    (hsup : ∀ m u, 0 < m → m < 1 → 0 < u → u < 1 → f m + c m * (u - m) ≤ f u) {M : Nat} (hM : 0 < M) :
    (∑ j ∈ range M, f (((j : ℝ) + 1 / 2) / M)) / M ≤ H 1 - H 0 := by
  have hM' : (0 : ℝ) < M := by exact_mod_cast hM
  have h : ∀ j ∈ range M, f (((j : ℝ) + 1 / 2) / M) / M ≤ H (((j + 1 : Nat) : ℝ) / M) - H ((j : ℝ) / M) := by
    intro j hj
    have hj' : ((j : ℝ) + 1) ≤ M := by exact_mod_cast Nat.succ_le_of_lt (mem_range.mp hj)
    have hj0 : (0 : ℝ) ≤ j := Nat.cast_nonneg j
    have hmid : ((j : ℝ) / M + ((j + 1 : Nat) : ℝ) / M) / 2 = ((j : ℝ) + 1 / 2) / M := by push_cast; field_simp; ring
    have hb : ((j + 1 : Nat) : ℝ) / M ≤ 1 := by rw [div_le_one hM']; push_cast; exact hj'
    have ha : 0 ≤ (j : ℝ) / M := by positivity
    have hlt : (j : ℝ) / M < ((j + 1 : Nat) : ℝ) / M := by
      rw [div_lt_div_iff_of_pos_right hM']; push_cast; linarith
    have key := midpoint_le (f := f) (H := H) hlt.le hcont (fun u h1 h2 => hderiv u (by linarith) (by linarith)) (c (((j : ℝ) + 1 / 2) / M)) (by
      rw [hmid]
      exact fun u h1 h2 => hsup _ _ (by positivity) (by rw [div_lt_one hM']; linarith) (by linarith) (by linarith))
    rw [hmid] at key
    have e : ((j + 1 : Nat) : ℝ) / M - (j : ℝ) / M = 1 / M := by push_cast; field_simp; ring
    rw [e] at key
    rw [show f (((j : ℝ) + 1 / 2) / M) / M = 1 / M * f (((j : ℝ) + 1 / 2) / M) by ring]
    exact key
  rw [sum_div]
  refine (sum_le_sum h).trans (le_of_eq ?_)
  rw [sum_range_sub (fun j : Nat => H ((j : ℝ) / M)), div_self hM'.ne']
  simp

theorem mean_neg_log_le {M : Nat} (hM : 0 < M) : (∑ j ∈ range M, -Real.log (((j : ℝ) + 1 / 2) / M)) / M ≤ 1 := by
  have h := midpoint_sum_le (f := fun u => -Real.log u) (H := fun u => u - u * Real.log u) (continuous_id.sub Real.continuous_mul_log)
    (fun u h1 _ => by
      have := (hasDerivAt_id u).sub (Real.hasDerivAt_mul_log h1.ne')
      refine this.congr_deriv ?_
      ring) (fun m => -m⁻¹) (fun m u hm _ hu _ => by
      have := Real.log_le_sub_one_of_pos (show 0 < u / m by positivity)
      rw [Real.log_div hu.ne' hm.ne'] at this
      have e : -m⁻¹ * (u - m) = -(u / m - 1) := by field_simp
      rw [e]
      linarith) hM
  refine h.trans (le_of_eq ?_)
  simp

theorem continuous_mul_log_sq : Continuous fun u : ℝ => u * Real.log u ^ 2 := by
  have h : (fun u : ℝ => u * Real.log u ^ 2) = fun u => if 0 ≤ u then 4 * (Real.sqrt u * Real.log (Real.sqrt u)) ^ 2 else -(4 * (Real.sqrt (-u) * Real.log (Real.sqrt (-u))) ^ 2) := by
    funext u
    split_ifs with hu
    · rw [mul_pow, Real.sq_sqrt hu, Real.log_sqrt hu]; ring
    · rw [mul_pow, Real.sq_sqrt (by linarith), Real.log_sqrt (by linarith), Real.log_neg_eq_log]; ring
  rw [h]
  refine Continuous.if_le ?_ ?_ continuous_const continuous_id ?_
  · exact continuous_const.mul ((Real.continuous_mul_log.comp Real.continuous_sqrt).pow 2)
  · exact (continuous_const.mul ((Real.continuous_mul_log.comp (Real.continuous_sqrt.comp continuous_neg)).pow 2)).neg
  · rintro u rfl; simp

theorem mean_log_sq_le {M : Nat} (hM : 0 < M) : (∑ j ∈ range M, Real.log (((j : ℝ) + 1 / 2) / M) ^ 2) / M ≤ 2 := by
  have h := midpoint_sum_le (f := fun u => Real.log u ^ 2) (H := fun u => u * Real.log u ^ 2 - 2 * (u * Real.log u) + 2 * u)
    ((continuous_mul_log_sq.sub (continuous_const.mul Real.continuous_mul_log)).add (continuous_const.mul continuous_id))
    (fun u h1 _ => by
      have a := (hasDerivAt_id u).mul ((Real.hasDerivAt_log h1.ne').pow 2)
      have b := (Real.hasDerivAt_mul_log h1.ne').const_mul 2
      refine ((a.sub b).add ((hasDerivAt_id u).const_mul 2)).congr_deriv ?_
      simp only [id, pow_one, Nat.add_one_sub_one, Pi.pow_apply]
      field_simp
      push_cast
      ring) (fun m => 2 * Real.log m * m⁻¹) (fun m u hm hm1 hu _ => by
      have h1 := Real.one_sub_inv_le_log_of_pos (show 0 < m / u by positivity)
      rw [Real.log_div hm.ne' hu.ne', inv_div] at h1
      have h2 : Real.log m ≤ 0 := Real.log_nonpos hm.le hm1.le
      have e : 2 * Real.log m * m⁻¹ * (u - m) = 2 * Real.log m * (u / m - 1) := by field_simp
      rw [e]
      nlinarith [sq_nonneg (Real.log u - Real.log m)]) hM
  refine h.trans (le_of_eq ?_)
  simp

theorem le_mean_neg_log {M : Nat} (hM : 0 < M) : 1 - (2 + Real.log (2 * M)) / (2 * M) ≤ (∑ j ∈ range M, -Real.log (((j : ℝ) + 1 / 2) / M)) / M := by
  have hM' : (0 : ℝ) < M := by exact_mod_cast hM
  let F : Nat → ℝ := fun j => ((j : ℝ) + 1 / 2) / M - ((j : ℝ) + 1 / 2) / M * Real.log (((j : ℝ) + 1 / 2) / M)
  have h : ∀ j ∈ range M, F (j + 1) - F j ≤ -Real.log (((j : ℝ) + 1 / 2) / M) / M := by
    intro j _
    have hj0 : (0 : ℝ) ≤ j := Nat.cast_nonneg j
    have ht : 0 < (j : ℝ) + 1 / 2 := by linarith
    have h1 := Real.one_sub_inv_le_log_of_pos (show 0 < ((j : ℝ) + 1 + 1 / 2) / ((j : ℝ) + 1 / 2) by positivity)
    rw [Real.log_div (by positivity) ht.ne', inv_div] at h1
    simp only [F]
    push_cast
    rw [Real.log_div ht.ne' hM'.ne', Real.log_div (by positivity) hM'.ne']
    have h2 : 1 ≤ ((j : ℝ) + 1 + 1 / 2) * (Real.log ((j : ℝ) + 1 + 1 / 2) - Real.log ((j : ℝ) + 1 / 2)) := by
      have := mul_le_mul_of_nonneg_left h1 (show 0 ≤ (j : ℝ) + 1 + 1 / 2 by positivity)
      have e : ((j : ℝ) + 1 + 1 / 2) * (1 - ((j : ℝ) + 1 / 2) / ((j : ℝ) + 1 + 1 / 2)) = 1 := by field_simp; ring
      linarith
    rw [← sub_nonneg]
    have e : -(Real.log ((j : ℝ) + 1 / 2) - Real.log M) / M - (((j : ℝ) + 1 + 1 / 2) / M - ((j : ℝ) + 1 + 1 / 2) / M * (Real.log ((j : ℝ) + 1 + 1 / 2) - Real.log M) -
        (((j : ℝ) + 1 / 2) / M - ((j : ℝ) + 1 / 2) / M * (Real.log ((j : ℝ) + 1 / 2) - Real.log M))) =
        (((j : ℝ) + 1 + 1 / 2) * (Real.log ((j : ℝ) + 1 + 1 / 2) - Real.log ((j : ℝ) + 1 / 2)) - 1) / M := by field_simp; ring
    rw [e]
    exact div_nonneg (by linarith) hM'.le
  rw [sum_div]
  refine le_trans ?_ (sum_le_sum h)
  rw [sum_range_sub]
  simp only [F, Nat.cast_zero, zero_add]
  have h0 : (1 / 2 : ℝ) / M = 1 / (2 * M) := by field_simp
  have h1 : ((M : ℝ) + 1 / 2) / M = 1 + 1 / (2 * M) := by field_simp
  have hh : 0 < 1 / (2 * (M : ℝ)) := by positivity
  have hh1 : 1 / (2 * (M : ℝ)) ≤ 1 := by
    rw [div_le_one (by positivity)]
    have : (1 : ℝ) ≤ M := by exact_mod_cast hM
    linarith
  have hlast : 1 - 1 / (2 * (M : ℝ)) ≤ 1 + 1 / (2 * (M : ℝ)) - (1 + 1 / (2 * (M : ℝ))) * Real.log (1 + 1 / (2 * (M : ℝ))) := by
    have := Real.log_le_sub_one_of_pos (show 0 < 1 + 1 / (2 * (M : ℝ)) by positivity)
    have := mul_le_mul_of_nonneg_left this (show 0 ≤ 1 + 1 / (2 * (M : ℝ)) by positivity)
    nlinarith
  have hlog : Real.log (1 / (2 * (M : ℝ))) = -Real.log (2 * M) := by rw [one_div, Real.log_inv]
  rw [h0, h1, hlog]
  have e : (2 + Real.log (2 * M)) / (2 * M) = 1 / (2 * (M : ℝ)) + (1 / (2 * (M : ℝ)) - 1 / (2 * (M : ℝ)) * -Real.log (2 * M)) := by field_simp; ring
  rw [e]
  linarith

end RB
