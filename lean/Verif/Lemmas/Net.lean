import Mathlib.MeasureTheory.Measure.Lebesgue.EqHaar
import Mathlib.MeasureTheory.Measure.Haar.OfBasis
import Mathlib.Analysis.InnerProductSpace.PiL2
import Mathlib.Analysis.SpecificLimits.Basic

/-!
# Nets of unit balls, and quadratic forms that are small on a net
-/

namespace RB
open Finset MeasureTheory Module Metric
open scoped ENNReal Function

section
variable {E : Type} [NormedAddCommGroup E] [NormedSpace ℝ E] [FiniteDimensional ℝ E]

/-- A set of vectors of the unit ball with distances of at least 1/4 has at most `9 ^ dim` elements. -/
theorem card_le_of_quarter (s : Finset E) (hs : ∀ c ∈ s, ‖c‖ ≤ 1) (h : ∀ c ∈ s, ∀ d ∈ s, c ≠ d → 1 / 4 ≤ ‖c - d‖) : s.card ≤ 9 ^ finrank ℝ E := by
  borelize E
  let μ : Measure E := Measure.addHaar
  let δ : ℝ := (1 : ℝ) / 8
  let ρ : ℝ := (9 : ℝ) / 8
  have ρpos : 0 < ρ := by norm_num [ρ]
  set A := ⋃ c ∈ s, ball (c : E) δ with hA
  have D : Set.Pairwise (s : Set E) (Disjoint on fun c => ball (c : E) δ) := by
    rintro c hc d hd hcd
    apply ball_disjoint_ball
    rw [dist_eq_norm]
    refine le_trans (le_of_eq ?_) (h c hc d hd hcd)
    norm_num [δ]
  have A_subset : A ⊆ ball (0 : E) ρ := by
    refine Set.iUnion₂_subset fun x hx => ?_
    apply ball_subset_ball'
    calc
      δ + dist x 0 ≤ δ + 1 := by rw [dist_zero_right]; exact add_le_add le_rfl (hs x hx)
      _ = 9 / 8 := by norm_num [δ]
  have I : (s.card : ℝ≥0∞) * ENNReal.ofReal (δ ^ finrank ℝ E) * μ (ball 0 1) ≤ ENNReal.ofReal (ρ ^ finrank ℝ E) * μ (ball 0 1) :=
    calc
      (s.card : ℝ≥0∞) * ENNReal.ofReal (δ ^ finrank ℝ E) * μ (ball 0 1) = μ A := by
        rw [hA, measure_biUnion_finset D fun c _ => measurableSet_ball]
        have I : 0 < δ := by norm_num [δ]
        simp only [μ.addHaar_ball_of_pos _ I]
        simp only [Finset.sum_const, nsmul_eq_mul, mul_assoc]
      _ ≤ μ (ball (0 : E) ρ) := measure_mono A_subset
      _ = ENNReal.ofReal (ρ ^ finrank ℝ E) * μ (ball 0 1) := by
        simp only [μ.addHaar_ball_of_pos _ ρpos]
  have J : (s.card : ℝ≥0∞) * ENNReal.ofReal (δ ^ finrank ℝ E) ≤ ENNReal.ofReal (ρ ^ finrank ℝ E) :=
    (ENNReal.mul_le_mul_iff_left (measure_ball_pos _ _ zero_lt_one).ne' measure_ball_lt_top.ne).1 I
  have Kk : (s.card : ℝ) ≤ (9 : ℝ) ^ finrank ℝ E := by
    have := ENNReal.toReal_le_of_le_ofReal (pow_nonneg ρpos.le _) J
    simpa [ρ, δ, div_eq_mul_inv, mul_pow] using this
  exact mod_cast Kk

variable (E) in
/-- A net of the unit ball. -/
theorem exists_net : ∃ s : Finset E, s.card ≤ 9 ^ finrank ℝ E ∧ (∀ c ∈ s, ‖c‖ ≤ 1) ∧ ∀ x : E, ‖x‖ ≤ 1 → ∃ c ∈ s, ‖x - c‖ ≤ 1 / 4 := by
  classical
  let p : Nat → Prop := fun k => ∃ s : Finset E, s.card = k ∧ (∀ c ∈ s, ‖c‖ ≤ 1) ∧ ∀ c ∈ s, ∀ d ∈ s, c ≠ d → 1 / 4 ≤ ‖c - d‖
  have hp : p (Nat.findGreatest p (9 ^ finrank ℝ E)) := Nat.findGreatest_spec (P := p) (Nat.zero_le _) ⟨∅, by simp⟩
  obtain ⟨s, h1, h2, h3⟩ := hp
  refine ⟨s, card_le_of_quarter s h2 h3, h2, fun x hx => ?_⟩
  by_contra hc
  push Not at hc
  have hxs : x ∉ s := fun h => by
    have := hc x h
    rw [sub_self, norm_zero] at this
    linarith
  have hq : p (s.card + 1) := by
    refine ⟨insert x s, card_insert_of_notMem hxs, fun c h => ?_, fun c h d h' hne => ?_⟩
    · rcases mem_insert.mp h with rfl | h
      · exact hx
      · exact h2 c h
    · rcases mem_insert.mp h with h | h <;> rcases mem_insert.mp h' with h' | h'
      · exact absurd (h.trans h'.symm) hne
      · rw [h]; exact (hc d h').le
      · rw [h', norm_sub_rev]; exact (hc c h).le
      · exact h3 c h d h' hne
  obtain ⟨t, e, a, b⟩ := hq
  have hle : s.card + 1 ≤ 9 ^ finrank ℝ E := e ▸ card_le_of_quarter t a b
  have := Nat.le_findGreatest (P := p) hle ⟨t, e, a, b⟩
  omega

end

section
variable {E : Type} [NormedAddCommGroup E] [InnerProductSpace ℝ E] {ι : Type} (s : Finset ι) (f : ι → E →ₗ[ℝ] ℝ)

/-- `‖f x‖² - ‖x‖²`. -/
def qform (x : E) : ℝ := ∑ i ∈ s, f i x ^ 2 - ‖x‖ ^ 2

theorem qform_smul (a : ℝ) (x : E) : qform s f (a • x) = a ^ 2 * qform s f x := by
  unfold qform
  rw [norm_smul, mul_pow, mul_sub, mul_sum, Real.norm_eq_abs, sq_abs]
  congr 1
  refine sum_congr rfl fun i _ => ?_
  rw [map_smul, smul_eq_mul]; ring

theorem qform_polar (u w : E) : qform s f (u + w) - qform s f (u - w) = 4 * (∑ i ∈ s, f i u * f i w - inner ℝ u w) := by
  unfold qform
  rw [norm_add_sq_real, norm_sub_sq_real, mul_sub, mul_sum]
  have : ∀ i ∈ s, 4 * (f i u * f i w) = f i (u + w) ^ 2 - f i (u - w) ^ 2 := fun i _ => by rw [map_add, map_sub]; ring
  rw [sum_congr rfl this, sum_sub_distrib]
  ring

theorem qform_diff (x y : E) : qform s f x - qform s f y = ∑ i ∈ s, f i (x - y) * f i (x + y) - inner ℝ (x - y) (x + y) := by
  unfold qform
  have : ∀ i ∈ s, f i (x - y) * f i (x + y) = f i x ^ 2 - f i y ^ 2 := fun i _ => by rw [map_add, map_sub]; ring
  rw [sum_congr rfl this, sum_sub_distrib, inner_sub_left, inner_add_right, inner_add_right, real_inner_self_eq_norm_sq, real_inner_self_eq_norm_sq, real_inner_comm x y]
  ring

/-- One step of the improvement of a bound. -/
theorem qform_step {N : Finset E} (hN : ∀ c ∈ N, ‖c‖ ≤ 1) (hnet : ∀ x : E, ‖x‖ ≤ 1 → ∃ c ∈ N, ‖x - c‖ ≤ 1 / 4) {ε l : ℝ} (hε0 : 0 ≤ ε) (hl : 0 ≤ l)
    (hε : ∀ c ∈ N, |qform s f c| ≤ ε * ‖c‖ ^ 2) (h : ∀ x, |qform s f x| ≤ l * ‖x‖ ^ 2) (x : E) : |qform s f x| ≤ (ε + l / 2) * ‖x‖ ^ 2 := by
  have hunit : ∀ x : E, ‖x‖ = 1 → |qform s f x| ≤ ε + l / 2 := by
    intro x hx
    obtain ⟨c, hc, hd⟩ := hnet x hx.le
    have h8 : Real.sqrt 8 ^ 2 = 8 := Real.sq_sqrt (by norm_num)
    have h80 : Real.sqrt 8 ≠ 0 := by positivity
    let u := Real.sqrt 8 • (x - c)
    let w := (Real.sqrt 8)⁻¹ • (x + c)
    have e1 : qform s f x - qform s f c = ∑ i ∈ s, f i u * f i w - inner ℝ u w := by
      rw [qform_diff]
      congr 1
      · refine sum_congr rfl fun i _ => ?_
        simp only [u, w, map_smul, smul_eq_mul]
        field_simp
      · simp only [u, w, inner_smul_left, inner_smul_right]
        simp
    have hu : ‖u‖ ^ 2 ≤ 1 / 2 := by
      simp only [u]
      rw [norm_smul, mul_pow, Real.norm_eq_abs, sq_abs, h8]
      have := pow_le_pow_left₀ (norm_nonneg _) hd 2
      linarith
    have hw : ‖w‖ ^ 2 ≤ 1 / 2 := by
      simp only [w]
      rw [norm_smul, mul_pow, Real.norm_eq_abs, sq_abs, inv_pow, h8]
      have h2 : ‖x + c‖ ≤ 2 := (norm_add_le _ _).trans (by have := hN c hc; linarith)
      have := pow_le_pow_left₀ (norm_nonneg _) h2 2
      linarith
    have e2 := qform_polar s f u w
    have e3 : ‖u + w‖ ^ 2 + ‖u - w‖ ^ 2 = 2 * (‖u‖ ^ 2 + ‖w‖ ^ 2) := by
      rw [norm_add_sq_real, norm_sub_sq_real]; ring
    have a1 := abs_le.mp (h (u + w))
    have a2 := abs_le.mp (h (u - w))
    have a3 : l * (‖u + w‖ ^ 2 + ‖u - w‖ ^ 2) ≤ l * 2 := mul_le_mul_of_nonneg_left (by linarith) hl
    have a4 := abs_le.mp (hε c hc)
    have a5 : ε * ‖c‖ ^ 2 ≤ ε := by
      have := mul_le_mul_of_nonneg_left (pow_le_one₀ (norm_nonneg c) (hN c hc) (n := 2)) hε0
      linarith
    rw [abs_le]
    constructor <;> nlinarith [a1.1, a1.2, a2.1, a2.2, a4.1, a4.2]
  rcases eq_or_ne x 0 with rfl | hx
  · have := h 0
    simpa using this
  · have hn : ‖x‖ ≠ 0 := norm_ne_zero_iff.mpr hx
    have h1 := hunit (‖x‖⁻¹ • x) (by rw [norm_smul, norm_inv, norm_norm, inv_mul_cancel₀ hn])
    rw [qform_smul, abs_mul, abs_of_nonneg (by positivity)] at h1
    have h2 := mul_le_mul_of_nonneg_left h1 (sq_nonneg ‖x‖)
    rw [← mul_assoc, ← mul_pow, mul_inv_cancel₀ hn, one_pow, one_mul] at h2
    linarith

/-- A form that is at most `ε` on a net is at most `2 ε` everywhere. -/
theorem qform_le {N : Finset E} (hN : ∀ c ∈ N, ‖c‖ ≤ 1) (hnet : ∀ x : E, ‖x‖ ≤ 1 → ∃ c ∈ N, ‖x - c‖ ≤ 1 / 4) {ε l : ℝ} (hε0 : 0 ≤ ε) (hl : 0 ≤ l)
    (hε : ∀ c ∈ N, |qform s f c| ≤ ε * ‖c‖ ^ 2) (h : ∀ x, |qform s f x| ≤ l * ‖x‖ ^ 2) (x : E) : |qform s f x| ≤ 2 * ε * ‖x‖ ^ 2 := by
  have key : ∀ k : Nat, ∀ x, |qform s f x| ≤ (2 * ε + l * (1 / 2) ^ k) * ‖x‖ ^ 2 := by
    intro k
    induction k with
    | zero =>
      intro x
      have := mul_nonneg hε0 (sq_nonneg ‖x‖)
      have := h x
      rw [pow_zero]
      nlinarith
    | succ k ih =>
      intro x
      have := qform_step s f hN hnet hε0 (l := 2 * ε + l * (1 / 2) ^ k) (by positivity) hε ih x
      refine this.trans (le_of_eq ?_)
      rw [pow_succ]
      ring
  have hlim : Filter.Tendsto (fun k : Nat => (2 * ε + l * (1 / 2) ^ k) * ‖x‖ ^ 2) Filter.atTop (nhds ((2 * ε + l * 0) * ‖x‖ ^ 2)) :=
    ((tendsto_pow_atTop_nhds_zero_of_lt_one (by norm_num : (0 : ℝ) ≤ 1 / 2) (by norm_num)).const_mul l |>.const_add _).mul_const _
  have := ge_of_tendsto' hlim fun k => key k x
  simpa using this

end

end RB
