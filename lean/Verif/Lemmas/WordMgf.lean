import Verif.Lemmas.LogMid
import Mathlib.Analysis.SpecialFunctions.Trigonometric.DerivHyp
import Mathlib.Analysis.SpecialFunctions.Trigonometric.Series
import Mathlib.Analysis.SpecialFunctions.Complex.Arg
import Mathlib.Analysis.SpecialFunctions.Pow.Continuity
import Mathlib.RingTheory.RootsOfUnity.Complex
import Mathlib.Data.Nat.Choose.Central
import Mathlib.Algebra.Order.Field.GeomSum

/-!
# Exponential moments of midpoints and of the Box-Muller transform

The exponential moments of both are at most those of the standard normal distribution.
-/

namespace RB
open Finset

theorem six_pow_le (n : Nat) : 6 ^ n * n.factorial ≤ (2 * n + 1).factorial := by
  induction n with
  | zero => simp
  | succ n ih =>
    rw [show 2 * (n + 1) + 1 = 2 * n + 1 + 1 + 1 by ring, Nat.factorial_succ (2 * n + 1 + 1), Nat.factorial_succ (2 * n + 1), Nat.factorial_succ n, pow_succ]
    calc 6 ^ n * 6 * ((n + 1) * n.factorial) = (6 * (n + 1)) * (6 ^ n * n.factorial) := by ring
      _ ≤ (6 * (n + 1)) * (2 * n + 1).factorial := Nat.mul_le_mul_left _ ih
      _ ≤ ((2 * n + 1 + 1 + 1) * (2 * n + 1 + 1)) * (2 * n + 1).factorial := Nat.mul_le_mul_right _ (by nlinarith)
      _ = _ := by ring

theorem sinh_le {y : ℝ} (hy : 0 ≤ y) : Real.sinh y ≤ y * Real.exp (y ^ 2 / 6) := by
  have h1 := Real.hasSum_sinh y
  have h2 : HasSum (fun n : Nat => y * ((y ^ 2 / 6) ^ n / n.factorial)) (y * Real.exp (y ^ 2 / 6)) := by
    have := NormedSpace.expSeries_div_hasSum_exp (𝔸 := ℝ) (y ^ 2 / 6)
    rw [← Real.exp_eq_exp_ℝ] at this
    exact this.mul_left y
  refine hasSum_le (fun n => ?_) h1 h2
  rw [div_pow, div_div, ← pow_mul, ← mul_div_assoc, ← pow_succ']
  refine div_le_div_of_nonneg_left (by positivity) (by positivity) ?_
  exact_mod_cast six_pow_le n

/-- Exponential sums over the midpoints of `M` equal intervals. -/
theorem sum_exp_mid (M : Nat) (a : ℝ) : Real.sinh a * ∑ j ∈ range M, Real.exp ((2 * (j : ℝ) + 1 - M) * a) = Real.sinh (M * a) := by
  have h : ∀ m : Nat, (Real.exp a - Real.exp (-a)) * ∑ j ∈ range m, Real.exp ((2 * (j : ℝ) + 1 - M) * a) = Real.exp ((2 * (m : ℝ) - M) * a) - Real.exp (-M * a) := by
    intro m
    induction m with
    | zero => simp
    | succ m ih =>
      rw [sum_range_succ, mul_add, ih, sub_mul (Real.exp a), ← Real.exp_add, ← Real.exp_add]
      rw [show a + (2 * (m : ℝ) + 1 - M) * a = (2 * ((m + 1 : Nat) : ℝ) - M) * a by push_cast; ring, show -a + (2 * (m : ℝ) + 1 - M) * a = (2 * (m : ℝ) - M) * a by ring]
      ring
  have := h M
  rw [Real.sinh_eq, Real.sinh_eq, div_mul_eq_mul_div, this]
  congr 2
  · congr 1; congr 1; ring
  · congr 1; ring

theorem mean_exp_mid_le {M : Nat} (hM : 0 < M) (y : ℝ) : (∑ j ∈ range M, Real.exp (y * ((2 * (j : ℝ) + 1 - M) / M))) / M ≤ Real.exp (y ^ 2 / 6) := by
  have hM' : (0 : ℝ) < M := by exact_mod_cast hM
  rcases eq_or_ne y 0 with rfl | hy
  · simp [hM'.ne']
  have e : ∀ j : Nat, y * ((2 * (j : ℝ) + 1 - M) / M) = (2 * (j : ℝ) + 1 - M) * (y / M) := by intro j; ring
  simp only [e]
  have h := sum_exp_mid M (y / M)
  rw [mul_div_cancel₀ _ hM'.ne'] at h
  have habs : Real.sinh (|y| / M) * ∑ j ∈ range M, Real.exp ((2 * (j : ℝ) + 1 - M) * (y / M)) = Real.sinh |y| := by
    rcases abs_cases y with ⟨h1, -⟩ | ⟨h1, -⟩ <;> rw [h1]
    · exact h
    · rw [neg_div, Real.sinh_neg, Real.sinh_neg, neg_mul, h]
  have hpos : 0 < |y| := abs_pos.mpr hy
  have h1 : |y| / M ≤ Real.sinh (|y| / M) := Real.self_le_sinh_iff.mpr (by positivity)
  have h2 := sinh_le hpos.le
  rw [sq_abs] at h2
  have hS : 0 ≤ ∑ j ∈ range M, Real.exp ((2 * (j : ℝ) + 1 - M) * (y / M)) := sum_nonneg fun _ _ => (Real.exp_pos _).le
  have h3 := mul_le_mul_of_nonneg_right h1 hS
  rw [habs] at h3
  have h4 := h3.trans h2
  rw [div_mul_eq_mul_div, mul_div_assoc] at h4
  exact le_of_mul_le_mul_left h4 hpos

theorem pow_support {a b : ℝ} (ha : 0 ≤ a) (hb : 0 ≤ b) (k : Nat) : a ^ (k + 1) + (k + 1) * a ^ k * (b - a) ≤ b ^ (k + 1) := by
  induction k with
  | zero => simp
  | succ k ih =>
    have h1 := mul_le_mul_of_nonneg_right ih hb
    rw [pow_succ b (k + 1)]
    refine le_trans ?_ h1
    have h2 : 0 ≤ (k + 1) * a ^ k * (b - a) ^ 2 := by positivity
    push_cast
    have e : (a ^ (k + 1) + (k + 1) * a ^ k * (b - a)) * b - (a ^ (k + 1 + 1) + ((k : ℝ) + 1 + 1) * a ^ (k + 1) * (b - a)) = (k + 1) * a ^ k * (b - a) ^ 2 := by
      rw [pow_succ a (k + 1), pow_succ a k]; ring
    linarith

/-- An antiderivative of the power of the negative logarithm. -/
noncomputable def logPrim : Nat → ℝ → ℝ
  | 0, u => u
  | k + 1, u => (-((k + 1 : Nat) : ℝ) * (|u| ^ (((k + 1 : Nat) : ℝ)⁻¹) * Real.log (|u| ^ (((k + 1 : Nat) : ℝ)⁻¹)))) ^ (k + 1) + (k + 1) * logPrim k u

theorem logPrim_cont (k : Nat) : Continuous (logPrim k) := by
  induction k with
  | zero => exact continuous_id
  | succ k ih =>
    have h : Continuous fun u : ℝ => |u| ^ (((k + 1 : Nat) : ℝ)⁻¹) := continuous_abs.rpow_const fun _ => Or.inr (by positivity)
    exact ((continuous_const.mul (Real.continuous_mul_log.comp h)).pow (k + 1)).add (continuous_const.mul ih)

theorem logPrim_succ {k : Nat} {u : ℝ} (hu : 0 < u) : logPrim (k + 1) u = u * (-Real.log u) ^ (k + 1) + (k + 1) * logPrim k u := by
  have hn : ((k + 1 : Nat) : ℝ) ≠ 0 := by positivity
  show (-((k + 1 : Nat) : ℝ) * (|u| ^ (((k + 1 : Nat) : ℝ)⁻¹) * Real.log (|u| ^ (((k + 1 : Nat) : ℝ)⁻¹)))) ^ (k + 1) + _ = _
  rw [abs_of_pos hu, Real.log_rpow hu]
  rw [show -((k + 1 : Nat) : ℝ) * (u ^ (((k + 1 : Nat) : ℝ)⁻¹) * ((((k + 1 : Nat) : ℝ)⁻¹) * Real.log u)) = u ^ (((k + 1 : Nat) : ℝ)⁻¹) * -Real.log u by field_simp]
  rw [mul_pow, Real.rpow_inv_natCast_pow hu.le (by omega)]

theorem logPrim_deriv (k : Nat) {u : ℝ} (hu : 0 < u) : HasDerivAt (logPrim k) ((-Real.log u) ^ k) u := by
  induction k with
  | zero =>
    rw [pow_zero]
    exact hasDerivAt_id u
  | succ k ih =>
    have h1 := ((hasDerivAt_id u).mul ((Real.hasDerivAt_log hu.ne').neg.pow (k + 1))).add (ih.const_mul ((k : ℝ) + 1))
    have h2 : logPrim (k + 1) =ᶠ[nhds u] fun u => u * (-Real.log u) ^ (k + 1) + (k + 1) * logPrim k u := by
      filter_upwards [lt_mem_nhds hu] with x hx using logPrim_succ hx
    refine (HasDerivAt.congr_of_eventuallyEq (f₁ := logPrim (k + 1)) ?_ h2)
    refine HasDerivAt.congr_deriv h1 ?_
    simp only [id, Pi.neg_apply, Pi.pow_apply, Nat.add_one_sub_one]
    push_cast
    field_simp
    ring

theorem logPrim_zero (k : Nat) : logPrim k 0 = 0 := by
  induction k with
  | zero => rfl
  | succ k ih =>
    have h : (0 : ℝ) ^ (((k + 1 : Nat) : ℝ)⁻¹) = 0 := Real.zero_rpow (by positivity)
    show (-((k + 1 : Nat) : ℝ) * (|(0 : ℝ)| ^ (((k + 1 : Nat) : ℝ)⁻¹) * Real.log (|(0 : ℝ)| ^ (((k + 1 : Nat) : ℝ)⁻¹)))) ^ (k + 1) + (k + 1) * logPrim k 0 = 0
    rw [abs_zero, h, ih]
    simp

theorem logPrim_one (k : Nat) : logPrim k 1 = k.factorial := by
  induction k with
  | zero => simp [logPrim]
  | succ k ih => rw [logPrim_succ one_pos, ih, Real.log_one, Nat.factorial_succ]; push_cast; simp

theorem mean_log_pow_le {M : Nat} (hM : 0 < M) (k : Nat) : (∑ j ∈ range M, (-Real.log (((j : ℝ) + 1 / 2) / M)) ^ k) / M ≤ k.factorial := by
  cases k with
  | zero =>
    have : (0 : ℝ) < M := by exact_mod_cast hM
    simp [this.ne']
  | succ k =>
  have h := midpoint_sum_le (f := fun u => (-Real.log u) ^ (k + 1)) (H := logPrim (k + 1)) (logPrim_cont _) (fun u h1 _ => logPrim_deriv _ h1)
    (fun m => -((k + 1) * (-Real.log m) ^ k) / m) (fun m u hm hm1 hu hu1 => by
      have hlm : 0 ≤ -Real.log m := by have := Real.log_nonpos hm.le hm1.le; linarith
      have hlu : 0 ≤ -Real.log u := by have := Real.log_nonpos hu.le hu1.le; linarith
      have h1 := Real.log_le_sub_one_of_pos (show 0 < u / m by positivity)
      rw [Real.log_div hu.ne' hm.ne'] at h1
      refine le_trans ?_ (pow_support hlm hlu k)
      have h2 : 0 ≤ (k + 1) * (-Real.log m) ^ k := by positivity
      have h3 := mul_le_mul_of_nonneg_left h1 h2
      have e : -((k + 1) * (-Real.log m) ^ k) / m * (u - m) = -((k + 1) * (-Real.log m) ^ k * (u / m - 1)) := by field_simp
      rw [e]
      linarith) hM
  rw [logPrim_one, logPrim_zero, sub_zero] at h
  exact h

/-- Even powers of the cosine at `M` equidistant angles. -/
theorem sum_cos_pow {M : Nat} (hM : M ≠ 0) {k : Nat} (hk : 2 * k < M) (t : ℝ) :
    ∑ j ∈ range M, Real.cos (t + 2 * Real.pi * j / M) ^ (2 * k) = M * (k.centralBinom / 4 ^ k) := by
  have hζ := Complex.isPrimitiveRoot_exp M hM
  set ζ := Complex.exp (2 * Real.pi * Complex.I / M) with hζd
  have hζ0 : ζ ≠ 0 := Complex.exp_ne_zero _
  let z := Complex.exp (t * Complex.I)
  have hz0 : z ≠ 0 := Complex.exp_ne_zero _
  have hcos : ∀ j : Nat, ((Real.cos (t + 2 * Real.pi * j / M) : ℝ) : ℂ) = (z * ζ ^ j + (z * ζ ^ j)⁻¹) / 2 := by
    intro j
    have : z * ζ ^ j = Complex.exp (((t + 2 * Real.pi * j / M : ℝ) : ℂ) * Complex.I) := by
      rw [hζd, ← Complex.exp_nat_mul, ← Complex.exp_add]
      congr 1
      push_cast
      ring
    rw [Complex.ofReal_cos, Complex.cos, this, ← Complex.exp_neg]
    congr 3
    ring
  have key : ((∑ j ∈ range M, Real.cos (t + 2 * Real.pi * j / M) ^ (2 * k) : ℝ) : ℂ) = ((M * (k.centralBinom / 4 ^ k) : ℝ) : ℂ) := by
    push_cast
    have h1 : ∀ j : Nat, (Complex.cos (t + 2 * Real.pi * j / M)) ^ (2 * k) = 1 / 4 ^ k * ∑ l ∈ range (2 * k + 1), (z ^ l * z⁻¹ ^ (2 * k - l) * (2 * k).choose l) * (ζ ^ l * ζ⁻¹ ^ (2 * k - l)) ^ j := by
      intro j
      have := hcos j
      push_cast at this
      rw [this, div_pow, add_pow, pow_mul (2 : ℂ), show (2 : ℂ) ^ 2 = 4 by norm_num, div_eq_mul_one_div, mul_comm]
      congr 1
      refine sum_congr rfl fun l _ => ?_
      rw [mul_inv, mul_pow, mul_pow, mul_pow (ζ ^ l), ← pow_mul, ← pow_mul, ← inv_pow, ← pow_mul, ← pow_mul, mul_comm j l, mul_comm j]
      ring
    simp only [h1]
    rw [← mul_sum, sum_comm]
    have h2 : ∀ l ∈ range (2 * k + 1), ∑ j ∈ range M, (z ^ l * z⁻¹ ^ (2 * k - l) * (2 * k).choose l) * (ζ ^ l * ζ⁻¹ ^ (2 * k - l)) ^ j = if l = k then (M : ℂ) * (2 * k).choose k else 0 := by
      intro l hl
      have hl' := mem_range.mp hl
      rw [← mul_sum]
      split_ifs with hlk
      · subst hlk
        rw [show 2 * l - l = l by omega, ← mul_pow, ← mul_pow, mul_inv_cancel₀ hz0, mul_inv_cancel₀ hζ0]
        simp [mul_comm]
      · have hρ : ζ ^ l * ζ⁻¹ ^ (2 * k - l) = ζ ^ ((l : Int) - ((2 * k - l : Nat) : Int)) := by
          rw [zpow_sub₀ hζ0, zpow_natCast, zpow_natCast, inv_pow, div_eq_mul_inv]
        have hne : ζ ^ l * ζ⁻¹ ^ (2 * k - l) ≠ 1 := by
          rw [hρ, Ne, hζ.zpow_eq_one_iff_dvd]
          intro hdvd
          have := Int.eq_zero_of_abs_lt_dvd hdvd (by rw [abs_lt]; constructor <;> omega)
          omega
        have hM1 : (ζ ^ l * ζ⁻¹ ^ (2 * k - l)) ^ M = 1 := by
          rw [mul_pow, ← pow_mul, ← pow_mul, mul_comm l, mul_comm (2 * k - l), pow_mul, pow_mul, inv_pow, hζ.pow_eq_one]; simp
        rw [geom_sum_eq hne, hM1, sub_self, zero_div, mul_zero]
    rw [sum_congr rfl h2, sum_ite_eq' (range (2 * k + 1)) k, if_pos (mem_range.mpr (by omega)), Nat.centralBinom_eq_two_mul_choose]
    ring
  exact_mod_cast key

theorem phase (a b : ℝ) : ∃ φ, ∀ t, a * Real.sin t + b * Real.cos t = Real.sqrt (a ^ 2 + b ^ 2) * Real.cos (t - φ) := by
  refine ⟨Complex.arg ⟨b, a⟩, fun t => ?_⟩
  have h1 := Complex.norm_mul_cos_arg ⟨b, a⟩
  have h2 := Complex.norm_mul_sin_arg ⟨b, a⟩
  have h3 : ‖(⟨b, a⟩ : ℂ)‖ = Real.sqrt (a ^ 2 + b ^ 2) := by
    rw [Complex.norm_def, Complex.normSq_mk]
    congr 1; ring
  rw [h3] at h1 h2
  simp only at h1 h2
  rw [Real.cos_sub]
  linear_combination (-Real.cos t) * h1 - Real.sin t * h2

theorem eight_log_le {M : Nat} (hM : 64 ≤ M) : 8 * Real.log (2 * M) ≤ M := by
  have hM' : (64 : ℝ) ≤ M := by exact_mod_cast hM
  have h1 : Real.log (2 * M) = 7 * Real.log 2 + Real.log (M / 64) := by
    rw [show (2 * M : ℝ) = 2 ^ 7 * (M / 64) by ring, Real.log_mul (by positivity) (by positivity), Real.log_pow]
    norm_num
  have h2 := Real.log_le_sub_one_of_pos (show (0 : ℝ) < M / 64 by positivity)
  have h3 := Real.log_le_sub_one_of_pos (show (0 : ℝ) < 2 by norm_num)
  rw [h1]
  linarith

theorem pow_fact_le {M k : Nat} (hM : 64 ≤ M) (hk : M ≤ 2 * k) : (4 * Real.log (2 * M)) ^ k * k.factorial ≤ (2 * k).factorial := by
  have hM' : (64 : ℝ) ≤ M := by exact_mod_cast hM
  have hlog : 0 ≤ Real.log (2 * M) := Real.log_nonneg (by linarith)
  have hk' : (M : ℝ) ≤ 2 * k := by exact_mod_cast hk
  have h1 : 4 * Real.log (2 * M) ≤ ((k + 1 : Nat) : ℝ) := by
    have := eight_log_le hM
    push_cast
    linarith
  have h2 : (4 * Real.log (2 * M)) ^ k ≤ ((k + 1 : Nat) : ℝ) ^ k := pow_le_pow_left₀ (by positivity) h1 k
  have h3 : k.factorial * (k + 1) ^ k ≤ (2 * k).factorial := by
    have := Nat.factorial_mul_pow_le_factorial (m := k) (n := k)
    rwa [← two_mul] at this
  refine (mul_le_mul_of_nonneg_right h2 (by positivity)).trans ?_
  rw [mul_comm]
  exact_mod_cast h3

/-- Even moments of linear combinations of the two values of the Box-Muller transform. -/
theorem boxmuller_moment {M : Nat} (hM : 64 ≤ M) (t : ℝ) (k : Nat) :
    (∑ i ∈ range M, Real.cos (t + 2 * Real.pi * i / M) ^ (2 * k)) * (∑ j ∈ range M, (2 * -Real.log (((j : ℝ) + 1 / 2) / M)) ^ k) ≤
      (M : ℝ) ^ 2 * ((2 * k).factorial / (2 ^ k * k.factorial)) := by
  have hM' : (64 : ℝ) ≤ M := by exact_mod_cast hM
  have hM0 : (0 : ℝ) < M := by linarith
  have hlog : ∀ j ∈ range M, 0 ≤ -Real.log (((j : ℝ) + 1 / 2) / M) ∧ -Real.log (((j : ℝ) + 1 / 2) / M) ≤ Real.log (2 * M) := by
    intro j hj
    have h1 : (j : ℝ) + 1 ≤ M := by exact_mod_cast Nat.succ_le_of_lt (mem_range.mp hj)
    constructor
    · have := Real.log_nonpos (x := ((j : ℝ) + 1 / 2) / M) (by positivity) (by rw [div_le_one hM0]; linarith)
      linarith
    · rw [← Real.log_inv]
      refine Real.log_le_log (by positivity) ?_
      rw [inv_div, div_le_iff₀ (by positivity)]
      have : (0 : ℝ) ≤ j := Nat.cast_nonneg j
      nlinarith
  have hf : (0 : ℝ) < k.factorial := by exact_mod_cast Nat.factorial_pos k
  rcases lt_or_ge (2 * k) M with hk | hk
  · rw [sum_cos_pow (by omega) hk]
    have h1 : ∑ j ∈ range M, (2 * -Real.log (((j : ℝ) + 1 / 2) / M)) ^ k ≤ 2 ^ k * (M * k.factorial) := by
      simp only [mul_pow]
      rw [← mul_sum]
      have := mean_log_pow_le (show 0 < M by omega) k
      rw [div_le_iff₀ hM0] at this
      exact mul_le_mul_of_nonneg_left (this.trans (le_of_eq (mul_comm _ _))) (by positivity)
    refine (mul_le_mul_of_nonneg_left h1 (by positivity)).trans (le_of_eq ?_)
    have h2 : ((2 * k).factorial : ℝ) = k.centralBinom * (k.factorial * k.factorial) := by
      have := Nat.choose_mul_factorial_mul_factorial (show k ≤ 2 * k by omega)
      rw [show 2 * k - k = k by omega] at this
      rw [← this, Nat.centralBinom_eq_two_mul_choose]
      push_cast
      ring
    rw [h2, show (4 : ℝ) ^ k = 2 ^ k * 2 ^ k by rw [← mul_pow]; norm_num]
    field_simp
  · have h1 : ∑ i ∈ range M, Real.cos (t + 2 * Real.pi * i / M) ^ (2 * k) ≤ M := by
      refine (sum_le_sum (g := fun _ => (1 : ℝ)) fun i _ => ?_).trans (le_of_eq (by simp))
      rw [pow_mul]
      exact pow_le_one₀ (sq_nonneg _) (Real.cos_sq_le_one _)
    have h2 : ∑ j ∈ range M, (2 * -Real.log (((j : ℝ) + 1 / 2) / M)) ^ k ≤ M * (2 * Real.log (2 * M)) ^ k := by
      refine (sum_le_sum (g := fun _ => (2 * Real.log (2 * M)) ^ k) fun j hj => ?_).trans (le_of_eq (by simp))
      exact pow_le_pow_left₀ (by have := (hlog j hj).1; linarith) (by have := (hlog j hj).2; linarith) k
    have h3 : 0 ≤ ∑ j ∈ range M, (2 * -Real.log (((j : ℝ) + 1 / 2) / M)) ^ k := sum_nonneg fun j hj => pow_nonneg (by have := (hlog j hj).1; linarith) _
    refine (mul_le_mul h1 h2 h3 hM0.le).trans ?_
    have h4 := pow_fact_le hM hk
    rw [show (4 * Real.log (2 * M)) ^ k = 2 ^ k * (2 * Real.log (2 * M)) ^ k by rw [← mul_pow]; congr 1; ring] at h4
    rw [sq, mul_assoc]
    refine mul_le_mul_of_nonneg_left (mul_le_mul_of_nonneg_left ?_ hM0.le) hM0.le
    rw [le_div_iff₀ (by positivity)]
    linarith

theorem sum_shift_half (f : Nat → ℝ) {h : Nat} (hp : ∀ j, f (j + 2 * h) = f j) : ∑ j ∈ range (2 * h), f (j + h) = ∑ j ∈ range (2 * h), f j := by
  rw [two_mul, sum_range_add, sum_range_add, add_comm]
  congr 1
  · refine sum_congr rfl fun j _ => ?_
    rw [← hp j]
    congr 1; ring
  · exact sum_congr rfl fun j _ => by rw [add_comm]

/-- Exponential moments of the values of the Box-Muller transform with midpoints for the angle and for the radius. -/
theorem mean_exp_boxmuller_le {h : Nat} (hh : 32 ≤ h) (s1 s2 : ℝ) (α r : Nat → ℝ) (hα : ∀ j, α j = Real.pi * ((2 * (j : ℝ) + 1 - (2 * h : Nat)) / (2 * h : Nat)))
    (hr : ∀ j, r j = Real.sqrt (-2 * Real.log (((j : ℝ) + 1 / 2) / (2 * h : Nat)))) :
    ∑ i ∈ range (2 * h), ∑ j ∈ range (2 * h), Real.exp (s1 * (Real.sin (α i) * r j) + s2 * (Real.cos (α i) * r j)) ≤
      ((2 * h : Nat) : ℝ) ^ 2 * Real.exp ((s1 ^ 2 + s2 ^ 2) / 2) := by
  obtain ⟨φ, hφ⟩ := phase s1 s2
  have hM : (0 : ℝ) < (2 * h : Nat) := by exact_mod_cast (by omega : 0 < 2 * h)
  have hh0 : (h : ℝ) ≠ 0 := by exact_mod_cast (by omega : h ≠ 0)
  set σ := Real.sqrt (s1 ^ 2 + s2 ^ 2) with hσ
  have hσ2 : σ ^ 2 = s1 ^ 2 + s2 ^ 2 := Real.sq_sqrt (by positivity)
  let X : Nat → Nat → ℝ := fun i j => σ * Real.cos (α i - φ) * r j
  have hX : ∀ i j, s1 * (Real.sin (α i) * r j) + s2 * (Real.cos (α i) * r j) = X i j := by
    intro i j
    simp only [X]
    rw [← hφ]; ring
  simp only [hX]
  have hαh : ∀ i, α (i + h) = α i + Real.pi := by
    intro i; rw [hα, hα]; push_cast; field_simp; ring
  have hXh : ∀ i j, X (i + h) j = -X i j := by
    intro i j
    simp only [X]
    rw [hαh, show α i + Real.pi - φ = α i - φ + Real.pi by ring, Real.cos_add_pi]; ring
  have hneg : ∑ i ∈ range (2 * h), ∑ j ∈ range (2 * h), Real.exp (-X i j) = ∑ i ∈ range (2 * h), ∑ j ∈ range (2 * h), Real.exp (X i j) := by
    rw [← sum_shift_half (fun i => ∑ j ∈ range (2 * h), Real.exp (X i j)) (fun i => by
      refine sum_congr rfl fun j _ => ?_
      rw [show i + 2 * h = i + h + h by ring, hXh, hXh, neg_neg])]
    simp only [hXh]
  have hcosh : ∑ i ∈ range (2 * h), ∑ j ∈ range (2 * h), Real.exp (X i j) = ∑ i ∈ range (2 * h), ∑ j ∈ range (2 * h), Real.cosh (X i j) := by
    simp only [Real.cosh_eq, ← sum_div, sum_add_distrib]
    rw [hneg]; ring
  rw [hcosh]
  have h1 : HasSum (fun k : Nat => ∑ i ∈ range (2 * h), ∑ j ∈ range (2 * h), X i j ^ (2 * k) / (2 * k).factorial)
      (∑ i ∈ range (2 * h), ∑ j ∈ range (2 * h), Real.cosh (X i j)) :=
    hasSum_sum fun i _ => hasSum_sum fun j _ => Real.hasSum_cosh (X i j)
  have h2 : HasSum (fun k : Nat => ((2 * h : Nat) : ℝ) ^ 2 * (((s1 ^ 2 + s2 ^ 2) / 2) ^ k / k.factorial)) (((2 * h : Nat) : ℝ) ^ 2 * Real.exp ((s1 ^ 2 + s2 ^ 2) / 2)) := by
    have := NormedSpace.expSeries_div_hasSum_exp (𝔸 := ℝ) ((s1 ^ 2 + s2 ^ 2) / 2)
    rw [← Real.exp_eq_exp_ℝ] at this
    exact this.mul_left _
  refine hasSum_le (fun k => ?_) h1 h2
  have hr2 : ∀ j ∈ range (2 * h), r j ^ (2 * k) = (2 * -Real.log (((j : ℝ) + 1 / 2) / (2 * h : Nat))) ^ k := by
    intro j hj
    have h1 : (j : ℝ) + 1 ≤ (2 * h : Nat) := by exact_mod_cast Nat.succ_le_of_lt (mem_range.mp hj)
    have := Real.log_nonpos (x := ((j : ℝ) + 1 / 2) / (2 * h : Nat)) (by positivity) (by rw [div_le_one hM]; linarith)
    rw [pow_mul, hr, Real.sq_sqrt (by linarith)]
    congr 1; ring
  have hcos : ∀ i, Real.cos (α i - φ) = Real.cos (Real.pi * ((1 - (2 * h : Nat)) / (2 * h : Nat)) - φ + 2 * Real.pi * i / (2 * h : Nat)) := by
    intro i
    rw [hα]
    congr 1
    field_simp
    ring
  have key := boxmuller_moment (M := 2 * h) (by omega) (Real.pi * ((1 - (2 * h : Nat)) / (2 * h : Nat)) - φ) k
  have e : ∑ i ∈ range (2 * h), ∑ j ∈ range (2 * h), X i j ^ (2 * k) / (2 * k).factorial =
      (s1 ^ 2 + s2 ^ 2) ^ k / (2 * k).factorial * ((∑ i ∈ range (2 * h), Real.cos (Real.pi * ((1 - (2 * h : Nat)) / (2 * h : Nat)) - φ + 2 * Real.pi * i / (2 * h : Nat)) ^ (2 * k)) *
        ∑ j ∈ range (2 * h), (2 * -Real.log (((j : ℝ) + 1 / 2) / (2 * h : Nat))) ^ k) := by
    rw [sum_mul_sum, mul_sum]
    refine sum_congr rfl fun i _ => ?_
    rw [mul_sum]
    refine sum_congr rfl fun j hj => ?_
    simp only [X]
    rw [mul_pow, mul_pow, hr2 j hj, pow_mul σ, hσ2, hcos]
    ring
  rw [e]
  refine (mul_le_mul_of_nonneg_left key (by positivity)).trans (le_of_eq ?_)
  have : ((2 * k).factorial : ℝ) ≠ 0 := by exact_mod_cast (Nat.factorial_pos _).ne'
  rw [div_pow]
  field_simp

end RB
