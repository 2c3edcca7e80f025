import Verif.Spec.Nearest
import Mathlib.Algebra.Order.Field.Power
import Mathlib.Tactic.Linarith
import Mathlib.Tactic.Ring
import Mathlib.Tactic.FieldSimp
import Mathlib.Tactic.NormNum
import Mathlib.Tactic.Positivity

namespace RB

open Spec

variable {p : Nat} {rnd : ℝ → ℝ}

theorem repr_pow (p : Nat) (e : ℤ) : Repr p ((2 : ℝ) ^ e) := ⟨1, e, by simpa using one_le_pow₀ (by norm_num : (1 : ℤ) ≤ 2), by simp⟩

theorem Spec.Repr.neg {x : ℝ} (h : Repr p x) : Repr p (-x) := by
  obtain ⟨k, e, h1, h2⟩ := h
  exact ⟨-k, e, by rwa [abs_neg], by rw [h2]; push_cast; ring⟩

theorem Spec.Repr.scale {x : ℝ} (h : Repr p x) (f : ℤ) : Repr p (x * 2 ^ f) := by
  obtain ⟨k, e, h1, h2⟩ := h
  exact ⟨k, e + f, h1, by rw [h2, zpow_add₀ (by norm_num)]; ring⟩

theorem repr_int (k : ℤ) (h : |k| ≤ 2 ^ p) : Repr p (k : ℝ) := ⟨k, 0, h, by simp⟩

theorem repr_zero (p : Nat) : Repr p 0 := ⟨0, 0, by simp, by simp⟩

/-- The largest representable number below `2^E`. -/
theorem Spec.Repr.below {y : ℝ} (hy : Repr p y) (hp : 1 ≤ p) {E : ℤ} (h : y < 2 ^ E) : y ≤ 2 ^ E - 2 ^ (E - p) := by
  obtain ⟨k, e, hk, rfl⟩ := hy
  have hhalf : (2 : ℝ) ^ (E - 1) ≤ 2 ^ E - 2 ^ (E - p) := by
    have h1 : (2 : ℝ) ^ E = 2 ^ (E - 1) + 2 ^ (E - 1) := by
      rw [← two_mul, ← zpow_one_add₀ (by norm_num)]; congr 1; ring
    have h2 : (2 : ℝ) ^ (E - p) ≤ 2 ^ (E - 1) := zpow_le_zpow_right₀ (by norm_num) (by omega)
    linarith
  by_cases he : E - p ≤ e
  · obtain ⟨d, hd⟩ : ∃ d : ℕ, e = E - p + d := ⟨(e - (E - p)).toNat, by omega⟩
    have h1 : (2 : ℝ) ^ e = 2 ^ (E - p) * 2 ^ d := by rw [hd, zpow_add₀ (by norm_num), zpow_natCast]
    have h2 : (2 : ℝ) ^ E = 2 ^ (E - p) * 2 ^ p := by
      rw [← zpow_natCast, ← zpow_add₀ (by norm_num)]; congr 1; ring
    have hpos : (0 : ℝ) < 2 ^ (E - p) := by positivity
    rw [h1, h2] at h
    have h3 : ((k * 2 ^ d : ℤ) : ℝ) < ((2 ^ p : ℤ) : ℝ) := by
      push_cast
      have : (2 : ℝ) ^ (E - p) * (k * 2 ^ d) < 2 ^ (E - p) * 2 ^ p := by linarith
      exact lt_of_mul_lt_mul_left this hpos.le
    have h4 : ((k * 2 ^ d : ℤ) : ℝ) ≤ ((2 ^ p - 1 : ℤ) : ℝ) := by
      have : k * 2 ^ d < 2 ^ p := by exact_mod_cast h3
      exact_mod_cast Int.le_sub_one_of_lt this
    push_cast at h4
    rw [h1, h2]
    have := mul_le_mul_of_nonneg_left h4 hpos.le
    linarith
  · have h1 : (k : ℝ) * 2 ^ e ≤ 2 ^ p * 2 ^ (E - p - 1) := by
      have ha : (k : ℝ) ≤ 2 ^ p := by exact_mod_cast (le_abs_self k).trans hk
      have hb : (2 : ℝ) ^ e ≤ 2 ^ (E - p - 1) := zpow_le_zpow_right₀ (by norm_num) (by omega)
      exact mul_le_mul ha hb (by positivity) (by positivity)
    have h2 : (2 : ℝ) ^ p * 2 ^ (E - p - 1) = 2 ^ (E - 1) := by
      rw [← zpow_natCast, ← zpow_add₀ (by norm_num)]; congr 1; ring
    linarith

/-- The smallest representable number above `2^E`. -/
theorem Spec.Repr.above {y : ℝ} (hy : Repr p y) (hp : 1 ≤ p) {E : ℤ} (h : 2 ^ E < y) : 2 ^ E + 2 ^ (E + 1 - p) ≤ y := by
  obtain ⟨k, e, hk, rfl⟩ := hy
  by_cases he : E + 1 - p ≤ e
  · obtain ⟨d, hd⟩ : ∃ d : ℕ, e = E + 1 - p + d := ⟨(e - (E + 1 - p)).toNat, by omega⟩
    obtain ⟨r, rfl⟩ : ∃ r : ℕ, p = r + 1 := ⟨p - 1, by omega⟩
    have h1 : (2 : ℝ) ^ e = 2 ^ (E + 1 - ((r + 1 : ℕ) : ℤ)) * 2 ^ d := by rw [hd, zpow_add₀ (by norm_num), zpow_natCast]
    have h2 : (2 : ℝ) ^ E = 2 ^ (E + 1 - ((r + 1 : ℕ) : ℤ)) * 2 ^ r := by
      rw [← zpow_natCast, ← zpow_add₀ (by norm_num)]; congr 1; push_cast; ring
    have hpos : (0 : ℝ) < 2 ^ (E + 1 - ((r + 1 : ℕ) : ℤ)) := by positivity
    rw [h1, h2] at h
    have h3 : ((2 ^ r : ℤ) : ℝ) < ((k * 2 ^ d : ℤ) : ℝ) := by
      push_cast
      have : (2 : ℝ) ^ (E + 1 - ((r + 1 : ℕ) : ℤ)) * 2 ^ r < 2 ^ (E + 1 - ((r + 1 : ℕ) : ℤ)) * (k * 2 ^ d) := by linarith
      exact lt_of_mul_lt_mul_left this hpos.le
    have h4 : ((2 ^ r + 1 : ℤ) : ℝ) ≤ ((k * 2 ^ d : ℤ) : ℝ) := by
      have : 2 ^ r < k * 2 ^ d := by exact_mod_cast h3
      exact_mod_cast Int.add_one_le_of_lt this
    push_cast at h4
    rw [h1, h2]
    have := mul_le_mul_of_nonneg_left h4 hpos.le
    linarith
  · exfalso
    have h1 : (k : ℝ) * 2 ^ e ≤ 2 ^ p * 2 ^ (E - p) := by
      have ha : (k : ℝ) ≤ 2 ^ p := by exact_mod_cast (le_abs_self k).trans hk
      have hb : (2 : ℝ) ^ e ≤ 2 ^ (E - p) := zpow_le_zpow_right₀ (by norm_num) (by omega)
      exact mul_le_mul ha hb (by positivity) (by positivity)
    have h2 : (2 : ℝ) ^ p * 2 ^ (E - p) = 2 ^ E := by
      rw [← zpow_natCast, ← zpow_add₀ (by norm_num)]; congr 1; ring
    linarith

namespace Spec.Nearest

theorem fix (h : Nearest p rnd) {x : ℝ} (hx : Repr p x) : rnd x = x := by
  have := h.near x x hx
  rw [sub_self, abs_zero] at this
  have := abs_nonpos_iff.mp this
  linarith

theorem mono (h : Nearest p rnd) {x y : ℝ} (hxy : x ≤ y) : rnd x ≤ rnd y := by
  rcases hxy.eq_or_lt with rfl | hxy
  · exact le_rfl
  by_contra hc
  push Not at hc
  have h1 := h.near x (rnd y) (h.repr y)
  have h2 := h.near y (rnd x) (h.repr x)
  rw [abs_le] at h1 h2
  rcases abs_cases (rnd y - x) with ⟨a, b⟩ | ⟨a, b⟩ <;> rcases abs_cases (rnd x - y) with ⟨c, d⟩ | ⟨c, d⟩ <;> rw [a] at h1 <;> rw [c] at h2 <;> linarith [h1.1, h1.2, h2.1, h2.2]

theorem le_of_le (h : Nearest p rnd) {x y : ℝ} (hy : Repr p y) (hxy : x ≤ y) : rnd x ≤ y := by
  have := h.mono hxy
  rwa [h.fix hy] at this

theorem ge_of_ge (h : Nearest p rnd) {x y : ℝ} (hy : Repr p y) (hxy : y ≤ x) : y ≤ rnd x := by
  have := h.mono hxy
  rwa [h.fix hy] at this

end Spec.Nearest

end RB
