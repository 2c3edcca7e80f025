import Verif.Model.Base

/-! # Lemmas about machine integers -/

namespace RB

theorem wrapInt_range {w : Nat} (x : Int) (hw : 0 < w) : FitsInt w (wrapInt w x) := by
  unfold FitsInt wrapInt intMin intMax
  have h2 : (2 : Int) ^ w = 2 * 2 ^ (w - 1) := by
    obtain ⟨k, rfl⟩ : ∃ k, w = k + 1 := ⟨w - 1, by omega⟩
    simp [pow_succ]; ring
  have hp : (0 : Int) < 2 ^ (w - 1) := by positivity
  have h1 := Int.emod_nonneg (x + 2 ^ (w - 1)) (b := 2 ^ w) (by rw [h2]; omega)
  have h3 := Int.emod_lt_of_pos (x + 2 ^ (w - 1)) (b := 2 ^ w) (by rw [h2]; omega)
  constructor <;> omega

/-- Wrapping changes the value by a multiple of `2^w`. -/
theorem wrapInt_eq {w : Nat} (x : Int) : ∃ k : Int, wrapInt w x = x - k * 2 ^ w := by
  refine ⟨(x + 2 ^ (w - 1)) / 2 ^ w, ?_⟩
  unfold wrapInt
  have := Int.emod_add_mul_ediv (x + 2 ^ (w - 1)) (2 ^ w)
  linarith [mul_comm ((x + 2 ^ (w - 1)) / 2 ^ w) ((2 : Int) ^ w)]

/-- If truncated division of `c` by `a` gives `b`, then `c` is within `|a|` of `a * b`. -/
theorem tdiv_close {a b c : Int} (ha : a ≠ 0) (h : c.tdiv a = b) : |c - a * b| < |a| := by
  have h1 := Int.tmod_add_mul_tdiv c a
  rw [h] at h1
  have h2 : c - a * b = c.tmod a := by linarith
  rw [h2]
  have := Int.natAbs_tmod c a
  have h3 : (c.tmod a).natAbs < a.natAbs := by
    rw [this]; exact Nat.mod_lt _ (by omega)
  rw [Int.abs_eq_natAbs, Int.abs_eq_natAbs]
  exact_mod_cast h3

/-- `safe_int_product` returns the exact product whenever it is representable. -/
theorem safeIntProductM_ok {mode : OverflowMode} {w : Nat} {a b : Int} (ha : FitsInt w a) (hb : FitsInt w b)
    (h : FitsInt w (a * b)) : safeIntProductM mode w a b = .ok (a * b) := by
  unfold safeIntProductM
  by_cases h0 : a = 0 ∨ b = 0
  · rw [if_pos h0]
    rcases h0 with h0 | h0 <;> simp [h0]
  · rw [if_neg h0]
    push Not at h0
    have e1 : (a * b).tdiv a = b := Int.mul_tdiv_cancel_left b h0.1
    have e2 : (a * b).tdiv b = a := Int.mul_tdiv_cancel a h0.2
    simp [mulInt, h, divInt, h0.1, h0.2, e1, e2, ha, hb]

/-- With wrapping multiplication: an unrepresentable product never comes back as a value. -/
theorem safeIntProductM_not_ok {w : Nat} (hw : 0 < w) {a b : Int} (ha : FitsInt w a)
    (h : ¬ FitsInt w (a * b)) (c : Int) : safeIntProductM .wrapping w a b ≠ .ok c := by
  unfold safeIntProductM
  have h0 : ¬ (a = 0 ∨ b = 0) := by
    have hp : (0 : Int) < 2 ^ (w - 1) := by positivity
    rintro (h0 | h0) <;> (subst h0; apply h; simp [FitsInt, intMin, intMax]; omega)
  rw [if_neg h0]
  push Not at h0
  simp only [mulInt, h, if_false, Res.ok_bind]
  unfold divInt
  simp only [h0.1, h0.2, if_false]
  split_ifs with h1 h2
  · simp only [Res.ok_bind]
    split_ifs with h3
    · simp
    intro _
    push Not at h3
    obtain ⟨k, hk⟩ := wrapInt_eq (w := w) (a * b)
    have hfit := wrapInt_range (w := w) (a * b) hw
    have hclose := tdiv_close h0.1 h3.2
    have hk0 : k ≠ 0 := by
      rintro rfl
      apply h
      rw [hk] at hfit
      simpa using hfit
    have e : wrapInt w (a * b) - a * b = -(k * 2 ^ w) := by rw [hk]; ring
    rw [e, abs_neg, abs_mul] at hclose
    have hp : (0 : Int) < 2 ^ (w - 1) := by positivity
    have h2w : (2 : Int) ^ w = 2 * 2 ^ (w - 1) := by
      obtain ⟨k, rfl⟩ : ∃ k, w = k + 1 := ⟨w - 1, by omega⟩
      simp [pow_succ]; ring
    have habs : |a| ≤ 2 ^ (w - 1) := by
      unfold FitsInt intMin intMax at ha
      rw [abs_le]; constructor <;> omega
    have hk1 : 1 ≤ |k| := Int.one_le_abs hk0
    have h2abs : |(2 : Int) ^ w| = 2 * 2 ^ (w - 1) := by rw [h2w, abs_of_pos (by omega)]
    rw [h2abs] at hclose
    nlinarith
  all_goals simp

end RB
