import Verif.Model.Random123Float
import Verif.Lemmas.Random123Conv
import Verif.Lemmas.Nearest

namespace RB

open Spec

variable {p w : Nat} {rnd : ℝ → ℝ}

theorem factor_eq (hw : 0 < w) : (1 : ℝ) / 2 ^ (w - 1) = 2 ^ (1 - (w : ℤ)) ∧ 1 / 2 * ((1 : ℝ) / 2 ^ (w - 1)) = 2 ^ (-(w : ℤ)) := by
  have h1 : (1 : ℝ) / 2 ^ (w - 1) = 2 ^ (1 - (w : ℤ)) := by
    rw [show 1 - (w : ℤ) = -((w - 1 : ℕ) : ℤ) by omega, zpow_neg, zpow_natCast, one_div]
  refine ⟨h1, ?_⟩
  rw [h1, zpow_sub₀ (by norm_num), zpow_neg]
  simp only [zpow_natCast, zpow_one]
  field_simp

theorem toInt_bounds (hw : 0 < w) (x : BitVec w) : -(2 : ℝ) ^ ((w : ℤ) - 1) ≤ (x.toInt : ℝ) ∧ (x.toInt : ℝ) ≤ 2 ^ ((w : ℤ) - 1) - 1 := by
  have h1 := signedEquiv_val hw x
  have h2 := (signedEquiv w x).2
  have h3 := two_pow_pred hw
  have e : (2 : ℝ) ^ ((w : ℤ) - 1) = ((2 ^ (w - 1) : ℤ) : ℝ) := by
    rw [show (w : ℤ) - 1 = ((w - 1 : ℕ) : ℤ) by omega, zpow_natCast]; norm_num
  rw [e]
  have h4 : ((signedEquiv w x : Nat) : Int) < 2 ^ w := by exact_mod_cast h2
  have h5 : (2 : ℤ) ^ w = 2 * 2 ^ (w - 1) := by exact_mod_cast h3
  constructor
  · have : -(2 ^ (w - 1) : ℤ) ≤ x.toInt := by omega
    exact_mod_cast this
  · have : x.toInt ≤ (2 ^ (w - 1) : ℤ) - 1 := by omega
    exact_mod_cast this

/-- The product is exact, so contracting it with the sum changes nothing. -/
theorem uneg11Fl_eq (h : Nearest p rnd) (hw : 0 < w) (x : BitVec w) :
    uneg11Fl rnd x = rnd (rnd (x.toInt : ℝ) * 2 ^ (1 - (w : ℤ)) + 2 ^ (-(w : ℤ))) := by
  unfold uneg11Fl
  obtain ⟨h1, h2⟩ := factor_eq hw
  rw [h2, h1, h.fix ((h.repr _).scale _)]

theorem zpow_one_sub (w : Nat) : (2 : ℝ) ^ ((w : ℤ) - 1) * 2 ^ (1 - (w : ℤ)) = 1 := by
  rw [← zpow_add₀ (by norm_num)]; norm_num

theorem scaled_bounds (h : Nearest p rnd) (hw : 0 < w) (x : BitVec w) :
    -1 ≤ rnd (x.toInt : ℝ) * 2 ^ (1 - (w : ℤ)) ∧ rnd (x.toInt : ℝ) * 2 ^ (1 - (w : ℤ)) ≤ 1 := by
  obtain ⟨h1, h2⟩ := toInt_bounds hw x
  have h3 := h.ge_of_ge (repr_pow p ((w : ℤ) - 1)).neg h1
  have h4 := h.le_of_le (repr_pow p ((w : ℤ) - 1)) (show (x.toInt : ℝ) ≤ 2 ^ ((w : ℤ) - 1) by linarith)
  have hpos : (0 : ℝ) < 2 ^ (1 - (w : ℤ)) := by positivity
  have e := zpow_one_sub w
  constructor
  · have := mul_le_mul_of_nonneg_right h3 hpos.le
    linarith
  · have := mul_le_mul_of_nonneg_right h4 hpos.le
    linarith

theorem repr_one (p : Nat) : Repr p 1 := by simpa using repr_pow p 0

/-- `1 + 2^-w` rounds to 1. -/
theorem round_one (h : Nearest p rnd) (hp : 1 ≤ p) (hpw : p < w) {z : ℝ} (h1 : 1 ≤ z) (h2 : z ≤ 1 + 2 ^ (-(w : ℤ))) : rnd z = 1 := by
  have hge := h.ge_of_ge (repr_one p) h1
  by_contra hne
  have hlt : (2 : ℝ) ^ (0 : ℤ) < rnd z := by
    rw [zpow_zero]; exact lt_of_le_of_ne hge fun e => hne e.symm
  have ha := (h.repr z).above hp hlt
  have hn := h.near z 1 (repr_one p)
  rw [zpow_zero] at ha
  have e1 : (2 : ℝ) ^ (0 + 1 - (p : ℤ)) = 2 * 2 ^ (-(p : ℤ)) := by
    rw [show (0 : ℤ) + 1 - p = 1 + -p by ring, zpow_add₀ (by norm_num), zpow_one]
  have e2 : (2 : ℝ) ^ (-(w : ℤ)) < 2 ^ (-(p : ℤ)) := zpow_lt_zpow_right₀ (by norm_num) (by omega)
  rw [abs_of_nonpos (by linarith : (1 : ℝ) - z ≤ 0)] at hn
  have := (abs_le.mp hn).2
  linarith

theorem round_neg_one (h : Nearest p rnd) (hp : 1 ≤ p) (hpw : p + 2 ≤ w) {z : ℝ} (h1 : -1 ≤ z) (h2 : z ≤ -1 + 2 ^ (-(w : ℤ))) : rnd z = -1 := by
  have hge := h.ge_of_ge (repr_one p).neg h1
  by_contra hne
  have hlt : -(rnd z) < (2 : ℝ) ^ (0 : ℤ) := by
    rw [zpow_zero]
    have : -1 < rnd z := lt_of_le_of_ne hge fun e => hne e.symm
    linarith
  have ha := (h.repr z).neg.below hp hlt
  have hn := h.near z (-1) (repr_one p).neg
  rw [zpow_zero, zero_sub] at ha
  have e2 : (2 : ℝ) ^ (-(w : ℤ)) * 4 ≤ 2 ^ (-(p : ℤ)) := by
    rw [show (4 : ℝ) = 2 ^ (2 : ℤ) by norm_num, ← zpow_add₀ (by norm_num)]
    exact zpow_le_zpow_right₀ (by norm_num) (by omega)
  have hpos : (0 : ℝ) < 2 ^ (-(w : ℤ)) := by positivity
  rw [abs_of_nonpos (by linarith : -1 - z ≤ 0)] at hn
  have := (abs_le.mp hn).2
  linarith

theorem half_gap (w p : Nat) : (2 : ℝ) ^ ((w : ℤ) - 1 - p) = 2 * 2 ^ ((w : ℤ) - 2 - p) := by
  rw [show (w : ℤ) - 1 - p = 1 + ((w : ℤ) - 2 - p) by ring, zpow_add₀ (by norm_num), zpow_one]

/-- Words near the top convert to `2^(w-1)`. -/
theorem round_top (h : Nearest p rnd) (hp : 1 ≤ p) (hw : 0 < w) {x : BitVec w} (hx : (2 : ℝ) ^ ((w : ℤ) - 1) - 2 ^ ((w : ℤ) - 2 - p) < (x.toInt : ℝ)) :
    rnd (x.toInt : ℝ) = 2 ^ ((w : ℤ) - 1) := by
  obtain ⟨h1, h2⟩ := toInt_bounds hw x
  have hle := h.le_of_le (repr_pow p ((w : ℤ) - 1)) (show (x.toInt : ℝ) ≤ 2 ^ ((w : ℤ) - 1) by linarith)
  by_contra hne
  have hb := (h.repr (x.toInt : ℝ)).below hp (lt_of_le_of_ne hle hne)
  have hn := h.near (x.toInt : ℝ) _ (repr_pow p ((w : ℤ) - 1))
  rw [abs_of_nonneg (by linarith : (0 : ℝ) ≤ 2 ^ ((w : ℤ) - 1) - (x.toInt : ℝ))] at hn
  have := (abs_le.mp hn).1
  have e := half_gap w p
  linarith

theorem round_not_top (h : Nearest p rnd) (hp : 1 ≤ p) (hw : 0 < w) {x : BitVec w} (hx : (x.toInt : ℝ) < (2 : ℝ) ^ ((w : ℤ) - 1) - 2 ^ ((w : ℤ) - 2 - p)) :
    rnd (x.toInt : ℝ) ≤ 2 ^ ((w : ℤ) - 1) - 2 ^ ((w : ℤ) - 1 - p) := by
  obtain ⟨h1, h2⟩ := toInt_bounds hw x
  have hle := h.le_of_le (repr_pow p ((w : ℤ) - 1)) (show (x.toInt : ℝ) ≤ 2 ^ ((w : ℤ) - 1) by linarith)
  have e := half_gap w p
  obtain ⟨r, rfl⟩ : ∃ r, p = r + 1 := ⟨p - 1, by omega⟩
  have hrep : Repr (r + 1) ((2 : ℝ) ^ ((w : ℤ) - 1) - 2 ^ ((w : ℤ) - 1 - ((r + 1 : ℕ) : ℤ))) := by
    refine ⟨2 ^ (r + 1) - 1, (w : ℤ) - 1 - ((r + 1 : ℕ) : ℤ), ?_, ?_⟩
    · rw [abs_of_nonneg (by have := one_le_pow₀ (n := r + 1) (by norm_num : (1 : ℤ) ≤ 2); omega)]
      omega
    · push_cast
      rw [sub_mul, one_mul, ← zpow_natCast, ← zpow_add₀ (by norm_num)]
      congr 2
      push_cast
      ring
  refine (h.repr (x.toInt : ℝ)).below hp (lt_of_le_of_ne hle fun heq => ?_)
  have hn := h.near (x.toInt : ℝ) _ hrep
  rw [heq, abs_of_nonneg (by linarith : (0 : ℝ) ≤ 2 ^ ((w : ℤ) - 1) - (x.toInt : ℝ))] at hn
  have hpos : (0 : ℝ) < 2 ^ ((w : ℤ) - 2 - ((r + 1 : ℕ) : ℤ)) := by positivity
  rcases abs_cases ((2 : ℝ) ^ ((w : ℤ) - 1) - 2 ^ ((w : ℤ) - 1 - ((r + 1 : ℕ) : ℤ)) - (x.toInt : ℝ)) with ⟨a, b⟩ | ⟨a, b⟩ <;> rw [a] at hn <;> linarith

/-- Words near the bottom convert to `-2^(w-1)`. -/
theorem round_bottom (h : Nearest p rnd) (hp : 1 ≤ p) (hw : 0 < w) {x : BitVec w} (hx : (x.toInt : ℝ) < -(2 : ℝ) ^ ((w : ℤ) - 1) + 2 ^ ((w : ℤ) - 2 - p)) :
    rnd (x.toInt : ℝ) = -2 ^ ((w : ℤ) - 1) := by
  obtain ⟨h1, h2⟩ := toInt_bounds hw x
  have hge := h.ge_of_ge (repr_pow p ((w : ℤ) - 1)).neg h1
  by_contra hne
  have hlt : -2 ^ ((w : ℤ) - 1) < rnd (x.toInt : ℝ) := lt_of_le_of_ne hge fun e => hne e.symm
  have hb := (h.repr (x.toInt : ℝ)).neg.below hp (show -rnd (x.toInt : ℝ) < 2 ^ ((w : ℤ) - 1) by linarith)
  have hn := h.near (x.toInt : ℝ) _ (repr_pow p ((w : ℤ) - 1)).neg
  rw [abs_of_nonpos (by linarith : -(2 : ℝ) ^ ((w : ℤ) - 1) - (x.toInt : ℝ) ≤ 0)] at hn
  have := (abs_le.mp hn).2
  have e := half_gap w p
  linarith

/-- The error of a nearest rounding of a number of magnitude at most `2^E`. -/
theorem Spec.Nearest.error (h : Nearest p rnd) (hp : 1 ≤ p) {E : ℤ} {x : ℝ} (hx : |x| ≤ 2 ^ E) : |rnd x - x| ≤ 2 ^ (E - p) := by
  have hpos : (0 : ℝ) < 2 ^ (E + 1 - p) := by positivity
  set y : ℤ := ⌊x / 2 ^ (E + 1 - p)⌋ with hy
  have hx' := abs_le.mp hx
  have e1 : (2 : ℝ) ^ E = 2 ^ (E + 1 - p) * 2 ^ (p - 1) := by
    rw [← zpow_natCast, ← zpow_add₀ (by norm_num)]; congr 1; omega
  have e2 : (2 : ℝ) ^ (E + 1 - p) = 2 * 2 ^ (E - p) := by
    rw [show E + 1 - p = 1 + (E - p) by ring, zpow_add₀ (by norm_num), zpow_one]
  have f1 : (y : ℝ) * 2 ^ (E + 1 - p) ≤ x := by
    have := Int.floor_le (x / 2 ^ (E + 1 - p))
    rwa [le_div_iff₀ hpos] at this
  have f2 : x < (y + 1 : ℝ) * 2 ^ (E + 1 - p) := by
    have := Int.lt_floor_add_one (x / 2 ^ (E + 1 - p))
    rwa [div_lt_iff₀ hpos] at this
  have hpp : (2 : ℤ) ^ p = 2 * 2 ^ (p - 1) := by
    obtain ⟨r, rfl⟩ : ∃ r, p = r + 1 := ⟨p - 1, by omega⟩
    rw [pow_succ]; simp; ring
  have hone : (1 : ℤ) ≤ 2 ^ (p - 1) := one_le_pow₀ (by norm_num)
  have b1 : y ≤ 2 ^ (p - 1) := by
    have : (y : ℝ) * 2 ^ (E + 1 - p) ≤ 2 ^ (p - 1) * 2 ^ (E + 1 - p) := by linarith
    have := le_of_mul_le_mul_right this hpos
    exact_mod_cast this
  have b2 : -2 ^ (p - 1) - 1 < y := by
    have : (-2 ^ (p - 1) : ℝ) * 2 ^ (E + 1 - p) < (y + 1) * 2 ^ (E + 1 - p) := by linarith
    have := lt_of_mul_lt_mul_right this hpos.le
    have : (-2 ^ (p - 1) : ℤ) < y + 1 := by exact_mod_cast this
    omega
  have r1 : Repr p ((y : ℝ) * 2 ^ (E + 1 - p)) := ⟨y, _, abs_le.mpr ⟨by omega, by omega⟩, rfl⟩
  have r2 : Repr p ((y + 1 : ℝ) * 2 ^ (E + 1 - p)) := ⟨y + 1, _, abs_le.mpr ⟨by omega, by omega⟩, by push_cast; ring⟩
  have n1 := h.near x _ r1
  have n2 := h.near x _ r2
  rw [abs_of_nonpos (by linarith : (y : ℝ) * 2 ^ (E + 1 - p) - x ≤ 0)] at n1
  rw [abs_of_nonneg (by linarith : (0 : ℝ) ≤ (y + 1 : ℝ) * 2 ^ (E + 1 - p) - x)] at n2
  have : ((y : ℝ) + 1) * 2 ^ (E + 1 - p) = y * 2 ^ (E + 1 - p) + 2 * 2 ^ (E - p) := by rw [add_mul, one_mul, ← e2]
  linarith

end RB
