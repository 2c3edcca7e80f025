import Verif.Lemmas.Random123Float
import Verif.Props.Random123
import Verif.Props.Rounding
import Verif.Props.Sampling
import Verif.Props.Sparse
import Verif.Props.ObliviousApps
import Mathlib.Data.Fintype.Fin

/-! # C99: the uniform values in floating-point arithmetic

Random123 converts words to `float` (32-bit words) or `double` (64-bit words). The conversion rounds, and rounding reaches both ends of the interval. -/

namespace RB

open Spec

variable {p w lenC lenK : Nat} {rnd : ℝ → ℝ} {block : Words w lenC → Words w lenK → Words w lenC}

/-- C99. Every converted word lies in [-1, 1], is within `2^(2-p)` of the exact value, is never zero, and its sign is the sign of the word as a signed integer: exactly half of the
words are positive. -/
theorem C99_range (h : Nearest p rnd) (hp : 1 ≤ p) (hpw : p + 2 ≤ w) (x : BitVec w) :
    -1 ≤ uneg11Fl rnd x ∧ uneg11Fl rnd x ≤ 1 ∧ |uneg11Fl rnd x - uneg11R x| ≤ 4 * (1 / 2 ^ p) ∧ uneg11Fl rnd x ≠ 0 ∧ (0 ≤ uneg11Fl rnd x ↔ 0 ≤ x.toInt) := by
  have hw : 0 < w := by omega
  rw [uneg11Fl_eq h hw]
  obtain ⟨s1, s2⟩ := scaled_bounds h hw x
  have hpos : (0 : ℝ) < 2 ^ (-(w : ℤ)) := by positivity
  have hpos' : (0 : ℝ) < 2 ^ (1 - (w : ℤ)) := by positivity
  have hup : rnd (rnd (x.toInt : ℝ) * 2 ^ (1 - (w : ℤ)) + 2 ^ (-(w : ℤ))) ≤ 1 := by
    have := round_one h hp (by omega : p < w) (z := 1 + 2 ^ (-(w : ℤ))) (by linarith) le_rfl
    rw [← this]
    exact h.mono (by linarith)
  have hsign : (0 ≤ x.toInt → 2 ^ (-(w : ℤ)) ≤ rnd (rnd (x.toInt : ℝ) * 2 ^ (1 - (w : ℤ)) + 2 ^ (-(w : ℤ)))) ∧
      (x.toInt < 0 → rnd (rnd (x.toInt : ℝ) * 2 ^ (1 - (w : ℤ)) + 2 ^ (-(w : ℤ))) ≤ -2 ^ (-(w : ℤ))) := by
    constructor
    · intro hx
      have h0 := h.ge_of_ge (repr_zero p) (show (0 : ℝ) ≤ (x.toInt : ℝ) by exact_mod_cast hx)
      have := mul_nonneg h0 hpos'.le
      exact h.ge_of_ge (repr_pow p _) (by linarith)
    · intro hx
      have h0 := h.le_of_le (repr_one p).neg (show (x.toInt : ℝ) ≤ -1 by exact_mod_cast Int.le_sub_one_of_lt hx)
      have h1 := mul_le_mul_of_nonneg_right h0 hpos'.le
      have e : (2 : ℝ) ^ (1 - (w : ℤ)) = 2 * 2 ^ (-(w : ℤ)) := by rw [sub_eq_add_neg, zpow_add₀ (by norm_num), zpow_one]
      exact h.le_of_le (repr_pow p _).neg (by linarith)
  refine ⟨h.ge_of_ge (repr_one p).neg (by linarith), hup, ?_, ?_, ?_⟩
  · obtain ⟨f1, f2⟩ := factor_eq hw
    unfold uneg11R
    rw [f2, f1]
    obtain ⟨t1, t2⟩ := toInt_bounds hw x
    have e1 := h.error hp (E := (w : ℤ) - 1) (x := (x.toInt : ℝ)) (abs_le.mpr ⟨t1, by linarith⟩)
    have e2 := h.error hp (E := 1) (x := rnd (x.toInt : ℝ) * 2 ^ (1 - (w : ℤ)) + 2 ^ (-(w : ℤ))) (by
      have : (2 : ℝ) ^ (-(w : ℤ)) ≤ 2 ^ (0 : ℤ) := zpow_le_zpow_right₀ (by norm_num) (by omega)
      rw [zpow_zero] at this
      rw [zpow_one, abs_le]; constructor <;> linarith)
    have e3 : |rnd (x.toInt : ℝ) * 2 ^ (1 - (w : ℤ)) - (x.toInt : ℝ) * 2 ^ (1 - (w : ℤ))| ≤ 2 ^ (-(p : ℤ)) := by
      rw [← sub_mul, abs_mul, abs_of_pos hpos']
      have := mul_le_mul_of_nonneg_right e1 hpos'.le
      refine this.trans_eq ?_
      rw [← zpow_add₀ (by norm_num)]; congr 1; ring
    have e4 : (2 : ℝ) ^ (1 - (p : ℤ)) = 2 * 2 ^ (-(p : ℤ)) := by rw [sub_eq_add_neg, zpow_add₀ (by norm_num), zpow_one]
    have e5 : (1 : ℝ) / 2 ^ p = 2 ^ (-(p : ℤ)) := by rw [zpow_neg, zpow_natCast, one_div]
    have e6 : (0 : ℝ) < 2 ^ (-(p : ℤ)) := by positivity
    rw [e5]
    rw [e4] at e2
    rw [abs_le] at e2 e3 ⊢
    constructor <;> linarith [e2.1, e2.2, e3.1, e3.2]
  · rcases lt_or_ge x.toInt 0 with hx | hx
    · have := hsign.2 hx; intro e; rw [e] at this; linarith
    · have := hsign.1 hx; intro e; rw [e] at this; linarith
  · constructor
    · intro h0
      by_contra hx
      have := hsign.2 (by omega)
      linarith
    · intro hx
      have := hsign.1 hx
      linarith

theorem zpow_cast {a : Nat} {z : ℤ} (h : z = a) : (2 : ℝ) ^ z = ((2 ^ a : ℤ) : ℝ) := by rw [h, zpow_natCast]; norm_num

/-- C99. The value 1 is reached: by every word above `2^(w-1) - 2^(w-2-p)`, by no word below it. (The word equal to it is a tie; round-to-nearest-even gives 1.) The value -1 is reached
by every word below `-2^(w-1) + 2^(w-2-p)`. -/
theorem C99_ends (h : Nearest p rnd) (hp : 1 ≤ p) (hpw : p + 2 ≤ w) (x : BitVec w) :
    (2 ^ (w - 1) - 2 ^ (w - 2 - p) < x.toInt → uneg11Fl rnd x = 1) ∧ (x.toInt < 2 ^ (w - 1) - 2 ^ (w - 2 - p) → uneg11Fl rnd x < 1) ∧
    (x.toInt < -2 ^ (w - 1) + 2 ^ (w - 2 - p) → uneg11Fl rnd x = -1) := by
  have hw : 0 < w := by omega
  rw [uneg11Fl_eq h hw]
  have hpos : (0 : ℝ) < 2 ^ (-(w : ℤ)) := by positivity
  have hpos' : (0 : ℝ) < 2 ^ (1 - (w : ℤ)) := by positivity
  have c1 := zpow_cast (a := w - 1) (z := (w : ℤ) - 1) (by omega)
  have c2 := zpow_cast (a := w - 2 - p) (z := (w : ℤ) - 2 - p) (by omega)
  have one := zpow_one_sub w
  refine ⟨fun hx => ?_, fun hx => ?_, fun hx => ?_⟩
  · rw [round_top h hp hw (by rw [c1, c2]; exact_mod_cast hx), one]
    exact round_one h hp (by omega) (by linarith) le_rfl
  · have h1 := round_not_top h hp hw (x := x) (by rw [c1, c2]; exact_mod_cast hx)
    have h2 := mul_le_mul_of_nonneg_right h1 hpos'.le
    rw [sub_mul, one, ← zpow_add₀ (by norm_num), show (w : ℤ) - 1 - p + (1 - w) = -p by ring] at h2
    have e2 : (2 : ℝ) ^ (-(w : ℤ)) * 4 ≤ 2 ^ (-(p : ℤ)) := by
      rw [show (4 : ℝ) = 2 ^ (2 : ℤ) by norm_num, ← zpow_add₀ (by norm_num)]
      exact zpow_le_zpow_right₀ (by norm_num) (by omega)
    obtain ⟨q, rfl⟩ : ∃ q, p = q + 1 := ⟨p - 1, by omega⟩
    have hrep : Repr (q + 1) (1 - 2 ^ (-((q + 1 : ℕ) : ℤ)) : ℝ) := by
      refine ⟨2 ^ (q + 1) - 1, -((q + 1 : ℕ) : ℤ), ?_, ?_⟩
      · rw [abs_of_nonneg (by have := one_le_pow₀ (n := q + 1) (by norm_num : (1 : ℤ) ≤ 2); omega)]
        omega
      · push_cast
        rw [sub_mul, one_mul, ← zpow_natCast, ← zpow_add₀ (by norm_num)]
        simp
    set z : ℝ := 1 - 2 ^ (-((q + 1 : ℕ) : ℤ)) + 2 ^ (-(w : ℤ)) with hz
    refine lt_of_le_of_lt (h.mono (show _ ≤ z by rw [hz]; linarith)) ?_
    have hn := h.near z _ hrep
    rw [abs_of_nonpos (show 1 - 2 ^ (-((q + 1 : ℕ) : ℤ)) - z ≤ 0 by rw [hz]; linarith)] at hn
    have := (abs_le.mp hn).2
    rw [hz] at this ⊢
    linarith
  · rw [round_bottom h hp hw (by rw [c1, c2]; exact_mod_cast hx), neg_mul, one]
    exact round_neg_one h hp hpw (by linarith) le_rfl

/-- C99. The converted radius word of the Gaussian transform lies in (0, 1]: the logarithm is defined and not positive, so no infinity or NaN arises, and the radius is at most
`sqrt(2 (w + 1) ln 2)`. -/
theorem C99_radius (h : Nearest p rnd) (hp : 1 ≤ p) (hpw : p < w) (x : BitVec w) :
    0 < u01Fl rnd x ∧ u01Fl rnd x ≤ 1 ∧ Real.sqrt (-2 * Real.log (u01Fl rnd x)) ≤ Real.sqrt (2 * ((w + 1) * Real.log 2)) := by
  have e1 : (1 : ℝ) / 2 ^ w = 2 ^ (-(w : ℤ)) := by rw [zpow_neg, zpow_natCast, one_div]
  have e2 : 1 / 2 * ((1 : ℝ) / 2 ^ w) = 2 ^ (-((w + 1 : ℕ) : ℤ)) := by
    rw [zpow_neg, zpow_natCast, pow_succ]; field_simp
  have hpos : (0 : ℝ) < 2 ^ (-((w + 1 : ℕ) : ℤ)) := by positivity
  have hx : (x.toNat : ℝ) ≤ 2 ^ (w : ℤ) := by rw [zpow_natCast]; exact_mod_cast x.isLt.le
  have h0 := h.ge_of_ge (repr_zero p) (Nat.cast_nonneg x.toNat : (0 : ℝ) ≤ x.toNat)
  have h1 := h.le_of_le (repr_pow p (w : ℤ)) hx
  have hb : 0 ≤ rnd (x.toNat : ℝ) * 2 ^ (-(w : ℤ)) ∧ rnd (x.toNat : ℝ) * 2 ^ (-(w : ℤ)) ≤ 1 := by
    refine ⟨mul_nonneg h0 (by positivity), ?_⟩
    have := mul_le_mul_of_nonneg_right h1 (by positivity : (0 : ℝ) ≤ 2 ^ (-(w : ℤ)))
    rwa [← zpow_add₀ (by norm_num), add_neg_cancel, zpow_zero] at this
  have hlow : 2 ^ (-((w + 1 : ℕ) : ℤ)) ≤ u01Fl rnd x := by
    unfold u01Fl
    rw [e2, e1, h.fix ((h.repr _).scale _)]
    exact h.ge_of_ge (repr_pow p _) (by linarith [hb.1])
  have hup : u01Fl rnd x ≤ 1 := by
    unfold u01Fl
    rw [e2, e1, h.fix ((h.repr _).scale _)]
    have := round_one h hp (w := w + 1) (by omega) (z := 1 + 2 ^ (-((w + 1 : ℕ) : ℤ))) (by linarith) le_rfl
    rw [← this]
    exact h.mono (by linarith [hb.2])
  refine ⟨by linarith, hup, Real.sqrt_le_sqrt ?_⟩
  have hl := Real.log_le_log hpos hlow
  rw [Real.log_zpow] at hl
  push_cast at hl
  linarith

/-- The hypotheses are met with the rounding of C55, for `float` and 32-bit words and for `double` and 64-bit words; 63 words of 32 bits convert to 1 under every tie-breaking rule. -/
theorem fl_nearest (p : Nat) (hp : 1 ≤ p) : Nearest p (fl p) := by
  refine ⟨fl_isFl p, fun x y hy => ?_⟩
  by_cases hx : x = 0
  · subst hx; simp [fl]
  set E := Int.log 2 |x| with hE
  have hlo : (2 : ℝ) ^ E ≤ |x| := by exact_mod_cast Int.zpow_log_le_self (R := ℝ) (b := 2) (by omega) (abs_pos.mpr hx)
  have hpos : (0 : ℝ) < 2 ^ (E - p + 1) := by positivity
  have hgrid : ∀ k : ℤ, |fl p x - x| ≤ |k * 2 ^ (E - p + 1) - x| := by
    intro k
    have h1 := round_le (x / 2 ^ (E - p + 1)) k
    have h2 := mul_le_mul_of_nonneg_right h1 hpos.le
    have e : ∀ z : ℝ, |x / 2 ^ (E - p + 1) - z| * 2 ^ (E - p + 1) = |z * 2 ^ (E - p + 1) - x| := by
      intro z
      rw [← abs_of_pos hpos, ← abs_mul, abs_of_pos hpos, sub_mul, div_mul_cancel₀ _ hpos.ne', abs_sub_comm]
    rw [e, e] at h2
    exact h2
  obtain ⟨k, e, hk, rfl⟩ := hy
  by_cases he : E - p + 1 ≤ e
  · obtain ⟨d, hd⟩ : ∃ d : ℕ, e = E - p + 1 + d := ⟨(e - (E - p + 1)).toNat, by omega⟩
    have := hgrid (k * 2 ^ d)
    rw [hd, zpow_add₀ (by norm_num), zpow_natCast]
    push_cast at this
    rw [show (k : ℝ) * (2 ^ (E - p + 1) * 2 ^ d) = k * 2 ^ d * 2 ^ (E - p + 1) by ring]
    exact this
  · have hy : |(k : ℝ) * 2 ^ e| ≤ 2 ^ E := by
      rw [abs_mul, abs_of_pos (by positivity : (0 : ℝ) < 2 ^ e)]
      have ha : |(k : ℝ)| ≤ 2 ^ p := by exact_mod_cast hk
      have hb : (2 : ℝ) ^ e ≤ 2 ^ (E - p) := zpow_le_zpow_right₀ (by norm_num) (by omega)
      refine (mul_le_mul ha hb (by positivity) (by positivity)).trans_eq ?_
      rw [← zpow_natCast, ← zpow_add₀ (by norm_num)]; congr 1; ring
    obtain ⟨r, rfl⟩ : ∃ r, p = r + 1 := ⟨p - 1, by omega⟩
    have hE' : (2 : ℝ) ^ E = 2 ^ r * 2 ^ (E - ((r : ℤ) + 1) + 1) := by
      rw [← zpow_natCast, ← zpow_add₀ (by norm_num)]; congr 1; ring
    have hy' := abs_le.mp hy
    rcases abs_cases x with ⟨a, b⟩ | ⟨a, b⟩
    · have := hgrid (2 ^ r)
      push_cast at this
      rw [← hE'] at this
      refine this.trans ?_
      rw [abs_of_nonpos (by linarith), abs_of_nonpos (by linarith)]
      linarith
    · have := hgrid (-2 ^ r)
      push_cast at this
      rw [neg_mul, ← hE'] at this
      refine this.trans ?_
      rw [abs_of_nonneg (by linarith), abs_of_nonneg (by linarith)]
      linarith

example : Nearest 24 (fl 24) ∧ 24 + 2 ≤ 32 ∧ Nearest 53 (fl 53) ∧ 53 + 2 ≤ 64 ∧ 2 ^ (32 - 1) - 2 ^ (32 - 2 - 24) < (2147483585#32).toInt ∧ (2147483585#32).toInt + 62 = 2 ^ 31 - 1 :=
  ⟨fl_nearest 24 (by decide), by decide, fl_nearest 53 (by decide), by decide, by decide, by decide⟩

/-! ## The consequences for the samplers -/

/-- Rounding keeps multiples of a power of two. -/
theorem round_grid (h : Nearest p rnd) (m g : ℤ) : ∃ m' : ℤ, rnd (m * 2 ^ g) = m' * 2 ^ g := by
  by_cases hm : |m| ≤ 2 ^ p
  · exact ⟨m, h.fix ⟨m, g, hm, rfl⟩⟩
  have hbig : (2 : ℝ) ^ ((p : ℤ) + g) ≤ |rnd (m * 2 ^ g)| := by
    have e : (2 : ℝ) ^ ((p : ℤ) + g) = 2 ^ p * 2 ^ g := by rw [zpow_add₀ (by norm_num), zpow_natCast]
    have hpos : (0 : ℝ) < 2 ^ g := by positivity
    push Not at hm
    rcases le_abs'.mp hm.le with hc | hc
    · have hc' : (m : ℝ) ≤ -2 ^ p := by exact_mod_cast hc
      have := h.le_of_le (repr_pow p ((p : ℤ) + g)).neg (x := m * 2 ^ g) (by rw [e, ← neg_mul]; exact mul_le_mul_of_nonneg_right hc' hpos.le)
      exact le_abs'.mpr (Or.inl this)
    · have hc' : (2 ^ p : ℝ) ≤ m := by exact_mod_cast hc
      have := h.ge_of_ge (repr_pow p ((p : ℤ) + g)) (x := m * 2 ^ g) (by rw [e]; exact mul_le_mul_of_nonneg_right hc' hpos.le)
      exact this.trans (le_abs_self _)
  obtain ⟨k, e, hk, hke⟩ := h.repr (m * 2 ^ g)
  have heg : g ≤ e := by
    by_contra hc
    rw [hke, abs_mul, abs_of_pos (by positivity : (0 : ℝ) < 2 ^ e)] at hbig
    have ha : |(k : ℝ)| ≤ 2 ^ p := by exact_mod_cast hk
    have hb : (2 : ℝ) ^ e < 2 ^ g := zpow_lt_zpow_right₀ (by norm_num) (by omega)
    have : |(k : ℝ)| * 2 ^ e < 2 ^ p * 2 ^ g := mul_lt_mul' ha hb (by positivity) (by positivity)
    rw [zpow_add₀ (by norm_num), zpow_natCast] at hbig
    linarith
  obtain ⟨d, hd⟩ : ∃ d : ℕ, e = g + d := ⟨(e - g).toNat, by omega⟩
  refine ⟨k * 2 ^ d, ?_⟩
  rw [hke, hd, zpow_add₀ (by norm_num), zpow_natCast]
  push_cast
  ring

theorem uneg11Fl_grid (h : Nearest p rnd) (hw : 0 < w) (x : BitVec w) : ∃ m : ℤ, uneg11Fl rnd x = m * 2 ^ (-(w : ℤ)) := by
  rw [uneg11Fl_eq h hw]
  obtain ⟨a, ha⟩ := round_grid h x.toInt 0
  rw [zpow_zero, mul_one, mul_one] at ha
  rw [ha, show (a : ℝ) * 2 ^ (1 - (w : ℤ)) + 2 ^ (-(w : ℤ)) = ((2 * a + 1 : ℤ) : ℝ) * 2 ^ (-(w : ℤ)) by
    rw [sub_eq_add_neg, zpow_add₀ (by norm_num), zpow_one]; push_cast; ring]
  exact round_grid h _ _

/-- C99. With 32-bit words, the conversion of a value to [0, 1] in double precision is exact, and so is its product with `n` for `n <= 2^20`: the sampling model, which computes these
in exact arithmetic from the rounded value, gives what the code computes. -/
theorem C99_double_exact {rnd64 : ℝ → ℝ} (h : Nearest 24 rnd) (h64 : Nearest 53 rnd64) (x : BitVec 32) {n : ℤ} (hn : 0 ≤ n) (hn' : n ≤ 2 ^ 20) :
    rnd64 (uneg11Fl rnd x) = uneg11Fl rnd x ∧ rnd64 (rnd64 (uneg11Fl rnd x + 1) / 2) = (uneg11Fl rnd x + 1) / 2 ∧
    rnd64 (rnd64 n * ((uneg11Fl rnd x + 1) / 2)) = n * ((uneg11Fl rnd x + 1) / 2) := by
  obtain ⟨m, hm⟩ := uneg11Fl_grid h (by decide) x
  obtain ⟨r1, r2, -⟩ := C99_range h (by decide) (by decide) x
  have hpos : (0 : ℝ) < 2 ^ (-(32 : ℤ)) := by positivity
  have e32 : (2 : ℝ) ^ (-(32 : ℤ)) * 2 ^ 32 = 1 := by norm_num
  have hm' : -2 ^ 32 ≤ m ∧ m ≤ 2 ^ 32 := by
    rw [hm] at r1 r2
    constructor
    · have : (-2 ^ 32 : ℝ) * 2 ^ (-(32 : ℤ)) ≤ m * 2 ^ (-(32 : ℤ)) := by
        have : (-2 ^ 32 : ℝ) * 2 ^ (-(32 : ℤ)) = -1 := by norm_num
        rw [this]; exact_mod_cast r1
      exact_mod_cast le_of_mul_le_mul_right this hpos
    · have : (m : ℝ) * 2 ^ (-(32 : ℤ)) ≤ 2 ^ 32 * 2 ^ (-(32 : ℤ)) := by
        have : (2 ^ 32 : ℝ) * 2 ^ (-(32 : ℤ)) = 1 := by norm_num
        rw [this]; exact_mod_cast r2
      exact_mod_cast le_of_mul_le_mul_right this hpos
  have hu : uneg11Fl rnd x + 1 = ((m + 2 ^ 32 : ℤ) : ℝ) * 2 ^ (-(32 : ℤ)) := by
    rw [hm, Int.cast_add, add_mul, show ((2 ^ 32 : ℤ) : ℝ) * 2 ^ (-(32 : ℤ)) = 1 by norm_num]
    rfl
  have hu2 : (uneg11Fl rnd x + 1) / 2 = ((m + 2 ^ 32 : ℤ) : ℝ) * 2 ^ (-(33 : ℤ)) := by
    rw [hu, show (2 : ℝ) ^ (-(33 : ℤ)) = 2 ^ (-(32 : ℤ)) / 2 by norm_num]; ring
  have p1 : Repr 53 (uneg11Fl rnd x) := ⟨m, -32, by rw [abs_le]; omega, hm⟩
  have p2 : Repr 53 (uneg11Fl rnd x + 1) := ⟨_, _, by rw [abs_le]; omega, hu⟩
  have p3 : Repr 53 ((uneg11Fl rnd x + 1) / 2) := ⟨_, _, by rw [abs_le]; omega, hu2⟩
  have p4 : Repr 53 (n : ℝ) := repr_int n (by rw [abs_le]; omega)
  have p5 : Repr 53 (n * ((uneg11Fl rnd x + 1) / 2)) := by
    refine ⟨n * (m + 2 ^ 32), -33, ?_, by rw [hu2]; push_cast; ring⟩
    rw [abs_of_nonneg (mul_nonneg hn (by omega))]
    calc n * (m + 2 ^ 32) ≤ 2 ^ 20 * 2 ^ 33 := mul_le_mul hn' (by omega) (by omega) (by norm_num)
      _ = 2 ^ 53 := by norm_num
  rw [h64.fix p2, h64.fix p4, h64.fix p5, h64.fix p3, h64.fix p1]
  exact ⟨rfl, rfl, rfl⟩

theorem Spec.Nearest.rel (h : Nearest p rnd) (x : ℝ) : |rnd x - x| ≤ 2⁻¹ ^ p * |x| := (h.near x _ (fl_isFl p x)).trans (fl_error p x)

/-- C99. For every `n` up to `2^53`, with the rounding of the product: the index is never negative, it is below `n` for every word below `2^31 - 64`, and it is `n` for every word
above `2^31 - 64`. -/
theorem C99_index {rnd64 : ℝ → ℝ} (h : Nearest 24 rnd) (h64 : Nearest 53 rnd64) (x : BitVec 32) {n : ℤ} (hn : 0 < n) (hn' : n ≤ 2 ^ 53) :
    0 ≤ truncToInt (rnd64 (rnd64 n * ((uneg11Fl rnd x + 1) / 2))) ∧
    (x.toInt < 2 ^ 31 - 64 → truncToInt (rnd64 (rnd64 n * ((uneg11Fl rnd x + 1) / 2))) < n) ∧
    (2 ^ 31 - 64 < x.toInt → truncToInt (rnd64 (rnd64 n * ((uneg11Fl rnd x + 1) / 2))) = n) := by
  obtain ⟨r1, r2, -⟩ := C99_range h (by decide) (by decide) x
  obtain ⟨t1, t2, -⟩ := C99_ends h (by decide) (by decide) x
  have hrep : Repr 53 (n : ℝ) := repr_int n (by rw [abs_le]; omega)
  have hnR : (0 : ℝ) < n := by exact_mod_cast hn
  rw [h64.fix hrep]
  have h0 : 0 ≤ (n : ℝ) * ((uneg11Fl rnd x + 1) / 2) := mul_nonneg hnR.le (by linarith)
  have h1 := h64.ge_of_ge (repr_zero 53) h0
  have ht : truncToInt (rnd64 (n * ((uneg11Fl rnd x + 1) / 2))) = ⌊rnd64 (n * ((uneg11Fl rnd x + 1) / 2))⌋ := by
    unfold truncToInt; rw [if_pos h1]
  rw [ht]
  refine ⟨Int.floor_nonneg.mpr h1, fun hx => ?_, fun hx => ?_⟩
  · have hlt := t2 (by norm_num at hx ⊢; exact hx)
    have hu : uneg11Fl rnd x ≤ 1 - 2 ^ (-(24 : ℤ)) := by
      have hr : Repr 24 (uneg11Fl rnd x) := by rw [uneg11Fl_eq h (by decide)]; exact h.repr _
      have := hr.below (by decide) (E := 0) (by rw [zpow_zero]; exact hlt)
      rw [zpow_zero] at this
      simpa using this
    have hle : (n : ℝ) * ((uneg11Fl rnd x + 1) / 2) ≤ n * (1 - 2⁻¹ ^ 25) := by
      refine mul_le_mul_of_nonneg_left ?_ hnR.le
      norm_num at hu ⊢
      linarith
    have hr := h64.rel (n * ((uneg11Fl rnd x + 1) / 2))
    rw [abs_of_nonneg h0] at hr
    have hr2 := (abs_le.mp hr).2
    rw [Int.floor_lt]
    have : (2⁻¹ : ℝ) ^ 53 * (n * ((uneg11Fl rnd x + 1) / 2)) ≤ 2⁻¹ ^ 53 * (n * (1 - 2⁻¹ ^ 25)) := mul_le_mul_of_nonneg_left hle (by positivity)
    have e2 : (n : ℝ) * (1 - 2⁻¹ ^ 25) + 2⁻¹ ^ 53 * (n * (1 - 2⁻¹ ^ 25)) < n := by nlinarith
    linarith
  · rw [t1 (by norm_num at hx ⊢; exact hx), show ((1 : ℝ) + 1) / 2 = 1 by norm_num, mul_one, h64.fix hrep]
    exact Int.floor_intCast n

example : Nearest 24 (fl 24) ∧ Nearest 53 (fl 53) ∧ (0 : ℤ) < 10 ∧ (10 : ℤ) ≤ 2 ^ 20 ∧ (10 : ℤ) ≤ 2 ^ 53 ∧ (7#32).toInt < 2 ^ 31 - 64 ∧ 2 ^ 31 - 64 < (2147483647#32).toInt :=
  ⟨fl_nearest 24 (by decide), fl_nearest 53 (by decide), by decide, by decide, by decide, by decide, by decide⟩

theorem flGen_ok (h : IsRng w lenC lenK block) : (flGen rnd block).Ok := r123Gen_ok h

/-- Some counter gives a block that starts with a given word. -/
theorem exists_counter (h : IsRng w lenC lenK block) (key : Words w lenK) (x : BitVec w) :
    ∃ c : ZMod (2 ^ (w * lenC)), (flGen rnd block).word c key 0 = x := by
  obtain ⟨-, hl⟩ := isRng_len h
  obtain ⟨v, hv⟩ := (C98_bijective h key).2 ⟨List.replicate lenC x, by simp⟩
  refine ⟨((vecVal v : Nat) : ZMod _), ?_⟩
  show ((block (ctrWords _) key).toList[(0 : Int).toNat]?).getD 0 = x
  rw [ctrWords_abs, show block v key = _ from hv]
  rcases hl with rfl | rfl <;> simp [List.Vector.toList, List.replicate]

theorem stream_zero (s : RNGState (2 ^ (w * lenC)) (Words w lenK)) :
    stream (flGen rnd block) s 0 = uneg11Fl rnd ((flGen rnd block).word s.counter s.key 0) := by
  show uneg11Fl rnd ((flGen rnd block).word (s.counter + (((0 / (flGen rnd block).len : Int)) : ZMod _)) s.key (0 % (flGen rnd block).len)) = _
  simp

theorem top_word (hpw : p + 2 < w) : ∃ x : BitVec w, 2 ^ (w - 1) - 2 ^ (w - 2 - p) < x.toInt := by
  obtain ⟨x, hx⟩ := (signedEquiv w).surjective ⟨2 ^ w - 1, by have := Nat.pos_of_ne_zero (pow_ne_zero w (by norm_num : (2 : Nat) ≠ 0)); omega⟩
  refine ⟨x, ?_⟩
  have h1 := signedEquiv_val (by omega : 0 < w) x
  rw [hx] at h1
  have h2 := two_pow_pred (by omega : 0 < w)
  have h3 : (2 : ℤ) ^ (w - 2 - p) ≥ 2 := by
    calc (2 : ℤ) = 2 ^ 1 := by norm_num
      _ ≤ 2 ^ (w - 2 - p) := pow_le_pow_right₀ (by norm_num) (by omega)
  have h4 : (2 : ℤ) ^ w = 2 * 2 ^ (w - 1) := by exact_mod_cast h2
  have h5 : (1 : ℕ) ≤ 2 ^ w := Nat.one_le_two_pow
  simp only at h1
  push_cast [h5] at h1
  omega

theorem bottom_word (hpw : p + 2 ≤ w) : ∃ x : BitVec w, x.toInt < -2 ^ (w - 1) + 2 ^ (w - 2 - p) := by
  obtain ⟨x, hx⟩ := (signedEquiv w).surjective ⟨0, Nat.pos_of_ne_zero (pow_ne_zero w (by norm_num))⟩
  refine ⟨x, ?_⟩
  have h1 := signedEquiv_val (by omega : 0 < w) x
  rw [hx] at h1
  have h3 : (0 : ℤ) < 2 ^ (w - 2 - p) := by positivity
  simp only at h1
  push_cast at h1
  omega

/-- C99 (counterexample to the range promised by `sample_indices_iid_uniform`). For every supported generator, every key and every `n > 0` there is a counter for which the first
sample is `n`. -/
theorem C99_uniform_out_of_range (h : IsRng w lenC lenK block) (hr : Nearest p rnd) (hp : 1 ≤ p) (hpw : p + 2 < w) (key : Words w lenK) {n k : Int} (hn : 0 < n) (hk : 0 < k) :
    ∃ c : ZMod (2 ^ (w * lenC)), ∀ b, AllocTo b k → M.wp (sampleIndicesIidUniformPublic (flGen rnd block) n k ⟨c, key⟩) b fun _ b' => b' 0 = .val n := by
  obtain ⟨x, hx⟩ := top_word hpw
  obtain ⟨c, hc⟩ := exists_counter (rnd := rnd) h key x
  refine ⟨c, fun b hb => ?_⟩
  have hu : unif01 (flGen rnd block) ⟨c, key⟩ 0 = 1 := by
    unfold unif01
    rw [stream_zero, hc, (C99_ends hr hp (by omega) x).1 hx]
    norm_num
  unfold sampleIndicesIidUniformPublic
  rw [M.wp_zoom]
  refine ⟨_, _, sampleUniform_spec (flGen_ok h) hk.le (fun p h0 h1 => by rw [zero_add]; exact hb p h0 h1) (fun h => by cases h), ?_⟩
  have := Buf.overAt_in (off := 0) (f := unifSample (flGen rnd block) ⟨c, key⟩ n false) (b := b) (p := 0) (m := k) le_rfl hk
  rw [zero_add] at this
  simp only
  rw [this]
  have hn' : (0 : ℝ) < n := by exact_mod_cast hn
  simp [unifSample, hu, truncToInt, hn'.le]

/-- C99 (counterexample to the structure of long-axis operators). For every supported generator, every key and every long-axis distribution there is a counter for which the filled
operator has an entry in its first vector whose index along the long axis is the length of that axis, one past its end. -/
theorem C99_long_axis_out_of_range (h : IsRng w lenC lenK block) (hr : Nearest p rnd) (hp : 1 ≤ p) (hpw : p + 2 < w) (key : Words w lenK) {D : SparseDist} (hD : SparseDistOk D)
    (hax : D.majorAxis = .Long) : ∃ c : ZMod (2 ^ (w * lenC)), ∀ order : Int → List (Int × ℝ) → List (Int × ℝ), (∀ i l, (order i l).Perm l) →
      M.wp (fillSparse (flGen rnd block) Real.sqrt order) (mkSparseSkOp (lenC : Nat) D ⟨c, key⟩) fun _ S' => ∃ E, OpHolds S' E ∧
        ∃ e ∈ E, shortIdx D.nRows D.nCols e = 0 ∧ longIdx D.nRows D.nCols e = max D.nRows D.nCols ∧ ¬ InRange D.nRows D.nCols E := by
  obtain ⟨x, hx⟩ := top_word hpw
  obtain ⟨c, hc⟩ := exists_counter (rnd := rnd) h key x
  refine ⟨c, fun order hord => ?_⟩
  obtain ⟨hR, hC, hk, hkd, hfull, hfit, hax'⟩ := sparseDist_facts hD
  obtain ⟨hmaj, hmin⟩ : D.dimMajor = max D.nRows D.nCols ∧ D.dimMinor = min D.nRows D.nCols := by
    rcases hax' with ⟨a, b, c⟩ | ⟨a, b, c⟩
    · rw [a] at hax; cases hax
    · exact ⟨b, c⟩
  have hu : unif01 (flGen rnd block) (advance ⟨c, key⟩ (0 * lasoStride (flGen rnd block).len D.vecNnz)) 0 = 1 := by
    unfold unif01 advance
    rw [zero_mul, Int.cast_zero, add_zero, stream_zero, hc, (C99_ends hr hp (by omega) x).1 hx]
    norm_num
  have hidx : lasoIdx (flGen rnd block) ⟨c, key⟩ D.dimMajor D.vecNnz 0 0 = D.dimMajor := by
    show truncToInt ((D.dimMajor : ℝ) * unif01 (flGen rnd block) (advance ⟨c, key⟩ (0 * lasoStride (flGen rnd block).len D.vecNnz)) (2 * 0)) = _
    rw [mul_zero, hu]
    have hn' : (0 : ℝ) < D.dimMajor := by exact_mod_cast (show 0 < D.dimMajor by omega)
    simp [truncToInt, hn'.le]
  refine M.wp_mono (fillSparse_spec (flGen_ok h) Real.sqrt_one hord (mkSparseSkOp_ok _ hD _)) ?_
  rintro - S' ⟨E, v, r, cc, hrun, rfl, hh, -, -⟩
  rcases hrun with ⟨a, -⟩ | ⟨-, hrun⟩
  · exact absurd (show D.majorAxis = .Short from a) (by rw [hax]; decide)
  obtain ⟨out, hm, -, hf⟩ := LasoRun.filter hrun 0 (by show 0 < D.dimMinor.toNat; omega)
  have hmem := hm.all 0 le_rfl hk
  obtain ⟨d, hd, hd1'⟩ := List.mem_map.mp hmem
  have hd1 : d.1 = D.dimMajor := hd1'.trans hidx
  have hE : ((0 : Int), d.1, d.2) ∈ E := by
    have : ((0 : Int), d.1, d.2) ∈ E.filter (fun e => e.1 = ((0 : ℕ) : Int)) := by
      rw [hf]; exact List.mem_map.mpr ⟨d, hd, rfl⟩
    exact (List.mem_filter.mp this).1
  have hE' : mkEntry D ((0 : Int), d.1, d.2) ∈ E.map (mkEntry D) := List.mem_map.mpr ⟨_, hE, rfl⟩
  refine ⟨_, ⟨v, r, cc, rfl, rfl, rfl, hh, by rw [List.length_map]⟩, _, hE', mkEntry_short D _, ?_, ?_⟩
  · rw [mkEntry_long]; exact hd1.trans hmaj
  · intro hin
    have h1 := hin _ hE'
    have h2 : longIdx D.nRows D.nCols (mkEntry D ((0 : Int), d.1, d.2)) = max D.nRows D.nCols := (mkEntry_long D ((0 : Int), d.1, d.2)).trans (hd1.trans hmaj)
    unfold longIdx at h2
    split_ifs at h2 <;> omega

/-- C99 (counterexample to "only indices of positive mass" in `sample_indices_iid`). For every supported generator and key there is a counter for which the first sample from a
distribution that gives index 0 no mass is index 0. -/
theorem C99_zero_mass (h : IsRng w lenC lenK block) (hr : Nearest p rnd) (hp : 1 ≤ p) (hpw : p + 2 ≤ w) (key : Words w lenK) {n k : Int} {cdf : Buf ℝ} {f : Int → ℝ}
    (hf : IsCdf n f) (hf0 : f 0 = 0) (hcdf : ∀ i, 0 ≤ i → i < n → cdf i = .val (f i)) (hk : 0 < k) :
    ∃ c : ZMod (2 ^ (w * lenC)), ∀ b, AllocTo b k → M.wp (sampleIndicesIid (flGen rnd block) n cdf k ⟨c, key⟩) b fun _ b' => b' 0 = .val 0 ∧ mass f 0 = 0 := by
  obtain ⟨x, hx⟩ := bottom_word hpw
  obtain ⟨c, hc⟩ := exists_counter (rnd := rnd) h key x
  refine ⟨c, fun b hb => ?_⟩
  have hu : unif01 (flGen rnd block) ⟨c, key⟩ 0 = 0 := by
    unfold unif01
    rw [stream_zero, hc, (C99_ends hr hp hpw x).2.2 hx]
    norm_num
  refine M.wp_mono (sampleIndicesIid_spec (flGen_ok h) hf.pos.le hk.le hcdf hf.mono hb) ?_
  rintro st b' ⟨-, h2, -⟩
  obtain ⟨j, hj, hj0, hjn, hlo, hhi⟩ := h2 0 le_rfl hk
  have : j = 0 := by
    by_contra hne
    have := hlo 0 le_rfl (by omega)
    rw [hu, hf0] at this
    exact lt_irrefl _ this
  subst this
  exact ⟨hj, by simp [mass, hf0]⟩

theorem pr_fin_ge {M g : Nat} (hg : g ≤ M) (hM : 0 < M) : Pr (fun j : Fin M => M - g ≤ (j : Nat)) = (g : ℝ) / M := by
  classical
  rw [pr_eq, Fintype.card_fin]
  congr 2
  have h1 := Finset.card_filter_add_card_filter_not (s := (Finset.univ : Finset (Fin M))) (fun j : Fin M => (j : Nat) < M - g)
  rw [Fin.card_filter_val_lt, Finset.card_univ, Fintype.card_fin] at h1
  have h2 : (Finset.univ.filter fun j : Fin M => M - g ≤ (j : Nat)) = Finset.univ.filter fun j : Fin M => ¬ ((j : Nat) < M - g) := by
    ext j; simp
  rw [h2]
  omega

/-- The fraction of the words that convert to 1. -/
theorem fraction_one (h : Nearest p rnd) (hp : 1 ≤ p) (hpw : p + 2 ≤ w) :
    ((2 : ℝ) ^ (w - 2 - p) - 1) / 2 ^ w ≤ Pr (fun x : BitVec w => uneg11Fl rnd x = 1) ∧ Pr (fun x : BitVec w => uneg11Fl rnd x = 1) ≤ 2 ^ (w - 2 - p) / 2 ^ w := by
  have hw : 0 < w := by omega
  have hM : 0 < 2 ^ w := Nat.two_pow_pos w
  have hg : 2 ^ (w - 2 - p) ≤ 2 ^ w := Nat.pow_le_pow_right (by norm_num) (by omega)
  have h1g : 1 ≤ 2 ^ (w - 2 - p) := Nat.one_le_two_pow
  have h4 : (2 : ℤ) ^ w = 2 * 2 ^ (w - 1) := by exact_mod_cast two_pow_pred hw
  have hcast : ∀ a : Nat, a ≤ 2 ^ w → ∀ x : BitVec w, (2 ^ w - a ≤ (signedEquiv w x : Nat) ↔ 2 ^ (w - 1) - (a : ℤ) ≤ x.toInt) := by
    intro a ha x
    have hv := signedEquiv_val hw x
    have hc : ((2 ^ w : Nat) : ℤ) = 2 * 2 ^ (w - 1) := by push_cast; exact h4
    omega
  constructor
  · have e := pr_fin_ge (M := 2 ^ w) (g := 2 ^ (w - 2 - p) - 1) (by omega) hM
    rw [← pr_equiv (signedEquiv w)] at e
    push_cast [h1g] at e
    rw [← e]
    refine pr_mono fun x hx => (C99_ends h hp hpw x).1 ?_
    have := (hcast _ (by omega) x).mp hx
    push_cast [h1g] at this
    omega
  · have e := pr_fin_ge (M := 2 ^ w) (g := 2 ^ (w - 2 - p)) hg hM
    rw [← pr_equiv (signedEquiv w)] at e
    push_cast at e
    rw [← e]
    refine pr_mono fun x hx => (hcast _ hg x).mpr ?_
    by_contra hc
    have := (C99_ends h hp hpw x).2.1 (by push_cast at hc; omega)
    rw [hx] at this
    exact lt_irrefl _ this

/-- C99. For every supported generator and every key: if the counter is uniformly distributed, the value at each position of the block is exactly 1 with a probability between
`(g - 1)/2^w` and `g/2^w`, where `g = 2^(w-2-p)` is 64 for the default generator. This is the probability that a sample of `sample_indices_iid_uniform`, or an index of a long-axis
operator, is out of range. -/
theorem C99_fraction (h : IsRng w lenC lenK block) (hr : Nearest p rnd) (hp : 1 ≤ p) (hpw : p + 2 ≤ w) (key : Words w lenK) (i : Fin lenC) :
    ((2 : ℝ) ^ (w - 2 - p) - 1) / 2 ^ w ≤ Pr (fun c : Words w lenC => uneg11Fl rnd ((block c key).get i) = 1) ∧
    Pr (fun c : Words w lenC => uneg11Fl rnd ((block c key).get i) = 1) ≤ 2 ^ (w - 2 - p) / 2 ^ w := by
  rw [C98_uniform h key (fun v => uneg11Fl rnd (v.get i) = 1)]
  have e := pr_equiv (Equiv.vectorEquivFin (BitVec w) lenC) (fun v => uneg11Fl rnd (v i) = 1)
  have e2 : (fun v : Words w lenC => uneg11Fl rnd (v.get i) = 1) = fun v => uneg11Fl rnd ((Equiv.vectorEquivFin (BitVec w) lenC) v i) = 1 := rfl
  rw [e2, e, pr_eval i (fun x => uneg11Fl rnd x = 1)]
  exact fraction_one hr hp hpw

example : IsRng 32 4 2 defaultBlock ∧ Nearest 24 (fl 24) ∧ 24 + 2 ≤ 32 ∧ ((2 : ℝ) ^ (32 - 2 - 24) - 1) / 2 ^ 32 = 63 / 2 ^ 32 :=
  ⟨.philox4x32 10, fl_nearest 24 (by decide), by decide, by norm_num⟩

/-- C99 (what remains of C24). If none of the words that the call uses is `2^(w-1) - 2^(w-2-p)` or above, every sample is the floor of `n` times the uniform value and lies in
`{0..n-1}`. For 32-bit words this excludes the 64 largest of the `2^32` values. -/
theorem C99_uniform_partial (h : IsRng w lenC lenK block) (hr : Nearest p rnd) (hp : 1 ≤ p) (hpw : p + 2 ≤ w) {state : RNGState (2 ^ (w * lenC)) (Words w lenK)} {n k : Int}
    (hn : 0 < n) (hk : 0 ≤ k) {b : Buf Int} (hb : AllocTo b k)
    (hx : ∀ i : Int, 0 ≤ i → i < k → ((flGen rnd block).word (state.counter + ((i / (flGen rnd block).len : Int) : ZMod _)) state.key (i % (flGen rnd block).len)).toInt <
      2 ^ (w - 1) - 2 ^ (w - 2 - p)) :
    M.wp (sampleIndicesIidUniformPublic (flGen rnd block) n k state) b fun _ b' => ∀ i, 0 ≤ i → i < k →
      ∃ j : Int, b' i = .val j ∧ j = ⌊(n : ℝ) * unif01 (flGen rnd block) state i⌋ ∧ 0 ≤ j ∧ j < n := by
  refine M.wp_mono (C24_uniform (flGen_ok h) hn hk hb fun i h0 h1 => ?_) fun st b' h i i0 i1 => ⟨_, (h.1 i i0 i1).1, rfl, (h.1 i i0 i1).2⟩
  have ha := C99_range hr hp hpw ((flGen rnd block).word (state.counter + ((i / (flGen rnd block).len : Int) : ZMod _)) state.key (i % (flGen rnd block).len))
  have hb := (C99_ends hr hp hpw _).2.1 (hx i h0 h1)
  have e : unif01 (flGen rnd block) state i =
      (uneg11Fl rnd ((flGen rnd block).word (state.counter + ((i / (flGen rnd block).len : Int) : ZMod _)) state.key (i % (flGen rnd block).len)) + 1) / 2 := rfl
  rw [e]
  constructor <;> linarith [ha.1]

/-- The hypotheses of the last theorems are met by the default generator with single-precision conversions; those of `C99_uniform_partial` by the state with key 7 and four samples. -/
example : IsRng 32 4 2 defaultBlock ∧ Nearest 24 (fl 24) ∧ 24 + 2 < 32 ∧ SparseDistOk exLaso ∧ exLaso.majorAxis = .Long ∧
    (∃ f : Int → ℝ, IsCdf 2 f ∧ f 0 = 0) ∧
    ∀ i : Int, 0 ≤ i → i < 4 → ((flGen (fl 24) defaultBlock).word (0 + ((i / 4 : Int) : ZMod _)) (RNGWords.ofKey 7 : RNGWords 32 4 32 2).key (i % 4)).toInt < 2 ^ 31 - 2 ^ 6 := by
  refine ⟨.philox4x32 10, fl_nearest 24 (by decide), by decide, exLaso_ok, rfl, ⟨fun i => if i = 0 then 0 else 1, ⟨by decide, fun i _ _ => by split_ifs <;> norm_num,
    fun i j h0 hij hj => by split_ifs <;> norm_num; omega, by simp⟩, by simp⟩, ?_⟩
  intro i h0 h1
  have e : ∀ t : Int, (flGen (fl 24) defaultBlock).word (0 + ((t / 4 : Int) : ZMod _)) (RNGWords.ofKey 7 : RNGWords 32 4 32 2).key (t % 4) =
    ((defaultBlock (ctrWords (0 + ((t / 4 : Int) : ZMod (2 ^ (32 * 4))))) (RNGWords.ofKey 7 : RNGWords 32 4 32 2).key).toList[(t % 4).toNat]?).getD 0 := fun _ => rfl
  rw [e]
  have : i = 0 ∨ i = 1 ∨ i = 2 ∨ i = 3 := by omega
  rcases this with rfl | rfl | rfl | rfl <;> decide +kernel

end RB
