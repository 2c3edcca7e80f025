import Verif.Lemmas.SamplingFloat
import Verif.Props.Random123Float

/-! # C101: cumulative distributions and index sampling in floating-point arithmetic -/

namespace RB
open Spec
variable {N : Nat} {K W : Type} {p q w lenC lenK : Nat} {rnd rndw : ℝ → ℝ} {block : Words w lenC → Words w lenK → Words w lenC}

theorem round_bounds (h : Nearest p rnd) {x : ℝ} (hx : 0 ≤ x) : (1 - 2⁻¹ ^ p) * x ≤ rnd x ∧ rnd x ≤ (1 + 2⁻¹ ^ p) * x := by
  have := h.rel x
  rw [abs_of_nonneg hx, abs_le] at this
  constructor <;> linarith [this.1, this.2]

theorem unit_le_one (p : Nat) : (0 : ℝ) ≤ 2⁻¹ ^ p ∧ (2⁻¹ : ℝ) ^ p ≤ 1 := ⟨by positivity, pow_le_one₀ (by norm_num) (by norm_num)⟩

theorem flSum_bounds (h : Nearest p rnd) (v : Int → ℝ) (t : Nat) :
    (1 - 2⁻¹ ^ p) ^ t * posSum v t ≤ flSum rnd v t ∧ flSum rnd v t ≤ (1 + 2⁻¹ ^ p) ^ t * posSum v t := by
  obtain ⟨u0, u1⟩ := unit_le_one p
  induction t with
  | zero => simp [flSum, posSum]
  | succ t ih =>
    have hP : posSum v (t + 1) = posSum v t + max (v t) 0 := by unfold posSum; rw [Finset.sum_range_succ, max_comm]
    have hm : 0 ≤ max (v t) 0 := le_max_right _ _
    obtain ⟨b1, b2⟩ := round_bounds h (add_nonneg (flSum_nonneg h v t) hm)
    rw [flSum, hP]
    constructor
    · refine le_trans ?_ b1
      rw [pow_succ', mul_assoc]
      refine mul_le_mul_of_nonneg_left ?_ (by linarith)
      have : (1 - (2⁻¹ : ℝ) ^ p) ^ t * max (v t) 0 ≤ max (v t) 0 := mul_le_of_le_one_left hm (pow_le_one₀ (by linarith) (by linarith))
      linarith [ih.1]
    · refine b2.trans ?_
      rw [pow_succ', mul_assoc]
      refine mul_le_mul_of_nonneg_left ?_ (by linarith)
      have : max (v t) 0 ≤ (1 + (2⁻¹ : ℝ) ^ p) ^ t * max (v t) 0 := le_mul_of_one_le_left hm (one_le_pow₀ (by linarith))
      linarith [ih.2]

/-- C101 (`weights_to_cdf`). In floating-point arithmetic with `p` bits, when all weights are at least `error_if_below` and the computed sum of the positive parts reaches the
positive threshold, the result is nonnegative and nondecreasing; every element differs from the exact value by at most `n + 2` rounding factors in each direction; the last element is
1 or the largest number below 1; an index whose weight is not positive gets no mass; nothing outside the `n` elements is touched. -/
theorem C101_cdf (h : Nearest p rnd) (hp : 1 ≤ p) {n : Int} {thresh below : ℝ} {b : Buf ℝ} {v : Int → ℝ} (hn : 0 < n) (hv : ∀ i, 0 ≤ i → i < n → b i = .val (v i))
    (hbelow : ∀ i, 0 ≤ i → i < n → below ≤ v i) (ht : 0 < thresh) (hsum : thresh ≤ flSum rnd v n.toNat) :
    M.wp (weightsToCdfFl rnd n thresh below) b fun _ b' => ∃ f : Int → ℝ, (∀ i, 0 ≤ i → i < n → b' i = .val (f i)) ∧
      (∀ i, 0 ≤ i → i < n → 0 ≤ f i ∧ f i ≤ 1) ∧ (∀ i j, 0 ≤ i → i ≤ j → j < n → f i ≤ f j) ∧
      (f (n - 1) = 1 ∨ f (n - 1) = 1 - 2⁻¹ ^ p) ∧
      (∀ i, 0 ≤ i → i < n →
        (1 - 2⁻¹ ^ p) ^ (n.toNat + 2) / (1 + 2⁻¹ ^ p) ^ n.toNat * (posSum v (i.toNat + 1) / posSum v n.toNat) ≤ f i ∧
        f i ≤ (1 + 2⁻¹ ^ p) ^ (n.toNat + 2) / (1 - 2⁻¹ ^ p) ^ n.toNat * (posSum v (i.toNat + 1) / posSum v n.toNat)) ∧
      (∀ i, 0 ≤ i → i < n → v i ≤ 0 → mass f i = 0) ∧
      (∀ a, ¬ (0 ≤ a ∧ a < n) → b' a = b a) := by
  have hS : 0 < flSum rnd v n.toNat := lt_of_lt_of_le ht hsum
  obtain ⟨u0, u1⟩ := unit_le_one p
  have u2 : (2⁻¹ : ℝ) ^ p ≤ 1 / 2 := by
    calc (2⁻¹ : ℝ) ^ p ≤ 2⁻¹ ^ 1 := pow_le_pow_of_le_one (by norm_num) (by norm_num) hp
      _ = 1 / 2 := by norm_num
  have hP : 0 < posSum v n.toNat := by
    have := (flSum_bounds h v n.toNat).2
    have hc : (0 : ℝ) < (1 + 2⁻¹ ^ p) ^ n.toNat := by positivity
    by_contra hc'
    have : (1 + (2⁻¹ : ℝ) ^ p) ^ n.toNat * posSum v n.toNat ≤ 0 := mul_nonpos_of_nonneg_of_nonpos hc.le (not_lt.mp hc')
    linarith
  have hr0 : 0 ≤ rnd (1 / flSum rnd v n.toNat) := h.ge_of_ge (repr_zero p) (by positivity)
  apply M.wp_of_wpx
  refine M.wpx_mono (weightsToCdfFl_spec hn.le hv) ?_ ?_
  · rintro - b' ⟨-, -, h1, h2⟩
    have hlast : ∀ z : ℝ, z = rnd (rnd (1 / flSum rnd v n.toNat) * flSum rnd v n.toNat) → z = 1 ∨ z = 1 - 2⁻¹ ^ p := by
      rintro z rfl
      have := recip_mul h hp hS
      rwa [zpow_neg, zpow_natCast, ← inv_pow] at this
    have hmono : ∀ i j : Int, 0 ≤ i → i ≤ j → j < n → rnd (rnd (1 / flSum rnd v n.toNat) * flSum rnd v (i.toNat + 1)) ≤
        rnd (rnd (1 / flSum rnd v n.toNat) * flSum rnd v (j.toNat + 1)) := fun i j i0 ij jn =>
      h.mono (mul_le_mul_of_nonneg_left (flSum_mono h v (by omega)) hr0)
    have hn1 : (n - 1).toNat + 1 = n.toNat := by omega
    refine ⟨fun i => rnd (rnd (1 / flSum rnd v n.toNat) * flSum rnd v (i.toNat + 1)), h1, ?_, hmono, ?_, ?_, ?_, h2⟩
    · intro i i0 i1
      refine ⟨h.ge_of_ge (repr_zero p) (mul_nonneg hr0 (flSum_nonneg h v _)), ?_⟩
      refine (hmono i (n - 1) i0 (by omega) (by omega)).trans ?_
      rw [hn1]
      rcases hlast _ rfl with e | e <;> rw [e]
      linarith
    · exact hlast _ (by simp only [hn1])
    · intro i i0 i1
      have hi : i.toNat + 1 ≤ n.toNat := by omega
      obtain ⟨a1, a2⟩ := flSum_bounds h v (i.toNat + 1)
      obtain ⟨c1, c2⟩ := flSum_bounds h v n.toNat
      obtain ⟨r1, r2⟩ := round_bounds h (show 0 ≤ 1 / flSum rnd v n.toNat by positivity)
      obtain ⟨s1, s2⟩ := round_bounds h (mul_nonneg hr0 (flSum_nonneg h v (i.toNat + 1)))
      have hPi : 0 ≤ posSum v (i.toNat + 1) := posSum_nonneg v _
      have hFi := flSum_nonneg h v (i.toNat + 1)
      set u : ℝ := 2⁻¹ ^ p
      set S := flSum rnd v n.toNat
      set F := flSum rnd v (i.toNat + 1)
      set P := posSum v n.toNat
      set Q := posSum v (i.toNat + 1)
      have a1' : (1 - u) ^ n.toNat * Q ≤ F := le_trans (mul_le_mul_of_nonneg_right (pow_le_pow_of_le_one (by linarith) (by linarith) hi) hPi) a1
      have a2' : F ≤ (1 + u) ^ n.toNat * Q := a2.trans (mul_le_mul_of_nonneg_right (pow_le_pow_right₀ (by linarith) hi) hPi)
      have p1 : (0 : ℝ) < (1 - u) ^ n.toNat := pow_pos (by linarith) _
      have p2 : (0 : ℝ) < (1 + u) ^ n.toNat := pow_pos (by linarith) _
      constructor
      · have k1 : (1 - u) * ((1 - u) * (1 / S) * F) ≤ rnd (rnd (1 / S) * F) :=
          (mul_le_mul_of_nonneg_left (mul_le_mul_of_nonneg_right r1 hFi) (by linarith)).trans s1
        refine le_trans ?_ k1
        have k2 : (1 - u) ^ n.toNat * Q / ((1 + u) ^ n.toNat * P) ≤ F / S := by
          rw [div_le_div_iff₀ (mul_pos p2 hP) hS]
          exact mul_le_mul a1' c2 hS.le hFi
        calc (1 - u) ^ (n.toNat + 2) / (1 + u) ^ n.toNat * (Q / P) = (1 - u) ^ 2 * ((1 - u) ^ n.toNat * Q / ((1 + u) ^ n.toNat * P)) := by
              rw [pow_add]; field_simp
          _ ≤ (1 - u) ^ 2 * (F / S) := mul_le_mul_of_nonneg_left k2 (by positivity)
          _ = _ := by ring
      · have k1 : rnd (rnd (1 / S) * F) ≤ (1 + u) * ((1 + u) * (1 / S) * F) :=
          s2.trans (mul_le_mul_of_nonneg_left (mul_le_mul_of_nonneg_right r2 hFi) (by linarith))
        refine k1.trans ?_
        have k2 : F / S ≤ (1 + u) ^ n.toNat * Q / ((1 - u) ^ n.toNat * P) := by
          rw [div_le_div_iff₀ hS (mul_pos p1 hP)]
          exact mul_le_mul a2' c1 (mul_nonneg p1.le hP.le) (mul_nonneg p2.le hPi)
        calc (1 + u) * ((1 + u) * (1 / S) * F) = (1 + u) ^ 2 * (F / S) := by ring
          _ ≤ (1 + u) ^ 2 * ((1 + u) ^ n.toNat * Q / ((1 - u) ^ n.toNat * P)) := mul_le_mul_of_nonneg_left k2 (by positivity)
          _ = _ := by rw [pow_add]; field_simp
    · intro i i0 i1 hvi
      have e : flSum rnd v (i.toNat + 1) = flSum rnd v i.toNat := by
        rw [flSum, Int.toNat_of_nonneg i0, max_eq_right hvi, add_zero, h.fix (flSum_repr h v _)]
      simp only [mass]
      split_ifs with hz
      · subst hz
        show rnd (rnd (1 / flSum rnd v n.toNat) * flSum rnd v ((0 : Int).toNat + 1)) = 0
        rw [e]
        show rnd (rnd (1 / flSum rnd v n.toNat) * 0) = 0
        rw [mul_zero, h.fix (repr_zero p)]
      · rw [e, show (i - 1).toNat + 1 = i.toNat by omega, sub_self]
  · rintro e b' ⟨-, hbad | hbad, -⟩
    · obtain ⟨i, h0, h1, h2⟩ := hbad
      exact absurd (hbelow i h0 h1) (not_le.mpr h2)
    · exact absurd hsum (not_le.mpr hbad)

/-- The weight 41 in single precision: the product of the rounded reciprocal with the sum rounds to `1 - 2^-24`. -/
theorem last_41 (h : Nearest 24 rnd) : rnd (rnd (1 / 41) * 41) = 1 - 2⁻¹ ^ 24 := by
  have h1 : rnd (1 / 41) = ((13094412 : ℤ) : ℝ) * 2 ^ (-29 : ℤ) := by
    refine h.eq_of_near (by norm_num) (by norm_num) (by norm_num) ?_
    norm_num [abs_lt]
  have h2 : rnd (((13094412 : ℤ) : ℝ) * 2 ^ (-29 : ℤ) * 41) = ((2 ^ 24 - 1 : ℤ) : ℝ) * 2 ^ (-24 : ℤ) := by
    refine h.eq_of_near (by norm_num) (by norm_num) (by norm_num) ?_
    norm_num [abs_lt]
  rw [h1, h2]; norm_num

/-- The weight 49 in double precision. -/
theorem last_49 (h : Nearest 53 rnd) : rnd (rnd (1 / 49) * 49) = 1 - 2⁻¹ ^ 53 := by
  have h1 : rnd (1 / 49) = ((5882252574524729 : ℤ) : ℝ) * 2 ^ (-58 : ℤ) := by
    refine h.eq_of_near (by norm_num) (by norm_num) (by norm_num) ?_
    norm_num [abs_lt]
  have h2 : rnd (((5882252574524729 : ℤ) : ℝ) * 2 ^ (-58 : ℤ) * 49) = ((2 ^ 53 - 1 : ℤ) : ℝ) * 2 ^ (-53 : ℤ) := by
    refine h.eq_of_near (by norm_num) (by norm_num) (by norm_num) ?_
    norm_num [abs_lt]
  rw [h1, h2]; norm_num

theorem flSum_first (h : Nearest p rnd) {v : Int → ℝ} {c : ℝ} (hc : 0 ≤ c) (hcr : Repr p c) (h0 : v 0 = c) (hv : ∀ i, 0 < i → v i ≤ 0) (t : Nat) : flSum rnd v (t + 1) = c := by
  induction t with
  | zero => simp [flSum, h0, max_eq_left hc, h.fix hcr]
  | succ t ih => rw [flSum, ih, max_eq_right (hv _ (by omega)), add_zero, h.fix hcr]

/-- C101 (counterexample to "on exit, `w` is a CDF suitable for use with `sample_indices_iid`", whose documentation requires `cdf[n-1] = 1`). For every length, the single-precision
weights 41, 0, ..., 0 give the result `1 - 2^-24` everywhere, and the double-precision weights 49, 0, ..., 0 give `1 - 2^-53`. -/
theorem C101_last_counterexample {n : Int} {thresh below : ℝ} {v : Int → ℝ} {b : Buf ℝ} (hn : 0 < n) (hb : below ≤ 0) (ht : thresh ≤ 41)
    (hv : ∀ i, 0 ≤ i → i < n → b i = .val (v i)) (hv0 : ∀ i, 0 < i → v i = 0) :
    (Nearest 24 rnd → v 0 = 41 → M.wp (weightsToCdfFl rnd n thresh below) b fun _ b' => ∀ i, 0 ≤ i → i < n → b' i = .val (1 - 2⁻¹ ^ 24)) ∧
    (Nearest 53 rnd → v 0 = 49 → M.wp (weightsToCdfFl rnd n thresh below) b fun _ b' => ∀ i, 0 ≤ i → i < n → b' i = .val (1 - 2⁻¹ ^ 53)) := by
  have key : ∀ (p : Nat) (c : ℝ), Nearest p rnd → 41 ≤ c → Repr p c → v 0 = c → rnd (rnd (1 / c) * c) = 1 - 2⁻¹ ^ p →
      M.wp (weightsToCdfFl rnd n thresh below) b fun _ b' => ∀ i, 0 ≤ i → i < n → b' i = .val (1 - 2⁻¹ ^ p) := by
    intro p c h hc hcr h0 hl
    have hs := flSum_first h (by linarith) hcr h0 fun i hi => (hv0 i hi).le
    have hsn : flSum rnd v n.toNat = c := by rw [show n.toNat = (n.toNat - 1) + 1 by omega]; exact hs _
    apply M.wp_of_wpx
    refine M.wpx_mono (weightsToCdfFl_spec hn.le hv) ?_ ?_
    · rintro - b' ⟨-, -, h1, -⟩ i i0 i1
      rw [h1 i i0 i1, hsn, hs, hl]
    · rintro e b' ⟨-, hbad | hbad, -⟩
      · obtain ⟨i, i0, i1, i2⟩ := hbad
        rcases i0.eq_or_lt with rfl | i0
        · rw [h0] at i2; linarith
        · rw [hv0 i i0] at i2; linarith
      · rw [hsn] at hbad; linarith
  exact ⟨fun h h0 => key 24 41 h le_rfl (by exact_mod_cast repr_int 41 (by norm_num)) h0 (last_41 h),
    fun h h0 => key 53 49 h (by norm_num) (by exact_mod_cast repr_int 49 (by norm_num)) h0 (last_49 h)⟩

/-- C101 (counterexample to the range of `sample_indices_iid`). Take any weights for which `weights_to_cdf` leaves a last element below 1. For every supported generator, every key
and every `k > 0` there is a counter for which `weights_to_cdf` followed by `sample_indices_iid` gives the first sample `n`, one past the end. -/
theorem C101_out_of_range (hg : IsRng w lenC lenK block) (hw : Nearest q rndw) (hq : 1 ≤ q) (hqw : q + 2 < w) (h : Nearest p rnd) (hp : 1 ≤ p) (key : Words w lenK)
    {n k : Int} {thresh below : ℝ} {b : Buf ℝ} {v : Int → ℝ} (hn : 0 < n) (hk : 0 < k) (hv : ∀ i, 0 ≤ i → i < n → b i = .val (v i))
    (hbelow : ∀ i, 0 ≤ i → i < n → below ≤ v i) (ht : 0 < thresh) (hsum : thresh ≤ flSum rnd v n.toNat)
    (hlast : rnd (rnd (1 / flSum rnd v n.toNat) * flSum rnd v n.toNat) ≠ 1) :
    ∃ c : ZMod (2 ^ (w * lenC)), ∀ out, AllocTo out k → M.wp (weightsToCdfFl rnd n thresh below) b fun _ b' =>
      M.wp (sampleIndicesIidFl rnd (flGen rndw block) n b' k ⟨c, key⟩) out fun _ out' => out' 0 = .val n := by
  obtain ⟨x, hx⟩ := top_word hqw
  obtain ⟨c, hc⟩ := exists_counter (rnd := rndw) hg key x
  refine ⟨c, fun out hout => ?_⟩
  have hS : 0 < flSum rnd v n.toNat := lt_of_lt_of_le ht hsum
  have hr0 : 0 ≤ rnd (1 / flSum rnd v n.toNat) := h.ge_of_ge (repr_zero p) (by positivity)
  have hu : uneg11ToU01Fl rnd (stream (flGen rndw block) ⟨c, key⟩ 0) = 1 := by
    unfold uneg11ToU01Fl
    rw [stream_zero, hc, (C99_ends hw hq (by omega) x).1 hx, h.fix (repr_one p), show (1 : ℝ) + 1 = 2 by norm_num,
      h.fix (show Repr p 2 by simpa using repr_pow p 1), div_self (by norm_num), h.fix (repr_one p)]
  apply M.wp_of_wpx
  refine M.wpx_mono (weightsToCdfFl_spec hn.le hv) ?_ ?_
  · rintro - b' ⟨-, -, h1, -⟩
    refine M.wp_mono (sampleIndicesIidFl_spec (flGen_ok hg) hn.le hk.le h1 (fun i j i0 ij jn =>
      h.mono (mul_le_mul_of_nonneg_left (flSum_mono h v (by omega)) hr0)) hout) ?_
    rintro st out' ⟨-, h2, -⟩
    obtain ⟨j, hj, hj0, hjn, -, hhi⟩ := h2 0 le_rfl hk
    have hjn' : j = n := by
      by_contra hne
      have h3 := hhi (n - 1) (by omega) (by omega)
      rw [hu, show (n - 1).toNat + 1 = n.toNat by omega] at h3
      rcases recip_mul h hp hS with e | e
      · exact hlast e
      · rw [e] at h3
        have : (0 : ℝ) < 2 ^ (-(p : ℤ)) := by positivity
        linarith
    rw [← hjn']; exact hj
  · rintro e b' ⟨-, hbad | hbad, -⟩
    · obtain ⟨i, h0, h1, h2⟩ := hbad
      exact absurd (hbelow i h0 h1) (not_le.mpr h2)
    · exact absurd hsum (not_le.mpr hbad)

theorem u01Fl_range (h : Nearest p rnd) {x : ℝ} (h0 : -1 ≤ x) (h1 : x ≤ 1) : 0 ≤ uneg11ToU01Fl rnd x ∧ uneg11ToU01Fl rnd x ≤ 1 := by
  have e2 : Repr p 2 := by simpa using repr_pow p 1
  have a := h.ge_of_ge (repr_one p).neg h0
  have b := h.le_of_le (repr_one p) h1
  have c := h.ge_of_ge (repr_zero p) (show (0 : ℝ) ≤ rnd x + 1 by linarith)
  have d := h.le_of_le e2 (show rnd x + 1 ≤ 2 by linarith)
  exact ⟨h.ge_of_ge (repr_zero p) (by linarith), h.le_of_le (repr_one p) (by linarith)⟩

theorem repr_below_one (hp : 1 ≤ p) : Repr p (1 - 2⁻¹ ^ p) := by
  refine ⟨2 ^ p - 1, -p, ?_, ?_⟩
  · have : (1 : ℤ) ≤ 2 ^ p := one_le_pow₀ (by norm_num)
    rw [abs_of_nonneg (by omega)]; omega
  · push_cast
    rw [sub_mul, zpow_neg, zpow_natCast, mul_inv_cancel₀ (by positivity), inv_pow, one_mul]

theorem u01Fl_below (h : Nearest p rnd) (hp : 1 ≤ p) {x : ℝ} (h1 : x ≤ 1 - 2 * 2⁻¹ ^ p) : uneg11ToU01Fl rnd x ≤ 1 - 2⁻¹ ^ p := by
  have e1 : Repr p (2 * (1 - 2⁻¹ ^ p)) := by have := (repr_below_one hp).scale 1; rw [zpow_one, mul_comm] at this; exact this
  have ea : Repr p (1 - 2 * 2⁻¹ ^ p) := by
    refine ⟨2 ^ p - 2, -p, ?_, ?_⟩
    · have : (2 : ℤ) ≤ 2 ^ p := by calc (2 : ℤ) = 2 ^ 1 := by norm_num
          _ ≤ 2 ^ p := pow_le_pow_right₀ (by norm_num) hp
      rw [abs_of_nonneg (by omega)]; omega
    · push_cast
      rw [sub_mul, zpow_neg, zpow_natCast, mul_inv_cancel₀ (by positivity), inv_pow]
  have a := h.le_of_le ea h1
  have b := h.le_of_le e1 (show rnd x + 1 ≤ 2 * (1 - 2⁻¹ ^ p) by linarith)
  exact h.le_of_le (repr_below_one hp) (by linarith)

/-- C101 (what holds). `weights_to_cdf` followed by `sample_indices_iid` returns the given state advanced by `k / len` rounded up, and writes exactly `k` samples. Every sample whose
uniform value in [-1, 1] is at most `1 - 2^(1-p)` is in `{0..n-1}`, is the least index whose element of the distribution is at least the uniform value in [0, 1], and has a positive
weight unless that value is 0. The full statement, without the bound on the uniform value, is false (`C101_out_of_range`); it holds when the last element is 1. -/
theorem C101_in_range_partial {G : Gen N K W ℝ} (hG : G.Ok) (h : Nearest p rnd) (hp : 1 ≤ p) {state : RNGState N K}
    {n k : Int} {thresh below : ℝ} {b : Buf ℝ} {v : Int → ℝ} (hn : 0 < n) (hk : 0 ≤ k) (hv : ∀ i, 0 ≤ i → i < n → b i = .val (v i))
    (hbelow : ∀ i, 0 ≤ i → i < n → below ≤ v i) (ht : 0 < thresh) (hsum : thresh ≤ flSum rnd v n.toNat) {out : Buf Int} (hout : AllocTo out k)
    (hx : ∀ i, 0 ≤ i → i < k → -1 ≤ stream G state i ∧ stream G state i ≤ 1) :
    M.wp (weightsToCdfFl rnd n thresh below) b fun _ b' => ∃ f : Int → ℝ, (∀ i, 0 ≤ i → i < n → b' i = .val (f i)) ∧
      M.wp (sampleIndicesIidFl rnd G n b' k state) out fun st out' => st = advance state (countersPerVector G.len k) ∧
        (∀ i, 0 ≤ i → i < k → stream G state i ≤ 1 - 2 * 2⁻¹ ^ p ∨ f (n - 1) = 1 →
          ∃ j, out' i = .val j ∧ 0 ≤ j ∧ j < n ∧ uneg11ToU01Fl rnd (stream G state i) ≤ f j ∧
            (∀ l, 0 ≤ l → l < j → f l < uneg11ToU01Fl rnd (stream G state i)) ∧ (0 < uneg11ToU01Fl rnd (stream G state i) → 0 < v j)) ∧
        (∀ a, ¬ (0 ≤ a ∧ a < k) → out' a = out a) := by
  refine M.wp_mono (C101_cdf h hp hn hv hbelow ht hsum) ?_
  rintro - b' ⟨f, hf, -, hmono, hlast, -, hmass, -⟩
  refine ⟨f, hf, M.wp_mono (sampleIndicesIidFl_spec hG hn.le hk hf hmono hout) ?_⟩
  rintro st out' ⟨h1, h2, h3⟩
  refine ⟨h1, fun i i0 i1 hi => ?_, h3⟩
  obtain ⟨j, hj, hj0, hjn, hlo, hhi⟩ := h2 i i0 i1
  have hlt : j < n := by
    by_contra hcon
    have := hlo (n - 1) (by omega) (by omega)
    have hu := (u01Fl_range h (hx i i0 i1).1 (hx i i0 i1).2).2
    rcases hlast with e | e
    · rw [e] at this; linarith
    · rcases hi with hi | hi
      · have := u01Fl_below h hp hi
        linarith
      · rw [hi] at this; linarith
  refine ⟨j, hj, hj0, hlt, hhi j le_rfl hlt, hlo, fun hu => ?_⟩
  by_contra hvj
  have hm := hmass j hj0 hlt (not_lt.mp hvj)
  have a := hhi j le_rfl hlt
  unfold mass at hm
  split_ifs at hm with hz
  · subst hz; linarith
  · have := hlo (j - 1) (by omega) (by omega)
    linarith

/-- The words to which `C101_in_range_partial` applies: for single precision, all 32-bit words (as signed integers) up to `2^31 - 2^8`; for double precision, all words below
`2^31 - 2^6`, that is, all words that are not converted to 1. -/
theorem C101_words (hw : Nearest 24 rndw) (x : BitVec 32) :
    (x.toInt ≤ 2 ^ 31 - 2 ^ 8 → uneg11Fl rndw x ≤ 1 - 2 * 2⁻¹ ^ 24) ∧ (x.toInt < 2 ^ 31 - 2 ^ 6 → uneg11Fl rndw x ≤ 1 - 2 * 2⁻¹ ^ 53) := by
  constructor
  · intro hx
    rw [uneg11Fl_eq hw (by decide)]
    have h1 : rndw (x.toInt : ℝ) ≤ 2 ^ 31 - 2 ^ 8 := by
      refine hw.le_of_le ?_ (by exact_mod_cast hx)
      refine ⟨2 ^ 23 - 1, 8, by norm_num, by norm_num⟩
    have h2 : rndw (x.toInt : ℝ) * 2 ^ (1 - ((32 : ℕ) : ℤ)) + 2 ^ (-((32 : ℕ) : ℤ)) ≤ (2 ^ 31 - 2 ^ 8) * 2 ^ (1 - ((32 : ℕ) : ℤ)) + 2 ^ (-((32 : ℕ) : ℤ)) := by
      have := mul_le_mul_of_nonneg_right h1 (show (0 : ℝ) ≤ 2 ^ (1 - ((32 : ℕ) : ℤ)) by positivity)
      linarith
    refine (hw.mono h2).trans (le_of_eq ?_)
    have h3 : rndw ((2 ^ 31 - 2 ^ 8) * 2 ^ (1 - ((32 : ℕ) : ℤ)) + 2 ^ (-((32 : ℕ) : ℤ))) = ((2 ^ 24 - 2 : ℤ) : ℝ) * 2 ^ (-24 : ℤ) := by
      refine hw.eq_of_near (by norm_num) (by norm_num) (by norm_num) ?_
      norm_num [abs_lt]
    rw [h3]; norm_num
  · intro hx
    have h1 := (C99_ends hw (by norm_num) (by norm_num : 24 + 2 ≤ 32) x).2.1 (by simpa using hx)
    have h2 := (hw.repr (rndw (rndw (x.toInt : ℝ) * (1 / 2 ^ (32 - 1))) + 1 / 2 * (1 / 2 ^ (32 - 1)))).below (by norm_num) (E := 0) (by rw [zpow_zero]; exact h1)
    refine le_trans h2 ?_
    norm_num

/-- The hypotheses are met in single precision by the weights 41, 0, 0 (the last element is then below 1) and by 1, 2, -1/10, and in double precision by 49, 0, 0; the generator is the
default one. -/
example : IsRng 32 4 2 defaultBlock ∧ Nearest 24 (fl 24) ∧ Nearest 53 (fl 53) ∧ 24 + 2 < 32 ∧
    (∃ v : Int → ℝ, (∀ i, 0 < i → v i = 0) ∧ v 0 = 41 ∧ (1 / 1000 : ℝ) ≤ flSum (fl 24) v 3 ∧ fl 24 (fl 24 (1 / flSum (fl 24) v 3) * flSum (fl 24) v 3) ≠ 1) ∧
    (∃ v : Int → ℝ, (∀ i, 0 < i → v i = 0) ∧ v 0 = 49 ∧ (1 / 1000 : ℝ) ≤ flSum (fl 53) v 3 ∧ fl 53 (fl 53 (1 / flSum (fl 53) v 3) * flSum (fl 53) v 3) ≠ 1) ∧
    (∃ v : Int → ℝ, v 0 = 1 ∧ v 1 = 2 ∧ v 2 = -1 / 10 ∧ (1 / 1000 : ℝ) ≤ flSum (fl 24) v 3) := by
  refine ⟨.philox4x32 10, fl_nearest 24 (by decide), fl_nearest 53 (by decide), by decide, ?_, ?_, ?_⟩
  · have h := fl_nearest 24 (by decide)
    have e := flSum_first (v := fun i => if i = 0 then 41 else 0) h (c := 41) (by norm_num) (by exact_mod_cast repr_int 41 (by norm_num)) (by simp)
      (fun i hi => by rw [if_neg (by omega)]) 2
    refine ⟨fun i => if i = 0 then 41 else 0, fun i hi => if_neg (by omega), by simp, by rw [e]; norm_num, ?_⟩
    rw [e, last_41 h]; norm_num
  · have h := fl_nearest 53 (by decide)
    have e := flSum_first (v := fun i => if i = 0 then 49 else 0) h (c := 49) (by norm_num) (by exact_mod_cast repr_int 49 (by norm_num)) (by simp)
      (fun i hi => by rw [if_neg (by omega)]) 2
    refine ⟨fun i => if i = 0 then 49 else 0, fun i hi => if_neg (by omega), by simp, by rw [e]; norm_num, ?_⟩
    rw [e, last_49 h]; norm_num
  · have h := fl_nearest 24 (by decide)
    refine ⟨fun i => if i = 0 then 1 else if i = 1 then 2 else -1 / 10, by simp, by simp, by simp, ?_⟩
    refine le_trans ?_ (flSum_mono h _ (show 1 ≤ 3 by decide))
    simp [flSum, h.fix (repr_one 24)]; norm_num

end RB
