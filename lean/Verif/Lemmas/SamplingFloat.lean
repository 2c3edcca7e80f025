import Verif.Model.SamplingFloat
import Verif.Lemmas.Sampling
import Verif.Lemmas.Nearest
import Mathlib.Algebra.Order.Round
import Mathlib.Algebra.Order.Floor.Ring
import Mathlib.Data.Real.Archimedean

/-! # Lemmas about index sampling in floating-point arithmetic -/

namespace RB
open Spec
variable {N : Nat} {K W : Type} {p : Nat} {rnd : ℝ → ℝ}

/-- The rounded partial sums of the positive parts. -/
noncomputable def flSum (rnd : ℝ → ℝ) (v : Int → ℝ) : Nat → ℝ
  | 0 => 0
  | t + 1 => rnd (flSum rnd v t + max (v t) 0)

/-- The outcome of `weights_to_cdf` with rounding, errors included. -/
theorem weightsToCdfFl_spec {n : Int} {thresh below : ℝ} {b : Buf ℝ} {v : Int → ℝ} (hn : 0 ≤ n) (hv : ∀ i, 0 ≤ i → i < n → b i = .val (v i)) :
    M.wpx (weightsToCdfFl rnd n thresh below) b
      (fun _ b' => (∀ i, 0 ≤ i → i < n → below ≤ v i) ∧ thresh ≤ flSum rnd v n.toNat ∧
        (∀ i, 0 ≤ i → i < n → b' i = .val (rnd (rnd (1 / flSum rnd v n.toNat) * flSum rnd v (i.toNat + 1)))) ∧
        (∀ p, ¬ (0 ≤ p ∧ p < n) → b' p = b p))
      (fun e b' => e = .require ∧ ((∃ i, 0 ≤ i ∧ i < n ∧ v i < below) ∨ flSum rnd v n.toNat < thresh) ∧
        (∀ p, ¬ (0 ≤ p ∧ p < n) → b' p = b p)) := by
  unfold weightsToCdfFl
  rw [M.wpx_bind]
  refine M.wpx_foldI (fun t sum b' => sum = flSum rnd v t.toNat ∧ (∀ i, 0 ≤ i → i < t → below ≤ v i) ∧
      (∀ i, 0 ≤ i → i < t → b' i = .val (flSum rnd v (i.toNat + 1))) ∧ (∀ p, ¬ (0 ≤ p ∧ p < t) → b' p = b p)) hn ?_ ?_ ?_
  · exact ⟨by simp [flSum], fun i h0 h1 => absurd h1 (by omega), fun i h0 h1 => absurd h1 (by omega), fun p _ => rfl⟩
  · rintro t sum b' ht0 ht1 ⟨rfl, hbel, hw, ho⟩
    have hbt : b' t = .val (v t) := by rw [ho t (by omega)]; exact hv t ht0 ht1
    have hsum : rnd (flSum rnd v t.toNat + max (v t) 0) = flSum rnd v (t.toNat + 1) := by
      rw [flSum, Int.toNat_of_nonneg ht0]
    simp only [M.wpx_bind, M.wpx_rd, M.wpx_require, M.wpx_wr, M.wpx_pure]
    refine ⟨v t, hbt, ?_, ?_⟩
    · intro hge
      refine ⟨by rw [hbt]; simp, ?_, ?_, ?_, ?_⟩
      · rw [hsum]; congr 1; omega
      · intro i h0 h1
        by_cases hit : i = t
        · subst hit; exact hge
        · exact hbel i h0 (by omega)
      · intro i h0 h1
        rw [Buf.set_apply]
        by_cases hit : i = t
        · subst hit; rw [if_pos rfl, hsum]
        · rw [if_neg hit]; exact hw i h0 (by omega)
      · intro p hp
        rw [Buf.set_apply, if_neg (by omega)]; exact ho p (by omega)
    · intro hlt
      exact ⟨trivial, Or.inl ⟨t, ht0, ht1, not_le.mp hlt⟩, fun p hp => ho p (by omega)⟩
  · rintro sum b' ⟨rfl, hbel, hw, ho⟩
    rw [M.wpx_bind, M.wpx_require]
    constructor
    · intro hge
      apply M.wpx_of_wp
      unfold blasCheck
      rw [if_pos hn]
      simp only [pure_bind]
      refine M.wp_forI (fun t b'' => (∀ i, 0 ≤ i → i < t → b'' i = .val (rnd (rnd (1 / flSum rnd v n.toNat) * flSum rnd v (i.toNat + 1)))) ∧
        (∀ i, t ≤ i → i < n → b'' i = .val (flSum rnd v (i.toNat + 1))) ∧ (∀ p, ¬ (0 ≤ p ∧ p < n) → b'' p = b p)) hn
        ⟨fun i h0 h1 => absurd h1 (by omega), fun i h0 h1 => hw i h0 h1, ho⟩ ?_ ?_
      · rintro t b'' t0 t1 ⟨h1, h2, h3⟩
        have hbt := h2 t le_rfl t1
        simp only [M.wp_bind, M.wp_rd, M.wp_wr]
        refine ⟨_, hbt, by rw [hbt]; simp, ?_, ?_, ?_⟩
        · intro i i0 i1
          rw [Buf.set_apply]
          by_cases hit : i = t
          · subst hit; rw [if_pos rfl]
          · rw [if_neg hit]; exact h1 i i0 (by omega)
        · intro i i0 i1
          rw [Buf.set_apply, if_neg (by omega)]; exact h2 i (by omega) i1
        · intro p hp
          rw [Buf.set_apply, if_neg (by omega)]; exact h3 p hp
      · rintro b'' ⟨h1, -, h3⟩
        exact ⟨hbel, hge, h1, h3⟩
    · intro hlt
      exact ⟨rfl, Or.inr (not_le.mp hlt), ho⟩

/-- The sample computed for the rounded uniform value: the partition point of the cdf. -/
theorem sampleIndicesIidFl_spec {G : Gen N K W ℝ} {n k : Int} {cdf : Buf ℝ} {f : Int → ℝ}
    {state : RNGState N K} {b : Buf Int} (hG : G.Ok) (hn : 0 ≤ n) (hk : 0 ≤ k)
    (hcdf : ∀ i, 0 ≤ i → i < n → cdf i = .val (f i)) (hmono : ∀ i j, 0 ≤ i → i ≤ j → j < n → f i ≤ f j)
    (hb : ∀ p, 0 ≤ p → p < k → b p ≠ .none) :
    M.wp (sampleIndicesIidFl rnd G n cdf k state) b (fun st b' =>
      st = advance state (countersPerVector G.len k) ∧
      (∀ i, 0 ≤ i → i < k → ∃ j, b' i = .val j ∧ 0 ≤ j ∧ j ≤ n ∧ (∀ l, 0 ≤ l → l < j → f l < uneg11ToU01Fl rnd (stream G state i)) ∧
        (∀ l, j ≤ l → l < n → uneg11ToU01Fl rnd (stream G state i) ≤ f l)) ∧
      (∀ p, ¬ (0 ≤ p ∧ p < k) → b' p = b p)) := by
  have hlen : 0 < G.len := by rcases hG with h | h <;> rw [h] <;> decide
  unfold sampleIndicesIidFl Gen.uneg11Generate
  simp only [M.wp_bind, M.wp_lift, Res.ok.injEq]
  refine ⟨_, rfl, ?_⟩
  refine M.wp_foldI (fun t st b' => StreamAt G state t st ∧
      (∀ i, 0 ≤ i → i < t → ∃ j, b' i = .val j ∧ 0 ≤ j ∧ j ≤ n ∧ (∀ l, 0 ≤ l → l < j → f l < uneg11ToU01Fl rnd (stream G state i)) ∧
        (∀ l, j ≤ l → l < n → uneg11ToU01Fl rnd (stream G state i) ≤ f l)) ∧
      (∀ p, ¬ (0 ≤ p ∧ p < t) → b' p = b p)) hk ?_ ?_ ?_
  · exact ⟨StreamAt.init G state, fun i h0 h1 => absurd h1 (by omega), fun p _ => rfl⟩
  · rintro t st b' ht0 ht1 ⟨hst, hw, ho⟩
    simp only [M.wp_bind, M.wp_lift, M.wp_wr]
    have hm := Int.emod_lt_of_pos t hlen
    have hr := hst.read hlen (le_refl 0) (by omega)
    rw [add_zero, add_zero] at hr
    obtain ⟨j, hj, hj0, hj1, hj2, hj3⟩ := lowerBound_spec (v := uneg11ToU01Fl rnd (stream G state t)) hcdf hmono n.toNat 0 n (le_refl 0) hn
      (by omega) (by omega) (fun i h0 h1 => absurd h1 (by omega)) (fun i h0 h1 => absurd h1 (by omega))
    obtain ⟨st', hst1, hst2⟩ := hst.next hlen (s := 1) (by omega) (by omega)
    refine ⟨_, hr, j, hj, ?_, st', hst1, hst2, ?_, ?_⟩
    · rw [ho t (by omega)]; exact hb t ht0 ht1
    · intro i h0 h1
      rw [Buf.set_apply]
      by_cases hit : i = t
      · subst hit; rw [if_pos rfl]; exact ⟨j, rfl, hj0, hj1, hj2, hj3⟩
      · rw [if_neg hit]; exact hw i h0 (by omega)
    · intro p hp
      rw [Buf.set_apply, if_neg (by omega)]
      exact ho p (by omega)
  · rintro ⟨c, rv, idx⟩ b' ⟨hst, hw, ho⟩
    rw [M.wp_pure]
    refine ⟨?_, hw, ho⟩
    unfold advance
    have := hst.finish hlen
    simp only at this
    rw [this]

/-- Half the spacing below `2^E` bounds the error. -/
theorem Spec.Nearest.error_half (h : Nearest p rnd) {E : ℤ} {x : ℝ} (hx : |x| ≤ 2 ^ E) : |rnd x - x| ≤ 2 ^ (E - p - 1) := by
  have hpos : (0 : ℝ) < 2 ^ (E - p) := by positivity
  have hE : (2 : ℝ) ^ E = 2 ^ p * 2 ^ (E - p) := by rw [← zpow_natCast, ← zpow_add₀ (by norm_num)]; congr 1; ring
  have hy : |x / 2 ^ (E - p)| ≤ 2 ^ p := by
    rw [abs_div, abs_of_pos hpos, div_le_iff₀ hpos, ← hE]; exact hx
  have hm : |round (x / 2 ^ (E - p))| ≤ 2 ^ p := by
    rw [abs_le] at hy ⊢
    constructor
    · rw [round_eq, Int.le_floor]; push_cast; linarith [hy.1]
    · have : round (x / 2 ^ (E - p)) < 2 ^ p + 1 := by
        rw [round_eq, Int.floor_lt]; push_cast; linarith [hy.2]
      omega
  have h1 := h.near x _ ⟨_, E - p, hm, rfl⟩
  refine h1.trans ?_
  have h2 := abs_sub_round (x / 2 ^ (E - p))
  have h3 : (round (x / 2 ^ (E - p)) : ℝ) * 2 ^ (E - p) - x = -((x / 2 ^ (E - p) - round (x / 2 ^ (E - p))) * 2 ^ (E - p)) := by
    rw [sub_mul, div_mul_cancel₀ _ hpos.ne']; ring
  rw [h3, abs_neg, abs_mul, abs_of_pos hpos]
  have h4 : (2 : ℝ) ^ (E - p - 1) = 1 / 2 * 2 ^ (E - p) := by rw [sub_eq_add_neg (E - (p : ℤ)) 1, zpow_add₀ (by norm_num)]; norm_num; ring
  rw [h4]
  exact mul_le_mul_of_nonneg_right h2 hpos.le

/-- Representable numbers of magnitude at least `2^(g+p-1)` are multiples of `2^g`. -/
theorem Spec.Repr.grid {y : ℝ} (hy : Repr p y) (hp : 1 ≤ p) {g : ℤ} (h : 2 ^ (g + p - 1) ≤ y) : ∃ m : ℤ, y = m * 2 ^ g := by
  obtain ⟨k, e, hk, rfl⟩ := hy
  by_cases he : g ≤ e
  · obtain ⟨d, hd⟩ : ∃ d : ℕ, e = g + d := ⟨(e - g).toNat, by omega⟩
    exact ⟨k * 2 ^ d, by rw [hd, zpow_add₀ (by norm_num), zpow_natCast]; push_cast; ring⟩
  · have h1 : (k : ℝ) * 2 ^ e ≤ 2 ^ p * 2 ^ (g - 1) := by
      have ha : (k : ℝ) ≤ 2 ^ p := by exact_mod_cast (le_abs_self k).trans hk
      have hb : (2 : ℝ) ^ e ≤ 2 ^ (g - 1) := zpow_le_zpow_right₀ (by norm_num) (by omega)
      exact mul_le_mul ha hb (by positivity) (by positivity)
    have h2 : (2 : ℝ) ^ p * 2 ^ (g - 1) = 2 ^ (g + p - 1) := by
      rw [← zpow_natCast, ← zpow_add₀ (by norm_num)]; congr 1; ring
    refine ⟨2 ^ (p - 1), ?_⟩
    rw [le_antisymm (h1.trans h2.le) h]
    obtain ⟨r, rfl⟩ : ∃ r : ℕ, p = r + 1 := ⟨p - 1, by omega⟩
    push_cast
    rw [← zpow_natCast, ← zpow_add₀ (by norm_num)]; congr 1; push_cast; omega

/-- A representable number closer than half the spacing is the rounded value. -/
theorem Spec.Nearest.eq_of_near (h : Nearest p rnd) (hp : 1 ≤ p) {g m : ℤ} {x : ℝ} (hm : |m| ≤ 2 ^ p) (hx : 2 ^ (g + p - 1) ≤ x)
    (hd : |m * 2 ^ g - x| < 1 / 2 * 2 ^ g) : rnd x = m * 2 ^ g := by
  have hpos : (0 : ℝ) < 2 ^ g := by positivity
  obtain ⟨m', hm'⟩ := (h.repr x).grid hp (h.ge_of_ge (repr_pow p _) hx)
  have h1 := h.near x _ ⟨m, g, hm, rfl⟩
  rw [hm'] at h1 ⊢
  have h2 : |((m' : ℝ) - m) * 2 ^ g| < 1 * 2 ^ g := by
    rw [sub_mul]
    have h3 := abs_sub_le ((m' : ℝ) * 2 ^ g) x (m * 2 ^ g)
    rw [abs_sub_comm x] at h3
    linarith
  rw [abs_mul, abs_of_pos hpos] at h2
  have h3 := lt_of_mul_lt_mul_right h2 hpos.le
  have h4 : |m' - m| < 1 := by exact_mod_cast h3
  have h5 : m' = m := by have := Int.abs_lt_one_iff.mp h4; omega
  rw [h5]

/-- The reciprocal times the number, both rounded, is 1 or the number before 1. -/
theorem recip_mul (h : Nearest p rnd) (hp : 1 ≤ p) {S : ℝ} (hS : 0 < S) : rnd (rnd (1 / S) * S) = 1 ∨ rnd (rnd (1 / S) * S) = 1 - 2 ^ (-(p : ℤ)) := by
  obtain ⟨E, hE1, hE2⟩ := exists_mem_Ico_zpow hS (by norm_num : (1 : ℝ) < 2)
  have hE : |1 / S| ≤ 2 ^ (-E) := by
    rw [abs_of_pos (by positivity), zpow_neg, ← one_div]
    exact one_div_le_one_div_of_le (by positivity) hE1
  have h1 := h.error_half hE
  have h2 : |rnd (1 / S) * S - 1| < 2 ^ (-(p : ℤ)) := by
    have e : rnd (1 / S) * S - 1 = (rnd (1 / S) - 1 / S) * S := by field_simp
    rw [e, abs_mul, abs_of_pos hS]
    have e2 : (2 : ℝ) ^ (-(p : ℤ)) = 2 ^ (-E - p - 1) * 2 ^ (E + 1) := by rw [← zpow_add₀ (by norm_num)]; congr 1; ring
    rw [e2]
    exact lt_of_le_of_lt (mul_le_mul_of_nonneg_right h1 hS.le) (mul_lt_mul_of_pos_left hE2 (by positivity))
  generalize rnd (1 / S) * S = z at h2
  have hone : Repr p 1 := by simpa using repr_pow p 0
  have hpos : (0 : ℝ) < 2 ^ (-(p : ℤ)) := by positivity
  have hbelow : Repr p (1 - 2 ^ (-(p : ℤ))) := by
    refine ⟨2 ^ p - 1, -p, ?_, ?_⟩
    · have : (1 : ℤ) ≤ 2 ^ p := one_le_pow₀ (by norm_num)
      rw [abs_of_nonneg (by omega)]; omega
    · push_cast
      rw [sub_mul, ← zpow_natCast, ← zpow_add₀ (by norm_num)]; simp
  rw [abs_lt] at h2
  have hle : rnd z ≤ 1 := by
    by_contra hc
    push Not at hc
    have h3 := (h.repr z).above hp (E := 0) (by simpa using hc)
    have e : (2 : ℝ) ^ (0 + 1 - (p : ℤ)) = 2 * 2 ^ (-(p : ℤ)) := by rw [sub_eq_add_neg, zpow_add₀ (by norm_num)]; norm_num
    rw [e, zpow_zero] at h3
    have h4 := h.near z 1 hone
    rcases le_total z 1 with hz | hz
    · exact absurd (h.le_of_le hone hz) (by linarith)
    · rw [abs_of_nonpos (show 1 - z ≤ 0 by linarith), abs_le] at h4
      linarith [h4.2]
  have hge : 1 - 2 ^ (-(p : ℤ)) ≤ rnd z := h.ge_of_ge hbelow (by linarith)
  rcases hle.eq_or_lt with he | hlt
  · exact Or.inl he
  · refine Or.inr (le_antisymm ?_ hge)
    have := (h.repr z).below hp (E := 0) (by simpa using hlt)
    simpa using this

theorem flSum_nonneg (h : Nearest p rnd) (v : Int → ℝ) (t : Nat) : 0 ≤ flSum rnd v t := by
  induction t with
  | zero => exact le_rfl
  | succ t ih => exact h.ge_of_ge (repr_zero p) (add_nonneg ih (le_max_right _ _))

theorem flSum_repr (h : Nearest p rnd) (v : Int → ℝ) (t : Nat) : Repr p (flSum rnd v t) := by
  cases t with
  | zero => exact repr_zero p
  | succ t => exact h.repr _

theorem flSum_mono (h : Nearest p rnd) (v : Int → ℝ) {i j : Nat} (hij : i ≤ j) : flSum rnd v i ≤ flSum rnd v j := by
  induction hij with
  | refl => exact le_rfl
  | step _ ih =>
    refine ih.trans ?_
    exact h.ge_of_ge (flSum_repr h v _) (le_add_of_nonneg_right (le_max_right _ _))

end RB
