import Verif.Props.DistortionDense
import Verif.Lemmas.SubGauss

/-!
# Exponential moments of the entries of dense operators

For words with the exponential moments of C94.
-/

namespace RB
open Spec Finset
variable {N : Nat} {K W : Type}

/-- Products of nonnegative functions of disjoint sets of coordinates. -/
theorem sum_prod_indep_le {ι W B : Type} [Fintype ι] [DecidableEq ι] [Fintype W] [Nonempty W] [DecidableEq B] (s : Finset B) (A : B → ι → Prop) (f : B → (ι → W) → ℝ) (c : B → ℝ)
    (hdis : ∀ b b' a, b ≠ b' → A b a → ¬ A b' a) (hf : ∀ b ω ω', (∀ a, A b a → ω a = ω' a) → f b ω = f b ω') (h0 : ∀ b ω, 0 ≤ f b ω)
    (hc : ∀ b ∈ s, ∑ ω, f b ω ≤ Fintype.card (ι → W) * c b) : ∑ ω, ∏ b ∈ s, f b ω ≤ Fintype.card (ι → W) * ∏ b ∈ s, c b := by
  classical
  have hΩ : (0 : ℝ) < Fintype.card (ι → W) := by exact_mod_cast Fintype.card_pos
  induction s using Finset.induction_on with
  | empty => simp
  | insert b s hb ih =>
    simp only [prod_insert hb]
    have ih' := ih fun b' hb' => hc b' (mem_insert_of_mem hb')
    have key := sum_indep (A b) (f b) (fun ω => ∏ b' ∈ s, f b' ω) (hf b) (fun ω ω' h => prod_congr rfl fun b' hb' =>
      hf b' ω ω' fun a ha => h a fun hba => hdis b b' a (fun hh => hb (hh ▸ hb')) hba ha)
    have h1 : (∑ ω, f b ω) * ∑ ω, ∏ b' ∈ s, f b' ω ≤ (Fintype.card (ι → W) * c b) * (Fintype.card (ι → W) * ∏ b' ∈ s, c b') := by
      have hn : 0 ≤ ∑ ω, f b ω := sum_nonneg fun ω _ => h0 b ω
      refine mul_le_mul (hc b (mem_insert_self _ _)) ih' (sum_nonneg fun ω _ => prod_nonneg fun b' _ => h0 b' ω) (hn.trans (hc b (mem_insert_self _ _)))
    rw [← key] at h1
    refine le_of_mul_le_mul_left (h1.trans (le_of_eq ?_)) hΩ
    ring

/-- The exponential moments of the entries are at most those of independent standard normal variables, the words being uniform: for one entry of the uniform family, and
for the two entries that the Gaussian family computes from a pair of words. -/
def Spec.SubGaussianWords [Fintype W] (G : Gen N K W ℝ) (family : ScalarDist) : Prop :=
  match family with
  | .Uniform => ∀ s : ℝ, (∑ x, Real.exp (s * (Real.sqrt 3 * G.uneg11 x))) / Fintype.card W ≤ Real.exp (s ^ 2 / 2)
  | .Gaussian => ∀ s1 s2 : ℝ, (∑ x, ∑ y, Real.exp (s1 * (G.boxmuller x y).1 + s2 * (G.boxmuller x y).2)) / (Fintype.card W) ^ 2 ≤ Real.exp ((s1 ^ 2 + s2 ^ 2) / 2)

/-- Entries with different keys are computed from different words. -/
def wordKey (family : ScalarDist) (q p : Int) : Int × Int :=
  match family with
  | .Uniform => (q, p)
  | .Gaussian => (q, p / 2)

theorem sq_sum_card_le_one {ι : Type} {s : Finset ι} (h : s.card ≤ 1) (f : ι → ℝ) : (∑ i ∈ s, f i) ^ 2 = ∑ i ∈ s, f i ^ 2 := by
  rcases Nat.le_one_iff_eq_zero_or_eq_one.mp h with h | h
  · rw [card_eq_zero.mp h]; simp
  · obtain ⟨a, rfl⟩ := card_eq_one.mp h
    simp

section
variable [NeZero N] [Fintype W] [Nonempty W] {L : Nat} [NeZero L] {G : Gen N K W ℝ} {family : ScalarDist} {seed : RNGState N K} {M r : Int}

omit [NeZero N] [NeZero L] in
theorem entryPos_key (hL : L = 2 ∨ L = 4) (hN : r * countersPerVector L M ≤ N) {q p q' p' : Int} (hq : 0 ≤ q ∧ q < r) (hp : 0 ≤ p ∧ p < M) (hq' : 0 ≤ q' ∧ q' < r)
    (hp' : 0 ≤ p' ∧ p' < M) {a : ZMod N × ZMod L} (ha : entryPos seed family (countersPerVector L M) q p a)
    (hb : entryPos seed family (countersPerVector L M) q' p' a) : wordKey family q' p' = wordKey family q p := by
  have hL0 : (0 : Int) < L := by omega
  have hpe : ∀ z : Int, 0 ≤ z % (L : Int) ∧ z % (L : Int) < L := fun z => ⟨Int.emod_nonneg _ (by omega), Int.emod_lt_of_pos _ hL0⟩
  have ep := Int.mul_ediv_add_emod p L
  have ep' := Int.mul_ediv_add_emod p' L
  obtain ⟨d1, d2⟩ := dense_block (seed := seed) hL0 hN hq hp hq' hp' (hb.1.symm.trans ha.1)
  have a2 := ha.2
  have b2 := hb.2
  have h1 := hpe p
  have h2 := hpe p'
  cases family with
  | Uniform =>
    have := intCast_inj_lt h2.1 h2.2 h1.1 h1.2 (b2.symm.trans a2)
    rw [d2, this] at ep'
    simp only [wordKey]
    rw [d1, show p' = p by omega]
  | Gaussian =>
    simp only at a2 b2
    have h3 : (p' % L) / 2 = (p % L) / 2 := by
      rcases a2 with a2 | a2 <;> rcases b2 with b2 | b2 <;>
        (have := intCast_inj_lt (by omega) (by rcases hL with rfl | rfl <;> omega) (by omega) (by rcases hL with rfl | rfl <;> omega) (b2.symm.trans a2); omega)
    simp only [wordKey]
    rw [d1, show p' / 2 = p / 2 by rcases hL with rfl | rfl <;> omega]

omit [Nonempty W] in
/-- Exponential moments of the entries that are computed from the same words. -/
theorem block_mgf (hL : L = 2 ∨ L = 4) (hG : G.len = L) (hsub : SubGaussianWords G family) {ι : Type} [DecidableEq ι] (T : Finset ι) (vec off : ι → Int)
    (hin : ∀ e ∈ T, 0 ≤ off e)
    (hinj : ∀ e ∈ T, ∀ e' ∈ T, vec e' = vec e → off e' = off e → e' = e) (s : ι → ℝ) (b : Int × Int) (hb : ∀ e ∈ T, wordKey family (vec e) (off e) = b) :
    ∑ ω : ZMod N × ZMod L → W, Real.exp (∑ e ∈ T, s e * rawE G family M seed ω (vec e) (off e)) ≤
      Fintype.card (ZMod N × ZMod L → W) * Real.exp ((∑ e ∈ T, s e ^ 2) / 2) := by
  rcases isEmpty_or_nonempty W with hW0 | hW0
  · have : IsEmpty (ZMod N × ZMod L → W) := ⟨fun ω => hW0.elim (ω (0, 0))⟩
    simp
  have hW : (0 : ℝ) < Fintype.card W := by exact_mod_cast Fintype.card_pos
  have hcard : (Fintype.card (ZMod N × ZMod L → W) : ℝ) = (Fintype.card W : ℝ) ^ Fintype.card (ZMod N × ZMod L) := by
    rw [Fintype.card_fun]; push_cast; rfl
  rw [hcard]
  cases family with
  | Uniform =>
    have hone : T.card ≤ 1 := by
      rw [card_le_one]
      intro e he e' he'
      have h1 := hb e he
      have h2 := hb e' he'
      simp only [wordKey] at h1 h2
      obtain ⟨h3, h4⟩ := Prod.mk.inj (h1.trans h2.symm)
      exact hinj e' he' e he h3 h4
    have key := sum_at (W := W) (seed.counter + ((b.1 * countersPerVector G.len M + b.2 / G.len : Int) : ZMod N), ((b.2 % G.len : Int) : ZMod L)) fun w =>
      Real.exp ((∑ e ∈ T, s e) * (Real.sqrt 3 * G.uneg11 w))
    have hs := hsub (∑ e ∈ T, s e)
    rw [div_le_iff₀ hW, sq_sum_card_le_one hone] at hs
    refine le_of_mul_le_mul_left (le_trans (le_of_eq ?_) ((key.le.trans (mul_le_mul_of_nonneg_left hs (by positivity))).trans (le_of_eq ?_))) hW
    · congr 1
      refine sum_congr rfl fun ω _ => ?_
      congr 1
      rw [sum_mul]
      refine sum_congr rfl fun e he => ?_
      have h1 := hb e he
      simp only [wordKey] at h1
      unfold rawE denseRaw genValue fromWords
      simp only [famScale, ← h1]
    · ring
  | Gaussian =>
    have hone : ∀ z : Int, (T.filter fun e => off e % 2 = z).card ≤ 1 := by
      intro z
      rw [card_le_one]
      intro e he e' he'
      rw [mem_filter] at he he'
      have h1 := hb e he.1
      have h2 := hb e' he'.1
      simp only [wordKey] at h1 h2
      obtain ⟨h3, h4⟩ := Prod.mk.inj (h1.trans h2.symm)
      exact hinj e' he'.1 e he.1 h3 (by omega)
    have hodd : (T.filter fun e => ¬ off e % 2 = 0) = T.filter fun e => off e % 2 = 1 := filter_congr fun e _ => by omega
    have hsplit : ∀ f : ι → ℝ, ∑ e ∈ T, f e = ∑ e ∈ T.filter (fun e => off e % 2 = 0), f e + ∑ e ∈ T.filter (fun e => off e % 2 = 1), f e := by
      intro f
      rw [← hodd, sum_filter_add_sum_filter_not]
    have hne : ((seed.counter + ((b.1 * countersPerVector G.len M + 2 * b.2 / G.len : Int) : ZMod N), ((2 * ((2 * b.2 % G.len) / 2) : Int) : ZMod L)) : ZMod N × ZMod L) ≠
        (seed.counter + ((b.1 * countersPerVector G.len M + 2 * b.2 / G.len : Int) : ZMod N), ((2 * ((2 * b.2 % G.len) / 2) + 1 : Int) : ZMod L)) := by
      rw [hG]
      exact fun h => second_word_ne (seed := seed) (N := N) hL (c := countersPerVector L M) (q := b.1) (p := 2 * b.2) h.symm
    have key := sum_at2 hne fun w w' => Real.exp ((∑ e ∈ T.filter (fun e => off e % 2 = 0), s e) * (G.boxmuller w w').1 + (∑ e ∈ T.filter (fun e => off e % 2 = 1), s e) * (G.boxmuller w w').2)
    have hs := hsub (∑ e ∈ T.filter (fun e => off e % 2 = 0), s e) (∑ e ∈ T.filter (fun e => off e % 2 = 1), s e)
    rw [div_le_iff₀ (by positivity), sq_sum_card_le_one (hone 0), sq_sum_card_le_one (hone 1), ← hsplit] at hs
    refine le_of_mul_le_mul_left (le_trans (le_of_eq ?_) ((key.le.trans (mul_le_mul_of_nonneg_left hs (by positivity))).trans (le_of_eq ?_)))
      (show (0 : ℝ) < (Fintype.card W : ℝ) ^ 2 by positivity)
    · congr 1
      refine sum_congr rfl fun ω _ => ?_
      congr 1
      rw [hsplit, sum_mul, sum_mul]
      congr 1 <;> refine sum_congr rfl fun e he => ?_ <;> rw [mem_filter] at he <;> obtain ⟨he, hpar⟩ := he <;>
        (have h1 := hb e he
         simp only [wordKey] at h1
         have hq : b.1 = vec e := by rw [← h1]
         have hp : b.2 = off e / 2 := by rw [← h1]
         have e1 : 2 * b.2 / (L : Int) = off e / L := by rw [hp]; rcases hL with rfl | rfl <;> omega
         have e2 : (2 * b.2 % (L : Int)) / 2 = (off e % L) / 2 := by rw [hp]; rcases hL with rfl | rfl <;> omega
         have e3 : (off e % (L : Int)) % 2 = off e % 2 := by rcases hL with rfl | rfl <;> omega
         unfold rawE denseRaw genValue fromWords
         simp only [famScale, hG, e1, e2, e3, hq, hpar, if_true, if_false, one_ne_zero])
    · ring

/-- Exponential moments of linear combinations of different entries. -/
theorem dense_mgf (hL : L = 2 ∨ L = 4) (hG : G.len = L) (hsub : SubGaussianWords G family) (hN : r * countersPerVector L M ≤ N) {ι : Type} [DecidableEq ι] (T : Finset ι)
    (vec off : ι → Int) (hin : ∀ e ∈ T, (0 ≤ vec e ∧ vec e < r) ∧ (0 ≤ off e ∧ off e < M))
    (hinj : ∀ e ∈ T, ∀ e' ∈ T, vec e' = vec e → off e' = off e → e' = e) (s : ι → ℝ) :
    ∑ ω : ZMod N × ZMod L → W, Real.exp (∑ e ∈ T, s e * rawE G family M seed ω (vec e) (off e)) ≤
      Fintype.card (ZMod N × ZMod L → W) * Real.exp ((∑ e ∈ T, s e ^ 2) / 2) := by
  classical
  let key : ι → Int × Int := fun e => wordKey family (vec e) (off e)
  have hfib : ∀ f : ι → ℝ, ∑ e ∈ T, f e = ∑ b ∈ T.image key, ∑ e ∈ T.filter (fun e => key e = b), f e := fun f =>
    (sum_fiberwise_of_maps_to (fun e he => mem_image_of_mem key he) f).symm
  have h := sum_prod_indep_le (W := W) (T.image key) (fun b (a : ZMod N × ZMod L) => ∃ e ∈ T, key e = b ∧ entryPos seed family (countersPerVector L M) (vec e) (off e) a)
    (fun b ω => Real.exp (∑ e ∈ T.filter (fun e => key e = b), s e * rawE G family M seed ω (vec e) (off e)))
    (fun b => Real.exp ((∑ e ∈ T.filter (fun e => key e = b), s e ^ 2) / 2))
    (by
      rintro b b' a hne ⟨e, he, rfl, ha⟩ ⟨e', he', rfl, ha'⟩
      exact hne (entryPos_key hL hN (hin e' he').1 (hin e' he').2 (hin e he).1 (hin e he).2 ha' ha))
    (by
      intro b ω ω' h
      congr 1
      refine sum_congr rfl fun e he => ?_
      rw [mem_filter] at he
      rw [rawE_congr hG fun a ha => h a ⟨e, he.1, he.2, ha⟩])
    (fun b ω => (Real.exp_pos _).le)
    (fun b _ => block_mgf hL hG hsub _ vec off (fun e he => (hin e (mem_filter.mp he).1).2.1)
      (fun e he e' he' => hinj e (mem_filter.mp he).1 e' (mem_filter.mp he').1) s b (fun e he => (mem_filter.mp he).2))
  simp only [← Real.exp_sum, ← sum_div, ← hfib] at h
  exact h

end

theorem exp_neg_le {y : ℝ} (hy : 0 ≤ y) : Real.exp (-y) ≤ 1 - y + y ^ 2 / 2 := by
  have h1 := Real.quadratic_le_exp_of_nonneg hy
  rw [Real.exp_neg]
  refine inv_le_of_inv_le₀ ?_ ?_
  · nlinarith [sq_nonneg (y - 1)]
  · refine le_trans ?_ h1
    rw [inv_le_iff_one_le_mul₀ (by nlinarith [sq_nonneg (y - 1)])]
    nlinarith [sq_nonneg (y ^ 2)]

theorem enum_finset (F : Finset Nat) : ∃ ρ : Nat → Nat, (∀ i < F.card, ρ i ∈ F) ∧ (∀ i < F.card, ∀ j < F.card, ρ i = ρ j → i = j) ∧
    ∀ f : Nat → ℝ, ∑ i ∈ F, f i = ∑ i ∈ range F.card, f (ρ i) := by
  induction F using Finset.induction_on with
  | empty => exact ⟨id, by simp, by simp, by simp⟩
  | insert a F ha ih =>
    obtain ⟨ρ, h1, h2, h3⟩ := ih
    rw [card_insert_of_notMem ha]
    refine ⟨fun i => if i = F.card then a else ρ i, fun i hi => ?_, fun i hi j hj h => ?_, fun f => ?_⟩
    · dsimp only
      split_ifs with hc
      · exact mem_insert_self _ _
      · exact mem_insert_of_mem (h1 i (by omega))
    · dsimp only at h
      split_ifs at h with hc hc' hc'
      · omega
      · exact absurd (h ▸ h1 j (by omega)) ha
      · exact absurd (h.symm ▸ h1 i (by omega)) ha
      · exact h2 i (by omega) j (by omega) h
    · rw [sum_insert ha, h3, sum_range_succ]
      beta_reduce
      rw [if_pos rfl, add_comm]
      congr 1
      exact sum_congr rfl fun i hi => by rw [if_neg (by have := mem_range.mp hi; omega)]

end RB
