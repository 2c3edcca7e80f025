import Verif.Props.FyBias
import Verif.Props.IsometryLong
import Mathlib.Data.Finset.Prod
import Mathlib.Algebra.Order.BigOperators.Group.Finset
import Mathlib.Algebra.BigOperators.Group.Finset.Sigma
import Mathlib.Logic.Equiv.Fin.Basic

/-!
# Second moments of squared norms

Counting lemmas for C80 and C81: restricting a choice of all words to the words that are used, the distribution of one sampled index, and the expansion of the
square of a sum over pairs with independent signs.
-/

namespace RB
open Spec Finset
variable {N : Nat} {K W R : Type}

/-- The average of a function of the words at the positions `e`. -/
theorem sum_restrict {ι κ W : Type} [Fintype ι] [DecidableEq ι] [Fintype κ] [DecidableEq κ] [Fintype W] (e : κ → ι) (he : Function.Injective e) (h : (κ → W) → ℝ) :
    (Fintype.card W : ℝ) ^ Fintype.card κ * ∑ ω : ι → W, h (fun t => ω (e t)) = (Fintype.card W : ℝ) ^ Fintype.card ι * ∑ x : κ → W, h x := by
  classical
  let E1 := Equiv.piEquivPiSubtypeProd (fun i => i ∈ Set.range e) (fun _ : ι => W)
  let E2 : (κ → W) ≃ ({i // i ∈ Set.range e} → W) := Equiv.arrowCongr (Equiv.ofInjective e he) (Equiv.refl W)
  let E : (κ → W) × ({i // ¬ i ∈ Set.range e} → W) ≃ (ι → W) := (Equiv.prodCongr E2 (Equiv.refl _)).trans E1.symm
  have hE : ∀ x y t, E (x, y) (e t) = x t := by
    intro x y t
    simp only [E, E1, E2, Equiv.trans_apply, Equiv.prodCongr_apply, Prod.map, Equiv.piEquivPiSubtypeProd_symm_apply, Equiv.arrowCongr_apply, Equiv.coe_refl,
      Function.comp, id]
    rw [dif_pos (Set.mem_range_self t)]
    congr 1
    exact Equiv.ofInjective_symm_apply he t
  rw [← Equiv.sum_comp E, Fintype.sum_prod_type]
  have h2 : ∀ (x : κ → W) (y : {i // ¬ i ∈ Set.range e} → W), h (fun t => E (x, y) (e t)) = h x := fun x y => by
    congr 1; funext t; exact hE x y t
  simp only [h2, sum_const, nsmul_eq_mul, ← mul_sum]
  have hc := Fintype.card_congr E
  rw [Fintype.card_prod, Fintype.card_fun (α := κ), Fintype.card_fun (α := ι)] at hc
  rw [← mul_assoc, card_univ]
  congr 1
  exact_mod_cast hc

/-- The sequences of `k` distinct indices below `n`. -/
noncomputable def distinctSeqs (k : Nat) (n : Int) : Finset (Fin k → Int) := by
  classical exact (Fintype.piFinset fun _ => Ico 0 n).filter Function.Injective

theorem mem_distinctSeqs {k : Nat} {n : Int} {s : Fin k → Int} : s ∈ distinctSeqs k n ↔ Function.Injective s ∧ ∀ j, 0 ≤ s j ∧ s j < n := by
  classical
  unfold distinctSeqs
  rw [mem_filter, Fintype.mem_piFinset, and_comm]
  simp only [mem_Ico]

theorem card_distinctSeqs {k : Nat} {n : Int} (hkn : (k : Int) ≤ n) : ((distinctSeqs k n).card : ℝ) = ∏ j : Fin k, ((n : ℝ) - (j : Nat)) := by
  classical
  have hb := fyMap_bijOn k n hkn
  have e : distinctSeqs k n = (Fintype.piFinset fun j : Fin k => range (n - (j : Nat)).toNat).image (fyMap k n) := by
    ext s
    rw [mem_distinctSeqs, mem_image]
    constructor
    · intro h
      obtain ⟨c, hc, rfl⟩ := hb.surjOn h
      refine ⟨c, ?_, rfl⟩
      rw [Fintype.mem_piFinset]
      intro j
      have : (c j : Int) < n - (j : Nat) := hc j
      rw [mem_range]; omega
    · rintro ⟨c, hc, rfl⟩
      rw [Fintype.mem_piFinset] at hc
      refine hb.mapsTo (fun j => ?_)
      have := hc j
      rw [mem_range] at this; omega
  rw [e, card_image_of_injOn, Fintype.card_piFinset]
  · push_cast
    refine prod_congr rfl fun j _ => ?_
    rw [card_range]
    have := j.2
    have h1 : ((n - (j : Nat)).toNat : Int) = n - (j : Nat) := by omega
    have h2 : (((n - (j : Nat)).toNat : Int) : ℝ) = ((n - (j : Nat) : Int) : ℝ) := by rw [h1]
    push_cast at h2
    exact h2
  · intro c hc c' hc' h
    rw [mem_coe, Fintype.mem_piFinset] at hc hc'
    refine hb.injOn (fun j => ?_) (fun j => ?_) h
    · have := hc j; rw [mem_range] at this; omega
    · have := hc' j; rw [mem_range] at this; omega

/-- All indices are equally frequent at position `j`. -/
theorem card_distinctSeqs_at {k : Nat} {n : Int} (j : Fin k) {l : Int} (h0 : 0 ≤ l) (hl : l < n) :
    (n : ℝ) * (((distinctSeqs k n).filter fun s => s j = l).card : ℝ) = (distinctSeqs k n).card := by
  classical
  have hsame : ∀ l' ∈ Ico 0 n, ((distinctSeqs k n).filter fun s => s j = l').card = ((distinctSeqs k n).filter fun s => s j = l).card := by
    intro l' hl'
    rw [mem_Ico] at hl'
    have hsw : ∀ a b : Int, (0 ≤ a ∧ a < n) → (0 ≤ b ∧ b < n) → ∀ s ∈ distinctSeqs k n, (fun t => Equiv.swap a b (s t)) ∈ distinctSeqs k n := by
      intro a b ha hb s hs
      rw [mem_distinctSeqs] at hs ⊢
      refine ⟨(Equiv.swap a b).injective.comp hs.1, fun t => ?_⟩
      have := hs.2 t
      rw [Equiv.swap_apply_def]
      split_ifs <;> omega
    refine card_bij (fun s _ t => Equiv.swap l' l (s t)) ?_ ?_ ?_
    · intro s hs
      rw [mem_filter] at hs ⊢
      refine ⟨hsw _ _ hl' ⟨h0, hl⟩ s hs.1, ?_⟩
      show Equiv.swap l' l (s j) = l
      rw [hs.2, Equiv.swap_apply_left]
    · intro s _ s' _ h
      funext t
      exact (Equiv.swap l' l).injective (congrFun h t)
    · intro s hs
      rw [mem_filter] at hs
      refine ⟨fun t => Equiv.swap l' l (s t), ?_, by funext t; simp⟩
      rw [mem_filter]
      exact ⟨hsw _ _ hl' ⟨h0, hl⟩ s hs.1, by show Equiv.swap l' l (s j) = l'; rw [hs.2, Equiv.swap_apply_right]⟩
  have hpart : (distinctSeqs k n).card = ∑ l' ∈ Ico 0 n, ((distinctSeqs k n).filter fun s => s j = l').card :=
    card_eq_sum_card_fiberwise fun s hs => by
      rw [mem_coe, mem_distinctSeqs] at hs
      rw [mem_coe, mem_Ico]; exact hs.2 j
  rw [hpart, sum_congr rfl hsame, sum_const, Int.card_Ico, smul_eq_mul, sub_zero]
  push_cast
  have h1 : ((n.toNat : Int) : ℝ) = (n : ℝ) := by rw [Int.toNat_of_nonneg (by omega)]
  rw [← h1]; push_cast; rfl

/-- One sampled index takes each value with probability at most `(1 + n/M)^k / n`. -/
theorem fy_hit {k Mw : Nat} {n : Int} [Fintype W] [DecidableEq W] (hkn : (k : Int) ≤ n) (hM : n ≤ Mw) (nat : W → Nat) (e : W ≃ Fin Mw)
    (he : ∀ w, nat w = e w) (j : Fin k) {l : Int} (h0 : 0 ≤ l) (hl : l < n) :
    ((univ.filter fun y : Fin k → W => fyMap k n (fyMod n fun t => nat (y t)) j = l).card : ℝ) * n ≤ (Mw : ℝ) ^ k * (1 + (n : ℝ) / Mw) ^ k := by
  classical
  let f : (Fin k → Nat) → (Fin k → Int) := fun x => fyMap k n (fyMod n x)
  have hn0 : (0 : ℝ) < n := by have : 0 < n := by omega
                               exact_mod_cast this
  have hMpos : 0 < Mw := by omega
  have hM0 : (0 : ℝ) < Mw := by exact_mod_cast hMpos
  have hk : 0 < k := j.pos
  -- words as numbers
  have c1 : (univ.filter fun y : Fin k → W => f (fun t => nat (y t)) j = l).card =
      ((Fintype.piFinset fun _ : Fin k => range Mw).filter fun x => f x j = l).card := by
    refine card_bij (fun y _ t => nat (y t)) ?_ ?_ ?_
    · intro y hy
      rw [mem_filter] at hy ⊢
      refine ⟨?_, hy.2⟩
      rw [Fintype.mem_piFinset]
      intro t
      rw [mem_range, he]; exact (e (y t)).2
    · intro y _ y' _ h
      funext t
      have := congrFun h t
      simp only [he] at this
      exact e.injective (Fin.ext this)
    · intro x hx
      rw [mem_filter, Fintype.mem_piFinset] at hx
      refine ⟨fun t => e.symm ⟨x t, mem_range.mp (hx.1 t)⟩, ?_, ?_⟩
      · rw [mem_filter]
        refine ⟨mem_univ _, ?_⟩
        refine Eq.trans ?_ hx.2
        congr 1
        funext t
        rw [he]; simp
      · funext t; rw [he]; simp
  -- split by the whole sequence
  have hmem : ∀ x ∈ Fintype.piFinset fun _ : Fin k => range Mw, f x ∈ distinctSeqs k n := by
    intro x _
    rw [mem_distinctSeqs]
    refine (fyMap_bijOn k n hkn).mapsTo (fun t => ?_)
    have := t.2
    have hlt := Nat.mod_lt (x t) (show 0 < (n - (t : Nat)).toNat by omega)
    show ((x t % (n - (t : Nat)).toNat : Nat) : Int) < _
    omega
  have c2 : ((Fintype.piFinset fun _ : Fin k => range Mw).filter fun x => f x j = l).card =
      ∑ s ∈ (distinctSeqs k n).filter fun s => s j = l, (wordsFor Mw f s).card := by
    rw [card_eq_sum_card_fiberwise (f := f) (t := (distinctSeqs k n).filter fun s => s j = l)]
    · refine sum_congr rfl fun s hs => ?_
      rw [mem_filter] at hs
      unfold wordsFor
      rw [filter_filter]
      congr 1
      refine filter_congr fun x _ => ?_
      constructor
      · exact fun h => h.2
      · intro h; rw [h]; exact ⟨hs.2, rfl⟩
    · intro x hx
      rw [mem_coe, mem_filter] at hx
      rw [mem_coe, mem_filter]
      exact ⟨hmem x hx.1, hx.2⟩
  have hprod : 0 < ∏ j : Fin k, ((n : ℝ) - (j : Nat)) := prod_pos fun t _ => by
    have := t.2
    have h1 : (0 : Int) < n - (t : Nat) := by omega
    exact_mod_cast h1
  have c3 : ∀ s ∈ (distinctSeqs k n).filter fun s => s j = l, ((wordsFor Mw f s).card : ℝ) ≤
      (Mw : ℝ) ^ k * (1 + (n : ℝ) / Mw) ^ k / ∏ j : Fin k, ((n : ℝ) - (j : Nat)) := by
    intro s hs
    rw [mem_filter, mem_distinctSeqs] at hs
    obtain ⟨a, b⟩ := fyMap_words k n hkn Mw s hs.1.1 hs.1.2
    have h := (words_prob hkn hM a b).2
    have h' : ((wordsFor Mw f s).card : ℝ) / (Mw : ℝ) ^ k * ∏ j : Fin k, ((n : ℝ) - (j : Nat)) ≤ (1 + (n : ℝ) / Mw) ^ k := by
      have h2 := (Rat.cast_le (K := ℝ)).mpr h
      push_cast at h2
      exact h2
    rw [le_div_iff₀ hprod]
    rw [div_mul_eq_mul_div, div_le_iff₀ (by positivity)] at h'
    linarith
  have c4 : ((univ.filter fun y : Fin k → W => f (fun t => nat (y t)) j = l).card : ℝ) ≤
      (((distinctSeqs k n).filter fun s => s j = l).card : ℝ) * ((Mw : ℝ) ^ k * (1 + (n : ℝ) / Mw) ^ k / ∏ j : Fin k, ((n : ℝ) - (j : Nat))) := by
    rw [c1, c2]
    push_cast
    refine (sum_le_sum c3).trans ?_
    rw [sum_const, nsmul_eq_mul]
  have c5 := card_distinctSeqs_at (k := k) j h0 hl
  rw [card_distinctSeqs hkn] at c5
  show ((univ.filter fun y : Fin k → W => f (fun t => nat (y t)) j = l).card : ℝ) * n ≤ _
  calc _ ≤ (((distinctSeqs k n).filter fun s => s j = l).card : ℝ) * ((Mw : ℝ) ^ k * (1 + (n : ℝ) / Mw) ^ k / ∏ j : Fin k, ((n : ℝ) - (j : Nat))) * n :=
        mul_le_mul_of_nonneg_right c4 hn0.le
    _ = ((n : ℝ) * ((distinctSeqs k n).filter fun s => s j = l).card) * ((Mw : ℝ) ^ k * (1 + (n : ℝ) / Mw) ^ k / ∏ j : Fin k, ((n : ℝ) - (j : Nat))) := by ring
    _ = _ := by rw [c5]; field_simp

/-- Two indices sampled in different blocks agree with probability at most `(1 + n/M)^k / n`. -/
theorem fy_collide {ι : Type} [Fintype ι] [DecidableEq ι] {k Mw : Nat} {n : Int} [Fintype W] [DecidableEq W] (hkn : (k : Int) ≤ n) (hM : n ≤ Mw)
    (nat : W → Nat) (e : W ≃ Fin Mw) (he : ∀ w, nat w = e w) (p p' : Fin k → ι) (hp : Function.Injective p) (hp' : Function.Injective p')
    (hne : ∀ t t', p t ≠ p' t') (j j' : Fin k) :
    ((univ.filter fun ω : ι → W => fyMap k n (fyMod n fun t => nat (ω (p t))) j = fyMap k n (fyMod n fun t => nat (ω (p' t))) j').card : ℝ) * n ≤
      (Mw : ℝ) ^ Fintype.card ι * (1 + (n : ℝ) / Mw) ^ k := by
  classical
  have hk : 0 < k := j.pos
  have hMpos : 0 < Mw := by omega
  have hM0 : (0 : ℝ) < Mw := by exact_mod_cast hMpos
  have hn0 : (0 : ℝ) < n := by have : 0 < n := by omega
                               exact_mod_cast this
  have hcW : Fintype.card W = Mw := by rw [Fintype.card_congr e, Fintype.card_fin]
  let f : (Fin k → W) → (Fin k → Int) := fun y => fyMap k n (fyMod n fun t => nat (y t))
  have hr : ∀ y j, 0 ≤ f y j ∧ f y j < n := by
    intro y j
    refine ((fyMap_bijOn k n hkn).mapsTo (fun t => ?_)).2 j
    have := t.2
    have hlt := Nat.mod_lt (nat (y t)) (show 0 < (n - (t : Nat)).toNat by omega)
    show ((nat (y t) % (n - (t : Nat)).toNat : Nat) : Int) < _
    omega
  have h := sum_restrict (W := W) (Sum.elim p p') (hp.sumElim hp' hne) fun x => if f (fun t => x (.inl t)) j = f (fun t => x (.inr t)) j' then 1 else 0
  rw [hcW, Fintype.card_sum, Fintype.card_fin] at h
  simp only [Sum.elim_inl, Sum.elim_inr] at h
  have h1 : ∑ x : Fin k ⊕ Fin k → W, (if f (fun t => x (.inl t)) j = f (fun t => x (.inr t)) j' then (1 : ℝ) else 0) =
      ∑ y' : Fin k → W, ((univ.filter fun y : Fin k → W => f y j = f y' j').card : ℝ) := by
    rw [← Equiv.sum_comp (Equiv.sumArrowEquivProdArrow (Fin k) (Fin k) W).symm, Fintype.sum_prod_type, sum_comm]
    refine sum_congr rfl fun y' _ => ?_
    simp only [card_filter]
    push_cast
    rfl
  have h2 : (∑ y' : Fin k → W, ((univ.filter fun y : Fin k → W => f y j = f y' j').card : ℝ)) * n ≤ (Mw : ℝ) ^ (k + k) * (1 + (n : ℝ) / Mw) ^ k := by
    rw [sum_mul]
    refine (sum_le_sum fun y' _ => fy_hit hkn hM nat e he j (hr y' j').1 (hr y' j').2).trans ?_
    rw [sum_const, nsmul_eq_mul, card_univ, Fintype.card_fun, hcW, Fintype.card_fin, pow_add]
    push_cast
    rw [mul_assoc]
  rw [h1] at h
  have h3 : ((univ.filter fun ω : ι → W => f (fun t => ω (p t)) j = f (fun t => ω (p' t)) j').card : ℝ) =
      ∑ ω : ι → W, if f (fun t => ω (p t)) j = f (fun t => ω (p' t)) j' then (1 : ℝ) else 0 := by
    rw [card_filter]; push_cast; rfl
  show ((univ.filter fun ω : ι → W => f (fun t => ω (p t)) j = f (fun t => ω (p' t)) j').card : ℝ) * n ≤ _
  rw [h3]
  have hpow : (0 : ℝ) < (Mw : ℝ) ^ (k + k) := by positivity
  refine le_of_mul_le_mul_left ?_ hpow
  calc _ = ((Mw : ℝ) ^ (k + k) * ∑ ω : ι → W, if f (fun t => ω (p t)) j = f (fun t => ω (p' t)) j' then (1 : ℝ) else 0) * n := by ring
    _ = (Mw : ℝ) ^ Fintype.card ι * ((∑ y' : Fin k → W, ((univ.filter fun y : Fin k → W => f y j = f y' j').card : ℝ)) * n) := by
        rw [← mul_assoc, ← h]
        congr!
    _ ≤ (Mw : ℝ) ^ Fintype.card ι * ((Mw : ℝ) ^ (k + k) * (1 + (n : ℝ) / Mw) ^ k) := mul_le_mul_of_nonneg_left h2 (by positivity)
    _ = _ := by ring

/-- The second moment of a sum over pairs of different positions, whose signs can be flipped one at a time. -/
theorem pair_moment {Ω : Type} [Fintype Ω] (m : Nat) (s : Ω → Nat → ℝ) (b : Ω → Nat → Nat → Prop) [∀ ω p p', Decidable (b ω p p')] (u : Nat → ℝ)
    (flip : Nat → Ω → Ω) (hflip : ∀ p, Function.Involutive (flip p)) (hs : ∀ p < m, ∀ ω, ∀ p' < m, s (flip p ω) p' = if p' = p then -s ω p' else s ω p')
    (hb : ∀ p < m, ∀ ω, ∀ t < m, ∀ t' < m, b (flip p ω) t t' ↔ b ω t t') (hsym : ∀ ω t t', b ω t t' → b ω t' t) (h1 : ∀ ω p, s ω p * s ω p = 1) :
    ∑ ω, (∑ z ∈ (range m).offDiag, if b ω z.1 z.2 then (s ω z.1 * s ω z.2) * (u z.1 * u z.2) else 0) ^ 2 =
      2 * ∑ z ∈ (range m).offDiag, ((univ.filter fun ω => b ω z.1 z.2).card : ℝ) * (u z.1 ^ 2 * u z.2 ^ 2) := by
  classical
  let g : Ω → Nat × Nat → ℝ := fun ω z => if b ω z.1 z.2 then (s ω z.1 * s ω z.2) * (u z.1 * u z.2) else 0
  let c : Nat × Nat → ℝ := fun z => ((univ.filter fun ω => b ω z.1 z.2).card : ℝ) * (u z.1 ^ 2 * u z.2 ^ 2)
  have hself : ∀ z, ∑ ω, g ω z * g ω z = c z := by
    intro z
    have : ∀ ω, g ω z * g ω z = if b ω z.1 z.2 then u z.1 ^ 2 * u z.2 ^ 2 else 0 := by
      intro ω
      simp only [g]
      split_ifs with h
      · calc _ = (s ω z.1 * s ω z.1) * (s ω z.2 * s ω z.2) * (u z.1 ^ 2 * u z.2 ^ 2) := by ring
          _ = _ := by rw [h1, h1]; ring
      · ring
    simp only [this, c]
    rw [← sum_filter, sum_const, nsmul_eq_mul]
  have hswap : ∀ ω z, g ω z.swap = g ω z := by
    intro ω z
    simp only [g, Prod.fst_swap, Prod.snd_swap]
    by_cases h : b ω z.1 z.2
    · rw [if_pos h, if_pos (hsym _ _ _ h)]; ring
    · rw [if_neg h, if_neg fun h' => h (hsym _ _ _ h')]
  have hzero : ∀ z ∈ (range m).offDiag, ∀ z' ∈ (range m).offDiag, z' ≠ z → z' ≠ z.swap → ∑ ω, g ω z * g ω z' = 0 := by
    rintro ⟨p, p'⟩ hz ⟨t, t'⟩ hz' hne hnes
    rw [mem_offDiag, mem_range, mem_range] at hz hz'
    simp only [ne_eq, Prod.mk.injEq, Prod.swap_prod_mk, not_and] at hne hnes hz hz'
    obtain ⟨hp, hp', hpp⟩ := hz
    obtain ⟨ht, ht', htt⟩ := hz'
    -- one of the two positions occurs only once
    obtain ⟨a, ha, hneg⟩ : ∃ a < m, ∀ ω, g (flip a ω) (p, p') * g (flip a ω) (t, t') = -(g ω (p, p') * g ω (t, t')) := by
      have key : ∀ a < m, (a = p ∨ a = p') → a ≠ t → a ≠ t' → ∀ ω, g (flip a ω) (p, p') * g (flip a ω) (t, t') = -(g ω (p, p') * g ω (t, t')) := by
        intro a ha hpa hat hat' ω
        simp only [g]
        simp only [hb a ha ω p hp p' hp', hb a ha ω t ht t' ht', hs a ha ω p hp, hs a ha ω p' hp', hs a ha ω t ht, hs a ha ω t' ht']
        rw [if_neg (Ne.symm hat), if_neg (Ne.symm hat')]
        rcases hpa with rfl | rfl
        · rw [if_pos rfl, if_neg (Ne.symm hpp)]
          split_ifs <;> ring
        · rw [if_pos rfl, if_neg hpp]
          split_ifs <;> ring
      by_cases h1 : p ≠ t ∧ p ≠ t'
      · exact ⟨p, hp, key p hp (.inl rfl) h1.1 h1.2⟩
      · refine ⟨p', hp', key p' hp' (.inr rfl) ?_ ?_⟩
        · rintro rfl
          by_cases hpt' : p = t'
          · exact hnes rfl hpt'.symm
          · exact h1 ⟨hpp, hpt'⟩
        · rintro rfl
          by_cases hpt : p = t
          · exact hne hpt.symm rfl
          · exact h1 ⟨hpt, hpp⟩
    have e := Equiv.sum_comp ((hflip a).toPerm _) fun ω => g ω (p, p') * g ω (t, t')
    have e' : ∀ ω, g ((hflip a).toPerm _ ω) (p, p') * g ((hflip a).toPerm _ ω) (t, t') = -(g ω (p, p') * g ω (t, t')) := hneg
    simp only [e', sum_neg_distrib] at e
    linarith
  show ∑ ω, (∑ z ∈ (range m).offDiag, g ω z) ^ 2 = 2 * ∑ z ∈ (range m).offDiag, c z
  simp only [sq, sum_mul_sum]
  rw [sum_comm, mul_sum]
  refine sum_congr rfl fun z hz => ?_
  rw [sum_comm]
  have hz0 := hz
  rw [mem_offDiag] at hz0
  have hzs : z.swap ∈ (range m).offDiag := by rw [mem_offDiag]; exact ⟨hz0.2.1, hz0.1, hz0.2.2.symm⟩
  have hzne : z ≠ z.swap := fun h => hz0.2.2 (congrArg Prod.fst h)
  have : ∀ z' ∈ (range m).offDiag, ∑ ω, g ω z * g ω z' = (if z' = z then c z else 0) + if z' = z.swap then c z else 0 := by
    intro z' hz'
    by_cases h1 : z' = z
    · rw [if_pos h1, if_neg (by rw [h1]; exact hzne), h1, hself, add_zero]
    · by_cases h2 : z' = z.swap
      · rw [if_neg h1, if_pos h2, h2]
        simp only [hswap]
        rw [hself, zero_add]
      · rw [if_neg h1, if_neg h2, hzero z hz z' hz' h1 h2, add_zero]
  rw [sum_congr rfl this, sum_add_distrib, sum_ite_eq', sum_ite_eq', if_pos hz, if_pos hzs]
  ring

/-- The mean of a sum over pairs of different positions, whose signs can be flipped one at a time. -/
theorem pair_mean {Ω : Type} [Fintype Ω] (m : Nat) (s : Ω → Nat → ℝ) (b : Ω → Nat → Nat → Prop) [∀ ω p p', Decidable (b ω p p')] (u : Nat → ℝ)
    (flip : Nat → Ω → Ω) (hflip : ∀ p, Function.Involutive (flip p)) (hs : ∀ p < m, ∀ ω, ∀ p' < m, s (flip p ω) p' = if p' = p then -s ω p' else s ω p')
    (hb : ∀ p < m, ∀ ω, ∀ t < m, ∀ t' < m, b (flip p ω) t t' ↔ b ω t t') :
    ∑ ω, ∑ z ∈ (range m).offDiag, (if b ω z.1 z.2 then (s ω z.1 * s ω z.2) * (u z.1 * u z.2) else 0) = 0 := by
  rw [sum_comm]
  refine sum_eq_zero fun z hz => ?_
  obtain ⟨p, p'⟩ := z
  rw [mem_offDiag, mem_range, mem_range] at hz
  obtain ⟨hp, hp', hpp⟩ := hz
  have e := Equiv.sum_comp ((hflip p).toPerm _) fun ω => if b ω p p' then (s ω p * s ω p') * (u p * u p') else 0
  have e' : ∀ ω, (if b ((hflip p).toPerm _ ω) p p' then (s ((hflip p).toPerm _ ω) p * s ((hflip p).toPerm _ ω) p') * (u p * u p') else 0) =
      -(if b ω p p' then (s ω p * s ω p') * (u p * u p') else 0) := by
    intro ω
    show (if b (flip p ω) p p' then (s (flip p ω) p * s (flip p ω) p') * (u p * u p') else 0) = _
    simp only [hb p hp ω p hp p' hp', hs p hp ω p hp, hs p hp ω p' hp']
    simp only [if_true, if_neg (Ne.symm hpp)]
    split_ifs <;> ring
  simp only [e', sum_neg_distrib] at e
  linarith

/-- Markov's inequality for counts. -/
theorem count_le {Ω : Type} [Fintype Ω] (D : Ω → ℝ) {ε V : ℝ} (hε : 0 < ε) (hV : ∑ ω, D ω ^ 2 ≤ V) [DecidablePred fun ω => ε ≤ |D ω|] :
    ((univ.filter fun ω => ε ≤ |D ω|).card : ℝ) ≤ V / ε ^ 2 := by
  rw [le_div_iff₀ (by positivity)]
  refine le_trans ?_ hV
  rw [← nsmul_eq_mul, ← sum_const]
  refine (sum_le_sum (fun ω hω => ?_)).trans (sum_le_univ_sum_of_nonneg fun ω => sq_nonneg _)
  rw [mem_filter] at hω
  rw [← sq_abs (D ω)]
  exact pow_le_pow_left₀ hε.le hω.2 2

end RB
