import Verif.Props.VectorLaw
import Verif.Props.Distortion
import Mathlib.Data.Nat.Choose.Basic

/-!
# C116: the law of the major-axis vectors of a sparse operator (short axis)

The documentation describes a short-axis vector as follows: the locations of its `k` nonzeros are drawn uniformly without replacement, their values are independent and 1 or -1 with
probability 1/2.
-/

namespace RB
open Spec Finset
variable {N : Nat} {K W R : Type}

theorem sum_range_blocks (k r : Nat) (F : Nat → ℝ) : ∑ p ∈ range (r * k), F p = ∑ q ∈ range r, ∑ j ∈ range k, F (q * k + j) := by
  induction r with
  | zero => simp
  | succ r ih => rw [show (r + 1) * k = r * k + k by ring, sum_range_add, ih, sum_range_succ]

/-- An entry of a short-axis operator, as a sum over the nonzeros of its vector. -/
theorem saso_entry {G : Gen N K W R} {seed : RNGState N K} {k n r : Nat} (i : Int) {q : Nat} (hq : q < r) :
    tripMat (sasoTriples (T := ℝ) G seed k n r) i q =
      ∑ j : Fin k, if fyIdx G seed k n ((q : Int) * k + (j : Nat)) = i then fySign G seed ((q : Int) * k + (j : Nat)) else 0 := by
  have hm : ((r : Int) * k).toNat = r * k := by rw [← Nat.cast_mul]; omega
  have h := sum_tripMat (sasoTriples (T := ℝ) G seed k n r) i (fun b => if b = (q : Int) then 1 else 0) r (by
    intro e hem
    unfold sasoTriples at hem
    rw [hm] at hem
    obtain ⟨p, hp, rfl⟩ := List.mem_map.mp hem
    rw [List.mem_range] at hp
    have hk : 0 < k := Nat.pos_of_ne_zero (by rintro rfl; omega)
    exact ⟨Int.ediv_nonneg (by omega) (by omega), Int.ediv_lt_of_lt_mul (by omega) (by exact_mod_cast hp)⟩)
  have hl : ∑ q' ∈ range r, tripMat (sasoTriples (T := ℝ) G seed k n r) i q' * (if (q' : Int) = (q : Int) then 1 else 0) =
      tripMat (sasoTriples (T := ℝ) G seed k n r) i q := by
    rw [sum_eq_single q]
    · rw [if_pos rfl, mul_one]
    · intro b _ hb
      rw [if_neg (by exact_mod_cast hb), mul_zero]
    · intro hb
      exact absurd (mem_range.mpr hq) hb
  rw [hl] at h
  rw [h]
  unfold sasoTriples
  rw [List.map_map, hm]
  have h2 : ((List.range (r * k)).map ((fun e : Int × Int × ℝ => if e.1 = i then e.2.2 * (if e.2.1 = (q : Int) then 1 else 0) else 0) ∘
      fun p : Nat => (fyIdx G seed k n p, (p : Int) / k, fySign G seed p))).sum =
      ∑ p ∈ range (r * k), if fyIdx G seed k n (p : Int) = i then (fySign G seed (p : Int) : ℝ) * (if (p : Int) / k = (q : Int) then 1 else 0) else 0 := rfl
  rw [h2, sum_range_blocks, sum_eq_single q, ← Fin.sum_univ_eq_sum_range (fun j => if fyIdx G seed k n ((q * k + j : Nat) : Int) = i then
    (fySign G seed ((q * k + j : Nat) : Int) : ℝ) * (if ((q * k + j : Nat) : Int) / k = (q : Int) then 1 else 0) else 0)]
  · refine sum_congr rfl fun j _ => ?_
    have hd := (div_block (k := (k : Int)) (i := (q : Int)) (j := ((j : Nat) : Int)) (by omega) (by have := j.2; omega)).1
    push_cast
    rw [hd, if_pos rfl, mul_one]
  · intro b _ hb
    refine sum_eq_zero fun j hj => ?_
    rw [mem_range] at hj
    have hd := (div_block (k := (k : Int)) (i := (b : Int)) (j := (j : Int)) (by omega) (by omega)).1
    push_cast
    rw [hd, if_neg (show ¬ (b : Int) = q by exact_mod_cast hb), mul_zero]
    simp
  · intro hb
    exact absurd (mem_range.mpr hq) hb

/-- The probability that the pivots are given numbers. -/
theorem pr_mod [Fintype W] {Mw : Nat} (e : W ≃ Fin Mw) {d c : Nat} (hd : 0 < d) (hc : c < d) (hM : 0 < Mw) :
    (1 - (d : ℝ) / Mw) / d ≤ Pr (fun w => (e w : Nat) % d = c) ∧ Pr (fun w => (e w : Nat) % d = c) ≤ (1 + (d : ℝ) / Mw) / d := by
  classical
  have hcount : (univ.filter fun w => (e w : Nat) % d = c).card = ((range Mw).filter fun y => y % d = c).card := by
    refine card_bij (fun w _ => (e w : Nat)) (fun w hw => ?_) (fun w _ w' _ h => e.injective (Fin.ext h)) (fun y hy => ?_)
    · rw [mem_filter] at hw
      rw [mem_filter, mem_range]
      exact ⟨(e w).2, hw.2⟩
    · rw [mem_filter, mem_range] at hy
      exact ⟨e.symm ⟨y, hy.1⟩, by rw [mem_filter, e.apply_symm_apply]; exact ⟨mem_univ _, hy.2⟩, by rw [e.apply_symm_apply]⟩
  obtain ⟨h1, h2⟩ := card_mod_range Mw d c hd hc
  have hdR : (0 : ℝ) < d := by exact_mod_cast hd
  have hMR : (0 : ℝ) < Mw := by exact_mod_cast hM
  rw [pr_eq, hcount, Fintype.card_congr e, Fintype.card_fin]
  constructor
  · rw [div_le_div_iff₀ hdR hMR, sub_mul, one_mul, div_mul_cancel₀ _ hMR.ne']
    have h3 : Mw < (((range Mw).filter fun y => y % d = c).card + 1) * d := by
      refine lt_of_lt_of_le (Nat.lt_div_mul_add hd (a := Mw)) ?_
      have := Nat.mul_le_mul_right d h1
      rw [add_mul, one_mul]; omega
    have h4 : (Mw : ℝ) < (((range Mw).filter fun y => y % d = c).card + 1) * d := by exact_mod_cast h3
    linarith
  · rw [div_le_div_iff₀ hMR hdR, add_mul, one_mul, div_mul_cancel₀ _ hMR.ne']
    have h3 : ((range Mw).filter fun y => y % d = c).card * d ≤ Mw + d - 1 := by
      have := Nat.mul_le_mul_right d h2
      have h4 := Nat.div_mul_le_self (Mw + d - 1) d
      omega
    have h4 : ((range Mw).filter fun y => y % d = c).card * d ≤ Mw + d := by omega
    exact_mod_cast h4

/-- The law of a short-axis vector. -/
theorem saso_law {ι : Type} [Fintype ι] [DecidableEq ι] [Fintype W] [Nonempty W] {Mw : Nat} (e : W ≃ Fin Mw) (g : W → ℝ) (k n : Nat) (hkn : k ≤ n) (hM : n ≤ Mw)
    (hg : ∀ w, g w = 1 ∨ g w = -1) (hg2 : ∀ s : ℝ, s = 1 ∨ s = -1 → Pr (fun w => g w = s) = 1 / 2) (pI pS : Fin k → ι)
    (hII : Function.Injective pI) (hIS : ∀ t t', pI t ≠ pS t') (hSS : Function.Injective pS)
    (T : Finset (Fin n)) (hT : T.card = k) (σ : Fin n → ℝ) (hσ : ∀ l, σ l = 1 ∨ σ l = -1) {pr : ℝ}
    (hpr : pr = Pr (fun ω : ι → W => ∀ l : Fin n, (∑ j : Fin k, if fyMap k n (fyMod n fun t => (e (ω (pI t)) : Nat)) j = ((l : Nat) : Int) then g (ω (pS j)) else 0) =
      if l ∈ T then σ l else 0)) :
    (1 - (n : ℝ) / Mw) ^ k * (1 / (n.choose k * 2 ^ k)) ≤ pr ∧ pr ≤ (1 + (n : ℝ) / Mw) ^ k * (1 / (n.choose k * 2 ^ k)) := by
  classical
  have hW : 0 < Mw := by obtain ⟨w⟩ := ‹Nonempty W›; exact (e w).pos
  have hMR : (0 : ℝ) < Mw := by exact_mod_cast hW
  have hkn' : (k : Int) ≤ n := by exact_mod_cast hkn
  have hd : ∀ t : Fin k, 0 < ((n : Int) - (t : Nat)).toNat := fun t => by have := t.2; omega
  have hmod : ∀ x : Fin k → Nat, fyMod (n : Int) x ∈ {c : Fin k → Nat | ∀ j : Fin k, (c j : Int) < (n : Int) - (j : Nat)} := by
    intro x t
    have := Nat.mod_lt (x t) (hd t)
    show (((x t % ((n : Int) - (t : Nat)).toNat : Nat)) : Int) < n - (t : Nat)
    omega
  have hrange : ∀ x : Fin k → Nat, Function.Injective (fyMap k n (fyMod n x)) ∧ ∀ j, 0 ≤ fyMap k n (fyMod n x) j ∧ fyMap k n (fyMod n x) j < n :=
    fun x => (fyMap_bijOn k n hkn').mapsTo (hmod x)
  let x : (ι → W) → Fin k → Nat := fun ω t => (e (ω (pI t)) : Nat)
  let samp : (ι → W) → Fin k → Fin n := fun ω j => ⟨(fyMap k n (fyMod n (x ω)) j).toNat, by have := (hrange (x ω)).2 j; omega⟩
  have hsv : ∀ ω j, ((samp ω j : Nat) : Int) = fyMap k n (fyMod n (x ω)) j := by
    intro ω j
    have := (hrange (x ω)).2 j
    simp only [samp]
    omega
  have hsinj : ∀ ω, Function.Injective (samp ω) := by
    intro ω j j' h
    apply (hrange (x ω)).1
    rw [← hsv, ← hsv, h]
  let ℓ : Fin n → Nat := fun l => if l ∈ T then 1 else 0
  have hℓ : ∑ l, ℓ l = k := by simp only [ℓ]; rw [sum_boole, filter_mem_eq_inter, univ_inter, hT]; rfl
  have hcnt : countSeqs k n ℓ = k.factorial := by
    have h := C116_count k n ℓ hℓ
    have h1 : ∏ l, (ℓ l).factorial = 1 := prod_eq_one fun l _ => by simp only [ℓ]; split_ifs <;> rfl
    rwa [h1, mul_one] at h
  -- the probability of one sequence of locations and of the signs
  have hone : ∀ s : Fin k → Fin n, (∀ l, (univ.filter fun t => s t = l).card = ℓ l) → ∀ P : ℝ, P = Pr (fun ω : ι → W => samp ω = s ∧ ∀ l : Fin n,
      (∑ j : Fin k, if fyMap k n (fyMod n fun t => (e (ω (pI t)) : Nat)) j = ((l : Nat) : Int) then g (ω (pS j)) else 0) = if l ∈ T then σ l else 0) →
      (1 - (n : ℝ) / Mw) ^ k / (n.descFactorial k : ℝ) * (1 / 2) ^ k ≤ P ∧ P ≤ (1 + (n : ℝ) / Mw) ^ k / (n.descFactorial k : ℝ) * (1 / 2) ^ k := by
    intro s hs P hP
    have hsi : Function.Injective s := by
      intro t t' htt
      have h1 := hs (s t)
      have h2 : (univ.filter fun t'' => s t'' = s t).card ≤ 1 := by rw [h1]; simp only [ℓ]; split_ifs <;> omega
      exact card_le_one.mp h2 t (by simp) t' (by simp [htt])
    have hsT : ∀ l, l ∈ T ↔ ∃ t, s t = l := by
      intro l
      have h1 := hs l
      constructor
      · intro hl
        simp only [ℓ, if_pos hl] at h1
        obtain ⟨t, ht⟩ := card_pos.mp (by rw [h1]; omega : 0 < (univ.filter fun t => s t = l).card)
        rw [mem_filter] at ht
        exact ⟨t, ht.2⟩
      · rintro ⟨t, ht⟩
        by_contra hl
        simp only [ℓ, if_neg hl, card_eq_zero, filter_eq_empty_iff] at h1
        exact h1 (mem_univ t) ht
    obtain ⟨c, hc, hcs⟩ := (fyMap_bijOn k n hkn').surjOn (show (fun j => ((s j : Nat) : Int)) ∈ {s | Function.Injective s ∧ ∀ j, 0 ≤ s j ∧ s j < (n : Int)} from
      ⟨fun t t' h => hsi (Fin.ext (by have : ((s t : Nat) : Int) = ((s t' : Nat) : Int) := h
                                      omega)), fun j => ⟨by positivity, by have := (s j).2
                                                                           show ((s j : Nat) : Int) < n
                                                                           omega⟩⟩)
    have hct : ∀ t, c t < ((n : Int) - (t : Nat)).toNat := fun t => by have := hc t; omega
    have hsamp : ∀ ω, samp ω = s ↔ ∀ t ∈ (univ : Finset (Fin k)), (e (ω (pI t)) : Nat) % ((n : Int) - (t : Nat)).toNat = c t := by
      intro ω
      have h1 : samp ω = s ↔ fyMap k n (fyMod n (x ω)) = fyMap k n c := by
        rw [hcs]
        constructor
        · rintro rfl
          funext j
          exact (hsv ω j).symm
        · intro h
          funext j
          refine Fin.ext ?_
          have h2 := congrFun h j
          rw [← hsv ω j] at h2
          omega
      rw [h1, (fyMap_bijOn k n hkn').injOn.eq_iff (hmod _) hc]
      simp only [mem_univ, forall_true_left]
      exact ⟨fun h t => congrFun h t, fun h => funext fun t => h t⟩
    have hev : ∀ ω : ι → W, (samp ω = s ∧ ∀ l : Fin n,
        (∑ j : Fin k, if fyMap k n (fyMod n fun t => (e (ω (pI t)) : Nat)) j = ((l : Nat) : Int) then g (ω (pS j)) else 0) = if l ∈ T then σ l else 0) ↔
        (∀ t ∈ (univ : Finset (Fin k)), (e (ω (pI t)) : Nat) % ((n : Int) - (t : Nat)).toNat = c t) ∧ ∀ t ∈ (univ : Finset (Fin k)), g (ω (pS t)) = σ (s t) := by
      intro ω
      rw [← hsamp]
      refine and_congr_right fun h => ?_
      have hent : ∀ l : Fin n, (∑ j : Fin k, if fyMap k n (fyMod n fun t => (e (ω (pI t)) : Nat)) j = ((l : Nat) : Int) then g (ω (pS j)) else 0) =
          ∑ j : Fin k, if s j = l then g (ω (pS j)) else 0 := by
        intro l
        refine sum_congr rfl fun j _ => ?_
        have h2 : fyMap k n (fyMod n fun t => (e (ω (pI t)) : Nat)) j = ((s j : Nat) : Int) := by rw [← h]; exact (hsv ω j).symm
        rw [h2]
        refine if_congr ⟨fun h => Fin.ext (by omega), fun h => by rw [h]⟩ rfl rfl
      simp only [hent]
      have hst : ∀ t, (∑ j : Fin k, if s j = s t then g (ω (pS j)) else 0) = g (ω (pS t)) := by
        intro t
        rw [sum_eq_single t]
        · rw [if_pos rfl]
        · intro b _ hb
          rw [if_neg fun h => hb (hsi h)]
        · intro h; exact absurd (mem_univ t) h
      constructor
      · intro h2 t _
        have h3 := h2 (s t)
        rw [hst, if_pos ((hsT _).mpr ⟨t, rfl⟩)] at h3
        exact h3
      · intro h2 l
        by_cases hl : l ∈ T
        · rw [if_pos hl]
          obtain ⟨t, rfl⟩ := (hsT l).mp hl
          rw [hst, h2 t (mem_univ t)]
        · rw [if_neg hl]
          exact sum_eq_zero fun j _ => if_neg fun h => hl ((hsT l).mpr ⟨j, h⟩)
    rw [hP, pr_congr hev, pr_and (S := fun y => ∃ t : Fin k, y = pI t) (S' := fun y => ∃ t : Fin k, y = pS t)]
    rotate_left
    · intro ω ω' h
      refine forall_congr' fun t => forall_congr' fun _ => ?_
      rw [h _ ⟨t, rfl⟩]
    · intro ω ω' h
      refine forall_congr' fun t => forall_congr' fun _ => ?_
      rw [h _ ⟨t, rfl⟩]
    · rintro y ⟨t, ht⟩ ⟨t', ht'⟩
      exact hIS _ _ (ht.symm.trans ht')
    rw [pr_forall univ (S := fun (t : Fin k) y => y = pS t) (p := fun (t : Fin k) (ω : ι → W) => g (ω (pS t)) = σ (s t)),
      prod_congr rfl fun t _ => (pr_eval (pS t) fun w => g w = σ (s t)).trans (hg2 _ (hσ _)), prod_const, card_univ, Fintype.card_fin]
    rotate_left
    · intro t _ ω ω' h
      beta_reduce
      rw [h _ rfl]
    · intro t _ t' _ hne y hy hy'
      exact hne (hSS (hy.symm.trans hy'))
    rw [pr_forall univ (S := fun (t : Fin k) y => y = pI t) (p := fun (t : Fin k) (ω : ι → W) => (e (ω (pI t)) : Nat) % ((n : Int) - (t : Nat)).toNat = c t),
      prod_congr rfl fun t _ => pr_eval (pI t) fun w => (e w : Nat) % ((n : Int) - ((t : Fin k) : Nat)).toNat = c t]
    rotate_left
    · intro t _ ω ω' h
      beta_reduce
      rw [h _ rfl]
    · intro t _ t' _ hne y hy hy'
      exact hne (hII (hy.symm.trans hy'))
    have hdn : ∀ t : Fin k, ((n : Int) - (t : Nat)).toNat = n - (t : Nat) := fun t => by omega
    have hdesc : (n.descFactorial k : ℝ) = ∏ t : Fin k, ((((n : Int) - (t : Nat)).toNat : Nat) : ℝ) := by
      rw [Nat.descFactorial_eq_prod_range, ← Fin.prod_univ_eq_prod_range (fun t => n - t)]
      push_cast
      refine prod_congr rfl fun t _ => ?_
      rw [hdn t]
    have hle : (n : ℝ) / Mw ≤ 1 := (div_le_one hMR).mpr (by exact_mod_cast hM)
    have hb : ∀ t : Fin k, (1 - (n : ℝ) / Mw) / ((((n : Int) - (t : Nat)).toNat : Nat) : ℝ) ≤ Pr (fun w => (e w : Nat) % ((n : Int) - (t : Nat)).toNat = c t) ∧
        Pr (fun w => (e w : Nat) % ((n : Int) - (t : Nat)).toNat = c t) ≤ (1 + (n : ℝ) / Mw) / ((((n : Int) - (t : Nat)).toNat : Nat) : ℝ) := by
      intro t
      obtain ⟨h1, h2⟩ := pr_mod e (hd t) (hct t) hW
      have h3 : ((((n : Int) - (t : Nat)).toNat : Nat) : ℝ) / Mw ≤ (n : ℝ) / Mw := by
        refine div_le_div_of_nonneg_right ?_ hMR.le
        exact_mod_cast (by omega : ((n : Int) - (t : Nat)).toNat ≤ n)
      have h4 : (0 : ℝ) < ((((n : Int) - (t : Nat)).toNat : Nat) : ℝ) := by exact_mod_cast hd t
      exact ⟨le_trans (div_le_div_of_nonneg_right (by linarith) h4.le) h1, le_trans h2 (div_le_div_of_nonneg_right (by linarith) h4.le)⟩
    have hpw : ∀ a : ℝ, a ^ k / (n.descFactorial k : ℝ) = ∏ t : Fin k, a / ((((n : Int) - (t : Nat)).toNat : Nat) : ℝ) := by
      intro a
      rw [prod_div_distrib, prod_const, card_univ, Fintype.card_fin, hdesc]
    rw [hpw, hpw]
    have h0 : ∀ t : Fin k, 0 ≤ (1 - (n : ℝ) / Mw) / ((((n : Int) - (t : Nat)).toNat : Nat) : ℝ) := fun t => div_nonneg (by linarith) (Nat.cast_nonneg _)
    constructor
    · refine mul_le_mul_of_nonneg_right ?_ (by positivity)
      exact prod_le_prod (fun t _ => h0 t) fun t _ => (hb t).1
    · refine mul_le_mul_of_nonneg_right ?_ (by positivity)
      exact prod_le_prod (fun t _ => (h0 t).trans (hb t).1) fun t _ => (hb t).2
  -- other sequences of locations are impossible
  have hzero : ∀ s : Fin k → Fin n, ¬ (∀ l, (univ.filter fun t => s t = l).card = ℓ l) → Pr (fun ω : ι → W => samp ω = s ∧ ∀ l : Fin n,
      (∑ j : Fin k, if fyMap k n (fyMod n fun t => (e (ω (pI t)) : Nat)) j = ((l : Nat) : Int) then g (ω (pS j)) else 0) = if l ∈ T then σ l else 0) = 0 := by
    intro s hs
    rw [pr_eq, div_eq_zero_iff]
    left
    rw [Nat.cast_eq_zero, card_eq_zero, filter_eq_empty_iff]
    rintro ω - ⟨rfl, h2⟩
    refine hs fun l => ?_
    have h3 := h2 l
    have hent : (∑ j : Fin k, if fyMap k n (fyMod n fun t => (e (ω (pI t)) : Nat)) j = ((l : Nat) : Int) then g (ω (pS j)) else 0) =
        ∑ j ∈ univ.filter (fun j => samp ω j = l), g (ω (pS j)) := by
      rw [sum_filter]
      refine sum_congr rfl fun j _ => if_congr ?_ rfl rfl
      have h4 := hsv ω j
      constructor
      · intro h; refine Fin.ext ?_
        have h5 : fyMap k n (fyMod n (x ω)) j = ((l : Nat) : Int) := h
        omega
      · rintro rfl
        exact h4.symm
    rw [hent] at h3
    have hle : (univ.filter fun j => samp ω j = l).card ≤ 1 := by
      refine card_le_one.mpr fun a ha b hb => ?_
      rw [mem_filter] at ha hb
      exact hsinj ω (ha.2.trans hb.2.symm)
    have hne : ∀ z : ℝ, z = 1 ∨ z = -1 → z ≠ 0 := by rintro z (rfl | rfl) <;> norm_num
    simp only [ℓ]
    rcases Nat.eq_zero_or_pos (univ.filter fun j => samp ω j = l).card with h5 | h5
    · rw [h5]
      rw [card_eq_zero] at h5
      rw [h5, sum_empty] at h3
      split_ifs with hl
      · rw [if_pos hl] at h3
        exact absurd h3.symm (hne _ (hσ l))
      · rfl
    · obtain ⟨a, ha⟩ := card_eq_one.mp (le_antisymm hle h5)
      rw [ha, sum_singleton] at h3
      rw [ha, card_singleton]
      split_ifs with hl
      · rfl
      · rw [if_neg hl] at h3
        exact absurd h3 (hne _ (hg _))
  rw [hpr, pr_fiber samp, ← sum_filter_add_sum_filter_not univ (fun s : Fin k → Fin n => ∀ l, (univ.filter fun t => s t = l).card = ℓ l),
    sum_eq_zero (s := univ.filter fun s : Fin k → Fin n => ¬ ∀ l, (univ.filter fun t => s t = l).card = ℓ l) (fun s hs => hzero s (mem_filter.mp hs).2), add_zero]
  have hcard : (univ.filter fun s : Fin k → Fin n => ∀ l, (univ.filter fun t => s t = l).card = ℓ l).card = k.factorial := hcnt
  have hfac : ∀ a : ℝ, a * (1 / (n.choose k * 2 ^ k)) = k.factorial * (a / (n.descFactorial k : ℝ) * (1 / 2) ^ k) := by
    intro a
    rw [Nat.descFactorial_eq_factorial_mul_choose]
    have h1 : (k.factorial : ℝ) ≠ 0 := by exact_mod_cast (Nat.factorial_pos k).ne'
    have h2 : (n.choose k : ℝ) ≠ 0 := by exact_mod_cast (Nat.choose_pos hkn).ne'
    push_cast
    rw [one_div_pow]
    field_simp
  rw [hfac, hfac]
  constructor
  · refine le_trans (le_of_eq ?_) (card_nsmul_le_sum _ _ _ fun s hs => (hone s (mem_filter.mp hs).2 _ rfl).1)
    rw [hcard, nsmul_eq_mul]
  · refine le_trans (sum_le_card_nsmul _ _ _ fun s hs => (hone s (mem_filter.mp hs).2 _ rfl).2) (le_of_eq ?_)
    rw [hcard, nsmul_eq_mul]

/-- C116 (short axis). Over all words that a generator may yield (`G` only fixes their number `M`, which is even and at least the length `n` of the vectors), the law of each short-axis
vector of a filled operator is the documented one up to a factor between `(1 - n/M)^k` and `(1 + n/M)^k`: for every set `T` of `k` locations and all signs `σ`, the vector that is `σ_l` at the
locations in `T` and zero elsewhere has the probability `1 / (n choose k) / 2^k`. -/
theorem C116_short_axis [NeZero N] [Field R] [LinearOrder R] [FloorRing R] [Fintype W] [Nonempty W] {L : Nat} [NeZero L] {G : Gen N K W R}
    {order : Int → List (Int × ℝ) → List (Int × ℝ)} {S : SparseSkOp N K ℝ} (hG : G.Ok) (hL : G.len = L) {Mw : Nat} (e : W ≃ Fin Mw)
    (he : ∀ w, G.nat w = e w) (hM2 : Even Mw) (hord : ∀ i l, (order i l).Perm l) (hS : SparseOpOk S)
    (hax : S.dist.majorAxis = .Short) (hN : S.dist.fullNnz ≤ N) {k n : Nat} (hk : S.dist.vecNnz = k) (hn : min S.nRows S.nCols = n) (hM : n ≤ Mw) :
    ∃ A : (ZMod N × ZMod L → W) → Int → Int → ℝ,
    (∀ ω, M.wp (fillSparse (fromWords G ω) Real.sqrt order) S (fun _ S' => ∃ E, OpHolds S' E ∧ toMat E = A ω)) ∧
    ∀ (q : Nat) (T : Finset (Fin n)) (σ : Fin n → ℝ) (p0 : ℝ), q < max S.nRows S.nCols → T.card = k → (∀ l, σ l = 1 ∨ σ l = -1) →
      p0 = 1 / (n.choose k * 2 ^ k) →
      (1 - (n : ℝ) / Mw) ^ k * p0 ≤
        Pr (fun ω => ∀ l : Fin n, (if S.nRows ≤ S.nCols then A ω (l : Nat) q else A ω q (l : Nat)) = if l ∈ T then σ l else 0) ∧
      Pr (fun ω => ∀ l : Fin n, (if S.nRows ≤ S.nCols then A ω (l : Nat) q else A ω q (l : Nat)) = if l ∈ T then σ l else 0) ≤
        (1 + (n : ℝ) / Mw) ^ k * p0 := by
  classical
  obtain ⟨k', n', r, hk0, hkn, ek, en, er, hn', hr, hf⟩ := saso_setup hS hax
  obtain rfl : k' = k := by omega
  obtain rfl : n' = n := by omega
  rw [hf] at hN
  have hN' : r * k' ≤ N := by exact_mod_cast hN
  have hL2 : 2 ≤ L := by rcases hG with h | h <;> omega
  let E : (ZMod N × ZMod L → W) → List (Int × Int × ℝ) := fun ω => sasoTriples (fromWords G ω) S.seedState k' n' r
  refine ⟨fun ω => toMat ((E ω).map (mkEntry S.dist)), fun ω => ?_, fun q T σ p0 hq hT hσ hp0 => ?_⟩
  · refine M.wp_mono (fill_saso (G := fromWords G ω) hG hord hS hax) fun _ S' h => ⟨_, h, ?_⟩
    simp only [E, ek, en, er]
  have hq' : q < r := by omega
  have h01 : ((0 : Int) : ZMod L) ≠ ((1 : Int) : ZMod L) := by
    rw [Ne, ZMod.intCast_eq_intCast_iff]
    unfold Int.ModEq
    rw [Int.emod_eq_of_lt (by omega) (by omega), Int.emod_eq_of_lt (by omega) (by omega)]
    omega
  let pos : Fin k' → ZMod N := fun j => S.seedState.counter + (((q : Int) * k' + (j : Nat) : Int) : ZMod N)
  have hpos : Function.Injective pos := by
    intro j j' h
    have h1 := (ZMod.intCast_eq_intCast_iff _ _ _).mp (add_left_cancel h)
    have hb : ∀ j : Fin k', 0 ≤ (q : Int) * k' + (j : Nat) ∧ (q : Int) * k' + (j : Nat) < N := by
      intro j
      have h2 : (q + 1) * k' ≤ r * k' := Nat.mul_le_mul_right _ hq'
      have h3 : ((q : Int) + 1) * k' ≤ N := by exact_mod_cast h2.trans hN'
      have h4 : ((q : Int) + 1) * k' = q * k' + k' := by ring
      have h5 : (0 : Int) ≤ q * k' := by positivity
      have := j.2
      constructor <;> omega
    unfold Int.ModEq at h1
    rw [Int.emod_eq_of_lt (hb j).1 (hb j).2, Int.emod_eq_of_lt (hb j').1 (hb j').2] at h1
    exact Fin.ext (by omega)
  obtain ⟨τ, hτ, hpar⟩ := exists_pairing hM2 e
  have key := saso_law (ι := ZMod N × ZMod L) e (fun w => if G.nat w % 2 = 0 then (1 : ℝ) else -1) k' n' hkn hM
    (fun w => by split_ifs <;> simp) (pr_sign (pr_half (P := fun w => G.nat w % 2 = 0) hτ (fun w => by simp only [he]; exact hpar w)))
    (fun j => (pos j, ((0 : Int) : ZMod L))) (fun j => (pos j, ((1 : Int) : ZMod L)))
    (fun j j' h => hpos (Prod.mk.inj h).1) (fun j j' h => h01 (Prod.mk.inj h).2) (fun j j' h => hpos (Prod.mk.inj h).1) T hT σ hσ rfl
  rw [hp0]
  have hent : ∀ (ω : ZMod N × ZMod L → W) (l : Fin n'), (if S.nRows ≤ S.nCols then toMat ((E ω).map (mkEntry S.dist)) (l : Nat) q else
      toMat ((E ω).map (mkEntry S.dist)) q (l : Nat)) = ∑ j : Fin k', if fyMap k' n' (fyMod n' fun t => (e (ω (pos t, ((0 : Int) : ZMod L))) : Nat)) j =
        ((l : Nat) : Int) then (if G.nat (ω (pos j, ((1 : Int) : ZMod L))) % 2 = 0 then (1 : ℝ) else -1) else 0 := by
    intro ω l
    have h1 : (if S.nRows ≤ S.nCols then toMat ((E ω).map (mkEntry S.dist)) (l : Nat) q else toMat ((E ω).map (mkEntry S.dist)) q (l : Nat)) =
        tripMat (E ω) (l : Nat) q := by
      rw [hS.nRows, hS.nCols]
      split_ifs with hd
      · exact toMat_mkEntry_wide hd _ _ _
      · exact toMat_mkEntry_tall (by omega) _ _ _
    rw [h1, saso_entry _ hq']
    refine sum_congr rfl fun j _ => ?_
    rw [fyIdx_eq_fyMap (by exact_mod_cast hkn)]
    simp only [← he]
    rfl
  simp only [hent]
  exact key

/-- The hypotheses of the theorems are met: by the generator of 32-bit words of C60, two words being paired if they are mirror images, by a wide and a tall long-axis operator, and by a wide
and a tall short-axis operator. For the first of them, `k = 2` and the vector (1, -1, 0, ...) has the counts `ℓ = (1, 1, 0, ...)`. -/
example : midGen.Ok ∧ midGen.len = (4 : Nat) ∧ (∀ w, midGen.nat w = (Equiv.refl (Fin (2 ^ 32)) w : Nat)) ∧ Even (2 ^ 32) ∧
    SparseOpOk (mkSparseSkOp 4 exLaso ⟨0, 7⟩ : SparseSkOp (2 ^ 128) Nat ℝ) ∧ exLaso.majorAxis = .Long ∧ exLaso.fullNnz ≤ ((2 ^ 128 : Nat) : Int) ∧
    SparseOpOk (mkSparseSkOp 4 exLasoTall ⟨0, 7⟩ : SparseSkOp (2 ^ 128) Nat ℝ) ∧ exLasoTall.majorAxis = .Long ∧ exLasoTall.fullNnz ≤ ((2 ^ 128 : Nat) : Int) ∧
    SparseOpOk (mkSparseSkOp 4 exSasoTall ⟨0, 7⟩ : SparseSkOp (2 ^ 128) Nat ℝ) ∧ exSasoTall.majorAxis = .Short ∧ exSasoTall.fullNnz ≤ ((2 ^ 128 : Nat) : Int) ∧
    exLasoTall.vecNnz = (2 : Nat) ∧ max exLasoTall.nRows exLasoTall.nCols = (8 : Nat) ∧ ∑ l : Fin 8, (if (l : Nat) < 2 then 1 else 0) = 2 :=
  ⟨Or.inr rfl, rfl, fun _ => rfl, by decide, mkSparseSkOp_ok 4 exLaso_ok _, rfl, by decide,
    mkSparseSkOp_ok 4 (show SparseDistOk exLasoTall from ⟨by decide, by decide⟩) _, rfl, by decide,
    mkSparseSkOp_ok 4 (show SparseDistOk exSasoTall from ⟨by decide, by decide⟩) _, rfl, by decide, rfl, by decide, by decide⟩

end RB
