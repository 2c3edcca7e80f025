import Verif.Lemmas.Moments

/-!
# C80: how much short-axis sparse operators distort a vector

The average and the counts are over all words that an ideal generator may yield.
-/

namespace RB
open Spec Finset
variable {N : Nat} {K W R : Type}

/-- The squared norm of the product with a short-axis operator, as a sum over pairs of nonzeros. -/
theorem saso_expand {G : Gen N K W R} {seed : RNGState N K} {k n r : Nat} (hk : 0 < k) (hkn : k ≤ n) (x : Int → ℝ) :
    ∑ i ∈ range n, (∑ q ∈ range r, tripMat (sasoTriples (T := ℝ) G seed k n r) i q * x q) ^ 2 =
      k * ∑ q ∈ range r, x q ^ 2 + ∑ z ∈ (range (r * k)).offDiag, if fyIdx G seed k n z.1 = fyIdx G seed k n z.2 then
        (fySign G seed z.1 * fySign G seed z.2) * (x ((z.1 : Int) / k) * x ((z.2 : Int) / k)) else 0 := by
  let s : Nat → ℝ := fun p => fySign G seed p
  let a : Nat → Int := fun p => fyIdx G seed k n p
  have hs : ∀ p, s p * s p = 1 := fun p => by simp only [s, fySign]; split_ifs <;> norm_num
  have hm : ((r : Int) * k).toNat = r * k := by rw [← Nat.cast_mul]; omega
  have ha : ∀ p, 0 ≤ a p ∧ a p < n := by
    intro p
    simp only [a, fyIdx]
    have h1 := Int.emod_nonneg (p : Int) (show (k : Int) ≠ 0 by omega)
    have h2 := Int.emod_lt_of_pos (p : Int) (show (0 : Int) < k by omega)
    exact fyPerm_range (by omega) h1 (by omega)
  have h1 : ∀ i : Nat, ∑ q ∈ range r, tripMat (sasoTriples (T := ℝ) G seed k n r) i q * x q =
      ∑ p ∈ range (r * k), if a p = i then s p * x ((p : Int) / k) else 0 := by
    intro i
    rw [sum_tripMat]
    · unfold sasoTriples
      rw [List.map_map, hm]
      show ((List.range (r * k)).map _).sum = ((List.range (r * k)).map _).sum
      congr 1
    · intro e hem
      unfold sasoTriples at hem
      rw [hm] at hem
      obtain ⟨p, hp, rfl⟩ := List.mem_map.mp hem
      rw [List.mem_range] at hp
      simp only
      refine ⟨Int.ediv_nonneg (by omega) (by omega), Int.ediv_lt_of_lt_mul (by omega) ?_⟩
      exact_mod_cast hp
  have h2 : ∑ i ∈ range n, (∑ q ∈ range r, tripMat (sasoTriples (T := ℝ) G seed k n r) i q * x q) ^ 2 =
      ∑ p ∈ range (r * k), ∑ p' ∈ range (r * k), if a p = a p' then (s p * s p') * (x ((p : Int) / k) * x ((p' : Int) / k)) else 0 := by
    simp only [h1, sq, sum_mul_sum]
    rw [sum_comm]
    refine sum_congr rfl fun p _ => ?_
    rw [sum_comm]
    refine sum_congr rfl fun p' _ => ?_
    have hp := ha p
    have : ∀ i : Nat, (if a p = i then s p * x ((p : Int) / k) else 0) * (if a p' = i then s p' * x ((p' : Int) / k) else 0) =
        if i = (a p).toNat then (if a p = a p' then (s p * s p') * (x ((p : Int) / k) * x ((p' : Int) / k)) else 0) else 0 := by
      intro i
      by_cases hi : i = (a p).toNat
      · have hi' : a p = i := by omega
        rw [if_pos hi, if_pos hi', hi']
        by_cases h' : a p' = i
        · rw [if_pos h', if_pos h'.symm]; ring
        · rw [if_neg h', if_neg (fun h => h' h.symm), mul_zero]
      · rw [if_neg hi, if_neg (by omega), zero_mul]
    simp only [this]
    rw [sum_ite_eq' (range n) _ (fun _ => _), if_pos (by rw [mem_range]; omega)]
  rw [h2, ← sum_product' (range (r * k)) (range (r * k)) fun p p' =>
    if a p = a p' then (s p * s p') * (x ((p : Int) / k) * x ((p' : Int) / k)) else 0, ← diag_union_offDiag, sum_union (disjoint_diag_offDiag _), sum_diag]
  congr 1
  have : ∀ p ∈ range (r * k), (if a p = a p then (s p * s p) * (x ((p : Int) / k) * x ((p : Int) / k)) else 0) = x ((p : Int) / k) ^ 2 := by
    intro p _
    rw [if_pos rfl, hs]; ring
  rw [sum_congr rfl this, sum_blocks k r fun q => x q ^ 2]

/-- Words of even and odd value can be paired. -/
theorem exists_pairing {Mw : Nat} (hM : Even Mw) (e : W ≃ Fin Mw) : ∃ τ : W → W, Function.Involutive τ ∧ ∀ w, ((e (τ w) : Nat) % 2 = 0 ↔ ¬ (e w : Nat) % 2 = 0) := by
  have hlt : ∀ v : Fin Mw, (if (v : Nat) % 2 = 0 then (v : Nat) + 1 else v - 1) < Mw := by
    intro v
    obtain ⟨m, hm⟩ := hM
    have := v.2
    split_ifs <;> omega
  refine ⟨fun w => e.symm ⟨_, hlt (e w)⟩, fun w => ?_, fun w => ?_⟩
  · apply e.injective
    apply Fin.ext
    simp only [Equiv.apply_symm_apply]
    split_ifs <;> omega
  · simp only [Equiv.apply_symm_apply]
    split_ifs <;> omega

/-- The first and second moment of the distortion. -/
theorem saso_second [NeZero N] {L : Nat} [NeZero L] [Fintype W] {G : Gen N K W R} {seed : RNGState N K} {k n r Mw : Nat} (hL : 2 ≤ L)
    (e : W ≃ Fin Mw) (he : ∀ w, G.nat w = e w) (hM2 : Even Mw) (hM : n ≤ Mw) (hk : 0 < k) (hkn : k ≤ n) (hN : r * k ≤ N) (x : Int → ℝ) :
    ∑ ω : ZMod N × ZMod L → W, (∑ i ∈ range n, (∑ q ∈ range r, tripMat (sasoTriples (T := ℝ) (fromWords G ω) seed k n r) i q * x q) ^ 2 -
      k * ∑ q ∈ range r, x q ^ 2) = 0 ∧
    (∑ ω : ZMod N × ZMod L → W, (∑ i ∈ range n, (∑ q ∈ range r, tripMat (sasoTriples (T := ℝ) (fromWords G ω) seed k n r) i q * x q) ^ 2 -
      k * ∑ q ∈ range r, x q ^ 2) ^ 2) * n ≤ Fintype.card (ZMod N × ZMod L → W) *
      (2 * (1 + (n : ℝ) / Mw) ^ k * (k ^ 2 * ((∑ q ∈ range r, x q ^ 2) ^ 2 - ∑ q ∈ range r, x q ^ 4))) := by
  classical
  obtain ⟨τ, hτ, hpar⟩ := exists_pairing hM2 e
  let pos : Nat → ZMod N := fun p => seed.counter + ((p : Int) : ZMod N)
  have hpos : ∀ p p' : Nat, p < r * k → p' < r * k → pos p = pos p' → p = p' := by
    intro p p' hp hp' hc
    have hc' := add_left_cancel hc
    have hc2 : ((p : Nat) : ZMod N) = ((p' : Nat) : ZMod N) := by exact_mod_cast hc'
    rwa [ZMod.natCast_eq_natCast_iff, Nat.ModEq, Nat.mod_eq_of_lt (by omega), Nat.mod_eq_of_lt (by omega)] at hc2
  have h01 : ((0 : Int) : ZMod L) ≠ ((1 : Int) : ZMod L) := by
    rw [Ne, ZMod.intCast_eq_intCast_iff]
    unfold Int.ModEq
    rw [Int.emod_eq_of_lt (by omega) (by omega), Int.emod_eq_of_lt (by omega) (by omega)]
    omega
  let s : (ZMod N × ZMod L → W) → Nat → ℝ := fun ω p => fySign (fromWords G ω) seed p
  let a : (ZMod N × ZMod L → W) → Nat → Int := fun ω p => fyIdx (fromWords G ω) seed k n p
  have hs : ∀ ω p, s ω p = if G.nat (ω (pos p, ((1 : Int) : ZMod L))) % 2 = 0 then 1 else -1 := fun ω p => rfl
  have ha : ∀ ω (i : Nat) (j : Fin k), a ω (i * k + j) = fyMap k n (fyMod n fun t => G.nat (ω (pos (i * k + t), ((0 : Int) : ZMod L)))) j := by
    intro ω i j
    simp only [a]
    push_cast
    rw [fyIdx_eq_fyMap (by exact_mod_cast hkn)]
    simp only [fromWords, pos]
    push_cast
    rfl
  have hblock : ∀ p : Nat, p < r * k → ∃ (i : Nat) (j : Fin k), p = i * k + j ∧ p / k = i := by
    intro p hp
    refine ⟨p / k, ⟨p % k, Nat.mod_lt _ hk⟩, ?_, rfl⟩
    simp only
    rw [mul_comm]; exact (Nat.div_add_mod p k).symm
  let flip : Nat → (ZMod N × ZMod L → W) → (ZMod N × ZMod L → W) := fun p ω =>
    Function.update ω (pos p, ((1 : Int) : ZMod L)) (τ (ω (pos p, ((1 : Int) : ZMod L))))
  have hfl : ∀ p, Function.Involutive (flip p) := by
    intro p ω
    simp only [flip]
    rw [Function.update_self, hτ, Function.update_idem, Function.update_eq_self]
  have hfa : ∀ p ω p', p' < r * k → a (flip p ω) p' = a ω p' := by
    intro p ω p' hp'
    obtain ⟨i, j, rfl, -⟩ := hblock p' hp'
    rw [ha, ha]
    congr 1
    congr 1
    funext t
    simp only [flip]
    rw [Function.update_of_ne]
    intro hc
    exact h01 (Prod.mk.inj hc).2
  have hfs : ∀ p < r * k, ∀ ω, ∀ p' < r * k, s (flip p ω) p' = if p' = p then -s ω p' else s ω p' := by
      intro p hp ω p' hp'
      rw [hs, hs]
      by_cases h : p' = p
      · subst h
        have hw : flip p' ω (pos p', ((1 : Int) : ZMod L)) = τ (ω (pos p', ((1 : Int) : ZMod L))) := Function.update_self _ _ _
        rw [hw, if_pos rfl, he, he]
        by_cases h2 : (e (ω (pos p', ((1 : Int) : ZMod L))) : Nat) % 2 = 0
        · rw [if_pos h2, if_neg fun h3 => (hpar _).mp h3 h2]
        · rw [if_neg h2, if_pos ((hpar _).mpr h2), neg_neg]
      · have hw : flip p ω (pos p', ((1 : Int) : ZMod L)) = ω (pos p', ((1 : Int) : ZMod L)) := Function.update_of_ne
          (fun hc => h (hpos _ _ hp' hp (Prod.mk.inj hc).1)) _ _
        rw [if_neg h, hw]
  have hfb : ∀ p < r * k, ∀ ω, ∀ t < r * k, ∀ t' < r * k, a (flip p ω) t = a (flip p ω) t' ↔ a ω t = a ω t' := fun p _ ω t ht t' ht' => by
    rw [hfa p ω t ht, hfa p ω t' ht']
  have hmean := pair_mean (r * k) s (fun ω p p' => a ω p = a ω p') (fun p => x ((p : Int) / k)) flip hfl hfs hfb
  have hmom := pair_moment (r * k) s (fun ω p p' => a ω p = a ω p') (fun p => x ((p : Int) / k)) flip hfl hfs hfb
    (fun ω t t' h => h.symm)
    (fun ω p => by rw [hs]; split_ifs <;> norm_num)
  have hexp : ∀ ω, ∑ i ∈ range n, (∑ q ∈ range r, tripMat (sasoTriples (T := ℝ) (fromWords G ω) seed k n r) i q * x q) ^ 2 - k * ∑ q ∈ range r, x q ^ 2 =
      ∑ z ∈ (range (r * k)).offDiag, if a ω z.1 = a ω z.2 then (s ω z.1 * s ω z.2) * (x ((z.1 : Int) / k) * x ((z.2 : Int) / k)) else 0 := by
    intro ω
    rw [saso_expand hk hkn]
    simp only [a, s]
    ring
  simp only [hexp]
  refine ⟨hmean, ?_⟩
  rw [hmom]
  have hcard : (Fintype.card (ZMod N × ZMod L → W) : ℝ) = (Mw : ℝ) ^ Fintype.card (ZMod N × ZMod L) := by
    rw [Fintype.card_fun, Fintype.card_congr e, Fintype.card_fin]; push_cast; rfl
  rw [hcard]
  -- the number of coincidences of two nonzeros
  have hcount : ∀ z ∈ (range (r * k)).offDiag, ((univ.filter fun ω => a ω z.1 = a ω z.2).card : ℝ) * n ≤
      if z.1 / k = z.2 / k then 0 else (Mw : ℝ) ^ Fintype.card (ZMod N × ZMod L) * (1 + (n : ℝ) / Mw) ^ k := by
    rintro ⟨p, p'⟩ hz
    rw [mem_offDiag, mem_range, mem_range] at hz
    simp only at hz ⊢
    obtain ⟨i, j, hp, hi⟩ := hblock p hz.1
    obtain ⟨i', j', hp', hi'⟩ := hblock p' hz.2.1
    rw [hi, hi']
    split_ifs with h
    · subst h
      have : (univ.filter fun ω => a ω p = a ω p') = ∅ := by
        rw [filter_eq_empty_iff]
        intro ω _ hc
        rw [hp, hp', ha, ha] at hc
        have hinj := ((fyMap_bijOn k n (by exact_mod_cast hkn)).mapsTo (x := fyMod n fun t => G.nat (ω (pos (i * k + t), ((0 : Int) : ZMod L)))) (fun t => by
          have := t.2
          have hlt := Nat.mod_lt (G.nat (ω (pos (i * k + t), ((0 : Int) : ZMod L)))) (show 0 < ((n : Int) - (t : Nat)).toNat by omega)
          show ((G.nat (ω (pos (i * k + t), ((0 : Int) : ZMod L))) % ((n : Int) - (t : Nat)).toNat : Nat) : Int) < _
          omega)).1 hc
        apply hz.2.2
        rw [hp, hp', hinj]
      rw [this]; simp
    · have hin : ∀ (i : Nat) (j : Fin k), i * k + j < r * k → ∀ t : Fin k, i * k + t < r * k := by
        intro i j hij t
        have : i < r := by
          by_contra hc
          have : r * k ≤ i * k := Nat.mul_le_mul_right _ (not_lt.mp hc)
          omega
        have h2 : (i + 1) * k ≤ r * k := Nat.mul_le_mul_right _ this
        have h3 : (i + 1) * k = i * k + k := by ring
        have := t.2
        omega
      have h1 := hin i j (hp ▸ hz.1)
      have h2 := hin i' j' (hp' ▸ hz.2.1)
      have hdiv : ∀ (i : Nat) (t : Fin k), (i * k + t) / k = i := by
        intro i t
        rw [mul_comm, Nat.mul_add_div hk, Nat.div_eq_of_lt t.2, add_zero]
      have key := fy_collide (n := (n : Int)) (by exact_mod_cast hkn) (by exact_mod_cast hM) G.nat e he
        (fun t : Fin k => ((pos (i * k + t), ((0 : Int) : ZMod L)) : ZMod N × ZMod L)) (fun t : Fin k => (pos (i' * k + t), ((0 : Int) : ZMod L)))
        (fun t t' hc => Fin.ext (by have := hpos _ _ (h1 t) (h1 t') (Prod.mk.inj hc).1; omega))
        (fun t t' hc => Fin.ext (by have := hpos _ _ (h2 t) (h2 t') (Prod.mk.inj hc).1; omega))
        (fun t t' hc => by
          have h3 := hpos _ _ (h1 t) (h2 t') (Prod.mk.inj hc).1
          have h4 := congrArg (· / k) h3
          simp only [hdiv] at h4
          exact h h4) j j'
      rw [Int.cast_natCast] at key
      refine le_trans (le_of_eq ?_) key
      congr 3
      ext ω
      simp only [mem_filter, hp, hp', ha]
  -- sum up
  have hu : ∀ z : Nat × Nat, 0 ≤ x ((z.1 : Int) / k) ^ 2 * x ((z.2 : Int) / k) ^ 2 := fun z => by positivity
  set C : ℝ := (Mw : ℝ) ^ Fintype.card (ZMod N × ZMod L) * (1 + (n : ℝ) / Mw) ^ k with hC
  have hsum : ∑ z ∈ (range (r * k)).offDiag, (if z.1 / k = z.2 / k then (0 : ℝ) else C) * (x ((z.1 : Int) / k) ^ 2 * x ((z.2 : Int) / k) ^ 2) =
      C * (k ^ 2 * ((∑ q ∈ range r, x q ^ 2) ^ 2 - ∑ q ∈ range r, x q ^ 4)) := by
    let f : Int → Int → ℝ := fun q q' => if q = q' then 0 else C * (x q ^ 2 * x q' ^ 2)
    have e1 : ∑ z ∈ (range (r * k)).offDiag, (if z.1 / k = z.2 / k then (0 : ℝ) else C) * (x ((z.1 : Int) / k) ^ 2 * x ((z.2 : Int) / k) ^ 2) =
        ∑ z ∈ range (r * k) ×ˢ range (r * k), f ((z.1 : Int) / k) ((z.2 : Int) / k) := by
      rw [← diag_union_offDiag, sum_union (disjoint_diag_offDiag _), sum_diag]
      have : ∀ p ∈ range (r * k), f ((((p, p) : Nat × Nat).1 : Int) / k) ((((p, p) : Nat × Nat).2 : Int) / k) = 0 := fun p _ => by simp [f]
      rw [sum_congr rfl this, sum_const_zero, zero_add]
      refine sum_congr rfl fun z _ => ?_
      simp only [f]
      by_cases h : z.1 / k = z.2 / k
      · rw [if_pos h, if_pos (by exact_mod_cast h), zero_mul]
      · rw [if_neg h, if_neg (by exact_mod_cast h)]
    rw [e1, sum_product' (range (r * k)) (range (r * k)) fun p p' => f ((p : Int) / k) ((p' : Int) / k)]
    have e2 : ∀ p ∈ range (r * k), ∑ p' ∈ range (r * k), f ((p : Int) / k) ((p' : Int) / k) = k * ∑ q' ∈ range r, f ((p : Int) / k) q' := fun p _ =>
      sum_blocks k r fun q' => f ((p : Int) / k) q'
    rw [sum_congr rfl e2, sum_blocks k r fun q => k * ∑ q' ∈ range r, f q q', ← mul_sum]
    have e3 : ∀ q ∈ range r, ∑ q' ∈ range r, f q q' = C * (x q ^ 2 * ∑ q' ∈ range r, x q' ^ 2) - C * x q ^ 4 := by
      intro q hq
      have : ∀ q' ∈ range r, f q q' = C * (x q ^ 2 * x q' ^ 2) - if q = q' then C * x q ^ 4 else 0 := by
        intro q' _
        simp only [f]
        by_cases h : q = q'
        · subst h; rw [if_pos rfl, if_pos rfl]; ring
        · rw [if_neg (by exact_mod_cast h), if_neg h, sub_zero]
      rw [sum_congr rfl this, sum_sub_distrib, ← mul_sum, ← mul_sum, sum_ite_eq (range r) q (fun _ => _), if_pos hq]
    rw [sum_congr rfl e3, sum_sub_distrib, ← mul_sum, ← sum_mul, ← mul_sum]
    ring
  calc _ = 2 * ∑ z ∈ (range (r * k)).offDiag, ((univ.filter fun ω => a ω z.1 = a ω z.2).card * n : ℝ) * (x ((z.1 : Int) / k) ^ 2 * x ((z.2 : Int) / k) ^ 2) := by
        rw [mul_assoc, sum_mul]
        congr 1
        exact sum_congr rfl fun z _ => by ring
    _ ≤ 2 * ∑ z ∈ (range (r * k)).offDiag, (if z.1 / k = z.2 / k then (0 : ℝ) else C) * (x ((z.1 : Int) / k) ^ 2 * x ((z.2 : Int) / k) ^ 2) :=
        mul_le_mul_of_nonneg_left (sum_le_sum fun z hz => mul_le_mul_of_nonneg_right (hcount z hz) (hu z)) (by norm_num)
    _ = _ := by rw [hsum]; ring

/-- From a second moment to a count: at most a fraction `V / ε²` of the cases exceeds `ε t`. -/
theorem fraction_le {Ω : Type} [Fintype Ω] [Nonempty Ω] (D : Ω → ℝ) {t V ε : ℝ} (ht : 0 ≤ t) (hV : 0 ≤ V) (hε : 0 < ε)
    (h : (∑ ω, D ω ^ 2) / Fintype.card Ω ≤ V * t ^ 2) : ((univ.filter fun ω => ε * t < |D ω|).card : ℝ) / Fintype.card Ω ≤ V / ε ^ 2 := by
  have hc : (0 : ℝ) < Fintype.card Ω := by exact_mod_cast Fintype.card_pos
  rw [div_le_iff₀ hc] at h
  rw [div_le_iff₀ hc]
  rcases ht.eq_or_lt with rfl | ht
  · have h0 : ∑ ω, D ω ^ 2 = 0 := le_antisymm (by nlinarith) (sum_nonneg fun ω _ => sq_nonneg _)
    have h1 : ∀ ω, D ω = 0 := fun ω => by
      have := (sum_eq_zero_iff_of_nonneg fun ω _ => sq_nonneg (D ω)).mp h0 ω (mem_univ ω)
      exact pow_eq_zero_iff (two_ne_zero) |>.mp this
    simp only [h1, mul_zero, abs_zero, lt_irrefl, filter_false, card_empty, Nat.cast_zero]
    positivity
  · have h1 := count_le D (show 0 < ε * t by positivity) h
    refine le_trans ?_ (h1.trans (le_of_eq ?_))
    · exact_mod_cast card_le_card fun ω hω => by
        rw [mem_filter] at hω ⊢
        exact ⟨hω.1, hω.2.le⟩
    · field_simp

/-- The first and second moment with the scale. -/
theorem saso_scaled [NeZero N] {L : Nat} [NeZero L] [Fintype W] {G : Gen N K W R} {seed : RNGState N K} {k n r Mw : Nat} (hL : 2 ≤ L)
    (e : W ≃ Fin Mw) (he : ∀ w, G.nat w = e w) (hM2 : Even Mw) (hM : n ≤ Mw) (hk : 0 < k) (hkn : k ≤ n) (hN : r * k ≤ N) {sc : ℝ} (hsc : sc * sc = 1 / k)
    (x : Int → ℝ) :
    (∑ ω : ZMod N × ZMod L → W, ∑ i ∈ range n, (sc * ∑ q ∈ range r, tripMat (sasoTriples (T := ℝ) (fromWords G ω) seed k n r) i q * x q) ^ 2) /
      Fintype.card (ZMod N × ZMod L → W) = ∑ q ∈ range r, x q ^ 2 ∧
    (∑ ω : ZMod N × ZMod L → W, (∑ i ∈ range n, (sc * ∑ q ∈ range r, tripMat (sasoTriples (T := ℝ) (fromWords G ω) seed k n r) i q * x q) ^ 2 -
      ∑ q ∈ range r, x q ^ 2) ^ 2) / Fintype.card (ZMod N × ZMod L → W) ≤
      2 / n * (1 + (n : ℝ) / Mw) ^ k * ((∑ q ∈ range r, x q ^ 2) ^ 2 - ∑ q ∈ range r, x q ^ 4) := by
  obtain ⟨hmean, key⟩ := saso_second (G := G) (seed := seed) hL e he hM2 hM hk hkn hN x
  have hMpos : 0 < Mw := by omega
  have : Nonempty W := ⟨e.symm ⟨0, hMpos⟩⟩
  have hc : (0 : ℝ) < Fintype.card (ZMod N × ZMod L → W) := by exact_mod_cast Fintype.card_pos
  have hk' : (0 : ℝ) < k := by exact_mod_cast hk
  have hn' : (0 : ℝ) < n := by have : 0 < n := by omega
                               exact_mod_cast this
  have h1 : ∀ ω : ZMod N × ZMod L → W, (∑ i ∈ range n, (sc * ∑ q ∈ range r, tripMat (sasoTriples (T := ℝ) (fromWords G ω) seed k n r) i q * x q) ^ 2 -
      ∑ q ∈ range r, x q ^ 2) ^ 2 = (1 / (k : ℝ) ^ 2) *
      (∑ i ∈ range n, (∑ q ∈ range r, tripMat (sasoTriples (T := ℝ) (fromWords G ω) seed k n r) i q * x q) ^ 2 - k * ∑ q ∈ range r, x q ^ 2) ^ 2 := by
    intro ω
    simp only [mul_pow, ← mul_sum]
    rw [sq sc, hsc]
    field_simp
  refine ⟨?_, ?_⟩
  · simp only [mul_pow, ← mul_sum]
    rw [sum_sub_distrib, sum_const, nsmul_eq_mul, card_univ, sub_eq_zero] at hmean
    rw [hmean, sq, hsc]
    field_simp
  simp only [h1, ← mul_sum]
  rw [div_le_iff₀ hc]
  refine le_of_mul_le_mul_right ?_ (show (0 : ℝ) < (k : ℝ) ^ 2 * n by positivity)
  calc _ = _ := by field_simp
    _ ≤ _ := key
    _ = _ := by field_simp

theorem fourth_le (x : Int → ℝ) (r : Nat) : (∑ q ∈ range r, x q ^ 2) ^ 2 - ∑ q ∈ range r, x q ^ 4 ≤ (∑ q ∈ range r, x q ^ 2) ^ 2 := by
  have : 0 ≤ ∑ q ∈ range r, x q ^ 4 := sum_nonneg fun q _ => by positivity
  linarith

/-- What filling a short-axis operator produces, with its number of long-axis positions. -/
theorem saso_setup {S : SparseSkOp N K ℝ} (hS : SparseOpOk S) (hax : S.dist.majorAxis = .Short) : ∃ k n r : Nat, 0 < k ∧ k ≤ n ∧
    S.dist.vecNnz = k ∧ S.dist.dimMajor = n ∧ S.dist.dimMinor = r ∧ min S.nRows S.nCols = n ∧ max S.nRows S.nCols = r ∧ S.dist.fullNnz = (r * k : Nat) := by
  obtain ⟨hR, hC, hk, hkd, hfull, hfit, hax'⟩ := sparseDist_facts hS.dist
  obtain ⟨hmaj, hmin⟩ : S.dist.dimMajor = min S.dist.nRows S.dist.nCols ∧ S.dist.dimMinor = max S.dist.nRows S.dist.nCols := by
    rcases hax' with ⟨a, b, c⟩ | ⟨a, b, c⟩
    · exact ⟨b, c⟩
    · rw [a] at hax; cases hax
  rw [hS.nRows, hS.nCols, ← hmaj, ← hmin]
  have hmin0 : 0 < S.dist.dimMinor := by omega
  have hmaj0 : 0 < S.dist.dimMajor := by omega
  refine ⟨S.dist.vecNnz.toNat, S.dist.dimMajor.toNat, S.dist.dimMinor.toNat, by omega, by omega, by omega, by omega, by omega, by omega, by omega, ?_⟩
  rw [hfull]; push_cast
  rw [Int.toNat_of_nonneg (by omega), Int.toNat_of_nonneg (by omega), mul_comm]

/-- C80 (moments, wide). Over all words that a generator may yield (`G` only fixes their number, which is even and at least the number of rows), the
squared norm of the product of a wide short-axis operator, scaled by `isometry_scale`, with a vector `x` has the average `‖x‖²` and a mean squared deviation from it of at most
`2/d (1 + d/M)^k (‖x‖⁴ - Σ x_j⁴)`, where `d` is the number of rows, `k` the number of nonzeros per column and `M` the number of words. -/
theorem C80_moments_wide [NeZero N] [Field R] [LinearOrder R] [FloorRing R] [Fintype W] {L : Nat} [NeZero L] {G : Gen N K W R}
    {order : Int → List (Int × ℝ) → List (Int × ℝ)} {S : SparseSkOp N K ℝ} (hG : G.Ok) (hL : G.len = L) {Mw : Nat} (e : W ≃ Fin Mw)
    (he : ∀ w, G.nat w = e w) (hM2 : Even Mw) (hM : S.nRows ≤ Mw) (hord : ∀ i l, (order i l).Perm l) (hS : SparseOpOk S)
    (hax : S.dist.majorAxis = .Short) (hN : S.dist.fullNnz ≤ N) (hdim : S.nRows ≤ S.nCols) : ∃ A : (ZMod N × ZMod L → W) → Int → Int → ℝ,
    (∀ ω, M.wp (fillSparse (fromWords G ω) Real.sqrt order) S (fun _ S' => ∃ E, OpHolds S' E ∧ toMat E = A ω)) ∧
    ∀ x : Int → ℝ, (∑ ω, ∑ i ∈ range S.nRows.toNat, (S.dist.isometryScale * ∑ j ∈ range S.nCols.toNat, A ω i j * x j) ^ 2) /
        Fintype.card (ZMod N × ZMod L → W) = ∑ j ∈ range S.nCols.toNat, x j ^ 2 ∧
      (∑ ω, (∑ i ∈ range S.nRows.toNat, (S.dist.isometryScale * ∑ j ∈ range S.nCols.toNat, A ω i j * x j) ^ 2 -
        ∑ j ∈ range S.nCols.toNat, x j ^ 2) ^ 2) / Fintype.card (ZMod N × ZMod L → W) ≤
      2 / S.nRows * (1 + (S.nRows : ℝ) / Mw) ^ S.dist.vecNnz.toNat * ((∑ j ∈ range S.nCols.toNat, x j ^ 2) ^ 2 - ∑ j ∈ range S.nCols.toNat, x j ^ 4) := by
  obtain ⟨k, n, r, hk, hkn, ek, en, er, hn, hr, hf⟩ := saso_setup hS hax
  rw [min_eq_left hdim] at hn
  rw [max_eq_right hdim] at hr
  rw [hf] at hN
  refine ⟨fun ω => tripMat (sasoTriples (fromWords G ω) S.seedState S.dist.vecNnz S.dist.dimMajor S.dist.dimMinor), fun ω => ?_, fun x => ?_⟩
  · refine M.wp_mono (fill_saso (G := fromWords G ω) hG hord hS hax) fun _ S' h => ⟨_, h, ?_⟩
    funext i j
    exact toMat_mkEntry_wide (by rw [← hS.nRows, ← hS.nCols]; exact hdim) _ i j
  · have hsc := scale_short hax (by omega : 0 < S.dist.vecNnz)
    rw [ek, Int.cast_natCast] at hsc
    have hL2 : 2 ≤ L := by rcases hG with h | h <;> omega
    simp only [ek, en, er, hn, hr, Int.toNat_natCast, Int.cast_natCast]
    exact saso_scaled hL2 e he hM2 (by omega) hk hkn (by exact_mod_cast hN) hsc x

/-- C80 (moments, tall). The transposed statement. -/
theorem C80_moments_tall [NeZero N] [Field R] [LinearOrder R] [FloorRing R] [Fintype W] {L : Nat} [NeZero L] {G : Gen N K W R}
    {order : Int → List (Int × ℝ) → List (Int × ℝ)} {S : SparseSkOp N K ℝ} (hG : G.Ok) (hL : G.len = L) {Mw : Nat} (e : W ≃ Fin Mw)
    (he : ∀ w, G.nat w = e w) (hM2 : Even Mw) (hM : S.nCols ≤ Mw) (hord : ∀ i l, (order i l).Perm l) (hS : SparseOpOk S)
    (hax : S.dist.majorAxis = .Short) (hN : S.dist.fullNnz ≤ N) (hdim : S.nCols < S.nRows) : ∃ A : (ZMod N × ZMod L → W) → Int → Int → ℝ,
    (∀ ω, M.wp (fillSparse (fromWords G ω) Real.sqrt order) S (fun _ S' => ∃ E, OpHolds S' E ∧ toMat E = A ω)) ∧
    ∀ x : Int → ℝ, (∑ ω, ∑ j ∈ range S.nCols.toNat, (S.dist.isometryScale * ∑ i ∈ range S.nRows.toNat, A ω i j * x i) ^ 2) /
        Fintype.card (ZMod N × ZMod L → W) = ∑ i ∈ range S.nRows.toNat, x i ^ 2 ∧
      (∑ ω, (∑ j ∈ range S.nCols.toNat, (S.dist.isometryScale * ∑ i ∈ range S.nRows.toNat, A ω i j * x i) ^ 2 -
        ∑ i ∈ range S.nRows.toNat, x i ^ 2) ^ 2) / Fintype.card (ZMod N × ZMod L → W) ≤
      2 / S.nCols * (1 + (S.nCols : ℝ) / Mw) ^ S.dist.vecNnz.toNat * ((∑ i ∈ range S.nRows.toNat, x i ^ 2) ^ 2 - ∑ i ∈ range S.nRows.toNat, x i ^ 4) := by
  obtain ⟨k, n, r, hk, hkn, ek, en, er, hn, hr, hf⟩ := saso_setup hS hax
  rw [min_eq_right hdim.le] at hn
  rw [max_eq_left hdim.le] at hr
  rw [hf] at hN
  refine ⟨fun ω i j => tripMat (sasoTriples (fromWords G ω) S.seedState S.dist.vecNnz S.dist.dimMajor S.dist.dimMinor) j i, fun ω => ?_, fun x => ?_⟩
  · refine M.wp_mono (fill_saso (G := fromWords G ω) hG hord hS hax) fun _ S' h => ⟨_, h, ?_⟩
    funext i j
    exact toMat_mkEntry_tall (by rw [← hS.nRows, ← hS.nCols]; exact hdim) _ i j
  · have hsc := scale_short hax (by omega : 0 < S.dist.vecNnz)
    rw [ek, Int.cast_natCast] at hsc
    have hL2 : 2 ≤ L := by rcases hG with h | h <;> omega
    simp only [ek, en, er, hn, hr, Int.toNat_natCast, Int.cast_natCast]
    exact saso_scaled hL2 e he hM2 (by omega) hk hkn (by exact_mod_cast hN) hsc x

/-- C80 (distortion, wide). For every vector `x` and every `ε > 0`, the squared norm of the scaled product differs from `‖x‖²` by more than `ε ‖x‖²` for at most a fraction
`2 (1 + d/M)^k / (d ε²)` of all choices of the words. The bound does not depend on the number of columns. -/
theorem C80_distortion_wide [NeZero N] [Field R] [LinearOrder R] [FloorRing R] [Fintype W] {L : Nat} [NeZero L] {G : Gen N K W R}
    {order : Int → List (Int × ℝ) → List (Int × ℝ)} {S : SparseSkOp N K ℝ} (hG : G.Ok) (hL : G.len = L) {Mw : Nat} (e : W ≃ Fin Mw)
    (he : ∀ w, G.nat w = e w) (hM2 : Even Mw) (hM : S.nRows ≤ Mw) (hord : ∀ i l, (order i l).Perm l) (hS : SparseOpOk S)
    (hax : S.dist.majorAxis = .Short) (hN : S.dist.fullNnz ≤ N) (hdim : S.nRows ≤ S.nCols) : ∃ A : (ZMod N × ZMod L → W) → Int → Int → ℝ,
    (∀ ω, M.wp (fillSparse (fromWords G ω) Real.sqrt order) S (fun _ S' => ∃ E, OpHolds S' E ∧ toMat E = A ω)) ∧
    ∀ (x : Int → ℝ) (ε : ℝ), 0 < ε → ((univ.filter fun ω => ε * ∑ j ∈ range S.nCols.toNat, x j ^ 2 <
        |∑ i ∈ range S.nRows.toNat, (S.dist.isometryScale * ∑ j ∈ range S.nCols.toNat, A ω i j * x j) ^ 2 - ∑ j ∈ range S.nCols.toNat, x j ^ 2|).card : ℝ) /
        Fintype.card (ZMod N × ZMod L → W) ≤ 2 / S.nRows * (1 + (S.nRows : ℝ) / Mw) ^ S.dist.vecNnz.toNat / ε ^ 2 := by
  obtain ⟨A, hA, h⟩ := C80_moments_wide hG hL e he hM2 hM hord hS hax hN hdim
  obtain ⟨hR, -⟩ := sparseDist_facts hS.dist
  rw [← hS.nRows] at hR
  have hR' : (0 : ℝ) < S.nRows := by exact_mod_cast hR
  have : Nonempty W := ⟨e.symm ⟨0, by omega⟩⟩
  refine ⟨A, hA, fun x ε hε => fraction_le _ (sum_nonneg fun j _ => sq_nonneg _) (by positivity) hε ((h x).2.trans ?_)⟩
  exact mul_le_mul_of_nonneg_left (fourth_le x _) (by positivity)

/-- C80 (distortion, tall). The transposed statement. -/
theorem C80_distortion_tall [NeZero N] [Field R] [LinearOrder R] [FloorRing R] [Fintype W] {L : Nat} [NeZero L] {G : Gen N K W R}
    {order : Int → List (Int × ℝ) → List (Int × ℝ)} {S : SparseSkOp N K ℝ} (hG : G.Ok) (hL : G.len = L) {Mw : Nat} (e : W ≃ Fin Mw)
    (he : ∀ w, G.nat w = e w) (hM2 : Even Mw) (hM : S.nCols ≤ Mw) (hord : ∀ i l, (order i l).Perm l) (hS : SparseOpOk S)
    (hax : S.dist.majorAxis = .Short) (hN : S.dist.fullNnz ≤ N) (hdim : S.nCols < S.nRows) : ∃ A : (ZMod N × ZMod L → W) → Int → Int → ℝ,
    (∀ ω, M.wp (fillSparse (fromWords G ω) Real.sqrt order) S (fun _ S' => ∃ E, OpHolds S' E ∧ toMat E = A ω)) ∧
    ∀ (x : Int → ℝ) (ε : ℝ), 0 < ε → ((univ.filter fun ω => ε * ∑ i ∈ range S.nRows.toNat, x i ^ 2 <
        |∑ j ∈ range S.nCols.toNat, (S.dist.isometryScale * ∑ i ∈ range S.nRows.toNat, A ω i j * x i) ^ 2 - ∑ i ∈ range S.nRows.toNat, x i ^ 2|).card : ℝ) /
        Fintype.card (ZMod N × ZMod L → W) ≤ 2 / S.nCols * (1 + (S.nCols : ℝ) / Mw) ^ S.dist.vecNnz.toNat / ε ^ 2 := by
  obtain ⟨A, hA, h⟩ := C80_moments_tall hG hL e he hM2 hM hord hS hax hN hdim
  obtain ⟨-, hC, -⟩ := sparseDist_facts hS.dist
  rw [← hS.nCols] at hC
  have hC' : (0 : ℝ) < S.nCols := by exact_mod_cast hC
  have : Nonempty W := ⟨e.symm ⟨0, by omega⟩⟩
  refine ⟨A, hA, fun x ε hε => fraction_le _ (sum_nonneg fun j _ => sq_nonneg _) (by positivity) hε ((h x).2.trans ?_)⟩
  exact mul_le_mul_of_nonneg_left (fourth_le x _) (by positivity)

/-- The hypotheses are met by a generator of 32-bit words and by a 3 x 8 and an 8 x 3 operator. -/
example : midGen.Ok ∧ midGen.len = (4 : Nat) ∧ (∀ w, midGen.nat w = (Equiv.refl (Fin (2 ^ 32))) w) ∧ Even (2 ^ 32) ∧
    SparseOpOk (mkSparseSkOp 4 exSaso ⟨0, 7⟩ : SparseSkOp (2 ^ 128) Nat ℝ) ∧ exSaso.majorAxis = .Short ∧ exSaso.fullNnz ≤ ((2 ^ 128 : Nat) : Int) ∧
    exSaso.nRows ≤ exSaso.nCols ∧ exSaso.nRows ≤ 2 ^ 32 ∧
    SparseOpOk (mkSparseSkOp 4 exSasoTall ⟨0, 7⟩ : SparseSkOp (2 ^ 128) Nat ℝ) ∧ exSasoTall.majorAxis = .Short ∧
    exSasoTall.fullNnz ≤ ((2 ^ 128 : Nat) : Int) ∧ exSasoTall.nCols < exSasoTall.nRows ∧ exSasoTall.nCols ≤ 2 ^ 32 :=
  ⟨Or.inr rfl, rfl, fun _ => rfl, by decide, mkSparseSkOp_ok 4 exSaso_ok _, rfl, by decide, by decide, by decide,
    mkSparseSkOp_ok 4 (show SparseDistOk exSasoTall from ⟨by decide, by decide⟩) _, rfl, by decide, by decide, by decide⟩

end RB
