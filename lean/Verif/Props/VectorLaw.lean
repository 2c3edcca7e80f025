import Verif.Props.DistortionLong
import Mathlib.Data.Nat.Factorial.BigOperators

/-!
# C116: the law of the major-axis vectors of a sparse operator (long axis)

The documentation describes a long-axis vector as follows: `k` locations are drawn with replacement, and the entry at a location that is drawn `ℓ` times is `√ℓ` or `-√ℓ` with
probability 1/2. Here the law of the stored vectors is computed over all words that an ideal generator may yield.
-/

namespace RB
open Spec Finset
variable {N : Nat} {K W R : Type}

/-- The number of sequences of `k` indices below `n` in which each index `l` occurs `ℓ l` times. -/
def Spec.countSeqs (k n : Nat) (ℓ : Fin n → Nat) : Nat := (univ.filter fun s : Fin k → Fin n => ∀ l, (univ.filter fun t => s t = l).card = ℓ l).card

/-- The number of sequences is a multinomial coefficient. -/
theorem C116_count (k n : Nat) (ℓ : Fin n → Nat) (h : ∑ l, ℓ l = k) : countSeqs k n ℓ * ∏ l, (ℓ l).factorial = k.factorial := by
  induction k generalizing ℓ with
  | zero =>
    have hz : ∀ l, ℓ l = 0 := fun l => by simpa using (sum_eq_zero_iff.mp h) l (mem_univ l)
    simp [countSeqs, hz]
  | succ k ih =>
    have hsplit : countSeqs (k + 1) n ℓ = ∑ j : Fin n, if 0 < ℓ j then countSeqs k n (Function.update ℓ j (ℓ j - 1)) else 0 := by
      unfold countSeqs
      rw [← Fintype.card_subtype, ← Fintype.card_congr ((Fin.consEquiv (fun _ : Fin (k + 1) => Fin n)).subtypeEquiv (p := fun z => ∀ l,
        (univ.filter fun t => (Fin.consEquiv (fun _ : Fin (k + 1) => Fin n)) z t = l).card = ℓ l) (fun z => Iff.rfl)), Fintype.card_subtype]
      rw [card_eq_sum_card_fiberwise (f := fun z : Fin n × (Fin k → Fin n) => z.1) (t := univ) (fun _ _ => mem_univ _)]
      refine sum_congr rfl fun j _ => ?_
      have hc : ∀ (s : Fin k → Fin n) (l : Fin n), (univ.filter fun t => (Fin.consEquiv (fun _ : Fin (k + 1) => Fin n)) (j, s) t = l).card =
          (if j = l then 1 else 0) + (univ.filter fun t => s t = l).card := by
        intro s l
        rw [card_filter, Fin.sum_univ_succ, card_filter]
        simp only [Fin.consEquiv_apply, Fin.cons_zero, Fin.cons_succ]
      split_ifs with hj
      · refine card_bij (fun z _ => z.2) (fun z hz => ?_) (fun z hz z' hz' e => ?_) (fun s hs => ⟨(j, s), ?_, rfl⟩)
        · obtain ⟨z1, z2⟩ := z
          rw [mem_filter, mem_filter] at hz
          obtain ⟨⟨-, h1⟩, rfl⟩ := hz
          rw [mem_filter]
          refine ⟨mem_univ _, fun l => ?_⟩
          have := h1 l
          rw [hc] at this
          by_cases hl : z1 = l
          · subst hl; rw [if_pos rfl] at this; rw [Function.update_self]; dsimp only at *; omega
          · rw [if_neg hl, zero_add] at this; rw [Function.update_of_ne (Ne.symm hl)]; exact this
        · rw [mem_filter] at hz hz'
          exact Prod.ext (hz.2.trans hz'.2.symm) e
        · rw [mem_filter] at hs
          rw [mem_filter, mem_filter]
          refine ⟨⟨mem_univ _, fun l => ?_⟩, rfl⟩
          rw [hc, hs.2 l]
          by_cases hl : j = l
          · subst hl; rw [if_pos rfl, Function.update_self]; omega
          · rw [if_neg hl, zero_add, Function.update_of_ne (Ne.symm hl)]
      · rw [card_eq_zero, filter_eq_empty_iff]
        rintro ⟨z1, z2⟩ hz rfl
        rw [mem_filter] at hz
        have := hz.2 z1
        rw [hc, if_pos rfl] at this
        dsimp only at hj
        omega
    rw [hsplit, sum_mul]
    have hterm : ∀ j : Fin n, (if 0 < ℓ j then countSeqs k n (Function.update ℓ j (ℓ j - 1)) else 0) * ∏ l, (ℓ l).factorial = ℓ j * k.factorial := by
      intro j
      split_ifs with hj
      · have hs : ∑ l, Function.update ℓ j (ℓ j - 1) l = k := by
          have h1 : ℓ j + ∑ l ∈ univ.erase j, ℓ l = ∑ l, ℓ l := add_sum_erase univ ℓ (mem_univ j)
          have h2 := add_sum_erase univ (Function.update ℓ j (ℓ j - 1)) (mem_univ j)
          rw [Function.update_self, sum_congr rfl (g := fun l => ℓ l) fun l hl => Function.update_of_ne (ne_of_mem_erase hl) _ _] at h2
          omega
        have hp : ∏ l ∈ univ.erase j, (Function.update ℓ j (ℓ j - 1) l).factorial = ∏ l ∈ univ.erase j, (ℓ l).factorial :=
          prod_congr rfl fun l hl => by rw [Function.update_of_ne (ne_of_mem_erase hl)]
        rw [← ih _ hs, ← mul_prod_erase univ (fun l => (ℓ l).factorial) (mem_univ j),
          ← mul_prod_erase univ (fun l => (Function.update ℓ j (ℓ j - 1) l).factorial) (mem_univ j), Function.update_self, hp,
          ← Nat.mul_factorial_pred (by omega : ℓ j ≠ 0)]
        ring
      · have : ℓ j = 0 := by omega
        rw [this]; simp
    rw [sum_congr rfl fun j _ => hterm j, ← sum_mul, h, Nat.factorial_succ]

theorem pr_fiber {Ω J : Type} [Fintype Ω] [Fintype J] [DecidableEq J] (f : Ω → J) (p : Ω → Prop) : Pr p = ∑ s, Pr (fun ω => f ω = s ∧ p ω) := by
  classical
  simp only [pr_eq]
  rw [← sum_div, card_eq_sum_card_fiberwise (f := f) (t := univ) (fun _ _ => mem_univ _)]
  push_cast
  congr 1
  refine sum_congr rfl fun s _ => ?_
  rw [filter_filter]
  congr 2
  ext ω
  simp only [mem_filter, mem_univ, true_and]
  exact and_comm

/-- The law of the vector with the entries `√(occurrences of l) * (sign of the first occurrence)`. -/
theorem laso_law {ι : Type} [Fintype ι] [DecidableEq ι] [Fintype W] [Nonempty W] (f : W → Int) (g : W → ℝ) (k n : Nat) (hf : ∀ w, 0 ≤ f w ∧ f w < n)
    (hg : ∀ w, g w = 1 ∨ g w = -1) (hg2 : ∀ s : ℝ, s = 1 ∨ s = -1 → Pr (fun w => g w = s) = 1 / 2) (pI pS : Int → ι)
    (hII : ∀ t t' : Nat, t < k → t' < k → pI t = pI t' → t = t')
    (hIS : ∀ t t' : Nat, t < k → t' < k → pI t ≠ pS t') (hSS : ∀ t t' : Nat, t < k → t' < k → pS t = pS t' → t = t')
    (ℓ : Fin n → Nat) (σ : Fin n → ℝ) (hσ : ∀ l, σ l = 1 ∨ σ l = -1) :
    Pr (fun ω : ι → W => ∀ l : Fin n, Real.sqrt (occurrences (fun t => f (ω (pI t))) k (l : Nat)) *
      g (ω (pS (firstOcc (fun t => f (ω (pI t))) (l : Nat)))) = σ l * Real.sqrt (ℓ l)) =
    countSeqs k n ℓ * (∏ l : Fin n, Pr (fun w => f w = ((l : Nat) : Int)) ^ ℓ l) * (1 / 2) ^ (univ.filter fun l => ℓ l ≠ 0).card := by
  classical
  let samp : (ι → W) → Fin k → Fin n := fun ω t => ⟨(f (ω (pI (t : Nat)))).toNat, by have := hf (ω (pI (t : Nat))); omega⟩
  have hsamp : ∀ ω s, samp ω = s ↔ ∀ t : Fin k, f (ω (pI (t : Nat))) = ((s t : Nat) : Int) := by
    intro ω s
    constructor
    · rintro rfl t
      have := hf (ω (pI (t : Nat)))
      simp only [samp]
      omega
    · intro h
      funext t
      refine Fin.ext ?_
      simp only [samp]
      have := h t
      omega
  rw [pr_fiber samp]
  have hocc : ∀ ω s (l : Fin n), samp ω = s → occurrences (fun t => f (ω (pI t))) k (l : Nat) = (univ.filter fun t => s t = l).card := by
    intro ω s l hs
    rw [hsamp] at hs
    unfold occurrences
    rw [Int.toNat_natCast]
    refine (card_bij (fun (t : Fin k) _ => (t : Nat)) (fun t ht => ?_) (fun t _ t' _ e => Fin.ext e) (fun t ht => ?_)).symm
    · rw [mem_filter] at ht
      rw [mem_filter, mem_range]
      refine ⟨t.2, ?_⟩
      show f (ω (pI (t : Nat))) = _
      rw [hs t, ht.2]
    · rw [mem_filter, mem_range] at ht
      refine ⟨⟨t, ht.1⟩, ?_, rfl⟩
      rw [mem_filter]
      refine ⟨mem_univ _, Fin.ext ?_⟩
      have h1 := hs ⟨t, ht.1⟩
      have h2 : f (ω (pI (t : Int))) = ((l : Nat) : Int) := ht.2
      simp only at h1
      omega
  have hone : ∀ s : Fin k → Fin n, Pr (fun ω : ι → W => samp ω = s ∧ ∀ l : Fin n, Real.sqrt (occurrences (fun t => f (ω (pI t))) k (l : Nat)) *
      g (ω (pS (firstOcc (fun t => f (ω (pI t))) (l : Nat)))) = σ l * Real.sqrt (ℓ l)) =
      if (∀ l, (univ.filter fun t => s t = l).card = ℓ l) then (∏ l : Fin n, Pr (fun w => f w = ((l : Nat) : Int)) ^ ℓ l) * (1 / 2) ^ (univ.filter fun l => ℓ l ≠ 0).card
        else 0 := by
    intro s
    split_ifs with hs
    · -- the first position of each index
      have hfirst : ∀ l, ∃ t : Nat, ℓ l ≠ 0 → ∃ h : t < k, s ⟨t, h⟩ = l ∧ ∀ t' (h' : t' < t), s ⟨t', by omega⟩ ≠ l := by
        intro l
        by_cases h0 : ℓ l = 0
        · exact ⟨0, fun h => absurd h0 h⟩
        have hne : (univ.filter fun t => s t = l).Nonempty := by
          rw [← card_pos, hs l]; omega
        refine ⟨((univ.filter fun t => s t = l).min' hne : Fin k), fun _ => ⟨Fin.is_lt _, ?_, fun t' h' he => ?_⟩⟩
        · have := min'_mem _ hne
          rw [mem_filter] at this
          exact this.2
        · have h2 : ((univ.filter fun t => s t = l).min' hne) ≤ ⟨t', lt_trans h' (Fin.is_lt _)⟩ :=
            min'_le _ _ (by rw [mem_filter]; exact ⟨mem_univ _, he⟩)
          have h3 : (((univ.filter fun t => s t = l).min' hne : Fin k) : Nat) ≤ t' := h2
          omega
      choose fs hfs using hfirst
      have hev : ∀ ω : ι → W, (samp ω = s ∧ ∀ l : Fin n, Real.sqrt (occurrences (fun t => f (ω (pI t))) k (l : Nat)) *
          g (ω (pS (firstOcc (fun t => f (ω (pI t))) (l : Nat)))) = σ l * Real.sqrt (ℓ l)) ↔
          (∀ t ∈ (univ : Finset (Fin k)), f (ω (pI (t : Nat))) = ((s t : Nat) : Int)) ∧ ∀ l ∈ univ.filter (fun l => ℓ l ≠ 0), g (ω (pS (fs l))) = σ l := by
        intro ω
        rw [hsamp]
        simp only [mem_univ, forall_true_left, mem_filter, true_and]
        refine and_congr_right fun h => forall_congr' fun l => ?_
        rw [hocc ω s l ((hsamp ω s).mpr h), hs l]
        by_cases h0 : ℓ l = 0
        · simp [h0]
        obtain ⟨h1, h2, h3⟩ := hfs l h0
        have hpos : Real.sqrt (ℓ l : ℝ) ≠ 0 := (Real.sqrt_pos.mpr (by exact_mod_cast Nat.pos_of_ne_zero h0)).ne'
        have he : (firstOcc (fun t => f (ω (pI t))) ((l : Nat) : Int) : Int) = (fs l : Nat) := by
          refine firstOcc_eq (by omega) ?_ ?_
          · have := h ⟨fs l, h1⟩
            rw [h2] at this
            exact this
          · intro t' h0' hlt he
            have h4 := h ⟨t'.toNat, by omega⟩
            simp only [Int.toNat_of_nonneg h0'] at h4
            have h5 : f (ω (pI t')) = ((l : Nat) : Int) := he
            exact h3 t'.toNat (by omega) (Fin.ext (by omega))
        rw [he, mul_comm (σ l), mul_right_inj' hpos]
        exact ⟨fun h _ => h, fun h => h h0⟩
      rw [pr_congr hev, pr_and (S := fun x => ∃ t : Fin k, x = pI (t : Nat)) (S' := fun x => ∃ t : Fin k, x = pS (t : Nat))]
      · rw [pr_forall univ (S := fun (t : Fin k) x => x = pI (t : Nat)) (p := fun (t : Fin k) (ω : ι → W) => f (ω (pI (t : Nat))) = ((s t : Nat) : Int)),
          pr_forall (univ.filter fun l => ℓ l ≠ 0) (S := fun l x => x = pS (fs l)) (p := fun l (ω : ι → W) => g (ω (pS (fs l))) = σ l)]
        · congr 1
          · rw [prod_congr rfl fun (t : Fin k) _ => pr_eval (pI (t : Nat)) fun w => f w = ((s t : Nat) : Int),
              ← prod_fiberwise' univ s (fun l => Pr (fun w => f w = ((l : Nat) : Int)))]
            refine prod_congr rfl fun l _ => ?_
            rw [prod_const, hs l]
          · rw [prod_congr rfl fun l _ => (pr_eval (pS (fs l)) fun w => g w = σ l).trans (hg2 (σ l) (hσ l)), prod_const]
        · intro l _ ω ω' h
          beta_reduce
          rw [h _ rfl]
        · intro l hl l' hl' hne x hx hx'
          rw [mem_filter] at hl hl'
          obtain ⟨h1, h2, -⟩ := hfs l hl.2
          obtain ⟨h1', h2', -⟩ := hfs l' hl'.2
          have := hSS _ _ h1 h1' (hx.symm.trans hx')
          refine hne ?_
          rw [← h2, ← h2']
          congr 1
          exact Fin.ext this
        · intro t _ ω ω' h
          beta_reduce
          rw [h _ rfl]
        · intro t _ t' _ hne x hx hx'
          exact hne (Fin.ext (hII _ _ t.2 t'.2 (hx.symm.trans hx')))
      · intro ω ω' h
        refine forall_congr' fun t => forall_congr' fun _ => ?_
        rw [h _ ⟨t, rfl⟩]
      · intro ω ω' h
        refine forall_congr' fun l => forall_congr' fun hl => ?_
        rw [mem_filter] at hl
        obtain ⟨h1, -⟩ := hfs l hl.2
        rw [h _ ⟨⟨fs l, h1⟩, rfl⟩]
      · rintro x ⟨t, ht⟩ ⟨t', ht'⟩
        exact hIS _ _ t.2 t'.2 (ht.symm.trans ht')
    · rw [pr_eq, div_eq_zero_iff]
      left
      rw [Nat.cast_eq_zero, card_eq_zero, filter_eq_empty_iff]
      rintro ω - ⟨h1, h2⟩
      refine hs fun l => ?_
      have h3 := congrArg (fun z => z ^ 2) (h2 l)
      simp only [mul_pow, Real.sq_sqrt (Nat.cast_nonneg _)] at h3
      have h4 : ∀ z : ℝ, z = 1 ∨ z = -1 → z ^ 2 = 1 := by rintro z (rfl | rfl) <;> norm_num
      rw [h4 _ (hg _), h4 _ (hσ l), mul_one, one_mul, hocc ω s l h1] at h3
      exact_mod_cast h3
  rw [sum_congr rfl fun s _ => hone s, ← sum_filter, sum_const, nsmul_eq_mul, mul_assoc]
  rfl

/-- If the words can be paired such that exactly one of each pair is mapped to a nonnegative number, half of them are. -/
theorem pr_half [Fintype W] [Nonempty W] {P : W → Prop} {τ : W → W} (hτ : Function.Involutive τ) (hP : ∀ w, P (τ w) ↔ ¬ P w) : Pr P = 1 / 2 := by
  classical
  have h1 : Pr (fun w => ¬ P w) = Pr P := by
    rw [← pr_equiv hτ.toPerm P]
    exact pr_congr fun w => (hP w).symm
  have h2 : Pr P + Pr (fun w => ¬ P w) = 1 := by
    have hW : (0 : ℝ) < Fintype.card W := by exact_mod_cast Fintype.card_pos
    rw [pr_eq, pr_eq, ← add_div, div_eq_one_iff_eq hW.ne']
    have := card_filter_add_card_filter_not (s := (univ : Finset W)) (p := P)
    rw [card_univ] at this
    exact_mod_cast this
  linarith

theorem pr_sign [Fintype W] [Nonempty W] {P : W → Prop} [DecidablePred P] (h : Pr P = 1 / 2) (s : ℝ) (hs : s = 1 ∨ s = -1) :
    Pr (fun w => (if P w then (1 : ℝ) else -1) = s) = 1 / 2 := by
  classical
  have h2 : Pr P + Pr (fun w => ¬ P w) = 1 := by
    have hW : (0 : ℝ) < Fintype.card W := by exact_mod_cast Fintype.card_pos
    rw [pr_eq, pr_eq, ← add_div, div_eq_one_iff_eq hW.ne']
    have := card_filter_add_card_filter_not (s := (univ : Finset W)) (p := P)
    rw [card_univ] at this
    exact_mod_cast this
  rcases hs with rfl | rfl
  · rw [← h]
    refine pr_congr fun w => ?_
    by_cases hw : P w <;> simp [hw]; norm_num
  · rw [show (1 : ℝ) / 2 = Pr (fun w => ¬ P w) by linarith]
    refine pr_congr fun w => ?_
    by_cases hw : P w <;> simp [hw]; norm_num

/-- C116 (long axis). Over all words that a generator may yield (`G` only fixes how words become uniform values; as many of them are negative as not), the law of each long-axis
vector of a filled operator is the documented one: the vector with the entries `σ_l √(ℓ_l)` occurs with the probability that `k` independent draws with replacement (index `l` has
probability `p_l`) yield each index `l` exactly `ℓ_l` times, times 1/2 for each index that occurs. -/
theorem C116_long_axis [NeZero N] [Field R] [LinearOrder R] [IsStrictOrderedRing R] [FloorRing R] [Fintype W] [Nonempty W] {L : Nat} [NeZero L]
    {G : Gen N K W R} {τ : W → W} {order : Int → List (Int × ℝ) → List (Int × ℝ)} {S : SparseSkOp N K ℝ} (hG : G.Ok) (hL : G.len = L)
    (hu : ∀ w, -1 ≤ G.uneg11 w ∧ G.uneg11 w < 1) (hτ : Function.Involutive τ) (hsign : ∀ w, 0 ≤ G.uneg11 (τ w) ↔ ¬ 0 ≤ G.uneg11 w)
    (hord : ∀ i l, (order i l).Perm l) (hS : SparseOpOk S) (hax : S.dist.majorAxis = .Long) (hN : S.dist.fullNnz ≤ N) {k n : Nat}
    (hk : S.dist.vecNnz = k) (hn : max S.nRows S.nCols = n) : ∃ A : (ZMod N × ZMod L → W) → Int → Int → ℝ,
    (∀ ω, M.wp (fillSparse (fromWords G ω) Real.sqrt order) S (fun _ S' => ∃ E, OpHolds S' E ∧ toMat E = A ω)) ∧
    ∀ (q : Nat) (ℓ : Fin n → Nat) (σ : Fin n → ℝ), q < min S.nRows S.nCols → (∀ l, σ l = 1 ∨ σ l = -1) →
      Pr (fun ω => ∀ l : Fin n, (if S.nRows ≤ S.nCols then A ω q (l : Nat) else A ω (l : Nat) q) = σ l * Real.sqrt (ℓ l)) =
        countSeqs k n ℓ * (∏ l : Fin n, indexProb G n (l : Nat) ^ ℓ l) * (1 / 2) ^ (univ.filter fun l => ℓ l ≠ 0).card := by
  classical
  obtain ⟨k', d, n', A, hk0, hd, hn0, ek, ef, ed, en, hsc, hA, hent⟩ := laso_fill (L := L) hG hu hord hS hax
  obtain rfl : k' = k := by omega
  obtain rfl : n' = n := by omega
  have hL2 : 2 ≤ L := by rcases hG with h | h <;> omega
  rw [ef] at hN
  have hN' : k' * d ≤ N := by exact_mod_cast hN
  refine ⟨A, hA, fun q ℓ σ hq hσ => ?_⟩
  have hq' : q < d := by omega
  have hinj : ∀ m m' : Int, 0 ≤ m → m < 2 * k' → 0 ≤ m' → m' < 2 * k' → (lasoPos S.seedState k' q m : ZMod N × ZMod L) = lasoPos S.seedState k' q m' → m = m' :=
    fun m m' h0 h1 h0' h1' h => (lasoPos_inj hL2 hN' hq' hq' h0 h1 h0' h1' h).2
  have key := laso_law (fun w => ⌊((n' : Int) : R) * ((G.uneg11 w + 1) / 2)⌋) (fun w => if 0 ≤ G.uneg11 w then (1 : ℝ) else -1) k' n'
    (fun w => by
      have h1 := (hu w).1
      have h2 := (hu w).2
      have hnR : (0 : R) < ((n' : Int) : R) := by exact_mod_cast hn0
      refine ⟨Int.floor_nonneg.mpr (mul_nonneg hnR.le (by linarith)), Int.floor_lt.mpr ?_⟩
      nlinarith)
    (fun w => by split_ifs <;> simp) (pr_sign (pr_half hτ hsign))
    (fun t => lasoPos S.seedState k' q (2 * t)) (fun t => lasoPos S.seedState k' q (2 * t + 1))
    (fun t t' ht ht' h => by have := hinj _ _ (by omega) (by omega) (by omega) (by omega) h; omega)
    (fun t t' ht ht' h => by have := hinj _ _ (by omega) (by omega) (by omega) (by omega) h; omega)
    (fun t t' ht ht' h => by have := hinj _ _ (by omega) (by omega) (by omega) (by omega) h; omega) ℓ σ hσ
  have hp : ∀ l : Fin n', indexProb G n' (l : Nat) = Pr (fun w => ⌊((n' : Int) : R) * ((G.uneg11 w + 1) / 2)⌋ = ((l : Nat) : Int)) := by
    intro l
    rw [pr_eq]; rfl
  simp only [hp]
  rw [← key]
  refine pr_congr fun ω => forall_congr' fun l => ?_
  rw [hent ω q hq', lasoSample_pos hL, lasoSign_pos hL]

/-- C116 (long axis, uniform locations). If the uniform values of the words are the `M` midpoints, the law is the documented one up to a factor between `(1 - n/M)^k` and `(1 + n/M)^k`: with
locations drawn uniformly with replacement, the vector with the entries `σ_l √(ℓ_l)` has the probability `k! / (∏ ℓ_l!) / n^k / 2^(number of nonzeros)`. -/
theorem C116_long_axis_uniform [NeZero N] [Field R] [LinearOrder R] [IsStrictOrderedRing R] [FloorRing R] [Fintype W] [Nonempty W] {L : Nat} [NeZero L]
    {G : Gen N K W R} {τ : W → W} {order : Int → List (Int × ℝ) → List (Int × ℝ)} {S : SparseSkOp N K ℝ} (hG : G.Ok) (hL : G.len = L)
    (hu : ∀ w, -1 ≤ G.uneg11 w ∧ G.uneg11 w < 1) (hτ : Function.Involutive τ) (hsign : ∀ w, 0 ≤ G.uneg11 (τ w) ↔ ¬ 0 ≤ G.uneg11 w)
    (hord : ∀ i l, (order i l).Perm l) (hS : SparseOpOk S) (hax : S.dist.majorAxis = .Long) (hN : S.dist.fullNnz ≤ N) {k n : Nat}
    (hk : S.dist.vecNnz = k) (hn : max S.nRows S.nCols = n)
    {Mw : Nat} (e : W ≃ Fin Mw) (hmid : ∀ w, (G.uneg11 w + 1) / 2 = (((e w : Nat) : R) + 1 / 2) / Mw) (hM : n ≤ Mw) :
    ∃ A : (ZMod N × ZMod L → W) → Int → Int → ℝ,
    (∀ ω, M.wp (fillSparse (fromWords G ω) Real.sqrt order) S (fun _ S' => ∃ E, OpHolds S' E ∧ toMat E = A ω)) ∧
    ∀ (q : Nat) (ℓ : Fin n → Nat) (σ : Fin n → ℝ) (p0 : ℝ), q < min S.nRows S.nCols → (∀ l, σ l = 1 ∨ σ l = -1) → ∑ l, ℓ l = k →
      p0 = (k.factorial : ℝ) / (∏ l, ((ℓ l).factorial : ℝ)) / (n : ℝ) ^ k / 2 ^ (univ.filter fun l => ℓ l ≠ 0).card →
      (1 - (n : ℝ) / Mw) ^ k * p0 ≤
        Pr (fun ω => ∀ l : Fin n, (if S.nRows ≤ S.nCols then A ω q (l : Nat) else A ω (l : Nat) q) = σ l * Real.sqrt (ℓ l)) ∧
      Pr (fun ω => ∀ l : Fin n, (if S.nRows ≤ S.nCols then A ω q (l : Nat) else A ω (l : Nat) q) = σ l * Real.sqrt (ℓ l)) ≤
        (1 + (n : ℝ) / Mw) ^ k * p0 := by
  obtain ⟨A, hA, h⟩ := C116_long_axis (τ := τ) hG hL hu hτ hsign hord hS hax hN hk hn
  refine ⟨A, hA, fun q ℓ σ p0 hq hσ hs hp0 => ?_⟩
  rw [h q ℓ σ hq hσ]
  have hn0 : 0 < n := by
    obtain ⟨hR, hC, -⟩ := sparseDist_facts hS.dist
    have := hS.nRows
    omega
  have hM0 : 0 < Mw := by omega
  have hnR : (0 : ℝ) < n := by exact_mod_cast hn0
  have hMR : (0 : ℝ) < Mw := by exact_mod_cast hM0
  have hle : (n : ℝ) / Mw ≤ 1 := (div_le_one hMR).mpr (by exact_mod_cast hM)
  have hp : ∀ l : Fin n, (1 - (n : ℝ) / Mw) / n ≤ indexProb G n (l : Nat) ∧ indexProb G n (l : Nat) ≤ (1 + (n : ℝ) / Mw) / n := by
    intro l
    have h1 := C60_index_probability e hmid hM0 n (l : Nat) (by omega) (by have := l.2; omega)
    rw [Int.cast_natCast, abs_le] at h1
    have e1 : (1 - (n : ℝ) / Mw) / n = 1 / n - 1 / Mw := by field_simp
    have e2 : (1 + (n : ℝ) / Mw) / n = 1 / n + 1 / Mw := by field_simp
    rw [e1, e2]
    constructor <;> linarith [h1.1, h1.2]
  have hc : (countSeqs k n ℓ : ℝ) = (k.factorial : ℝ) / (∏ l, ((ℓ l).factorial : ℝ)) := by
    have hne : (∏ l, ((ℓ l).factorial : ℝ)) ≠ 0 := prod_ne_zero_iff.mpr fun l _ => by exact_mod_cast (Nat.factorial_pos _).ne'
    rw [eq_div_iff hne]
    exact_mod_cast C116_count k n ℓ hs
  have hpow : ∀ c : ℝ, ∏ l : Fin n, (c / n) ^ ℓ l = c ^ k / (n : ℝ) ^ k := by
    intro c
    rw [prod_pow_eq_pow_sum, hs, div_pow]
  have h0 : 0 ≤ (1 - (n : ℝ) / Mw) / n := div_nonneg (by linarith) hnR.le
  have hlo : (1 - (n : ℝ) / Mw) ^ k / (n : ℝ) ^ k ≤ ∏ l : Fin n, indexProb G n (l : Nat) ^ ℓ l := by
    rw [← hpow]
    exact prod_le_prod (fun l _ => pow_nonneg h0 _) fun l _ => pow_le_pow_left₀ h0 (hp l).1 _
  have hhi : ∏ l : Fin n, indexProb G n (l : Nat) ^ ℓ l ≤ (1 + (n : ℝ) / Mw) ^ k / (n : ℝ) ^ k := by
    rw [← hpow]
    exact prod_le_prod (fun l _ => pow_nonneg (h0.trans (hp l).1) _) fun l _ => pow_le_pow_left₀ (h0.trans (hp l).1) (hp l).2 _
  have hcc : (0 : ℝ) ≤ countSeqs k n ℓ := Nat.cast_nonneg _
  have hp0' : ∀ c : ℝ, c ^ k * p0 = countSeqs k n ℓ * (c ^ k / (n : ℝ) ^ k) * (1 / 2) ^ (univ.filter fun l => ℓ l ≠ 0).card := by
    intro c
    rw [hp0, ← hc, one_div, inv_pow]
    ring
  rw [hp0', hp0']
  constructor
  · gcongr
  · gcongr

/-- C116 (the factors are needed). If the number of words is not a multiple of `n`, no index has exactly the probability `1/n`. -/
theorem C116_not_exact [Field R] [LinearOrder R] [FloorRing R] [Fintype W] [Nonempty W] (G : Gen N K W R) {n : Nat} (hn : 0 < n) (h : ¬ n ∣ Fintype.card W) (l : Int) :
    indexProb G n l ≠ 1 / n := by
  intro he
  unfold indexProb at he
  have hW : (0 : ℝ) < Fintype.card W := by exact_mod_cast Fintype.card_pos
  have hnR : (0 : ℝ) < n := by exact_mod_cast hn
  rw [div_eq_div_iff hW.ne' hnR.ne', one_mul] at he
  refine h ⟨(univ.filter fun w => ⌊((n : Int) : R) * ((G.uneg11 w + 1) / 2)⌋ = l).card, ?_⟩
  have h2 : (univ.filter fun w => ⌊((n : Int) : R) * ((G.uneg11 w + 1) / 2)⌋ = l).card * n = Fintype.card W := by exact_mod_cast he
  rw [← h2, mul_comm]

/-- With 2^32 words and vectors of length 3 this is the case. -/
example : ¬ 3 ∣ Fintype.card (Fin (2 ^ 32)) := by rw [Fintype.card_fin]; norm_num

end RB
