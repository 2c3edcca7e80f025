import Verif.Props.StatCritical
import Verif.Props.Sampling
import Verif.Lemmas.Upd
import Verif.Props.StabExact
import Mathlib.Topology.Instances.EReal.Lemmas
import Mathlib.Topology.Order.DenselyOrdered
import Mathlib.Probability.Distributions.Gaussian.Real
import Mathlib.MeasureTheory.Integral.IntegralEqImproper

/-!
# Kolmogorov-Smirnov checks (C114)
-/

namespace RB
open Spec

/-! ## Discrete samples -/

section
variable {R : Type} [Field R] [LinearOrder R] [IsStrictOrderedRing R]

omit [LinearOrder R] [IsStrictOrderedRing R] in
theorem sum_count (l : List Int) (hl : ∀ s ∈ l, 0 ≤ s) (m : Nat) :
    ∑ x ∈ Finset.range m, ((l.count (x : Int) : Nat) : R) = ((l.filter (fun s => decide (s < (m : Int)))).length : R) := by
  induction l with
  | nil => simp
  | cons a t ih =>
    have ih := ih fun s hs => hl s (List.mem_cons_of_mem _ hs)
    have ha := hl a (List.mem_cons_self ..)
    have h1 : ∀ x : Nat, (((a :: t).count (x : Int) : Nat) : R) = ((t.count (x : Int) : Nat) : R) + (if x = a.toNat then 1 else 0) := by
      intro x
      rw [List.count_cons]
      by_cases hx : x = a.toNat
      · have : a = (x : Int) := by omega
        rw [if_pos hx, if_pos (by simpa using this)]; push_cast; rfl
      · have : ¬ a = (x : Int) := by omega
        rw [if_neg hx, if_neg (by simpa using this)]; simp
    simp only [h1, Finset.sum_add_distrib, ih, Finset.sum_ite_eq', Finset.mem_range, List.filter_cons]
    by_cases hm : a < m
    · rw [if_pos (by omega), if_pos (by simpa using hm)]; push_cast [List.length_cons]; ring
    · rw [if_neg (by omega), if_neg (by simpa using hm)]; ring

/-- The sums inside `weights_to_cdf` when the weights are the counts of the samples. -/
theorem posSum_count (l : List Int) (hl : ∀ s ∈ l, 0 ≤ s) (m : Nat) :
    posSum (fun i => ((l.count i : Nat) : R)) m = ((l.filter (fun s => decide (s < (m : Int)))).length : R) := by
  rw [← sum_count l hl]
  unfold posSum
  exact Finset.sum_congr rfl fun x _ => max_eq_right (Nat.cast_nonneg _)

/-- C114 (discrete samples). For samples in `{0..n-1}` the check passes exactly if the empirical distribution function of the samples is
within the critical value of the given one at every index; otherwise the first index where it is not is reported. -/
theorem C114_index_test {samples : List Int} {n : Int} {cdf : Buf R} {f : Int → R} {cv thresh below : R}
    (hs : ∀ s ∈ samples, 0 ≤ s ∧ s < n) (hne : samples ≠ []) (hf : ∀ i, 0 ≤ i → i < n → cdf i = .val (f i))
    (ht : thresh ≤ samples.length) (hb : below ≤ 0) :
    M.wp (indexSetKsTester samples n cdf cv thresh below) () (fun o _ =>
      (o = none ↔ ∀ i, 0 ≤ i → i < n → |empCdfInt samples i - f i| < cv) ∧
      (∀ i, o = some i → 0 ≤ i ∧ i < n ∧ cv ≤ |empCdfInt samples i - f i| ∧ ∀ j, 0 ≤ j → j < i → |empCdfInt samples j - f j| < cv)) := by
  obtain ⟨s0, hs0⟩ := List.exists_mem_of_ne_nil _ hne
  have hn : 0 < n := by have := hs s0 hs0; omega
  have hlen : (0 : R) < samples.length := by
    have : 0 < samples.length := List.length_pos_of_ne_nil hne
    exact_mod_cast this
  have htot : posSum (fun i => ((samples.count i : Nat) : R)) n.toNat = samples.length := by
    rw [posSum_count _ fun s h => (hs s h).1]
    congr 2
    rw [List.filter_eq_self]
    intro s h; have := hs s h; simp; omega
  unfold indexSetKsTester
  rw [M.wp_bind]
  rw [M.wp_onLocal, M.wp_bind]
  refine M.wp_forI (lo := 0) (hi := samples.length) (fun t b => ∀ i, 0 ≤ i → i < n → b i = .val (((samples.take t.toNat).count i : Nat) : R))
    (by omega) ?_ ?_ ?_
  · intro i h0 h1
    simp [Buf.fill, h0, h1]
  · intro t b ht0 ht1 hb'
    have htl : t.toNat < samples.length := by omega
    simp only [M.wp_bind, M.wp_lift, M.wp_rd, M.wp_wr]
    have hm := hs _ (List.getElem_mem htl)
    refine ⟨samples[t.toNat], Buf.ofList_rd ht0 ht1, _, hb' _ hm.1 hm.2, ?_, ?_⟩
    · rw [hb' _ hm.1 hm.2]; simp
    · intro i h0 h1
      rw [Buf.set_apply, show (t + 1).toNat = t.toNat + 1 by omega, List.take_add_one, List.count_append, List.getElem?_eq_getElem htl]
      by_cases hi : i = samples[t.toNat]
      · rw [if_pos hi, hi]; simp
      · rw [if_neg hi, hb' i h0 h1]
        have : ¬ samples[t.toNat] = i := fun h => hi h.symm
        simp [this]
  · intro b hb'
    have hv : ∀ i, 0 ≤ i → i < n → b i = .val ((fun i => ((samples.count i : Nat) : R)) i) := by
      intro i h0 h1
      have := hb' i h0 h1
      simpa using this
    apply M.wp_of_wpx
    refine M.wpx_mono (weightsToCdf_spec hn.le hv) ?_ ?_
    swap
    · rintro e b' ⟨-, h | h, -⟩
      · obtain ⟨i, -, -, h⟩ := h
        exact absurd (lt_of_lt_of_le h hb) (not_lt.mpr (Nat.cast_nonneg _))
      · rw [htot] at h
        exact absurd ht (not_le.mpr h)
    · rintro - b' ⟨-, -, h1, -⟩
      have hemp : ∀ i, 0 ≤ i → i < n → b' i = .val (empCdfInt samples i) := by
        intro i h0 hi
        rw [h1 i h0 hi, htot, posSum_count _ fun s h => (hs s h).1]
        unfold empCdfInt
        congr 4
        apply List.filter_congr
        intro s _
        rw [decide_eq_decide]; omega
      refine M.wp_findI (lo := 0) (hi := n) (fun k _ => ∀ j, 0 ≤ j → j < k → |empCdfInt samples j - f j| < cv) hn.le ?_ ?_ ?_
      · intro j a b; omega
      · intro i _ h0 hi hprev
        simp only [M.wp_bind, M.wp_lift]
        refine ⟨_, Buf.rd_val (hemp i h0 hi), _, Buf.rd_val (hf i h0 hi), ?_⟩
        by_cases hc : |empCdfInt samples i - f i| < cv
        · rw [if_pos hc, M.wp_pure]
          refine ⟨fun _ j a b => ?_, fun h => absurd rfl h⟩
          rcases eq_or_lt_of_le (show j ≤ i by omega) with rfl | hlt
          · exact hc
          · exact hprev j a hlt
        · rw [if_neg hc, M.wp_pure]
          refine ⟨fun h => (by cases h), fun _ => ⟨⟨fun h => (by cases h), fun h => absurd (h i h0 hi) hc⟩, fun i' h => ?_⟩⟩
          cases h
          exact ⟨h0, hi, not_lt.mp hc, hprev⟩
      · intro _ h
        exact ⟨⟨fun _ => h, fun _ => rfl⟩, fun i h => by cases h⟩

omit [IsStrictOrderedRing R] in
/-- C114 (discrete samples, precondition). A sample outside `{0..n-1}` is counted outside the vector: undefined behaviour. -/
theorem C114_index_undefined {samples : List Int} {n : Int} {cdf : Buf R} {cv thresh below : R} {s : Int} (hs : s ∈ samples)
    (hbad : ¬ (0 ≤ s ∧ s < n)) : M.Undef (indexSetKsTester samples n cdf cv thresh below) () := by
  classical
  -- the first sample out of range
  obtain ⟨t0, ht0, rfl⟩ := List.getElem_of_mem hs
  have hex : ∃ t, ∃ h : t < samples.length, ¬ (0 ≤ samples[t] ∧ samples[t] < n) := ⟨t0, ht0, hbad⟩
  obtain ⟨t, ⟨htl, htbad⟩, hmin'⟩ : ∃ t, (∃ h : t < samples.length, ¬ (0 ≤ samples[t] ∧ samples[t] < n)) ∧
      ∀ u, u < t → ¬ ∃ h : u < samples.length, ¬ (0 ≤ samples[u] ∧ samples[u] < n) :=
    ⟨Nat.find hex, Nat.find_spec hex, fun u hu => Nat.find_min hex hu⟩
  have hmin : ∀ u, u < t → ∀ h : u < samples.length, 0 ≤ samples[u] ∧ samples[u] < n := by
    intro u hu h
    by_contra hc
    exact hmin' u hu ⟨h, hc⟩
  unfold indexSetKsTester
  refine M.Undef.bind ?_
  have : M.Undef (do
      forI 0 samples.length fun t => do
        let s ← M.lift ((Buf.ofList samples).rd t)
        let x ← M.rd s
        M.wr s (x + 1)
      weightsToCdf n thresh below) (Buf.fill n (0 : R)) := by
    refine M.Undef.bind ?_
    refine M.Undef.forI (j := t) (fun _ b => ∀ i, (¬ (0 ≤ i ∧ i < n) → b i = .none) ∧ (0 ≤ i → i < n → ∃ v, b i = .val v))
      (by omega) (by exact_mod_cast htl) ?_ ?_ ?_
    · intro i
      refine ⟨fun h => by simp [Buf.fill, h], fun h0 h1 => ⟨0, by simp [Buf.fill, h0, h1]⟩⟩
    · intro u b hu0 hu1 hb'
      have hu : u.toNat < samples.length := by omega
      have hm := hmin u.toNat (by omega) hu
      obtain ⟨v, hv⟩ := (hb' samples[u.toNat]).2 hm.1 hm.2
      simp only [M.wp_bind, M.wp_lift, M.wp_rd, M.wp_wr]
      refine ⟨_, Buf.ofList_rd hu0 (by omega), v, hv, by rw [hv]; simp, fun i => ⟨fun h => ?_, fun h0 h1 => ?_⟩⟩
      · rw [Buf.set_ne (by rintro rfl; exact h hm)]; exact (hb' i).1 h
      · rw [Buf.set_apply]
        by_cases hi : i = samples[u.toNat]
        · exact ⟨_, if_pos hi⟩
        · rw [if_neg hi]; exact (hb' i).2 h0 h1
    · intro b hb'
      refine M.Undef.after ?_
      rw [M.wp_lift]
      refine ⟨samples[t], Buf.ofList_rd (by omega) (by exact_mod_cast htl), M.Undef.bind ?_⟩
      unfold M.Undef M.rd Buf.rd
      rw [(hb' _).1 htbad]
  exact M.Undef.onLocal this

end

example : M.wp (indexSetKsTester [0, 2, 1, 1] 3 (Buf.ofFn 3 fun i => ((i : ℚ) + 1) / 3) (1 / 4) (1 / 100) 0) () (fun o _ =>
    (o = none ↔ ∀ i, 0 ≤ i → i < 3 → |empCdfInt [0, 2, 1, 1] i - ((i : ℚ) + 1) / 3| < 1 / 4) ∧
    (∀ i, o = some i → 0 ≤ i ∧ i < 3 ∧ (1 / 4 : ℚ) ≤ |empCdfInt [0, 2, 1, 1] i - ((i : ℚ) + 1) / 3| ∧
      ∀ j, 0 ≤ j → j < i → |empCdfInt [0, 2, 1, 1] j - ((j : ℚ) + 1) / 3| < 1 / 4)) :=
  C114_index_test (by decide) (by simp) (fun i h0 h1 => by simp [Buf.ofFn, h0, h1]) (by norm_num) le_rfl

example : M.Undef (indexSetKsTester [0, 3] 3 (Buf.ofFn 3 fun i => ((i : ℚ) + 1) / 3) (1 / 4) (1 / 100) 0) () :=
  C114_index_undefined (s := 3) (by simp) (by omega)

/-! ## Continuous distributions -/

/-- In a sorted list the elements that are at most `x` come first. -/
theorem sorted_le_iff {s : List ℝ} (hs : s.Pairwise (· ≤ ·)) (x : ℝ) (i : Nat) (hi : i < s.length) :
    s[i] ≤ x ↔ i < (s.filter (fun a => decide (a ≤ x))).length := by
  induction s generalizing i with
  | nil => simp at hi
  | cons a t ih =>
    rw [List.pairwise_cons] at hs
    by_cases ha : a ≤ x
    · rw [List.filter_cons, if_pos (by simpa using ha)]
      cases i with
      | zero => simpa using ha
      | succ i =>
        have := ih hs.2 i (by simpa using hi)
        simpa using this
    · have hnil : t.filter (fun a => decide (a ≤ x)) = [] := by
        rw [List.filter_eq_nil_iff]
        intro b hb
        have := hs.1 b hb
        simp; linarith [not_le.mp ha]
      rw [List.filter_cons, if_neg (by simpa using ha), hnil]
      simp only [List.length_nil, Nat.not_lt_zero, iff_false, not_le]
      cases i with
      | zero => simpa using ha
      | succ i =>
        have := hs.1 (t[i]'(by simpa using hi)) (List.getElem_mem _)
        simp only [List.getElem_cons_succ]
        linarith [not_le.mp ha]

/-- Sorting the samples together with the two infinities. -/
theorem ks_sorted (samples : List ℝ) :
    (samples.map Real.toEReal ++ [⊤, ⊥]).mergeSort (fun a b => decide (a ≤ b)) =
      ⊥ :: ((samples.mergeSort (fun a b => decide (a ≤ b))).map Real.toEReal ++ [⊤]) := by
  have hs : (samples.mergeSort (fun a b => decide (a ≤ b))).Pairwise (· ≤ ·) := by
    have := List.pairwise_mergeSort (le := fun a b : ℝ => decide (a ≤ b)) (by intro a b c; simpa using le_trans)
      (by intro a b; simpa using le_total a b) samples
    simpa using this
  apply List.Perm.eq_of_pairwise (le := (· ≤ ·))
  · intro a b _ _ h1 h2; exact le_antisymm h1 h2
  · have := List.pairwise_mergeSort (le := fun a b : EReal => decide (a ≤ b)) (by intro a b c; simpa using le_trans)
      (by intro a b; simpa using le_total a b) (samples.map Real.toEReal ++ [⊤, ⊥])
    simpa using this
  · rw [List.pairwise_cons]
    refine ⟨fun _ _ => bot_le, ?_⟩
    rw [List.pairwise_append]
    refine ⟨?_, List.pairwise_singleton _ _, fun a _ b hb => ?_⟩
    · rw [List.pairwise_map]
      exact hs.imp fun h => by exact_mod_cast h
    · rw [List.mem_singleton] at hb; subst hb; exact le_top
  · refine (List.mergeSort_perm _ _).trans ?_
    have h1 : (samples.map Real.toEReal).Perm ((samples.mergeSort (fun a b => decide (a ≤ b))).map Real.toEReal) :=
      ((List.mergeSort_perm _ _).symm).map _
    refine (h1.append_right _).trans ?_
    generalize (samples.mergeSort (fun a b => decide (a ≤ b))).map Real.toEReal = l
    rw [show l ++ [(⊤ : EReal), ⊥] = (l ++ [⊤]) ++ [⊥] by simp]
    exact List.perm_append_singleton _ _

/-- C114 (continuous distributions). For a distribution function that is continuous on the real line, the check passes exactly if the
supremum over all real numbers of the distance between the empirical distribution function of the samples and the given one is at most the
critical value. -/
theorem C114_continuous_test {F : EReal → ℝ} {samples : List ℝ} {cv : ℝ} (hmono : Monotone F) (h0 : F ⊥ = 0) (h1 : F ⊤ = 1)
    (hcont : Continuous fun x : ℝ => F (x : EReal)) (hne : samples ≠ []) :
    (∃ o, kolmogorovSmirnovTester F samples cv = .ok o) ∧
    (kolmogorovSmirnovTester F samples cv = .ok none ↔ ∀ x : ℝ, |empCdf samples x - F x| ≤ cv) := by
  have hs : (samples.mergeSort (fun a b => decide (a ≤ b))).Pairwise (· ≤ ·) := by
    have := List.pairwise_mergeSort (le := fun a b : ℝ => decide (a ≤ b)) (by intro a b c; simpa using le_trans)
      (by intro a b; simpa using le_total a b) samples
    simpa using this
  have hperm := List.mergeSort_perm samples (fun a b => decide (a ≤ b))
  have hlen : (samples.mergeSort (fun a b => decide (a ≤ b))).length = samples.length := hperm.length_eq
  have hcnt : ∀ x : ℝ, empCdf samples x = (((samples.mergeSort (fun a b => decide (a ≤ b))).filter (fun a => decide (a ≤ x))).length : ℝ) / samples.length := by
    intro x
    unfold empCdf
    rw [(hperm.filter _).length_eq]
  have hpos : 0 < samples.length := List.length_pos_of_ne_nil hne
  have hN : (0 : ℝ) < samples.length := by exact_mod_cast hpos
  unfold kolmogorovSmirnovTester
  simp only
  rw [if_neg (by omega), ks_sorted]
  generalize samples.mergeSort (fun a b => decide (a ≤ b)) = s at hs hlen hcnt
  set N := samples.length with hNdef
  -- the sorted vector, as a function
  let L : Nat → EReal := fun j => if j = 0 then ⊥ else if h : j - 1 < s.length then ((s[j - 1] : ℝ) : EReal) else ⊤
  have hL : ∀ j : Int, 0 ≤ j → j ≤ N + 1 → (Buf.ofList (⊥ :: (s.map Real.toEReal ++ [⊤]))).rd j = .ok (L j.toNat) := by
    intro j hj0 hj1
    rw [Buf.ofList_rd hj0 (by simp [hlen]; omega)]
    congr 1
    obtain ⟨k, rfl⟩ := Int.eq_ofNat_of_zero_le hj0
    simp only [Int.toNat_natCast]
    cases k with
    | zero => simp [L]
    | succ k =>
      simp only [List.getElem_cons_succ, L, if_neg (Nat.succ_ne_zero k), Nat.add_sub_cancel]
      by_cases hk : k < s.length
      · rw [dif_pos hk, List.getElem_append_left (by simpa using hk)]; simp
      · rw [dif_neg hk, List.getElem_append_right (by simpa using hk)]; simp
  have hrun := findI_first (n := (N : Int) + 1) (f := fun j => j)
    (P := fun j => ¬ max |F (L j.toNat) - (j : ℝ) / ((N : Int) : ℝ)| |F (L (j + 1).toNat) - (j : ℝ) / ((N : Int) : ℝ)| ≤ cv)
    (body := fun j => do
      let a ← (Buf.ofList (⊥ :: (s.map Real.toEReal ++ [⊤]))).rd j
      let b ← (Buf.ofList (⊥ :: (s.map Real.toEReal ++ [⊤]))).rd (j + 1)
      if max |F a - (j : ℝ) / ((N : Int) : ℝ)| |F b - (j : ℝ) / ((N : Int) : ℝ)| ≤ cv then pure none else pure (some j)) (by omega)
    (fun j a b hp => by rw [hL j a (by omega), Res.ok_bind, hL (j + 1) (by omega) (by omega), Res.ok_bind, if_neg hp]; rfl)
    (fun j a b hp => by rw [hL j a (by omega), Res.ok_bind, hL (j + 1) (by omega) (by omega), Res.ok_bind, if_pos (not_not.mp hp)]; rfl)
  refine ⟨?_, ?_⟩
  · rcases hrun with ⟨i, -, -, -, -, h⟩ | ⟨-, h⟩
    · exact ⟨_, h⟩
    · exact ⟨_, h⟩
  have hiff : (∀ j : Nat, j ≤ N → |F (L j) - (j : ℝ) / N| ≤ cv ∧ |F (L (j + 1)) - (j : ℝ) / N| ≤ cv) ↔
      ∀ x : ℝ, |empCdf samples x - F x| ≤ cv := by
    constructor
    · intro h x
      rw [hcnt]
      have hjN : (s.filter (fun a => decide (a ≤ x))).length ≤ N := hlen ▸ List.length_filter_le _ _
      obtain ⟨ha, hb⟩ := h _ hjN
      have hlo : L (s.filter (fun a => decide (a ≤ x))).length ≤ x := by
        by_cases hz : (s.filter (fun a => decide (a ≤ x))).length = 0
        · simp [L, hz]
        · have hlt : (s.filter (fun a => decide (a ≤ x))).length - 1 < s.length := by omega
          simp only [L, if_neg hz, dif_pos hlt]
          have := (sorted_le_iff hs x _ hlt).mpr (by omega)
          exact_mod_cast this
      have hhi : (x : EReal) ≤ L ((s.filter (fun a => decide (a ≤ x))).length + 1) := by
        simp only [L, if_neg (Nat.succ_ne_zero _), Nat.add_sub_cancel]
        by_cases hlt : (s.filter (fun a => decide (a ≤ x))).length < s.length
        · rw [dif_pos hlt]
          have := mt (sorted_le_iff hs x _ hlt).mp (lt_irrefl _)
          exact_mod_cast (not_le.mp this).le
        · rw [dif_neg hlt]; exact le_top
      have f1 := hmono hlo
      have f2 := hmono hhi
      rw [abs_le] at ha hb ⊢
      constructor <;> linarith [ha.1, ha.2, hb.1, hb.2]
    · intro h
      have hcv : 0 ≤ cv := le_trans (abs_nonneg _) (h 0)
      -- a finite sorted sample: bounds from the right value and from the left limit
      have hfin : ∀ (i : Nat) (hi : i < s.length) (j : Nat), i ≤ j → j ≤ i + 1 → |F ((s[i] : ℝ) : EReal) - (j : ℝ) / N| ≤ cv := by
        intro i hi j hij hji
        have hup : F ((s[i] : ℝ) : EReal) ≤ (j : ℝ) / N + cv := by
          have hy : ∀ y : ℝ, y < s[i] → F (y : EReal) ≤ (j : ℝ) / N + cv := by
            intro y hy
            have h2 := (abs_le.mp (h y)).1
            rw [hcnt] at h2
            have h3 : (s.filter (fun a => decide (a ≤ y))).length ≤ i := by
              by_contra hc
              exact absurd ((sorted_le_iff hs y i hi).mpr (by omega)) (not_le.mpr hy)
            have h4 : ((s.filter (fun a => decide (a ≤ y))).length : ℝ) / N ≤ (j : ℝ) / N :=
              div_le_div_of_nonneg_right (by exact_mod_cast h3.trans hij) hN.le
            linarith
          have hclo : closure (Set.Iio s[i]) ⊆ {y : ℝ | F (y : EReal) ≤ (j : ℝ) / N + cv} :=
            closure_minimal (fun y hy' => hy y hy') (isClosed_le hcont continuous_const)
          rw [closure_Iio] at hclo
          exact hclo (Set.mem_Iic.mpr le_rfl)
        have hdn : (j : ℝ) / N - cv ≤ F ((s[i] : ℝ) : EReal) := by
          have h2 := (abs_le.mp (h s[i])).2
          rw [hcnt] at h2
          have h3 : i < (s.filter (fun a => decide (a ≤ s[i]))).length := (sorted_le_iff hs s[i] i hi).mp le_rfl
          have h4 : (j : ℝ) / N ≤ ((s.filter (fun a => decide (a ≤ s[i]))).length : ℝ) / N :=
            div_le_div_of_nonneg_right (by exact_mod_cast (show j ≤ _ by omega)) hN.le
          linarith
        rw [abs_le]; constructor <;> linarith
      intro j hj
      constructor
      · by_cases hz : j = 0
        · subst hz; simp [L, h0, hcv]
        · have hlt : j - 1 < s.length := by omega
          simp only [L, if_neg hz, dif_pos hlt]
          exact hfin _ hlt j (by omega) (by omega)
      · simp only [L, if_neg (Nat.succ_ne_zero _), Nat.add_sub_cancel]
        by_cases hlt : j < s.length
        · rw [dif_pos hlt]; exact hfin _ hlt j le_rfl (by omega)
        · rw [dif_neg hlt, h1, show j = N by omega, div_self hN.ne']
          simpa using hcv
  rw [← hiff]
  rcases hrun with ⟨i, i0, iN, hp, -, he⟩ | ⟨hno, he⟩
  · refine ⟨fun h => ?_, fun h => absurd (h i.toNat (by omega)) ?_⟩
    · rw [show (findI 0 ((N : Int) + 1) _) = .ok (some i) from he] at h; cases h
    · rintro ⟨ha, hb⟩
      apply hp
      have hi : ((i.toNat : Nat) : ℝ) = (i : ℝ) := by exact_mod_cast Int.toNat_of_nonneg i0
      rw [hi] at ha hb
      rw [show (i + 1).toNat = i.toNat + 1 by omega]
      exact max_le (by exact_mod_cast ha) (by exact_mod_cast hb)
  · refine ⟨fun _ j hj => ?_, fun _ => he⟩
    have := not_not.mp (hno j (by omega) (by omega))
    rw [show ((j : Int) + 1).toNat = j + 1 by omega, Int.toNat_natCast] at this
    have h2 := max_le_iff.mp this
    push_cast at h2
    exact h2

/-- C114 (vectors). The comparison of two distribution functions of the same size returns the first index where they differ by more than the
critical value, with the difference; it returns `-1` exactly if there is none. -/
theorem C114_check {R : Type} [Field R] [LinearOrder R] {ndebug : Bool} {n : Int} {c1 c2 : Buf R} {f g : Int → R} {cv : R} (hn : 0 ≤ n)
    (h1 : ∀ i, 0 ≤ i → i < n → c1 i = .val (f i)) (h2 : ∀ i, 0 ≤ i → i < n → c2 i = .val (g i)) :
    ∃ r d, ksCheckCritval ndebug n n c1 c2 cv = .ok (r, d) ∧ (r = -1 ↔ ∀ i, 0 ≤ i → i < n → |f i - g i| ≤ cv) ∧
      (r ≠ -1 → 0 ≤ r ∧ r < n ∧ d = |f r - g r| ∧ cv < d ∧ ∀ j, 0 ≤ j → j < r → |f j - g j| ≤ cv) := by
  rcases ksCheck_pass (ndebug := ndebug) (cv := cv) hn h1 h2 with ⟨i, h0, hi, hgt, hj, he⟩ | ⟨hall, he⟩
  · exact ⟨_, _, he, ⟨fun h => by omega, fun h => absurd (h i h0 hi) (not_le.mpr hgt)⟩, fun _ => ⟨h0, hi, rfl, hgt, hj⟩⟩
  · exact ⟨_, _, he, ⟨fun _ => hall, fun _ => rfl⟩, fun h => absurd rfl h⟩

example : ∃ r d, ksCheckCritval false 2 2 (Buf.ofList [(1 / 2 : ℚ), 1]) (Buf.ofList [1 / 4, 1]) (1 / 8) = .ok (r, d) ∧ r = 0 ∧ d = 1 / 4 :=
  ⟨0, 1 / 4, by decide +kernel, rfl, rfl⟩

/-! ## The distribution functions -/

/-- The conditions of `C114_continuous_test` on a distribution function. -/
structure Spec.ContCdf (F : EReal → ℝ) : Prop where
  mono : Monotone F
  bot : F ⊥ = 0
  top : F ⊤ = 1
  cont : Continuous fun x : ℝ => F (x : EReal)

/-- A function on the extended reals that is monotone with values between `0` and `1` on the reals, and `0`, `1` at the ends. -/
theorem Spec.ContCdf.of_real {F : EReal → ℝ} (hm : ∀ x y : ℝ, x ≤ y → F x ≤ F y) (h0 : ∀ x : ℝ, 0 ≤ F x) (h1 : ∀ x : ℝ, F x ≤ 1)
    (hb : F ⊥ = 0) (ht : F ⊤ = 1) (hc : Continuous fun x : ℝ => F (x : EReal)) : Spec.ContCdf F := by
  refine ⟨?_, hb, ht, hc⟩
  intro x y hxy
  induction x with
  | bot =>
    induction y with
    | bot => exact le_rfl
    | coe y => rw [hb]; exact h0 y
    | top => rw [hb, ht]; exact zero_le_one
  | coe x =>
    induction y with
    | bot => exact absurd hxy (by simp)
    | coe y => exact hm x y (by exact_mod_cast hxy)
    | top => rw [ht]; exact h1 x
  | top =>
    have : y = ⊤ := top_le_iff.mp hxy
    rw [this]

theorem uniform_real {r : ℝ} (hr : 0 < r) (x : ℝ) : uniformSymintervalCdf x r = max 0 (min 1 ((x + r) / (2 * r))) := by
  unfold uniformSymintervalCdf
  have h2r : 0 < 2 * r := by linarith
  by_cases h1 : x ≤ -r
  · rw [if_pos (by exact_mod_cast h1)]
    have : (x + r) / (2 * r) ≤ 0 := div_nonpos_of_nonpos_of_nonneg (by linarith) h2r.le
    rw [min_eq_right (this.trans zero_le_one), max_eq_left this]
  · rw [if_neg (by exact_mod_cast h1)]
    by_cases h2 : r ≤ x
    · rw [if_pos (by show (r : EReal) ≤ x; exact_mod_cast h2)]
      have : 1 ≤ (x + r) / (2 * r) := by rw [le_div_iff₀ h2r]; linarith
      rw [min_eq_left this, max_eq_right zero_le_one]
    · rw [if_neg (by show ¬ (r : EReal) ≤ x; exact_mod_cast h2), EReal.toReal_coe]
      have h3 : (x + r) / (2 * r) ≤ 1 := by rw [div_le_one h2r]; linarith
      have h4 : 0 ≤ (x + r) / (2 * r) := div_nonneg (by linarith) h2r.le
      rw [min_eq_right h3, max_eq_right h4]

/-- C114 (uniform law). `uniform_syminterval_cdf(x, r)` is the probability that a uniform variate on `[-r, r]` is at most `x`. -/
theorem C114_uniform_cdf {r : ℝ} (hr : 0 < r) (x : ℝ) :
    uniformSymintervalCdf x r = (MeasureTheory.volume (Set.Icc (-r) r ∩ Set.Iic x)).toReal / (MeasureTheory.volume (Set.Icc (-r) r)).toReal := by
  rw [uniform_real hr]
  have h2r : 0 < 2 * r := by linarith
  have hset : Set.Icc (-r) r ∩ Set.Iic x = Set.Icc (-r) (min r x) := by
    ext y; simp only [Set.mem_inter_iff, Set.mem_Icc, Set.mem_Iic, le_min_iff, and_assoc]
  rw [hset, Real.volume_Icc, Real.volume_Icc, ENNReal.toReal_ofReal (show 0 ≤ r - -r by linarith)]
  have hden : r - -r = 2 * r := by ring
  rw [hden]
  rcases le_total x (-r) with h | h
  · have : (x + r) / (2 * r) ≤ 0 := div_nonpos_of_nonpos_of_nonneg (by linarith) h2r.le
    rw [min_eq_right (this.trans zero_le_one), max_eq_left this, min_eq_right (by linarith),
      ENNReal.ofReal_of_nonpos (by linarith)]
    simp
  · rw [ENNReal.toReal_ofReal (by rw [sub_nonneg]; exact le_min (by linarith) h)]
    rcases le_total r x with h' | h'
    · have : 1 ≤ (x + r) / (2 * r) := by rw [le_div_iff₀ h2r]; linarith
      rw [min_eq_left this, max_eq_right zero_le_one, min_eq_left h', hden, div_self h2r.ne']
    · have h3 : (x + r) / (2 * r) ≤ 1 := by rw [div_le_one h2r]; linarith
      have h4 : 0 ≤ (x + r) / (2 * r) := div_nonneg (by linarith) h2r.le
      rw [min_eq_right h3, max_eq_right h4, min_eq_right h', sub_neg_eq_add]

theorem C114_uniform_contCdf {r : ℝ} (hr : 0 < r) : Spec.ContCdf fun x => uniformSymintervalCdf x r := by
  have h2r : 0 < 2 * r := by linarith
  refine Spec.ContCdf.of_real ?_ ?_ ?_ ?_ ?_ ?_
  · intro x y hxy
    rw [uniform_real hr, uniform_real hr]
    exact max_le_max le_rfl (min_le_min le_rfl (div_le_div_of_nonneg_right (by linarith) h2r.le))
  · intro x; rw [uniform_real hr]; exact le_max_left _ _
  · intro x; rw [uniform_real hr]; exact max_le zero_le_one (min_le_left _ _)
  · show uniformSymintervalCdf ⊥ r = 0
    unfold uniformSymintervalCdf; rw [if_pos bot_le]
  · show uniformSymintervalCdf ⊤ r = 1
    unfold uniformSymintervalCdf; rw [if_neg (by simp), if_pos le_top]
  · simp only [uniform_real hr]
    fun_prop

/-- What the C library's `erfc` computes: `2/sqrt(pi)` times the integral of `exp(-t^2)` from `x` on. -/
structure Spec.IsErfc (erfc : EReal → ℝ) : Prop where
  real : ∀ x : ℝ, erfc x = 2 / Real.sqrt Real.pi * ∫ t in Set.Ioi x, Real.exp (-t ^ 2)
  bot : erfc ⊥ = 2
  top : erfc ⊤ = 0

/-- C114 (normal law). `standard_normal_cdf(x)` is the probability that a standard normal variate is at most `x`. -/
theorem C114_normal_cdf {erfc : EReal → ℝ} (he : Spec.IsErfc erfc) (x : ℝ) :
    standardNormalCdf erfc x = (ProbabilityTheory.gaussianReal 0 1 (Set.Iic x)).toReal := by
  unfold standardNormalCdf
  have h2 : (0 : ℝ) < Real.sqrt 2 := by positivity
  have harg : -(x : EReal) / ((Real.sqrt 2 : ℝ) : EReal) = ((-x / Real.sqrt 2 : ℝ) : EReal) := by
    rw [← EReal.coe_neg, ← EReal.coe_div]
  rw [harg, he.real, ProbabilityTheory.gaussianReal_apply_eq_integral _ (by norm_num),
    ENNReal.toReal_ofReal (MeasureTheory.integral_nonneg fun _ => ProbabilityTheory.gaussianPDFReal_nonneg _ _ _)]
  have hs1 : ∫ t in Set.Iic x, ProbabilityTheory.gaussianPDFReal 0 1 t = ∫ t in Set.Ioi (-x), ProbabilityTheory.gaussianPDFReal 0 1 t := by
    rw [← integral_comp_neg_Iic]
    refine MeasureTheory.integral_congr_ae (Filter.Eventually.of_forall fun t => ?_)
    simp [ProbabilityTheory.gaussianPDFReal]
  have hs2 := MeasureTheory.integral_comp_mul_left_Ioi (fun t => ProbabilityTheory.gaussianPDFReal 0 1 t) (-x / Real.sqrt 2) h2
  rw [mul_div_cancel₀ _ h2.ne'] at hs2
  rw [hs1]
  have hs3 : ∫ t in Set.Ioi (-x), ProbabilityTheory.gaussianPDFReal 0 1 t =
      Real.sqrt 2 * ∫ t in Set.Ioi (-x / Real.sqrt 2), ProbabilityTheory.gaussianPDFReal 0 1 (Real.sqrt 2 * t) := by
    rw [hs2, smul_eq_mul, ← mul_assoc, mul_inv_cancel₀ h2.ne', one_mul]
  rw [hs3]
  have hpdf : ∀ t : ℝ, ProbabilityTheory.gaussianPDFReal 0 1 (Real.sqrt 2 * t) = (Real.sqrt (2 * Real.pi))⁻¹ * Real.exp (-t ^ 2) := by
    intro t
    unfold ProbabilityTheory.gaussianPDFReal
    have : -(Real.sqrt 2 * t - 0) ^ 2 / (2 * ((1 : NNReal) : ℝ)) = -t ^ 2 := by
      rw [sub_zero, mul_pow, Real.sq_sqrt (by norm_num)]; push_cast; ring
    rw [this]; simp
  simp only [hpdf]
  rw [MeasureTheory.integral_const_mul, Real.sqrt_mul (by norm_num)]
  have hpi : (0 : ℝ) < Real.sqrt Real.pi := Real.sqrt_pos.mpr Real.pi_pos
  field_simp

theorem C114_normal_contCdf {erfc : EReal → ℝ} (he : Spec.IsErfc erfc) : Spec.ContCdf (standardNormalCdf erfc) := by
  have h2 : (0 : ℝ) < Real.sqrt 2 := by positivity
  refine Spec.ContCdf.of_real ?_ ?_ ?_ ?_ ?_ ?_
  · intro x y hxy
    rw [C114_normal_cdf he, C114_normal_cdf he]
    exact ENNReal.toReal_mono (MeasureTheory.measure_ne_top _ _) (MeasureTheory.measure_mono (Set.Iic_subset_Iic.mpr hxy))
  · intro x; rw [C114_normal_cdf he]; exact ENNReal.toReal_nonneg
  · intro x; rw [C114_normal_cdf he]
    exact ENNReal.toReal_le_of_le_ofReal zero_le_one (by rw [ENNReal.ofReal_one]; exact MeasureTheory.prob_le_one)
  · unfold standardNormalCdf
    rw [EReal.neg_bot, EReal.top_div_of_pos_ne_top (by exact_mod_cast h2) (by simp), he.top]; norm_num
  · unfold standardNormalCdf
    rw [EReal.neg_top, EReal.bot_div_of_pos_ne_top (by exact_mod_cast h2) (by simp), he.bot]; norm_num
  · have hint : MeasureTheory.Integrable (ProbabilityTheory.gaussianPDFReal 0 1) := ProbabilityTheory.integrable_gaussianPDFReal 0 1
    have hF : ∀ x : ℝ, standardNormalCdf erfc x = standardNormalCdf erfc (0 : ℝ) + ∫ t in (0 : ℝ)..x, ProbabilityTheory.gaussianPDFReal 0 1 t := by
      intro x
      rw [C114_normal_cdf he, C114_normal_cdf he, ProbabilityTheory.gaussianReal_apply_eq_integral _ (by norm_num),
        ProbabilityTheory.gaussianReal_apply_eq_integral _ (by norm_num),
        ENNReal.toReal_ofReal (MeasureTheory.integral_nonneg fun _ => ProbabilityTheory.gaussianPDFReal_nonneg _ _ _),
        ENNReal.toReal_ofReal (MeasureTheory.integral_nonneg fun _ => ProbabilityTheory.gaussianPDFReal_nonneg _ _ _),
        ← intervalIntegral.integral_Iic_sub_Iic hint.integrableOn hint.integrableOn]
      ring
    rw [funext hF]
    exact continuous_const.add (intervalIntegral.continuous_primitive (fun a b => hint.intervalIntegrable) 0)

/-- C114: the test of a list of samples against the uniform law on `[-r, r]`. -/
theorem C114_uniform_test {r cv : ℝ} (hr : 0 < r) {samples : List ℝ} (hne : samples ≠ []) :
    kolmogorovSmirnovTester (fun x => uniformSymintervalCdf x r) samples cv = .ok none ↔
      ∀ x : ℝ, |empCdf samples x -
        (MeasureTheory.volume (Set.Icc (-r) r ∩ Set.Iic x)).toReal / (MeasureTheory.volume (Set.Icc (-r) r)).toReal| ≤ cv := by
  have h := C114_uniform_contCdf hr
  rw [(C114_continuous_test h.mono h.bot h.top h.cont hne).2]
  simp only [C114_uniform_cdf hr]

/-- C114: the test of a list of samples against the standard normal law. -/
theorem C114_normal_test {erfc : EReal → ℝ} (he : Spec.IsErfc erfc) {cv : ℝ} {samples : List ℝ} (hne : samples ≠ []) :
    kolmogorovSmirnovTester (standardNormalCdf erfc) samples cv = .ok none ↔
      ∀ x : ℝ, |empCdf samples x - (ProbabilityTheory.gaussianReal 0 1 (Set.Iic x)).toReal| ≤ cv := by
  have h := C114_normal_contCdf he
  rw [(C114_continuous_test h.mono h.bot h.top h.cont hne).2]
  simp only [C114_normal_cdf he]

/-- A function with the properties of `erfc` exists. -/
example : ∃ erfc, Spec.IsErfc erfc :=
  ⟨fun x => if x = ⊥ then 2 else if x = ⊤ then 0 else 2 / Real.sqrt Real.pi * ∫ t in Set.Ioi x.toReal, Real.exp (-t ^ 2),
    ⟨fun x => by simp, by simp, by simp⟩⟩

example : kolmogorovSmirnovTester (fun x => uniformSymintervalCdf x 1) [0] (1 / 2) = .ok none ↔
    ∀ x : ℝ, |empCdf [0] x - (MeasureTheory.volume (Set.Icc (-1) 1 ∩ Set.Iic x)).toReal / (MeasureTheory.volume (Set.Icc (-1 : ℝ) 1)).toReal| ≤ 1 / 2 :=
  C114_uniform_test one_pos (by simp)

/-- C113 is violated for the tests of continuous distributions as well: with the misprinted critical value they accept every list of
samples, whatever the distribution. -/
theorem C113_never_fails_continuous {n : Int} {sig : ℚ} (hn : 2 ^ 23 < n ∧ n ≤ 2 ^ 24) (hs : 1 / 10 ^ 5 ≤ sig ∧ sig < 1 / 10 ^ 4) :
    ∃ cv : ℚ, criticalValueRep n sig = .ok (cv, 2 ^ 24, 1 / 10 ^ 5) ∧
      ∀ (F : EReal → ℝ) (samples : List ℝ), Spec.ContCdf F → samples ≠ [] → kolmogorovSmirnovTester F samples cv = .ok none := by
  obtain ⟨cv, h1, h2, -⟩ := C113_never_fails hn hs
  refine ⟨cv, h1, fun F samples hF hne => ?_⟩
  rw [(C114_continuous_test hF.mono hF.bot hF.top hF.cont hne).2]
  intro x
  have hcv : (6 : ℝ) < cv := by exact_mod_cast h2
  have hpos : (0 : ℝ) < samples.length := by exact_mod_cast List.length_pos_of_ne_nil hne
  have e0 : 0 ≤ empCdf samples x := by unfold empCdf; positivity
  have e1 : empCdf samples x ≤ 1 := by
    unfold empCdf
    rw [div_le_one hpos]
    exact_mod_cast List.length_filter_le _ _
  have f0 : 0 ≤ F x := hF.bot ▸ hF.mono bot_le
  have f1 : F x ≤ 1 := hF.top ▸ hF.mono le_top
  rw [abs_le]; constructor <;> linarith

example : ∃ cv : ℚ, criticalValueRep 10000000 (1 / 10 ^ 5) = .ok (cv, 2 ^ 24, 1 / 10 ^ 5) ∧
    kolmogorovSmirnovTester (fun x => uniformSymintervalCdf x 1) [1000, 1000, 1000] cv = .ok none :=
  let ⟨cv, h1, h2⟩ := C113_never_fails_continuous (n := 10000000) (sig := 1 / 10 ^ 5) (by norm_num) (by norm_num)
  ⟨cv, h1, h2 _ _ (C114_uniform_contCdf one_pos) (by simp)⟩

end RB
