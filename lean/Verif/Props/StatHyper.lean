import Verif.Props.StatKs
import Verif.Props.FyBias
import Mathlib.Data.Nat.Choose.Vandermonde
import Mathlib.Data.Nat.Choose.Cast

/-!
# The hypergeometric distribution and the test of sampling without replacement (C115)
-/

namespace RB
open Spec Finset

/-! ## Counting -/

/-- The subsets of `D` out of `N` elements with exactly `k` among the first `K`. -/
theorem card_hyper {N K D k : ℕ} (hK : K ≤ N) (hk : k ≤ D) :
    (((range N).powersetCard D).filter (fun S => (S.filter (fun x => x < K)).card = k)).card = K.choose k * (N - K).choose (D - k) := by
  have h1 : (powersetCard k (range K) ×ˢ powersetCard (D - k) (Ico K N)).card = K.choose k * (N - K).choose (D - k) := by
    rw [card_product, card_powersetCard, card_powersetCard, card_range, Nat.card_Ico]
  rw [← h1]
  refine card_nbij' (fun S => (S.filter (fun x => x < K), S.filter (fun x => ¬ x < K))) (fun p => p.1 ∪ p.2) ?_ ?_ ?_ ?_
  · intro S hS
    simp only [mem_coe, mem_filter, mem_powersetCard, mem_product] at hS ⊢
    obtain ⟨⟨hsub, hcard⟩, hcnt⟩ := hS
    have := card_filter_add_card_filter_not (s := S) (fun x => x < K)
    refine ⟨⟨fun x hx => ?_, hcnt⟩, ⟨fun x hx => ?_, by omega⟩⟩
    · rw [mem_filter] at hx; exact mem_range.mpr hx.2
    · rw [mem_filter] at hx
      have := mem_range.mp (hsub hx.1)
      rw [mem_Ico]; omega
  · rintro ⟨A, B⟩ hAB
    simp only [mem_coe, mem_filter, mem_powersetCard, mem_product] at hAB ⊢
    obtain ⟨⟨hA, cA⟩, hB, cB⟩ := hAB
    have hdis : Disjoint A B := disjoint_left.mpr fun x ha hb => by
      have := mem_range.mp (hA ha); have := mem_Ico.mp (hB hb); omega
    refine ⟨⟨union_subset (fun x hx => ?_) (fun x hx => ?_), ?_⟩, ?_⟩
    · have := mem_range.mp (hA hx); exact mem_range.mpr (by omega)
    · have := mem_Ico.mp (hB hx); exact mem_range.mpr (by omega)
    · rw [card_union_of_disjoint hdis]; omega
    · rw [filter_union, filter_true_of_mem fun x hx => mem_range.mp (hA hx), filter_false_of_mem fun x hx => ?_, union_empty, cA]
      have := mem_Ico.mp (hB hx); omega
  · intro S _
    exact filter_union_filter_not_eq _ _
  · rintro ⟨A, B⟩ hAB
    simp only [mem_coe, mem_powersetCard, mem_product] at hAB
    obtain ⟨⟨hA, cA⟩, hB, cB⟩ := hAB
    have a1 : A.filter (fun x => x < K) = A := filter_true_of_mem fun x hx => mem_range.mp (hA hx)
    have a2 : B.filter (fun x => x < K) = ∅ := filter_false_of_mem fun x hx => by have := mem_Ico.mp (hB hx); omega
    have a3 : A.filter (fun x => ¬ x < K) = ∅ := filter_false_of_mem fun x hx => by have := mem_range.mp (hA hx); omega
    have a4 : B.filter (fun x => ¬ x < K) = B := filter_true_of_mem fun x hx => by have := mem_Ico.mp (hB hx); omega
    simp only [filter_union, a1, a2, a3, a4, union_empty, empty_union]

theorem hyperProb_eq {N K D k : ℕ} (hK : K ≤ N) : hyperProb N K D k =
    if k ≤ D then ((K.choose k * (N - K).choose (D - k) : ℕ) : ℝ) / (N.choose D : ℝ) else 0 := by
  unfold hyperProb
  rw [card_powersetCard, card_range]
  by_cases hk : k ≤ D
  · rw [if_pos hk, card_hyper hK hk]
  · rw [if_neg hk, filter_false_of_mem, card_empty]; · simp
    intro S hS
    have h1 := card_le_card (filter_subset (fun x => x < K) S)
    rw [(mem_powersetCard.mp hS).2] at h1
    omega

/-! ## Binomial coefficients -/

theorem logBinom_eq {n k : ℕ} (h : k ≤ n) : logBinomialCoefficient n k = some (Real.log (n.choose k)) := by
  unfold logBinomialCoefficient foldI
  rw [show ((k : Int) + 1 - 1).toNat = k by omega]
  induction k with
  | zero => simp [foldN]
  | succ k ih =>
    unfold foldN
    rw [ih (by omega)]
    have h1 : (0 : ℝ) < (((n : Int) - (1 + (k : Int)) + 1 : Int) : ℝ) := by
      have : (0 : Int) < (n : Int) - (1 + k) + 1 := by omega
      exact_mod_cast this
    have h2 : (0 : ℝ) < ((1 + (k : Int) : Int) : ℝ) := by
      have : (0 : Int) < 1 + (k : Int) := by omega
      exact_mod_cast this
    show (logD _ >>= fun a => logD _ >>= fun b => _) = _
    unfold logD
    rw [if_pos h1, if_pos h2]
    show some _ = some _
    congr 1
    have hc : (0 : ℝ) < (n.choose k : ℝ) := by exact_mod_cast Nat.choose_pos (show k ≤ n by omega)
    have hc' : (0 : ℝ) < (n.choose (k + 1) : ℝ) := by exact_mod_cast Nat.choose_pos h
    rw [← Real.log_div h1.ne' h2.ne', ← Real.log_mul hc.ne' (div_ne_zero h1.ne' h2.ne')]
    congr 1
    have := Nat.choose_succ_right_eq n k
    have h3 : ((n - k : ℕ) : ℝ) = (((n : Int) - (1 + (k : Int)) + 1 : Int) : ℝ) := by
      rw [Nat.cast_sub (by omega)]; push_cast; ring
    have h4 : (n.choose (k + 1) : ℝ) * ((k : ℝ) + 1) = (n.choose k : ℝ) * ((n - k : ℕ) : ℝ) := by exact_mod_cast this
    rw [h3] at h4
    have h5 : ((1 + (k : Int) : Int) : ℝ) = (k : ℝ) + 1 := by push_cast; ring
    rw [← mul_div_assoc, ← h4, h5, mul_div_assoc, div_self (by positivity), mul_one]

/-- C115. `hypergeometric_pmf(N, K, D, k)` is the probability that a random subset of `D` out of `N` elements contains exactly `k` of `K`
distinguished elements: the number of such subsets divided by the number of all subsets of that size. -/
theorem C115_pmf {N K D k : ℕ} (hK : K ≤ N) (hD : D ≤ N) (hk : k ≤ K) :
    hypergeometricPmf N K D k = .ok (some (hyperProb N K D k)) := by
  unfold hypergeometricPmf
  rw [Res.require_eq_ok ⟨by omega, by omega⟩, Res.ok_bind, Res.require_eq_ok ⟨by omega, by omega⟩, Res.ok_bind,
    Res.require_eq_ok ⟨by omega, by omega⟩, Res.ok_bind, hyperProb_eq hK]
  by_cases hc : (k : Int) < (D : Int) - ((N : Int) - (K : Int)) ∨ (k : Int) > (D : Int)
  · rw [if_pos hc, Res.pure_eq]
    congr 2
    rcases hc with h | h
    · rw [if_pos (by omega), Nat.choose_eq_zero_of_lt (show N - K < D - k by omega)]; simp
    · rw [if_neg (by omega)]
  · rw [if_neg hc, if_pos (by omega), Res.pure_eq]
    congr 1
    rw [show ((N : Int) - K) = ((N - K : ℕ) : Int) by omega, show ((D : Int) - k) = ((D - k : ℕ) : Int) by omega,
      logBinom_eq (by omega), logBinom_eq hk, logBinom_eq hD]
    show some _ = some _
    congr 1
    have h1 : (0 : ℝ) < ((N - K).choose (D - k) : ℝ) := by exact_mod_cast Nat.choose_pos (show D - k ≤ N - K by omega)
    have h2 : (0 : ℝ) < (K.choose k : ℝ) := by exact_mod_cast Nat.choose_pos hk
    have h3 : (0 : ℝ) < (N.choose D : ℝ) := by exact_mod_cast Nat.choose_pos hD
    rw [Real.exp_sub, Real.exp_add, Real.exp_log h1, Real.exp_log h2, Real.exp_log h3]
    push_cast; ring

example : hypergeometricPmf 5 3 2 1 = .ok (some (hyperProb 5 3 2 1)) := C115_pmf (N := 5) (K := 3) (D := 2) (k := 1) (by norm_num) (by norm_num) (by norm_num)

/-- C115 (errors). Parameters out of range raise an error. -/
theorem C115_pmf_error {N K D k : Int} (h : ¬ ((0 ≤ K ∧ K ≤ N) ∧ (0 ≤ D ∧ D ≤ N) ∧ (0 ≤ k ∧ k ≤ K))) :
    hypergeometricPmf N K D k = .throw .require := by
  unfold hypergeometricPmf
  by_cases h1 : 0 ≤ K ∧ K ≤ N
  · rw [Res.require_eq_ok h1, Res.ok_bind]
    by_cases h2 : 0 ≤ D ∧ D ≤ N
    · rw [Res.require_eq_ok h2, Res.ok_bind, Res.require_eq_throw (fun h3 => h ⟨h1, h2, h3⟩), Res.throw_bind]
    · rw [Res.require_eq_throw h2, Res.throw_bind]
  · rw [Res.require_eq_throw h1, Res.throw_bind]

/-- C115 (array). `hypergeometric_pmf_arr` returns the probabilities of `0, ..., K` distinguished elements, and nothing else. -/
theorem C115_pmf_arr {N K D : ℕ} (hK : K ≤ N) (hD : D ≤ N) (b : Buf (Option ℝ)) :
    M.wp (hypergeometricPmfArr N K D) b (fun _ b' =>
      (∀ k : ℕ, k ≤ K → b' k = .val (some (hyperProb N K D k))) ∧ ∀ p : Int, ¬ (0 ≤ p ∧ p ≤ K) → b' p = .none) := by
  unfold hypergeometricPmfArr
  rw [M.wp_bind, M.wp_require]
  refine ⟨⟨by omega, by omega⟩, ?_⟩
  rw [M.wp_bind, M.wp_require]
  refine ⟨⟨by omega, by omega⟩, ?_⟩
  rw [M.wp_bind, M.wp_set]
  refine M.wp_forI (lo := 0) (hi := (K : Int) + 1) (fun t b' => (∀ k : ℕ, (k : Int) < t → b' k = .val (some (hyperProb N K D k))) ∧
    (∀ p : Int, 0 ≤ p → p ≤ K → ∃ v, b' p = .val v) ∧ ∀ p : Int, ¬ (0 ≤ p ∧ p ≤ K) → b' p = .none) (by omega) ?_ ?_ ?_
  · refine ⟨fun k h => absurd h (by omega), fun p h0 h1 => ⟨some 0, ?_⟩, fun p h => ?_⟩
    · unfold Buf.fill; rw [if_pos ⟨h0, by omega⟩]
    · unfold Buf.fill; rw [if_neg (by omega)]
  · rintro t b' ht0 ht1 ⟨h1, h2, h3⟩
    obtain ⟨k, rfl⟩ := Int.eq_ofNat_of_zero_le ht0
    rw [M.wp_bind, M.wp_lift]
    refine ⟨_, C115_pmf hK hD (by omega), ?_⟩
    rw [M.wp_wr]
    obtain ⟨v, hv⟩ := h2 k (by omega) (by omega)
    refine ⟨by rw [hv]; simp, fun k' hk' => ?_, fun p h0 hp => ?_, fun p hp => ?_⟩
    · rw [Buf.set_apply]
      by_cases e : (k' : Int) = k
      · rw [if_pos e]
        have : k' = k := by omega
        rw [this]
      · rw [if_neg e]; exact h1 k' (by omega)
    · rw [Buf.set_apply]
      by_cases e : p = k
      · exact ⟨_, if_pos e⟩
      · rw [if_neg e]; exact h2 p h0 hp
    · rw [Buf.set_ne (by omega)]; exact h3 p hp
  · rintro b' ⟨h1, -, h3⟩
    exact ⟨fun k hk => h1 k (by omega), h3⟩

/-! ## Sums -/

/-- Vandermonde's identity, as a sum over a range. -/
theorem vandermonde (K L D : ℕ) : ∑ k ∈ range (D + 1), K.choose k * L.choose (D - k) = (K + L).choose D := by
  rw [Nat.add_choose_eq, Nat.sum_antidiagonal_eq_sum_range_succ_mk]

theorem vandermonde1 (K L D : ℕ) : ∑ k ∈ range (D + 1 + 1), k * ((K + 1).choose k * L.choose (D + 1 - k)) = (K + 1) * (K + L).choose D := by
  rw [← vandermonde K L D, sum_range_succ', mul_sum]
  simp only [zero_mul, add_zero]
  refine sum_congr rfl fun k _ => ?_
  have := Nat.add_one_mul_choose_eq K k
  rw [show D + 1 - (k + 1) = D - k by omega]
  calc (k + 1) * ((K + 1).choose (k + 1) * L.choose (D - k)) = ((K + 1).choose (k + 1) * (k + 1)) * L.choose (D - k) := by ring
    _ = _ := by rw [← this]; ring

theorem vandermonde2 (K L D : ℕ) :
    ∑ k ∈ range (D + 2 + 1), k * (k - 1) * ((K + 2).choose k * L.choose (D + 2 - k)) = (K + 2) * (K + 1) * (K + L).choose D := by
  rw [mul_assoc, ← vandermonde1, sum_range_succ', mul_sum]
  simp only [zero_mul, add_zero]
  refine sum_congr rfl fun k _ => ?_
  have := Nat.add_one_mul_choose_eq (K + 1) k
  rw [show D + 2 - (k + 1) = D + 1 - k by omega, Nat.add_sub_cancel]
  calc (k + 1) * k * ((K + 2).choose (k + 1) * L.choose (D + 1 - k)) = ((K + 2).choose (k + 1) * (k + 1)) * (k * L.choose (D + 1 - k)) := by ring
    _ = _ := by
      rw [show (K + 2).choose (k + 1) * (k + 1) = (K + 2) * (K + 1).choose k from this.symm]; ring

/-- A sum against the probabilities of `0..K`, as a sum over `0..D`. -/
theorem hyper_sum {N K D : ℕ} (hK : K ≤ N) (g : ℕ → ℝ) :
    ∑ k ∈ range (K + 1), g k * hyperProb N K D k =
      (∑ k ∈ range (D + 1), g k * ((K.choose k * (N - K).choose (D - k) : ℕ) : ℝ)) / (N.choose D : ℝ) := by
  have h1 : ∑ k ∈ range (K + 1), g k * hyperProb N K D k = ∑ k ∈ range (max K D + 1), g k * hyperProb N K D k := by
    refine sum_subset (range_mono (by omega)) fun k hk hk' => ?_
    have : K < k := by simpa using hk'
    rw [hyperProb_eq hK]
    by_cases h : k ≤ D
    · rw [if_pos h, Nat.choose_eq_zero_of_lt this]; simp
    · rw [if_neg h, mul_zero]
  have h2 : ∑ k ∈ range (D + 1), g k * hyperProb N K D k = ∑ k ∈ range (max K D + 1), g k * hyperProb N K D k := by
    refine sum_subset (range_mono (by omega)) fun k hk hk' => ?_
    have : ¬ k ≤ D := by have : D < k := by simpa using hk'
                         omega
    rw [hyperProb_eq hK, if_neg this, mul_zero]
  rw [h1, ← h2, sum_div]
  refine sum_congr rfl fun k hk => ?_
  rw [hyperProb_eq hK, if_pos (by have := mem_range.mp hk; omega), mul_div_assoc]

/-- C115. The probabilities of `0..K` sum to one. -/
theorem C115_sum_one {N K D : ℕ} (hK : K ≤ N) (hD : D ≤ N) : ∑ k ∈ range (K + 1), hyperProb N K D k = 1 := by
  have h := hyper_sum (D := D) hK (fun _ => 1)
  simp only [one_mul] at h
  rw [h, ← Nat.cast_sum, vandermonde, Nat.add_sub_cancel' hK, div_self]
  exact_mod_cast (Nat.choose_pos hD).ne'

theorem hyper_first {N K D : ℕ} (hK : K ≤ N) (hD : D ≤ N) (hN : 0 < N) :
    ∑ k ∈ range (K + 1), (k : ℝ) * hyperProb N K D k = (D : ℝ) * K / N := by
  rw [hyper_sum hK fun k => (k : ℝ)]
  have hNr : (0 : ℝ) < N := by exact_mod_cast hN
  have hC : (0 : ℝ) < (N.choose D : ℝ) := by exact_mod_cast Nat.choose_pos hD
  rcases Nat.eq_zero_or_pos D with rfl | hD0
  · simp
  rcases Nat.eq_zero_or_pos K with rfl | hK0
  · have : ∀ k ∈ range (D + 1), (k : ℝ) * (((0 : ℕ).choose k * (N - 0).choose (D - k) : ℕ) : ℝ) = 0 := by
      intro k _
      rcases Nat.eq_zero_or_pos k with rfl | hk
      · simp
      · rw [Nat.choose_eq_zero_of_lt hk]; simp
    rw [sum_congr rfl this]; simp
  obtain ⟨D', rfl⟩ := Nat.exists_eq_succ_of_ne_zero hD0.ne'
  obtain ⟨K', rfl⟩ := Nat.exists_eq_succ_of_ne_zero hK0.ne'
  obtain ⟨N', rfl⟩ := Nat.exists_eq_succ_of_ne_zero hN.ne'
  have h := vandermonde1 K' (N' + 1 - (K' + 1)) D'
  have h' : ∑ k ∈ range (D' + 1 + 1), (k : ℝ) * (((K' + 1).choose k * (N' + 1 - (K' + 1)).choose (D' + 1 - k) : ℕ) : ℝ) =
      ((K' : ℝ) + 1) * (N'.choose D' : ℝ) := by
    have e : K' + (N' + 1 - (K' + 1)) = N' := by omega
    rw [e] at h
    exact_mod_cast h
  simp only [Nat.succ_eq_add_one] at *
  rw [h']
  have hs := Nat.add_one_mul_choose_eq N' D'
  have hs' : ((N' : ℝ) + 1) * (N'.choose D' : ℝ) = ((N' + 1).choose (D' + 1) : ℝ) * ((D' : ℝ) + 1) := by exact_mod_cast hs
  rw [div_eq_div_iff hC.ne' hNr.ne']
  push_cast
  linear_combination ((K' : ℝ) + 1) * hs'

theorem hyper_second {N K D : ℕ} (hK : K ≤ N) (hD : D ≤ N) (hN : 1 < N) :
    ∑ k ∈ range (K + 1), ((k : ℝ) * ((k : ℝ) - 1)) * hyperProb N K D k = (D : ℝ) * (D - 1) * K * (K - 1) / (N * (N - 1)) := by
  rw [hyper_sum hK fun k => (k : ℝ) * ((k : ℝ) - 1)]
  have hNr : (0 : ℝ) < (N : ℝ) * ((N : ℝ) - 1) := by
    have : (1 : ℝ) < N := by exact_mod_cast hN
    exact mul_pos (by linarith) (by linarith)
  have hC : (0 : ℝ) < (N.choose D : ℝ) := by exact_mod_cast Nat.choose_pos hD
  have hcast : ∀ k : ℕ, (k : ℝ) * ((k : ℝ) - 1) = ((k * (k - 1) : ℕ) : ℝ) := by
    intro k
    cases k with
    | zero => simp
    | succ k => push_cast [Nat.add_sub_cancel]; ring
  have hz : ∀ k : ℕ, k ≤ 1 → (k : ℝ) * ((k : ℝ) - 1) = 0 := by
    intro k hk
    interval_cases k <;> simp
  rcases Nat.lt_or_ge D 2 with hD2 | hD2
  · rw [sum_congr rfl (g := fun _ => (0 : ℝ)) fun k hk => by rw [hz k (by have := mem_range.mp hk; omega), zero_mul]]
    rw [hz D (by omega)]; simp
  rcases Nat.lt_or_ge K 2 with hK2 | hK2
  · rw [sum_congr rfl (g := fun _ => (0 : ℝ)) fun k hk => by
      rcases Nat.lt_or_ge k 2 with h | h
      · rw [hz k (by omega), zero_mul]
      · rw [Nat.choose_eq_zero_of_lt (by omega : K < k)]; simp]
    rw [show (D : ℝ) * (D - 1) * K * (K - 1) = D * (D - 1) * (K * (K - 1)) by ring, hz K (by omega)]; simp
  obtain ⟨D', rfl⟩ := Nat.exists_eq_add_of_le' hD2
  obtain ⟨K', rfl⟩ := Nat.exists_eq_add_of_le' hK2
  obtain ⟨N', rfl⟩ := Nat.exists_eq_add_of_le' (show 2 ≤ N by omega)
  have h := vandermonde2 K' (N' + 2 - (K' + 2)) D'
  have h' : ∑ k ∈ range (D' + 2 + 1), ((k : ℝ) * ((k : ℝ) - 1)) * (((K' + 2).choose k * (N' + 2 - (K' + 2)).choose (D' + 2 - k) : ℕ) : ℝ) =
      ((K' : ℝ) + 2) * (K' + 1) * (N'.choose D' : ℝ) := by
    have e : K' + (N' + 2 - (K' + 2)) = N' := by omega
    rw [e] at h
    rw [sum_congr rfl fun k _ => by rw [hcast k]]
    exact_mod_cast h
  rw [h']
  have s1 : ((N' : ℝ) + 1) * (N'.choose D' : ℝ) = ((N' + 1).choose (D' + 1) : ℝ) * ((D' : ℝ) + 1) := by exact_mod_cast Nat.add_one_mul_choose_eq N' D'
  have s2 : ((N' : ℝ) + 1 + 1) * ((N' + 1).choose (D' + 1) : ℝ) = ((N' + 2).choose (D' + 2) : ℝ) * ((D' : ℝ) + 1 + 1) := by
    exact_mod_cast Nat.add_one_mul_choose_eq (N' + 1) (D' + 1)
  rw [div_eq_div_iff hC.ne' hNr.ne']
  push_cast
  linear_combination ((K' : ℝ) + 2) * (K' + 1) * (N' + 2) * s1 + ((K' : ℝ) + 2) * (K' + 1) * (D' + 1) * s2

/-- C115 (mean). `hypergeometric_mean` is the mean of the distribution. -/
theorem C115_mean {N K D : ℕ} (hK : K ≤ N) (hD : D ≤ N) (hN : 0 < N) :
    hypergeometricMean N K D = some (∑ k ∈ range (K + 1), (k : ℝ) * hyperProb N K D k) := by
  unfold hypergeometricMean divD
  rw [hyper_first hK hD hN, if_neg (by exact_mod_cast hN.ne')]
  simp

/-- C115 (variance; part: at least two elements, see `C115_variance_not_finite`). `hypergeometric_variance` is the variance of the
distribution. -/
theorem C115_variance_partial {N K D : ℕ} (hK : K ≤ N) (hD : D ≤ N) (hN : 1 < N) :
    hypergeometricVariance N K D = some (∑ k ∈ range (K + 1),
      ((k : ℝ) - ∑ l ∈ range (K + 1), (l : ℝ) * hyperProb N K D l) ^ 2 * hyperProb N K D k) := by
  have hNr : (1 : ℝ) < N := by exact_mod_cast hN
  have hN1 : (N : ℝ) - 1 ≠ 0 := by linarith
  have hN0 : (N : ℝ) ≠ 0 := by linarith
  have h1 := hyper_first hK hD (show 0 < N by omega)
  have h2 := hyper_second hK hD hN
  have h0 := C115_sum_one hK hD
  rw [h1]
  have hexp : ∑ k ∈ range (K + 1), ((k : ℝ) - (D : ℝ) * K / N) ^ 2 * hyperProb N K D k =
      (∑ k ∈ range (K + 1), ((k : ℝ) * ((k : ℝ) - 1)) * hyperProb N K D k) +
      (1 - 2 * ((D : ℝ) * K / N)) * (∑ k ∈ range (K + 1), (k : ℝ) * hyperProb N K D k) +
      ((D : ℝ) * K / N) ^ 2 * ∑ k ∈ range (K + 1), hyperProb N K D k := by
    rw [mul_sum, mul_sum, ← sum_add_distrib, ← sum_add_distrib]
    refine sum_congr rfl fun k _ => ?_
    ring
  rw [hexp, h0, h1, h2]
  unfold hypergeometricVariance divD
  simp only [Int.cast_natCast]
  rw [if_neg hN0, if_neg hN0, if_neg hN1]
  show some _ = some _
  congr 1
  field_simp
  ring

example : hypergeometricVariance 5 3 2 = some (∑ k ∈ range (3 + 1),
    ((k : ℝ) - ∑ l ∈ range (3 + 1), (l : ℝ) * hyperProb 5 3 2 l) ^ 2 * hyperProb 5 3 2 k) :=
  C115_variance_partial (N := 5) (K := 3) (D := 2) (by norm_num) (by norm_num) (by norm_num)

/-- C115 is violated by `hypergeometric_variance` for a set of one element: the distribution has variance zero, the function divides by zero. -/
theorem C115_variance_not_finite {K D : ℕ} (hK : K ≤ 1) (hD : D ≤ 1) :
    hypergeometricVariance 1 K D = none ∧ ∑ k ∈ range (K + 1),
      ((k : ℝ) - ∑ l ∈ range (K + 1), (l : ℝ) * hyperProb 1 K D l) ^ 2 * hyperProb 1 K D k = 0 := by
  refine ⟨?_, ?_⟩
  · unfold hypergeometricVariance divD
    norm_num
  · have h1 := hyper_first hK hD one_pos
    rw [h1]
    have hp : ∀ k ∈ range (K + 1), ((k : ℝ) - (D : ℝ) * K / (1 : ℕ)) ^ 2 * hyperProb 1 K D k = 0 := by
      intro k hk
      have hk := mem_range.mp hk
      rw [hyperProb_eq hK]
      interval_cases K <;> interval_cases D <;> interval_cases k <;> norm_num
    exact sum_eq_zero hp

end RB
