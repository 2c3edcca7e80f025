import Verif.Model.TestSamplingFy
import Verif.Spec.TestSamplingFy
import Verif.Props.TestSampling
import Verif.Props.StatFy

/-!
# C140: the Kolmogorov-Smirnov test of sampling without replacement
-/

namespace RB
open Spec Finset
variable {N : Nat} {K W R : Type}

theorem fy_ks_single {G : Gen N K W R} {ndebug : Bool} {n k m : ℕ} {num : Int} {sig sig' cv : ℚ} {thresh below : ℝ} {state : RNGState N K} (hG : G.Ok) (hkn : k ≤ n)
    (hnum : 8 ≤ num ∧ num ≤ 2 ^ 24) (e : criticalValueRep num sig = .ok (cv, m, sig')) (hm : SmallestSize num m)
    (hfit : 2 ^ 24 * (k : Int) ≤ intMax 64) (ht : 0 < thresh) (ht1 : thresh ≤ 1) (hb : below ≤ 0) :
    ∃ x : Int → Int,
      M.wp (repeatedFisherYatesPublic G k n m state) (Buf.alloc Int (m * k)) (fun _ b => ∀ p : Int, 0 ≤ p → p < m * k → b p = .val (x p)) ∧
      M.wp (singleTestFisherYatesKs ndebug G n k sig num thresh below state) () (fun r _ => FyKsOutcome x n k m cv r) := by
  have hm0 : num ≤ m := hm.2.1
  have hm1 : (m : Int) ≤ 2 ^ 24 := hm.2.2 (2 ^ 24) ⟨24, by norm_num, by norm_num, by norm_num⟩ hnum.2
  have hfit' : (m : Int) * k ≤ intMax 64 := le_trans (mul_le_mul_of_nonneg_right hm1 (Int.natCast_nonneg k)) hfit
  have hlen : 2 ≤ G.len := by rcases hG with h | h <;> omega
  have hkn' : (k : Int) ≤ n := by exact_mod_cast hkn
  have hsum1 : ∑ l ∈ range (k + 1), hyperProb n k k l = 1 := C115_sum_one hkn hkn
  have hpos : ∀ l, 0 ≤ hyperProb n k k l := fun l => by unfold hyperProb; positivity
  have hps : ∀ j : ℕ, posSum (fun i : Int => hyperProb n k k i.toNat) j = ∑ l ∈ range j, hyperProb n k k l := fun j =>
    sum_congr rfl fun l _ => by simp [hpos]
  refine ⟨fyIdx G state k n, ?_, ?_⟩
  · refine ⟨_, _, fyPublic_ok hlen (Int.natCast_nonneg k) hkn' (Int.natCast_nonneg m) (allocTo_alloc _) hfit', fun p h0 h1 => ?_⟩
    unfold Buf.over; rw [if_pos ⟨h0, h1⟩]
  unfold singleTestFisherYatesKs
  rw [M.wp_bind, M.wp_lift]
  refine ⟨_, (C113_mutator_partial (by constructor <;> simp only [intMin, intMax] <;> omega)).trans e, ?_⟩
  dsimp only
  rw [M.wp_bind, M.wp_onLocal]
  refine ⟨_, _, fyPublic_ok hlen (Int.natCast_nonneg k) hkn' (Int.natCast_nonneg m) (fun p h0 h1 => ?_) hfit', ?_⟩
  · rw [mul_comm] at h1; simp [Buf.fill, h0, h1]
  beta_reduce
  rw [M.wp_bind, M.wp_onLocal]
  refine M.wp_mono (C115_pmf_arr hkn hkn _) ?_
  rintro - pmf ⟨hp, -⟩
  rw [M.wp_bind, M.wp_onLocal]
  refine M.wp_mono (C22_weights_to_cdf (v := fun i => hyperProb n k k i.toNat) (by omega) (fun i h0 h1 => ?_) (fun i _ _ => hb.trans (hpos _)) ht
    (by rw [hps, show ((k : Int) + 1).toNat = k + 1 by omega, hsum1]; exact ht1)) ?_
  · have := hp i.toNat (by omega)
    rw [show ((i.toNat : ℕ) : Int) = i by omega] at this
    simp [finiteValues, this]
  rintro - cdf ⟨f, hf, -, -⟩
  have hf' : ∀ i, 0 ≤ i → i < (k : Int) + 1 → f i = ∑ l ∈ range (i.toNat + 1), hyperProb n k k l := by
    intro i h0 h1
    rw [(hf i h0 h1).2, hps, hps, show ((k : Int) + 1).toNat = k + 1 by omega, hsum1, div_one]
  unfold fisherYatesKsTester
  rw [M.wp_bind, M.wp_onLocal]
  have hthm : thresh ≤ (m : ℝ) := ht1.trans (by have : 1 ≤ m := by omega
                                                exact_mod_cast this)
  refine M.wp_mono (C115_empirical (x := fyIdx G state k n) (fun p h0 h1 => ?_) (by omega) hthm hb) ?_
  · dsimp only; unfold Buf.over; rw [if_pos ⟨h0, h1⟩]
  rintro - emp hemp
  obtain ⟨r, d, hr, hiff, hne⟩ := C114_check (ndebug := ndebug) (cv := (cv : ℝ)) (n := (k : Int) + 1) (by omega) (fun i h0 h1 => (hf i h0 h1).1)
    (fun i h0 h1 => hemp i h0 (by omega))
  rw [M.wp_bind, M.wp_lift]
  refine ⟨_, hr, ?_⟩
  rw [M.wp_pure]
  have key : ∀ c : ℕ, c ≤ k → |f c - empCdfInt (blockCounts (fyIdx G state k n) k m) c| = fyDistance (fyIdx G state k n) n k m c := by
    intro c hc
    unfold fyDistance
    rw [hf' c (by omega) (by omega), blockCounts, empCdfInt_share, Int.toNat_natCast]
    congr 2
    exact shareOf_congr fun s _ => by exact_mod_cast Iff.rfl
  by_cases h : r = -1
  · refine Or.inl ⟨h, fun c hc => ?_⟩
    rw [← key c hc]; exact hiff.mp h c (by omega) (by omega)
  · obtain ⟨h0, h1, h2, h3, h4⟩ := hne h
    refine Or.inr ⟨r.toNat, by simp [h0], by omega, ?_, fun d hd => ?_⟩
    · rw [← key _ (by omega), show ((r.toNat : ℕ) : Int) = r by omega, ← h2]; exact h3
    · rw [← key _ (by omega)]; exact h4 d (by omega) (by omega)

/-- C140 (sampling without replacement, Kolmogorov-Smirnov). The test draws `k` of `n` indices as often as tabulated, and compares how many of them are below `k` with the
hypergeometric distribution: it reports the first count at which the distribution functions differ by more than the critical value, or -1. -/
theorem C140_fisher_yates_ks {G : Gen N K W R} {ndebug : Bool} {n k : ℕ} {num : Int} {sig : ℚ} {thresh below : ℝ} {state : RNGState N K} (hG : G.Ok) (hkn : k ≤ n)
    (hnum : 8 ≤ num ∧ num ≤ 2 ^ 24) (hs : 1 / 10 ^ 6 ≤ sig ∧ sig ≤ 5 / 100)
    (hfit : 2 ^ 24 * (k : Int) ≤ intMax 64) (ht : 0 < thresh) (ht1 : thresh ≤ 1) (hb : below ≤ 0) :
    ∃ (cv : ℚ) (m : ℕ) (sig' : ℚ), SmallestSize num m ∧ LargestLevel sig sig' ∧ (¬ (1 / 10 ^ 5 ≤ sig ∧ sig < 1 / 10 ^ 4 ∧ 2 ^ 23 < num) → KsCritical m sig' cv) ∧ ∃ x : Int → Int,
      M.wp (repeatedFisherYatesPublic G k n m state) (Buf.alloc Int (m * k)) (fun _ b => ∀ p : Int, 0 ≤ p → p < m * k → b p = .val (x p)) ∧
      M.wp (singleTestFisherYatesKs ndebug G n k sig num thresh below state) () (fun r _ => FyKsOutcome x n k m cv r) := by
  obtain ⟨cv, m, sig', e, hm, hl, hc⟩ := lookup_exists hnum hs
  have hm0 : num ≤ m := hm.2.1
  obtain ⟨m, rfl⟩ : ∃ m' : ℕ, m = m' := ⟨m.toNat, by omega⟩
  exact ⟨cv, m, sig', hm, hl, fun h => by simpa using hc h, fy_ks_single hG hkn hnum e hm hfit ht ht1 hb⟩

/-! ## The sizes that are tested -/

theorem fifth_root_ten : (3 / 2 : ℝ) ≤ (10 : ℝ) ^ (0.2 : ℝ) := by
  have h : ((3 / 2 : ℝ) ^ (5 : ℕ)) ^ (0.2 : ℝ) = 3 / 2 := by
    rw [← Real.rpow_natCast, ← Real.rpow_mul (by norm_num)]; norm_num
  rw [← h]
  exact Real.rpow_le_rpow (by norm_num) (by norm_num) (by norm_num)

/-- The step increases `K`. -/
theorem incr_increases {k : Int} (hk : 0 ≤ k) : k < incrWithPhaseTransitions k := by
  unfold incrWithPhaseTransitions truncToInt
  split_ifs with h1 h2 h3 h4
  · omega
  · have : (1 : Int) ≤ ⌊(Real.sqrt k + 1) ^ 2⌋ := by
      rw [Int.le_floor]
      have := Real.sqrt_nonneg (k : ℝ)
      push_cast; nlinarith
    omega
  · exact absurd (sq_nonneg _) h3
  · have hk' : (100 : ℝ) ≤ k := by exact_mod_cast not_lt.mp h2
    have : k + 1 ≤ ⌊(k : ℝ) * (10 : ℝ) ^ (0.2 : ℝ)⌋ := by
      rw [Int.le_floor]
      have := fifth_root_ten
      push_cast; nlinarith
    omega
  · have hk' : (0 : ℝ) ≤ k := by exact_mod_cast hk
    exact absurd (mul_nonneg hk' (by positivity)) h4

theorem sizes_range {n : Int} : ∀ {fuel : ℕ} {k x : Int}, 0 ≤ k → x ∈ fisherYatesSizes n fuel k → k ≤ x ∧ x ≤ n
  | 0, _, _, _, h => by simp [fisherYatesSizes] at h
  | fuel + 1, k, x, hk, h => by
    unfold fisherYatesSizes at h
    split_ifs at h with hkn
    · rcases List.mem_cons.mp h with rfl | h
      · exact ⟨le_rfl, hkn⟩
      · have hi := incr_increases hk
        have := sizes_range (by omega) h
        omega
    · simp at h

theorem sizes_pairwise {n : Int} : ∀ {fuel : ℕ} {k : Int}, 0 ≤ k → (fisherYatesSizes n fuel k).Pairwise (· < ·)
  | 0, _, _ => List.Pairwise.nil
  | fuel + 1, k, hk => by
    unfold fisherYatesSizes
    have hi := incr_increases hk
    split_ifs
    · refine List.pairwise_cons.mpr ⟨fun x hx => ?_, sizes_pairwise (by omega)⟩
      have := sizes_range (by omega) hx
      omega
    · exact List.Pairwise.nil

theorem sizes_fuel {n : Int} : ∀ {fuel fuel' : ℕ} {k : Int}, 0 ≤ k → (n + 1 - k).toNat ≤ fuel → (n + 1 - k).toNat ≤ fuel' →
    fisherYatesSizes n fuel k = fisherYatesSizes n fuel' k
  | 0, 0, _, _, _, _ => rfl
  | 0, _ + 1, k, _, h, _ => by simp only [fisherYatesSizes]; rw [if_neg (by omega)]
  | _ + 1, 0, k, _, _, h => by simp only [fisherYatesSizes]; rw [if_neg (by omega)]
  | f + 1, f' + 1, k, hk, h, h' => by
    unfold fisherYatesSizes
    have hi := incr_increases hk
    split_ifs
    · rw [sizes_fuel (fuel := f) (fuel' := f') (by omega) (by omega) (by omega)]
    · rfl

theorem sizes_small {n : Int} : ∀ {fuel : ℕ} {k j : Int}, 0 ≤ k → (n + 1 - k).toNat ≤ fuel → k ≤ j → j ≤ n → j ≤ 10 → j ∈ fisherYatesSizes n fuel k
  | 0, k, j, _, h, _, _, _ => by omega
  | f + 1, k, j, hk, h, h1, h2, h3 => by
    unfold fisherYatesSizes
    rw [if_pos (by omega)]
    rcases h1.lt_or_eq with h1 | rfl
    · refine List.mem_cons_of_mem _ ?_
      rw [show incrWithPhaseTransitions k = k + 1 by unfold incrWithPhaseTransitions; rw [if_pos (by omega)]]
      exact sizes_small (by omega) (by omega) (by omega) h2 h3
    · exact List.mem_cons_self

/-- C140 (the loop ends). The loop of `test_fisher_yates_kolmogorov_smirnov` ends after at most `n + 1` iterations: more do not change the sizes that are tested. These
are increasing, at most `n`, and include all sizes up to 10. -/
theorem C140_sizes {n : ℕ} {fuel : ℕ} (hf : n + 1 ≤ fuel) :
    fisherYatesSizes n fuel 0 = fisherYatesSizes n (n + 1) 0 ∧ (fisherYatesSizes n fuel 0).Pairwise (· < ·) ∧ (∀ k ∈ fisherYatesSizes n fuel 0, 0 ≤ k ∧ k ≤ n) ∧
      ∀ k : Int, 0 ≤ k → k ≤ n → k ≤ 10 → k ∈ fisherYatesSizes n fuel 0 :=
  ⟨sizes_fuel le_rfl (by omega) (by omega), sizes_pairwise le_rfl, fun k h => sizes_range le_rfl h, fun k h0 h1 h2 => sizes_small le_rfl (by omega) h0 h1 h2⟩

theorem wp_collect {σ : Type} {f : Int → M σ Int} {s : σ} {P : Int → Int → Prop} : ∀ {ks : List Int} {acc : List (Int × Int)},
    (∀ k ∈ ks, M.wp (f k) s (fun r s' => s' = s ∧ P k r)) →
    M.wp (ks.foldlM (fun l k => do let r ← f k; pure (l ++ [(k, r)])) acc) s (fun l s' => s' = s ∧ ∃ rs : List (Int × Int), l = acc ++ rs ∧ rs.map Prod.fst = ks ∧ ∀ kr ∈ rs, P kr.1 kr.2)
  | [], acc, _ => by
    rw [List.foldlM_nil, M.wp_pure]
    exact ⟨rfl, [], by simp, rfl, by simp⟩
  | k :: ks, acc, h => by
    rw [List.foldlM_cons, M.wp_bind, M.wp_bind]
    refine M.wp_mono (h k List.mem_cons_self) ?_
    rintro r s' ⟨rfl, hr⟩
    rw [M.wp_pure]
    refine M.wp_mono (wp_collect (ks := ks) fun k' hk' => h k' (List.mem_cons_of_mem _ hk')) ?_
    rintro l s'' ⟨rfl, rs, rfl, h1, h2⟩
    refine ⟨rfl, (k, r) :: rs, by simp, by simp [h1], fun kr hkr => ?_⟩
    rcases List.mem_cons.mp hkr with rfl | hkr
    · exact hr
    · exact h2 kr hkr

/-- C140 (the whole test). `test_fisher_yates_kolmogorov_smirnov` runs the test once for each of these sizes; the critical value and the number of draws are the same for all. -/
theorem C140_fisher_yates_test {G : Gen N K W R} {ndebug : Bool} {n fuel : ℕ} {num : Int} {sig : ℚ} {thresh : Int → ℝ} {below : ℝ} {state : RNGState N K} (hG : G.Ok)
    (hnum : 8 ≤ num ∧ num ≤ 2 ^ 24) (hs : 1 / 10 ^ 6 ≤ sig ∧ sig ≤ 5 / 100)
    (hfit : 2 ^ 24 * (n : Int) ≤ intMax 64) (ht : ∀ k, 0 < thresh k ∧ thresh k ≤ 1) (hb : below ≤ 0) :
    ∃ (cv : ℚ) (m : ℕ) (sig' : ℚ), SmallestSize num m ∧ LargestLevel sig sig' ∧ (¬ (1 / 10 ^ 5 ≤ sig ∧ sig < 1 / 10 ^ 4 ∧ 2 ^ 23 < num) → KsCritical m sig' cv) ∧
      M.wp (testFisherYatesKs ndebug G n sig num thresh below state fuel) () (fun l _ => l.map Prod.fst = fisherYatesSizes n fuel 0 ∧ ∀ kr ∈ l, ∃ x : Int → Int,
        M.wp (repeatedFisherYatesPublic G kr.1 n m state) (Buf.alloc Int (m * kr.1)) (fun _ b => ∀ p : Int, 0 ≤ p → p < m * kr.1 → b p = .val (x p)) ∧
        FyKsOutcome x n kr.1.toNat m cv kr.2) := by
  obtain ⟨cv, m, sig', e, hm, hl, hc⟩ := lookup_exists hnum hs
  have hm0 : num ≤ m := hm.2.1
  obtain ⟨m, rfl⟩ : ∃ m' : ℕ, m = m' := ⟨m.toNat, by omega⟩
  refine ⟨cv, m, sig', hm, hl, fun h => by simpa using hc h, ?_⟩
  unfold testFisherYatesKs
  refine M.wp_mono (wp_collect (P := fun k r => ∃ x : Int → Int,
        M.wp (repeatedFisherYatesPublic G k n m state) (Buf.alloc Int (m * k)) (fun _ b => ∀ p : Int, 0 ≤ p → p < m * k → b p = .val (x p)) ∧
        FyKsOutcome x n k.toNat m cv r) fun k hk => ?_) ?_
  · obtain ⟨h0, h1⟩ := sizes_range le_rfl hk
    obtain ⟨k, rfl⟩ : ∃ k' : ℕ, k = k' := ⟨k.toNat, by omega⟩
    obtain ⟨x, hx, hr⟩ := fy_ks_single (ndebug := ndebug) (state := state) hG (by omega : k ≤ n) hnum e hm (le_trans (by omega) hfit) (ht k).1 (ht k).2 hb
    refine M.wp_mono hr fun r _ h => ⟨rfl, x, hx, h⟩
  · rintro l - ⟨-, rs, rfl, h1, h2⟩
    exact ⟨by simpa using h1, by simpa using h2⟩

example : ∃ (cv : ℚ) (m : ℕ) (sig' : ℚ), SmallestSize 10000 m ∧ LargestLevel (1 / 10 ^ 5) sig' ∧ (¬ (1 / 10 ^ 5 ≤ (1 / 10 ^ 5 : ℚ) ∧ (1 / 10 ^ 5 : ℚ) < 1 / 10 ^ 4 ∧ (2 : Int) ^ 23 < 10000) → KsCritical m sig' cv) ∧ ∃ x : Int → Int,
    M.wp (repeatedFisherYatesPublic exGenQ (5 : ℕ) (100 : ℕ) m ⟨0, 0⟩) (Buf.alloc Int (m * (5 : ℕ))) (fun _ b => ∀ p : Int, 0 ≤ p → p < m * (5 : ℕ) → b p = .val (x p)) ∧
    M.wp (singleTestFisherYatesKs false exGenQ (100 : ℕ) (5 : ℕ) (1 / 10 ^ 5) 10000 (1 / 1000) (-1 / 1000) ⟨0, 0⟩) () (fun r _ => FyKsOutcome x 100 5 m cv r) :=
  C140_fisher_yates_ks (G := exGenQ) (Or.inr rfl) (by norm_num) (by norm_num) (by norm_num) (by decide) (by norm_num) (by norm_num) (by norm_num)

example : (10 : Int) ∈ fisherYatesSizes (100 : ℕ) 101 0 := (C140_sizes (n := 100) (fuel := 101) le_rfl).2.2.2 10 (by decide) (by decide) (by decide)

example : ∃ (cv : ℚ) (m : ℕ) (sig' : ℚ), SmallestSize 10000 m ∧ LargestLevel (1 / 100) sig' ∧ (¬ (1 / 10 ^ 5 ≤ (1 / 100 : ℚ) ∧ (1 / 100 : ℚ) < 1 / 10 ^ 4 ∧ (2 : Int) ^ 23 < 10000) → KsCritical m sig' cv) ∧
    M.wp (testFisherYatesKs false exGenQ (100 : ℕ) (1 / 100) 10000 (fun _ => 1 / 1000) (-1 / 1000) ⟨0, 0⟩ 101) () (fun l _ => l.map Prod.fst = fisherYatesSizes (100 : ℕ) 101 0 ∧
      ∀ kr ∈ l, ∃ x : Int → Int,
        M.wp (repeatedFisherYatesPublic exGenQ kr.1 (100 : ℕ) m ⟨0, 0⟩) (Buf.alloc Int (m * kr.1)) (fun _ b => ∀ p : Int, 0 ≤ p → p < m * kr.1 → b p = .val (x p)) ∧
        FyKsOutcome x 100 kr.1.toNat m cv kr.2) :=
  C140_fisher_yates_test (G := exGenQ) (Or.inr rfl) (by norm_num) (by norm_num) (by decide) (fun _ => by norm_num) (by norm_num)

end RB
