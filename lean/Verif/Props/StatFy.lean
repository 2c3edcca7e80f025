import Verif.Props.StatHyper
import Mathlib.Data.Fintype.CardEmbedding

/-!
# The test of sampling without replacement: what it counts, and the distribution of the counts (C115)
-/

namespace RB
open Spec Finset

/-- For each of `num` blocks of `k` indices: how many of the indices of the block are below `k`. -/
def Spec.blockCounts (x : Int → Int) (k num : ℕ) : List Int :=
  (List.range num).map fun s : ℕ => (((range k).filter fun j => x ((s : Int) * k + (j : ℕ)) < k).card : Int)

section
variable {R : Type} [Field R] [LinearOrder R] [IsStrictOrderedRing R]

theorem fyCount_spec {idxs : Buf Int} {x : Int → Int} {k : ℕ} {i : Int} (h : ∀ j : ℕ, j < k → idxs (i + j) = .val (x (i + j))) :
    fyCount idxs k i = .ok (((range k).filter fun j : ℕ => x (i + j) < k).card : Int) := by
  unfold fyCount foldI
  rw [show ((k : Int) - 0).toNat = k by omega]
  have : ∀ m : ℕ, m ≤ k → foldN m (fun (t : ℕ) (count : Int) => (do
      let x ← idxs.rd (i + (0 + (t : Int)))
      if x < k then pure (count + 1) else pure count : Res Int)) 0 = .ok (((range m).filter fun j : ℕ => x (i + j) < k).card : Int) := by
    intro m hm
    induction m with
    | zero => rfl
    | succ m ih =>
      unfold foldN
      rw [ih (by omega), Res.ok_bind, zero_add, Buf.rd_val (h m (by omega)), Res.ok_bind, range_add_one, filter_insert]
      by_cases hc : x (i + m) < k
      · rw [if_pos hc, if_pos hc, card_insert_of_notMem (by simp)]; push_cast; rfl
      · rw [if_neg hc, if_neg hc]; rfl
  exact this k le_rfl

/-- C115 (what the test compares). For `num` blocks of `k` indices, `fisher_yates_cdf` returns the empirical distribution function of the
number of indices below `k` in a block. -/
theorem C115_empirical {k num : ℕ} {idxs : Buf Int} {x : Int → Int} {thresh below : R} {b : Buf R}
    (h : ∀ p : Int, 0 ≤ p → p < num * k → idxs p = .val (x p)) (hnum : 0 < num) (ht : thresh ≤ num) (hb : below ≤ 0) :
    M.wp (fisherYatesCdf idxs k num thresh below) b (fun _ b' =>
      ∀ c : Int, 0 ≤ c → c ≤ k → b' c = .val (empCdfInt (blockCounts x k num) c)) := by
  have hnumR : (0 : R) < num := by exact_mod_cast hnum
  have hlen : (blockCounts x k num).length = num := by simp [blockCounts]
  have hrng : ∀ s ∈ blockCounts x k num, 0 ≤ s ∧ s ≤ k := by
    intro s hs
    simp only [blockCounts, List.mem_map] at hs
    obtain ⟨t, -, rfl⟩ := hs
    refine ⟨Int.natCast_nonneg _, ?_⟩
    have := card_le_card (filter_subset (fun j : ℕ => x ((t : Int) * k + (j : ℕ)) < k) (range k))
    rw [card_range] at this
    exact_mod_cast this
  have hall : ∀ c : Int, (k : Int) ≤ c → (empCdfInt (blockCounts x k num) c : R) = 1 := by
    intro c hc
    unfold empCdfInt
    rw [List.filter_eq_self.mpr (fun s hs => by have := hrng s hs; simp; omega), hlen, div_self hnumR.ne']
  unfold fisherYatesCdf
  by_cases hk : (k : Int) = 0
  · rw [if_pos hk, M.wp_set]
    intro c h0 h1
    obtain rfl : c = 0 := by omega
    rw [hall 0 (by omega)]; rfl
  rw [if_neg hk, M.wp_bind, M.wp_onLocal]
  refine M.wp_forI (lo := 0) (hi := (num : Int)) (fun t c => ∀ i : Int, 0 ≤ i → i ≤ k →
    c i = .val ((((blockCounts x k num).take t.toNat).count i : ℕ) : Int)) (by omega) ?_ ?_ ?_
  · intro i h0 h1
    unfold Buf.fill; rw [if_pos ⟨h0, by omega⟩]; simp
  · intro t c ht0 ht1 hc
    obtain ⟨t, rfl⟩ := Int.eq_ofNat_of_zero_le ht0
    have htl : t < (blockCounts x k num).length := by omega
    have hget : (blockCounts x k num)[t] = (((range k).filter fun j : ℕ => x ((t : Int) * k + (j : ℕ)) < k).card : Int) := by
      simp [blockCounts]
    have hm := hrng _ (List.getElem_mem htl)
    simp only [M.wp_bind, M.wp_lift, M.wp_rd, M.wp_wr]
    refine ⟨(blockCounts x k num)[t], ?_, _, hc _ hm.1 hm.2, ?_, ?_⟩
    · rw [hget]
      refine fyCount_spec fun j hj => h _ ?_ ?_
      · positivity
      · have h1 : ((t : Int) + 1) * k ≤ num * k := mul_le_mul_of_nonneg_right (by omega) (by omega)
        have h2 : ((t : Int) + 1) * k = t * k + k := by ring
        omega
    · rw [hc _ hm.1 hm.2]; simp
    · intro i h0 h1
      rw [Buf.set_apply, show ((t : Int) + 1).toNat = t + 1 by omega, List.take_add_one, List.count_append, List.getElem?_eq_getElem htl]
      by_cases hi : i = (blockCounts x k num)[t]
      · rw [if_pos hi, hi]; simp
      · rw [if_neg hi, hc i h0 h1]
        have : ¬ (blockCounts x k num)[t] = i := fun h => hi h.symm
        simp [this]
  · intro c hc
    have hc' : ∀ i : Int, 0 ≤ i → i ≤ k → c i = .val (((blockCounts x k num).count i : ℕ) : Int) := by
      intro i h0 h1
      have := hc i h0 h1
      rwa [show ((num : Int)).toNat = (blockCounts x k num).length by omega, List.take_length] at this
    dsimp only
    rw [M.wp_bind, M.wp_set, M.wp_bind]
    refine M.wp_forI (lo := 0) (hi := (k : Int) + 1) (fun t b => (∀ i : Int, 0 ≤ i → i < t → b i = .val (((blockCounts x k num).count i : ℕ) : R)) ∧
      ∀ i : Int, 0 ≤ i → i < (k : Int) + 1 → b i ≠ .none) (by omega) ?_ ?_ ?_
    · refine ⟨fun i a b => absurd a (by omega), fun i h0 h1 => ?_⟩
      unfold Buf.alloc; rw [if_pos ⟨h0, h1⟩]; simp
    · rintro t b' ht0 ht1 ⟨h1, h2⟩
      rw [M.wp_bind, M.wp_lift]
      refine ⟨_, Buf.rd_val (hc' t ht0 (by omega)), ?_⟩
      rw [M.wp_wr]
      refine ⟨h2 t ht0 ht1, fun i h0 hi => ?_, fun i h0 hi => ?_⟩
      · rw [Buf.set_apply]
        by_cases e : i = t
        · rw [if_pos e, e]; push_cast; rfl
        · rw [if_neg e]; exact h1 i h0 (by omega)
      · rw [Buf.set_apply]
        by_cases e : i = t
        · rw [if_pos e]; simp
        · rw [if_neg e]; exact h2 i h0 hi
    · rintro b' ⟨h1, -⟩
      have htot : posSum (fun i => (((blockCounts x k num).count i : ℕ) : R)) ((k : Int) + 1).toNat = num := by
        rw [posSum_count _ fun s h => (hrng s h).1, List.filter_eq_self.mpr, hlen]
        intro s h; have := hrng s h; simp; omega
      apply M.wp_of_wpx
      refine M.wpx_mono (weightsToCdf_spec (by omega) h1) ?_ ?_
      swap
      · rintro e b'' ⟨-, h | h, -⟩
        · obtain ⟨i, -, -, h⟩ := h
          exact absurd (lt_of_lt_of_le h hb) (not_lt.mpr (Nat.cast_nonneg _))
        · rw [htot] at h
          exact absurd ht (not_le.mpr h)
      · rintro - b'' ⟨-, -, h1, -⟩ i h0 hi
        rw [h1 i h0 (by omega), htot, posSum_count _ fun s h => (hrng s h).1]
        unfold empCdfInt
        rw [hlen]
        congr 4
        apply List.filter_congr
        intro s _
        rw [decide_eq_decide]; omega

/-- The hypotheses hold for two blocks `[2, 0]` and `[3, 4]`, whose counts are `1` and `0`. -/
example : M.wp (fisherYatesCdf (R := ℚ) (Buf.ofList [2, 0, 3, 4]) 2 2 (1 / 1000) 0) (fun _ => .none) (fun _ b' => b' 0 = .val (1 / 2) ∧ b' 1 = .val 1) := by
  have := C115_empirical (R := ℚ) (k := 2) (num := 2) (idxs := Buf.ofList [2, 0, 3, 4]) (x := fun p => [2, 0, 3, 4].getD p.toNat 0)
    (thresh := 1 / 1000) (below := 0) (b := fun _ => .none) (by
      intro p h0 h1
      have : p < 4 := by push_cast at h1; omega
      interval_cases p <;> rfl) (by norm_num) (by norm_num) le_rfl
  refine M.wp_mono this ?_
  intro _ b' h
  refine ⟨?_, ?_⟩
  · rw [h 0 (by norm_num) (by norm_num)]; decide +kernel
  · rw [h 1 (by norm_num) (by norm_num)]; decide +kernel

end

/-! ## The distribution of the counts -/

/-- The sequences of `k` distinct indices below `n` of which exactly `o` are below `m`. -/
noncomputable def drawsWith (n k m o : ℕ) : Finset (Fin k → Int) :=
  (Fintype.piFinset fun _ : Fin k => Finset.Ico (0 : Int) n).filter fun s =>
    Function.Injective s ∧ (univ.filter fun j => s j < m).card = o

theorem mem_drawsWith {n k m o : ℕ} {s : Fin k → Int} : s ∈ drawsWith n k m o ↔
    (∀ j, 0 ≤ s j ∧ s j < n) ∧ Function.Injective s ∧ (univ.filter fun j => s j < m).card = o := by
  simp [drawsWith]

/-- The set of the indices of a sequence. -/
def drawSet {k : ℕ} (s : Fin k → Int) : Finset ℕ := univ.image fun j => (s j).toNat

theorem card_drawsWith (n k m o : ℕ) : (drawsWith n k m o).card =
    (((range n).powersetCard k).filter (fun S => (S.filter (fun x => x < m)).card = o)).card * k.factorial := by
  rw [← smul_eq_mul, ← sum_const]
  have hcard : ∀ s : Fin k → Int, (∀ j, 0 ≤ s j) → Function.Injective s → Function.Injective fun j => (s j).toNat := by
    intro s h0 hi a c hac
    exact hi (by have := h0 a; have := h0 c; simp only at hac; omega)
  rw [card_eq_sum_card_fiberwise (f := drawSet) (t := ((range n).powersetCard k).filter (fun S => (S.filter (fun x => x < m)).card = o)) ?_]
  · refine sum_congr rfl fun S hS => ?_
    obtain ⟨hS1, hS2⟩ := mem_filter.mp hS
    obtain ⟨hsub, hSc⟩ := mem_powersetCard.mp hS1
    have hemb : Fintype.card (Fin k ↪ S) = k.factorial := by
      rw [Fintype.card_embedding_eq, Fintype.card_coe, Fintype.card_fin, hSc, Nat.descFactorial_self]
    rw [← hemb, ← card_univ]
    symm
    have hval : ∀ e : Fin k ↪ S, Function.Injective fun j => ((e j : S) : ℕ) := fun e => Subtype.val_injective.comp e.injective
    have himg : ∀ e : Fin k ↪ S, univ.image (fun j => ((e j : S) : ℕ)) = S := by
      intro e
      refine eq_of_subset_of_card_le (fun y hy => ?_) ?_
      · obtain ⟨j, -, rfl⟩ := mem_image.mp hy; exact (e j).2
      · rw [card_image_of_injective _ (hval e), card_univ, Fintype.card_fin, hSc]
    refine card_bij (fun e _ => fun j => (((e j : S) : ℕ) : Int)) ?_ ?_ ?_
    · intro e _
      have hset : drawSet (fun j => (((e j : S) : ℕ) : Int)) = S := by
        unfold drawSet; simp only [Int.toNat_natCast]; exact himg e
      rw [mem_filter, mem_drawsWith]
      refine ⟨⟨fun j => ⟨Int.natCast_nonneg _, ?_⟩, ?_, ?_⟩, hset⟩
      · have := mem_range.mp (hsub (e j).2); exact_mod_cast this
      · intro a c hac
        simp only [Int.natCast_inj] at hac
        exact hval e hac
      · rw [← hS2]
        conv_rhs => rw [← himg e]
        rw [filter_image, card_image_of_injective _ (hval e)]
        congr 1
        ext j
        simp
    · intro e _ e' _ h
      ext j
      have := congrFun h j
      simpa using this
    · intro s hs
      rw [mem_filter, mem_drawsWith] at hs
      obtain ⟨⟨h0, hinj, -⟩, hset⟩ := hs
      have hm : ∀ j, (s j).toNat ∈ S := fun j => by rw [← hset]; exact mem_image_of_mem _ (mem_univ j)
      refine ⟨⟨fun j => ⟨(s j).toNat, hm j⟩, fun a c hac => hcard s (fun j => (h0 j).1) hinj (congrArg Subtype.val hac)⟩, mem_univ _, ?_⟩
      funext j
      show (((s j).toNat : ℕ) : Int) = s j
      have := h0 j; omega
  · intro s hs
    rw [mem_coe, mem_drawsWith] at hs
    obtain ⟨h0, hinj, hc⟩ := hs
    have hi := hcard s (fun j => (h0 j).1) hinj
    rw [mem_coe, mem_filter, mem_powersetCard]
    refine ⟨⟨fun y hy => ?_, ?_⟩, ?_⟩
    · obtain ⟨j, -, rfl⟩ := mem_image.mp hy
      have := h0 j; rw [mem_range]; omega
    · unfold drawSet; rw [card_image_of_injective _ hi, card_univ, Fintype.card_fin]
    · rw [← hc]
      unfold drawSet
      rw [filter_image, card_image_of_injective _ hi]
      congr 1
      ext j
      have := h0 j
      simp only [mem_filter, mem_univ, true_and]
      omega

/-- The words below `W` for which the procedure `f` draws exactly `o` indices below `m`. -/
noncomputable def Spec.wordsWithCount {k : ℕ} (W : ℕ) (f : (Fin k → ℕ) → (Fin k → Int)) (m o : ℕ) : Finset (Fin k → ℕ) :=
  (Fintype.piFinset fun _ => range W).filter fun x => (univ.filter fun j => f x j < m).card = o

theorem card_wordsWithCount {k n : ℕ} {f : (Fin k → ℕ) → (Fin k → Int)} (hf : ∀ x, Function.Injective (f x) ∧ ∀ j, 0 ≤ f x j ∧ f x j < n)
    (W m o : ℕ) : (wordsWithCount W f m o).card = ∑ s ∈ drawsWith n k m o, (wordsFor W f s).card := by
  rw [card_eq_sum_card_fiberwise (f := f) (t := drawsWith n k m o)]
  · refine sum_congr rfl fun s hs => ?_
    congr 1
    ext x
    simp only [wordsWithCount, wordsFor, mem_filter]
    constructor
    · rintro ⟨⟨h1, -⟩, h2⟩; exact ⟨h1, h2⟩
    · rintro ⟨h1, rfl⟩; exact ⟨⟨h1, (mem_drawsWith.mp hs).2.2⟩, rfl⟩
  · intro x hx
    have hx := mem_filter.mp (mem_coe.mp hx)
    exact mem_coe.mpr (mem_drawsWith.mpr ⟨(hf x).2, (hf x).1, hx.2⟩)

/-- C115 (the null hypothesis of the test). If the words of the generator are independent and uniform over `{0..W-1}`, the number of indices
below `m` in a block of `k` indices out of `n` that the code draws has the hypergeometric distribution, up to a factor between
`(1 - n/W)^k` and `(1 + n/W)^k`. The test takes `m = k`. -/
theorem C115_null (k n : ℕ) (hkn : k ≤ n) : ∃ f, FyComputes k n f ∧ ∀ (W m o : ℕ), n ≤ W →
    (1 - (n : ℝ) / W) ^ k * hyperProb n m k o ≤ ((wordsWithCount W f m o).card : ℝ) / (W : ℝ) ^ k ∧
    ((wordsWithCount W f m o).card : ℝ) / (W : ℝ) ^ k ≤ (1 + (n : ℝ) / W) ^ k * hyperProb n m k o := by
  have hkn' : (k : Int) ≤ n := by omega
  refine ⟨fun x => fyMap k n (fyMod n x), ?_, ?_⟩
  · intro N K W R G state r i b hG hi hir hb hfit
    refine ⟨_, _, fyPublic_spec hG (by omega) hkn' (by omega) hb hfit, ?_⟩
    intro j
    have hj : ((j : Nat) : Int) < k := by exact_mod_cast j.2
    have h1 : 0 ≤ i * k + (j : Nat) := by nlinarith
    have h2 : i * k + (j : Nat) < r * k := by nlinarith
    rw [Buf.over_in h1 h2, fyIdx_eq_fyMap hkn']
  intro W m o hW
  have hmaps : ∀ x : Fin k → ℕ, Function.Injective (fyMap k n (fyMod n x)) ∧ ∀ j, 0 ≤ fyMap k n (fyMod n x) j ∧ fyMap k n (fyMod n x) j < n := by
    intro x
    refine (fyMap_bijOn k n hkn').mapsTo ?_
    intro j
    unfold fyMod
    have := j.2
    have h := Nat.mod_lt (x j) (show 0 < ((n : Int) - (j : ℕ)).toNat by omega)
    omega
  have hP : ∏ j : Fin k, (((n : Int) : ℚ) - (j : ℕ)) = ((k.factorial * n.choose k : ℕ) : ℚ) := by
    rw [← Nat.descFactorial_eq_factorial_mul_choose, Nat.descFactorial_eq_prod_range, Fin.prod_univ_eq_prod_range (fun j : ℕ => (((n : Int) : ℚ) - (j : ℕ))), Nat.cast_prod]
    refine prod_congr rfl fun j hj => ?_
    have := mem_range.mp hj
    rw [Nat.cast_sub (by omega)]; push_cast; rfl
  have hPpos : (0 : ℝ) < ((k.factorial * n.choose k : ℕ) : ℝ) := by
    have := Nat.mul_pos (Nat.factorial_pos k) (Nat.choose_pos hkn)
    exact_mod_cast this
  have hone : ∀ s ∈ drawsWith n k m o, (1 - (n : ℝ) / W) ^ k / ((k.factorial * n.choose k : ℕ) : ℝ) ≤
        ((wordsFor W (fun x => fyMap k n (fyMod n x)) s).card : ℝ) / (W : ℝ) ^ k ∧
      ((wordsFor W (fun x => fyMap k n (fyMod n x)) s).card : ℝ) / (W : ℝ) ^ k ≤ (1 + (n : ℝ) / W) ^ k / ((k.factorial * n.choose k : ℕ) : ℝ) := by
    intro s hs
    obtain ⟨h0, hinj, -⟩ := mem_drawsWith.mp hs
    obtain ⟨hlo, hhi⟩ := fyMap_words k n hkn' W s hinj h0
    obtain ⟨p1, p2⟩ := words_prob hkn' (by exact_mod_cast hW) hlo hhi
    rw [hP] at p1 p2
    have q1 : (((1 - ((n : Int) : ℚ) / W) ^ k : ℚ) : ℝ) ≤ ((((wordsFor W (fun x => fyMap k n (fyMod n x)) s).card : ℚ) / (W : ℚ) ^ k *
      ((k.factorial * n.choose k : ℕ) : ℚ) : ℚ) : ℝ) := by exact_mod_cast p1
    have q2 : ((((wordsFor W (fun x => fyMap k n (fyMod n x)) s).card : ℚ) / (W : ℚ) ^ k *
      ((k.factorial * n.choose k : ℕ) : ℚ) : ℚ) : ℝ) ≤ (((1 + ((n : Int) : ℚ) / W) ^ k : ℚ) : ℝ) := by exact_mod_cast p2
    rw [div_le_iff₀ hPpos, le_div_iff₀ hPpos]
    push_cast at q1 q2 ⊢
    exact ⟨q1, q2⟩
  have hH : hyperProb n m k o = (drawsWith n k m o).card / ((k.factorial * n.choose k : ℕ) : ℝ) := by
    unfold hyperProb
    rw [card_drawsWith, card_powersetCard, card_range]
    have h1 : (k.factorial : ℝ) ≠ 0 := by exact_mod_cast (Nat.factorial_pos k).ne'
    have h2 : (n.choose k : ℝ) ≠ 0 := by exact_mod_cast (Nat.choose_pos hkn).ne'
    push_cast
    field_simp
  rw [card_wordsWithCount hmaps, hH, Nat.cast_sum, sum_div]
  constructor
  · calc _ = ∑ _s ∈ drawsWith n k m o, (1 - (n : ℝ) / W) ^ k / ((k.factorial * n.choose k : ℕ) : ℝ) := by
            rw [sum_const, nsmul_eq_mul]; ring
      _ ≤ _ := sum_le_sum fun s hs => (hone s hs).1
  · calc _ ≤ ∑ _s ∈ drawsWith n k m o, (1 + (n : ℝ) / W) ^ k / ((k.factorial * n.choose k : ℕ) : ℝ) := sum_le_sum fun s hs => (hone s hs).2
      _ = _ := by rw [sum_const, nsmul_eq_mul]; ring

/-- The hypotheses hold for two of five indices and 32-bit words. -/
example : ∃ f, FyComputes 2 (5 : ℕ) f ∧
    ((wordsWithCount (2 ^ 32) f 2 1).card : ℝ) / (((2 ^ 32 : ℕ)) : ℝ) ^ 2 ≤ (1 + ((5 : ℕ) : ℝ) / ((2 ^ 32 : ℕ) : ℝ)) ^ 2 * hyperProb 5 2 2 1 := by
  obtain ⟨f, h1, h2⟩ := C115_null 2 5 (by norm_num)
  exact ⟨f, h1, (h2 (2 ^ 32) 2 1 (by norm_num)).2⟩

end RB
