import Verif.Props.FisherYates
import Mathlib.Data.Nat.Count
import Mathlib.Data.Int.CardIntervalMod
import Mathlib.Data.Fintype.BigOperators
import Mathlib.Algebra.Order.BigOperators.Ring.Finset
import Mathlib.Algebra.BigOperators.Field
import Mathlib.Tactic.Positivity
import Mathlib.Tactic.FieldSimp

/-!
# C58: how uniform sampling without replacement is

A pivot is a random word modulo the number of elements that are left. If the words are uniform over `{0..M-1}`, the remainders are not exactly uniform.
-/

namespace RB
open Spec Finset
variable {N : Nat} {K W R : Type}

/-- The sequences of words for which the procedure `f` (which maps `k` words to `k` indices) yields `s`. -/
def Spec.wordsFor {k : Nat} (M : Nat) (f : (Fin k → Nat) → (Fin k → Int)) (s : Fin k → Int) : Finset (Fin k → Nat) :=
  (Fintype.piFinset fun _ => range M).filter fun x => f x = s

/-- `f` is what the code computes: block `i` of the result is `f` of the `k` first words that the generator yields for the counters `i*k .. i*k+k-1`. -/
def Spec.FyComputes (k : Nat) (n : Int) (f : (Fin k → Nat) → (Fin k → Int)) : Prop :=
  ∀ (N : Nat) (K W R : Type) (G : Gen N K W R) (state : RNGState N K) (r i : Int) (b : Buf Int), G.Ok → 0 ≤ i → i < r →
    AllocTo b (r * k) → r * k ≤ intMax 64 →
    M.wp (repeatedFisherYatesPublic G k n r state) b (fun _ b' => ∀ j : Fin k, b' (i * k + (j : Nat)) =
      .val (f (fun t => G.nat (G.word (state.counter + ((i * k + (t : Nat) : Int) : ZMod N)) state.key 0)) j))

theorem card_mod_range (M d c : Nat) (hd : 0 < d) (hc : c < d) : M / d ≤ ((range M).filter fun y => y % d = c).card ∧
    ((range M).filter fun y => y % d = c).card ≤ (M + d - 1) / d := by
  have h := Nat.count_modEq_card M hd c
  rw [Nat.count_eq_card_filter_range] at h
  have e : ((range M).filter fun y => y % d = c) = (range M).filter fun y => y ≡ c [MOD d] := by
    refine filter_congr fun y _ => ?_
    rw [Nat.ModEq, Nat.mod_eq_of_lt hc]
  rw [e, h]
  refine ⟨by omega, ?_⟩
  have hdm := Nat.div_add_mod M d
  split_ifs with h1
  · rw [Nat.mod_eq_of_lt hc] at h1
    refine (Nat.le_div_iff_mul_le hd).mpr ?_
    have : (M / d + 1) * d = d * (M / d) + d := by ring
    omega
  · rw [add_zero]; exact Nat.div_le_div_right (by omega)

theorem fyMap_words (k : Nat) (n : Int) (hkn : (k : Int) ≤ n) :
    ∀ (M : Nat) (s : Fin k → Int), Function.Injective s → (∀ j, 0 ≤ s j ∧ s j < n) →
      ∏ j : Fin k, M / (n - (j : Nat)).toNat ≤ (wordsFor M (fun x => fyMap k n (fyMod n x)) s).card ∧
      (wordsFor M (fun x => fyMap k n (fyMod n x)) s).card ≤ ∏ j : Fin k, (M + (n - (j : Nat)).toNat - 1) / (n - (j : Nat)).toNat := by
  intro M s hinj hs
  obtain ⟨c, hc, rfl⟩ := (fyMap_bijOn k n hkn).surjOn (show s ∈ {s | Function.Injective s ∧ ∀ j, 0 ≤ s j ∧ s j < n} from ⟨hinj, hs⟩)
  have hd : ∀ t : Fin k, 0 < (n - (t : Nat)).toNat := fun t => by have := t.2; omega
  have e : wordsFor M (fun x => fyMap k n (fyMod n x)) (fyMap k n c) =
      Fintype.piFinset fun t : Fin k => (range M).filter fun y => y % (n - (t : Nat)).toNat = c t := by
    ext x
    unfold wordsFor
    simp only [mem_filter, Fintype.mem_piFinset]
    constructor
    · rintro ⟨h1, h2⟩ t
      have := (fyMap_bijOn k n hkn).injOn (fun t => ?_) hc h2
      · exact ⟨h1 t, congrFun this t⟩
      · have := Nat.mod_lt (x t) (hd t)
        show (((x t % (n - (t : Nat)).toNat : Nat)) : Int) < n - (t : Nat)
        omega
    · intro h
      refine ⟨fun t => (h t).1, ?_⟩
      congr 1; funext t
      exact (h t).2
  rw [e, Fintype.card_piFinset]
  have hct : ∀ t, c t < (n - (t : Nat)).toNat := fun t => by have := hc t; omega
  exact ⟨prod_le_prod' fun t _ => (card_mod_range M _ _ (hd t) (hct t)).1, prod_le_prod' fun t _ => (card_mod_range M _ _ (hd t) (hct t)).2⟩

/-- C58. The number of sequences of `k` words below `M` that lead to a given sequence of `k` distinct indices is the same for all of them, up to
rounding: it is at least the product of `M / (n - j)` rounded down and at most the product of `M / (n - j)` rounded up. -/
theorem C58_counts (k : Nat) (n : Int) (hkn : (k : Int) ≤ n) : ∃ f, FyComputes k n f ∧
    ∀ (M : Nat) (s : Fin k → Int), Function.Injective s → (∀ j, 0 ≤ s j ∧ s j < n) →
      ∏ j : Fin k, M / (n - (j : Nat)).toNat ≤ (wordsFor M f s).card ∧
      (wordsFor M f s).card ≤ ∏ j : Fin k, (M + (n - (j : Nat)).toNat - 1) / (n - (j : Nat)).toNat := by
  refine ⟨fun x => fyMap k n (fyMod n x), ?_, fyMap_words k n hkn⟩
  intro N K W R G state r i b hG hi hir hb hfit
  refine ⟨_, _, fyPublic_spec hG (by omega) hkn (by omega) hb hfit, ?_⟩
  intro j
  have hj : ((j : Nat) : Int) < k := by exact_mod_cast j.2
  have h1 : 0 ≤ i * k + (j : Nat) := by nlinarith
  have h2 : i * k + (j : Nat) < r * k := by nlinarith
  rw [Buf.over_in h1 h2, fyIdx_eq_fyMap hkn]

theorem words_prob {k : Nat} {n : Int} (hkn : (k : Int) ≤ n) {f : (Fin k → Nat) → (Fin k → Int)} {M : Nat} {s : Fin k → Int} (hM : n ≤ M)
    (hlo : ∏ j : Fin k, M / (n - (j : Nat)).toNat ≤ (wordsFor M f s).card)
    (hhi : (wordsFor M f s).card ≤ ∏ j : Fin k, (M + (n - (j : Nat)).toNat - 1) / (n - (j : Nat)).toNat) :
    (1 - (n : ℚ) / M) ^ k ≤ ((wordsFor M f s).card : ℚ) / (M : ℚ) ^ k * ∏ j : Fin k, ((n : ℚ) - (j : Nat)) ∧
      ((wordsFor M f s).card : ℚ) / (M : ℚ) ^ k * ∏ j : Fin k, ((n : ℚ) - (j : Nat)) ≤ (1 + (n : ℚ) / M) ^ k := by
  rcases Nat.eq_zero_or_pos k with rfl | hk
  · simp only [univ_eq_empty, prod_empty, pow_zero, div_one, mul_one] at *
    have : (wordsFor M f s).card = 1 := by omega
    rw [this]; norm_num
  have hMpos : (0 : ℚ) < M := by have : 0 < M := by omega
                                 exact_mod_cast this
  have hn0 : (0 : ℚ) < n := by have : 0 < n := by omega
                               exact_mod_cast this
  have hnM : (n : ℚ) ≤ M := by exact_mod_cast hM
  have hd : ∀ t : Fin k, ((n - (t : Nat)).toNat : ℚ) = (n : ℚ) - (t : Nat) := fun t => by
    have := t.2
    have h1 : ((n - (t : Nat)).toNat : Int) = n - (t : Nat) := by omega
    have h2 : (((n - (t : Nat)).toNat : Int) : ℚ) = ((n - (t : Nat) : Int) : ℚ) := by rw [h1]
    push_cast at h2
    exact h2
  have hd1 : ∀ t : Fin k, (1 : ℚ) ≤ (n : ℚ) - (t : Nat) ∧ (n : ℚ) - (t : Nat) ≤ n := fun t => by
    have := t.2
    constructor
    · have : (1 : Int) ≤ n - (t : Nat) := by omega
      exact_mod_cast this
    · have : (0 : ℚ) ≤ (t : Nat) := Nat.cast_nonneg _
      linarith
  have hMk : (M : ℚ) ^ k = ∏ _j : Fin k, (M : ℚ) := by simp
  have key : ∀ c : Fin k → ℚ, (∏ j, c j) / (M : ℚ) ^ k * ∏ j : Fin k, ((n : ℚ) - (j : Nat)) = ∏ j : Fin k, (c j * ((n : ℚ) - (j : Nat)) / M) := by
    intro c
    rw [hMk, ← prod_div_distrib, ← prod_mul_distrib]
    refine prod_congr rfl fun t _ => ?_
    ring
  have hpos : 0 ≤ ∏ j : Fin k, ((n : ℚ) - (j : Nat)) := prod_nonneg fun t _ => by have := hd1 t; linarith
  constructor
  · calc (1 - (n : ℚ) / M) ^ k = ∏ _j : Fin k, (1 - (n : ℚ) / M) := by simp
      _ ≤ ∏ j : Fin k, (((M / (n - (j : Nat)).toNat : Nat) : ℚ) * ((n : ℚ) - (j : Nat)) / M) := by
        refine prod_le_prod (fun t _ => ?_) fun t _ => ?_
        · rw [sub_nonneg, div_le_one hMpos]; exact hnM
        · obtain ⟨h1, h2⟩ := hd1 t
          rw [le_div_iff₀ hMpos, sub_mul, div_mul_cancel₀ _ hMpos.ne', ← hd t]
          have hdm := Nat.div_add_mod M (n - (t : Nat)).toNat
          have hlt := Nat.mod_lt M (show 0 < (n - (t : Nat)).toNat by have := t.2; omega)
          have e1 : ((M / (n - (t : Nat)).toNat : Nat) : ℚ) * ((n - (t : Nat)).toNat : ℚ) + ((M % (n - (t : Nat)).toNat : Nat) : ℚ) = M := by
            rw [mul_comm]; exact_mod_cast hdm
          have e2 : ((M % (n - (t : Nat)).toNat : Nat) : ℚ) ≤ ((n - (t : Nat)).toNat : ℚ) := by exact_mod_cast hlt.le
          rw [hd t] at e2
          rw [one_mul]
          linarith
      _ = ((∏ j : Fin k, M / (n - (j : Nat)).toNat : Nat) : ℚ) / (M : ℚ) ^ k * ∏ j : Fin k, ((n : ℚ) - (j : Nat)) := by
        rw [Nat.cast_prod, key]
      _ ≤ _ := by
        refine mul_le_mul_of_nonneg_right (div_le_div_of_nonneg_right ?_ (by positivity)) hpos
        exact_mod_cast hlo
  · calc _ ≤ ((∏ j : Fin k, (M + (n - (j : Nat)).toNat - 1) / (n - (j : Nat)).toNat : Nat) : ℚ) / (M : ℚ) ^ k * ∏ j : Fin k, ((n : ℚ) - (j : Nat)) := by
            refine mul_le_mul_of_nonneg_right (div_le_div_of_nonneg_right ?_ (by positivity)) hpos
            exact_mod_cast hhi
      _ = ∏ j : Fin k, ((((M + (n - (j : Nat)).toNat - 1) / (n - (j : Nat)).toNat : Nat) : ℚ) * ((n : ℚ) - (j : Nat)) / M) := by
        rw [Nat.cast_prod, key]
      _ ≤ ∏ _j : Fin k, (1 + (n : ℚ) / M) := by
        refine prod_le_prod (fun t _ => ?_) fun t _ => ?_
        · have := hd1 t
          exact div_nonneg (mul_nonneg (Nat.cast_nonneg _) (by linarith)) hMpos.le
        · obtain ⟨h1, h2⟩ := hd1 t
          rw [div_le_iff₀ hMpos, add_mul, div_mul_cancel₀ _ hMpos.ne', one_mul, ← hd t]
          have hle := Nat.div_mul_le_self (M + (n - (t : Nat)).toNat - 1) (n - (t : Nat)).toNat
          have e1 : (((M + (n - (t : Nat)).toNat - 1) / (n - (t : Nat)).toNat : Nat) : ℚ) * ((n - (t : Nat)).toNat : ℚ) ≤ M + ((n - (t : Nat)).toNat : ℚ) := by
            have : (M + (n - (t : Nat)).toNat - 1) / (n - (t : Nat)).toNat * (n - (t : Nat)).toNat ≤ M + (n - (t : Nat)).toNat := by omega
            exact_mod_cast this
          rw [hd t] at e1 ⊢
          linarith
      _ = _ := by simp

/-- C58 (probabilities). If the words are independent and uniform over `{0..M-1}`, the probability of every sequence of `k` distinct indices differs from
`1 / (n (n-1) ... (n-k+1))` by a factor between `(1 - n/M)^k` and `(1 + n/M)^k`. -/
theorem C58_probability (k : Nat) (n : Int) (hkn : (k : Int) ≤ n) : ∃ f, FyComputes k n f ∧
    ∀ (M : Nat) (s : Fin k → Int), n ≤ M → Function.Injective s → (∀ j, 0 ≤ s j ∧ s j < n) →
      (1 - (n : ℚ) / M) ^ k ≤ ((wordsFor M f s).card : ℚ) / (M : ℚ) ^ k * ∏ j : Fin k, ((n : ℚ) - (j : Nat)) ∧
      ((wordsFor M f s).card : ℚ) / (M : ℚ) ^ k * ∏ j : Fin k, ((n : ℚ) - (j : Nat)) ≤ (1 + (n : ℚ) / M) ^ k := by
  obtain ⟨f, hf, h⟩ := C58_counts k n hkn
  exact ⟨f, hf, fun M s hM hinj hs => words_prob hkn hM (h M s hinj hs).1 (h M s hinj hs).2⟩

/-- C58 needs `n <= M`: an index of `B + k` or more is never drawn if all words are below `B`, so sampling from more than 2^32 elements with a generator of 32-bit words is far from
uniform. -/
theorem C58_word_size_counterexample {G : Gen N K W R} {state : RNGState N K} {k n r B : Int} {b : Buf Int} (hG : G.Ok) (hk : 0 ≤ k) (hkn : k ≤ n)
    (hr : 0 ≤ r) (hb : AllocTo b (r * k)) (hfit : r * k ≤ intMax 64) (hM : ∀ c key i, (G.nat (G.word c key i) : Int) < B) :
    M.wp (repeatedFisherYatesPublic G k n r state) b (fun _ b' =>
      ∀ i j, 0 ≤ i → i < r → 0 ≤ j → j < k → ∃ x, b' (i * k + j) = .val x ∧ x < B + k) := by
  refine ⟨_, _, fyPublic_spec hG hk hkn hr hb hfit, ?_⟩
  intro i j hi0 hi1 hj0 hj1
  have h1 : 0 ≤ i * k + j := by nlinarith
  have h2 : i * k + j < r * k := by nlinarith
  refine ⟨_, Buf.over_in h1 h2, ?_⟩
  rw [fyIdx_block' hj0 hj1 hkn]
  have hfix : ∀ (m : Nat), (m : Int) ≤ k → ∀ p, B + k ≤ p → fyPerm n (fyChoice G state k i) m p = p := by
    intro m hm
    induction m with
    | zero => intro p _; rfl
    | succ m ih =>
      intro p hp
      have hM0 : 0 ≤ B := le_trans (by positivity) (hM 0 state.key 0).le
      have hmod : fyPiv n (fyChoice G state k i) m < B + k := by
        unfold fyPiv
        have hc : (fyChoice G state k i m : Int) < B := hM _ _ _
        have h6 : (0 : Int) < n - m := by omega
        have h7 := Int.emod_add_mul_ediv (fyChoice G state k i m : Int) (n - m)
        have h8 : 0 ≤ (n - m) * ((fyChoice G state k i m : Int) / (n - m)) := mul_nonneg h6.le (Int.ediv_nonneg (by positivity) h6.le)
        omega
      rw [fyPerm_other _ _ _ (by omega) (by omega)]
      exact ih (by omega) p hp
  by_contra hc
  have h3 := hfix k.toNat (by omega) _ (not_lt.mp hc)
  have h4 := (fyPerm n (fyChoice G state k i) k.toNat).injective h3
  have h5 := hfix k.toNat (by omega)
  have hM0 : 0 ≤ B := le_trans (by positivity) (hM 0 state.key 0).le
  omega

-- the hypotheses hold for words below 2^32; two indices out of 2^33 are always below 2^32 + 2
example : ∃ G : Gen (2 ^ 128) Nat Nat Nat, G.Ok ∧ (∀ c key i, (G.nat (G.word c key i) : Int) < 2 ^ 32) ∧ AllocTo (Buf.alloc Int (5 * 2)) (5 * 2) ∧
    (2 : Int) ≤ 2 ^ 33 :=
  ⟨{ len := 4, word := fun c k i => c.val + k + i.toNat, boxmuller := fun _ _ => (0, 0), uneg11 := id, nat := fun x => x % 2 ^ 32 }, Or.inr rfl,
    fun c k i => by
      show ((((c.val + k + i.toNat) % 2 ^ 32 : Nat)) : Int) < 2 ^ 32
      have := Nat.mod_lt (c.val + k + i.toNat) (show 0 < 2 ^ 32 by decide)
      exact_mod_cast this, allocTo_alloc _, by norm_num⟩
-- a sequence of distinct indices
example : Function.Injective (fun j : Fin 2 => (j : Nat) + (3 : Int)) ∧ ∀ j : Fin 2, 0 ≤ (j : Nat) + (3 : Int) ∧ (j : Nat) + (3 : Int) < 7 :=
  ⟨fun i j h => by simp only at h; omega, fun j => by have := j.2; omega⟩

end RB
