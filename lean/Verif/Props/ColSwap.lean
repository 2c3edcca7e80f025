import Verif.Spec.Qrcp
import Verif.Lemmas.ExLapack
import Verif.Core.Doom
import Mathlib.Data.Int.Interval

/-! # C73: permuting the columns of a matrix -/

namespace RB
open Spec

variable {T : Type}

theorem SwapSt.wp_onA {α : Type} {t : SwapSt T} {P : α → SwapSt T → Prop} {m : M (Buf T) α} :
    M.wp (SwapSt.onA m) t P ↔ M.wp m t.a (fun x b => P x { t with a := b }) := by unfold SwapSt.onA; rw [M.wp_zoom]
theorem SwapSt.wp_onC {α : Type} {t : SwapSt T} {P : α → SwapSt T → Prop} {m : M (Buf Int) α} :
    M.wp (SwapSt.onC m) t P ↔ M.wp m t.c (fun x b => P x { t with c := b }) := by unfold SwapSt.onC; rw [M.wp_zoom]

/-- Exchange i and j. -/
def swp (i j q : Int) : Int := if q = i then j else if q = j then i else q

theorem swapCols_spec {m n lda i j : Int} {A : Int → Int → T} {b : Buf T} (hm : 0 ≤ m) (hl : m ≤ lda) (hi : 0 ≤ i ∧ i < n) (hj : 0 ≤ j ∧ j < n)
    (hA : HoldsC b lda m n A) :
    M.wp (swapCols m lda i j) b (fun _ b' => HoldsC b' lda m n (fun r c => A r (swp i j c)) ∧ SameOutside b b' .ColMajor lda m n) := by
  unfold swapCols
  rw [M.wp_bind, wp_blasCheck]
  refine ⟨hm, ?_⟩
  have hinj : ∀ r c r' c', InR m n r c → InR m n r' c' → addr .ColMajor lda r c = addr .ColMajor lda r' c' → r = r' ∧ c = c' := fun r c r' c' h h' he =>
    addr_inj (layout := .ColMajor) hl h h' he
  refine M.wp_forI (fun r b' => HoldsC b' lda m n (fun x c => if x < r then A x (swp i j c) else A x c) ∧ SameOutside b b' .ColMajor lda m n) hm
    ⟨fun x c h => by rw [hA x c h]; dsimp only; rw [if_neg (by have := h.1; omega)], fun _ _ => rfl⟩ ?_ ?_
  · rintro r b1 h0 hr ⟨h1, h2⟩
    have e : ∀ c, c * lda + r = addr .ColMajor lda r c := fun c => by rw [addr_colMajor]; ring
    simp only [M.wp_bind, e]
    have v : ∀ c, 0 ≤ c ∧ c < n → b1 (addr .ColMajor lda r c) = .val (A r c) := fun c hc => by rw [h1 r c ⟨h0, hr, hc⟩]; dsimp only; rw [if_neg (by omega)]
    rw [M.wp_rd]; refine ⟨_, v i hi, ?_⟩
    rw [M.wp_rd]; refine ⟨_, v j hj, ?_⟩
    rw [M.wp_wr]; refine ⟨by rw [v i hi]; simp, ?_⟩
    rw [M.wp_wr]; refine ⟨?_, ?_, ?_⟩
    · by_cases h : addr .ColMajor lda r j = addr .ColMajor lda r i
      · rw [h, Buf.set_same]; simp
      · rw [Buf.set_ne h, v j hj]; simp
    · intro x c hxc
      by_cases hcj : addr .ColMajor lda x c = addr .ColMajor lda r j
      · obtain ⟨rfl, rfl⟩ := hinj _ _ _ _ hxc ⟨h0, hr, hj⟩ hcj
        rw [Buf.set_same]; dsimp only; rw [if_pos (by omega)]
        unfold swp
        by_cases hci : c = i
        · subst hci; simp
        · rw [if_neg hci, if_pos rfl]
      · rw [Buf.set_ne hcj]
        by_cases hci : addr .ColMajor lda x c = addr .ColMajor lda r i
        · obtain ⟨rfl, rfl⟩ := hinj _ _ _ _ hxc ⟨h0, hr, hi⟩ hci
          rw [Buf.set_same]; dsimp only; rw [if_pos (by omega)]
          unfold swp; rw [if_pos rfl]
        · rw [Buf.set_ne hci, h1 x c hxc]; dsimp only
          by_cases hx : x < r
          · rw [if_pos hx, if_pos (by omega)]
          · rw [if_neg hx]
            by_cases hxr : x = r
            · subst hxr
              rw [if_pos (by omega)]
              unfold swp
              rw [if_neg (fun h => hci (by rw [h])), if_neg (fun h => hcj (by rw [h]))]
            · rw [if_neg (by omega)]
    · intro p hp
      rw [Buf.set_ne (fun h => hp r j ⟨h0, hr, hj⟩ h), Buf.set_ne (fun h => hp r i ⟨h0, hr, hi⟩ h), h2 p hp]
  · rintro b' ⟨h1, h2⟩
    exact ⟨fun x c h => by rw [h1 x c h]; dsimp only; rw [if_pos h.2.1], h2⟩

theorem findVal_spec {lo hi v : Int} {c : Buf Int} {x : Int → Int} (h : lo ≤ hi) (hc : ∀ p, lo ≤ p → p < hi → c p = .val (x p)) :
    M.wp (findVal lo hi v) c (fun p c' => c' = c ∧ ((lo ≤ p ∧ p < hi ∧ x p = v) ∨ (p = hi ∧ ∀ q, lo ≤ q → q < hi → x q ≠ v))) := by
  unfold findVal
  rw [M.wp_bind]
  refine M.wp_findI (fun p c' => c' = c ∧ ∀ q, lo ≤ q → q < p → x q ≠ v) h ⟨rfl, fun q h0 h1 => by omega⟩ ?_ ?_
  · rintro p _ h0 h1 ⟨rfl, h2⟩
    rw [M.wp_bind, M.wp_rd]
    refine ⟨_, hc p h0 h1, ?_⟩
    rw [M.wp_pure]
    by_cases hx : x p = v
    · rw [if_pos hx]
      refine ⟨fun h => absurd h (by simp), fun _ => ?_⟩
      rw [M.wp_pure]
      exact ⟨rfl, Or.inl ⟨h0, h1, hx⟩⟩
    · rw [if_neg hx]
      refine ⟨fun _ => ⟨rfl, fun q g0 g1 => ?_⟩, fun h => absurd rfl h⟩
      by_cases hq : q = p
      · subst hq; exact hx
      · exact h2 q g0 (by omega)
  · rintro _ ⟨rfl, h2⟩
    rw [M.wp_pure]
    exact ⟨rfl, Or.inr ⟨rfl, h2⟩⟩

/-- What the loop maintains after i iterations. `t` is the current order of the columns, `v q` the position (from 1) of the column wanted at q. -/
structure SwapInv (m n k lda : Int) (A : Int → Int → T) (a0 : Buf T) (x : Int → Int) (i : Int) (s : SwapSt T) (t v : Int → Int) : Prop where
  hold : HoldsC s.a lda m n fun r c => A r (t c)
  frame : SameOutside a0 s.a .ColMajor lda m n
  range : ∀ q, 0 ≤ q ∧ q < n → 0 ≤ t q ∧ t q < n
  inj : ∀ p q, 0 ≤ p ∧ p < n → 0 ≤ q ∧ q < n → t p = t q → p = q
  done : ∀ p, 0 ≤ p → p < i → t p = x p - 1
  copy : ∀ q, i ≤ q → q < k → s.c q = .val (v q)
  pos : ∀ q, i ≤ q → q < k → 0 ≤ v q - 1 ∧ v q - 1 < n
  want : ∀ q, i ≤ q → q < k → t (v q - 1) = x q - 1
  alloc : ∀ q, 0 ≤ q → q < n → s.c q ≠ .none

theorem swp_range {n i j : Int} (hi : 0 ≤ i ∧ i < n) (hj : 0 ≤ j ∧ j < n) {q : Int} (hq : 0 ≤ q ∧ q < n) : 0 ≤ swp i j q ∧ swp i j q < n := by
  unfold swp; split_ifs <;> assumption

theorem swp_inj {i j p q : Int} (h : swp i j p = swp i j q) : p = q := by
  unfold swp at h; split_ifs at h <;> omega

theorem colSwapStep_spec {m n k lda : Int} {A : Int → Int → T} {a0 : Buf T} {x : Int → Int} {i : Int} {s : SwapSt T} {t v : Int → Int}
    (hm : 0 ≤ m) (hl : m ≤ lda) (hkn : k ≤ n) (hi0 : 0 ≤ i) (hik : i < k)
    (hx : ∀ p q, 0 ≤ p → p < k → 0 ≤ q → q < k → x p = x q → p = q) (h : SwapInv m n k lda A a0 x i s t v) :
    M.wp (colSwapStep m k lda i) s (fun _ s' => ∃ v', SwapInv m n k lda A a0 x (i + 1) s' (fun q => t (swp i (v i - 1) q)) v') := by
  unfold colSwapStep
  rw [M.wp_bind, SwapSt.wp_onC, M.wp_rd]
  refine ⟨_, h.copy i le_rfl hik, ?_⟩
  rw [M.wp_bind, SwapSt.wp_onA]
  have hi : 0 ≤ i ∧ i < n := ⟨hi0, by omega⟩
  have hj := h.pos i le_rfl hik
  refine M.wp_mono (swapCols_spec hm hl hi hj h.hold) ?_
  rintro _ a1 ⟨h1, h2⟩
  rw [M.wp_bind, SwapSt.wp_onC]
  refine M.wp_mono (findVal_spec (by omega) h.copy) ?_
  rintro p _ ⟨rfl, hp⟩
  rw [SwapSt.wp_onC, M.wp_wr]
  dsimp only
  -- distinct positions are wanted at distinct places
  have hvinj : ∀ q q', i ≤ q → q < k → i ≤ q' → q' < k → v q = v q' → q = q' := fun q q' g0 g1 g0' g1' he => by
    have e1 := h.want q g0 g1
    rw [he, h.want q' g0' g1'] at e1
    exact hx q q' (by omega) g1 (by omega) g1' (by omega)
  have hvge : ∀ q, i ≤ q → q < k → i ≤ v q - 1 := fun q g0 g1 => by
    by_contra hc
    have e1 := h.want q g0 g1
    rw [h.done _ (h.pos q g0 g1).1 (by omega)] at e1
    have := hx _ q (h.pos q g0 g1).1 (by omega) (by omega) g1 (by omega)
    omega
  have hall : s.c p ≠ .none := by
    rcases hp with ⟨g0, g1, -⟩ | ⟨rfl, hq⟩
    · exact h.alloc p (by omega) (by omega)
    · rcases lt_or_eq_of_le hkn with hlt | rfl
      · exact h.alloc p (by omega) hlt
      · exfalso
        have hsub : (Finset.Ico i p).image (fun q => v q - 1) ⊆ Finset.Ico i p := by
          intro y hy
          obtain ⟨q, hq1, rfl⟩ := Finset.mem_image.1 hy
          rw [Finset.mem_Ico] at hq1 ⊢
          exact ⟨hvge q hq1.1 hq1.2, (h.pos q hq1.1 hq1.2).2⟩
        have hcard : ((Finset.Ico i p).image (fun q => v q - 1)).card = (Finset.Ico i p).card := by
          refine Finset.card_image_of_injOn fun q hq1 q' hq2 he => ?_
          rw [Finset.mem_coe, Finset.mem_Ico] at hq1 hq2
          exact hvinj q q' hq1.1 hq1.2 hq2.1 hq2.2 (by simpa using he)
        have heq := Finset.eq_of_subset_of_card_le hsub hcard.ge
        have : i ∈ (Finset.Ico i p).image (fun q => v q - 1) := by rw [heq, Finset.mem_Ico]; omega
        obtain ⟨q, hq1, hq2⟩ := Finset.mem_image.1 this
        rw [Finset.mem_Ico] at hq1
        exact hq q hq1.1 hq1.2 (by omega)
  refine ⟨hall, fun q => if q = p then v i - 1 + 1 else v q, h1, fun y hy => (h2 y hy).trans (h.frame y hy), fun q hq => h.range _ (swp_range hi hj hq),
    fun q q' hq hq' he => swp_inj (h.inj _ _ (swp_range hi hj hq) (swp_range hi hj hq') he), ?_, ?_, ?_, ?_, ?_⟩
  · intro q g0 g1
    by_cases hqi : q = i
    · subst hqi
      rw [show swp q (v q - 1) q = v q - 1 by unfold swp; rw [if_pos rfl]]
      exact h.want q le_rfl hik
    · rw [show swp i (v i - 1) q = q by unfold swp; rw [if_neg hqi, if_neg (by have := hvge i le_rfl hik; omega)]]
      exact h.done q g0 (by omega)
  · intro q g0 g1
    by_cases hqp : q = p
    · subst hqp; dsimp only; rw [Buf.set_same, if_pos rfl]
    · dsimp only; rw [Buf.set_ne hqp, if_neg hqp]; exact h.copy q (by omega) g1
  · intro q g0 g1
    by_cases hqp : q = p
    · simp only [if_pos hqp, add_sub_cancel_right]; exact hj
    · simp only [if_neg hqp]; exact h.pos q (by omega) g1
  · intro q g0 g1
    by_cases hqp : q = p
    · simp only [if_pos hqp, add_sub_cancel_right]
      rcases hp with ⟨-, -, hv⟩ | ⟨rfl, -⟩
      · rw [← h.want q (by omega) g1, hqp, hv]
        unfold swp
        split_ifs with e1 e2
        · rw [e1]; congr 1; omega
        · congr 1; omega
        · exact absurd rfl e2
      · omega
    · simp only [if_neg hqp]
      rw [← h.want q (by omega) g1]
      have n1 : v q - 1 ≠ i := by
        intro he
        rcases hp with ⟨g2, g3, hv⟩ | ⟨-, hno⟩
        · exact hqp (hvinj q p (by omega) g1 g2 g3 (by omega))
        · exact hno q (by omega) g1 (by omega)
      have n2 : v q - 1 ≠ v i - 1 := fun he => by
        have := hvinj q i (by omega) g1 le_rfl hik (by omega); omega
      unfold swp
      rw [if_neg n1, if_neg n2]
  · intro q g0 g1
    by_cases hqp : q = p
    · subst hqp; dsimp only; rw [Buf.set_same]; simp
    · dsimp only; rw [Buf.set_ne hqp]; exact h.alloc q g0 g1

/-- Later exchanges do not move a column that is in place. -/
theorem swapSeq_stable {p : Int → Int} {k : Nat} (hp : ∀ i : Int, 0 ≤ i → i < k → i ≤ p i) :
    ∀ {j : Nat} {q : Int}, q < j → j ≤ k → swapSeq p k q = swapSeq p j q := by
  induction k with
  | zero => intro j q hq hj; obtain rfl : j = 0 := by omega
            rfl
  | succ k ih =>
    intro j q hq hj
    by_cases hjk : j = k + 1
    · rw [hjk]
    · rw [swapSeq]
      have := hp (k : Int) (by omega) (by omega)
      simp only [if_neg (show q ≠ (k : Int) by omega), if_neg (show q ≠ p k by omega)]
      exact ih (fun i h0 h1 => hp i h0 (by omega)) hq (by omega)

/-- C73. `col_swap` for an m x n matrix and an array idx whose first k ≤ n elements are different column numbers (from 1): the columns of the matrix
are permuted; the first k columns are the columns idx[0], ..., idx[k-1] of the original matrix. If idx is the result of k exchanges of position i with a position
p(i) ≥ i (as computed by a pivoted QR decomposition), all n columns are in the order of idx. Nothing but the matrix changes.

Missing: n ≥ 2^31 (below). -/
theorem C73_col_swap_partial {m n k lda : Int} {A : Int → Int → T} {a : Buf T} {idx : Buf Int} {x : Int → Int} (hm : 0 ≤ m) (hl : m ≤ lda) (hk : 0 ≤ k) (hkn : k ≤ n)
    (hA : HoldsC a lda m n A) (hidx : HoldsVec idx n x) (hr : ∀ p, 0 ≤ p → p < k → 1 ≤ x p ∧ x p ≤ n)
    (hx : ∀ p q, 0 ≤ p → p < k → 0 ≤ q → q < k → x p = x q → p = q) (hn : n < 2147483648) :
    M.wp (colSwap m n k lda idx) a (fun _ a' => ∃ t : Int → Int, HoldsC a' lda m n (fun r c => A r (t c)) ∧ SameOutside a a' .ColMajor lda m n ∧
      (∀ q, 0 ≤ q ∧ q < n → 0 ≤ t q ∧ t q < n) ∧ (∀ p q, 0 ≤ p ∧ p < n → 0 ≤ q ∧ q < n → t p = t q → p = q) ∧
      (∀ p, 0 ≤ p → p < k → t p = x p - 1) ∧
      ∀ p : Int → Int, (∀ i, 0 ≤ i → i < k → i ≤ p i ∧ p i < n) → (∀ q, 0 ≤ q → q < n → x q - 1 = swapSeq p k.toNat q) →
        ∀ q, 0 ≤ q → q < n → t q = x q - 1) := by
  unfold colSwap
  rw [M.wp_bind, M.wp_when]
  refine ⟨fun h => absurd h (by omega), fun _ => ?_⟩
  rw [M.wp_bind, M.wp_onLocal]
  refine M.wp_forI (fun i c => HoldsVec c i x ∧ ∀ q, 0 ≤ q → q < n → c q ≠ .none) (by omega) ⟨fun i h0 h1 => by omega, fun q h0 h1 => by
    simp [Buf.fill, h0, h1]⟩ ?_ ?_
  · rintro i c h0 h1 ⟨h2, h3⟩
    rw [M.wp_bind, M.wp_lift]
    refine ⟨_, Buf.rd_val (hidx i h0 h1), ?_⟩
    rw [M.wp_wr]
    refine ⟨h3 i h0 h1, fun q g0 g1 => ?_, fun q g0 g1 => ?_⟩
    · by_cases hq : q = i
      · subst hq; rw [Buf.set_same]
      · rw [Buf.set_ne hq]; exact h2 q g0 (by omega)
    · by_cases hq : q = i
      · subst hq; rw [Buf.set_same]; simp
      · rw [Buf.set_ne hq]; exact h3 q g0 g1
  rintro c ⟨hc, hc'⟩
  rw [M.wp_bind, M.wp_ubIf]
  refine ⟨by omega, ?_⟩
  rw [M.wp_bind, M.wp_get, M.wp_bind, M.wp_onLocal]
  refine M.wp_forI (fun i s => ∃ t v, SwapInv m n k lda A a x i s t v ∧
      ∀ p : Int → Int, (∀ i, 0 ≤ i → i < k → i ≤ p i ∧ p i < n) → (∀ q, 0 ≤ q → q < n → x q - 1 = swapSeq p k.toNat q) →
        ∀ q, t q = swapSeq p i.toNat q) hk
    ⟨fun q => q, x, ⟨hA, fun _ _ => rfl, fun q h => h, fun _ _ _ _ h => h, fun p h0 h1 => by omega, fun q h0 h1 => hc q h0 (by omega),
      fun q h0 h1 => by have := hr q h0 h1; omega, fun _ _ _ => rfl, hc'⟩, fun _ _ _ _ => rfl⟩ ?_ ?_
  · rintro i s h0 h1 ⟨t, v, h, ht⟩
    refine M.wp_mono (colSwapStep_spec hm hl hkn h0 h1 hx h) ?_
    rintro _ s' ⟨v', h'⟩
    refine ⟨_, v', h', fun p hp hx' q => ?_⟩
    have ht := ht p hp hx'
    have e1 : v i - 1 = p i := by
      refine h.inj _ _ (h.pos i le_rfl h1) ⟨by have := hp i h0 h1; omega, (hp i h0 h1).2⟩ ?_
      rw [h.want i le_rfl h1, hx' i h0 (by omega), ht, swapSeq_stable (p := p) (k := k.toNat) (fun i' (g0 : (0 : Int) ≤ i') g1 => (hp i' g0 (by omega)).1) (j := i.toNat + 1) (by omega) (by omega)]
      simp only [swapSeq, show ((i.toNat : Nat) : Int) = i by omega, if_true]
    rw [ht, e1, show (i + 1).toNat = i.toNat + 1 by omega, swapSeq]
    simp only [show ((i.toNat : Nat) : Int) = i by omega]
    rfl
  · rintro s ⟨t, v, h, ht⟩
    rw [M.wp_set]
    exact ⟨t, h.hold, h.frame, h.range, h.inj, h.done, fun p hp hx' q h0 h1 => by rw [ht p hp hx', hx' q h0 h1]⟩

/-- Non-vacuity: two exchanges (0 with 2, then 1 with 2) of the columns of a 1 x 3 matrix. -/
example : M.wp (colSwap 1 3 2 1 (Buf.ofList [3, 1, 2])) (Buf.ofList [10, 20, 30]) (fun _ (a' : Buf Int) => HoldsC a' 1 1 3 (fun _ c => if c = 0 then 30 else c * 10)) := by
  refine M.wp_mono (C73_col_swap_partial (x := fun q => if q = 0 then 3 else q) (A := fun _ c => 10 * (c + 1)) (by norm_num) le_rfl (by norm_num) (by norm_num) ?_ ?_ ?_ ?_ (by norm_num)) ?_
  · rintro i j ⟨h0, h1, h2, h3⟩
    obtain rfl : i = 0 := by omega
    rcases (show j = 0 ∨ j = 1 ∨ j = 2 by omega) with rfl | rfl | rfl <;> decide
  · intro i h0 h1
    rcases (show i = 0 ∨ i = 1 ∨ i = 2 by omega) with rfl | rfl | rfl <;> decide
  · intro p h0 h1
    rcases (show p = 0 ∨ p = 1 by omega) with rfl | rfl <;> decide
  · intro p q h0 h1 h2 h3
    rcases (show p = 0 ∨ p = 1 by omega) with rfl | rfl <;> rcases (show q = 0 ∨ q = 1 by omega) with rfl | rfl <;> decide
  · rintro _ a' ⟨t, h1, -, -, -, -, h2⟩ i j hij
    have h2 := h2 (fun i => 2) (fun i h0 h1 => by omega) (fun q h0 h1 => by rcases (show q = 0 ∨ q = 1 ∨ q = 2 by omega) with rfl | rfl | rfl <;> decide) j hij.2.2.1 hij.2.2.2
    rw [h1 i j hij]; dsimp only; rw [h2]
    by_cases hj : j = 0
    · simp [hj]
    · simp [hj]; ring

/-- Without the last hypothesis the trailing columns need not follow idx: one exchange with idx = (1, 3, 2) leaves the matrix as it was. -/
theorem C73_trailing_counterexample :
    M.wp (colSwap 1 3 1 1 (Buf.ofList [1, 3, 2])) (Buf.ofList [10, 20, 30]) (fun _ (a' : Buf Int) => a' 1 = .val 20 ∧ a' 1 ≠ .val 30) := by
  have h1 : (colSwap 1 3 1 1 (Buf.ofList [1, 3, 2]) (Buf.ofList [10, 20, 30]) : Res Unit × Buf Int).1 = .ok () := by decide +kernel
  have h2 : (colSwap 1 3 1 1 (Buf.ofList [1, 3, 2]) (Buf.ofList [10, 20, 30]) : Res Unit × Buf Int).2 1 = .val 20 := by decide +kernel
  exact ⟨(), _, Prod.ext h1 rfl, h2, fun h => absurd (h2.symm.trans h) (by decide)⟩

/-- `col_swap` throws if k > n. -/
theorem C73_rank_error {m n k lda : Int} {idx : Buf Int} {a : Buf T} (h : n < k) : colSwap m n k lda idx a = (.throw .runtime, a) := by
  unfold colSwap
  exact M.bind_throw (by simp [M.when, M.throw, h]; rfl)

/-- With 2^31 columns or more the counter of the first loop overflows, for every matrix and every readable idx. -/
theorem C73_int_undefined {m n k lda : Int} {idx : Buf Int} {x : Int → Int} {a : Buf T} (hk : k ≤ n) (hidx : HoldsVec idx n x) (hn : 2147483648 ≤ n) :
    M.Undef (colSwap m n k lda idx) a := by
  unfold colSwap
  refine M.Undef.after (M.wp_when.2 ⟨fun h => absurd h (by omega), fun _ => ?_⟩)
  refine M.Undef.after (M.wp_onLocal.2 (M.wp_forI (fun i c => ∀ q, 0 ≤ q → q < n → c q ≠ .none) (by omega) (fun q h0 h1 => by
    simp [Buf.fill, h0, h1]) ?_ (fun _ _ => M.Undef.bind (by simp [M.ubIf, hn]; exact M.Undef.lift))))
  · intro i c h0 h1 h3
    rw [M.wp_bind, M.wp_lift]
    refine ⟨_, Buf.rd_val (hidx i h0 h1), ?_⟩
    rw [M.wp_wr]
    refine ⟨h3 i h0 h1, fun q g0 g1 => ?_⟩
    by_cases hq : q = i
    · subst hq; rw [Buf.set_same]; simp
    · rw [Buf.set_ne hq]; exact h3 q g0 g1

end RB
