import Verif.Lemmas.CholMath
import Verif.Lemmas.Util
import Verif.Lemmas.Sketch

/-! # Lemmas about triangular solves and products, and about the QR decompositions -/

namespace RB
open Spec

variable {T : Type} [Field T] [LinearOrder T]

/-- Back substitution from the right (`X R = B`), by the usual recursion. -/
def rsubF (R : Int → Int → T) (B : Int → Int → T) (j : Nat) (i : Int) : T :=
  (B i j - ∑ k : Fin j, rsubF R B k i * R k j) / R j j
termination_by j
decreasing_by exact k.2

omit [LinearOrder T] in
theorem rsubF_eq (R B : Int → Int → T) (j : Nat) (i : Int) :
    rsubF R B j i = (B i j - ∑ k ∈ Finset.range j, rsubF R B k i * R k j) / R j j := by
  conv_lhs => rw [rsubF]
  simp only [Finset.sum_range]

theorem inR_rows {ld m n : Int} (h : m ≤ ld) : RowsIn ld (InR m n) := fun i j hij => ⟨hij.1, by have := hij.2.1; omega⟩

omit [LinearOrder T] in
theorem trsmRightUpper_spec {m n a0 lda ldb : Int} {R B : Int → Int → T} {Ab b0 b : Buf T} (hm : 0 ≤ m) (hn : 0 ≤ n)
    (hla : n ≤ lda) (hlb : m ≤ ldb) (hA : ∀ i j, Up n i j → Ab (a0 + (i + j * lda)) = .val (R i j))
    (hb : Upd ldb (InR m n) B b0 b) :
    M.wp (trsmRightUpper m n Ab a0 lda ldb) b (fun _ b' =>
      Upd ldb (InR m n) (fun i j => rsubF R B j.toNat i) b0 b') := by
  have hr := inR_rows (n := n) hlb
  unfold trsmRightUpper
  simp only [M.wp_bind, wp_blasCheck]
  refine ⟨hm, hn, hla, hlb, ?_⟩
  refine M.wp_forI (fun j b => Upd ldb (InR m n) (fun r c => if c < j then rsubF R B c.toNat r else B r c) b0 b) hn ?_ ?_ ?_
  · exact hb.congr (fun i j h => by rw [if_neg (by have := h.2.2.1; omega)])
  · intro j b1 hj0 hjn hst
    rw [M.wp_bind]
    refine M.wp_forI (fun k b => Upd ldb (InR m n)
      (fun r c => if c < j then rsubF R B c.toNat r else if c = j then B r j - ∑ l ∈ Finset.range k.toNat, rsubF R B l r * R l j else B r c) b0 b)
      hj0 ?_ ?_ ?_
    · refine hst.congr (fun r c h => ?_)
      by_cases h1 : c < j
      · simp [h1]
      · rw [if_neg h1, if_neg h1]
        by_cases h2 : c = j
        · subst h2; simp
        · rw [if_neg h2]
    · intro k b2 hk0 hkj hst2
      rw [M.wp_bind, M.wp_lift]
      refine ⟨_, Buf.rd_val (hA k j ⟨hk0, by omega, hjn⟩), ?_⟩
      refine M.wp_forI (fun i b => Upd ldb (InR m n)
        (fun r c => if c < j then rsubF R B c.toNat r else if c = j then
          (if r < i then B r j - ∑ l ∈ Finset.range (k + 1).toNat, rsubF R B l r * R l j else B r j - ∑ l ∈ Finset.range k.toNat, rsubF R B l r * R l j)
          else B r c) b0 b) hm ?_ ?_ ?_
      · exact hst2.congr (fun r c h => by
          have := h.1
          rw [if_neg (show ¬ r < 0 by omega)])
      · intro i b3 hi0 him hst3
        rw [M.wp_bind]
        refine hst3.wp_rd (i := i) (j := j) ⟨hi0, him, hj0, hjn⟩ ?_
        rw [M.wp_bind]
        refine hst3.wp_rd (i := i) (j := k) ⟨hi0, him, hk0, by omega⟩ ?_
        refine hst3.wp_wr hr ⟨hi0, him, hj0, hjn⟩ ?_ ?_ (fun b2 h => h)
        · rw [if_neg (lt_irrefl _), if_pos rfl, if_pos (by omega), if_neg (lt_irrefl _), if_pos rfl, if_neg (lt_irrefl _), if_pos hkj,
            show (k + 1).toNat = k.toNat + 1 by omega, Finset.sum_range_succ, show ((k.toNat : Nat) : Int) = k by omega]
          ring
        · rintro r c ⟨h1, h2, h3, h4⟩ hne
          by_cases h5 : c < j
          · rw [if_pos h5, if_pos h5]
          · rw [if_neg h5, if_neg h5]
            by_cases h6 : c = j
            · rw [if_pos h6, if_pos h6]
              have : r < i + 1 ↔ r < i := by omega
              simp only [this]
            · rw [if_neg h6, if_neg h6]
      · intro b3 hst3
        refine hst3.congr (fun r c h => ?_)
        rw [if_pos h.2.1]
    · intro b2 hst2
      rw [M.wp_bind, M.wp_lift]
      refine ⟨_, Buf.rd_val (hA j j ⟨hj0, le_refl _, hjn⟩), ?_⟩
      refine M.wp_forI (fun i b => Upd ldb (InR m n)
        (fun r c => if c < j then rsubF R B c.toNat r else if c = j then
          (if r < i then rsubF R B j.toNat r else B r j - ∑ l ∈ Finset.range j.toNat, rsubF R B l r * R l j)
          else B r c) b0 b) hm ?_ ?_ ?_
      · exact hst2.congr (fun r c h => by
          have := h.1
          rw [if_neg (show ¬ r < 0 by omega)])
      · intro i b3 hi0 him hst3
        rw [M.wp_bind]
        refine hst3.wp_rd (i := i) (j := j) ⟨hi0, him, hj0, hjn⟩ ?_
        refine hst3.wp_wr hr ⟨hi0, him, hj0, hjn⟩ ?_ ?_ (fun b2 h => h)
        · rw [if_neg (lt_irrefl _), if_pos rfl, if_pos (by omega), if_neg (lt_irrefl _), if_pos rfl, if_neg (lt_irrefl _), rsubF_eq,
            show ((j.toNat : Nat) : Int) = j by omega]
          ring
        · rintro r c ⟨h1, h2, h3, h4⟩ hne
          by_cases h5 : c < j
          · rw [if_pos h5, if_pos h5]
          · rw [if_neg h5, if_neg h5]
            by_cases h6 : c = j
            · rw [if_pos h6, if_pos h6]
              have : r < i + 1 ↔ r < i := by omega
              simp only [this]
            · rw [if_neg h6, if_neg h6]
      · intro b3 hst3
        refine hst3.congr (fun r c h => ?_)
        by_cases h5 : c < j
        · rw [if_pos h5, if_pos (by omega)]
        · rw [if_neg h5]
          by_cases h6 : c = j
          · rw [if_pos h6, if_pos h.2.1, if_pos (by omega), h6]
          · rw [if_neg h6, if_neg (by omega)]
  · intro b1 hst
    exact hst.congr (fun r c h => by rw [if_pos h.2.2.2])

omit [LinearOrder T] in
/-- The result of the substitution solves the system. -/
theorem rsub_mul {R B : Int → Int → T} {n : Int} (hup : ∀ i j, j < i → R i j = 0) (hd : ∀ i, 0 ≤ i → i < n → R i i ≠ 0) {i j : Int}
    (hj0 : 0 ≤ j) (hjn : j < n) : prodEntry n (fun i j => rsubF R B j.toNat i) R i j = B i j := by
  obtain ⟨j, rfl⟩ := Int.eq_ofNat_of_zero_le hj0
  unfold prodEntry
  simp only [Int.toNat_natCast]
  have h1 : ∑ k ∈ Finset.range n.toNat, rsubF R B k i * R k j = ∑ k ∈ Finset.range (j + 1), rsubF R B k i * R k j := by
    symm
    refine Finset.sum_subset (fun k hk => by simp at hk ⊢; omega) (fun k hk hk2 => ?_)
    rw [hup k j (by simp at hk2; omega), mul_zero]
  rw [h1, Finset.sum_range_succ, rsubF_eq R B j, div_mul_cancel₀ _ (hd j (by omega) hjn)]
  ring

omit [LinearOrder T] in
theorem trmmLeftUpper_spec {m n a0 lda ldb : Int} {R B : Int → Int → T} {Ab b0 b : Buf T} (hm : 0 ≤ m) (hn : 0 ≤ n)
    (hla : m ≤ lda) (hlb : m ≤ ldb) (hA : ∀ i j, Up m i j → Ab (a0 + (i + j * lda)) = .val (R i j))
    (hb : Upd ldb (InR m n) B b0 b) :
    M.wp (trmmLeftUpper m n Ab a0 lda ldb) b (fun _ b' =>
      Upd ldb (InR m n) (fun i j => ∑ k ∈ Finset.range m.toNat, (if i ≤ k then R i k else 0) * B k j) b0 b') := by
  have hr := inR_rows (n := n) hlb
  unfold trmmLeftUpper
  simp only [M.wp_bind, wp_blasCheck]
  refine ⟨hm, hn, hla, hlb, ?_⟩
  let P : Int → Int → Int → T := fun k i j => ∑ k ∈ Finset.range k.toNat, (if i ≤ k then R i k else 0) * B k j
  have hP : ∀ k i j, 0 ≤ k → P (k + 1) i j = P k i j + (if i ≤ k then R i k else 0) * B k j := by
    intro k i j hk
    simp only [P]
    rw [show (k + 1).toNat = k.toNat + 1 by omega, Finset.sum_range_succ, show ((k.toNat : Nat) : Int) = k by omega]
  have hP0 : ∀ k i j, k ≤ i → P k i j = 0 := by
    intro k i j hk
    refine Finset.sum_eq_zero fun l hl => ?_
    rw [if_neg (by have := Finset.mem_range.1 hl; omega), zero_mul]
  refine M.wp_forI (fun j b => Upd ldb (InR m n) (fun r c => if c < j then P m r c else B r c) b0 b) hn ?_ ?_ ?_
  · exact hb.congr (fun i j h => by rw [if_neg (by have := h.2.2.1; omega)])
  · intro j b1 hj0 hjn hst
    refine M.wp_forI (fun k b => Upd ldb (InR m n)
      (fun r c => if c < j then P m r c else if c = j ∧ r < k then P k r c else B r c) b0 b) hm ?_ ?_ ?_
    · refine hst.congr (fun r c h => ?_)
      rw [if_neg (show ¬ (c = j ∧ r < 0) by have := h.1; omega)]
    · intro k b2 hk0 hkm hst2
      rw [M.wp_bind]
      refine hst2.wp_rd (i := k) (j := j) ⟨hk0, hkm, hj0, hjn⟩ ?_
      rw [if_neg (lt_irrefl _), if_neg (by omega), M.wp_bind]
      refine M.wp_forI (fun i b => Upd ldb (InR m n)
        (fun r c => if c < j then P m r c else if c = j ∧ r < i then P (k + 1) r c else if c = j ∧ r < k then P k r c else B r c) b0 b) hk0 ?_ ?_ ?_
      · refine hst2.congr (fun r c h => ?_)
        rw [if_neg (show ¬ (c = j ∧ r < 0) by have := h.1; omega)]
      · intro i b3 hi0 hik hst3
        rw [M.wp_bind]
        refine hst3.wp_rd (i := i) (j := j) ⟨hi0, by omega, hj0, hjn⟩ ?_
        rw [M.wp_bind, M.wp_lift]
        refine ⟨_, Buf.rd_val (hA i k ⟨hi0, by omega, hkm⟩), ?_⟩
        refine hst3.wp_wr hr ⟨hi0, by omega, hj0, hjn⟩ ?_ ?_ (fun b2 h => h)
        · rw [if_neg (lt_irrefl _), if_pos ⟨rfl, by omega⟩, if_neg (lt_irrefl _), if_neg (by omega), if_pos ⟨rfl, hik⟩, hP _ _ _ hk0,
            if_pos (by omega)]
          ring
        · rintro r c ⟨h1, h2, h3, h4⟩ hne
          have : (c = j ∧ r < i + 1) ↔ (c = j ∧ r < i) := by omega
          simp only [this]
      · intro b3 hst3
        rw [M.wp_bind, M.wp_lift]
        refine ⟨_, Buf.rd_val (hA k k ⟨hk0, le_refl _, hkm⟩), ?_⟩
        refine hst3.wp_wr hr ⟨hk0, hkm, hj0, hjn⟩ ?_ ?_ (fun b2 h => h)
        · rw [if_neg (lt_irrefl _), if_pos ⟨rfl, by omega⟩, hP _ _ _ hk0, if_pos (le_refl _), hP0 _ _ _ (le_refl _)]
          ring
        · rintro r c ⟨h1, h2, h3, h4⟩ hne
          by_cases h5 : c < j
          · rw [if_pos h5, if_pos h5]
          · rw [if_neg h5, if_neg h5]
            by_cases h6 : c = j ∧ r < k
            · rw [if_pos (by omega), if_pos h6]
            · rw [if_neg (by omega), if_neg h6, if_neg h6]
    · intro b2 hst2
      refine hst2.congr (fun r c h => ?_)
      by_cases h5 : c < j
      · rw [if_pos h5, if_pos (by omega)]
      · rw [if_neg h5]
        by_cases h6 : c = j
        · rw [if_pos ⟨h6, h.2.1⟩, if_pos (by omega)]
        · rw [if_neg (by omega), if_neg (by omega)]
  · intro b1 hst
    exact hst.congr (fun r c h => by rw [if_pos h.2.2.2])

end RB
