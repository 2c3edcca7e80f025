import Verif.Lemmas.Upd
import Mathlib.Algebra.Order.Field.Basic
import Mathlib.Algebra.Order.BigOperators.Group.Finset

/-! # Lemmas about the Cholesky decomposition -/

namespace RB
open Spec

variable {T : Type} [Field T]

/-- Row `i` of the Cholesky factor, by the usual recursion (internal; theorems do not mention it). -/
def cholF (sqrt : T → T) (A : Int → Int → T) (i : Nat) (c : Int) : T :=
  let p := A i i - ∑ k : Fin i, cholF sqrt A k i * cholF sqrt A k i
  if c = i then sqrt p else (A i c - ∑ k : Fin i, cholF sqrt A k i * cholF sqrt A k c) / sqrt p
termination_by i
decreasing_by all_goals exact k.2

/-- The matrix after `j` steps of the elimination. -/
def schurF (sqrt : T → T) (A : Int → Int → T) (j : Nat) (r c : Int) : T :=
  A r c - ∑ k ∈ Finset.range j, cholF sqrt A k r * cholF sqrt A k c

theorem cholF_eq (sqrt : T → T) (A : Int → Int → T) (i : Nat) (c : Int) :
    cholF sqrt A i c = if c = i then sqrt (schurF sqrt A i i i)
      else schurF sqrt A i i c / sqrt (schurF sqrt A i i i) := by
  conv_lhs => rw [cholF]
  simp only [schurF, Finset.sum_range]

theorem cholF_diag (sqrt : T → T) (A : Int → Int → T) (i : Nat) :
    cholF sqrt A i i = sqrt (schurF sqrt A i i i) := by rw [cholF_eq]; simp

theorem cholF_off (sqrt : T → T) (A : Int → Int → T) {i : Nat} {c : Int} (h : c ≠ i) :
    cholF sqrt A i c = schurF sqrt A i i c / cholF sqrt A i i := by
  rw [cholF_diag]; conv_lhs => rw [cholF_eq]
  simp [h]

theorem schurF_zero (sqrt : T → T) (A : Int → Int → T) (r c : Int) : schurF sqrt A 0 r c = A r c := by simp [schurF]

theorem schurF_succ (sqrt : T → T) (A : Int → Int → T) (j : Nat) (r c : Int) :
    schurF sqrt A (j + 1) r c = schurF sqrt A j r c - cholF sqrt A j r * cholF sqrt A j c := by
  simp only [schurF, Finset.sum_range_succ]; ring

/-- Indices of the upper triangle. -/
def Up (n i j : Int) : Prop := 0 ≤ i ∧ i ≤ j ∧ j < n

theorem up_rows {n ld : Int} (h : n ≤ ld) : RowsIn ld (Up n) := fun i j hij => ⟨hij.1, by have := hij.2; omega⟩

section
variable [LinearOrder T]

theorem potrfSeq_spec {sqrt : T → T} {n lda : Int} {A : Int → Int → T} {b b0 : Buf T} (hn : 0 ≤ n) (hl : n ≤ lda)
    (hb : Upd lda (Up n) A b0 b) :
    M.wp (potrfSeq sqrt n lda) b (fun code b' =>
      (code = 0 ∧ (∀ k : Nat, (k : Int) < n → 0 < schurF sqrt A k k k) ∧
        Upd lda (Up n) (fun r c => cholF sqrt A r.toNat c) b0 b') ∨
      (∃ j : Nat, (j : Int) < n ∧ code = j + 1 ∧ (∀ k : Nat, k < j → 0 < schurF sqrt A k k k) ∧ schurF sqrt A j j j ≤ 0 ∧
        ∃ X, Upd lda (Up n) X b0 b')) := by
  have hr := up_rows hl
  unfold potrfSeq
  rw [M.wp_bind]
  refine M.wp_findI (fun j b => (∀ k : Nat, (k : Int) < j → 0 < schurF sqrt A k k k) ∧
      Upd lda (Up n) (fun r c => if r < j then cholF sqrt A r.toNat c else schurF sqrt A j.toNat r c) b0 b) hn ?_ ?_ ?_
  · refine ⟨fun k hk => by omega, hb.congr ?_⟩
    intro i j hij
    obtain ⟨h1, h2, h3⟩ := hij
    rw [if_neg (by omega), Int.toNat_zero, schurF_zero]
  · rintro j b1 hj0 hjn ⟨hpos, hst⟩
    obtain ⟨J, rfl⟩ := Int.eq_ofNat_of_zero_le hj0
    simp only [Int.ofNat_eq_natCast, Int.toNat_natCast] at *
    rw [M.wp_bind]
    refine hst.wp_rd (i := J) (j := J) ⟨hj0, le_refl _, hjn⟩ ?_
    simp only [lt_irrefl, if_false]
    by_cases hd : schurF sqrt A J J J ≤ 0
    · rw [if_pos hd, M.wp_pure]
      refine ⟨fun h => absurd h (by simp), fun _ => ?_⟩
      rw [M.wp_pure]
      right
      exact ⟨J, hjn, by simp, fun k hk => hpos k (by exact_mod_cast hk), hd, _, hst⟩
    · rw [if_neg hd, M.wp_bind]
      refine hst.wp_wr hr (X' := fun r c => if r < J ∨ (r = J ∧ c < J + 1) then cholF sqrt A r.toNat c else schurF sqrt A J r c)
        ⟨hj0, le_refl _, hjn⟩ ?_ ?_ ?_
      · simp [cholF_diag]
      · rintro r c ⟨h1, h2, h3⟩ hne
        by_cases hr1 : r < J
        · simp [hr1]
        · have : ¬ (r < J ∨ (r = J ∧ c < (J : Int) + 1)) := by omega
          rw [if_neg this, if_neg hr1]
      intro b2 hst2
      rw [M.wp_bind]
      refine M.wp_forI (fun i b => Upd lda (Up n)
        (fun r c => if r < J ∨ (r = J ∧ c < i) then cholF sqrt A r.toNat c else schurF sqrt A J r c) b0 b) (by omega) hst2 ?_ ?_
      · intro i b3 hi0 hin hst3
        rw [M.wp_bind]
        refine hst3.wp_rd (i := J) (j := i) ⟨hj0, by omega, hin⟩ ?_
        rw [M.wp_bind]
        refine hst3.wp_rd (i := J) (j := J) ⟨hj0, le_refl _, hjn⟩ ?_
        refine hst3.wp_wr hr ⟨hj0, by omega, hin⟩ ?_ ?_ (fun b2 h => h)
        · have h1 : ¬ ((J : Int) < J ∨ ((J : Int) = J ∧ i < i)) := by omega
          have h2 : ((J : Int) < J ∨ ((J : Int) = J ∧ i < i + 1)) := by omega
          have h3 : ((J : Int) < J ∨ ((J : Int) = J ∧ (J : Int) < i)) := by omega
          rw [if_pos h2, if_neg h1, if_pos h3, Int.toNat_natCast]
          exact cholF_off _ _ (by omega)
        · rintro r c ⟨h1, h2, h3⟩ hne
          by_cases hr1 : r < J ∨ (r = J ∧ c < i)
          · have hr2 : r < J ∨ (r = J ∧ c < i + 1) := by omega
            simp [hr1, hr2]
          · have hr2 : ¬ (r < J ∨ (r = J ∧ c < i + 1)) := by omega
            simp [hr1, hr2]
      · intro b3 hst3
        rw [M.wp_bind]
        refine M.wp_forI (fun k b => Upd lda (Up n)
          (fun r c => if r ≤ J then cholF sqrt A r.toNat c else if r < k then schurF sqrt A (J + 1) r c else schurF sqrt A J r c) b0 b)
          (by omega) ?_ ?_ ?_
        · refine hst3.congr ?_
          rintro r c ⟨h1, h2, h3⟩
          by_cases hr1 : r ≤ J
          · have : r < J ∨ (r = J ∧ c < n) := by omega
            simp [hr1, this]
          · have : ¬ (r < J ∨ (r = J ∧ c < n)) := by omega
            have h4 : ¬ (r < J + 1) := by omega
            simp [hr1, this, h4]
        · intro k b4 hk0 hkn hst4
          refine M.wp_forI (fun i b => Upd lda (Up n)
            (fun r c => if r ≤ J then cholF sqrt A r.toNat c else if r < k ∨ (r = k ∧ c < i) then schurF sqrt A (J + 1) r c
              else schurF sqrt A J r c) b0 b)
            (by omega) ?_ ?_ ?_
          · refine hst4.congr ?_
            rintro r c ⟨h1, h2, h3⟩
            have : (r < k ∨ (r = k ∧ c < k)) ↔ r < k := by omega
            simp only [this]
          · intro i b5 hi0 hin hst5
            rw [M.wp_bind]
            refine hst5.wp_rd (i := k) (j := i) ⟨by omega, by omega, hin⟩ ?_
            rw [M.wp_bind]
            refine hst5.wp_rd (i := J) (j := i) ⟨by omega, by omega, hin⟩ ?_
            rw [M.wp_bind]
            refine hst5.wp_rd (i := J) (j := k) ⟨by omega, by omega, hkn⟩ ?_
            refine hst5.wp_wr hr ⟨by omega, by omega, hin⟩ ?_ ?_ (fun b2 h => h)
            · have h1 : ¬ (k ≤ J) := by omega
              have h2 : ¬ (k < k ∨ (k = k ∧ i < i)) := by omega
              have h3 : (k < k ∨ (k = k ∧ i < i + 1)) := by omega
              rw [if_neg h1, if_pos h3, if_neg h1, if_neg h2, if_pos (le_refl _), if_pos (le_refl _), Int.toNat_natCast, schurF_succ]
              ring
            · rintro r c ⟨h1, h2, h3⟩ hne
              have : (r < k ∨ (r = k ∧ c < i + 1)) ↔ (r < k ∨ (r = k ∧ c < i)) := by omega
              simp only [this]
          · intro b5 hst5
            refine hst5.congr ?_
            rintro r c ⟨h1, h2, h3⟩
            have : (r < k ∨ (r = k ∧ c < n)) ↔ r < k + 1 := by omega
            simp only [this]
        · intro b4 hst4
          rw [M.wp_pure]
          refine ⟨fun _ => ⟨?_, hst4.congr ?_⟩, fun h => absurd rfl h⟩
          · intro k hk
            rcases lt_or_eq_of_le (show (k : Int) ≤ J by omega) with h | h
            · exact hpos k h
            · have : k = J := by omega
              subst this; exact lt_of_not_ge hd
          · rintro r c ⟨h1, h2, h3⟩
            by_cases hr1 : r ≤ J
            · have : r < (J : Int) + 1 := by omega
              simp [hr1, this]
            · have h5 : ¬ r < (J : Int) + 1 := by omega
              have h6 : r < n := by omega
              have h7 : ((J : Int) + 1).toNat = J + 1 := by omega
              simp only [hr1, h5, h6, if_false, if_true, h7]
  · rintro b1 ⟨hpos, hst⟩
    rw [M.wp_pure]
    left
    refine ⟨by simp, hpos, hst.congr ?_⟩
    rintro r c ⟨h1, h2, h3⟩
    rw [if_pos (by omega)]

/-- Forward substitution with the transpose of `R`, by the usual recursion. -/
def fsubF (R : Int → Int → T) (B : Int → Int → T) (i : Nat) (j : Int) : T :=
  (B i j - ∑ k : Fin i, R k i * fsubF R B k j) / R i i
termination_by i
decreasing_by exact k.2

omit [LinearOrder T] in
theorem fsubF_eq (R B : Int → Int → T) (i : Nat) (j : Int) :
    fsubF R B i j = (B i j - ∑ k ∈ Finset.range i, R k i * fsubF R B k j) / R i i := by
  conv_lhs => rw [fsubF]
  simp only [Finset.sum_range]

theorem trsmLeftUpperTrans_spec {m n a0 lda ldb : Int} {alpha : T} {R B : Int → Int → T} {Ab b0 b : Buf T} (hm : 0 ≤ m) (hn : 0 ≤ n)
    (hla : m ≤ lda) (hlb : m ≤ ldb) (hA : ∀ i j, Up m i j → Ab (a0 + (i + j * lda)) = .val (R i j))
    (hb : Upd ldb (InR m n) B b0 b) :
    M.wp (trsmLeftUpperTrans m n alpha Ab a0 lda ldb) b (fun _ b' =>
      Upd ldb (InR m n) (fun i j => fsubF R (fun i j => alpha * B i j) i.toNat j) b0 b') := by
  have hr : RowsIn ldb (InR m n) := fun i j h => ⟨h.1, by have := h.2.1; omega⟩
  unfold trsmLeftUpperTrans
  simp only [M.wp_bind, wp_blasCheck]
  refine ⟨hm, hn, hla, hlb, ?_⟩
  refine M.wp_forI (fun j b => Upd ldb (InR m n) (fun r c => if c < j then fsubF R (fun i j => alpha * B i j) r.toNat c else B r c) b0 b) hn ?_ ?_ ?_
  · exact hb.congr (fun i j h => by rw [if_neg (by have := h.2.2.1; omega)])
  · intro j b1 hj0 hjn hst
    refine M.wp_forI (fun i b => Upd ldb (InR m n)
      (fun r c => if c < j ∨ (c = j ∧ r < i) then fsubF R (fun i j => alpha * B i j) r.toNat c else B r c) b0 b) hm ?_ ?_ ?_
    · exact hst.congr (fun r c h => by
        have : (c < j ∨ (c = j ∧ r < 0)) ↔ c < j := by have := h.1; omega
        simp only [this])
    · intro i b2 hi0 him hst2
      rw [M.wp_bind]
      refine hst2.wp_rd (i := i) (j := j) ⟨hi0, him, hj0, hjn⟩ ?_
      rw [M.wp_bind]
      refine M.wp_foldI (fun k t b => b = b2 ∧
        t = alpha * B i j - ∑ l ∈ Finset.range k.toNat, R l i * fsubF R (fun i j => alpha * B i j) l j) hi0 ?_ ?_ ?_
      · refine ⟨rfl, ?_⟩
        rw [if_neg (by omega)]
        simp
      · rintro k t b3 hk0 hki ⟨rfl, ht⟩
        rw [M.wp_bind, M.wp_lift]
        refine ⟨_, Buf.rd_val (hA k i ⟨hk0, by omega, him⟩), ?_⟩
        rw [M.wp_bind]
        refine hst2.wp_rd (i := k) (j := j) ⟨hk0, by omega, hj0, hjn⟩ ?_
        rw [M.wp_pure]
        refine ⟨rfl, ?_⟩
        rw [if_pos (by omega), ht, show (k + 1).toNat = k.toNat + 1 by omega, Finset.sum_range_succ,
          show ((k.toNat : Nat) : Int) = k by omega]
        ring
      · rintro t b3 ⟨rfl, ht⟩
        rw [M.wp_bind, M.wp_lift]
        refine ⟨_, Buf.rd_val (hA i i ⟨hi0, le_refl _, him⟩), ?_⟩
        refine hst2.wp_wr hr ⟨hi0, him, hj0, hjn⟩ ?_ ?_ (fun b2 h => h)
        · rw [if_pos (by omega), fsubF_eq, ht, show ((i.toNat : Nat) : Int) = i by omega]
        · rintro r c ⟨h1, h2, h3, h4⟩ hne
          have : (c < j ∨ (c = j ∧ r < i + 1)) ↔ (c < j ∨ (c = j ∧ r < i)) := by omega
          simp only [this]
    · intro b2 hst2
      exact hst2.congr (fun r c h => by
        have : (c < j ∨ (c = j ∧ r < m)) ↔ c < j + 1 := by have := h.2.1; omega
        simp only [this])
  · intro b1 hst
    exact hst.congr (fun r c h => by rw [if_pos h.2.2.2])

omit [LinearOrder T] in
/-- The inner products of `syrk`. -/
theorem dot_spec {σ : Type} {k : Int} {f g : Int → Res T} {F G : Int → T} {s : σ} (hk : 0 ≤ k)
    (hf : ∀ l, 0 ≤ l → l < k → f l = .ok (F l)) (hg : ∀ l, 0 ≤ l → l < k → g l = .ok (G l)) {Q : T → σ → Prop}
    (hQ : Q (∑ l ∈ Finset.range k.toNat, F l * G l) s) :
    M.wp (foldI 0 k (fun l t => do
      let x ← M.lift (f l)
      let y ← M.lift (g l)
      pure (t + x * y)) 0) s Q := by
  refine M.wp_foldI (fun l t s' => s' = s ∧ t = ∑ l ∈ Finset.range l.toNat, F l * G l) hk ⟨rfl, by simp⟩ ?_ ?_
  · rintro l t s' h0 hl ⟨rfl, rfl⟩
    simp only [M.wp_bind, M.wp_lift, M.wp_pure]
    refine ⟨_, hf l h0 hl, _, hg l h0 hl, trivial, ?_⟩
    rw [show (l + 1).toNat = l.toNat + 1 by omega, Finset.sum_range_succ, show ((l.toNat : Nat) : Int) = l by omega]
  · rintro t s' ⟨rfl, rfl⟩
    exact hQ

theorem syrkUpperTrans_spec {n k a0 lda ldc : Int} {alpha beta : T} {A C : Int → Int → T} {Ab b0 b : Buf T} (hn : 0 ≤ n) (hk : 0 ≤ k)
    (hla : k ≤ lda) (hlc : n ≤ ldc) (hA : ∀ i j, InR k n i j → Ab (a0 + (i + j * lda)) = .val (A i j))
    (hb : Upd ldc (Up n) C b0 b) :
    M.wp (syrkUpperTrans n k alpha Ab a0 lda beta ldc) b (fun _ b' =>
      Upd ldc (Up n) (fun i j => alpha * ∑ l ∈ Finset.range k.toNat, A l i * A l j + beta * C i j) b0 b') := by
  have hr := up_rows hlc
  unfold syrkUpperTrans
  simp only [M.wp_bind, wp_blasCheck]
  refine ⟨hn, hk, hla, hlc, ?_⟩
  refine M.wp_forI (fun j b => Upd ldc (Up n)
    (fun r c => if c < j then alpha * ∑ l ∈ Finset.range k.toNat, A l r * A l c + beta * C r c else C r c) b0 b) hn ?_ ?_ ?_
  · exact hb.congr (fun i j h => by rw [if_neg (by obtain ⟨h1, h2, h3⟩ := h; omega)])
  · intro j b1 hj0 hjn hst
    refine M.wp_forI (fun i b => Upd ldc (Up n)
      (fun r c => if c < j ∨ (c = j ∧ r < i) then alpha * ∑ l ∈ Finset.range k.toNat, A l r * A l c + beta * C r c else C r c) b0 b)
      (by omega) ?_ ?_ ?_
    · exact hst.congr (fun r c h => by
        have : (c < j ∨ (c = j ∧ r < 0)) ↔ c < j := by have := h.1; omega
        simp only [this])
    · intro i b2 hi0 hij hst2
      rw [M.wp_bind]
      refine dot_spec (F := fun l => A l i) (G := fun l => A l j) hk
        (fun l h0 h1 => Buf.rd_val (hA l i ⟨h0, h1, hi0, by omega⟩)) (fun l h0 h1 => Buf.rd_val (hA l j ⟨h0, h1, hj0, hjn⟩)) ?_
      have hset : ∀ v : T, v = alpha * ∑ l ∈ Finset.range k.toNat, A l i * A l j + beta * C i j →
          M.wp (M.wr (i + j * ldc) v) b2 (fun _ b => Upd ldc (Up n)
      (fun r c => if c < j ∨ (c = j ∧ r < i + 1) then alpha * ∑ l ∈ Finset.range k.toNat, A l r * A l c + beta * C r c else C r c) b0 b) := by
        intro v hv
        refine hst2.wp_wr hr ⟨hi0, by omega, hjn⟩ ?_ ?_ (fun b2 h => h)
        · rw [if_pos (by omega), hv]
        · rintro r c ⟨h1, h2, h3⟩ hne
          have : (c < j ∨ (c = j ∧ r < i + 1)) ↔ (c < j ∨ (c = j ∧ r < i)) := by omega
          simp only [this]
      by_cases hb0 : beta = 0
      · rw [if_pos hb0]
        exact hset _ (by rw [hb0]; ring)
      · rw [if_neg hb0, M.wp_bind]
        refine hst2.wp_rd (i := i) (j := j) ⟨hi0, by omega, hjn⟩ ?_
        refine hset _ ?_
        rw [if_neg (by omega)]
    · intro b2 hst2
      exact hst2.congr (fun r c h => by
        have : (c < j ∨ (c = j ∧ r < j + 1)) ↔ c < j + 1 := by obtain ⟨h1, h2, h3⟩ := h; omega
        simp only [this])
  · intro b1 hst
    exact hst.congr (fun r c h => by rw [if_pos h.2.2])

omit [LinearOrder T] in
theorem schur_shift_of {sqrt : T → T} {A S : Int → Int → T} {c : Nat} (hS : ∀ r q, S r q = schurF sqrt A c (r + c) (q + c)) (i : Nat)
    (h : ∀ k < i, ∀ q, cholF sqrt S k q = cholF sqrt A (k + c) (q + c)) (r q : Int) :
    schurF sqrt S i r q = schurF sqrt A (i + c) (r + c) (q + c) := by
  rw [schurF, hS, schurF, schurF, Nat.add_comm i c, Finset.sum_range_add, sub_sub]
  congr 2
  refine Finset.sum_congr rfl fun k hk => ?_
  rw [h k (Finset.mem_range.1 hk), h k (Finset.mem_range.1 hk), Nat.add_comm k c]

omit [LinearOrder T] in
/-- The factor of the Schur complement is the trailing block of the factor. -/
theorem chol_shift {sqrt : T → T} {A S : Int → Int → T} {c : Nat} (hS : ∀ r q, S r q = schurF sqrt A c (r + c) (q + c)) (i : Nat) (q : Int) :
    cholF sqrt S i q = cholF sqrt A (i + c) (q + c) := by
  induction i using Nat.strong_induction_on generalizing q with
  | _ i ih =>
    rw [cholF_eq, cholF_eq, schur_shift_of hS i ih, schur_shift_of hS i ih]
    by_cases h : q = i
    · subst h; simp
    · have h2 : ¬ (q + c = ((i + c : Nat) : Int)) := by push_cast; omega
      rw [if_neg h, if_neg h2]; simp

omit [LinearOrder T] in
theorem schur_shift {sqrt : T → T} {A S : Int → Int → T} {c : Nat} (hS : ∀ r q, S r q = schurF sqrt A c (r + c) (q + c)) (i : Nat) (r q : Int) :
    schurF sqrt S i r q = schurF sqrt A (i + c) (r + c) (q + c) :=
  schur_shift_of hS i (fun k _ q => chol_shift hS k q) r q

omit [LinearOrder T] in
/-- The solution of the triangular system is the off-diagonal block of the factor. -/
theorem fsub_chol {sqrt : T → T} {A : Int → Int → T} {c : Nat} (i : Nat) (hi : i < c) (j : Int) (hj : 0 ≤ j) :
    fsubF (fun r q => cholF sqrt A r.toNat q) (fun r q => 1 * A r (q + c)) i j = cholF sqrt A i (j + c) := by
  simp only [one_mul]
  induction i using Nat.strong_induction_on with
  | _ i ih =>
    rw [fsubF_eq, cholF_off _ _ (show j + c ≠ i by omega), schurF]
    simp only [Int.toNat_natCast]
    congr 2
    refine Finset.sum_congr rfl fun k hk => ?_
    rw [ih k (Finset.mem_range.1 hk) (by have := Finset.mem_range.1 hk; omega)]

instance (n i j : Int) : Decidable (Up n i j) := inferInstanceAs (Decidable (_ ∧ _ ∧ _))
instance (m n i j : Int) : Decidable (InR m n i j) := inferInstanceAs (Decidable (_ ∧ _ ∧ _ ∧ _))

/-- `potrf_upper`: what is returned and stored, in terms of the pivots. -/
theorem potrfUpperF_spec {sqrt : T → T} {lda bs : Int} (hbs : 0 < bs) (fuel : Nat) {n : Int} {A : Int → Int → T} {b b0 : Buf T} (hn : 0 ≤ n)
    (hl : n ≤ lda) (hfuel : n < fuel) (hb : Upd lda (Up n) A b0 b) :
    M.wp (potrfUpperF sqrt fuel n lda bs) b (fun code b' =>
      ((∀ k : Nat, (k : Int) < n → 0 < schurF sqrt A k k k) →
        Upd lda (Up n) (fun r c => cholF sqrt A r.toNat c) b0 b') ∧
      ((∀ k : Nat, (k : Int) < n → (k : Int) < bs → 0 < schurF sqrt A k k k) → code = 0) ∧
      (∀ j : Nat, (j : Int) < n → (j : Int) < bs → (∀ k : Nat, k < j → 0 < schurF sqrt A k k k) → schurF sqrt A j j j ≤ 0 → code = j + 1) ∧
      ∃ X, Upd lda (Up n) X b0 b') := by
  induction fuel generalizing n A b b0 with
  | zero => omega
  | succ fuel ih =>
    have hr := up_rows hl
    unfold potrfUpperF
    rw [M.wp_bind, M.wp_require]
    refine ⟨hbs, ?_⟩
    dsimp only
    have hcn : min bs n ≤ n := min_le_right _ _
    have hc0 : 0 ≤ min bs n := le_min hbs.le hn
    have hcb : min bs n ≤ bs := min_le_left _ _
    have hclt : ∀ k : Int, k < min bs n ↔ k < bs ∧ k < n := fun k => lt_min_iff
    obtain ⟨c, hc⟩ := Int.eq_ofNat_of_zero_le hc0
    rw [hc] at hcn hc0 hcb hclt ⊢
    rw [M.wp_bind]
    have hst0 : Upd lda (Up c) A b b := Upd.refl (fun i j h => hb.cells i j ⟨h.1, h.2.1, by have := h.2.2; omega⟩)
    refine M.wp_mono (potrfSeq_spec hc0 (by omega) hst0) ?_
    rintro code b1 (⟨rfl, hpos, hst1⟩ | ⟨j, hj, rfl, hpos, hneg, X, hst1⟩)
    · rw [if_neg (by simp)]
      have h1 := hb.trans_sub hst1 hr (fun i j h => ⟨h.1, h.2.1, by have := h.2.2; omega⟩)
      have hge : ∀ (j : Nat), (j : Int) < n → (j : Int) < bs → schurF sqrt A j j j ≤ 0 → False := by
        intro j h1 h2 h3
        exact absurd (hpos j ((hclt j).2 ⟨h2, h1⟩)) (not_lt.2 h3)
      by_cases hlt : (c : Int) < n
      · rw [if_pos hlt, M.wp_bind, M.wp_get, M.wp_bind, M.wp_at]
        have hst2 : Upd lda (InR c (n - c)) (fun i j => A i (j + c)) (b1.shift (c * lda)) (b1.shift (c * lda)) := by
          refine Upd.refl ?_
          rintro i j ⟨h2, h3, h4, h5⟩
          have := h1.cells i (j + c) ⟨h2, by omega, by omega⟩
          rw [if_neg (by rintro ⟨-, -, h⟩; omega)] at this
          rw [Buf.shift, ← this]
          congr 1; ring
        refine M.wp_mono (trsmLeftUpperTrans_spec hc0 (by omega) (by omega) (by omega)
          (fun i j h => by rw [zero_add]; exact hst1.cells i j h) hst2) ?_
        intro _ b2' hst3
        have hst3 := Upd.of_shift (r := 0) (c := c) (by ring) hst3
        generalize b2'.shift (-(c * lda)) = b2 at hst3 ⊢
        have h2 := h1.trans_sub hst3 hr (by
          rintro i j ⟨h2, h3, h4, h5⟩
          exact ⟨by omega, by omega, by omega⟩)
        have h2 := h2.congr (X' := fun i j => if i < c then cholF sqrt A i.toNat j else A i j) (by
          rintro i j ⟨h3, h4, h5⟩
          by_cases hi : i < c
          · by_cases hj : j < c
            · rw [if_neg (by rintro ⟨-, -, h, -⟩; omega), if_pos ⟨h3, h4, hj⟩, if_pos hi]
            · rw [if_pos ⟨by omega, by omega, by omega, by omega⟩, if_pos hi, sub_zero, fsub_chol i.toNat (by omega) (j - c) (by omega)]
              congr 1; ring
          · rw [if_neg (by rintro ⟨h, h', -⟩; omega), if_neg (by rintro ⟨-, h, h'⟩; omega), if_neg hi])
        rw [M.wp_bind, M.wp_get, M.wp_bind, M.wp_at]
        have hst4 : Upd lda (Up (n - c)) (fun i j => A (i + c) (j + c)) (b2.shift (c * lda + c)) (b2.shift (c * lda + c)) := by
          refine Upd.refl ?_
          rintro i j ⟨h3, h4, h5⟩
          have := h2.cells (i + c) (j + c) ⟨by omega, by omega, by omega⟩
          rw [if_neg (by omega)] at this
          rw [Buf.shift, ← this]
          congr 1; ring
        refine M.wp_mono (syrkUpperTrans_spec (A := fun i j => cholF sqrt A i.toNat (j + c)) (by omega) hc0 (by omega) (by omega) (fun i j h => by
          obtain ⟨h3, h4, h5, h6⟩ := h
          have := h2.cells i (j + c) ⟨h3, by omega, by omega⟩
          rw [if_pos (by omega)] at this
          rw [← this]
          congr 1; ring) hst4) ?_
        intro _ b3' hst5
        have hst5 := Upd.of_shift (r := c) (c := c) (by ring) hst5
        generalize b3'.shift (-(c * lda + c)) = b3 at hst5 ⊢
        have h3 := h2.trans_sub hst5 hr (by
          rintro i j ⟨h2, h3, h4⟩
          exact ⟨by omega, by omega, by omega⟩)
        have h3 := h3.congr (X' := fun i j => if i < c then cholF sqrt A i.toNat j else schurF sqrt A c i j) (by
          rintro i j ⟨h3, h4, h5⟩
          by_cases hi : i < c
          · rw [if_neg (by rintro ⟨h, -⟩; omega)]
            simp only [hi, if_true]
          · rw [if_pos ⟨by omega, by omega, by omega⟩, if_neg hi, schurF]
            simp only [sub_add_cancel, Int.toNat_natCast]
            ring)
        rw [M.wp_bind, M.wp_at]
        have hS : ∀ r q : Int, (fun i j => schurF sqrt A c (i + c) (j + c)) r q = schurF sqrt A c (r + c) (q + c) := fun _ _ => rfl
        have hst6 : Upd lda (Up (n - c)) (fun i j => schurF sqrt A c (i + c) (j + c)) (b3.shift (c * lda + c)) (b3.shift (c * lda + c)) := by
          refine Upd.refl ?_
          rintro i j ⟨h4, h5, h6⟩
          have := h3.cells (i + c) (j + c) ⟨by omega, by omega, by omega⟩
          rw [if_neg (by omega)] at this
          rw [Buf.shift, ← this]
          congr 1; ring
        have hcpos : (c : Int) = bs := by
          rcases min_choice bs n with h | h <;> omega
        refine M.wp_mono (ih (by omega) (by omega) (by omega) hst6) ?_
        rintro code b4' ⟨hA1, -, -, X, hA4⟩
        rw [M.wp_pure]
        refine ⟨fun hall => ?_, fun _ => rfl, fun j hj1 hj2 _ hj3 => (hge j hj1 hj2 hj3).elim, ?_⟩
        · have hst7 := hA1 (fun k hk => by
            rw [schur_shift hS]
            have := hall (k + c) (by push_cast; omega)
            push_cast at this
            exact this)
          have hst7 := Upd.of_shift (r := c) (c := c) (by ring) hst7
          have h4 := h3.trans_sub hst7 hr (by
            rintro i j ⟨h2, h3, h4⟩
            exact ⟨by omega, by omega, by omega⟩)
          refine h4.congr ?_
          rintro i j ⟨h3, h4, h5⟩
          by_cases hi : i < c
          · rw [if_neg (by rintro ⟨h, -⟩; omega), if_pos hi]
          · rw [if_pos ⟨by omega, by omega, by omega⟩, chol_shift hS]
            congr 1
            · omega
            · ring
        · have hst7 := Upd.of_shift (r := c) (c := c) (by ring) hA4
          exact ⟨_, h3.trans_sub hst7 hr (by
            rintro i j ⟨h2, h3, h4⟩
            exact ⟨by omega, by omega, by omega⟩)⟩
      · rw [if_neg hlt, M.wp_pure]
        have : (c : Int) = n := by omega
        rw [this] at hst1 h1
        have h1 := h1.congr (X' := fun r q => cholF sqrt A r.toNat q) (fun i j h => by rw [if_pos h])
        exact ⟨fun _ => h1, fun _ => rfl, fun j hj1 hj2 _ hj3 => (hge j hj1 hj2 hj3).elim, _, h1⟩
    · rw [if_pos (by omega), M.wp_pure]
      have hjb := (hclt j).1 hj
      refine ⟨fun hall => absurd (hall j hjb.2) (not_lt.2 hneg), fun hall => absurd (hall j hjb.2 hjb.1) (not_lt.2 hneg), ?_, _,
        hb.trans_sub hst1 hr (fun i j h => ⟨h.1, h.2.1, by have := h.2.2; omega⟩)⟩
      intro j' h1 h2 h3 h4
      have : j = j' := by
        rcases lt_trichotomy j j' with h | h | h
        · exact absurd (h3 j h) (not_lt.2 hneg)
        · exact h
        · exact absurd (hpos j' h) (not_lt.2 h4)
      rw [this]

end

end RB
