import Verif.Lemmas.Qr
import Verif.Props.Cholesky

/-! # C63 and C64: the QR decompositions of test/handrolled_lapack.hh

C63: "`chol_qr` overwrites A (m x n, linearly independent columns) with Q and R with the upper triangular R with positive diagonal such that
A = Q R and the columns of Q are orthonormal, with and without the second pass and for every block size."
C64: "`qr_block_cgs` and `qr_block_cgs2` do the same, within the workspace that their comments ask for." -/

namespace RB
open Spec

variable {T : Type} [Field T] [LinearOrder T] [IsStrictOrderedRing T]

omit [Field T] [LinearOrder T] [IsStrictOrderedRing T] in
theorem upd_of_holds {b : Buf T} {ld m n : Int} {A : Int → Int → T} (h : Holds b .ColMajor ld m n A) : Upd ld (InR m n) A b b :=
  Upd.refl fun i j hij => by rw [← addr_colMajor]; exact h i j hij

omit [Field T] [LinearOrder T] [IsStrictOrderedRing T] in
theorem upd_holds {b b' : Buf T} {ld m n : Int} {A : Int → Int → T} (h : Upd ld (InR m n) A b b') : Holds b' .ColMajor ld m n A :=
  fun i j hij => by rw [addr_colMajor]; exact h.cells i j hij

omit [Field T] [LinearOrder T] [IsStrictOrderedRing T] in
theorem upd_sameOutside {b b' : Buf T} {ld m n : Int} {A : Int → Int → T} (h : Upd ld (InR m n) A b b') : SameOutside b b' .ColMajor ld m n :=
  fun p hp => h.outside p fun i j hij => by rw [← addr_colMajor]; exact hp i j hij

/-- Cholesky QR, one pass. -/
theorem C63_chol_qr {sqrt : T → T} (hs : SqrtOk sqrt) {m n cb : Int} {A : Int → Int → T} {a r : Buf T} (hm : 0 ≤ m) (hn : 0 ≤ n)
    (hcb : 0 < cb) (hA : FullColRank m n A) (ha : Holds a .ColMajor m m n A) (hr : ∀ p, 0 ≤ p → p < n * n → r p ≠ .none) :
    M.wp (cholQr sqrt m n cb false) (a, r) (fun _ s => ∃ Q R, OrthoCols m n Q ∧ UpperPos n R ∧
      (∀ i j, InR m n i j → prodEntry n Q R i j = A i j) ∧
      Holds s.1 .ColMajor m m n Q ∧ SameOutside a s.1 .ColMajor m m n ∧
      Holds s.2 .ColMajor n n n R ∧ SameOutside r s.2 .ColMajor n n n) := by
  unfold cholQr
  rw [M.wp_bind]
  refine M.wp_mono (cholQrOnce_spec hs hm hn hcb hA (upd_of_holds ha) hr) ?_
  rintro _ s ⟨Q, R, ⟨h1, h2, h3⟩, h4, h5⟩
  rw [if_neg (by simp), M.wp_pure]
  exact ⟨Q, R, h1, h2, h3, upd_holds h4, upd_sameOutside h4, upd_holds h5, upd_sameOutside h5⟩

/-- Cholesky QR, two passes: the array R must have 2 n^2 elements. -/
theorem C63_chol_qr_twice {sqrt : T → T} (hs : SqrtOk sqrt) {m n cb : Int} {A : Int → Int → T} {a r : Buf T} (hm : 0 ≤ m) (hn : 0 ≤ n)
    (hcb : 0 < cb) (hA : FullColRank m n A) (ha : Holds a .ColMajor m m n A) (hr : ∀ p, 0 ≤ p → p < 2 * (n * n) → r p ≠ .none) :
    M.wp (cholQr sqrt m n cb true) (a, r) (fun _ s => ∃ Q R, OrthoCols m n Q ∧ UpperPos n R ∧
      (∀ i j, InR m n i j → prodEntry n Q R i j = A i j) ∧
      Holds s.1 .ColMajor m m n Q ∧ SameOutside a s.1 .ColMajor m m n ∧
      Holds s.2 .ColMajor n n n R ∧ ∀ p, (p < 0 ∨ 2 * (n * n) ≤ p) → s.2 p = r p) := by
  refine M.wp_mono (cholQr_spec hs hm hn hcb hA (upd_of_holds ha) hr) ?_
  rintro _ s ⟨Q, R, ⟨h1, h2, h3⟩, h4, h5, h6⟩
  exact ⟨Q, R, h1, h2, h3, upd_holds h4, upd_sameOutside h4, fun i j hij => by rw [addr_colMajor]; exact h5 i j hij, h6.outside⟩

/-- The decomposition is unique: all the routines, with all block sizes, yield the same Q and R. -/
theorem C63_unique {m n : Int} {A Q R Q' R' : Int → Int → T} (hQ : OrthoCols m n Q) (hR : UpperPos n R)
    (hA : ∀ i j, InR m n i j → prodEntry n Q R i j = A i j) (hQ' : OrthoCols m n Q') (hR' : UpperPos n R')
    (hA' : ∀ i j, InR m n i j → prodEntry n Q' R' i j = A i j) :
    (∀ i j, InR n n i j → R i j = R' i j) ∧ ∀ i j, InR m n i j → Q i j = Q' i j := by
  have gram : ∀ Q R : Int → Int → T, OrthoCols m n Q → (∀ i j, InR m n i j → prodEntry n Q R i j = A i j) → ∀ i j, InR n n i j →
      prodEntry n (fun r c => R c r) R i j = prodEntry m (fun r c => A c r) A i j := by
    intro Q R hQ hA i j hij
    have e1 : prodEntry m (fun r c => A c r) A i j = prodEntry m (prodEntry n (fun r c => R c r) (fun r c => Q c r)) (prodEntry n Q R) i j :=
      prodEntry_ext (fun k hk0 hk => by rw [← hA k i ⟨hk0, hk, hij.1, hij.2.1⟩]; exact (prodEntry_trans n Q R k i).symm)
        (fun k hk0 hk => (hA k j ⟨hk0, hk, hij.2.2.1, hij.2.2.2⟩).symm)
    rw [e1, prodEntry_assoc]
    refine prodEntry_ext (fun _ _ _ => rfl) (fun k hk0 hk => ?_)
    rw [← prodEntry_assoc, prodEntry_ext (A' := fun r c => if r = c then 1 else 0) (B' := R) (fun l hl0 hl => hQ k l ⟨hk0, hk, hl0, hl⟩) (fun _ _ _ => rfl),
      prodEntry_one_left _ _ hk0 hk]
  have g : ∀ i j, InR n n i j → prodEntry n (fun r c => R c r) R i j = prodEntry n (fun r c => R' c r) R' i j := fun i j hij => by
    rw [gram Q R hQ hA i j hij, gram Q' R' hQ' hA' i j hij]
  have split : ∀ R : Int → Int → T, UpperPos n R → ∀ k : Nat, (k : Int) < n → ∀ j : Int, prodEntry n (fun r c => R c r) R k j =
      ∑ l ∈ Finset.range k, R l k * R l j + R k k * R k j := by
    intro R hR k hk j
    unfold prodEntry
    rw [← Finset.sum_range_succ (fun l : Nat => R l k * R l j)]
    symm
    refine Finset.sum_subset (fun l hl => by simp at hl ⊢; omega) (fun l hl hl2 => ?_)
    rw [hR.1 l k (by simp at hl2; omega), zero_mul]
  have rows : ∀ k : Nat, (k : Int) < n → ∀ j, 0 ≤ j → j < n → R k j = R' k j := by
    intro k
    induction k using Nat.strong_induction_on with
    | _ k ih =>
      intro hk j hj0 hj
      have e : ∀ j, 0 ≤ j → j < n → R k k * R k j = R' k k * R' k j := by
        intro j hj0 hj
        have := g k j ⟨by omega, hk, hj0, hj⟩
        rw [split R hR k hk, split R' hR' k hk, Finset.sum_congr rfl (fun l hl => by
          rw [ih l (Finset.mem_range.1 hl) (by have := Finset.mem_range.1 hl; omega) k (by omega) hk,
            ih l (Finset.mem_range.1 hl) (by have := Finset.mem_range.1 hl; omega) j hj0 hj])] at this
        exact add_left_cancel this
      have hd : R k k = R' k k := by
        have h1 := hR.2 k (by omega) hk
        have h2 := hR'.2 k (by omega) hk
        have h3 := e k (by omega) hk
        rcases lt_trichotomy (R k k) (R' k k) with h | h | h
        · nlinarith
        · exact h
        · nlinarith
      have := e j hj0 hj
      rw [hd] at this
      exact mul_left_cancel₀ (hR'.2 k (by omega) hk).ne' this
  have hRR : ∀ i j, InR n n i j → R i j = R' i j := by
    rintro i j ⟨h0, hi, hj0, hj⟩
    obtain ⟨k, rfl⟩ := Int.eq_ofNat_of_zero_le h0
    exact rows k hi j hj0 hj
  refine ⟨hRR, fun i j hij => ?_⟩
  have := upper_cancel_right (X := fun i j => Q i j - Q' i j) hR (i := i) (fun k hk0 hk => ?_) j hij.2.2.1 hij.2.2.2
  · exact sub_eq_zero.1 this
  · rw [prodEntry_sub_left, hA i k ⟨hij.1, hij.2.1, hk0, hk⟩, ← hA' i k ⟨hij.1, hij.2.1, hk0, hk⟩, sub_eq_zero]
    exact prodEntry_ext (fun _ _ _ => rfl) (fun l hl0 hl => (hRR l k ⟨hl0, hl, hk0, hk⟩).symm)

/-- Block Gram-Schmidt; only the upper triangle of R is defined, everything outside the n x n matrix R and outside the workspace of
max(n, 2b) b elements (b the smaller of block size and n) is unchanged. -/
theorem C64_qr_block_cgs_partial {sqrt : T → T} (hs : SqrtOk sqrt) {m n ldr b : Int} {A : Int → Int → T} {a r w : Buf T} (hn : 1 ≤ n) (hnm : n ≤ m)
    (hl : n ≤ ldr) (hb : 0 < b) (hA : FullColRank m n A) (ha : Holds a .ColMajor m m n A) (hr : Alloc r .ColMajor ldr n n)
    (hw : ∀ p, 0 ≤ p → p < max n (2 * min b n) * min b n → w p ≠ .none) :
    M.wp (qrBlockCgs sqrt m n ldr b) ⟨a, r, w⟩ (fun _ s => ∃ Q R, OrthoCols m n Q ∧ UpperPos n R ∧
      (∀ i j, InR m n i j → prodEntry n Q R i j = A i j) ∧
      Holds s.a .ColMajor m m n Q ∧ SameOutside a s.a .ColMajor m m n ∧
      HoldsUpper s.r ldr n R ∧ SameOutside r s.r .ColMajor ldr n n ∧
      ∀ p, (p < 0 ∨ max n (2 * min b n) * min b n ≤ p) → s.w p = w p) := by
  refine M.wp_mono (qrBlockCgsF_spec hs (n.toNat + 1) hn hnm hl hb (by omega) hA (upd_of_holds ha)
    (fun i j hij => by rw [← addr_colMajor]; exact hr i j hij) (le_refl _) hw) ?_
  rintro _ s ⟨Q, R, ⟨h1, h2, h3⟩, h4, h5, h6⟩
  exact ⟨Q, R, h1, h2, h3, upd_holds h4, upd_sameOutside h4, fun i j h0 hij hj => by rw [addr_colMajor]; exact h5.upper i j ⟨h0, hij, hj⟩,
    fun p hp => h5.outside p fun i j hij => by rw [← addr_colMajor]; exact hp i j hij, h6.outside⟩

/-- Block Gram-Schmidt, two passes; `bigwork` may have any size. -/
theorem C64_qr_block_cgs2_partial {sqrt : T → T} (hs : SqrtOk sqrt) {m n b : Int} {A : Int → Int → T} {a r : Buf T} {v : Vec T} (hn : 1 ≤ n) (hnm : n ≤ m)
    (hb : 0 < b) (hA : FullColRank m n A) (ha : Holds a .ColMajor m m n A) (hr : ∀ p, 0 ≤ p → p < n * n → r p ≠ .none)
    (hv : ∀ p, 0 ≤ p → p < v.size → v.buf p ≠ .none) :
    M.wp (qrBlockCgs2 sqrt m n b) ((a, r), v) (fun _ s => ∃ Q R, OrthoCols m n Q ∧ UpperPos n R ∧
      (∀ i j, InR m n i j → prodEntry n Q R i j = A i j) ∧
      Holds s.1.1 .ColMajor m m n Q ∧ SameOutside a s.1.1 .ColMajor m m n ∧
      Holds s.1.2 .ColMajor n n n R ∧ SameOutside r s.1.2 .ColMajor n n n) := by
  have hn0 : 0 ≤ n := by omega
  have hnn : 0 ≤ n * n := mul_nonneg hn0 hn0
  unfold qrBlockCgs2
  generalize hbb : min b n = b'
  have hb' : 0 < b' := by omega
  have hbn : min b' n = b' := by omega
  have hW : 0 ≤ max n (2 * b') * b' := mul_nonneg (by have := le_max_left n (2 * b'); omega) hb'.le
  simp only []
  rw [M.wp_bind, M.wp_get, M.wp_bind]
  -- the workspace is large enough afterwards
  have key : ∀ v' : Vec T, (∀ p, 0 ≤ p → p < n * n + max n (2 * b') * b' → v'.buf p ≠ .none) →
      M.wp (do
        M.zoom (fun s => s.1.2) (fun s r => ((s.1.1, r), s.2)) (forI 0 (n * n) fun i => M.wr i 0)
        M.zoom (fun s => (⟨s.1.1, s.1.2, s.2.buf.shift (n * n)⟩ : CgsSt T))
          (fun s t => ((t.a, t.r), { s.2 with buf := t.w.shift (-(n * n)) })) (qrBlockCgs sqrt m n n b')
        M.zoom (fun s => s.1.2) (fun s r => ((s.1.1, r), s.2)) (overwriteTriangle .ColMajor .Lower n 1 n)
        M.zoom (fun s => (⟨s.1.1, fun p => if p < n * n then s.2.buf p else .none, fun p => if 0 ≤ p then s.2.buf (n * n + p) else .none⟩ : CgsSt T))
          (fun s t => ((t.a, s.1.2), { s.2 with buf := fun p => if p < n * n then t.r p else t.w (p - n * n) })) (qrBlockCgs sqrt m n n b')
        let s ← M.get
        M.zoom (fun s => s.1.2) (fun s r => ((s.1.1, r), s.2)) (trmmLeftUpper n n s.2.buf 0 n n)) ((a, r), v') (fun _ s =>
          ∃ Q R, OrthoCols m n Q ∧ UpperPos n R ∧ (∀ i j, InR m n i j → prodEntry n Q R i j = A i j) ∧
          Holds s.1.1 .ColMajor m m n Q ∧ SameOutside a s.1.1 .ColMajor m m n ∧
          Holds s.1.2 .ColMajor n n n R ∧ SameOutside r s.1.2 .ColMajor n n n) := by
    intro v' hv'
    rw [M.wp_bind, M.wp_zoom]
    refine M.wp_mono (fill_spec hn0 hn0 hr) ?_
    intro _ r1 h1
    rw [M.wp_bind, M.wp_zoom]
    dsimp only at h1 ⊢
    refine M.wp_mono (qrBlockCgsF_spec hs (n.toNat + 1) hn hnm (le_refl _) hb' (by omega) hA (upd_of_holds ha)
      (fun i j hij => by rw [h1.cells i j hij]; simp) (le_of_eq (by rw [hbn])) (fun p h0 hp => hv' _ (by omega) (by omega))) ?_
    rintro _ ⟨a2, r2, w2⟩ ⟨Q1, R1, ⟨hQ1, hQ2, hQ3⟩, h2, h3, h4⟩
    dsimp only at h2 h3 h4 ⊢
    rw [M.wp_bind, M.wp_zoom]
    refine M.wp_mono (overwrite_lower_spec (A := fun i j => r2 (addr .ColMajor n i j)) (b0 := r2) hn0 (by omega) (show LdOk .ColMajor n n n from le_refl _)
      (MatSt.init r2 _ n n) (fun i j hij => by rw [addr_colMajor]; exact h3.alloc i j hij)) ?_
    intro _ r3 h5
    have h5 : Upd n (InR n n) R1 r r3 := by
      refine ⟨fun i j hij => ?_, fun p hp => ?_⟩
      · have := h5.cells i j hij
        rw [addr_colMajor] at this
        rw [this]
        split
        · rw [hQ2.1 i j (by omega)]
        · exact h3.upper i j ⟨hij.1, by omega, hij.2.2.2⟩
      · rw [h5.outside p (fun i j hij => by rw [addr_colMajor]; exact hp i j hij), h3.outside p hp, h1.outside p hp]
    dsimp only
    rw [M.wp_bind, M.wp_zoom]
    dsimp only
    refine M.wp_mono (qrBlockCgsF_spec hs (n.toNat + 1) (W := max n (2 * b') * b') hn hnm (le_refl _) hb' (by omega) (ortho_fullRank hQ1) h2
      (fun i j hij => ?_) (le_of_eq (by rw [hbn])) (fun p h0 hp => ?_)) ?_
    · have := pos_range hij
      rw [if_pos this.2, Buf.shift, h4.outside _ (by omega), Buf.shift, show n * n + (-(n * n) + (i + j * n)) = i + j * n by ring]
      exact hv' _ (by omega) (by omega)
    · rw [if_pos h0, Buf.shift, show -(n * n) + (n * n + p) = p by ring]
      exact h4.inside p h0 hp
    rintro _ ⟨a4, r4, w4⟩ ⟨Q2, R2, ⟨hq1, hq2, hq3⟩, h6, h7, h8⟩
    dsimp only at h6 h7 h8 ⊢
    rw [M.wp_bind, M.wp_get, M.wp_zoom]
    dsimp only
    refine M.wp_mono (trmmLeftUpper_spec (R := R2) (b0 := r) hn0 hn0 (le_refl _) (le_refl _) (fun i j hij => ?_) h5) ?_
    · have hij' : InR n n i j := ⟨hij.1, by have := hij.2; omega, by have := hij.1; have := hij.2; omega, hij.2.2⟩
      rw [zero_add, if_pos (pos_range hij').2]
      exact h7.upper i j hij
    intro _ r5 h9
    have h9 : Upd n (InR n n) (prodEntry n R2 R1) r r5 := h9.congr fun i j _ => by
      refine Finset.sum_congr rfl fun k _ => ?_
      split
      · rfl
      · rw [hq2.1 i k (by omega)]
    refine ⟨Q2, prodEntry n R2 R1, hq1, upperPos_mul hq2 hQ2, fun i j hij => ?_, upd_holds h6, upd_sameOutside h6, upd_holds h9, upd_sameOutside h9⟩
    rw [← prodEntry_assoc, ← hQ3 i j hij]
    exact prodEntry_ext (fun k hk0 hk => hq3 i k ⟨hij.1, hij.2.1, hk0, hk⟩) (fun _ _ _ => rfl)
  rw [M.wp_when]
  refine ⟨fun h => ?_, fun h => ?_⟩
  · rw [M.wp_modify]
    refine key _ (fun p h0 hp => ?_)
    simp only [Vec.resize]
    rw [if_pos ⟨h0, hp⟩]
    split
    · rename_i h1; exact hv p h0 h1
    · simp
  · exact key v (fun p h0 hp => hv p h0 (by dsimp only at h; omega))

omit [IsStrictOrderedRing T] in
/-- An empty matrix is an error (the block size becomes 0), although the comment allows it. -/
theorem C64_empty_counterexample {sqrt : T → T} {m ldr b : Int} (hm : 0 ≤ m) (hl : 0 ≤ ldr) (hb : 0 < b) (s : CgsSt T) :
    (qrBlockCgs sqrt m 0 ldr b s).1 = .throw .require := by
  have e1 : syrkUpperTrans 0 m (1 : T) s.a 0 m 0 0 = pure () := by
    unfold syrkUpperTrans
    simp only [blasCheck, le_refl, if_true, hm]
    rw [M.forI_empty (le_refl _)]; rfl
  have e2 : cholQrOnce sqrt m 0 0 (s.a, s.w) = (.throw .require, (s.a, s.w)) := by
    unfold cholQrOnce
    rw [mul_zero, M.forI_empty (le_refl _)]
    refine (M.bind_ok (a := ()) (s' := (s.a, s.w)) rfl).trans ?_
    refine (M.bind_ok (m := M.get) (a := (s.a, s.w)) (s' := (s.a, s.w)) rfl).trans ?_
    refine (M.bind_ok (a := ()) (s' := (s.a, s.w)) (by rw [e1]; rfl)).trans ?_
    exact M.bind_throw (by unfold onSnd M.zoom; rw [C62_block_size_error (le_refl _)])
  unfold qrBlockCgs qrBlockCgsF
  rw [M.bind_ok (a := ()) (s' := s) (by unfold M.when; rw [if_neg (by omega)]; rfl),
    M.bind_ok (a := ()) (s' := s) (by simp [M.require, Res.require, M.lift, hl])]
  have hmin : min b 0 = 0 := min_eq_right hb.le
  simp only [hmin]
  rw [M.bind_throw (e := .require) (s' := s)]
  unfold onAW M.zoom cholQr
  rw [M.bind_throw e2]

omit [IsStrictOrderedRing T] in
/-- More columns than rows are an error, and nothing is changed. -/
theorem C64_wide_error {sqrt : T → T} {m n ldr b : Int} (h : m < n) (s : CgsSt T) :
    qrBlockCgs sqrt m n ldr b s = (.throw .runtime, s) := by
  unfold qrBlockCgs qrBlockCgsF
  rw [M.bind_throw (e := .runtime) (s' := s)]
  unfold M.when; rw [if_pos (by omega)]; rfl

/-- Non-vacuity: a 3 x 2 matrix with linearly independent columns, with its buffers. -/
example : FullColRank 3 2 (fun i j : Int => if i = j then (1 : ℝ) else if i = 2 then 5 else 0) ∧
    Holds (Buf.ofFn 6 fun p => if p = 0 ∨ p = 4 then (1 : ℝ) else if p = 2 ∨ p = 5 then 5 else 0) .ColMajor 3 3 2
      (fun i j => if i = j then (1 : ℝ) else if i = 2 then 5 else 0) ∧
    Alloc (Buf.alloc ℝ 4) .ColMajor 2 2 2 := by
  refine ⟨fun x hx j h0 hj => ?_, ?_, ?_⟩
  · have h1 := hx 0 (by norm_num) (by norm_num)
    have h2 := hx 1 (by norm_num) (by norm_num)
    simp [Finset.sum_range_succ] at h1 h2
    have : j = 0 ∨ j = 1 := by omega
    rcases this with rfl | rfl
    · exact h1
    · exact h2
  · rintro i j ⟨h1, h2, h3, h4⟩
    interval_cases i <;> interval_cases j <;> simp [Buf.ofFn, addr]
  · rintro i j ⟨h1, h2, h3, h4⟩
    interval_cases i <;> interval_cases j <;> simp [Buf.alloc, addr]

end RB
