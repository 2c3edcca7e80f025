import Verif.Lemmas.Qb
import Verif.Core.Doom
import Verif.Props.Tls

/-! # C72: from a QB decomposition to a singular value decomposition -/

namespace RB
open Spec

variable {T : Type}

theorem CvtSt.wp_onQ {α : Type} {t : CvtSt T} {P : α → CvtSt T → Prop} {m : M (Buf T) α} :
    M.wp (CvtSt.onQ m) t P ↔ M.wp m t.q (fun x b => P x { t with q := b }) := by unfold CvtSt.onQ; rw [M.wp_zoom]

section
variable [CommRing T] [LinearOrder T]

/-- Q U in the array of Q, given a copy of Q and the matrix U. -/
theorem qbGemm_spec {m k ldq : Int} (hm : 0 ≤ m) (hk : 0 ≤ k) (hl : m ≤ ldq) {q w u : Buf T} {w0 : Int} {Q U : Int → Int → T}
    (hq : HoldsC q ldq m k Q) (hw : ∀ i j, InR m k i j → w (w0 + (i + j * m)) = .val (Q i j)) (hu : ∀ i j, InR k k i j → u (i + j * k) = .val (U i j)) :
    M.wp (blasGemm .ColMajor .NoTrans .NoTrans m k k 1 w w0 m u 0 k 0 0 ldq) q (fun _ q' =>
      HoldsC q' ldq m k (prodEntry k Q U) ∧ SameOutside q q' .ColMajor ldq m k) := by
  have hal : Alloc q .ColMajor ldq m k := fun i j hij => by rw [hq i j hij]; simp
  refine M.wp_mono (blasGemm_spec (C := fun _ _ => 0) (Am := Q) (Bm := U) hm hk hk (by simp [LdOk, rowsOf]) (by simp [LdOk, rowsOf]) hl
    (fun _ i l hil => ?_) (fun _ l j hlj => ?_) hal (fun h => absurd rfl h)) ?_
  · rw [← hw i l hil]; simp [opIndex, strides_at, addr_colMajor]
  · rw [← hu l j hlj]; simp [opIndex, strides_at, addr_colMajor]
  · intro _ q' hM
    exact ⟨fun i j hij => by rw [hM.cells i j hij]; simp, hM.sameOutside⟩

/-- C72. `qb_to_svd` for Q with orthonormal columns and any k x n matrix B, 1 ≤ k < n: on exit Q, svals and B hold a singular value decomposition of
`Q B`. Only these and the first max(lwork, 0) elements of the work array change.

Missing: k ≥ n, and sizes of the work array with m k + k^2 ≤ lwork < m k + k^2 + k, for which the behaviour is undefined (below). -/
theorem C72_qb_to_svd_partial {svd : Int → Int → (Int → Int → T) → Svd T} {m n k ldq ldb lwork : Int} {t : CvtSt T} {Q B : Int → Int → T}
    (hk : 1 ≤ k) (hkn : k < n) (hm : 0 ≤ m) (hlq : m ≤ ldq) (hlb : k ≤ ldb) (hQ : HoldsC t.q ldq m k Q) (hB : HoldsC t.b ldb k n B)
    (ho : OrthoCols m k Q) (hs : ∀ i, 0 ≤ i → i < k → t.s i ≠ .none) (hw : ∀ i, 0 ≤ i → i < lwork → t.work i ≠ .none) (hsvd : SvdFor svd k n B)
    (hl : k * k ≤ lwork) (hl2 : lwork < m * k + k * k ∨ m * k + k * k + k ≤ lwork) :
    M.wp (qbToSvd svd m n k ldq ldb lwork) t (fun _ t' => ∃ F : Svd T, HoldsC t'.q ldq m k F.u ∧ HoldsVec t'.s k F.s ∧ HoldsC t'.b ldb k n F.vt ∧
      RankSvdIs m n k (prodEntry k Q B) F ∧
      SameOutside t.q t'.q .ColMajor ldq m k ∧ SameOutsideVec t.s t'.s k ∧ SameOutside t.b t'.b .ColMajor ldb k n ∧ SameOutsideVec t.work t'.work lwork) := by
  unfold qbToSvd
  simp only [M.wp_bind, M.wp_require]
  refine ⟨by omega, ?_⟩
  unfold qbSvdOfB
  rw [M.wp_zoom]
  have hkk : ∀ i j, InR k k i j → 0 ≤ i + j * k ∧ i + j * k < k * k := fun i j hij => pos_range hij
  refine M.wp_mono (gesdd_wide (A := B) hk hkn hlb le_rfl hk (fun i j hij => by rw [← addr_colMajor]; exact hB i j hij) hs
    (fun i j hij => hw _ (hkk i j hij).1 (by have := (hkk i j hij).2; omega))) ?_
  rintro _ ⟨b', s', w', vt'⟩ ⟨F0, F, hF0, rfl, ub, ⟨us, us'⟩, uw, -⟩
  dsimp only at ub us us' uw ⊢
  have hF := hsvd F0 hF0
  set F := svd k n F0 with hFdef
  have hmin : min k n = k := by omega
  have oU := hF.orthoU
  have oV := hF.orthoV
  have sN := hF.nonneg
  have sS := hF.sorted
  have sP := hF.prod
  rw [hmin] at oU oV sN sS sP
  have hww : ∀ i, 0 ≤ i → i < lwork → w' i ≠ .none := fun i h0 h1 => by
    by_cases h : ∃ a b, InR k k a b ∧ i = a + b * k
    · obtain ⟨a, b, hab, rfl⟩ := h
      rw [uw.cells a b hab]; simp
    · rw [uw.outside i (fun a b hab he => h ⟨a, b, hab, he⟩)]; exact hw i h0 h1
  have hwo : SameOutsideVec t.work w' lwork := fun p hp => uw.outside p fun a b hab he => by
    have := hkk a b hab; omega
  have hbC : HoldsC b' ldb k n F.vt := fun i j hij => by rw [addr_colMajor]; exact ub.cells i j hij
  have hbO : SameOutside t.b b' .ColMajor ldb k n := fun p hp => ub.outside p fun i j hij he => hp i j hij (by rw [addr_colMajor]; exact he)
  have hsvd' : RankSvdIs m n k (prodEntry k Q B) ⟨prodEntry k Q F.u, F.s, F.vt⟩ := by
    refine ⟨?_, oV, sN, sS, ?_⟩
    · rw [ortho_asM] at ho oU ⊢
      rw [asM_mul m k k, Matrix.transpose_mul, Matrix.mul_assoc, ← Matrix.mul_assoc _ (asM m k Q), ho, Matrix.one_mul, oU]
    · rw [← asM_eq] at sP ⊢
      rw [asM_mul k k n] at sP
      rw [asM_mul m k n, asM_mul m k n, ← sP, ← Matrix.mul_assoc, ← asM_mul m k k]
      congr 1
      refine asM_congr fun i j _ => ?_
      simp only [prodEntry, Finset.sum_mul, mul_assoc]
  have hU : ∀ i j, InR k k i j → w' (i + j * k) = .val (F.u i j) := uw.cells
  by_cases hc : lwork - k * k < m * k
  · rw [if_pos hc]
    unfold qbRotateHeap
    simp only [M.wp_bind, CvtSt.wp_onQ]
    refine M.wp_mono (readMat_spec hm (by omega) (fun i j hij => by rw [← addr_colMajor]; exact hQ i j hij)) ?_
    rintro A _ ⟨rfl, hA⟩
    rw [M.wp_onLocal]
    refine M.wp_mono (writeMat_spec hm (by omega) le_rfl (fun i j hij => by
      have := pos_range hij; rw [Buf.alloc, if_pos ⟨this.1, this.2⟩]; simp)) ?_
    intro _ w hW
    rw [M.wp_get]
    dsimp only
    refine M.wp_mono (qbGemm_spec hm (by omega) hlq hQ (fun i j hij => by rw [zero_add, hW.cells i j hij, hA i j hij]) hU) ?_
    rintro _ q' ⟨hq1, hq2⟩
    exact ⟨⟨prodEntry k Q F.u, F.s, F.vt⟩, hq1, us, hbC, hsvd', hq2, us', hbO, hwo⟩
  · rw [if_neg hc]
    unfold qbRotateWork
    simp only [M.wp_bind, CvtSt.wp_onQ]
    refine M.wp_mono (readMat_spec hm (by omega) (fun i j hij => by rw [← addr_colMajor]; exact hQ i j hij)) ?_
    rintro A _ ⟨rfl, hA⟩
    rw [M.wp_zoom, M.wp_at]
    have hlw : m * k + k * k + k ≤ lwork := by omega
    have hkk1 : k * (k + 1) = k * k + k := by ring
    have hkk0 : 0 ≤ k * k := mul_self_nonneg k
    refine M.wp_mono (writeMat_spec hm (by omega) le_rfl (fun i j hij => ?_)) ?_
    · have := pos_range hij
      exact hww _ (by omega) (by omega)
    intro _ w hW
    rw [M.wp_get]
    dsimp only
    refine M.wp_mono (qbGemm_spec hm (by omega) hlq hQ (U := F.u) (fun i j hij => ?_) (fun i j hij => ?_)) ?_
    · rw [Buf.shift, show -(k * (k + 1)) + (k * (k + 1) + (i + j * m)) = i + j * m by ring, hW.cells i j hij, hA i j hij]
    · have h1 := hkk i j hij
      rw [Buf.shift, hW.outside _ (fun a b hab he => by have := pos_range hab; omega), Buf.shift,
        show k * (k + 1) + (-(k * (k + 1)) + (i + j * k)) = i + j * k by ring]
      exact hU i j hij
    rintro _ q' ⟨hq1, hq2⟩
    refine ⟨⟨prodEntry k Q F.u, F.s, F.vt⟩, hq1, us, hbC, hsvd', hq2, us', hbO, fun p hp => ?_⟩
    rw [← hwo p hp, Buf.shift, hW.outside _ (fun a b hab he => by have := pos_range hab; omega), Buf.shift,
      show k * (k + 1) + (-(k * (k + 1)) + p) = p by ring]

end

/-- C72. If lwork is at least m k + k^2 but less than m k + k^2 + k and the work array has exactly lwork elements, the copy of Q is written beyond its end. -/
theorem C72_workspace_undefined [CommRing T] [LinearOrder T] {svd : Int → Int → (Int → Int → T) → Svd T} {m n k ldq ldb lwork : Int} {t : CvtSt T} {Q B : Int → Int → T}
    (hk : 1 ≤ k) (hkn : k < n) (hm : 1 ≤ m) (hlb : k ≤ ldb) (hQ : HoldsC t.q ldq m k Q) (hB : HoldsC t.b ldb k n B)
    (hs : ∀ i, 0 ≤ i → i < k → t.s i ≠ .none) (hw : ∀ i, 0 ≤ i → i < lwork → t.work i ≠ .none) (hw' : t.work lwork = .none)
    (hl1 : m * k + k * k ≤ lwork) (hl2 : lwork < m * k + k * k + k) :
    M.Undef (qbToSvd svd m n k ldq ldb lwork) t := by
  have hkk0 : 0 ≤ k * k := mul_self_nonneg k
  have hmk : k ≤ m * k := by nlinarith
  unfold qbToSvd
  refine M.Undef.after (M.wp_require.2 ⟨by omega, M.Undef.after ?_⟩)
  unfold qbSvdOfB
  rw [M.wp_zoom]
  have hkk : ∀ i j, InR k k i j → 0 ≤ i + j * k ∧ i + j * k < k * k := fun i j hij => pos_range hij
  refine M.wp_mono (gesdd_wide (A := B) hk hkn hlb le_rfl hk (fun i j hij => by rw [← addr_colMajor]; exact hB i j hij) hs
    (fun i j hij => hw _ (hkk i j hij).1 (by have := (hkk i j hij).2; omega))) ?_
  rintro _ ⟨b', s', w', vt'⟩ ⟨F0, F, hF0, rfl, ub, ⟨us, us'⟩, uw, -⟩
  dsimp only at ub us us' uw ⊢
  have hww : ∀ i, k * k ≤ i → w' i = t.work i := fun i h0 => uw.outside i fun a b hab he => by have := hkk a b hab; omega
  rw [if_neg (by omega)]
  unfold qbRotateWork
  refine M.Undef.after ?_
  rw [CvtSt.wp_onQ]
  refine M.wp_mono (readMat_spec (A := Q) (by omega) (by omega) (fun i j hij => by rw [← addr_colMajor]; exact hQ i j hij)) ?_
  rintro A _ ⟨rfl, hA⟩
  refine M.Undef.bind (M.Undef.zoom (M.Undef.zoom ?_))
  dsimp only
  have hkk1 : k * (k + 1) = k * k + k := by ring
  obtain ⟨r, hr⟩ : ∃ r, r = lwork - k * (k + 1) := ⟨_, rfl⟩
  have hI : ∀ p, 0 ≤ p → p < r → w'.shift (k * (k + 1)) p ≠ .none := fun p h0 h1 => by
    rw [Buf.shift, hww _ (by omega)]; exact hw _ (by omega) (by omega)
  have hN : w'.shift (k * (k + 1)) r = .none := by
    rw [Buf.shift, hww _ (by omega), show k * (k + 1) + r = lwork by omega, hw']
  generalize w'.shift (k * (k + 1)) = b0 at hI hN
  have hr0 : 0 ≤ r := by omega
  have hrm : r < m * k := by omega
  have hd0 : 0 ≤ r / m := Int.ediv_nonneg hr0 (by omega)
  have hd1 : r / m < k := Int.ediv_lt_of_lt_mul (by omega) (by rw [mul_comm]; exact hrm)
  have hdm : r % m + r / m * m = r := by rw [mul_comm]; exact Int.emod_add_mul_ediv r m
  have hwr : ∀ (b : Buf T) (p : Int) (v : T), ((∀ p, 0 ≤ p → p < r → b p ≠ .none) ∧ b r = .none) → 0 ≤ p → p < r →
      M.wp (M.wr p v) b (fun _ b => (∀ p, 0 ≤ p → p < r → b p ≠ .none) ∧ b r = .none) := fun b p v hb h0 h1 => by
    rw [M.wp_wr]
    refine ⟨hb.1 p h0 h1, fun x g0 g1 => ?_, by rw [Buf.set_ne (by omega)]; exact hb.2⟩
    by_cases hx : x = p
    · subst hx; rw [Buf.set_same]; simp
    · rw [Buf.set_ne hx]; exact hb.1 x g0 g1
  unfold writeMat
  refine M.Undef.forI (j := r / m) (fun _ b => (∀ p, 0 ≤ p → p < r → b p ≠ .none) ∧ b r = .none) hd0 hd1 ⟨hI, hN⟩ (fun j b h0 h1 hb => ?_) (fun b hb => ?_)
  · refine M.wp_forI (fun _ b => (∀ p, 0 ≤ p → p < r → b p ≠ .none) ∧ b r = .none) (by omega) hb (fun i b2 g0 g1 hb2 => ?_) (fun _ h => h)
    have : j * m + m ≤ r / m * m := by nlinarith
    have := Int.emod_nonneg r (show m ≠ 0 by omega)
    have := mul_nonneg h0 (show (0 : Int) ≤ m by omega)
    exact hwr b2 _ _ hb2 (by omega) (by omega)
  · refine M.Undef.forI (j := r % m) (fun _ b => (∀ p, 0 ≤ p → p < r → b p ≠ .none) ∧ b r = .none) (Int.emod_nonneg r (by omega)) (Int.emod_lt_of_pos r (by omega)) hb
      (fun i b2 h0 h1 hb2 => ?_) (fun b2 hb2 => ?_)
    · have := mul_nonneg hd0 (show (0 : Int) ≤ m by omega)
      exact hwr b2 _ _ hb2 (by omega) (by omega)
    · unfold M.Undef M.wr
      rw [hdm, hb2.2]

/-- C72. The call in the `main` functions of both programs: the work array is allocated with m k + k^2 elements, and k elements are written beyond its end. -/
theorem C72_main_undefined [CommRing T] [LinearOrder T] {svd : Int → Int → (Int → Int → T) → Svd T} {m n k : Int} {q s b : Buf T} {Q B : Int → Int → T}
    (hk : 1 ≤ k) (hkn : k < n) (hm : 1 ≤ m) (hQ : HoldsC q m m k Q) (hB : HoldsC b k k n B) (hs : ∀ i, 0 ≤ i → i < k → s i ≠ .none) :
    M.Undef (qbToSvd svd m n k m k (m * k + k * k)) ⟨q, s, b, Buf.alloc T (m * k + k * k)⟩ := by
  refine C72_workspace_undefined hk hkn hm le_rfl hQ hB hs (fun i h0 h1 => ?_) ?_ le_rfl (by omega)
  · dsimp only; rw [Buf.alloc, if_pos ⟨h0, h1⟩]; simp
  · dsimp only; rw [Buf.alloc, if_neg (by omega)]

/-- C72. For k ≥ n, the matrix VT is written to a null pointer. -/
theorem C72_null_undefined [CommRing T] [LinearOrder T] {svd : Int → Int → (Int → Int → T) → Svd T} {m n k ldq ldb lwork : Int} {t : CvtSt T} {B : Int → Int → T}
    (hn : 1 ≤ n) (hkn : n ≤ k) (hlb : k ≤ ldb) (hB : HoldsC t.b ldb k n B) (hs : ∀ i, 0 ≤ i → i < n → t.s i ≠ .none) (hl : k * k ≤ lwork) :
    M.Undef (qbToSvd svd m n k ldq ldb lwork) t := by
  unfold qbToSvd
  refine M.Undef.after (M.wp_require.2 ⟨by omega, M.Undef.bind ?_⟩)
  unfold qbSvdOfB
  refine M.Undef.zoom ?_
  have hA : ∀ i j, InR k n i j → t.b (i + j * ldb) = .val (B i j) := fun i j hij => by rw [← addr_colMajor]; exact hB i j hij
  unfold gesddOverwrite
  refine M.Undef.after (wp_blasCheck.2 ⟨by omega, M.Undef.after (wp_blasCheck.2 ⟨by omega, M.Undef.after (wp_blasCheck.2 ⟨by omega,
    M.Undef.after (wp_blasCheck.2 ⟨by omega, M.Undef.after (wp_blasCheck.2 ⟨by omega, M.Undef.after ?_⟩)⟩)⟩)⟩)⟩)
  rw [SvdSt.wp_onA]
  refine M.wp_mono (readMat_spec (by omega) (by omega) hA) ?_
  rintro F0 _ ⟨rfl, hF0⟩
  refine M.Undef.after ?_
  rw [SvdSt.wp_onA]
  refine M.wp_mono (writeMat_spec (by omega) (by omega) hlb (fun i j hij => by dsimp only; rw [hA i j hij]; simp)) ?_
  intro _ a1 _
  refine M.Undef.after ?_
  rw [SvdSt.wp_onS, min_eq_right (by omega)]
  refine M.wp_mono (writeVec_spec (by omega) hs) ?_
  intro _ s1 _
  rw [if_pos hkn]
  refine M.Undef.zoom (M.Undef.forI (j := 0) (fun k b => k = 0 → b = fun _ => .none) le_rfl (by omega) (fun _ => rfl) (fun i _ h0 h1 => by omega) ?_)
  intro b hb
  obtain rfl := hb rfl
  refine M.Undef.forI (j := 0) (fun k b => k = 0 → b = fun _ => .none) le_rfl (by omega) (fun _ => rfl) (fun i _ h0 h1 => by omega) ?_
  intro b hb
  obtain rfl := hb rfl
  rfl

/-- A work array of fewer than k^2 elements is reported by an exception. -/
theorem C72_workspace_error [CommRing T] [LinearOrder T] {svd : Int → Int → (Int → Int → T) → Svd T} {m n k ldq ldb lwork : Int} {t : CvtSt T}
    (hl : lwork < k * k) : qbToSvd svd m n k ldq ldb lwork t = (.throw .require, t) := by
  unfold qbToSvd
  refine M.bind_throw ?_
  simp [M.require, show ¬ k * k ≤ lwork by omega]
  rfl

/-- The hypotheses of C72 are met by the decomposition of a 1 x 2 matrix (3, 4) = 5 (3/5, 4/5) and a 2 x 1 matrix Q. -/
example : ∃ (svd : Int → Int → (Int → Int → ℚ) → Svd ℚ) (B : Int → Int → ℚ), SvdFor svd 1 2 B ∧ B 0 0 = 3 ∧ B 0 1 = 4 ∧
    HoldsC (Buf.ofList [3, 4]) 1 1 2 B ∧ OrthoCols 2 1 (fun i _ => if i = 0 then (3 / 5 : ℚ) else 4 / 5) ∧
    HoldsC (Buf.ofList [(3 / 5 : ℚ), 4 / 5]) 2 2 1 (fun i _ => if i = 0 then (3 / 5 : ℚ) else 4 / 5) := by
  refine ⟨fun _ _ _ => ⟨fun _ _ => 1, fun _ => 5, fun _ j => if j = 0 then 3 / 5 else 4 / 5⟩, fun _ j => if j = 0 then 3 else 4, ?_, rfl, rfl, ?_, ?_, ?_⟩
  · intro F _
    refine ⟨?_, ?_, ?_, ?_, ?_⟩
    · intro i j hij; obtain ⟨rfl, rfl⟩ : i = 0 ∧ j = 0 := by simp only [InR] at hij; omega
      dsimp only; decide +kernel
    · intro i j hij; obtain ⟨rfl, rfl⟩ : i = 0 ∧ j = 0 := by simp only [InR] at hij; omega
      dsimp only; decide +kernel
    · intro l _ _; norm_num
    · intro l _ _; exact le_rfl
    · intro i j hij
      obtain ⟨rfl, rfl | rfl⟩ : i = 0 ∧ (j = 0 ∨ j = 1) := by simp only [InR] at hij; omega
      · dsimp only; decide +kernel
      · dsimp only; decide +kernel
  · intro i j hij
    obtain ⟨rfl, rfl | rfl⟩ : i = 0 ∧ (j = 0 ∨ j = 1) := by simp only [InR] at hij; omega
    · rfl
    · rfl
  · intro i j hij; obtain ⟨rfl, rfl⟩ : i = 0 ∧ j = 0 := by simp only [InR] at hij; omega
    decide +kernel
  · intro i j hij
    obtain ⟨rfl | rfl, rfl⟩ : (i = 0 ∨ i = 1) ∧ j = 0 := by simp only [InR] at hij; omega
    · rfl
    · rfl

end RB
