import Verif.Lemmas.Qrcp
import Verif.Props.ColSwap
import Verif.Props.Spmm
import Verif.Props.Cholesky
import Verif.Lemmas.Qb
import Mathlib.Analysis.SpecialFunctions.Pow.Real

/-! # C74: from a sketch to a truncated QR decomposition with column pivoting -/

namespace RB
open Spec

variable {T : Type} [Field T] [LinearOrder T] [IsStrictOrderedRing T]

/-- C74. `sketch_to_tqrcp` for an m x n matrix A (CSC format, no position stored twice), where Y = S A for some k x m matrix S and the k rows of Y are independent.
On exit
* piv is a permutation of 1, ..., n, the one of a QR decomposition of Y with column pivoting,
* the k columns of Q are orthonormal, and A(:, piv(:k)) = Q R for an upper triangular matrix R with nonzero diagonal,
* Y = Q^T A(:, piv), and the first k columns of Y are upper triangular,
* only the entries of Q and Y and the first n elements of piv have changed.

Missing: a leading dimension of Y that is not k, repeated positions, and more than 2^31 rows (C32) or 2^31 - 1 columns (C73). -/
theorem C74_tqrcp_partial {env : Env T} (henv : EnvOk env) {sqrt : T → T} (hs : SqrtOk sqrt) {nb : Int} (hnb : 0 < nb)
    {qrcp : Int → Int → (Int → Int) → (Int → Int → T) → Qrcp T} {A : CscMat T} {E : List (Entry T)} {k ldq : Int} {S Y : Int → Int → T} {s : TqrSt T}
    (hA : CscIs A E) (hb : A.indexBase = .Zero) (hr : InRange A.nRows A.nCols E) (hnd : (E.map Entry.pos).Nodup)
    (hk : 1 ≤ k) (hkm : k ≤ A.nRows) (hkn : k ≤ A.nCols) (hm : A.nRows ≤ 2147483648) (hn : A.nCols < 2147483648) (hldq : A.nRows ≤ ldq)
    (hY : HoldsC s.y k k A.nCols Y) (hS : ∀ i j, InR k A.nCols i j → Y i j = prodEntry A.nRows S (toMat E) i j)
    (hrank : FullColRank A.nCols k (fun i j => Y j i)) (hqrcp : QrcpFor qrcp k A.nCols Y)
    (halq : Alloc s.q .ColMajor ldq A.nRows k) (halp : ∀ i, 0 ≤ i → i < A.nCols → s.piv i ≠ .none) :
    M.wp (sketchToTqrcp env sqrt nb qrcp A k ldq k) s (fun _ s' => ∃ (pi : Int → Int) (Q R Y' : Int → Int → T),
      (∃ F, QrcpIs k A.nCols Y F ∧ ∀ j, F.piv j = pi j + 1) ∧
      HoldsVec s'.piv A.nCols (fun j => pi j + 1) ∧
      (∀ j, 0 ≤ j → j < A.nCols → 0 ≤ pi j ∧ pi j < A.nCols) ∧ (∀ i j, 0 ≤ i → i < A.nCols → 0 ≤ j → j < A.nCols → pi i = pi j → i = j) ∧
      HoldsC s'.q ldq A.nRows k Q ∧ OrthoCols A.nRows k Q ∧
      (∀ i j, j < i → R i j = 0) ∧ (∀ i, 0 ≤ i → i < k → R i i ≠ 0) ∧
      (∀ i j, InR A.nRows k i j → toMat E i (pi j) = prodEntry k Q R i j) ∧
      HoldsC s'.y k k A.nCols Y' ∧
      (∀ i j, InR k A.nCols i j → Y' i j = prodEntry A.nRows (fun i j => Q j i) (fun i j => toMat E i (pi j)) i j) ∧
      (∀ i j, InR k k i j → j < i → Y' i j = 0) ∧
      SameOutside s.q s'.q .ColMajor ldq A.nRows k ∧ SameOutside s.y s'.y .ColMajor k k A.nCols ∧ SameOutsideVec s.piv s'.piv A.nCols) := by
  have hm1 : 1 ≤ A.nRows := by omega
  have hn1 : 1 ≤ A.nCols := by omega
  have hkk : 0 ≤ k := by omega
  have hnc : 0 ≤ A.nCols := by omega
  unfold sketchToTqrcp
  rw [M.wp_bind, TqrSt.wp_onPiv]
  refine M.wp_mono (writeVec_spec (x := fun _ => (0 : Int)) hnc halp) ?_
  rintro _ p0 ⟨hp0, hp0'⟩
  rw [M.wp_bind, M.wp_modify, M.wp_bind]
  refine M.wp_mono (geqp3_spec (Y := Y) hk hnc le_rfl hY hp0 hqrcp) ?_
  rintro _ _ ⟨F, y1, p1, hF, rfl, hy1, hp1, hp1'⟩
  have hdiag := qrcp_diag hF hkn hrank
  obtain ⟨sw, hsw, hpiv⟩ := hF.perm
  rw [min_eq_left hkn] at hsw hpiv
  obtain ⟨pi, hpi⟩ : ∃ pi : Int → Int, pi = fun j => F.piv j - 1 := ⟨_, rfl⟩
  have hpiF : ∀ j, F.piv j = pi j + 1 := fun j => by rw [hpi]; ring
  have hpisw : ∀ j, 0 ≤ j → j < A.nCols → pi j = swapSeq sw k.toNat j := fun j h0 h1 => by rw [hpi]; dsimp only; rw [hpiv j h0 h1]; ring
  have hpir : ∀ j, 0 ≤ j → j < A.nCols → 0 ≤ pi j ∧ pi j < A.nCols := fun j h0 h1 => by
    rw [hpisw j h0 h1]
    exact swapSeq_range (by omega) (fun i g0 g1 => hsw i g0 (by omega)) j h0 h1
  have hpinj : ∀ i j, 0 ≤ i → i < A.nCols → 0 ≤ j → j < A.nCols → pi i = pi j → i = j := fun i j h0 h1 g0 g1 he => by
    rw [hpisw i h0 h1, hpisw j g0 g1] at he
    exact swapSeq_inj he
  have halq' : ∀ r c, InR A.nRows k r c → s.q (r + c * ldq) ≠ .none := fun r c h => by rw [← addr_colMajor]; exact halq r c h
  -- step 2
  rw [M.wp_bind]
  refine M.wp_forI (fun j s' => ∃ q', s' = { s with y := y1, piv := p1, pre := Buf.fill (k * k) 0, q := q' } ∧
    Upd ldq (InR A.nRows j) (fun r c => overwrite E r (pi c)) s.q q') hkk ⟨s.q, rfl, fun i j h => by have := h.2.2; omega, fun _ _ => rfl⟩ ?_ ?_
  · rintro j _ h0 h1 ⟨q', rfl, hq'⟩
    refine M.wp_mono (tqrCopyCol_spec (pi := pi) hA hb hr (by omega) hldq h0 h1 (by dsimp only; rw [hp1 j h0 (by omega), hpiF]) (hpir j h0 (by omega)) halq' hq') ?_
    rintro _ _ ⟨q2, rfl, hq2⟩
    exact ⟨q2, rfl, hq2⟩
  rintro _ ⟨q1, rfl, hq1⟩
  have hq1 := hq1.congr (X' := fun r c => toMat E r (pi c)) fun r c _ => overwrite_eq_toMat hnd r (pi c)
  -- the preconditioner
  rw [M.wp_bind]
  refine M.wp_mono (tqrPrecond_spec (Y := F.f) hkk (fun i j hij => hy1.cells i j ⟨hij.1, hij.2.1, hij.2.2.1, by have := hij.2.2.2; omega⟩) (fun i j hij => ?_)) ?_
  · have := pos_range hij
    dsimp only
    rw [Buf.fill, if_pos ⟨this.1, this.2⟩]; simp
  rintro _ _ ⟨r1, rfl, hr1⟩
  dsimp only at hr1
  -- apply the preconditioner
  rw [M.wp_bind, M.wp_get, M.wp_bind, TqrSt.wp_onQ]
  obtain ⟨R1, hR1⟩ : ∃ R1 : Int → Int → T, R1 = fun l j => if l ≤ j then F.f l j else 0 := ⟨_, rfl⟩
  have hR1up : ∀ i j, j < i → R1 i j = 0 := fun i j h => by rw [hR1]; exact if_neg (by omega)
  have hR1d : ∀ i, 0 ≤ i → i < k → R1 i i ≠ 0 := fun i h0 h1 => by rw [hR1]; dsimp only; rw [if_pos le_rfl]; exact hdiag i h0 h1
  refine M.wp_mono (trsmRightUpper_spec (R := R1) (by omega) hkk le_rfl hldq (fun i j hij => ?_) hq1) ?_
  · obtain ⟨h1, h2, h3⟩ := hij
    rw [zero_add]; dsimp only; rw [hr1.cells i j ⟨h1, by omega, by omega, h3⟩, hR1]; dsimp only; rw [if_pos h2]
  intro _ q2 hq2
  obtain ⟨Q1, hQ1⟩ : ∃ Q1 : Int → Int → T, Q1 = fun i j => rsubF R1 (fun r c => toMat E r (pi c)) j.toNat i := ⟨_, rfl⟩
  have hQ1R : ∀ i j, 0 ≤ j → j < k → prodEntry k Q1 R1 i j = toMat E i (pi j) := fun i j h0 h1 => by
    rw [hQ1]; exact rsub_mul hR1up hR1d h0 h1
  rw [← hQ1] at hq2
  have hfr : FullColRank A.nRows k Q1 := precond_fullRank hF hkn hS hdiag fun i j hij => by
    rw [← hR1, hQ1R i j hij.2.2.1 hij.2.2.2, hpi]
  -- Cholesky
  rw [M.wp_bind, M.wp_get, M.wp_bind, TqrSt.wp_onPre]
  dsimp only
  refine M.wp_mono (syrkUpperTrans_spec (A := Q1) (C := F.f) (b0 := r1) hkk (by omega) hldq le_rfl (fun i j hij => by rw [zero_add]; exact hq2.cells i j hij)
    (Upd.refl fun i j hij => hr1.cells i j ⟨hij.1, by have := hij.2; omega, by have := hij.1; have := hij.2; omega, hij.2.2⟩)) ?_
  intro _ r2 hr2
  have hr2 := hr2.congr (X' := prodEntry A.nRows (fun r c => Q1 c r) Q1) (fun i j _ => by simp [prodEntry])
  rw [M.wp_bind, TqrSt.wp_onPre]
  unfold lapackPotrf
  simp only [M.wp_bind, wp_blasCheck]
  refine ⟨hkk, by omega, ?_⟩
  refine M.wp_mono (potrf_posDef hs hkk le_rfl hnb hr2.cells (gram_posDef hfr)) ?_
  rintro _ r3 ⟨R2, hR2, hG, hr3⟩
  rw [M.wp_get, TqrSt.wp_onQ]
  refine M.wp_mono (trsmRightUpper_spec (R := R2) (by omega) hkk le_rfl hldq (fun i j hij => by rw [zero_add]; exact hr3.cells i j hij) hq2) ?_
  intro _ q3 hq3
  obtain ⟨Q2, hQ2⟩ : ∃ Q2 : Int → Int → T, Q2 = fun i j => rsubF R2 Q1 j.toNat i := ⟨_, rfl⟩
  have hQ2R : ∀ i j, 0 ≤ j → j < k → prodEntry k Q2 R2 i j = Q1 i j := fun i j h0 h1 => by
    rw [hQ2]; exact rsub_mul hR2.1 (fun i h0 h1 => (hR2.2 i h0 h1).ne') h0 h1
  rw [← hQ2] at hq3
  have hort : OrthoCols A.nRows k Q2 := ortho_of_factor hR2 (A := Q1) (fun i j hij => by
    rw [hG i j hij]; unfold symU; split
    · rfl
    · exact prodEntry_trans A.nRows (fun r c => Q1 c r) Q1 i j) (fun i j hij => hQ2R i j hij.2.2.1 hij.2.2.2)
  -- the product
  rw [M.wp_get, M.wp_zoom]
  refine M.wp_mono (C32_right_spmm_partial (C := fun _ _ => 0) (Am := Q2) henv (B := .csc A) (E := E) hA hb hr (fun _ => ?_)
    (windowOk_whole rfl rfl) hkk hnc (by omega) hldq (le_refl (k : Int)) (fun _ i j hij => by rw [addr_colMajor]; exact hq3.cells i j hij)
    (fun i j hij => by rw [addr_colMajor]; dsimp only; rw [hy1.cells i j hij]; simp) (fun h => absurd rfl h)) ?_
  · show Supported (.csc A) .Trans .RowMajor .Trans A.nCols A.nRows ((window 0 0 A.nRows A.nCols E).map Entry.swap)
    rw [window_whole hr]
    simp only [Supported]
    rw [if_neg (by simp)]
    intro e he
    obtain ⟨e', he', rfl⟩ := List.mem_map.1 he
    have := hr e' he'
    show e'.row < 2 ^ 31
    omega
  rintro _ ⟨A', y2⟩ ⟨g1, g2, -, -⟩
  dsimp only at g1 g2
  rw [TqrSt.wp_onY]
  dsimp only
  have g1' : HoldsC y2 k k A.nCols (prodEntry A.nRows (fun i j => Q2 j i) (toMat E)) := fun i j hij => by
    rw [g1 i j hij]
    simp only [one_mul, zero_mul, add_zero]
    congr 2
    funext i j; simp [opMat, subMat]
  refine M.wp_mono (C73_col_swap_partial (x := fun j => pi j + 1) hkk le_rfl hkk hkn g1' (fun j h0 h1 => by rw [hp1 j h0 h1, hpiF])
    (fun j h0 h1 => by have := hpir j h0 (by omega); omega) (fun i j h0 h1 g0 g1 he => hpinj i j h0 (by omega) g0 (by omega) (by omega)) hn) ?_
  rintro _ y3 ⟨t, ht, hto, -, -, -, ht'⟩
  have ht' := ht' sw hsw fun q h0 h1 => by rw [add_sub_cancel_right, hpisw q h0 h1]
  have hRup : ∀ i j, j < i → prodEntry k R2 R1 i j = 0 := by
    intro i j hji
    unfold prodEntry
    refine Finset.sum_eq_zero fun l _ => ?_
    rcases lt_or_ge (l : Int) i with h | h
    · rw [hR2.1 i l h, zero_mul]
    · rw [hR1up l j (by omega), mul_zero]
  have hfac : ∀ i j, 0 ≤ j → j < k → toMat E i (pi j) = prodEntry k Q2 (prodEntry k R2 R1) i j := fun i j h0 h1 => by
    rw [← prodEntry_assoc, ← hQ1R i j h0 h1]
    exact prodEntry_ext (fun l l0 l1 => (hQ2R i l l0 l1).symm) (fun _ _ _ => rfl)
  have hYe : ∀ i j, 0 ≤ j → j < A.nCols → prodEntry A.nRows (fun i j => Q2 j i) (toMat E) i (t j) =
      prodEntry A.nRows (fun i j => Q2 j i) (fun i j => toMat E i (pi j)) i j := fun i j h0 h1 => by
    rw [ht' j h0 h1, add_sub_cancel_right]; rfl
  refine ⟨pi, Q2, prodEntry k R2 R1, fun i j => prodEntry A.nRows (fun i j => Q2 j i) (toMat E) i (t j), ⟨F, hF, hpiF⟩, fun j h0 h1 => by dsimp only; rw [hp1 j h0 h1, hpiF], hpir, hpinj,
    fun i j hij => by rw [addr_colMajor]; exact hq3.cells i j hij, hort, hRup, ?_, fun i j hij => hfac i j hij.2.2.1 hij.2.2.2, ht,
    fun i j hij => hYe i j hij.2.2.1 hij.2.2.2, ?_, ?_, ?_, fun x hx => (hp1' x hx).trans (hp0' x hx)⟩
  · intro i h0 h1
    have : prodEntry k R2 R1 i i = R2 i i * R1 i i := by
      unfold prodEntry
      rw [Finset.sum_eq_single i.toNat]
      · rw [show ((i.toNat : Nat) : Int) = i by omega]
      · intro l _ hl
        rcases lt_or_ge (l : Int) i with h | h
        · rw [hR2.1 i l h, zero_mul]
        · rw [hR1up l i (by omega), mul_zero]
      · intro h; exact absurd (Finset.mem_range.2 (by omega)) h
    rw [this]
    exact mul_ne_zero (hR2.2 i h0 h1).ne' (hR1d i h0 h1)
  · intro i j hij hji
    dsimp only
    rw [hYe i j hij.2.2.1 (by have := hij.2.2.2; omega)]
    have e1 : prodEntry A.nRows (fun i j => Q2 j i) (fun i j => toMat E i (pi j)) i j =
        prodEntry A.nRows (fun i j => Q2 j i) (prodEntry k Q2 (prodEntry k R2 R1)) i j :=
      prodEntry_ext (fun _ _ _ => rfl) (fun l _ _ => hfac l j hij.2.2.1 hij.2.2.2)
    have e2 : prodEntry k (prodEntry A.nRows (fun i j => Q2 j i) Q2) (prodEntry k R2 R1) i j =
        prodEntry k (fun r c => if r = c then 1 else 0) (prodEntry k R2 R1) i j :=
      prodEntry_ext (fun l l0 l1 => hort i l ⟨hij.1, hij.2.1, l0, l1⟩) (fun _ _ _ => rfl)
    rw [e1, ← prodEntry_assoc, e2, prodEntry_one_left _ _ hij.1 hij.2.1, hRup i j hji]
  · intro x hx
    exact hq3.outside x fun i j hij he => hx i j hij (by rw [addr_colMajor]; exact he)
  · intro x hx
    rw [hto x hx, g2 x hx]
    exact hy1.outside x fun i j hij he => hx i j hij (by rw [addr_colMajor]; exact he)

omit [IsStrictOrderedRing T] in
/-- `sketch_to_tqrcp` reads the leading k x k block of Y as if its leading dimension were k: if it is larger, k ≥ 2, and the unused elements between the
columns are not initialised, the behaviour is undefined. -/
theorem C74_ldy_undefined {env : Env T} {sqrt : T → T} {nb : Int} {qrcp : Int → Int → (Int → Int) → (Int → Int → T) → Qrcp T} {A : CscMat T}
    {E : List (Entry T)} {k ldq ldy : Int} {Y : Int → Int → T} {s : TqrSt T} (hA : CscIs A E) (hb : A.indexBase = .Zero) (hr : InRange A.nRows A.nCols E)
    (hm : 0 ≤ A.nRows) (hk : 2 ≤ k) (hkn : k ≤ A.nCols) (hldq : A.nRows ≤ ldq) (hldy : k < ldy) (hY : HoldsC s.y ldy k A.nCols Y) (hpad : s.y k = .uninit)
    (hqrcp : QrcpFor qrcp k A.nCols Y) (halq : Alloc s.q .ColMajor ldq A.nRows k) (halp : ∀ i, 0 ≤ i → i < A.nCols → s.piv i ≠ .none) :
    M.Undef (sketchToTqrcp env sqrt nb qrcp A k ldq ldy) s := by
  have hnc : 0 ≤ A.nCols := by omega
  unfold sketchToTqrcp
  refine M.Undef.after ?_
  rw [TqrSt.wp_onPiv]
  refine M.wp_mono (writeVec_spec (x := fun _ => (0 : Int)) hnc halp) ?_
  rintro _ p0 ⟨hp0, hp0'⟩
  refine M.Undef.after ?_
  rw [M.wp_modify]
  refine M.Undef.after ?_
  refine M.wp_mono (geqp3_spec (Y := Y) (by omega) hnc hldy.le hY hp0 hqrcp) ?_
  rintro _ _ ⟨F, y1, p1, hF, rfl, hy1, hp1, -⟩
  obtain ⟨sw, hsw, hpiv⟩ := hF.perm
  rw [min_eq_left hkn] at hsw hpiv
  have hpir : ∀ j, 0 ≤ j → j < A.nCols → 0 ≤ F.piv j - 1 ∧ F.piv j - 1 < A.nCols := fun j h0 h1 => by
    rw [hpiv j h0 h1, add_sub_cancel_right]
    exact swapSeq_range (by omega) (fun i g0 g1 => hsw i g0 (by omega)) j h0 h1
  have halq' : ∀ r c, InR A.nRows k r c → s.q (r + c * ldq) ≠ .none := fun r c h => by rw [← addr_colMajor]; exact halq r c h
  refine M.Undef.after ?_
  refine M.wp_forI (fun j s' => ∃ q', s' = { s with y := y1, piv := p1, pre := Buf.fill (k * k) 0, q := q' } ∧
    Upd ldq (InR A.nRows j) (fun r c => overwrite E r (F.piv c - 1)) s.q q') (by omega) ⟨s.q, rfl, fun i j h => by have := h.2.2; omega, fun _ _ => rfl⟩ ?_ ?_
  · rintro j _ h0 h1 ⟨q', rfl, hq'⟩
    refine M.wp_mono (tqrCopyCol_spec (pi := fun j => F.piv j - 1) hA hb hr hm hldq h0 h1
      (by dsimp only; rw [hp1 j h0 (by omega), sub_add_cancel]) (hpir j h0 (by omega)) halq' hq') ?_
    rintro _ _ ⟨q2, rfl, hq2⟩
    exact ⟨q2, rfl, hq2⟩
  rintro _ ⟨q1, rfl, hq1⟩
  refine M.Undef.bind ?_
  unfold tqrPrecond
  have hyk : y1 k = .uninit := by
    rw [hy1.outside k ?_]; · exact hpad
    intro i j hij he
    obtain ⟨h1, h2, h3, h4⟩ := hij
    rcases eq_or_lt_of_le h3 with h | h
    · subst h; omega
    · have : 1 * ldy ≤ j * ldy := Int.mul_le_mul_of_nonneg_right (by omega) (by omega)
      omega
  have hal : ∀ x : Int, 0 ≤ x → x < k * k → Buf.fill (T := T) (k * k) 0 x ≠ .none := fun x h0 h1 => by simp [Buf.fill, h0, h1]
  have hkk : k * 1 ≤ k * k := Int.mul_le_mul_of_nonneg_left (by omega) (by omega)
  refine M.Undef.forI (j := 1) (fun _ s' => s'.y = y1 ∧ ∀ x : Int, 0 ≤ x → x < k * k → s'.pre x ≠ .none) (by omega) (by omega) ⟨rfl, hal⟩
    (fun j s1 h0 h1 hy => ?_) (fun s1 hy => ?_)
  · obtain rfl : j = 0 := by omega
    refine M.wp_forI (fun _ s' => s'.y = y1 ∧ ∀ x : Int, 0 ≤ x → x < k * k → s'.pre x ≠ .none) (by omega) hy ?_ (fun _ h => h)
    rintro i s2 i0 i1 ⟨g1, g2⟩
    rw [M.wp_bind, TqrSt.wp_onY, M.wp_rd]
    have hc := hy1.cells i 0 ⟨i0, i1, le_rfl, by omega⟩
    rw [zero_mul] at hc
    refine ⟨F.f i 0, by rw [g1, mul_zero]; exact hc, ?_⟩
    rw [TqrSt.wp_onPre, M.wp_wr]
    refine ⟨g2 _ (by omega) (by omega), g1, fun x h0 h1 => ?_⟩
    dsimp only
    by_cases hx : x = i + k * 0
    · rw [hx, Buf.set_same]; simp
    · rw [Buf.set_ne hx]; exact g2 x h0 h1
  · refine M.Undef.forI (j := 0) (fun _ s' => s' = s1) le_rfl (by omega) rfl (fun i _ h0 h1 => by omega) ?_
    intro s2 hs2
    rw [hs2]
    refine M.Undef.bind ?_
    unfold TqrSt.onY
    refine M.Undef.zoom ?_
    show (M.rd (0 + k * 1) s1.y).1 = .ub
    rw [hy.1, zero_add, mul_one]
    simp [M.rd, Buf.rd, hyk]

/-- The hypotheses are met by a 2 x 2 matrix and Y with leading dimension 3. -/
example : HoldsC (fun x => if x = 0 ∨ x = 4 then .val (1 : ℚ) else if x = 1 ∨ x = 3 then .val 0 else if x = 2 then .uninit else .none) 3 2 2
    (fun i j => if i = j then 1 else 0) := by
  rintro i j ⟨h1, h2, h3, h4⟩
  rw [addr_colMajor]
  have hi : i = 0 ∨ i = 1 := by omega
  have hj : j = 0 ∨ j = 1 := by omega
  rcases hi with rfl | rfl <;> rcases hj with rfl | rfl <;> simp

/-- The QR decomposition without exchanges of a matrix that is already upper triangular. -/
def trivialQrcp : Int → Int → (Int → Int) → (Int → Int → T) → Qrcp T := fun _ _ _ A => ⟨fun j => j + 1, A⟩

/-- If an entry of the matrix is stored in two parts, `sketch_to_tqrcp` takes one part only. Here A is the column (1 + 3, 4)^T, but Q is the normalised vector
(3, 4)^T / 5, which does not span the column. (The square root is only taken of 25 / 16.) -/
theorem C74_duplicate_counterexample :
    CscIs (cscOf 2 1 [0, 3] [⟨0, 0, (1 : ℚ)⟩, ⟨0, 0, 3⟩, ⟨1, 0, 4⟩]) [⟨0, 0, 1⟩, ⟨0, 0, 3⟩, ⟨1, 0, 4⟩] ∧
    (toMat [⟨0, 0, (1 : ℚ)⟩, ⟨0, 0, 3⟩, ⟨1, 0, 4⟩] 0 0 = 4 ∧ toMat [⟨0, 0, (1 : ℚ)⟩, ⟨0, 0, 3⟩, ⟨1, 0, 4⟩] 1 0 = 4) ∧
    M.wp (sketchToTqrcp (T := ℚ) ⟨fun lt l => l.mergeSort fun a b => !lt b a, [], 4⟩ (fun x => if x = 25 / 16 then 5 / 4 else 0) 1 trivialQrcp
      (cscOf 2 1 [0, 3] [⟨0, 0, (1 : ℚ)⟩, ⟨0, 0, 3⟩, ⟨1, 0, 4⟩]) 1 2 1) ⟨Buf.alloc ℚ 2, Buf.ofList [4], Buf.alloc ℤ 1, Buf.alloc ℚ 0⟩
      (fun _ s' => s'.q 0 = .val (3 / 5) ∧ s'.q 1 = .val (4 / 5)) := by
  refine ⟨⟨rfl, csIs_ofList (n := 1) rfl rfl rfl (by decide) (by decide)⟩, ⟨by simp [toMat]; norm_num, by simp [toMat]⟩, ?_⟩
  have h1 : (sketchToTqrcp (T := ℚ) ⟨fun lt l => l.mergeSort fun a b => !lt b a, [], 4⟩ (fun x => if x = 25 / 16 then 5 / 4 else 0) 1 trivialQrcp
      (cscOf 2 1 [0, 3] [⟨0, 0, (1 : ℚ)⟩, ⟨0, 0, 3⟩, ⟨1, 0, 4⟩]) 1 2 1 ⟨Buf.alloc ℚ 2, Buf.ofList [4], Buf.alloc ℤ 1, Buf.alloc ℚ 0⟩).1 = .ok () := by decide +kernel
  have h2 : (sketchToTqrcp (T := ℚ) ⟨fun lt l => l.mergeSort fun a b => !lt b a, [], 4⟩ (fun x => if x = 25 / 16 then 5 / 4 else 0) 1 trivialQrcp
      (cscOf 2 1 [0, 3] [⟨0, 0, (1 : ℚ)⟩, ⟨0, 0, 3⟩, ⟨1, 0, 4⟩]) 1 2 1 ⟨Buf.alloc ℚ 2, Buf.ofList [4], Buf.alloc ℤ 1, Buf.alloc ℚ 0⟩).2.q 0 = .val (3 / 5) := by decide +kernel
  have h3 : (sketchToTqrcp (T := ℚ) ⟨fun lt l => l.mergeSort fun a b => !lt b a, [], 4⟩ (fun x => if x = 25 / 16 then 5 / 4 else 0) 1 trivialQrcp
      (cscOf 2 1 [0, 3] [⟨0, 0, (1 : ℚ)⟩, ⟨0, 0, 3⟩, ⟨1, 0, 4⟩]) 1 2 1 ⟨Buf.alloc ℚ 2, Buf.ofList [4], Buf.alloc ℤ 1, Buf.alloc ℚ 0⟩).2.q 1 = .val (4 / 5) := by decide +kernel
  exact ⟨(), _, Prod.ext h1 rfl, h2, h3⟩

/-- The hypotheses of C74 are met by the 2 x 2 matrix with rows (0, 2) and (1, 0), with k = 2, where the columns have to be exchanged. -/
example : ∃ (qrcp : Int → Int → (Int → Int) → (Int → Int → ℝ) → Qrcp ℝ) (A : CscMat ℝ) (E : List (Entry ℝ)) (S Y : Int → Int → ℝ) (s : TqrSt ℝ),
    EnvOk (⟨fun lt l => l.mergeSort fun a b => !lt b a, [], 4⟩ : Env ℝ) ∧ SqrtOk Real.sqrt ∧ CscIs A E ∧ A.indexBase = .Zero ∧ InRange A.nRows A.nCols E ∧
    A.nRows = 2 ∧ A.nCols = 2 ∧ (E.map Entry.pos).Nodup ∧ HoldsC s.y 2 2 2 Y ∧ (∀ i j, InR 2 2 i j → Y i j = prodEntry 2 S (toMat E) i j) ∧
    FullColRank 2 2 (fun i j => Y j i) ∧ QrcpFor qrcp 2 2 Y ∧ Alloc s.q .ColMajor 3 2 2 ∧ (∀ i, 0 ≤ i → i < 2 → s.piv i ≠ .none) := by
  have hcases : ∀ i : Int, 0 ≤ i → i < 2 → i = 0 ∨ i = 1 := fun i h0 h1 => by omega
  have hY : ∀ i j : Int, (if i = 0 ∧ j = 1 then (2 : ℝ) else if i = 1 ∧ j = 0 then 1 else 0) = toMat [⟨1, 0, (1 : ℝ)⟩, ⟨0, 1, 2⟩] i j := fun i j => by
    simp only [toMat, List.filter_cons, List.filter_nil]
    by_cases h1 : i = 0 ∧ j = 1
    · obtain ⟨rfl, rfl⟩ := h1; simp
    · rw [if_neg h1]
      by_cases h2 : i = 1 ∧ j = 0
      · obtain ⟨rfl, rfl⟩ := h2; simp
      · rw [if_neg h2, if_neg (by simp; omega), if_neg (by simp; omega)]; simp
  refine ⟨fun _ _ _ _ => ⟨fun j => if j = 0 then 2 else 1, fun i j => if i = 0 ∧ j = 0 then 2 else if i = 1 ∧ j = 1 then 1 else 0⟩,
    cscOf 2 2 [0, 1, 2] [⟨1, 0, 1⟩, ⟨0, 1, 2⟩], [⟨1, 0, 1⟩, ⟨0, 1, 2⟩], fun i j => if i = j then 1 else 0,
    fun i j => if i = 0 ∧ j = 1 then 2 else if i = 1 ∧ j = 0 then 1 else 0, ⟨Buf.alloc ℝ 6, Buf.ofList [0, 1, 2, 0], Buf.alloc ℤ 2, Buf.alloc ℝ 0⟩,
    ⟨mergeSort_sortOk, by norm_num⟩, sqrtOk_real, ⟨rfl, csIs_ofList (n := 2) rfl rfl rfl (by decide) (by decide)⟩, rfl, by simp [InRange, cscOf], rfl, rfl,
    by simp [Entry.pos], ?_, ?_, ?_, ?_, ?_, fun i h0 h1 => by simp [Buf.alloc, h0, h1]⟩
  · rintro i j ⟨h1, h2, h3, h4⟩
    rw [addr_colMajor]
    rcases hcases i h1 h2 with rfl | rfl <;> rcases hcases j h3 h4 with rfl | rfl <;> simp [Buf.ofList]
  · intro i j hij
    rw [prodEntry_one_left _ _ hij.1 hij.2.1]
    exact hY i j
  · intro x hx
    have e0 := hx 0 (by norm_num) (by norm_num)
    have e1 := hx 1 (by norm_num) (by norm_num)
    simp at e0 e1
    intro i h0 h1
    rcases hcases i h0 h1 with rfl | rfl
    · exact e1
    · exact e0
  · intro p F _ hF
    refine ⟨⟨fun i => if i = 0 then 1 else i, ?_, ?_⟩, ⟨fun i j => if i = j then 1 else 0, ?_, ?_⟩, ?_⟩
    · intro i h0 h1
      rcases hcases i h0 (by simpa using h1) with rfl | rfl <;> simp
    · intro q h0 h1
      rcases hcases q h0 h1 with rfl | rfl
      · show (2 : Int) = swapSeq (fun i => if i = 0 then 1 else i) 2 0 + 1; decide
      · show (1 : Int) = swapSeq (fun i => if i = 0 then 1 else i) 2 1 + 1; decide
    · intro i j hij
      rw [show (fun r c : Int => (fun i j : Int => if i = j then (1 : ℝ) else 0) c r) = fun r c => if r = c then 1 else 0 by
        funext r c; simp only [eq_comm (a := c)], prodEntry_one_left _ _ hij.1 hij.2.1]
    · intro i j hij
      obtain ⟨h1, h2, h3, h4⟩ := hij
      rw [prodEntry_one_left _ _ h1 h2]
      rcases hcases i h1 h2 with rfl | rfl <;> rcases hcases j h3 h4 with rfl | rfl <;> simp
    · intro j c h0 h1 h2 h3
      rcases hcases j h0 h1 with rfl | rfl <;> rcases hcases c (by omega) h3 with rfl | rfl <;> simp [Finset.sum_range_succ]
  · rintro i j ⟨h1, h2, h3, h4⟩
    rw [addr_colMajor]
    simp only [Buf.alloc]
    rw [if_pos (by omega)]; simp

end RB
