import Verif.Props.Stab
import Verif.Props.Tqrcp
import Verif.Lemmas.LqExists

/-! # C78, C79: power iteration for a sketch, and the whole program -/

namespace RB
open Spec

variable {T : Type} {N : Nat} {K W WS R : Type} [Field T] [LinearOrder T] [IsStrictOrderedRing T] [Field R] [LinearOrder R] [IsStrictOrderedRing R] [FloorRing R]

section
variable {α : Type} {t : PowSt T} {Q : α → PowSt T → Prop}
omit [Field T] [LinearOrder T] [IsStrictOrderedRing T]
theorem PowSt.wp_onY {m : M (Buf T) α} : M.wp (PowSt.onY m) t Q ↔ M.wp m t.y (fun x b => Q x { t with y := b }) := by unfold PowSt.onY; rw [M.wp_zoom]
theorem PowSt.wp_onW {m : M (Buf T) α} : M.wp (PowSt.onW m) t Q ↔ M.wp m t.w (fun x b => Q x { t with w := b }) := by unfold PowSt.onW; rw [M.wp_zoom]
theorem PowSt.wp_stabY {m : M (StabSt T) α} : M.wp (PowSt.stabY m) t Q ↔
    M.wp m ⟨t.y, t.piv, t.tau, t.sk⟩ (fun x r => Q x { t with y := r.a, piv := r.piv, tau := r.tau, sk := r.sk }) := by unfold PowSt.stabY; rw [M.wp_zoom]
theorem PowSt.wp_stabW {m : M (StabSt T) α} : M.wp (PowSt.stabW m) t Q ↔
    M.wp m ⟨t.w, t.piv, t.tau, t.sk⟩ (fun x r => Q x { t with w := r.a, piv := r.piv, tau := r.tau, sk := r.sk }) := by unfold PowSt.stabW; rw [M.wp_zoom]
end

/-- The arrays during a run. -/
structure PowInv (m n k : Int) (t0 t : PowSt T) : Prop where
  y : Alloc t.y .ColMajor k k n
  w : Alloc t.w .ColMajor k k m
  fy : SameOutside t0.y t.y .ColMajor k k n
  fw : SameOutside t0.w t.w .ColMajor k k m
  tau : ∀ i, 0 ≤ i → i < k → t.tau i ≠ .none
  sk : Alloc t.sk .ColMajor k k ((5 * k + 4) / 4)

omit [Field T] [LinearOrder T] [IsStrictOrderedRing T] in
theorem holdsC_alloc {b : Buf T} {ld m n : Int} {X : Int → Int → T} (h : HoldsC b ld m n X) : Alloc b .ColMajor ld m n := fun i j hij => by rw [h i j hij]; simp

omit [Field T] [LinearOrder T] [IsStrictOrderedRing T] in
theorem sameOutside_trans {a b c : Buf T} {l : Layout} {ld m n : Int} (h1 : SameOutside a b l ld m n) (h2 : SameOutside b c l ld m n) : SameOutside a c l ld m n :=
  fun p hp => (h2 p hp).trans (h1 p hp)

/-- A stabilisation replaces B by a matrix X with B = W X. -/
theorem stabFunc_spec {P : PowEnv N K W WS R T} (hE : ∀ c, SkEnvOk (P.E c)) {k c key : Int} {B : Int → Int → T} {s : StabSt T} (hk : 1 ≤ k) (hP : StabOk P k c)
    (hB : HoldsC s.a k k c B) (ht : ∀ i, 0 ≤ i → i < k → s.tau i ≠ .none) (hsk : Alloc s.sk .ColMajor k k ((5 * k + 4) / 4)) :
    M.wp (stabFunc (P.E key) P.tolLU P.tolSk P.L (P.seed key) P.sm k c) s (fun _ s' => ∃ X Lw : Int → Int → T, HoldsC s'.a k k c X ∧
      (∀ i j, InR k c i j → B i j = prodEntry k Lw X i j) ∧ (P.sm = .none → ∀ i j, InR k c i j → X i j = B i j) ∧
      (P.sm = .LQ → OrthoCols c k (fun i j => X j i)) ∧
      SameOutside s.a s'.a .ColMajor k k c ∧ (∀ i, 0 ≤ i → i < k → s'.tau i ≠ .none) ∧ Alloc s'.sk .ColMajor k k ((5 * k + 4) / 4)) := by
  cases hsm : P.sm with
  | LU => simp [StabOk, hsm] at hP
  | LQ =>
    simp only [StabOk, hsm] at hP
    unfold stabFunc
    simp only [M.wp_bind, StabSt.wp_onAT, M.wp_pure]
    refine M.wp_mono (qrRowStabilize_spec (s := (s.a, s.tau)) hP.1 hk hP.2 (holdsC_cells hB) ht) ?_
    rintro r s' ⟨-, Lw, X, hX, -, hfac, hu, ht', -⟩
    obtain ⟨g1, g2⟩ := upd_holdsC hu
    exact ⟨X, Lw, g1, hfac, fun h => absurd h (by simp), fun _ => hX, g2, ht', hsk⟩
  | sketch =>
    simp only [StabOk, hsm] at hP
    obtain ⟨h1, h2, h3, h3', h4, h5, h6⟩ := hP
    obtain ⟨D, hD, -⟩ := (C16_sparse_dist c ((5 * k + 4) / 4) (min ((5 * k + 4) / 4 / 2) 4) .Short).1 ⟨by omega, by omega, by omega, by simp; omega⟩
    obtain ⟨d1, d2, d3, d4, d5, d6⟩ := sparseDist_of_mk hD
    have hok : SparseDistOk D := d6 (by
      rw [d5]
      have : min ((5 * k + 4) / 4 / 2) 4 * (max c ((5 * k + 4) / 4)) ≤ 4 * max c ((5 * k + 4) / 4) :=
        mul_le_mul_of_nonneg_right (min_le_right _ _) (by omega)
      simp only [reduceCtorEq, if_false, intMax]
      omega)
    obtain ⟨Sm, hSm, -⟩ := C14_well_defined (seed := P.seed key) (hE key).genS (hE key).sqrt hok
    unfold stabFunc
    simp only [M.wp_bind, M.wp_pure]
    refine M.wp_mono (C77_sketch_orth_partial (hE key) h6 hk h4 (by omega) (by omega) h3 h5 (by omega) h1 h2 hD hSm
      (C77_off_first (hE key).genS (hE key).sqrt (by omega) h5 (by omega) hD hSm (by omega)) hB hsk) ?_
    rintro r s' ⟨X, Lw, g1, -, g2, -, g3, -, g4, -, g5⟩
    exact ⟨X, Lw, g1, g2, fun h => absurd h (by simp), fun h => absurd h (by simp), g3, fun i h0 h1 => by rw [g5]; exact ht i h0 h1, g4⟩
  | none =>
    unfold stabFunc
    simp only [M.wp_pure]
    refine ⟨B, fun i j => if i = j then 1 else 0, hB, fun i j hij => by rw [prodEntry_one_left _ _ hij.1 hij.2.1], fun _ _ _ _ => rfl,
      fun h => absurd h (by simp), fun _ _ => rfl, ht, hsk⟩

section
variable {A : CscMat T} {E : List (Entry T)} {k : Int} {t0 t : PowSt T}

theorem powMulA_spec {env : Env T} (henv : EnvOk env) (hA : CscIs A E) (hb : A.indexBase = .Zero) (hr : InRange A.nRows A.nCols E) (hk : 0 ≤ k) (hm : 0 ≤ A.nRows)
    (hn : 0 ≤ A.nCols) (h : PowInv A.nRows A.nCols k t0 t) {X : Int → Int → T} (hX : HoldsC t.w k k A.nRows X) :
    M.wp (powMulA env A k) t (fun _ t' => PowInv A.nRows A.nCols k t0 t' ∧ t'.w = t.w ∧ HoldsC t'.y k k A.nCols (prodEntry A.nRows X (toMat E))) := by
  unfold powMulA
  rw [M.wp_bind, M.wp_get, M.wp_zoom]
  refine M.wp_mono (C32_right_spmm_partial (C := fun _ _ => 0) (Am := X) henv (B := .csc A) (E := E) hA hb hr (fun _ => ?_)
    (windowOk_whole rfl rfl) hk hn hm (le_refl (k : Int)) (le_refl (k : Int)) (fun _ => hX) h.y (fun h => absurd rfl h)) ?_
  · show Supported (.csc A) .Trans .RowMajor .NoTrans A.nCols A.nRows ((window 0 0 A.nRows A.nCols E).map Entry.swap)
    simp [Supported]
  rintro _ ⟨A', y2⟩ ⟨g1, g2, -, -⟩
  dsimp only at g1 g2
  have g1' : HoldsC y2 k k A.nCols (prodEntry A.nRows X (toMat E)) := fun i j hij => by
    rw [g1 i j hij]
    simp only [one_mul, zero_mul, add_zero]
    congr 2
    funext i j; simp [opMat, subMat]
  exact ⟨⟨holdsC_alloc g1', h.w, sameOutside_trans h.fy g2, h.fw, h.tau, h.sk⟩, rfl, g1'⟩

theorem powMulAT_spec {env : Env T} (henv : EnvOk env) (hA : CscIs A E) (hb : A.indexBase = .Zero) (hr : InRange A.nRows A.nCols E) (hk : 0 ≤ k) (hm : 0 ≤ A.nRows)
    (hm' : A.nRows < 2147483648) (hn : 0 ≤ A.nCols) (h : PowInv A.nRows A.nCols k t0 t) {X : Int → Int → T} (hX : HoldsC t.y k k A.nCols X) :
    M.wp (powMulAT env A k) t (fun _ t' => PowInv A.nRows A.nCols k t0 t' ∧ t'.y = t.y ∧
      HoldsC t'.w k k A.nRows (prodEntry A.nCols X (fun i j => toMat E j i))) := by
  unfold powMulAT
  rw [M.wp_bind, M.wp_get, M.wp_zoom]
  refine M.wp_mono (C32_right_spmm_partial (C := fun _ _ => 0) (Am := X) henv (B := .csc A) (E := E) hA hb hr (fun _ => ?_)
    (windowOk_whole rfl rfl) hk hm hn (le_refl (k : Int)) (le_refl (k : Int)) (fun _ => hX) h.w (fun h => absurd rfl h)) ?_
  · show Supported (.csc A) .NoTrans .RowMajor .NoTrans A.nRows A.nCols (window 0 0 A.nRows A.nCols E)
    simp only [Supported]
    rw [if_pos ⟨trivial, trivial⟩]
    norm_num; exact hm'
  rintro _ ⟨A', y2⟩ ⟨g1, g2, -, -⟩
  dsimp only at g1 g2
  have g1' : HoldsC y2 k k A.nRows (prodEntry A.nCols X (fun i j => toMat E j i)) := fun i j hij => by
    rw [g1 i j hij]
    simp only [one_mul, zero_mul, add_zero]
    congr 2
    funext i j; simp [opMat, subMat]
  exact ⟨⟨h.y, holdsC_alloc g1', h.fy, sameOutside_trans h.fw g2, h.tau, h.sk⟩, rfl, g1'⟩

theorem powStabY_spec {P : PowEnv N K W WS R T} (hE : ∀ c, SkEnvOk (P.E c)) {key : Int} {m n : Int} (hk : 1 ≤ k) (hP : StabOk P k n) (h : PowInv m n k t0 t)
    {B : Int → Int → T} (hB : HoldsC t.y k k n B) :
    M.wp (PowSt.stabY (stabFunc (P.E key) P.tolLU P.tolSk P.L (P.seed key) P.sm k n)) t (fun _ t' => PowInv m n k t0 t' ∧ t'.w = t.w ∧
      ∃ X Lw : Int → Int → T, HoldsC t'.y k k n X ∧ asM k n B = asM k k Lw * asM k n X ∧ (P.sm = .none → asM k n X = asM k n B)) := by
  rw [PowSt.wp_stabY]
  refine M.wp_mono (stabFunc_spec hE hk hP (s := ⟨t.y, t.piv, t.tau, t.sk⟩) hB h.tau h.sk) ?_
  rintro _ s' ⟨X, Lw, g1, g2, g3, -, g4, g5, g6⟩
  exact ⟨⟨holdsC_alloc g1, h.w, sameOutside_trans h.fy g4, h.fw, g5, g6⟩, rfl, X, Lw, g1, by rw [← asM_mul]; exact asM_congr g2, fun h => asM_congr (g3 h)⟩

theorem powStabW_spec {P : PowEnv N K W WS R T} (hE : ∀ c, SkEnvOk (P.E c)) {key : Int} {m n : Int} (hk : 1 ≤ k) (hP : StabOk P k m) (h : PowInv m n k t0 t)
    {B : Int → Int → T} (hB : HoldsC t.w k k m B) :
    M.wp (PowSt.stabW (stabFunc (P.E key) P.tolLU P.tolSk P.L (P.seed key) P.sm k m)) t (fun _ t' => PowInv m n k t0 t' ∧ t'.y = t.y ∧
      ∃ X Lw : Int → Int → T, HoldsC t'.w k k m X ∧ asM k m B = asM k k Lw * asM k m X ∧ (P.sm = .none → asM k m X = asM k m B) ∧
        (P.sm = .LQ → OrthoCols m k (fun i j => X j i))) := by
  rw [PowSt.wp_stabW]
  refine M.wp_mono (stabFunc_spec hE hk hP (s := ⟨t.w, t.piv, t.tau, t.sk⟩) hB h.tau h.sk) ?_
  rintro _ s' ⟨X, Lw, g1, g2, g3, g7, g4, g5, g6⟩
  exact ⟨⟨h.y, holdsC_alloc g1, h.fy, sameOutside_trans h.fw g4, g5, g6⟩, rfl, X, Lw, g1, by rw [← asM_mul]; exact asM_congr g2, fun h => asM_congr (g3 h), g7⟩

/-- The matrix in the work array after some passes: `Om = L X`. -/
def PowCur (P : PowEnv N K W WS R T) (m k : Int) (Om : Int → Int → T) (passes : Prop) (t : PowSt T) : Prop :=
  ∃ X Lw : Int → Int → T, HoldsC t.w k k m X ∧ asM k m Om = asM k k Lw * asM k m X ∧ (P.sm = .none → asM k m X = asM k m Om) ∧
    (P.sm = .LQ → passes → OrthoCols m k (fun i j => X j i))

omit [LinearOrder T] [IsStrictOrderedRing T] in
theorem asM_id {k : Int} : asM k k (fun i j : Int => if i = j then (1 : T) else 0) = 1 := by
  ext i j; simp [asM, Matrix.one_apply, Fin.ext_iff]

theorem powStart_spec {P : PowEnv N K W WS R T} (hE : ∀ c, SkEnvOk (P.E c)) {fillY fillW : M (Buf T) Unit} {p : Int} {gY gW : Int → T}
    (hA : CscIs A E) (hb : A.indexBase = .Zero) (hr : InRange A.nRows A.nCols E) (hk : 1 ≤ k) (hm : 1 ≤ A.nRows) (hm' : A.nRows < 2147483648) (hn : 1 ≤ A.nCols)
    (hP : p % 2 ≠ 0 → StabOk P k A.nRows) (h : PowInv A.nRows A.nCols k t0 t) (hW : Fills (k * A.nRows) gW fillW) (hY : Fills (k * A.nCols) gY fillY) :
    M.wp (powStart P fillY fillW A k p) t (fun _ t' => PowInv A.nRows A.nCols k t0 t' ∧
      PowCur P A.nRows k (if p % 2 = 0 then fun i j => gW (i + j * k) else prodEntry A.nCols (fun i j => gY (i + j * k)) (fun i j => toMat E j i)) (p % 2 ≠ 0) t') := by
  have hvec : ∀ {b b' : Buf T} {c : Int} {g : Int → T}, Alloc b .ColMajor k k c → (∀ i, 0 ≤ i → i < k * c → b i ≠ .none) := by
    intro b b' c g hal i h0 h1
    have hj0 : 0 ≤ i / k := Int.ediv_nonneg h0 (by omega)
    have hj1 : i / k < c := Int.ediv_lt_of_lt_mul (by omega) (by rw [mul_comm]; exact h1)
    have := hal (i % k) (i / k) ⟨Int.emod_nonneg _ (by omega), Int.emod_lt_of_pos _ (by omega), hj0, hj1⟩
    rw [addr_colMajor, mul_comm (i / k) k, Int.emod_add_mul_ediv] at this
    exact this
  have hmat : ∀ {b b' : Buf T} {c : Int} {g : Int → T}, 0 ≤ c → HoldsVec b' (k * c) g → SameOutsideVec b b' (k * c) →
      HoldsC b' k k c (fun i j => g (i + j * k)) ∧ SameOutside b b' .ColMajor k k c := by
    intro b b' c g hc h1 h2
    refine ⟨fun i j hij => ?_, fun p hp => ?_⟩
    · rw [addr_colMajor]
      exact h1 _ (pos_range hij).1 (pos_range hij).2
    · apply h2
      by_contra hcon
      push Not at hcon
      have hj0 : 0 ≤ p / k := Int.ediv_nonneg hcon.1 (by omega)
      have hj1 : p / k < c := Int.ediv_lt_of_lt_mul (by omega) (by rw [mul_comm]; exact hcon.2)
      have := hp (p % k) (p / k) ⟨Int.emod_nonneg _ (by omega), Int.emod_lt_of_pos _ (by omega), hj0, hj1⟩
      rw [addr_colMajor, mul_comm (p / k) k, Int.emod_add_mul_ediv] at this
      exact this rfl
  unfold powStart
  by_cases hp : p % 2 = 0
  · rw [if_pos hp, if_pos hp, PowSt.wp_onW]
    refine M.wp_mono (hW t.w (hvec (b' := t.w) (g := gW) h.w)) ?_
    rintro _ w' ⟨h1, h2⟩
    obtain ⟨g1, g2⟩ := hmat (by omega) h1 h2
    refine ⟨⟨h.y, holdsC_alloc g1, h.fy, sameOutside_trans h.fw g2, h.tau, h.sk⟩, _, fun i j => if i = j then 1 else 0, g1, ?_, fun _ => rfl, fun _ h => absurd hp h⟩
    rw [asM_id, Matrix.one_mul]
  · rw [if_neg hp, if_neg hp, M.wp_bind, PowSt.wp_onY]
    refine M.wp_mono (hY t.y (hvec (b' := t.w) (g := gW) h.y)) ?_
    rintro _ y' ⟨h1, h2⟩
    obtain ⟨g1, g2⟩ := hmat (by omega) h1 h2
    rw [M.wp_bind]
    refine M.wp_mono (powMulAT_spec (t0 := t0) (hE 0).env hA hb hr (by omega) (by omega) hm' (by omega)
      (t := { t with y := y' }) ⟨holdsC_alloc g1, h.w, sameOutside_trans h.fy g2, h.fw, h.tau, h.sk⟩ g1) ?_
    rintro _ t2 ⟨i2, -, j2⟩
    refine M.wp_mono (powStabW_spec hE hk (hP hp) i2 j2) ?_
    rintro _ t3 ⟨i3, -, X, Lw, k1, k2, k3, k4⟩
    exact ⟨i3, X, Lw, k1, k2, k3, fun h _ => k4 h⟩

theorem powPass_spec {P : PowEnv N K W WS R T} (hE : ∀ c, SkEnvOk (P.E c)) {done : Int} {Om : Int → Int → T} {pr : Prop}
    (hA : CscIs A E) (hb : A.indexBase = .Zero) (hr : InRange A.nRows A.nCols E) (hk : 1 ≤ k) (hm : 1 ≤ A.nRows) (hm' : A.nRows < 2147483648) (hn : 1 ≤ A.nCols)
    (hPm : StabOk P k A.nRows) (hPn : StabOk P k A.nCols) (h : PowInv A.nRows A.nCols k t0 t) (hc : PowCur P A.nRows k Om pr t) :
    M.wp (powPass P A k done) t (fun _ t' => PowInv A.nRows A.nCols k t0 t' ∧
      PowCur P A.nRows k (prodEntry A.nCols (prodEntry A.nRows Om (toMat E)) (fun i j => toMat E j i)) True t') := by
  obtain ⟨X, Lw, c1, c2, c3, -⟩ := hc
  unfold powPass
  rw [M.wp_bind]
  refine M.wp_mono (powMulA_spec (hE _).env hA hb hr (by omega) (by omega) (by omega) h c1) ?_
  rintro _ t1 ⟨i1, -, j1⟩
  rw [M.wp_bind]
  refine M.wp_mono (powStabY_spec hE hk hPn i1 j1) ?_
  rintro _ t2 ⟨i2, -, X2, L2, g1, g2, g3⟩
  rw [M.wp_bind]
  refine M.wp_mono (powMulAT_spec (hE _).env hA hb hr (by omega) (by omega) hm' (by omega) i2 g1) ?_
  rintro _ t3 ⟨i3, -, j3⟩
  refine M.wp_mono (powStabW_spec hE hk hPm i3 j3) ?_
  rintro _ t4 ⟨i4, -, X4, L4, k1, k2, k3, k4⟩
  refine ⟨i4, X4, prodEntry k Lw (prodEntry k L2 L4), k1, ?_, fun h => ?_, fun h _ => k4 h⟩
  · rw [asM_mul k k k, asM_mul k k k, Matrix.mul_assoc, Matrix.mul_assoc, ← k2, asM_mul k A.nCols A.nRows, asM_mul k A.nRows A.nCols, c2,
      asM_mul k A.nCols A.nRows, ← Matrix.mul_assoc (asM k k L2), ← g2, asM_mul k A.nRows A.nCols, Matrix.mul_assoc, Matrix.mul_assoc, Matrix.mul_assoc]
  · rw [k3 h, asM_mul k A.nCols, g3 h, asM_mul k A.nRows, c3 h, asM_mul k A.nCols, asM_mul k A.nRows]

/-- If the rows of Z = W Y are independent, then so are the rows of Y. -/
theorem fullRank_of_factor {m n : Int} {Z W Y : Int → Int → T} (h : ∀ i j, InR m n i j → Z i j = prodEntry m W Y i j) (hr : FullColRank n m (fun i j => Z j i)) :
    FullColRank n m (fun i j => Y j i) := by
  have hu := factor_unit h hr
  have hZ : asM m n Z = asM m m W * asM m n Y := by rw [← asM_mul]; exact asM_congr h
  have hY : asM m n Y = (asM m m W)⁻¹ * asM m n Z := by
    rw [hZ, Matrix.nonsing_inv_mul_cancel_left _ _ ((Matrix.isUnit_iff_isUnit_det _).1 hu)]
  intro x hx
  let v : Fin m.toNat → T := fun i => x (i : Nat)
  have hv : Matrix.vecMul v (asM m n Y) = 0 := by
    funext j
    have := hx (j : Nat) (by omega) (by have := j.2; omega)
    rw [← Fin.sum_univ_eq_sum_range (fun l => Y l (j : Nat) * x l)] at this
    simp only [Matrix.vecMul, dotProduct, asM, Matrix.of_apply, Pi.zero_apply]
    rw [← this]
    exact Finset.sum_congr rfl fun l _ => mul_comm _ _
  have hz : Matrix.vecMul (Matrix.vecMul v (asM m m W)⁻¹) (asM m n Z) = 0 := by rw [Matrix.vecMul_vecMul, ← hY, hv]
  have h0 : Matrix.vecMul v (asM m m W)⁻¹ = 0 := by
    have := hr (fun i => if h : i.toNat < m.toNat then Matrix.vecMul v (asM m m W)⁻¹ ⟨i.toNat, h⟩ else 0) (fun i g0 g1 => by
      have := congrFun hz ⟨i.toNat, by omega⟩
      rw [Matrix.vecMul, dotProduct] at this
      simp only [asM, Matrix.of_apply, Pi.zero_apply] at this
      rw [← Fin.sum_univ_eq_sum_range (fun j => Z j i * (if h : (j : Int).toNat < m.toNat then Matrix.vecMul v (asM m m W)⁻¹ ⟨(j : Int).toNat, h⟩ else 0)), ← this]
      refine Finset.sum_congr rfl fun l _ => ?_
      rw [dif_pos (by have := l.2; omega), mul_comm, show ((i.toNat : Nat) : Int) = i by omega]
      congr 1)
    funext i
    have := this (i : Nat) (by omega) (by have := i.2; omega)
    rw [dif_pos (by have := i.2; omega)] at this
    exact this
  have hvz : v = 0 := by
    have := congrArg (fun w => Matrix.vecMul w (asM m m W)) h0
    simpa [Matrix.vecMul_vecMul, Matrix.nonsing_inv_mul _ ((Matrix.isUnit_iff_isUnit_det _).1 hu)] using this
  intro j g0 g1
  have := congrFun hvz ⟨j.toNat, by omega⟩
  simpa [v, Int.toNat_of_nonneg g0] using this

/-- **C78** (partial). `power_iter_col_sketch` with p passes (LQ, sketching or no stabilisation): Y is S A for a k x m matrix S, and the rows of
Z = Ω (A Aᵀ)^(p/2) A, where Ω is the k x m random sketch (p even) or the k x n random sketch times Aᵀ (p odd), are combinations of the rows of Y. Without
stabilisation Y = Z; with LQ and p ≥ 1 the rows of S are orthonormal; if the rows of Z are independent, the rows of Y span the same space. Nothing else
is written. Missing: stabilisation by LU, and 2^31 rows or more. -/
theorem C78_power_iter_partial {P : PowEnv N K W WS R T} (hE : ∀ c, SkEnvOk (P.E c)) {fillY fillW : M (Buf T) Unit} {k p : Int} {gY gW : Int → T} {s : Buf T × Buf T}
    (hA : CscIs A E) (hb : A.indexBase = .Zero) (hr : InRange A.nRows A.nCols E) (hk : 1 ≤ k) (hkm : k ≤ A.nRows) (hm : A.nRows < 2147483648) (hn : 1 ≤ A.nCols)
    (hp : 0 ≤ p) (hPm : 1 ≤ p → StabOk P k A.nRows) (hPn : 2 ≤ p → StabOk P k A.nCols)
    (hW : Fills (k * A.nRows) gW fillW) (hY : Fills (k * A.nCols) gY fillY)
    (hay : Alloc s.1 .ColMajor k k A.nCols) (haw : Alloc s.2 .ColMajor k k A.nRows)
    {Om Z : Int → Int → T}
    (hOm : Om = if p % 2 = 0 then fun i j => gW (i + j * k) else prodEntry A.nCols (fun i j => gY (i + j * k)) (fun i j => toMat E j i))
    (hZ : Z = prodEntry A.nRows (gramPowerR A.nRows A.nCols (toMat E) Om (p / 2).toNat) (toMat E)) :
    M.wp (powerIter P fillY fillW A k p) s (fun _ s' => ∃ Y S Lz : Int → Int → T, HoldsC s'.1 k k A.nCols Y ∧
      (∀ i j, InR k A.nCols i j → Y i j = prodEntry A.nRows S (toMat E) i j) ∧
      (∀ i j, InR k A.nCols i j → Z i j = prodEntry k Lz Y i j) ∧
      (P.sm = .none → ∀ i j, InR k A.nCols i j → Y i j = Z i j) ∧
      (P.sm = .LQ → 1 ≤ p → OrthoCols A.nRows k (fun i j => S j i)) ∧
      (FullColRank A.nCols k (fun i j => Z j i) → RowEquiv k A.nCols Z Y ∧ FullColRank A.nCols k (fun i j => Y j i)) ∧
      Alloc s'.2 .ColMajor k k A.nRows ∧ SameOutside s.1 s'.1 .ColMajor k k A.nCols ∧ SameOutside s.2 s'.2 .ColMajor k k A.nRows) := by
  unfold powerIter
  rw [M.wp_bind, M.wp_get, M.wp_bind, M.wp_onLocal]
  dsimp only
  have h0 : PowInv A.nRows A.nCols k (⟨s.1, s.2, Buf.alloc Int k, Buf.alloc T (max A.nCols A.nRows), Buf.fill ((5 * k + 4) / 4 * A.nRows) 0⟩ : PowSt T)
      ⟨s.1, s.2, Buf.alloc Int k, Buf.alloc T (max A.nCols A.nRows), Buf.fill ((5 * k + 4) / 4 * A.nRows) 0⟩ := by
    refine ⟨hay, haw, fun _ _ => rfl, fun _ _ => rfl, fun i g0 g1 => ?_, fun i j hij => ?_⟩
    · simp only [Buf.alloc]
      rw [if_pos (by omega)]; simp
    · rw [addr_colMajor]
      have := pos_range hij
      have h2 : k * ((5 * k + 4) / 4) ≤ (5 * k + 4) / 4 * A.nRows := by
        rw [mul_comm]; exact mul_le_mul_of_nonneg_left hkm (by omega)
      simp only [Buf.fill]
      rw [if_pos (by omega)]; simp
  rw [M.wp_bind]
  refine M.wp_mono (powStart_spec hE hA hb hr hk (by omega) hm hn (fun h => hPm (by omega)) h0 hW hY) ?_
  rintro _ t1 ⟨i1, c1⟩
  rw [← hOm] at c1
  rw [M.wp_bind]
  refine M.wp_forI (fun c t => PowInv A.nRows A.nCols k _ t ∧ PowCur P A.nRows k (gramPowerR A.nRows A.nCols (toMat E) Om c.toNat) (p % 2 ≠ 0 ∨ 0 < c) t)
    (by omega) ⟨i1, ?_⟩ ?_ ?_
  · obtain ⟨X, Lw, a1, a2, a3, a4⟩ := c1
    exact ⟨X, Lw, a1, a2, a3, fun h h' => a4 h (by omega)⟩
  · rintro c t g0 g1 ⟨i2, c2⟩
    refine M.wp_mono (powPass_spec hE hA hb hr hk (by omega) hm hn (hPm (by omega)) (hPn (by omega)) i2 c2) ?_
    rintro _ t' ⟨i3, X, Lw, a1, a2, a3, a4⟩
    rw [show (c + 1).toNat = c.toNat + 1 by omega]
    exact ⟨i3, X, Lw, a1, a2, a3, fun h _ => a4 h trivial⟩
  rintro t2 ⟨i2, X, Lw, a1, a2, a3, a4⟩
  rw [show (p - p % 2 + 1) / 2 = p / 2 by omega] at a2 a3 a4
  refine M.wp_mono (powMulA_spec (hE _).env hA hb hr (by omega) (by omega) (by omega) i2 a1) ?_
  rintro _ t3 ⟨i3, -, j3⟩
  rw [M.wp_set]
  have hfac : ∀ i j, InR k A.nCols i j → Z i j = prodEntry k Lw (prodEntry A.nRows X (toMat E)) i j := asM_eq.1 (by
    rw [hZ, asM_mul k A.nRows, a2, asM_mul k k, asM_mul k A.nRows, Matrix.mul_assoc])
  refine ⟨_, X, Lw, j3, fun _ _ _ => rfl, hfac, fun h => asM_eq.1 ?_, fun h h' => a4 h (by omega), fun h => ⟨rowEquiv_of_factor hfac h, fullRank_of_factor hfac h⟩,
    i3.w, i3.fy, i3.fw⟩
  rw [hZ, asM_mul k A.nRows, a3 h, ← asM_mul]

/-- **C79** (partial). The computation of `run`: for a matrix A with stored entries at distinct positions, if the rows of Z = Ω (A Aᵀ)^(p/2) A (as in C78) are independent,
the result is a permutation of the columns of A, chosen by a pivoted QR decomposition of a matrix Y whose rows span the same space as those of Z, a matrix Q with orthonormal
columns that span the first k permuted columns, and in R the upper trapezoidal matrix Qᵀ A Π. Missing: as in C74 and C78. -/
theorem C79_run_partial {P : PowEnv N K W WS R T} (hE : ∀ c, SkEnvOk (P.E c)) {sqrt : T → T} (hs : SqrtOk sqrt) {nb : Int} (hnb : 0 < nb)
    {qrcp : Int → Int → (Int → Int) → (Int → Int → T) → Qrcp T} {fillY fillW : M (Buf T) Unit} {k p : Int} {gY gW : Int → T} {s : TqrSt T}
    (hA : CscIs A E) (hb : A.indexBase = .Zero) (hr : InRange A.nRows A.nCols E) (hnd : (E.map Entry.pos).Nodup)
    (hk : 1 ≤ k) (hkm : k ≤ A.nRows) (hkn : k ≤ A.nCols) (hm : A.nRows < 2147483648) (hn : A.nCols < 2147483648)
    (hp : 0 ≤ p) (hPm : 1 ≤ p → StabOk P k A.nRows) (hPn : 2 ≤ p → StabOk P k A.nCols)
    (hW : Fills (k * A.nRows) gW fillW) (hY : Fills (k * A.nCols) gY fillY) (hqrcp : ∀ Y, QrcpFor qrcp k A.nCols Y)
    {Om Z : Int → Int → T}
    (hOm : Om = if p % 2 = 0 then fun i j => gW (i + j * k) else prodEntry A.nCols (fun i j => gY (i + j * k)) (fun i j => toMat E j i))
    (hZ : Z = prodEntry A.nRows (gramPowerR A.nRows A.nCols (toMat E) Om (p / 2).toNat) (toMat E)) (hrank : FullColRank A.nCols k (fun i j => Z j i)) :
    M.wp (qrcpRun P sqrt nb qrcp fillY fillW A k p) s (fun _ s' => ∃ (pi : Int → Int) (Q R R' Y : Int → Int → T),
      RowEquiv k A.nCols Z Y ∧ (P.sm = .none → ∀ i j, InR k A.nCols i j → Y i j = Z i j) ∧ (∃ F, QrcpIs k A.nCols Y F ∧ ∀ j, F.piv j = pi j + 1) ∧
      HoldsVec s'.piv A.nCols (fun j => pi j + 1) ∧
      (∀ j, 0 ≤ j → j < A.nCols → 0 ≤ pi j ∧ pi j < A.nCols) ∧ (∀ i j, 0 ≤ i → i < A.nCols → 0 ≤ j → j < A.nCols → pi i = pi j → i = j) ∧
      HoldsC s'.q A.nRows A.nRows k Q ∧ OrthoCols A.nRows k Q ∧
      (∀ i j, j < i → R i j = 0) ∧ (∀ i, 0 ≤ i → i < k → R i i ≠ 0) ∧
      (∀ i j, InR A.nRows k i j → toMat E i (pi j) = prodEntry k Q R i j) ∧
      HoldsC s'.y k k A.nCols R' ∧
      (∀ i j, InR k A.nCols i j → R' i j = prodEntry A.nRows (fun i j => Q j i) (fun i j => toMat E i (pi j)) i j) ∧
      (∀ i j, InR k k i j → j < i → R' i j = 0)) := by
  have hfill : ∀ (ld c n : Int), 0 ≤ ld → n = ld * c → Alloc (Buf.fill n (0 : T)) .ColMajor ld ld c := fun ld c n hld hn i j hij => by
    rw [addr_colMajor]
    have := pos_range hij
    simp only [Buf.fill]
    rw [if_pos (by omega)]; simp
  unfold qrcpRun
  rw [M.wp_bind, M.wp_set, M.wp_bind, M.wp_zoom]
  refine M.wp_mono (C78_power_iter_partial (s := (Buf.fill (k * A.nCols) 0, Buf.fill (A.nRows * k) 0)) hE hA hb hr hk hkm hm (by omega) hp hPm hPn hW hY
    (hfill _ _ _ (by omega) rfl) (hfill _ _ _ (by omega) (mul_comm _ _)) hOm hZ) ?_
  rintro _ ⟨y1, q1⟩ ⟨Y, S, Lz, hY1, hS, -, hnone, -, hrk, haq, -, -⟩
  dsimp only at hY1 haq
  obtain ⟨hre, hfull⟩ := hrk hrank
  have haq' : Alloc q1 .ColMajor A.nRows A.nRows k := fun i j hij => by
    rw [addr_colMajor]
    have := pos_range hij
    have hq : i + j * A.nRows = (i + j * A.nRows) % k + (i + j * A.nRows) / k * k := (Int.emod_add_ediv_mul _ _).symm
    have := haq ((i + j * A.nRows) % k) ((i + j * A.nRows) / k) ⟨Int.emod_nonneg _ (by omega), Int.emod_lt_of_pos _ (by omega),
      Int.ediv_nonneg (by omega) (by omega), Int.ediv_lt_of_lt_mul (by omega) (by omega)⟩
    rw [addr_colMajor, ← hq] at this
    exact this
  refine M.wp_mono (C74_tqrcp_partial (hE _).env hs hnb hA hb hr hnd hk hkm hkn hm.le hn le_rfl (s := ⟨q1, y1, Buf.fill A.nCols 0, fun _ => .none⟩) hY1 hS hfull (hqrcp Y)
    haq' (fun i h0 h1 => by simp only [Buf.fill]; rw [if_pos (by omega)]; simp)) ?_
  rintro _ s' ⟨pi, Q, R, Y', g1, g2, g3, g4, g5, g6, g7, g8, g9, g10, g11, g12, -⟩
  exact ⟨pi, Q, R, Y', Y, hre, hnone, g1, g2, g3, g4, g5, g6, g7, g8, g9, g10, g11, g12⟩

end

/-- The decomposition of a matrix with one row and two columns. -/
noncomputable def rowQrcp (_ _ : Int) (_ : Int → Int) (F : Int → Int → ℝ) : Qrcp ℝ :=
  if F 0 1 ^ 2 ≤ F 0 0 ^ 2 then ⟨fun j => j + 1, F⟩ else ⟨fun j => if j = 0 then 2 else 1, fun i j => F i (1 - j)⟩

theorem rowQrcp_ok (Y : Int → Int → ℝ) : QrcpFor rowQrcp 1 2 Y := by
  have hcases : ∀ i : Int, 0 ≤ i → i < 2 → i = 0 ∨ i = 1 := fun i h0 h1 => by omega
  intro p F _ hF
  have f0 := hF 0 0 (by simp [InR])
  have f1 := hF 0 1 (by simp [InR])
  have hone : OrthoCols 1 1 (fun _ _ => (1 : ℝ)) := by
    rintro i j ⟨h1, h2, h3, h4⟩
    obtain rfl : i = 0 := by omega
    obtain rfl : j = 0 := by omega
    simp [prodEntry]
  unfold rowQrcp
  by_cases h : F 0 1 ^ 2 ≤ F 0 0 ^ 2
  · rw [if_pos h]
    refine ⟨⟨fun i => i, ?_, ?_⟩, ⟨fun _ _ => 1, hone, ?_⟩, ?_⟩
    · intro i h0 h1
      dsimp only
      omega
    · intro q h0 h1
      rcases hcases q h0 h1 with rfl | rfl <;> dsimp only <;> decide
    · rintro i j ⟨h1, h2, h3, h4⟩
      obtain rfl : i = 0 := by omega
      rcases hcases j h3 h4 with rfl | rfl <;> simp [prodEntry, f0, f1]
    · intro j c h0 h1 h2 h3
      obtain rfl : j = 0 := by omega
      rcases hcases c (by omega) h3 with rfl | rfl <;> simp [h]
  · rw [if_neg h]
    push Not at h
    refine ⟨⟨fun _ => 1, ?_, ?_⟩, ⟨fun _ _ => 1, hone, ?_⟩, ?_⟩
    · intro i h0 h1
      dsimp only
      omega
    · intro q h0 h1
      rcases hcases q h0 h1 with rfl | rfl <;> dsimp only <;> decide
    · rintro i j ⟨h1, h2, h3, h4⟩
      obtain rfl : i = 0 := by omega
      rcases hcases j h3 h4 with rfl | rfl <;> simp [prodEntry, f0, f1]
    · intro j c h0 h1 h2 h3
      obtain rfl : j = 0 := by omega
      rcases hcases c (by omega) h3 with rfl | rfl <;> simp [h.le]

/-- The hypotheses of C78 and C79 are met, with p = 2, k = 1 and stabilisation by LQ, by the real 2 x 2 diagonal matrix with entries 1 and 2; the random sketch is (1 1). -/
example : ∃ (P : PowEnv (2 ^ 128) Nat Int Int ℚ ℝ) (qrcp : Int → Int → (Int → Int) → (Int → Int → ℝ) → Qrcp ℝ) (A : CscMat ℝ) (E : List (Entry ℝ)) (Z : Int → Int → ℝ),
    (∀ c, SkEnvOk (P.E c)) ∧ SqrtOk Real.sqrt ∧ CscIs A E ∧ A.indexBase = .Zero ∧ InRange A.nRows A.nCols E ∧ A.nRows = 2 ∧ A.nCols = 2 ∧ (E.map Entry.pos).Nodup ∧
    P.sm = .LQ ∧ StabOk P 1 2 ∧ Fills (1 * 2) (fun _ => (1 : ℝ)) (forI 0 2 fun i => M.wr i 1) ∧ (∀ Y, QrcpFor qrcp 1 2 Y) ∧
    Z = prodEntry 2 (gramPowerR 2 2 (toMat E) (fun _ _ => 1) 1) (toMat E) ∧ FullColRank 2 1 (fun i j => Z j i) := by
  obtain ⟨L, hL⟩ := exists_lqFor
  refine ⟨⟨fun _ => exSkEnvR, fun _ => ⟨0, 7⟩, 1, 1, L, .LQ⟩, rowQrcp, cscOf 2 2 [0, 1, 2] [⟨0, 0, 1⟩, ⟨1, 1, 2⟩], [⟨0, 0, 1⟩, ⟨1, 1, 2⟩], _, fun _ => exSkEnvR_ok, sqrtOk_real,
    ⟨rfl, csIs_ofList (n := 2) rfl rfl rfl (by decide) (by decide)⟩, rfl, by simp [InRange, cscOf], rfl, rfl, by simp [Entry.pos], rfl,
    ⟨hL 1 2 (by norm_num) (by norm_num), by norm_num⟩, fun _ hb => writeVec_spec (by decide) hb, rowQrcp_ok, rfl, ?_⟩
  intro x hx j h0 h1
  obtain rfl : j = 0 := by omega
  have := hx 0 (by norm_num) (by norm_num)
  simpa [prodEntry, gramPowerR, toMat, Finset.sum_range_succ] using this

end RB
