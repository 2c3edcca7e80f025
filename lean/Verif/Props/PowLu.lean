import Verif.Props.PowIter

/-! # C78: power iteration with stabilisation by LU decompositions -/

namespace RB
open Spec

variable {T : Type} {N : Nat} {K W WS R : Type} [Field T] [LinearOrder T] [IsStrictOrderedRing T] [Field R] [LinearOrder R] [IsStrictOrderedRing R] [FloorRing R]

theorem M.wpx_onLocal {σ τ α : Type} {m : M τ α} {t : τ} {s : σ} {Q : α × τ → σ → Prop} {E : Err → σ → Prop} :
    M.wpx (M.onLocal m t) s Q E ↔ M.wpx m t (fun a t' => Q (a, t') s) (fun e _ => E e s) := by
  unfold M.wpx M.onLocal
  rcases h : m t with ⟨r, t'⟩
  cases r <;> simp

section
variable {k : Int} {B : Int → Int → T}

omit [LinearOrder T] [IsStrictOrderedRing T] in
/-- A square matrix with independent columns is invertible. -/
theorem unit_of_lead (h : FullColRank k k B) : IsUnit (asM k k B) := by
  rw [← Matrix.mulVec_injective_iff_isUnit]
  refine (injective_iff_map_eq_zero (Matrix.mulVecLin (asM k k B))).2 fun v hv => ?_
  have := h (fun i => if h : i.toNat < k.toNat then v ⟨i.toNat, h⟩ else 0) (fun i g0 g1 => by
    have := congrFun hv ⟨i.toNat, by omega⟩
    rw [Matrix.mulVecLin_apply, Matrix.mulVec, dotProduct] at this
    simp only [asM, Matrix.of_apply, Pi.zero_apply] at this
    rw [← Fin.sum_univ_eq_sum_range (fun j => B i j * (if h : (j : Int).toNat < k.toNat then v ⟨(j : Int).toNat, h⟩ else 0)), ← this]
    refine Finset.sum_congr rfl fun l _ => ?_
    rw [dif_pos (by have := l.2; omega), show ((i.toNat : Nat) : Int) = i by omega]
    congr 1)
  funext i
  have := this (i : Nat) (by omega) (by have := i.2; omega)
  rw [dif_pos (by have := i.2; omega)] at this
  exact this

/-- If the first k columns of the matrix are independent, no pivot is 0. -/
theorem lu_pivots_ne {c : Int} {F : Int → Int → T} (hkc : k ≤ c) (hF : LuIs k c B F) (hB : IsUnit (asM k k B)) : ∀ j, 0 ≤ j → j < k → F j j ≠ 0 := by
  obtain ⟨⟨r, hr, hinj, hfac⟩, -⟩ := hF
  set Lw : Int → Int → T := fun i l => if l < i then F i l else if l = i then 1 else 0 with hLw
  set U : Int → Int → T := fun l j => if l ≤ j then F l j else 0 with hU
  have hUu : IsUnit (asM k k U) := by
    rw [← Matrix.mulVec_injective_iff_isUnit]
    refine (injective_iff_map_eq_zero (Matrix.mulVecLin (asM k k U))).2 fun v hv => ?_
    rw [Matrix.mulVecLin_apply] at hv
    have h1 : asM k k (fun i j => B (r i) j) = asM k k Lw * asM k k U := by
      rw [← asM_mul]
      exact asM_congr fun i j hij => hfac i j ⟨hij.1, hij.2.1, hij.2.2.1, by have := hij.2.2.2; omega⟩
    have h2 : (asM k k (fun i j => B (r i) j)).mulVec v = 0 := by rw [h1, ← Matrix.mulVec_mulVec, hv, Matrix.mulVec_zero]
    let e : Fin k.toNat → Fin k.toNat := fun i => ⟨(r (i : Nat)).toNat, by have := hr (i : Nat) (by omega) (by have := i.2; omega); omega⟩
    have he : Function.Injective e := by
      intro a b hab
      have ha := hr (a : Nat) (by omega) (by have := a.2; omega)
      have hb := hr (b : Nat) (by omega) (by have := b.2; omega)
      have h0 : (r (a : Nat)).toNat = (r (b : Nat)).toNat := congrArg Fin.val hab
      have := hinj (a : Nat) (b : Nat) (by omega) (by have := a.2; omega) (by omega) (by have := b.2; omega) (by omega)
      exact Fin.ext (by omega)
    have hs := Finite.surjective_of_injective he
    have h3 : (asM k k B).mulVec v = 0 := by
      funext i
      obtain ⟨i', rfl⟩ := hs i
      have := congrFun h2 i'
      have hri := hr (i' : Nat) (by omega) (by have := i'.2; omega)
      simp only [Matrix.mulVec, dotProduct, asM, Matrix.of_apply, Pi.zero_apply, e] at this ⊢
      rw [show (((r (i' : Nat)).toNat : Nat) : Int) = r (i' : Nat) by omega]
      exact this
    exact (injective_iff_map_eq_zero (Matrix.mulVecLin (asM k k B))).1 (Matrix.mulVec_injective_iff_isUnit.2 hB) v h3
  intro j h0 hj
  rw [Matrix.isUnit_iff_isUnit_det, Matrix.det_of_isUpperTriangular, isUnit_iff_ne_zero, Finset.prod_ne_zero_iff] at hUu
  · have := hUu ⟨j.toNat, by omega⟩ (Finset.mem_univ _)
    simpa [asM, hU, Int.toNat_of_nonneg h0] using this
  · intro a b hab
    have : (b : Nat) < (a : Nat) := hab
    simp only [asM, Matrix.of_apply, hU]
    rw [if_neg (by omega)]

/-- `lu_row_stabilize` for a matrix whose first k columns are independent: it throws (a pivot is small), or replaces B by X, where B = W X with W invertible. -/
theorem luStab_spec {tol : T} {L : RowLapack T} {c : Int} {s : StabSt T} (hk : 1 ≤ k) (hkc : k < c) (hL : LuFor L k c B)
    (hB : HoldsC s.a k k c B) (hp : ∀ i, 0 ≤ i → i < k → s.piv i ≠ .none) (hlead : IsUnit (asM k k B)) :
    M.wpx (luRowStabilize tol L k c) s (fun _ s' => ∃ X Lw : Int → Int → T, HoldsC s'.a k k c X ∧ asM k c B = asM k k Lw * asM k c X ∧ IsUnit (asM k k Lw) ∧
      SameOutside s.a s'.a .ColMajor k k c ∧ (∀ i, 0 ≤ i → i < k → s'.piv i ≠ .none) ∧ s'.tau = s.tau ∧ s'.sk = s.sk) (fun e _ => e = .runtime) := by
  unfold luRowStabilize
  obtain ⟨F, ok, s', hF, h1, h2, h3, h4, h5, hrun⟩ := luRow_prefix (tol := tol) (L := L) hk hkc hB hp
  unfold M.wpx
  rw [hrun]
  cases ok with
  | false => rw [M.bind_throw (e := .runtime) (s' := s') (by simp [M.when, M.throw]; rfl)]
  | true =>
    have hne := lu_pivots_ne hkc.le (hL F hF) hlead
    show M.wpx _ s' _ _
    refine M.wpx_of_wp ?_
    rw [M.wp_bind, M.wp_when]
    refine ⟨fun h => absurd h (by simp), fun _ => ?_⟩
    rw [M.wp_bind, StabSt.wp_onA]
    refine M.wp_mono (luScale_spec (b0 := s.a) hk hkc.le (h2 rfl)) ?_
    intro _ b hb
    rw [M.wp_pure]
    obtain ⟨g1, g2⟩ := upd_holdsC hb
    obtain ⟨⟨Lw, hLw⟩, -⟩ := lu_rowEquiv (hL F hF) hne
    refine ⟨_, Lw, g1, by rw [← asM_mul]; exact asM_congr hLw, ?_, g2, fun i h0 h1 => by dsimp only; rw [h5 i h0 h1]; simp, by rw [h4], by rw [h4]⟩
    have hk2 : asM k k B = asM k k Lw * asM k k (fun i j => (if i ≤ j then (L.lu k c F).2 i j else 0) / (if i ≤ i then (L.lu k c F).2 i i else 0)) := by
      rw [← asM_mul]
      exact asM_congr fun i j hij => hLw i j ⟨hij.1, hij.2.1, hij.2.2.1, by have := hij.2.2.2; omega⟩
    rw [hk2, Matrix.isUnit_iff_isUnit_det, Matrix.det_mul] at hlead
    rw [Matrix.isUnit_iff_isUnit_det]
    exact isUnit_of_mul_isUnit_left hlead

end

section
variable {A : CscMat T} {E : List (Entry T)} {k : Int} {t0 t : PowSt T}

theorem powMulA_keeps {env : Env T} {Q : PowSt T → Prop} (h : M.wp (powMulA env A k) t (fun _ t' => Q t')) :
    M.wp (powMulA env A k) t (fun _ t' => Q t' ∧ t'.piv = t.piv) := by
  obtain ⟨_, t', h1, h2⟩ := h
  refine ⟨_, t', h1, h2, ?_⟩
  have : _ = t' := congrArg Prod.snd h1
  rw [← this]
  rfl

theorem powMulAT_keeps {env : Env T} {Q : PowSt T → Prop} (h : M.wp (powMulAT env A k) t (fun _ t' => Q t')) :
    M.wp (powMulAT env A k) t (fun _ t' => Q t' ∧ t'.piv = t.piv) := by
  obtain ⟨_, t', h1, h2⟩ := h
  refine ⟨_, t', h1, h2, ?_⟩
  have : _ = t' := congrArg Prod.snd h1
  rw [← this]
  rfl

/-- The array for pivots is allocated. -/
def PivOk (k : Int) (t : PowSt T) : Prop := ∀ i, 0 ≤ i → i < k → t.piv i ≠ .none

theorem luStabY_spec {P : PowEnv N K W WS R T} (hP : P.sm = .LU) {key m n : Int} (hk : 1 ≤ k) (hkn : k < n) (hL : ∀ B, LuFor P.L k n B)
    (h : PowInv m n k t0 t) (hpv : PivOk k t) {B : Int → Int → T} (hB : HoldsC t.y k k n B) (hlead : IsUnit (asM k k B)) :
    M.wpx (PowSt.stabY (stabFunc (P.E key) P.tolLU P.tolSk P.L (P.seed key) P.sm k n)) t (fun _ t' => PowInv m n k t0 t' ∧ PivOk k t' ∧
      ∃ X Lw : Int → Int → T, HoldsC t'.y k k n X ∧ asM k n B = asM k k Lw * asM k n X ∧ IsUnit (asM k k Lw)) (fun e _ => e = .runtime) := by
  rw [hP]
  unfold PowSt.stabY stabFunc
  rw [M.wpx_zoom, M.wpx_bind]
  refine M.wpx_mono (luStab_spec (s := ⟨t.y, t.piv, t.tau, t.sk⟩) hk hkn (hL B) hB hpv hlead) ?_ (fun _ _ h => h)
  rintro _ s' ⟨X, Lw, g1, g2, g3, g4, g5, g6, g7⟩
  exact ⟨⟨holdsC_alloc g1, h.w, sameOutside_trans h.fy g4, h.fw, by dsimp only; rw [g6]; exact h.tau, by dsimp only; rw [g7]; exact h.sk⟩, g5, X, Lw, g1, g2, g3⟩

theorem luStabW_spec {P : PowEnv N K W WS R T} (hP : P.sm = .LU) {key m n : Int} (hk : 1 ≤ k) (hkm : k < m) (hL : ∀ B, LuFor P.L k m B)
    (h : PowInv m n k t0 t) (hpv : PivOk k t) {B : Int → Int → T} (hB : HoldsC t.w k k m B) (hlead : IsUnit (asM k k B)) :
    M.wpx (PowSt.stabW (stabFunc (P.E key) P.tolLU P.tolSk P.L (P.seed key) P.sm k m)) t (fun _ t' => PowInv m n k t0 t' ∧ PivOk k t' ∧
      ∃ X Lw : Int → Int → T, HoldsC t'.w k k m X ∧ asM k m B = asM k k Lw * asM k m X ∧ IsUnit (asM k k Lw)) (fun e _ => e = .runtime) := by
  rw [hP]
  unfold PowSt.stabW stabFunc
  rw [M.wpx_zoom, M.wpx_bind]
  refine M.wpx_mono (luStab_spec (s := ⟨t.w, t.piv, t.tau, t.sk⟩) hk hkm (hL B) hB hpv hlead) ?_ (fun _ _ h => h)
  rintro _ s' ⟨X, Lw, g1, g2, g3, g4, g5, g6, g7⟩
  exact ⟨⟨h.y, holdsC_alloc g1, h.fy, sameOutside_trans h.fw g4, by dsimp only; rw [g6]; exact h.tau, by dsimp only; rw [g7]; exact h.sk⟩, g5, X, Lw, g1, g2, g3⟩

/-- The matrix in the work array: `Om = L X` with L invertible. -/
def LuCur (m k : Int) (Om : Int → Int → T) (t : PowSt T) : Prop :=
  ∃ X Lw : Int → Int → T, HoldsC t.w k k m X ∧ asM k m Om = asM k k Lw * asM k m X ∧ IsUnit (asM k k Lw)

omit [LinearOrder T] [IsStrictOrderedRing T] in
/-- If Z = L Y with L invertible and the first columns of Z are independent, so are those of Y. -/
theorem lead_of_factor {c : Int} {Z Lw Y : Int → Int → T} (hkc : k ≤ c) (h : asM k c Z = asM k k Lw * asM k c Y) (hZ : IsUnit (asM k k Z)) : IsUnit (asM k k Y) := by
  have h2 : asM k k Z = asM k k Lw * asM k k Y := by
    rw [← asM_mul] at h ⊢
    exact asM_congr fun i j hij => asM_eq.1 h i j ⟨hij.1, hij.2.1, hij.2.2.1, by have := hij.2.2.2; omega⟩
  rw [h2, Matrix.isUnit_iff_isUnit_det, Matrix.det_mul] at hZ
  rw [Matrix.isUnit_iff_isUnit_det]
  exact isUnit_of_mul_isUnit_right hZ

theorem luPass_spec {P : PowEnv N K W WS R T} (hE : ∀ c, SkEnvOk (P.E c)) (hP : P.sm = .LU) {done : Int} {Om : Int → Int → T}
    (hA : CscIs A E) (hb : A.indexBase = .Zero) (hr : InRange A.nRows A.nCols E) (hk : 1 ≤ k) (hkm : k < A.nRows) (hkn : k < A.nCols) (hm' : A.nRows < 2147483648)
    (hLm : ∀ B, LuFor P.L k A.nRows B) (hLn : ∀ B, LuFor P.L k A.nCols B) (h : PowInv A.nRows A.nCols k t0 t) (hpv : PivOk k t) (hc : LuCur A.nRows k Om t)
    (l1 : IsUnit (asM k k (prodEntry A.nRows Om (toMat E))))
    (l2 : IsUnit (asM k k (prodEntry A.nCols (prodEntry A.nRows Om (toMat E)) (fun i j => toMat E j i)))) :
    M.wpx (powPass P A k done) t (fun _ t' => PowInv A.nRows A.nCols k t0 t' ∧ PivOk k t' ∧
      LuCur A.nRows k (prodEntry A.nCols (prodEntry A.nRows Om (toMat E)) (fun i j => toMat E j i)) t') (fun e _ => e = .runtime) := by
  obtain ⟨X, Lw, c1, c2, c3⟩ := hc
  unfold powPass
  rw [M.wpx_bind]
  refine M.wpx_mono (M.wpx_of_wp (powMulA_keeps (powMulA_spec (hE _).env hA hb hr (by omega) (by omega) (by omega) h c1))) ?_ (fun _ _ h => h)
  rintro _ t1 ⟨⟨i1, -, j1⟩, p1⟩
  have e1 : asM k A.nCols (prodEntry A.nRows Om (toMat E)) = asM k k Lw * asM k A.nCols (prodEntry A.nRows X (toMat E)) := by
    rw [asM_mul k A.nRows, asM_mul k A.nRows, c2, Matrix.mul_assoc]
  rw [M.wpx_bind]
  refine M.wpx_mono (luStabY_spec hP hk hkn hLn i1 (by unfold PivOk; rw [p1]; exact hpv) j1 (lead_of_factor hkn.le e1 l1)) ?_ (fun _ _ h => h)
  rintro _ t2 ⟨i2, q2, X2, L2, g1, g2, g3⟩
  rw [M.wpx_bind]
  refine M.wpx_mono (M.wpx_of_wp (powMulAT_keeps (powMulAT_spec (hE _).env hA hb hr (by omega) (by omega) hm' (by omega) i2 g1))) ?_ (fun _ _ h => h)
  rintro _ t3 ⟨⟨i3, -, j3⟩, p3⟩
  have e3 : asM k A.nRows (prodEntry A.nCols (prodEntry A.nRows Om (toMat E)) (fun i j => toMat E j i)) =
      asM k k (prodEntry k Lw L2) * asM k A.nRows (prodEntry A.nCols X2 (fun i j => toMat E j i)) := by
    rw [asM_mul k A.nCols, e1, g2, asM_mul k k k, asM_mul k A.nCols, Matrix.mul_assoc, Matrix.mul_assoc, Matrix.mul_assoc]
  refine M.wpx_mono (luStabW_spec hP hk hkm hLm i3 (by unfold PivOk; rw [p3]; exact q2) j3 (lead_of_factor hkm.le e3 l2)) ?_ (fun _ _ h => h)
  rintro _ t4 ⟨i4, q4, X4, L4, k1, k2, k3⟩
  refine ⟨i4, q4, X4, prodEntry k (prodEntry k Lw L2) L4, k1, ?_, ?_⟩
  · rw [e3, k2, asM_mul k k k (prodEntry k Lw L2), Matrix.mul_assoc]
  · rw [asM_mul, asM_mul]; exact (c3.mul g3).mul k3

omit [Field T] [LinearOrder T] [IsStrictOrderedRing T] in
/-- Filling the array of a k x c matrix. -/
theorem fills_mat {f : M (Buf T) Unit} {g : Int → T} {b : Buf T} {c : Int} (hk : 1 ≤ k) (hf : Fills (k * c) g f) (hal : Alloc b .ColMajor k k c) :
    M.wp f b (fun _ b' => HoldsC b' k k c (fun i j => g (i + j * k)) ∧ SameOutside b b' .ColMajor k k c) := by
  refine M.wp_mono (hf b ?_) ?_
  · intro i h0 h1
    have hj0 : 0 ≤ i / k := Int.ediv_nonneg h0 (by omega)
    have hj1 : i / k < c := Int.ediv_lt_of_lt_mul (by omega) (by rw [mul_comm]; exact h1)
    have := hal (i % k) (i / k) ⟨Int.emod_nonneg _ (by omega), Int.emod_lt_of_pos _ (by omega), hj0, hj1⟩
    rw [addr_colMajor, mul_comm (i / k) k, Int.emod_add_mul_ediv] at this
    exact this
  · rintro _ b' ⟨h1, h2⟩
    refine ⟨fun i j hij => ?_, fun p hp => ?_⟩
    · rw [addr_colMajor]
      exact h1 _ (pos_range hij).1 (pos_range hij).2
    · apply h2
      by_contra hcon
      push Not at hcon
      have hj0 : 0 ≤ p / k := Int.ediv_nonneg hcon.1 (by omega)
      have hj1 : p / k < c := Int.ediv_lt_of_lt_mul (by omega) (by rw [mul_comm]; exact hcon.2)
      have := hp (p % k) (p / k) ⟨Int.emod_nonneg _ (by omega), Int.emod_lt_of_pos _ (by omega), hj0, hj1⟩
      rw [addr_colMajor, mul_comm (p / k) k, Int.emod_add_mul_ediv] at this
      exact this rfl

theorem luStart_spec {P : PowEnv N K W WS R T} (hE : ∀ c, SkEnvOk (P.E c)) (hP : P.sm = .LU) {fillY fillW : M (Buf T) Unit} {p : Int} {gY gW : Int → T}
    (hA : CscIs A E) (hb : A.indexBase = .Zero) (hr : InRange A.nRows A.nCols E) (hk : 1 ≤ k) (hkm : k < A.nRows) (hn : 1 ≤ A.nCols) (hm' : A.nRows < 2147483648)
    (hLm : ∀ B, LuFor P.L k A.nRows B) (h : PowInv A.nRows A.nCols k t0 t) (hpv : PivOk k t)
    (hW : Fills (k * A.nRows) gW fillW) (hY : Fills (k * A.nCols) gY fillY) {Om : Int → Int → T}
    (hOm : Om = if p % 2 = 0 then fun i j => gW (i + j * k) else prodEntry A.nCols (fun i j => gY (i + j * k)) (fun i j => toMat E j i))
    (lead : p % 2 ≠ 0 → IsUnit (asM k k Om)) :
    M.wpx (powStart P fillY fillW A k p) t (fun _ t' => PowInv A.nRows A.nCols k t0 t' ∧ PivOk k t' ∧ LuCur A.nRows k Om t') (fun e _ => e = .runtime) := by
  unfold powStart
  by_cases hp : p % 2 = 0
  · rw [if_pos hp] at hOm ⊢
    refine M.wpx_of_wp ?_
    rw [PowSt.wp_onW]
    refine M.wp_mono (fills_mat hk hW h.w) ?_
    rintro _ w' ⟨g1, g2⟩
    refine ⟨⟨h.y, holdsC_alloc g1, h.fy, sameOutside_trans h.fw g2, h.tau, h.sk⟩, hpv, _, fun i j => if i = j then 1 else 0, g1, ?_, ?_⟩
    · rw [asM_id, Matrix.one_mul, hOm]
    · rw [asM_id]; exact isUnit_one
  · rw [if_neg hp] at hOm ⊢
    rw [M.wpx_bind]
    have hfill : M.wp (PowSt.onY fillY) t (fun _ t' => HoldsC t'.y k k A.nCols (fun i j => gY (i + j * k)) ∧ SameOutside t.y t'.y .ColMajor k k A.nCols ∧
        t' = { t with y := t'.y }) := by
      rw [PowSt.wp_onY]
      exact M.wp_mono (fills_mat hk hY h.y) fun _ b hb => ⟨hb.1, hb.2, rfl⟩
    refine M.wpx_mono (M.wpx_of_wp hfill) ?_ (fun _ _ h => h)
    rintro _ t1 ⟨g1, g2, g3⟩
    have i1 : PowInv A.nRows A.nCols k t0 t1 :=
      ⟨holdsC_alloc g1, by rw [g3]; exact h.w, sameOutside_trans h.fy g2, by rw [g3]; exact h.fw, by rw [g3]; exact h.tau, by rw [g3]; exact h.sk⟩
    rw [M.wpx_bind]
    refine M.wpx_mono (M.wpx_of_wp (powMulAT_keeps (powMulAT_spec (hE 0).env hA hb hr (by omega) (by omega) hm' (by omega) i1 g1))) ?_ (fun _ _ h => h)
    rintro _ t2 ⟨⟨i2, -, j2⟩, p2⟩
    rw [← hOm] at j2
    exact luStabW_spec hP hk hkm hLm i2 (by unfold PivOk; rw [p2, g3]; exact hpv) j2 (lead hp)

/-- **C78** (partial, stabilisation by LU). Let Ω be as in C78 and suppose that the first k columns of the matrices that are to be stabilised, computed without any stabilisation
(Ω for an odd number of passes, Ω (A Aᵀ)^q A for q < p/2, and Ω (A Aᵀ)^q for 1 ≤ q ≤ p/2), are independent. Then the call throws `std::runtime_error` (one of the first k - 1
pivots is too small), or it returns and Y is S A for a k x m matrix S, and its rows span the same space as those of Z = Ω (A Aᵀ)^(p/2) A. Nothing else is written if it returns.
Missing: matrices with dependent leading columns, where the last pivot, which is not checked, can be 0 (`C75_last_pivot_counterexample`), and 2^31 rows or more. -/
theorem C78_lu_partial {P : PowEnv N K W WS R T} (hE : ∀ c, SkEnvOk (P.E c)) (hP : P.sm = .LU) {fillY fillW : M (Buf T) Unit} {k p : Int} {gY gW : Int → T} {s : Buf T × Buf T}
    (hA : CscIs A E) (hb : A.indexBase = .Zero) (hr : InRange A.nRows A.nCols E) (hk : 1 ≤ k) (hkm : k < A.nRows) (hkn : k < A.nCols) (hm : A.nRows < 2147483648)
    (hp : 0 ≤ p) (hLm : ∀ B, LuFor P.L k A.nRows B) (hLn : ∀ B, LuFor P.L k A.nCols B)
    (hW : Fills (k * A.nRows) gW fillW) (hY : Fills (k * A.nCols) gY fillY)
    (hay : Alloc s.1 .ColMajor k k A.nCols) (haw : Alloc s.2 .ColMajor k k A.nRows)
    {Om Z : Int → Int → T}
    (hOm : Om = if p % 2 = 0 then fun i j => gW (i + j * k) else prodEntry A.nCols (fun i j => gY (i + j * k)) (fun i j => toMat E j i))
    (hZ : Z = prodEntry A.nRows (gramPowerR A.nRows A.nCols (toMat E) Om (p / 2).toNat) (toMat E))
    (lead0 : p % 2 = 1 → FullColRank k k Om)
    (leadA : ∀ q : Nat, (q : Int) < p / 2 → FullColRank k k (prodEntry A.nRows (gramPowerR A.nRows A.nCols (toMat E) Om q) (toMat E)))
    (leadG : ∀ q : Nat, (q : Int) < p / 2 → FullColRank k k (gramPowerR A.nRows A.nCols (toMat E) Om (q + 1))) :
    M.wpx (powerIter P fillY fillW A k p) s (fun _ s' => ∃ Y S : Int → Int → T, HoldsC s'.1 k k A.nCols Y ∧
      (∀ i j, InR k A.nCols i j → Y i j = prodEntry A.nRows S (toMat E) i j) ∧ RowEquiv k A.nCols Z Y ∧ (FullColRank A.nCols k (fun i j => Z j i) → FullColRank A.nCols k (fun i j => Y j i)) ∧
      Alloc s'.2 .ColMajor k k A.nRows ∧ SameOutside s.1 s'.1 .ColMajor k k A.nCols ∧ SameOutside s.2 s'.2 .ColMajor k k A.nRows) (fun e _ => e = .runtime) := by
  unfold powerIter
  rw [M.wpx_bind, M.wpx_get, M.wpx_bind, M.wpx_onLocal]
  dsimp only
  have h0 : PowInv A.nRows A.nCols k (⟨s.1, s.2, Buf.alloc Int k, Buf.alloc T (max A.nCols A.nRows), Buf.fill ((5 * k + 4) / 4 * A.nRows) 0⟩ : PowSt T)
      ⟨s.1, s.2, Buf.alloc Int k, Buf.alloc T (max A.nCols A.nRows), Buf.fill ((5 * k + 4) / 4 * A.nRows) 0⟩ := by
    refine ⟨hay, haw, fun _ _ => rfl, fun _ _ => rfl, fun i g0 g1 => ?_, fun i j hij => ?_⟩
    · simp only [Buf.alloc]
      rw [if_pos (by omega)]; simp
    · rw [addr_colMajor]
      have := pos_range hij
      have h2 : k * ((5 * k + 4) / 4) ≤ (5 * k + 4) / 4 * A.nRows := by
        rw [mul_comm]; exact mul_le_mul_of_nonneg_left hkm.le (by omega)
      simp only [Buf.fill]
      rw [if_pos (by omega)]; simp
  rw [M.wpx_bind]
  refine M.wpx_mono (luStart_spec hE hP hA hb hr hk hkm (by omega) hm hLm h0 (fun i g0 g1 => by simp [Buf.alloc, g0, g1]) hW hY hOm
    (fun h => unit_of_lead (lead0 (by omega)))) ?_ (fun _ _ h => h)
  rintro _ t1 ⟨i1, p1, c1⟩
  rw [M.wpx_bind]
  refine M.wpx_forI (fun c t => PowInv A.nRows A.nCols k _ t ∧ PivOk k t ∧ LuCur A.nRows k (gramPowerR A.nRows A.nCols (toMat E) Om c.toNat) t)
    (by omega) ⟨i1, p1, c1⟩ ?_ ?_
  · rintro c t g0 g1 ⟨i2, p2, c2⟩
    have hc : ((c.toNat : Nat) : Int) < p / 2 := by omega
    refine M.wpx_mono (luPass_spec hE hP hA hb hr hk hkm hkn hm hLm hLn i2 p2 c2 (unit_of_lead (leadA _ hc)) (unit_of_lead (leadG _ hc))) ?_ (fun _ _ h => h)
    rintro _ t' ⟨i3, p3, c3⟩
    rw [show (c + 1).toNat = c.toNat + 1 by omega]
    exact ⟨i3, p3, c3⟩
  rintro t2 ⟨i2, -, X, Lw, a1, a2, a3⟩
  rw [show (p - p % 2 + 1) / 2 = p / 2 by omega] at a2
  refine M.wpx_mono (M.wpx_of_wp (powMulA_spec (hE _).env hA hb hr (by omega) (by omega) (by omega) i2 a1)) ?_ (fun _ _ h => h)
  rintro _ t3 ⟨i3, -, j3⟩
  have hfac : ∀ i j, InR k A.nCols i j → Z i j = prodEntry k Lw (prodEntry A.nRows X (toMat E)) i j := asM_eq.1 (by
    rw [hZ, asM_mul k A.nRows, a2, asM_mul k k, asM_mul k A.nRows, Matrix.mul_assoc])
  exact ⟨_, X, j3, fun _ _ _ => rfl, rowEquiv_of_unit hfac a3, fun h => fullRank_of_factor hfac h, i3.w, i3.fy, i3.fw⟩

/-- **C79** (partial, stabilisation by LU). The computation of `run` under the assumptions of `C78_lu_partial`, if the rows of Z are independent: it throws `std::runtime_error`
(a pivot is too small), or the result is as in C79. -/
theorem C79_lu_partial {P : PowEnv N K W WS R T} (hE : ∀ c, SkEnvOk (P.E c)) (hP : P.sm = .LU) {sqrt : T → T} (hs : SqrtOk sqrt) {nb : Int} (hnb : 0 < nb)
    {qrcp : Int → Int → (Int → Int) → (Int → Int → T) → Qrcp T} {fillY fillW : M (Buf T) Unit} {k p : Int} {gY gW : Int → T} {s : TqrSt T}
    (hA : CscIs A E) (hb : A.indexBase = .Zero) (hr : InRange A.nRows A.nCols E) (hnd : (E.map Entry.pos).Nodup)
    (hk : 1 ≤ k) (hkm : k < A.nRows) (hkn : k < A.nCols) (hm : A.nRows < 2147483648) (hn : A.nCols < 2147483648)
    (hp : 0 ≤ p) (hLm : ∀ B, LuFor P.L k A.nRows B) (hLn : ∀ B, LuFor P.L k A.nCols B)
    (hW : Fills (k * A.nRows) gW fillW) (hY : Fills (k * A.nCols) gY fillY) (hqrcp : ∀ Y, QrcpFor qrcp k A.nCols Y)
    {Om Z : Int → Int → T}
    (hOm : Om = if p % 2 = 0 then fun i j => gW (i + j * k) else prodEntry A.nCols (fun i j => gY (i + j * k)) (fun i j => toMat E j i))
    (hZ : Z = prodEntry A.nRows (gramPowerR A.nRows A.nCols (toMat E) Om (p / 2).toNat) (toMat E)) (hrank : FullColRank A.nCols k (fun i j => Z j i))
    (lead0 : p % 2 = 1 → FullColRank k k Om)
    (leadA : ∀ q : Nat, (q : Int) < p / 2 → FullColRank k k (prodEntry A.nRows (gramPowerR A.nRows A.nCols (toMat E) Om q) (toMat E)))
    (leadG : ∀ q : Nat, (q : Int) < p / 2 → FullColRank k k (gramPowerR A.nRows A.nCols (toMat E) Om (q + 1))) :
    M.wpx (qrcpRun P sqrt nb qrcp fillY fillW A k p) s (fun _ s' => ∃ (pi : Int → Int) (Q R R' Y : Int → Int → T),
      RowEquiv k A.nCols Z Y ∧ (∃ F, QrcpIs k A.nCols Y F ∧ ∀ j, F.piv j = pi j + 1) ∧
      HoldsVec s'.piv A.nCols (fun j => pi j + 1) ∧
      (∀ j, 0 ≤ j → j < A.nCols → 0 ≤ pi j ∧ pi j < A.nCols) ∧ (∀ i j, 0 ≤ i → i < A.nCols → 0 ≤ j → j < A.nCols → pi i = pi j → i = j) ∧
      HoldsC s'.q A.nRows A.nRows k Q ∧ OrthoCols A.nRows k Q ∧
      (∀ i j, j < i → R i j = 0) ∧ (∀ i, 0 ≤ i → i < k → R i i ≠ 0) ∧
      (∀ i j, InR A.nRows k i j → toMat E i (pi j) = prodEntry k Q R i j) ∧
      HoldsC s'.y k k A.nCols R' ∧
      (∀ i j, InR k A.nCols i j → R' i j = prodEntry A.nRows (fun i j => Q j i) (fun i j => toMat E i (pi j)) i j) ∧
      (∀ i j, InR k k i j → j < i → R' i j = 0)) (fun e _ => e = .runtime) := by
  have hfill : ∀ (ld c n : Int), 0 ≤ ld → n = ld * c → Alloc (Buf.fill n (0 : T)) .ColMajor ld ld c := fun ld c n hld hn i j hij => by
    rw [addr_colMajor]
    have := pos_range hij
    simp only [Buf.fill]
    rw [if_pos (by omega)]; simp
  unfold qrcpRun
  rw [M.wpx_bind]
  refine M.wpx_mono (Q := fun _ s' => s' = ⟨Buf.fill (A.nRows * k) 0, Buf.fill (k * A.nCols) 0, Buf.fill A.nCols 0, fun _ => .none⟩) (E := fun _ _ => False)
    (show _ = _ from rfl) ?_ (fun _ _ h => h.elim)
  rintro _ _ rfl
  rw [M.wpx_bind, M.wpx_zoom]
  refine M.wpx_mono (C78_lu_partial (s := (Buf.fill (k * A.nCols) 0, Buf.fill (A.nRows * k) 0)) hE hP hA hb hr hk hkm hkn hm hp hLm hLn hW hY
    (hfill _ _ _ (by omega) rfl) (hfill _ _ _ (by omega) (mul_comm _ _)) hOm hZ lead0 leadA leadG) ?_ (fun _ _ h => h)
  rintro _ ⟨y1, q1⟩ ⟨Y, S, hY1, hS, hre, hfull, haq, -, -⟩
  dsimp only at hY1 haq
  have haq' : Alloc q1 .ColMajor A.nRows A.nRows k := fun i j hij => by
    rw [addr_colMajor]
    have := pos_range hij
    have hq : i + j * A.nRows = (i + j * A.nRows) % k + (i + j * A.nRows) / k * k := (Int.emod_add_ediv_mul _ _).symm
    have := haq ((i + j * A.nRows) % k) ((i + j * A.nRows) / k) ⟨Int.emod_nonneg _ (by omega), Int.emod_lt_of_pos _ (by omega),
      Int.ediv_nonneg (by omega) (by omega), Int.ediv_lt_of_lt_mul (by omega) (by omega)⟩
    rw [addr_colMajor, ← hq] at this
    exact this
  refine M.wpx_of_wp (M.wp_mono (C74_tqrcp_partial (hE _).env hs hnb hA hb hr hnd hk hkm.le hkn.le hm.le hn le_rfl (s := ⟨q1, y1, Buf.fill A.nCols 0, fun _ => .none⟩)
    hY1 hS (hfull hrank) (hqrcp Y) haq' (fun i h0 h1 => by simp only [Buf.fill]; rw [if_pos (by omega)]; simp)) ?_)
  rintro _ s' ⟨pi, Q, R, Y', g1, g2, g3, g4, g5, g6, g7, g8, g9, g10, g11, g12, -⟩
  exact ⟨pi, Q, R, Y', Y, hre, g1, g2, g3, g4, g5, g6, g7, g8, g9, g10, g11, g12⟩

end

/-- A decomposition routine for real matrices with one row. -/
def rowLuR : RowLapack ℝ := ⟨fun _ _ A => (fun _ => 1, A), fun _ _ A => ⟨A, fun _ => 0⟩, fun _ _ F => F.f⟩

theorem rowLuR_ok {n : Int} (A : Int → Int → ℝ) : LuFor rowLuR 1 n A := by
  intro F hF
  refine ⟨⟨fun i => i, fun i h0 h1 => ⟨h0, h1⟩, fun i j _ _ _ _ h => h, fun i j hij => ?_⟩, fun i j hij hji => by have := hij.2.1; have := hij.2.2.1; omega⟩
  obtain ⟨h1, h2, h3, h4⟩ := hij
  have : i = 0 := by omega
  subst this
  simp [prodEntry, rowLuR, h3, hF 0 j ⟨le_rfl, by omega, h3, h4⟩]

/-- The hypotheses of `C78_lu_partial` and `C79_lu_partial` are met, with p = 2 and k = 1, by the real 2 x 2 diagonal matrix with entries 1 and 2; the random sketch is (1 1). -/
example : ∃ (P : PowEnv (2 ^ 128) Nat Int Int ℚ ℝ) (A : CscMat ℝ) (E : List (Entry ℝ)) (Z : Int → Int → ℝ),
    (∀ c, SkEnvOk (P.E c)) ∧ P.sm = .LU ∧ CscIs A E ∧ A.indexBase = .Zero ∧ InRange A.nRows A.nCols E ∧ A.nRows = 2 ∧ A.nCols = 2 ∧ (E.map Entry.pos).Nodup ∧
    (∀ B, LuFor P.L 1 2 B) ∧ Fills (1 * 2) (fun _ => (1 : ℝ)) (forI 0 2 fun i => M.wr i 1) ∧
    Z = prodEntry 2 (gramPowerR 2 2 (toMat E) (fun _ _ => 1) 1) (toMat E) ∧ FullColRank 2 1 (fun i j => Z j i) ∧
    (∀ q : Nat, (q : Int) < 2 / 2 → FullColRank 1 1 (prodEntry 2 (gramPowerR 2 2 (toMat E) (fun _ _ => 1) q) (toMat E))) ∧
    (∀ q : Nat, (q : Int) < 2 / 2 → FullColRank 1 1 (gramPowerR 2 2 (toMat E) (fun _ _ => 1) (q + 1))) := by
  refine ⟨⟨fun _ => exSkEnvR, fun _ => ⟨0, 7⟩, 1, 1, rowLuR, .LU⟩, cscOf 2 2 [0, 1, 2] [⟨0, 0, 1⟩, ⟨1, 1, 2⟩], [⟨0, 0, 1⟩, ⟨1, 1, 2⟩], _, fun _ => exSkEnvR_ok, rfl,
    ⟨rfl, csIs_ofList (n := 2) rfl rfl rfl (by decide) (by decide)⟩, rfl, by simp [InRange, cscOf], rfl, rfl, by simp [Entry.pos],
    fun B => rowLuR_ok B, fun _ hb => writeVec_spec (by decide) hb, rfl, ?_, ?_, ?_⟩
  · intro x hx j h0 h1
    obtain rfl : j = 0 := by omega
    have := hx 0 (by norm_num) (by norm_num)
    simpa [prodEntry, gramPowerR, toMat, Finset.sum_range_succ] using this
  · intro q hq x hx j h0 h1
    obtain rfl : j = 0 := by omega
    obtain rfl : q = 0 := by omega
    have := hx 0 (by norm_num) (by norm_num)
    simpa [prodEntry, gramPowerR, toMat, Finset.sum_range_succ] using this
  · intro q hq x hx j h0 h1
    obtain rfl : j = 0 := by omega
    obtain rfl : q = 0 := by omega
    have := hx 0 (by norm_num) (by norm_num)
    simpa [prodEntry, gramPowerR, toMat, Finset.sum_range_succ] using this

/-- An environment with rational numbers. -/
def exSkEnvRat : SkEnv (2 ^ 128) Nat Int Int ℚ ℚ :=
  ⟨⟨fun lt l => l.mergeSort fun a b => !lt b a, [], 4⟩, ⟨4, fun _ _ i => i, fun a b => (a, b), fun w => w, fun w => w.toNat⟩, 1, exGenQ, fun x => x, fun _ l => l⟩

theorem exSkEnvRat_ok : SkEnvOk exSkEnvRat := ⟨⟨mergeSort_sortOk, by norm_num [exSkEnvRat]⟩, Or.inr rfl, Or.inr rfl, rfl, fun _ l => List.Perm.refl l⟩

/-- Power iteration with LU for the 2 x 2 matrix whose only entry that is not 0 is at the second position of the diagonal. -/
def luRun : Res Unit × Buf ℚ × Buf ℚ :=
  powerIter ⟨fun _ => exSkEnvRat, fun _ => ⟨0, 7⟩, 1 / 1000, 1 / 1000, rowLu, .LU⟩ (forI 0 2 fun i => M.wr i 1) (forI 0 2 fun i => M.wr i 1)
    (cscOf 2 2 [0, 0, 1] [⟨1, 1, 1⟩]) 1 2 (Buf.alloc ℚ 2, Buf.alloc ℚ 2)

/-- C78 fails with stabilisation by LU for the matrix diag(0, 1), k = 1, p = 2 and the random sketch (1 1): Z = (0 1) has independent rows and the call returns, but the rows of Y do not
span the same space (here division by 0 gives 0; with floating-point numbers the entries of Y are NaN). -/
theorem C78_lu_counterexample : (∀ B, LuFor rowLu 1 2 B) ∧ CscIs (cscOf 2 2 [0, 0, 1] [⟨1, 1, (1 : ℚ)⟩]) [⟨1, 1, 1⟩] ∧
    ∃ Z : Int → Int → ℚ, Z = prodEntry 2 (gramPowerR 2 2 (toMat [⟨1, 1, 1⟩]) (fun _ _ => 1) 1) (toMat [⟨1, 1, 1⟩]) ∧ FullColRank 2 1 (fun i j => Z j i) ∧
    luRun.1 = .ok () ∧ ∃ Y, HoldsC luRun.2.1 1 1 2 Y ∧ ¬ RowEquiv 1 2 Z Y := by
  refine ⟨fun B => rowLu_ok B, ⟨rfl, csIs_ofList (n := 2) rfl rfl rfl (by decide) (by decide)⟩, _, rfl, ?_, by decide +kernel, fun _ _ => 0, ?_, ?_⟩
  · intro x hx j h0 h1
    obtain rfl : j = 0 := by omega
    have := hx 1 (by norm_num) (by norm_num)
    simpa [prodEntry, gramPowerR, toMat, Finset.sum_range_succ] using this
  · rintro i j ⟨h1, h2, h3, h4⟩
    rw [addr_colMajor]
    obtain rfl : i = 0 := by omega
    rcases (by omega : j = 0 ∨ j = 1) with rfl | rfl <;> decide +kernel
  · rintro ⟨⟨P, hP⟩, -⟩
    have := hP 0 1 ⟨le_rfl, by norm_num, by norm_num, by norm_num⟩
    simp [prodEntry, gramPowerR, toMat, Finset.sum_range_succ] at this

end RB
