import Verif.Model.ExLowRank
import Verif.Spec.Examples
import Verif.Lemmas.ExLapack
import Verif.Lemmas.MatBridge
import Verif.Props.Spmm

/-! # The QB decomposition: steps -/

namespace RB
open Spec

variable {T : Type}

/-! ## The sparse matrix during the computation -/

/-- `A'` is the object `A` with entries `E`, possibly rearranged. -/
def SpSt (A : SpMat T) (E : List (Entry T)) (A' : SpMat T) : Prop := SameObject A A' ∧ ∃ E', SpHolds A' E' ∧ E'.Perm E

theorem Spec.SameObject.refl (A : SpMat T) : SameObject A A := by
  cases A <;> simp [SameObject]

theorem Spec.SameObject.trans {A B C : SpMat T} (h1 : SameObject A B) (h2 : SameObject B C) : SameObject A C := by
  cases A <;> cases B <;> cases C <;> simp_all [SameObject]

theorem Spec.SameObject.rows {A B : SpMat T} (h : SameObject A B) : spRows B = spRows A := by
  cases A <;> cases B <;> simp_all [SameObject, spRows]

theorem Spec.SameObject.cols {A B : SpMat T} (h : SameObject A B) : spCols B = spCols A := by
  cases A <;> cases B <;> simp_all [SameObject, spCols]

theorem Spec.SameObject.base {A B : SpMat T} (h : SameObject A B) : spBase B = spBase A := by
  cases A <;> cases B <;> simp_all [SameObject, spBase]

theorem Spec.InRange.perm {m n : Int} {E E' : List (Entry T)} (h : InRange m n E) (hp : E'.Perm E) : InRange m n E' := fun e he => h e (hp.mem_iff.1 he)

theorem Spec.Supported.same [CommRing T] {A A' : SpMat T} (h : SameObject A A') {opA opB : Op} {layout : Layout} {d m : Int} {W W' : List (Entry T)}
    (hs : Supported A opA layout opB d m W) (hp : W'.Perm W) : Supported A' opA layout opB d m W' := by
  have hall : (∀ e ∈ W, e.col < 2 ^ 31) → ∀ e ∈ W', e.col < 2 ^ 31 := fun h e he => h e (hp.mem_iff.1 he)
  match A, A', h with
  | .coo A, .coo A', h =>
    have hn : A'.nnz = A.nnz := h.2.2.1
    have hs' : CooOk A.nnz m W := by cases opA <;> exact hs
    have : CooOk A'.nnz m W' := by
      rw [hn]
      rcases hs' with h | h | ⟨h1, h2, h3⟩
      · exact Or.inl (RegularOk.perm h hp.symm)
      · exact Or.inr (Or.inl h)
      · exact Or.inr (Or.inr ⟨h1, by rw [hp.length_eq]; exact h2, h3⟩)
    cases opA <;> exact this
  | .csc A, .csc A', h =>
    cases opA <;> simp only [Supported] at hs ⊢ <;> split_ifs at hs ⊢ <;> first | exact hs | exact RegularOk.perm hs hp.symm | exact hall hs
  | .csr A, .csr A', h =>
    cases opA <;> simp only [Supported] at hs ⊢ <;> split_ifs at hs ⊢ <;> first | exact hs | exact RegularOk.perm hs hp.symm | exact hall hs
  | .coo A, .csc A', h => cases h
  | .coo A, .csr A', h => cases h
  | .csc A, .coo A', h => cases h
  | .csc A, .csr A', h => cases h
  | .csr A, .coo A', h => cases h
  | .csr A, .csc A', h => cases h

theorem windowOk_whole {A : SpMat T} {m n : Int} (hm : spRows A = m) (hn : spCols A = n) : WindowOk A m n 0 0 := by
  cases A <;> simp_all [WindowOk, spRows, spCols]

/-! ## Buffers -/

theorem cells_alloc {b' : Buf T} {m k : Int} {X : Int → Int → T} (hm : 1 ≤ m) (hX : HoldsC b' m m k X) :
    ∀ p, 0 ≤ p → p < m * k → b' p ≠ .none := by
  intro p h0 h1
  have hj0 : 0 ≤ p / m := Int.ediv_nonneg h0 (by omega)
  have hj1 : p / m < k := Int.ediv_lt_of_lt_mul (by omega) (by rw [mul_comm]; exact h1)
  have := hX (p % m) (p / m) ⟨Int.emod_nonneg _ (by omega), Int.emod_lt_of_pos _ (by omega), hj0, hj1⟩
  rw [addr_colMajor, mul_comm (p / m) m, Int.emod_add_mul_ediv] at this
  rw [this]; simp

theorem sameOutside_vec {b b' : Buf T} {m k : Int} (h : SameOutside b b' .ColMajor m m k) : SameOutsideVec b b' (m * k) := by
  intro p hp
  refine h p fun i j hij he => ?_
  rw [addr_colMajor] at he
  have := pos_range hij
  omega

theorem Spec.SameOutsideVec.trans {a b c : Buf T} {n : Int} (h1 : SameOutsideVec a b n) (h2 : SameOutsideVec b c n) : SameOutsideVec a c n :=
  fun p hp => (h2 p hp).trans (h1 p hp)

theorem alloc_of_vec {b : Buf T} {m k : Int} (h : ∀ p, 0 ≤ p → p < m * k → b p ≠ .none) : Alloc b .ColMajor m m k := by
  intro i j hij
  rw [addr_colMajor]
  exact h _ (pos_range hij).1 (pos_range hij).2

/-! ## Steps -/

section
variable [CommRing T] [DecidableEq T]

/-- The fixed data of a run. -/
structure QbData (A : SpMat T) (E : List (Entry T)) (m n : Int) : Prop where
  base : spBase A = .Zero
  range : InRange (spRows A) (spCols A) E
  rows : spRows A = m
  cols : spCols A = n
  sup : Supported A .NoTrans .ColMajor .NoTrans m n E
  supT : Supported A .Trans .ColMajor .NoTrans n m (E.map Entry.swap)

/-- The state of a run that started in `t0`. -/
structure QbInv (A : SpMat T) (E : List (Entry T)) (m n k : Int) (t0 t : QbSt T) : Prop where
  sp : SpSt A E t.A
  q : ∀ p, 0 ≤ p → p < m * k → t.q p ≠ .none
  b : ∀ p, 0 ≤ p → p < n * k → t.b p ≠ .none
  w : ∀ p, 0 ≤ p → p < k → t.work p ≠ .none
  fq : SameOutsideVec t0.q t.q (m * k)
  fb : SameOutsideVec t0.b t.b (n * k)
  fw : SameOutsideVec t0.work t.work k

variable {A : SpMat T} {E : List (Entry T)} {m n k : Int} {t0 t : QbSt T}

theorem qbMulA_spec {env : Env T} (henv : EnvOk env) (hD : QbData A E m n) (hm : 1 ≤ m) (hn : 1 ≤ n) (hk : 0 ≤ k) (h : QbInv A E m n k t0 t)
    {S : Int → Int → T} (hS : HoldsC t.b n n k S) :
    M.wp (qbMulA env m n k) t (fun _ t' => QbInv A E m n k t0 t' ∧ t'.b = t.b ∧
      ∃ Q, HoldsC t'.q m m k Q ∧ asM m k Q = asM m n (toMat E) * asM n k S) := by
  obtain ⟨hso, E', hE', hp⟩ := h.sp
  have hr' : InRange (spRows t.A) (spCols t.A) E' := by rw [hso.rows, hso.cols]; exact hD.range.perm hp
  have hrmn : InRange m n E' := by rw [← hD.rows, ← hD.cols]; exact hD.range.perm hp
  unfold qbMulA
  rw [M.wp_bind, M.wp_get, M.wp_zoom]
  refine M.wp_mono (C31_left_spmm_partial (C := fun _ _ => 0) henv hE' (hso.base.trans hD.base) hr' (fun _ => ?_)
    (windowOk_whole (hso.rows.trans hD.rows) (hso.cols.trans hD.cols)) (by omega) hk (by omega) (le_refl (n : Int)) (le_refl (m : Int)) (fun _ => hS)
    (alloc_of_vec h.q) (fun h => absurd rfl h)) ?_
  · show Supported t.A .NoTrans .ColMajor .NoTrans m n (window 0 0 m n E')
    rw [window_whole hrmn]
    exact hD.sup.same hso hp
  · rintro _ ⟨A', q'⟩ ⟨g1, g2, g3, E'', g4, g5⟩
    dsimp only at g1 g2 g3 g4
    refine ⟨⟨⟨hso.trans g3, E'', g4, g5.trans hp⟩, cells_alloc hm g1, h.b, h.w, h.fq.trans (sameOutside_vec g2), h.fb, h.fw⟩, rfl, _, g1, ?_⟩
    rw [← asM_mul]
    refine asM_congr fun i j _ => ?_
    rw [one_mul, zero_mul, add_zero, ← subMat_perm hp]
    congr 1
    funext i j; simp [opMat, subMat]

theorem qbMulAT_spec {env : Env T} (henv : EnvOk env) (hD : QbData A E m n) (hm : 1 ≤ m) (hn : 1 ≤ n) (hk : 0 ≤ k) (h : QbInv A E m n k t0 t)
    {Q : Int → Int → T} (hQ : HoldsC t.q m m k Q) :
    M.wp (qbMulAT env m n k) t (fun _ t' => QbInv A E m n k t0 t' ∧ t'.q = t.q ∧
      ∃ S, HoldsC t'.b n n k S ∧ asM n k S = (asM m n (toMat E)).transpose * asM m k Q) := by
  obtain ⟨hso, E', hE', hp⟩ := h.sp
  have hr' : InRange (spRows t.A) (spCols t.A) E' := by rw [hso.rows, hso.cols]; exact hD.range.perm hp
  have hrmn : InRange m n E' := by rw [← hD.rows, ← hD.cols]; exact hD.range.perm hp
  unfold qbMulAT
  rw [M.wp_bind, M.wp_get, M.wp_zoom]
  refine M.wp_mono (C31_left_spmm_partial (C := fun _ _ => 0) henv hE' (hso.base.trans hD.base) hr' (fun _ => ?_)
    (windowOk_whole (hso.rows.trans hD.rows) (hso.cols.trans hD.cols)) (by omega) hk (by omega) (le_refl (m : Int)) (le_refl (n : Int)) (fun _ => hQ)
    (alloc_of_vec h.b) (fun h => absurd rfl h)) ?_
  · show Supported t.A .Trans .ColMajor .NoTrans n m ((window 0 0 m n E').map Entry.swap)
    rw [window_whole hrmn]
    exact hD.supT.same hso (hp.map _)
  · rintro _ ⟨A', q'⟩ ⟨g1, g2, g3, E'', g4, g5⟩
    dsimp only at g1 g2 g3 g4
    refine ⟨⟨⟨hso.trans g3, E'', g4, g5.trans hp⟩, h.q, cells_alloc hn g1, h.w, h.fq, h.fb.trans (sameOutside_vec g2), h.fw⟩, rfl, _, g1, ?_⟩
    rw [← asM_T, ← asM_mul]
    refine asM_congr fun i j _ => ?_
    rw [one_mul, zero_mul, add_zero, ← subMat_perm hp]
    congr 1
    funext i j; simp [opMat, subMat]

theorem qbProject_spec {env : Env T} (henv : EnvOk env) (hD : QbData A E m n) (hm : 1 ≤ m) (hn : 1 ≤ n) (hk : 1 ≤ k) (h : QbInv A E m n k t0 t)
    {Q : Int → Int → T} (hQ : HoldsC t.q m m k Q) :
    M.wp (qbProject env m n k) t (fun _ t' => QbInv A E m n k t0 t' ∧ t'.q = t.q ∧
      ∃ B, HoldsC t'.b k k n B ∧ asM k n B = (asM m k Q).transpose * asM m n (toMat E)) := by
  obtain ⟨hso, E', hE', hp⟩ := h.sp
  have hr' : InRange (spRows t.A) (spCols t.A) E' := by rw [hso.rows, hso.cols]; exact hD.range.perm hp
  have hrmn : InRange m n E' := by rw [← hD.rows, ← hD.cols]; exact hD.range.perm hp
  unfold qbProject
  rw [M.wp_bind, M.wp_get, M.wp_zoom]
  refine M.wp_mono (C32_right_spmm_partial (C := fun _ _ => 0) henv hE' (hso.base.trans hD.base) hr' (fun _ => ?_)
    (windowOk_whole (hso.rows.trans hD.rows) (hso.cols.trans hD.cols)) (by omega) (by omega) (by omega) (le_refl (m : Int)) (le_refl (k : Int)) (fun _ => hQ)
    (alloc_of_vec (by rw [mul_comm]; exact h.b)) (fun h => absurd rfl h)) ?_
  · show Supported t.A .Trans .RowMajor .Trans n m ((window 0 0 m n E').map Entry.swap)
    rw [window_whole hrmn]
    have := hD.supT.same hso (hp.map Entry.swap)
    revert this
    cases t.A <;> simp [Supported]
  · rintro _ ⟨A', q'⟩ ⟨g1, g2, g3, E'', g4, g5⟩
    dsimp only at g1 g2 g3 g4
    refine ⟨⟨⟨hso.trans g3, E'', g4, g5.trans hp⟩, h.q, ?_, h.w, h.fq, h.fb.trans ?_, h.fw⟩, rfl, _, g1, ?_⟩
    · rw [mul_comm]; exact cells_alloc hk g1
    · rw [mul_comm]; exact sameOutside_vec g2
    rw [← asM_T, ← asM_mul]
    refine asM_congr fun i j _ => ?_
    rw [one_mul, zero_mul, add_zero, ← subMat_perm hp]
    congr 1
    funext i j; simp [opMat, subMat]

theorem householder_spec {orth : Int → Int → (Int → Int → T) → (Int → Int → T)} {tau : T} {r c : Int} {X : Int → Int → T} {s : Buf T × Buf T}
    (hr : 1 ≤ r) (hc : 0 ≤ c) (hcr : c ≤ r) (ho : OrthFor orth r c) (hX : HoldsC s.1 r r c X) (hw : ∀ i, 0 ≤ i → i < c → s.2 i ≠ .none) :
    M.wp (householderOrth orth tau r c) s (fun _ s' => (∃ Q R, HoldsC s'.1 r r c Q ∧ (asM r c Q).transpose * asM r c Q = 1 ∧ asM r c X = asM r c Q * asM c c R) ∧
      SameOutsideVec s.1 s'.1 (r * c) ∧ (∀ i, 0 ≤ i → i < c → s'.2 i ≠ .none) ∧ SameOutsideVec s.2 s'.2 c) := by
  unfold householderOrth
  have hX' : ∀ i j, InR r c i j → s.1 (i + j * r) = .val (X i j) := fun i j hij => by rw [← addr_colMajor]; exact hX i j hij
  simp only [M.wp_bind, wp_blasCheck, onFst, onSnd, M.wp_zoom]
  refine ⟨by omega, by omega, by omega, ?_⟩
  refine M.wp_mono (readMat_spec (by omega) hc hX') ?_
  rintro F _ ⟨rfl, hF⟩
  rw [min_eq_right hcr]
  refine M.wp_mono (writeVec_spec (x := fun _ => tau) hc hw) ?_
  rintro _ w ⟨hw1, hw2⟩
  refine ⟨hcr, ?_⟩
  refine M.wp_mono (writeMat_spec (by omega) hc le_rfl (fun i j hij => by rw [hX' i j hij]; simp)) ?_
  intro _ b' hb'
  obtain ⟨h1, R, h2⟩ := ho F
  refine ⟨⟨_, R, fun i j hij => by rw [addr_colMajor]; exact hb'.cells i j hij, ortho_asM.1 h1, ?_⟩, ?_, fun i h0 h1 => by rw [hw1 i h0 h1]; simp, hw2⟩
  · rw [← asM_mul]; exact asM_congr fun i j hij => by rw [h2 i j hij, hF i j hij]
  · exact sameOutside_vec fun p hp => hb'.outside p fun i j hij => by rw [← addr_colMajor]; exact hp i j hij

theorem qbOrthQ_spec {orth : Int → Int → (Int → Int → T) → (Int → Int → T)} {tau : T} (hm : 1 ≤ m) (hk : 0 ≤ k) (hkm : k ≤ m)
    (ho : OrthFor orth m k) (h : QbInv A E m n k t0 t) {X : Int → Int → T} (hX : HoldsC t.q m m k X) :
    M.wp (qbOrthQ orth tau m k) t (fun _ t' => QbInv A E m n k t0 t' ∧ t'.b = t.b ∧
      ∃ Q R, HoldsC t'.q m m k Q ∧ (asM m k Q).transpose * asM m k Q = 1 ∧ asM m k X = asM m k Q * asM k k R) := by
  unfold qbOrthQ
  rw [M.wp_zoom]
  refine M.wp_mono (householder_spec hm hk hkm ho hX h.w) ?_
  rintro _ ⟨q', w'⟩ ⟨⟨Q, R, g1, g2, g3⟩, g4, g5, g6⟩
  exact ⟨⟨h.sp, cells_alloc hm g1, h.b, g5, h.fq.trans g4, h.fb, h.fw.trans g6⟩, rfl, Q, R, g1, g2, g3⟩

theorem qbOrthB_spec {orth : Int → Int → (Int → Int → T) → (Int → Int → T)} {tau : T} (hn : 1 ≤ n) (hk : 0 ≤ k) (hkn : k ≤ n)
    (ho : OrthFor orth n k) (h : QbInv A E m n k t0 t) {X : Int → Int → T} (hX : HoldsC t.b n n k X) :
    M.wp (qbOrthB orth tau n k) t (fun _ t' => QbInv A E m n k t0 t' ∧ t'.q = t.q ∧
      ∃ S R, HoldsC t'.b n n k S ∧ (asM n k S).transpose * asM n k S = 1 ∧ asM n k X = asM n k S * asM k k R) := by
  unfold qbOrthB
  rw [M.wp_zoom]
  refine M.wp_mono (householder_spec hn hk hkn ho hX h.w) ?_
  rintro _ ⟨q', w'⟩ ⟨⟨Q, R, g1, g2, g3⟩, g4, g5, g6⟩
  exact ⟨⟨h.sp, h.q, cells_alloc hn g1, g5, h.fq, h.fb.trans g4, h.fw.trans g6⟩, rfl, Q, R, g1, g2, g3⟩

end

end RB
