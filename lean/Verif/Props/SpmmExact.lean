import Verif.Lemmas.SpmmUndef
import Verif.Props.Sketch

/-!
# Products: the excluded cases are undefined (C31, C32, C37)

`C31_left_spmm_partial`, `C32_right_spmm_partial` and the theorems of C37 exclude some inputs. For COO matrices and sparse operators, and for the
column kernels of compressed matrices, the theorems below show that nothing else can be excluded: on every excluded input the execution is
undefined, whatever the schedule, the number of threads and the sort function.
-/

namespace RB
open Spec

variable {T : Type}

section
variable [CommRing T] [DecidableEq T]

theorem not_cooOk {nnz m : Int} {W : List (Entry T)} (h : ¬ CooOk nnz m W) :
    ¬ RegularOk m W ∧ (m = 0 → nnz < 2) ∧ (2 ≤ m → nnz < m * W.length) := by
  refine ⟨fun g => h (Or.inl g), fun g => ?_, fun g => ?_⟩
  · by_contra hn
    exact h (Or.inr (Or.inl ⟨g, by omega⟩))
  · by_contra hn
    exact h (Or.inr (Or.inr ⟨g, by omega, fun x s => by ring⟩))

/-- C31, COO matrices: where `C31_left_spmm_partial` does not apply, `left_spmm` is undefined. -/
theorem C31_coo_undefined {env : Env T} (henv : EnvOk env) {A : CooMat T} {E : List (Entry T)}
    (h : SpHolds (.coo A) E) (hb : A.indexBase = .Zero) {layout : Layout} {opA opB : Op} {d n m ro co : Int}
    {alpha beta : T} {B b : Buf T} {ldb ldc : Int} {C : Int → Int → T} (ha : alpha ≠ 0)
    (hK : ¬ CooOk A.nnz m (opEntries opA (window ro co (rowsOf opA d m) (colsOf opA d m) E)))
    (hw : WindowOk (.coo A) (rowsOf opA d m) (colsOf opA d m) ro co) (hd : 0 ≤ d) (hn : 1 ≤ n) (hm : 0 ≤ m)
    (hldb : LdOk layout ldb (rowsOf opB m n) (colsOf opB m n)) (hldc : LdOk layout ldc d n)
    (hal : Alloc b layout ldc d n) (hC : beta ≠ 0 → Holds b layout ldc d n C) :
    (leftSpmm env layout opA opB d n m alpha ro co B ldb beta ldc (.coo A, b)).1 = .ub := by
  obtain ⟨h, hs⟩ := h
  have ha' : (alpha == 0) = false := by simpa using ha
  have hC' : (beta == 0) = false → Holds b layout ldc d n C := fun g => hC (by simpa using g)
  obtain ⟨k1, k2, k3⟩ := not_cooOk hK
  show M.Undef _ _
  unfold leftSpmm
  refine M.Undef.after ?_
  rw [M.wp_get]
  cases opA with
  | NoTrans =>
    exact M.Undef.zoom (leftSpmmCooN_undef henv.srt h hb hs ha' hw.1 hw.2 hd hm hn k1 k2 k3 hldb hldc hal hC' env.sched)
  | Trans =>
    obtain ⟨At, t1, t2, t3, t4, t5, t6, t7, t8, t9, t10, -⟩ := C29_coo h
    have hnn : At.nnz = A.nnz := by rw [t2.nnz, h.nnz]; simp
    refine M.Undef.after ?_
    rw [M.wp_lift]
    refine ⟨At, t1, M.Undef.zoom (leftSpmmCooN_undef henv.srt t2 (by rw [t6]; exact hb) (t10 hs) ha' (by rw [t3]; exact hw.2) (by rw [t4]; exact hw.1) hd hm hn
      ?_ ?_ ?_ hldb hldc hal hC' env.sched)⟩
    · rw [window_swap]; exact k1
    · rw [hnn]; exact k2
    · rw [hnn, window_swap]; exact k3

/-- C31, COO matrices: with at least one column in C and `alpha ≠ 0`, `left_spmm` returns if and only if `CooOk` holds. -/
theorem C31_coo_exact {env : Env T} (henv : EnvOk env) {A : CooMat T} {E : List (Entry T)}
    (h : SpHolds (.coo A) E) (hb : A.indexBase = .Zero) (hr : InRange A.nRows A.nCols E) {layout : Layout} {opA opB : Op} {d n m ro co : Int}
    {alpha beta : T} {B b : Buf T} {ldb ldc : Int} {Bm C : Int → Int → T} (ha : alpha ≠ 0)
    (hw : WindowOk (.coo A) (rowsOf opA d m) (colsOf opA d m) ro co) (hd : 0 ≤ d) (hn : 1 ≤ n) (hm : 0 ≤ m)
    (hldb : LdOk layout ldb (rowsOf opB m n) (colsOf opB m n)) (hldc : LdOk layout ldc d n)
    (hB : Holds B layout ldb (rowsOf opB m n) (colsOf opB m n) Bm)
    (hal : Alloc b layout ldc d n) (hC : beta ≠ 0 → Holds b layout ldc d n C) :
    (leftSpmm env layout opA opB d n m alpha ro co B ldb beta ldc (.coo A, b)).1 =
      if m = 0 ∧ 2 ≤ A.nnz ∨ m = 1 ∨ 2 ≤ m ∧ ((∃ e ∈ opEntries opA (window ro co (rowsOf opA d m) (colsOf opA d m) E), e.col ≠ 0) ∨
        m * (opEntries opA (window ro co (rowsOf opA d m) (colsOf opA d m) E)).length ≤ A.nnz) then .ok () else .ub := by
  set W := opEntries opA (window ro co (rowsOf opA d m) (colsOf opA d m) E) with hW
  have hiff : CooOk A.nnz m W ↔ (m = 0 ∧ 2 ≤ A.nnz ∨ m = 1 ∨ 2 ≤ m ∧ ((∃ e ∈ W, e.col ≠ 0) ∨ m * W.length ≤ A.nnz)) := by
    constructor
    · rintro (⟨g1, g2⟩ | g | ⟨g1, g2, -⟩)
      · by_cases hm1 : m = 1
        · exact Or.inr (Or.inl hm1)
        · refine Or.inr (Or.inr ⟨by omega, ?_⟩)
          by_cases hne : W = []
          · right; rw [hne, h.1.nnz]; simp
          · exact Or.inl (g2 (by omega) hne)
      · exact Or.inl g
      · exact Or.inr (Or.inr ⟨g1, Or.inr g2⟩)
    · rintro (g | g | ⟨g1, g2 | g2⟩)
      · exact Or.inr (Or.inl g)
      · exact Or.inl ⟨by omega, fun g2 => by omega⟩
      · exact Or.inl ⟨by omega, fun _ _ => g2⟩
      · exact Or.inr (Or.inr ⟨g1, g2, fun x s => by ring⟩)
  by_cases hK : CooOk A.nnz m W
  · rw [if_pos (hiff.mp hK)]
    obtain ⟨a, s', e, -⟩ := C31_left_spmm_partial henv h hb hr (layout := layout) (opB := opB) (n := n) (alpha := alpha) (beta := beta) (C := C)
      (fun _ => hK) hw hd (by omega) hm hldb hldc (fun _ => hB) hal hC
    rw [e]
  · rw [if_neg (hiff.not.mp hK)]
    exact C31_coo_undefined henv h hb ha hK hw hd hn hm hldb hldc hal hC

/-- C31, compressed matrices: the column kernel for CSC matrices (and transposed CSR matrices), whose arrays have exactly the prescribed
lengths, is undefined where `C31_left_spmm_partial` does not apply. -/
theorem C31_compressed_undefined {env : Env T} {A : SpMat T} {E : List (Entry T)} {opA : Op}
    (hA : match A, opA with | .csc _, .NoTrans => True | .csr _, .Trans => True | _, _ => False)
    (h : SpHolds A E) (hb : spBase A = .Zero) (hx : ExactArrays A) {layout : Layout} {opB : Op} {d n m : Int}
    {alpha beta : T} {B b : Buf T} {ldb ldc : Int} {C : Int → Int → T} (ha : alpha ≠ 0)
    (hl : ¬ (layout = .RowMajor ∧ opB = .NoTrans)) (hK : ¬ RegularOk m (opEntries opA E))
    (hw : WindowOk A (rowsOf opA d m) (colsOf opA d m) 0 0) (hd : 0 ≤ d) (hn : 1 ≤ n) (hm : 0 ≤ m)
    (hldb : LdOk layout ldb (rowsOf opB m n) (colsOf opB m n)) (hldc : LdOk layout ldc d n)
    (hal : Alloc b layout ldc d n) (hC : beta ≠ 0 → Holds b layout ldc d n C) :
    (leftSpmm env layout opA opB d n m alpha 0 0 B ldb beta ldc (A, b)).1 = .ub := by
  have ha' : (alpha == 0) = false := by simpa using ha
  have hC' : (beta == 0) = false → Holds b layout ldc d n C := fun g => hC (by simpa using g)
  show M.Undef _ _
  unfold leftSpmm
  refine M.Undef.after ?_
  rw [M.wp_get]
  cases A with
  | coo A => exact hA.elim
  | csc A =>
    cases opA with
    | Trans => exact hA.elim
    | NoTrans =>
      obtain ⟨rfl, rfl, -, -⟩ := hw
      exact M.Undef.zoom (leftSpmmCscN_undef h hb ha' hl hd hm hn hK hx hldb hldc hal hC' env.sched env.nt)
  | csr A =>
    cases opA with
    | NoTrans => exact hA.elim
    | Trans =>
      obtain ⟨h3, h4, -, -⟩ := hw
      simp only [rowsOf, colsOf] at h3 h4
      subst h3 h4
      refine M.Undef.after ?_
      rw [M.wp_lift]
      refine ⟨_, rfl, M.Undef.zoom ?_⟩
      exact leftSpmmCscN_undef (A := mkCscExpert A.nCols A.nRows A.nnz A.vals A.colidxs A.rowptr A.indexBase) (E := E.map Entry.swap)
        ⟨by simp only [mkCscExpert]; rw [h.nnz]; simp, csIs_swap _ _ h.data⟩ hb ha' hl hd hm hn hK hx hldb hldc hal hC' env.sched env.nt

/-- C31, compressed matrices: the product returns if and only if `RegularOk` holds. -/
theorem C31_compressed_exact {env : Env T} (henv : EnvOk env) {A : SpMat T} {E : List (Entry T)} {opA : Op}
    (hA : match A, opA with | .csc _, .NoTrans => True | .csr _, .Trans => True | _, _ => False)
    (h : SpHolds A E) (hb : spBase A = .Zero) (hr : InRange (spRows A) (spCols A) E) (hx : ExactArrays A) {layout : Layout} {opB : Op} {d n m : Int}
    {alpha beta : T} {B b : Buf T} {ldb ldc : Int} {Bm C : Int → Int → T} (ha : alpha ≠ 0) (hl : ¬ (layout = .RowMajor ∧ opB = .NoTrans))
    (hw : WindowOk A (rowsOf opA d m) (colsOf opA d m) 0 0) (hd : 0 ≤ d) (hn : 1 ≤ n) (hm : 0 ≤ m)
    (hldb : LdOk layout ldb (rowsOf opB m n) (colsOf opB m n)) (hldc : LdOk layout ldc d n)
    (hB : Holds B layout ldb (rowsOf opB m n) (colsOf opB m n) Bm)
    (hal : Alloc b layout ldc d n) (hC : beta ≠ 0 → Holds b layout ldc d n C) :
    (leftSpmm env layout opA opB d n m alpha 0 0 B ldb beta ldc (A, b)).1 =
      if m = 1 ∨ 2 ≤ m ∧ (E = [] ∨ ∃ e ∈ opEntries opA E, e.col ≠ 0) then .ok () else .ub := by
  have hem : opEntries opA E = [] ↔ E = [] := by cases opA <;> simp [opEntries]
  have hiff : RegularOk m (opEntries opA E) ↔ (m = 1 ∨ 2 ≤ m ∧ (E = [] ∨ ∃ e ∈ opEntries opA E, e.col ≠ 0)) := by
    constructor
    · rintro ⟨g1, g2⟩
      by_cases hm1 : m = 1
      · exact Or.inl hm1
      · refine Or.inr ⟨by omega, ?_⟩
        by_cases hne : E = []
        · exact Or.inl hne
        · exact Or.inr (g2 (by omega) (hem.not.mpr hne))
    · rintro (g | ⟨g1, g2 | g2⟩)
      · exact ⟨by omega, fun g2 => by omega⟩
      · exact ⟨by omega, fun _ hne => absurd (hem.mpr g2) hne⟩
      · exact ⟨by omega, fun _ _ => g2⟩
  by_cases hK : RegularOk m (opEntries opA E)
  · rw [if_pos (hiff.mp hK)]
    have hwin : window 0 0 (rowsOf opA d m) (colsOf opA d m) E = E := by
      cases A with
      | coo A => exact hA.elim
      | csc A => obtain ⟨w1, w2, -, -⟩ := hw; rw [← w1, ← w2]; exact window_whole hr
      | csr A => obtain ⟨w1, w2, -, -⟩ := hw; rw [← w1, ← w2]; exact window_whole hr
    have hS : Supported A opA layout opB d m (opEntries opA (window 0 0 (rowsOf opA d m) (colsOf opA d m) E)) := by
      rw [hwin]
      cases A <;> cases opA <;> first | exact hA.elim | (simp only [Supported]; rw [if_neg hl]; exact hK)
    obtain ⟨a, s', e, -⟩ := C31_left_spmm_partial henv h hb hr (layout := layout) (opB := opB) (n := n) (alpha := alpha) (beta := beta) (C := C)
      (fun _ => hS) hw hd (by omega) hm hldb hldc (fun _ => hB) hal hC
    rw [e]
  · rw [if_neg (hiff.not.mp hK)]
    exact C31_compressed_undefined hA h hb hx ha hl hK hw hd hn hm hldb hldc hal hC

theorem alloc_flip {b : Buf T} {layout : Layout} {ld m n : Int} (h : Alloc b layout ld m n) : Alloc b layout.flip ld n m :=
  fun i j hij => by rw [addr_flip]; exact h j i ⟨hij.2.2.1, hij.2.2.2, hij.1, hij.2.1⟩

theorem ldOk_flip {layout : Layout} {ld m n : Int} (h : LdOk layout ld m n) : LdOk layout.flip ld n m := by cases layout <;> exact h

/-- C32, COO matrices: where `C32_right_spmm_partial` does not apply, `right_spmm` is undefined. -/
theorem C32_coo_undefined {env : Env T} (henv : EnvOk env) {B : CooMat T} {E : List (Entry T)}
    (h : SpHolds (.coo B) E) (hb : B.indexBase = .Zero) {layout : Layout} {opA opB : Op} {m d n iOff jOff : Int}
    {alpha beta : T} {A b : Buf T} {lda ldc : Int} {C : Int → Int → T} (ha : alpha ≠ 0)
    (hK : ¬ CooOk B.nnz n (opEntries opB.flip (window iOff jOff (rowsOf opB n d) (colsOf opB n d) E)))
    (hw : WindowOk (.coo B) (rowsOf opB n d) (colsOf opB n d) iOff jOff) (hm : 1 ≤ m) (hd : 0 ≤ d) (hn : 0 ≤ n)
    (hlda : LdOk layout lda (rowsOf opA m n) (colsOf opA m n)) (hldc : LdOk layout ldc m d)
    (hal : Alloc b layout ldc m d) (hC : beta ≠ 0 → Holds b layout ldc m d C) :
    (rightSpmm env layout opA opB m d n alpha A lda iOff jOff beta ldc (.coo B, b)).1 = .ub := by
  unfold rightSpmm
  have hro : rowsOf opA n m = colsOf opA m n := by cases opA <;> rfl
  have hco : colsOf opA n m = rowsOf opA m n := by cases opA <;> rfl
  refine C31_coo_undefined (C := fun i j => C j i) henv h hb ha (by rw [opEntries_flip_window]; exact hK) (by cases opB <;> exact hw) hd hm hn
    (by rw [hro, hco]; exact ldOk_flip hlda) (ldOk_flip hldc) (alloc_flip hal) fun g => holds_flip.mpr (hC g)

end

section
variable {N : Nat} {K W WS R : Type}
variable [CommRing T] [DecidableEq T] [Field R] [LinearOrder R] [FloorRing R]

theorem lskgesView_undef {E : SkEnv N K W WS R T} (hE : SkEnvOk E) {S : SparseSkOp N K T} {L : List (Entry T)} (hL : L ≠ []) (h : OpHolds S L)
    {layout : Layout} {opS opA : Op} {d n m ro co : Int} {alpha beta : T} {A b : Buf T} {lda ldb : Int} {C : Int → Int → T} (ha : alpha ≠ 0)
    (hK : ¬ CooOk L.length m (opEntries opS (window ro co (rowsOf opS d m) (colsOf opS d m) L)))
    (hw1 : rowsOf opS d m ≤ S.nRows) (hw2 : colsOf opS d m ≤ S.nCols) (hd : 0 ≤ d) (hn : 1 ≤ n) (hm : 0 ≤ m)
    (hlda : LdOk layout lda (rowsOf opA m n) (colsOf opA m n)) (hldb : LdOk layout ldb d n)
    (hal : Alloc b layout ldb d n) (hC : beta ≠ 0 → Holds b layout ldb d n C) :
    M.Undef (lskgesView E layout opS opA d n m alpha ro co A lda beta ldb) (S, b) := by
  obtain ⟨s, e, h1, h2⟩ := cooViewOfSkop_run (G := E.GS) (sqrt := E.sqrt) (order := E.order) hL h
  unfold lskgesView
  refine M.Undef.after ?_
  simp only [onSp, M.wp_zoom]
  refine ⟨_, _, e, M.Undef.zoom ?_⟩
  refine C31_coo_undefined hE.env (A := ⟨S.nRows, S.nCols, false, S.nnz, .Zero, S.vals, S.rows, S.cols, s⟩) ⟨h1, h2⟩ rfl ha
    (by show ¬ CooOk S.nnz m _; rw [show S.nnz = _ from h1.nnz]; exact hK) ⟨hw1, hw2⟩ hd hn hm hlda hldb hal hC

theorem rskgesView_undef {E : SkEnv N K W WS R T} (hE : SkEnvOk E) {S : SparseSkOp N K T} {L : List (Entry T)} (hL : L ≠ []) (h : OpHolds S L)
    {layout : Layout} {opA opS : Op} {m d n ro co : Int} {alpha beta : T} {A b : Buf T} {lda ldb : Int} {C : Int → Int → T} (ha : alpha ≠ 0)
    (hK : ¬ CooOk L.length n (opEntries opS.flip (window ro co (rowsOf opS n d) (colsOf opS n d) L)))
    (hw1 : rowsOf opS n d ≤ S.nRows) (hw2 : colsOf opS n d ≤ S.nCols) (hm : 1 ≤ m) (hd : 0 ≤ d) (hn : 0 ≤ n)
    (hlda : LdOk layout lda (rowsOf opA m n) (colsOf opA m n)) (hldb : LdOk layout ldb m d)
    (hal : Alloc b layout ldb m d) (hC : beta ≠ 0 → Holds b layout ldb m d C) :
    M.Undef (rskgesView E layout opA opS m d n alpha A lda ro co beta ldb) (S, b) := by
  obtain ⟨s, e, h1, h2⟩ := cooViewOfSkop_run (G := E.GS) (sqrt := E.sqrt) (order := E.order) hL h
  unfold rskgesView
  refine M.Undef.after ?_
  simp only [onSp, M.wp_zoom]
  refine ⟨_, _, e, M.Undef.zoom ?_⟩
  refine C32_coo_undefined hE.env (B := ⟨S.nRows, S.nCols, false, S.nnz, .Zero, S.vals, S.rows, S.cols, s⟩) ⟨h1, h2⟩ rfl ha
    (by show ¬ CooOk S.nnz n _; rw [show S.nnz = _ from h1.nnz]; exact hK) ⟨hw1, hw2⟩ hm hd hn hlda hldb hal hC

/-- C37 (left): on the windows that `C37_left_sparse_partial` excludes, `sketch_general` is undefined, whether the operator has been filled or
not. -/
theorem C37_left_sparse_undefined {E : SkEnv N K W WS R T} (hE : SkEnvOk E) {S : SparseSkOp N K T} {L : List (Entry T)} (hS : SparseIs E S L)
    {layout : Layout} {opS opA : Op} {d n m ro co : Int} {alpha beta : T} {A b : Buf T} {lda ldb : Int} {C : Int → Int → T}
    (hw : InOp S.nRows S.nCols (rowsOf opS d m) (colsOf opS d m) ro co) (ha : alpha ≠ 0)
    (hK : ¬ CooOk L.length m (opEntries opS (window ro co (rowsOf opS d m) (colsOf opS d m) L)))
    (hd : 0 ≤ d) (hn : 1 ≤ n) (hm : 0 ≤ m) (hlda : LdOk layout lda (rowsOf opA m n) (colsOf opA m n)) (hldb : LdOk layout ldb d n)
    (hal : Alloc b layout ldb d n) (hC : beta ≠ 0 → Holds b layout ldb d n C) :
    (sketchGeneralL E layout opS opA d n m alpha ro co A lda beta ldb (.sparse S, b)).1 = .ub := by
  obtain ⟨w1, w2, w3, w4⟩ := hw
  obtain ⟨h1, h2⟩ := hS
  show M.Undef _ _
  unfold sketchGeneralL
  refine M.Undef.after ?_
  rw [M.wp_get]
  refine M.Undef.zoom ?_
  unfold lskges
  refine M.Undef.after ?_
  rw [M.wp_get]
  by_cases hnn : S.nnz < 0
  · rw [if_pos hnn] at h2
    obtain ⟨S', e, g1, g2, g3⟩ := h2
    rw [if_pos hnn]
    refine M.Undef.after ?_
    simp only [filledCopy, M.wp_bind, M.wp_onLocal, M.wp_pure]
    refine ⟨_, _, e, M.Undef.after ?_⟩
    rw [M.wp_ubIf]
    refine ⟨by have := opHolds_nnz g1; omega, M.Undef.zoom ?_⟩
    exact lskgesView_undef hE h1 g1 ha hK (by omega) (by omega) hd hn hm hlda hldb hal hC
  · rw [if_neg hnn] at h2 ⊢
    exact lskgesView_undef hE h1 h2 ha hK (by omega) (by omega) hd hn hm hlda hldb hal hC

/-- C37 (right): on the windows that `C37_right_sparse_partial` and `C37_right_unfilled` exclude, `sketch_general` is undefined. -/
theorem C37_right_sparse_undefined {E : SkEnv N K W WS R T} (hE : SkEnvOk E) {S : SparseSkOp N K T} {L : List (Entry T)} (hS : SparseIs E S L)
    {layout : Layout} {opA opS : Op} {m d n ro co : Int} {alpha beta : T} {A b : Buf T} {lda ldb : Int} {C : Int → Int → T}
    (hw : InOp S.nRows S.nCols (rowsOf opS n d) (colsOf opS n d) ro co) (ha : alpha ≠ 0)
    (hK : ¬ CooOk L.length n (opEntries opS.flip (window ro co (rowsOf opS n d) (colsOf opS n d) L)))
    (hm : 1 ≤ m) (hd : 0 ≤ d) (hn : 0 ≤ n) (hlda : LdOk layout lda (rowsOf opA m n) (colsOf opA m n)) (hldb : LdOk layout ldb m d)
    (hal : Alloc b layout ldb m d) (hC : beta ≠ 0 → Holds b layout ldb m d C) :
    (sketchGeneralR E layout opA opS m d n alpha A lda ro co beta ldb (.sparse S, b)).1 = .ub := by
  obtain ⟨w1, w2, w3, w4⟩ := hw
  obtain ⟨h1, h2⟩ := hS
  show M.Undef _ _
  unfold sketchGeneralR
  refine M.Undef.after ?_
  rw [M.wp_get]
  refine M.Undef.zoom ?_
  unfold rskges
  refine M.Undef.after ?_
  rw [M.wp_get]
  by_cases hnn : S.nnz < 0
  · rw [if_pos hnn] at h2
    obtain ⟨S', e, g1, g2, g3⟩ := h2
    refine M.Undef.bind ?_
    unfold M.when
    rw [if_pos hnn]
    refine M.Undef.after ?_
    simp only [filledCopy, M.wp_bind, M.wp_onLocal, M.wp_pure]
    refine ⟨_, _, e, M.Undef.after ?_⟩
    rw [M.wp_ubIf]
    refine ⟨by have := opHolds_nnz g1; omega, M.Undef.zoom ?_⟩
    exact rskgesView_undef hE h1 g1 ha hK (by omega) (by omega) hm hd hn hlda hldb hal hC
  · rw [if_neg hnn] at h2
    refine M.Undef.after ?_
    rw [M.wp_when]
    exact ⟨fun g => absurd g hnn, fun _ => rskgesView_undef hE h1 h2 ha hK (by omega) (by omega) hm hd hn hlda hldb hal hC⟩

end

/-! ## Concrete cases -/

/-- A 2 x 2 COO matrix with one of its two nonzeros in each column. The window that consists of its first row has its only nonzero in the first
column, and still the product is defined, since there are two zero-initialised elements for two columns. -/
def luckyE : List (Entry ℤ) := [⟨1, 1, 3⟩, ⟨0, 0, 5⟩]

theorem lucky_ok : CooOk (cooOf 2 2 .Zero luckyE).nnz 2 (opEntries .NoTrans (window 0 0 1 2 luckyE)) ∧
    ¬ RegularOk 2 (opEntries .NoTrans (window 0 0 1 2 luckyE)) := by
  have e : opEntries .NoTrans (window 0 0 1 2 luckyE) = [⟨0, 0, 5⟩] := rfl
  rw [e]
  refine ⟨Or.inr (Or.inr ⟨le_rfl, by simp [cooOf, luckyE], fun x s => by ring⟩), fun h => ?_⟩
  obtain ⟨e, he, hc⟩ := h.2 le_rfl (by simp)
  simp only [List.mem_singleton] at he
  subst he; exact hc rfl

example : (leftSpmm exEnv .ColMajor .NoTrans .NoTrans 1 1 2 1 0 0 (Buf.ofList [7, 11]) 2 0 1
    (.coo { cooOf 2 2 .Zero [⟨0, 0, (5 : ℤ)⟩, ⟨1, 1, 3⟩] with sort := .CSC }, Buf.ofList [0])).2.2 0 = .val 35 := rfl

/-- The hypotheses of `C31_coo_undefined` are met by the matrix [5 0]. -/
example : SpHolds (.coo (cooOf 1 2 .Zero [⟨0, 0, (5 : ℤ)⟩])) [⟨0, 0, 5⟩] ∧
    ¬ CooOk (cooOf 1 2 .Zero [⟨0, 0, (5 : ℤ)⟩]).nnz 2 (opEntries .NoTrans (window 0 0 1 2 [⟨0, 0, (5 : ℤ)⟩])) ∧
    WindowOk (.coo (cooOf 1 2 .Zero [⟨0, 0, (5 : ℤ)⟩])) 1 2 0 0 := by
  refine ⟨⟨cooOf_is _ _ _ _, trivial⟩, ?_, by simp [WindowOk, cooOf]⟩
  have e : opEntries .NoTrans (window 0 0 1 2 [⟨0, 0, (5 : ℤ)⟩]) = [⟨0, 0, 5⟩] := rfl
  rw [e]
  rintro (h | h | h)
  · obtain ⟨e, he, hc⟩ := h.2 le_rfl (by simp)
    simp only [List.mem_singleton] at he
    subst he; exact hc rfl
  · omega
  · have := h.2.1
    simp [cooOf] at this

/-- The hypotheses of `C31_compressed_undefined` are met by the CSC matrix [5 0]. -/
example : CscIs (cscOf 1 2 [0, 1, 1] [⟨0, 0, (5 : ℤ)⟩]) [⟨0, 0, 5⟩] ∧ ExactArrays (.csc (cscOf 1 2 [0, 1, 1] [⟨0, 0, (5 : ℤ)⟩])) ∧
    ¬ RegularOk 2 (opEntries .NoTrans [⟨0, 0, (5 : ℤ)⟩]) ∧ WindowOk (.csc (cscOf 1 2 [0, 1, 1] [⟨0, 0, (5 : ℤ)⟩])) 1 2 0 0 := by
  refine ⟨⟨rfl, csIs_ofList (n := 2) rfl rfl rfl (by decide) (by decide)⟩, ⟨fun q hq => ?_, fun j hj => ?_⟩, fun h => ?_, by simp [WindowOk, cscOf]⟩
  · obtain ⟨k, rfl⟩ := Int.le.dest (show 1 ≤ q from hq)
    simp only [cscOf, ptr, Option.getD_some, Buf.ofList]
    rw [if_pos (by omega), show (1 + (k : Int)).toNat = k + 1 by omega]
    rfl
  · obtain ⟨k, rfl⟩ := Int.le.dest (show 3 ≤ j from hj)
    simp only [cscOf, ptr, Option.getD_some, Buf.ofList]
    rw [if_pos (by omega), show (3 + (k : Int)).toNat = k + 3 by omega]
    rfl
  · obtain ⟨e, he, hc⟩ := h.2 le_rfl (by simp [opEntries])
    simp only [opEntries, List.mem_singleton] at he
    subst he; exact hc rfl

/-- The hypotheses of `C37_left_sparse_undefined` are met by a filled operator with the matrix [5 0]. -/
example : SparseIs exSkEnv exFirstCol [⟨0, 0, 5⟩] ∧ InOp exFirstCol.nRows exFirstCol.nCols 1 2 0 0 ∧
    ¬ CooOk ([⟨0, 0, (5 : ℤ)⟩] : List (Entry ℤ)).length 2 (opEntries .NoTrans (window 0 0 1 2 [⟨0, 0, (5 : ℤ)⟩])) := by
  refine ⟨⟨by simp, ?_⟩, by unfold InOp exFirstCol; decide, ?_⟩
  · rw [if_neg (by decide)]; exact C37_first_column_counterexample.1
  have e : opEntries .NoTrans (window 0 0 1 2 [⟨0, 0, (5 : ℤ)⟩]) = [⟨0, 0, 5⟩] := rfl
  rw [e]
  rintro (h | h | h)
  · obtain ⟨e, he, hc⟩ := h.2 le_rfl (by simp)
    simp only [List.mem_singleton] at he
    subst he; exact hc rfl
  · omega
  · have := h.2.1
    simp at this

end RB
