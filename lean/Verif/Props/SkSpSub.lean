import Verif.Props.SketchApi
import Verif.Props.SpmmExact

/-!
# Sketching a submatrix of a sparse matrix (C117)

`lsksp3` and `rsksp3` take offsets into the sparse matrix as well as into the dense operator. Submatrices of COO matrices are supported; of CSC and
CSR matrices only the whole matrix. The theorems below say what each call does: it computes the product with the submatrix, or raises an error and
changes nothing, or (for COO matrices, under the known condition on the numbers of nonzeros) is undefined.
-/

namespace RB
open Spec

variable {N : Nat} {K W WS R T : Type}

/-- The submatrix of `r` rows from `ro` and `c` columns from `co` can be used in products: it is inside the matrix, and it is the whole matrix unless the
format is COO. -/
def Spec.SubOk (A : SpMat T) (r c ro co : Int) : Prop :=
  r + ro ≤ spRows A ∧ c + co ≤ spCols A ∧
    match A with
    | .coo _ => r ≤ spRows A ∧ c ≤ spCols A
    | _ => ro = 0 ∧ co = 0 ∧ r = spRows A ∧ c = spCols A

theorem subOk_window {A : SpMat T} {r c ro co : Int} (h : SubOk A r c ro co) : WindowOk A r c ro co := by
  obtain ⟨-, -, h⟩ := h
  cases A with
  | coo A => exact h
  | csc A => exact ⟨h.2.2.1.symm, h.2.2.2.symm, h.1, h.2.1⟩
  | csr A => exact ⟨h.2.2.1.symm, h.2.2.2.symm, h.1, h.2.1⟩

theorem subOk_iff {A : SpMat T} {r c ro co : Int} : SubOk A r c ro co ↔ r + ro ≤ spRows A ∧ c + co ≤ spCols A ∧ WindowOk A r c ro co := by
  refine ⟨fun h => ⟨h.1, h.2.1, subOk_window h⟩, fun ⟨h1, h2, h⟩ => ⟨h1, h2, ?_⟩⟩
  cases A with
  | coo A => exact h
  | csc A => exact ⟨h.2.2.1, h.2.2.2, h.1.symm, h.2.1.symm⟩
  | csr A => exact ⟨h.2.2.1, h.2.2.2, h.1.symm, h.2.1.symm⟩

/-- A submatrix of a COO matrix with nonnegative offsets can be used exactly if it is inside the matrix. -/
theorem subOk_coo {A : CooMat T} {r c ro co : Int} (h1 : 0 ≤ ro) (h2 : 0 ≤ co) :
    SubOk (.coo A) r c ro co ↔ r + ro ≤ A.nRows ∧ c + co ≤ A.nCols := by
  simp only [SubOk, spRows, spCols]; omega

section
variable [CommRing T] [DecidableEq T]

/-- C117 (left). For a dense operator S, filled or not, `lsksp3` sets B to `alpha * op(submat(S)) * op(submat(A)) + beta * B`, where `submat(A)` starts at row `roA` and
column `coA` of the sparse matrix A, and changes nothing outside B. The entries of A are the same afterwards (those of a COO matrix possibly in
another order).

Missing: the cases excluded by `Supported` (for COO matrices undefined, `C117_left_coo_undefined`), the windows excluded by `FillOk` (C36). -/
theorem C117_left_partial {E : SkEnv N K W WS R T} (hE : EnvOk E.env) (hG : E.G.Ok) {S : DenseSkOp N K T} {Sm : Int → Int → T} (hS : DenseIs E S Sm)
    {A : SpMat T} {L : List (Entry T)} (hA : SpHolds A L) (hb : spBase A = .Zero) (hr : InRange (spRows A) (spCols A) L)
    {layout : Layout} {opS opA : Op} {d n m ro co roA coA : Int} {alpha beta : T} {b : Buf T} {ldb : Int} {C : Int → Int → T}
    (hw : InOp S.nRows S.nCols (rowsOf opS d m) (colsOf opS d m) ro co) (hne : S.buff = none → FillOk E.G.len S.dist (rowsOf opS d m) (colsOf opS d m) ro co)
    (hwA : SubOk A (rowsOf opA m n) (colsOf opA m n) roA coA)
    (hK : alpha ≠ 0 → Supported A opA.flip layout.flip (if S.layout = layout then opS else opS.flip) n m
      (opEntries opA.flip (window roA coA (rowsOf opA m n) (colsOf opA m n) L)))
    (hd : 0 ≤ d) (hn : 0 ≤ n) (hm : 0 ≤ m) (hldb : LdOk layout ldb d n) (hal : Alloc b layout ldb d n) (hC : beta ≠ 0 → Holds b layout ldb d n C) :
    M.wp (lsksp3 E layout opS opA d n m alpha S ro co roA coA beta ldb) (A, b) (fun _ s' =>
      Holds s'.2 layout ldb d n (fun i j => alpha * prodEntry m (opMat opS (subMat ro co Sm)) (opMat opA (subMat roA coA (toMat L))) i j + beta * C i j) ∧
      SameOutside b s'.2 layout ldb d n ∧ SameObject A s'.1 ∧ ∃ L', SpHolds s'.1 L' ∧ L'.Perm L) := by
  have hop : ∀ l : Layout, (if l = layout then opS else opS.flip) = opForLayout l layout opS := by
    intro l; unfold opForLayout; by_cases h : l = layout <;> simp [h]
  rw [hop] at hK
  have hwA' := subOk_window hwA
  unfold lsksp3
  cases hbuf : S.buff with
  | some sb =>
    simp only [DenseIs, hbuf] at hS
    simp only [Option.isNone_some, Bool.false_eq_true, if_false]
    exact lsksp3View_spec (S := S.view) hE hA hb hr hbuf hS hw hwA' hwA.1 hwA.2.1 hK hd hn hm hldb hal hC
  | none =>
    simp only [DenseIs, hbuf] at hS
    obtain ⟨hD, e1, e2, hSm⟩ := hS
    obtain ⟨q1, q2⟩ := rowsOf_nonneg (op := opS) hd hm
    obtain ⟨sb, ld, e, hsb⟩ := submatrixAsBlackbox_spec (sched := E.env.sched) hG hD e1 e2 hSm q1 q2 (hne hbuf) hw
    simp only [Option.isNone_none, if_true, M.wp_bind, M.wp_lift, dimsBeforeOp_eq]
    refine ⟨_, e, ?_⟩
    have := lsksp3View_spec (S := ⟨S.layout, rowsOf opS d m, colsOf opS d m, some sb, ld⟩) hE hA hb hr rfl hsb (inOp_zero _ _) hwA' hwA.1 hwA.2.1
      hK hd hn hm hldb hal hC
    rw [subMat_zero (subMat ro co Sm)] at this
    exact this

theorem lsksp3View_undef {env : Env T} (henv : EnvOk env) {A : CooMat T} {L : List (Entry T)} (hA : SpHolds (.coo A) L) (hb : A.indexBase = .Zero)
    {layout : Layout} {opS opA : Op} {d n m : Int} {alpha beta : T} {S : BFO T} {sb : Buf T}
    {ro co roA coA : Int} {b : Buf T} {ldb : Int} {C : Int → Int → T} (hbuf : S.buff = some sb) (ha : alpha ≠ 0)
    (hw : InOp S.nRows S.nCols (rowsOf opS d m) (colsOf opS d m) ro co) (hwA : SubOk (.coo A) (rowsOf opA m n) (colsOf opA m n) roA coA)
    (hK : ¬ CooOk A.nnz m (opEntries opA.flip (window roA coA (rowsOf opA m n) (colsOf opA m n) L)))
    (hd : 1 ≤ d) (hn : 0 ≤ n) (hm : 0 ≤ m) (hldb : LdOk layout ldb d n) (hal : Alloc b layout ldb d n) (hC : beta ≠ 0 → Holds b layout ldb d n C) :
    M.Undef (lsksp3View env layout opS opA d n m alpha S ro co roA coA beta ldb) (.coo A, b) := by
  unfold lsksp3View BFO.getBuff
  rw [hbuf]
  have step : ∀ {p : Prop} [Decidable p] {m : M (SpMat T × Buf T) Unit} {s}, p → M.Undef m s → M.Undef (M.require p >>= fun _ => m) s := by
    intro p _ m s hp h
    refine M.Undef.after ?_
    rw [M.wp_require]
    exact ⟨hp, h⟩
  refine M.Undef.after ?_
  rw [M.wp_pure]
  refine M.Undef.after ?_
  rw [M.wp_get]
  refine step (by rw [dimsBeforeOp_eq]; exact hwA.1) (step (by rw [dimsBeforeOp_eq]; exact hwA.2.1) (step (by rw [dimsBeforeOp_eq]; exact hw.2.2.1)
    (step (by rw [dimsBeforeOp_eq]; exact hw.2.2.2) (step (by rw [ldOk_iff]; exact hldb) ?_))))
  exact C32_coo_undefined henv hA hb ha hK (subOk_window hwA) hd hn hm (opWindow_ld hw) hldb hal hC

/-- C117 (left, COO matrices): where `C117_left_partial` does not apply, `lsksp3` is undefined. -/
theorem C117_left_coo_undefined {E : SkEnv N K W WS R T} (hE : EnvOk E.env) (hG : E.G.Ok) {S : DenseSkOp N K T} {Sm : Int → Int → T} (hS : DenseIs E S Sm)
    {A : CooMat T} {L : List (Entry T)} (hA : SpHolds (.coo A) L) (hb : A.indexBase = .Zero)
    {layout : Layout} {opS opA : Op} {d n m ro co roA coA : Int} {alpha beta : T} {b : Buf T} {ldb : Int} {C : Int → Int → T} (ha : alpha ≠ 0)
    (hw : InOp S.nRows S.nCols (rowsOf opS d m) (colsOf opS d m) ro co) (hne : S.buff = none → FillOk E.G.len S.dist (rowsOf opS d m) (colsOf opS d m) ro co)
    (hwA : SubOk (.coo A) (rowsOf opA m n) (colsOf opA m n) roA coA)
    (hK : ¬ CooOk A.nnz m (opEntries opA.flip (window roA coA (rowsOf opA m n) (colsOf opA m n) L)))
    (hd : 1 ≤ d) (hn : 0 ≤ n) (hm : 0 ≤ m) (hldb : LdOk layout ldb d n) (hal : Alloc b layout ldb d n) (hC : beta ≠ 0 → Holds b layout ldb d n C) :
    (lsksp3 E layout opS opA d n m alpha S ro co roA coA beta ldb (.coo A, b)).1 = .ub := by
  show M.Undef _ _
  unfold lsksp3
  cases hbuf : S.buff with
  | some sb =>
    simp only [Option.isNone_some, Bool.false_eq_true, if_false]
    exact lsksp3View_undef (S := S.view) hE hA hb hbuf ha hw hwA hK hd hn hm hldb hal hC
  | none =>
    simp only [DenseIs, hbuf] at hS
    obtain ⟨hD, e1, e2, hSm⟩ := hS
    obtain ⟨q1, q2⟩ := rowsOf_nonneg (op := opS) (by omega : 0 ≤ d) hm
    obtain ⟨sb, ld, e, hsb⟩ := submatrixAsBlackbox_spec (sched := E.env.sched) hG hD e1 e2 hSm q1 q2 (hne hbuf) hw
    simp only [Option.isNone_none, if_true, dimsBeforeOp_eq]
    refine M.Undef.after ?_
    rw [M.wp_lift]
    exact ⟨_, e, lsksp3View_undef (S := ⟨S.layout, rowsOf opS d m, colsOf opS d m, some sb, ld⟩) hE hA hb rfl ha (inOp_zero _ _) hwA hK hd hn hm hldb hal hC⟩

end

section
variable [Zero T] [One T] [Add T] [Mul T] [BEq T]

theorem lsksp3View_sub_throw {env : Env T} {A : SpMat T} {layout : Layout} {opS opA : Op} {d n m : Int} {alpha beta : T} {S : BFO T} {sb : Buf T}
    {ro co roA coA : Int} {b : Buf T} {ldb : Int} (hb : S.buff = some sb)
    (h : ¬ (spBase A = .Zero ∧ SubOk A (rowsOf opA m n) (colsOf opA m n) roA coA ∧ rowsOf opS d m + ro ≤ S.nRows ∧ colsOf opS d m + co ≤ S.nCols ∧
      LdOk layout ldb d n)) :
    lsksp3View env layout opS opA d n m alpha S ro co roA coA beta ldb (A, b) = (.throw .require, (A, b)) := by
  apply M.eq_throw_of_wpx
  unfold lsksp3View BFO.getBuff
  rw [hb]
  simp only [M.wpx_bind, M.wpx_pure, M.wpx_get, M.wpx_require, dimsBeforeOp_eq, ldOk_iff]
  have e1 : A.numRows = spRows A := by cases A <;> rfl
  have e2 : A.numCols = spCols A := by cases A <;> rfl
  rw [e1, e2]
  refine ⟨fun h1 => ⟨fun h2 => ⟨fun h3 => ⟨fun h4 => ⟨fun h5 => ?_, fun _ => (by simp)⟩, fun _ => (by simp)⟩, fun _ => (by simp)⟩,
    fun _ => (by simp)⟩, fun _ => (by simp)⟩
  have := C42_right_spmm env A layout (opForLayout S.layout layout opS) opA d n m roA coA alpha beta
    (sb.shift (offsetAndLdim S.layout S.nRows S.nCols ro co).1) b (offsetAndLdim S.layout S.nRows S.nCols ro co).2 ldb
    (fun hh => h ⟨hh.1, subOk_iff.mpr ⟨h1, h2, hh.2.1⟩, h3, h4, h5⟩)
  unfold M.wpx
  rw [this]
  exact ⟨rfl, rfl⟩

/-- C117 (left, errors). Unless A is zero-based, the submatrix of A can be used, the window is inside the operator and `ldb` is large enough, `lsksp3`
raises an error and changes neither B nor A. In particular a proper submatrix of a CSC or CSR matrix is rejected. -/
theorem C117_left_error {E : SkEnv N K W WS R T} (hG : E.G.Ok) {S : DenseSkOp N K T} {Sm : Int → Int → T} (hS : DenseIs E S Sm)
    (A : SpMat T) (layout : Layout) (opS opA : Op) (d n m : Int) (alpha beta : T) (ro co roA coA : Int) (b : Buf T) (ldb : Int)
    (hne : S.buff = none → 0 ≤ d ∧ 0 ≤ m ∧ FillOk E.G.len S.dist (rowsOf opS d m) (colsOf opS d m) ro co ∧ 0 ≤ ro ∧ 0 ≤ co)
    (h : ¬ (spBase A = .Zero ∧ SubOk A (rowsOf opA m n) (colsOf opA m n) roA coA ∧ rowsOf opS d m + ro ≤ S.nRows ∧ colsOf opS d m + co ≤ S.nCols ∧
      LdOk layout ldb d n)) :
    lsksp3 E layout opS opA d n m alpha S ro co roA coA beta ldb (A, b) = (.throw .require, (A, b)) := by
  unfold lsksp3
  cases hbuf : S.buff with
  | some sb =>
    simp only [Option.isNone_some, Bool.false_eq_true, if_false]
    exact lsksp3View_sub_throw (S := S.view) hbuf h
  | none =>
    simp only [DenseIs, hbuf] at hS
    obtain ⟨hD, e1, e2, hA⟩ := hS
    obtain ⟨p1, p2, pF, p3, p4⟩ := hne hbuf
    obtain ⟨q1, q2⟩ := rowsOf_nonneg (op := opS) p1 p2
    simp only [Option.isNone_none, if_true, dimsBeforeOp_eq]
    by_cases hw : rowsOf opS d m + ro ≤ S.nRows ∧ colsOf opS d m + co ≤ S.nCols
    · obtain ⟨sb, ld, e, hsb⟩ := submatrixAsBlackbox_spec (sched := E.env.sched) hG hD e1 e2 hA q1 q2 pF ⟨p3, p4, hw.1, hw.2⟩
      rw [e, M.bind_ok (show (M.lift (Res.ok _) : M (SpMat T × Buf T) (BFO T)) (A, b) = (.ok _, (A, b)) from rfl)]
      refine lsksp3View_sub_throw (sb := sb) rfl ?_
      rintro ⟨h1, h2, -, -, h5⟩
      exact h ⟨h1, h2, hw.1, hw.2, h5⟩
    · rw [submatrix_throw hw]; rfl

end

section
variable [CommRing T] [DecidableEq T]

/-- C117 (right). For a dense operator S, filled or not, `rsksp3` sets B to `alpha * op(submat(A)) * op(submat(S)) + beta * B`, where `submat(A)` starts at row `roA` and
column `coA` of the sparse matrix A, and changes nothing outside B. The entries of A are the same afterwards (those of a COO matrix possibly in
another order).

Missing: the cases excluded by `Supported` (for COO matrices undefined, `C117_right_coo_undefined`), the windows excluded by `FillOk` (C36). -/
theorem C117_right_partial {E : SkEnv N K W WS R T} (hE : EnvOk E.env) (hG : E.G.Ok) {S : DenseSkOp N K T} {Sm : Int → Int → T} (hS : DenseIs E S Sm)
    {A : SpMat T} {L : List (Entry T)} (hA : SpHolds A L) (hb : spBase A = .Zero) (hr : InRange (spRows A) (spCols A) L)
    {layout : Layout} {opA opS : Op} {m d n ro co roA coA : Int} {alpha beta : T} {b : Buf T} {ldb : Int} {C : Int → Int → T}
    (hw : InOp S.nRows S.nCols (rowsOf opS n d) (colsOf opS n d) ro co) (hne : S.buff = none → FillOk E.G.len S.dist (rowsOf opS n d) (colsOf opS n d) ro co)
    (hwA : SubOk A (rowsOf opA m n) (colsOf opA m n) roA coA)
    (hK : alpha ≠ 0 → Supported A opA layout (if S.layout = layout then opS else opS.flip) m n
      (opEntries opA (window roA coA (rowsOf opA m n) (colsOf opA m n) L)))
    (hm : 0 ≤ m) (hd : 0 ≤ d) (hn : 0 ≤ n) (hldb : LdOk layout ldb m d) (hal : Alloc b layout ldb m d) (hC : beta ≠ 0 → Holds b layout ldb m d C) :
    M.wp (rsksp3 E layout opA opS m d n alpha roA coA S ro co beta ldb) (A, b) (fun _ s' =>
      Holds s'.2 layout ldb m d (fun i j => alpha * prodEntry n (opMat opA (subMat roA coA (toMat L))) (opMat opS (subMat ro co Sm)) i j + beta * C i j) ∧
      SameOutside b s'.2 layout ldb m d ∧ SameObject A s'.1 ∧ ∃ L', SpHolds s'.1 L' ∧ L'.Perm L) := by
  have hop : ∀ l : Layout, (if l = layout then opS else opS.flip) = opForLayout l layout opS := by
    intro l; unfold opForLayout; by_cases h : l = layout <;> simp [h]
  rw [hop] at hK
  have hwA' := subOk_window hwA
  unfold rsksp3
  cases hbuf : S.buff with
  | some sb =>
    simp only [DenseIs, hbuf] at hS
    simp only [Option.isNone_some, Bool.false_eq_true, if_false]
    exact rsksp3View_spec (S := S.view) hE hA hb hr hbuf hS hw hwA' hwA.1 hwA.2.1 hK hm hd hn hldb hal hC
  | none =>
    simp only [DenseIs, hbuf] at hS
    obtain ⟨hD, e1, e2, hSm⟩ := hS
    obtain ⟨q1, q2⟩ := rowsOf_nonneg (op := opS) hn hd
    obtain ⟨sb, ld, e, hsb⟩ := submatrixAsBlackbox_spec (sched := E.env.sched) hG hD e1 e2 hSm q1 q2 (hne hbuf) hw
    simp only [Option.isNone_none, if_true, M.wp_bind, M.wp_lift, dimsBeforeOp_eq]
    refine ⟨_, e, ?_⟩
    have := rsksp3View_spec (S := ⟨S.layout, rowsOf opS n d, colsOf opS n d, some sb, ld⟩) hE hA hb hr rfl hsb (inOp_zero _ _) hwA' hwA.1 hwA.2.1
      hK hm hd hn hldb hal hC
    rw [subMat_zero (subMat ro co Sm)] at this
    exact this

theorem rsksp3View_undef {env : Env T} (henv : EnvOk env) {A : CooMat T} {L : List (Entry T)} (hA : SpHolds (.coo A) L) (hb : A.indexBase = .Zero)
    {layout : Layout} {opA opS : Op} {m d n : Int} {alpha beta : T} {S : BFO T} {sb : Buf T}
    {ro co roA coA : Int} {b : Buf T} {ldb : Int} {C : Int → Int → T} (hbuf : S.buff = some sb) (ha : alpha ≠ 0)
    (hw : InOp S.nRows S.nCols (rowsOf opS n d) (colsOf opS n d) ro co) (hwA : SubOk (.coo A) (rowsOf opA m n) (colsOf opA m n) roA coA)
    (hK : ¬ CooOk A.nnz n (opEntries opA (window roA coA (rowsOf opA m n) (colsOf opA m n) L)))
    (hm : 0 ≤ m) (hd : 1 ≤ d) (hn : 0 ≤ n) (hldb : LdOk layout ldb m d) (hal : Alloc b layout ldb m d) (hC : beta ≠ 0 → Holds b layout ldb m d C) :
    M.Undef (rsksp3View env layout opA opS m d n alpha roA coA S ro co beta ldb) (.coo A, b) := by
  unfold rsksp3View BFO.getBuff
  rw [hbuf]
  have step : ∀ {p : Prop} [Decidable p] {m : M (SpMat T × Buf T) Unit} {s}, p → M.Undef m s → M.Undef (M.require p >>= fun _ => m) s := by
    intro p _ m s hp h
    refine M.Undef.after ?_
    rw [M.wp_require]
    exact ⟨hp, h⟩
  refine M.Undef.after ?_
  rw [M.wp_pure]
  refine M.Undef.after ?_
  rw [M.wp_get]
  refine step (by rw [dimsBeforeOp_eq]; exact hwA.1) (step (by rw [dimsBeforeOp_eq]; exact hwA.2.1) (step (by rw [dimsBeforeOp_eq]; exact hw.2.2.1)
    (step (by rw [dimsBeforeOp_eq]; exact hw.2.2.2) (step (by rw [ldOk_iff]; exact hldb) ?_))))
  exact C31_coo_undefined henv hA hb ha hK (subOk_window hwA) hm hd hn (opWindow_ld hw) hldb hal hC

/-- C117 (right, COO matrices): where `C117_right_partial` does not apply, `rsksp3` is undefined. -/
theorem C117_right_coo_undefined {E : SkEnv N K W WS R T} (hE : EnvOk E.env) (hG : E.G.Ok) {S : DenseSkOp N K T} {Sm : Int → Int → T} (hS : DenseIs E S Sm)
    {A : CooMat T} {L : List (Entry T)} (hA : SpHolds (.coo A) L) (hb : A.indexBase = .Zero)
    {layout : Layout} {opA opS : Op} {m d n ro co roA coA : Int} {alpha beta : T} {b : Buf T} {ldb : Int} {C : Int → Int → T} (ha : alpha ≠ 0)
    (hw : InOp S.nRows S.nCols (rowsOf opS n d) (colsOf opS n d) ro co) (hne : S.buff = none → FillOk E.G.len S.dist (rowsOf opS n d) (colsOf opS n d) ro co)
    (hwA : SubOk (.coo A) (rowsOf opA m n) (colsOf opA m n) roA coA)
    (hK : ¬ CooOk A.nnz n (opEntries opA (window roA coA (rowsOf opA m n) (colsOf opA m n) L)))
    (hm : 0 ≤ m) (hd : 1 ≤ d) (hn : 0 ≤ n) (hldb : LdOk layout ldb m d) (hal : Alloc b layout ldb m d) (hC : beta ≠ 0 → Holds b layout ldb m d C) :
    (rsksp3 E layout opA opS m d n alpha roA coA S ro co beta ldb (.coo A, b)).1 = .ub := by
  show M.Undef _ _
  unfold rsksp3
  cases hbuf : S.buff with
  | some sb =>
    simp only [Option.isNone_some, Bool.false_eq_true, if_false]
    exact rsksp3View_undef (S := S.view) hE hA hb hbuf ha hw hwA hK hm hd hn hldb hal hC
  | none =>
    simp only [DenseIs, hbuf] at hS
    obtain ⟨hD, e1, e2, hSm⟩ := hS
    obtain ⟨q1, q2⟩ := rowsOf_nonneg (op := opS) hn (by omega : 0 ≤ d)
    obtain ⟨sb, ld, e, hsb⟩ := submatrixAsBlackbox_spec (sched := E.env.sched) hG hD e1 e2 hSm q1 q2 (hne hbuf) hw
    simp only [Option.isNone_none, if_true, dimsBeforeOp_eq]
    refine M.Undef.after ?_
    rw [M.wp_lift]
    exact ⟨_, e, rsksp3View_undef (S := ⟨S.layout, rowsOf opS n d, colsOf opS n d, some sb, ld⟩) hE hA hb rfl ha (inOp_zero _ _) hwA hK hm hd hn hldb hal hC⟩

end

section
variable [Zero T] [One T] [Add T] [Mul T] [BEq T]

theorem rsksp3View_sub_throw {env : Env T} {A : SpMat T} {layout : Layout} {opA opS : Op} {m d n : Int} {alpha beta : T} {S : BFO T} {sb : Buf T}
    {ro co roA coA : Int} {b : Buf T} {ldb : Int} (hb : S.buff = some sb)
    (h : ¬ (spBase A = .Zero ∧ SubOk A (rowsOf opA m n) (colsOf opA m n) roA coA ∧ rowsOf opS n d + ro ≤ S.nRows ∧ colsOf opS n d + co ≤ S.nCols ∧
      LdOk layout ldb m d)) :
    rsksp3View env layout opA opS m d n alpha roA coA S ro co beta ldb (A, b) = (.throw .require, (A, b)) := by
  apply M.eq_throw_of_wpx
  unfold rsksp3View BFO.getBuff
  rw [hb]
  simp only [M.wpx_bind, M.wpx_pure, M.wpx_get, M.wpx_require, dimsBeforeOp_eq, ldOk_iff]
  have e1 : A.numRows = spRows A := by cases A <;> rfl
  have e2 : A.numCols = spCols A := by cases A <;> rfl
  rw [e1, e2]
  refine ⟨fun h1 => ⟨fun h2 => ⟨fun h3 => ⟨fun h4 => ⟨fun h5 => ?_, fun _ => (by simp)⟩, fun _ => (by simp)⟩, fun _ => (by simp)⟩,
    fun _ => (by simp)⟩, fun _ => (by simp)⟩
  have := C42_left_spmm env A layout opA (opForLayout S.layout layout opS) m d n roA coA alpha beta
    (sb.shift (offsetAndLdim S.layout S.nRows S.nCols ro co).1) b (offsetAndLdim S.layout S.nRows S.nCols ro co).2 ldb
    (fun hh => h ⟨hh.1, subOk_iff.mpr ⟨h1, h2, hh.2.1⟩, h3, h4, h5⟩)
  unfold M.wpx
  rw [this]
  exact ⟨rfl, rfl⟩

/-- C117 (right, errors). Unless A is zero-based, the submatrix of A can be used, the window is inside the operator and `ldb` is large enough, `rsksp3`
raises an error and changes neither B nor A. In particular a proper submatrix of a CSC or CSR matrix is rejected. -/
theorem C117_right_error {E : SkEnv N K W WS R T} (hG : E.G.Ok) {S : DenseSkOp N K T} {Sm : Int → Int → T} (hS : DenseIs E S Sm)
    (A : SpMat T) (layout : Layout) (opA opS : Op) (m d n : Int) (alpha beta : T) (ro co roA coA : Int) (b : Buf T) (ldb : Int)
    (hne : S.buff = none → 0 ≤ n ∧ 0 ≤ d ∧ FillOk E.G.len S.dist (rowsOf opS n d) (colsOf opS n d) ro co ∧ 0 ≤ ro ∧ 0 ≤ co)
    (h : ¬ (spBase A = .Zero ∧ SubOk A (rowsOf opA m n) (colsOf opA m n) roA coA ∧ rowsOf opS n d + ro ≤ S.nRows ∧ colsOf opS n d + co ≤ S.nCols ∧
      LdOk layout ldb m d)) :
    rsksp3 E layout opA opS m d n alpha roA coA S ro co beta ldb (A, b) = (.throw .require, (A, b)) := by
  unfold rsksp3
  cases hbuf : S.buff with
  | some sb =>
    simp only [Option.isNone_some, Bool.false_eq_true, if_false]
    exact rsksp3View_sub_throw (S := S.view) hbuf h
  | none =>
    simp only [DenseIs, hbuf] at hS
    obtain ⟨hD, e1, e2, hA⟩ := hS
    obtain ⟨p1, p2, pF, p3, p4⟩ := hne hbuf
    obtain ⟨q1, q2⟩ := rowsOf_nonneg (op := opS) p1 p2
    simp only [Option.isNone_none, if_true, dimsBeforeOp_eq]
    by_cases hw : rowsOf opS n d + ro ≤ S.nRows ∧ colsOf opS n d + co ≤ S.nCols
    · obtain ⟨sb, ld, e, hsb⟩ := submatrixAsBlackbox_spec (sched := E.env.sched) hG hD e1 e2 hA q1 q2 pF ⟨p3, p4, hw.1, hw.2⟩
      rw [e, M.bind_ok (show (M.lift (Res.ok _) : M (SpMat T × Buf T) (BFO T)) (A, b) = (.ok _, (A, b)) from rfl)]
      refine rsksp3View_sub_throw (sb := sb) rfl ?_
      rintro ⟨h1, h2, -, -, h5⟩
      exact h ⟨h1, h2, hw.1, hw.2, h5⟩
    · rw [submatrix_throw hw]; rfl

end

/-- The hypotheses of C117 are met: the 2 x 2 submatrix at (1, 1) of a 3 x 3 COO matrix and a 2 x 2 window of the new operator `exDense`; its only
entry, 5, is in the second column. -/
example : EnvOk exSkEnv.env ∧ exSkEnv.G.Ok ∧ DenseIs exSkEnv exDense exDenseMat ∧ SpHolds (.coo (cooOf 3 3 .Zero sampleE)) sampleE ∧
    InRange 3 3 sampleE ∧ InOp exDense.nRows exDense.nCols (rowsOf .NoTrans 2 2) (colsOf .NoTrans 2 2) 1 2 ∧
    SubOk (.coo (cooOf 3 3 .Zero sampleE)) (rowsOf .NoTrans 2 2) (colsOf .NoTrans 2 2) 1 1 ∧
    window 1 1 2 2 sampleE = [⟨1, 1, 5⟩] ∧
    Supported (.coo (cooOf 3 3 .Zero sampleE)) .NoTrans .ColMajor .NoTrans 2 2 (window 1 1 2 2 sampleE) := by
  refine ⟨exEnv_ok, Or.inr rfl, exDense_is, ⟨cooOf_is _ _ _ _, trivial⟩, by simp [InRange, sampleE], by unfold InOp exDense; decide,
    by simp [SubOk, spRows, spCols, cooOf, rowsOf, colsOf], by decide, Or.inl ⟨by decide, fun _ _ => ⟨⟨1, 1, 5⟩, by decide, by decide⟩⟩⟩

/-- The hypotheses of the theorems about undefined calls are met: in the 2 x 2 submatrix at (1, 0) with one more entry, all entries are in the
first column, and the matrix has fewer than twice as many entries. -/
example : window 1 0 2 2 ([⟨1, 0, 3⟩, ⟨2, 0, 1⟩, ⟨2, 0, 4⟩] : List (Entry ℤ)) = [⟨0, 0, 3⟩, ⟨1, 0, 1⟩, ⟨1, 0, 4⟩] ∧
    ¬ CooOk 3 2 ([⟨0, 0, 3⟩, ⟨1, 0, 1⟩, ⟨1, 0, 4⟩] : List (Entry ℤ)) := by
  refine ⟨by decide, ?_⟩
  rintro (⟨-, h⟩ | ⟨h, -⟩ | ⟨-, h, -⟩)
  · obtain ⟨e, he, hc⟩ := h (by decide) (by decide)
    simp only [List.mem_cons, List.not_mem_nil, or_false] at he
    rcases he with rfl | rfl | rfl <;> exact hc rfl
  · cases h
  · simp at h

/-- The hypothesis of the theorems about errors is met: the 2 x 2 submatrix at (1, 1) of a 3 x 3 CSR matrix, and a submatrix of a COO matrix that
exceeds it. -/
example : ¬ SubOk (.csr (mkCsr 3 3 : CsrMat ℤ)) 2 2 1 1 ∧ ¬ SubOk (.coo (cooOf 3 3 .Zero sampleE)) 2 2 2 1 := by
  simp [SubOk, spRows, spCols, mkCsr, cooOf]

end RB
