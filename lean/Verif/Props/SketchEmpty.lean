import Verif.Props.SketchApi

/-! # Empty windows of operators that have not been filled (C36) -/

namespace RB
open Spec
variable {N : Nat} {K W WS R T : Type}

/-- C05 (empty windows). Filling an empty window that `FillOk` admits returns normally and changes no element of any buffer. -/
theorem C05_empty_window [Mul T] {sched : List Nat} {G : Gen N K W T} {sqrt3 : T} {layout : Layout} {D : DenseDist} {m n ro co : Int} {seed : RNGState N K} {b : Buf T} (hG : G.Ok)
    (hD : DenseDistOk D) (hm : 0 ≤ m) (hn : 0 ≤ n) (h0 : m = 0 ∨ n = 0) (hw : InOp D.nRows D.nCols m n ro co) (hF : FillOk G.len D m n ro co) :
    M.wp (fillDenseUnpacked sched G sqrt3 layout D m n ro co seed) b (fun _ b' => b' = b) :=
  fillUnpacked_empty hG hD hm hn (by rcases h0 with h | h <;> simp [h]) hw.1 hw.2.1 (by have := hw.2.2.1; omega) (by have := hw.2.2.2; omega) hF

/-- C05 (empty windows). Filling any other empty window is undefined if the buffer has no elements. -/
theorem C05_empty_window_undefined [Mul T] {sched : List Nat} {G : Gen N K W T} {sqrt3 : T} {layout : Layout} {D : DenseDist} {m n ro co : Int} {seed : RNGState N K} {b : Buf T}
    (hG : G.Ok) (hD : DenseDistOk D) (hm : 0 ≤ m) (hn : 0 ≤ n) (hw : InOp D.nRows D.nCols m n ro co) (hF : ¬ FillOk G.len D m n ro co) (hb : ∀ i, b i = .none) :
    (fillDenseUnpacked sched G sqrt3 layout D m n ro co seed b).1 = .ub :=
  fillUnpacked_undef hG hD hm hn hw.1 hw.2.1 (by have := hw.2.2.1; omega) (by have := hw.2.2.2; omega) hF hb

section
variable [Zero T] [One T] [Neg T] [Add T] [Mul T] [BEq T] [Field R] [LinearOrder R] [FloorRing R]

omit [BEq T] [Zero T] [One T] [Neg T] [Add T] [Field R] [LinearOrder R] [FloorRing R] in
/-- Sampling the window is undefined: whatever `submatrix_as_blackbox` is used for is. -/
theorem lift_submatrix_undef {σ α : Type} {sched : List Nat} {G : Gen N K W T} {sqrt3 : T} {S : DenseSkOp N K T} {r c ro co : Int} (hG : G.Ok) (hD : DenseDistOk S.dist)
    (e1 : S.nRows = S.dist.nRows) (e2 : S.nCols = S.dist.nCols) (hr : 0 ≤ r) (hc : 0 ≤ c) (hw : InOp S.nRows S.nCols r c ro co) (hF : ¬ FillOk G.len S.dist r c ro co)
    (f : BFO T → M σ α) (s : σ) : M.Undef (M.lift (submatrixAsBlackbox sched G sqrt3 S r c ro co) >>= f) s := by
  rw [submatrixAsBlackbox_undef hG hD e1 e2 hr hc hF hw]
  exact M.Undef.bind M.Undef.lift

/-- C36 (empty windows, left). Take a dense operator that has not been filled, and a window inside it that `FillOk` excludes: it has no entry, but it has `k > 0` vectors (rows of a
row-major operator, columns of a column-major one) of length 0, it does not start at the first entry of the operator, and it starts at a multiple of the number of words per counter or
at the end of the major axis. Then `sketch_general` is undefined for all other arguments: the code writes a block of random numbers into an array with no elements. -/
theorem C36_empty_undefined_left {E : SkEnv N K W WS R T} (hG : E.G.Ok) {S : DenseSkOp N K T} (hb : S.buff = none) (hD : DenseDistOk S.dist) (e1 : S.nRows = S.dist.nRows)
    (e2 : S.nCols = S.dist.nCols) {opS : Op} {d m ro co : Int} (hd : 0 ≤ d) (hm : 0 ≤ m) (hw : InOp S.nRows S.nCols (rowsOf opS d m) (colsOf opS d m) ro co)
    (hF : ¬ FillOk E.G.len S.dist (rowsOf opS d m) (colsOf opS d m) ro co) (layout : Layout) (opA : Op) (n : Int) (alpha beta : T) (A b : Buf T) (lda ldb : Int) :
    (sketchGeneralL E layout opS opA d n m alpha ro co A lda beta ldb (.dense S, b)).1 = .ub := by
  obtain ⟨q1, q2⟩ := rowsOf_nonneg (op := opS) hd hm
  have main : M.Undef (lskge3 E layout opS opA d n m alpha S ro co A lda beta ldb) b := by
    unfold lskge3
    rw [hb, if_pos (by simp), dimsBeforeOp_eq]
    exact lift_submatrix_undef hG hD e1 e2 q1 q2 hw hF _ _
  unfold sketchGeneralL
  rw [M.bind_ok (show (M.get : M (SkOp N K T × Buf T) _) _ = (.ok _, _) from rfl)]
  exact M.Undef.zoom main

/-- C36 (empty windows, right). -/
theorem C36_empty_undefined_right {E : SkEnv N K W WS R T} (hG : E.G.Ok) {S : DenseSkOp N K T} (hb : S.buff = none) (hD : DenseDistOk S.dist) (e1 : S.nRows = S.dist.nRows)
    (e2 : S.nCols = S.dist.nCols) {opS : Op} {n d ro co : Int} (hn : 0 ≤ n) (hd : 0 ≤ d) (hw : InOp S.nRows S.nCols (rowsOf opS n d) (colsOf opS n d) ro co)
    (hF : ¬ FillOk E.G.len S.dist (rowsOf opS n d) (colsOf opS n d) ro co) (layout : Layout) (opA : Op) (m : Int) (alpha beta : T) (A b : Buf T) (lda ldb : Int) :
    (sketchGeneralR E layout opA opS m d n alpha A lda ro co beta ldb (.dense S, b)).1 = .ub := by
  obtain ⟨q1, q2⟩ := rowsOf_nonneg (op := opS) hn hd
  have main : M.Undef (rskge3 E layout opA opS m d n alpha A lda S ro co beta ldb) b := by
    unfold rskge3
    rw [hb, if_pos (by simp), dimsBeforeOp_eq]
    exact lift_submatrix_undef hG hD e1 e2 q1 q2 hw hF _ _
  unfold sketchGeneralR
  rw [M.bind_ok (show (M.get : M (SkOp N K T × Buf T) _) _ = (.ok _, _) from rfl)]
  exact M.Undef.zoom main

/-- C36 (empty windows, `sketch_sparse` from the left). -/
theorem C36_empty_undefined_sparse_left {E : SkEnv N K W WS R T} (hG : E.G.Ok) {S : DenseSkOp N K T} (hb : S.buff = none) (hD : DenseDistOk S.dist) (e1 : S.nRows = S.dist.nRows)
    (e2 : S.nCols = S.dist.nCols) {opS : Op} {d m ro co : Int} (hd : 0 ≤ d) (hm : 0 ≤ m) (hw : InOp S.nRows S.nCols (rowsOf opS d m) (colsOf opS d m) ro co)
    (hF : ¬ FillOk E.G.len S.dist (rowsOf opS d m) (colsOf opS d m) ro co) (layout : Layout) (opA : Op) (n : Int) (alpha beta : T) (A : SpMat T) (b : Buf T) (ldb : Int) :
    (sketchSparseL E layout opS opA d n m alpha S ro co beta ldb (A, b)).1 = .ub := by
  obtain ⟨q1, q2⟩ := rowsOf_nonneg (op := opS) hd hm
  unfold sketchSparseL lsksp3
  rw [hb, if_pos (by simp), dimsBeforeOp_eq]
  exact lift_submatrix_undef hG hD e1 e2 q1 q2 hw hF _ _

/-- C36 (empty windows, `sketch_sparse` from the right). -/
theorem C36_empty_undefined_sparse_right {E : SkEnv N K W WS R T} (hG : E.G.Ok) {S : DenseSkOp N K T} (hb : S.buff = none) (hD : DenseDistOk S.dist) (e1 : S.nRows = S.dist.nRows)
    (e2 : S.nCols = S.dist.nCols) {opS : Op} {n d ro co : Int} (hn : 0 ≤ n) (hd : 0 ≤ d) (hw : InOp S.nRows S.nCols (rowsOf opS n d) (colsOf opS n d) ro co)
    (hF : ¬ FillOk E.G.len S.dist (rowsOf opS n d) (colsOf opS n d) ro co) (layout : Layout) (opA : Op) (m : Int) (alpha beta : T) (A : SpMat T) (b : Buf T) (ldb : Int) :
    (sketchSparseR E layout opA opS m d n alpha S ro co beta ldb (A, b)).1 = .ub := by
  obtain ⟨q1, q2⟩ := rowsOf_nonneg (op := opS) hn hd
  unfold sketchSparseR rsksp3
  rw [hb, if_pos (by simp), dimsBeforeOp_eq]
  exact lift_submatrix_undef hG hD e1 e2 q1 q2 hw hF _ _

end

/-- The hypotheses are met, and so are those of the theorems that assume `FillOk` for empty windows: a sketch of a matrix with `m = 0` rows by `d = 2` rows of the new operator `exDense`
is undefined for the window that starts at row 1 and column 4, and it is defined for the windows that start at row 1 and column 1, and at the first entry. Sketches with `d = 0` are
defined. -/
example : exDense.buff = none ∧ DenseDistOk exDense.dist ∧ InOp exDense.nRows exDense.nCols (rowsOf .NoTrans 2 0) (colsOf .NoTrans 2 0) 1 4 ∧
    ¬ FillOk exSkEnv.G.len exDense.dist (rowsOf .NoTrans 2 0) (colsOf .NoTrans 2 0) 1 4 ∧
    FillOk exSkEnv.G.len exDense.dist (rowsOf .NoTrans 2 0) (colsOf .NoTrans 2 0) 1 1 ∧
    FillOk exSkEnv.G.len exDense.dist (rowsOf .NoTrans 2 0) (colsOf .NoTrans 2 0) 0 0 ∧
    FillOk exSkEnv.G.len exDense.dist (rowsOf .NoTrans 0 2) (colsOf .NoTrans 0 2) 1 4 := by
  refine ⟨rfl, ⟨by decide, by decide⟩, by unfold InOp exDense; decide, ?_, ?_, ?_, ?_⟩ <;> decide

end RB
