import Verif.Lemmas.DenseNegative
import Verif.Props.SketchApi

/-! # Negative offsets into dense operators that have not been filled (C42) -/

namespace RB
open Spec
variable {N : Nat} {K W WS R T : Type}

section
variable [Zero T] [One T] [Neg T] [Add T] [Mul T] [BEq T] [Field R] [LinearOrder R] [FloorRing R]

omit [BEq T] [Zero T] [One T] [Neg T] [Add T] [Field R] [LinearOrder R] [FloorRing R] in
theorem lift_submatrix_neg_undef {σ α : Type} {sched : List Nat} {G : Gen N K W T} {sqrt3 : T} {S : DenseSkOp N K T} {r c ro co : Int} (hG : G.Ok) (hD : DenseDistOk S.dist)
    (e1 : S.nRows = S.dist.nRows) (e2 : S.nCols = S.dist.nCols) (hr : 0 < r) (hc : 0 < c) (hrR : r ≤ S.nRows) (hcC : c ≤ S.nCols)
    (hro : -S.nRows < ro) (hro0 : ro ≤ 0) (hco : -S.nCols < co) (hco0 : co ≤ 0) (hd : ¬ G.len ∣ majorOffset S.dist ro co)
    (f : BFO T → M σ α) (s : σ) : M.Undef (M.lift (submatrixAsBlackbox sched G sqrt3 S r c ro co) >>= f) s := by
  rw [submatrixAsBlackbox_neg_undef hG hD e1 e2 hr hc hrR hcC hro hro0 hco hco0 hd]
  exact M.Undef.bind M.Undef.lift

/-- C42 (negative offsets, operators that have not been filled, left). Negative offsets are not rejected. Take a dense operator that has not been filled and a window
with entries, no larger than the operator. If neither offset is positive, both are greater than minus the operator's dimension, and the offset along the operator's major axis (the
column offset if its rows are sampled contiguously, the row offset if its columns are) is not a multiple of the number of words per counter, then the call is undefined for all other
arguments: the code reads before the start of a block of random numbers. -/
theorem C42_negative_unfilled_undefined_left {E : SkEnv N K W WS R T} (hG : E.G.Ok) {S : DenseSkOp N K T} (hb : S.buff = none) (hD : DenseDistOk S.dist) (e1 : S.nRows = S.dist.nRows)
    (e2 : S.nCols = S.dist.nCols) {opS : Op} {d m ro co : Int} (hd : 0 < d) (hm : 0 < m) (hsize : rowsOf opS d m ≤ S.nRows ∧ colsOf opS d m ≤ S.nCols)
    (hro : -S.nRows < ro ∧ ro ≤ 0) (hco : -S.nCols < co ∧ co ≤ 0) (hoff : ¬ E.G.len ∣ (if S.dist.naturalLayout = .ColMajor then ro else co))
    (layout : Layout) (opA : Op) (n : Int) (alpha beta : T) (A b : Buf T) (lda ldb : Int) :
    (sketchGeneralL E layout opS opA d n m alpha ro co A lda beta ldb (.dense S, b)).1 = .ub := by
  obtain ⟨q1, q2⟩ := rowsOf_pos (op := opS) hd hm
  have main : M.Undef (lskge3 E layout opS opA d n m alpha S ro co A lda beta ldb) b := by
    unfold lskge3
    rw [hb, if_pos (by simp), dimsBeforeOp_eq]
    exact lift_submatrix_neg_undef hG hD e1 e2 q1 q2 hsize.1 hsize.2 hro.1 hro.2 hco.1 hco.2 hoff _ _
  unfold sketchGeneralL
  rw [M.bind_ok (show (M.get : M (SkOp N K T × Buf T) _) _ = (.ok _, _) from rfl)]
  exact M.Undef.zoom main

/-- C42 (negative offsets, operators that have not been filled, right). -/
theorem C42_negative_unfilled_undefined_right {E : SkEnv N K W WS R T} (hG : E.G.Ok) {S : DenseSkOp N K T} (hb : S.buff = none) (hD : DenseDistOk S.dist) (e1 : S.nRows = S.dist.nRows)
    (e2 : S.nCols = S.dist.nCols) {opS : Op} {n d ro co : Int} (hn : 0 < n) (hd : 0 < d) (hsize : rowsOf opS n d ≤ S.nRows ∧ colsOf opS n d ≤ S.nCols)
    (hro : -S.nRows < ro ∧ ro ≤ 0) (hco : -S.nCols < co ∧ co ≤ 0) (hoff : ¬ E.G.len ∣ (if S.dist.naturalLayout = .ColMajor then ro else co))
    (layout : Layout) (opA : Op) (m : Int) (alpha beta : T) (A b : Buf T) (lda ldb : Int) :
    (sketchGeneralR E layout opA opS m d n alpha A lda ro co beta ldb (.dense S, b)).1 = .ub := by
  obtain ⟨q1, q2⟩ := rowsOf_pos (op := opS) hn hd
  have main : M.Undef (rskge3 E layout opA opS m d n alpha A lda S ro co beta ldb) b := by
    unfold rskge3
    rw [hb, if_pos (by simp), dimsBeforeOp_eq]
    exact lift_submatrix_neg_undef hG hD e1 e2 q1 q2 hsize.1 hsize.2 hro.1 hro.2 hco.1 hco.2 hoff _ _
  unfold sketchGeneralR
  rw [M.bind_ok (show (M.get : M (SkOp N K T × Buf T) _) _ = (.ok _, _) from rfl)]
  exact M.Undef.zoom main

omit [Neg T] [Field R] [LinearOrder R] [FloorRing R] in
/-- C42 (negative offsets, operators that have not been filled, `sketch_sparse` from the left). -/
theorem C42_negative_unfilled_undefined_sparse_left {E : SkEnv N K W WS R T} (hG : E.G.Ok) {S : DenseSkOp N K T} (hb : S.buff = none) (hD : DenseDistOk S.dist)
    (e1 : S.nRows = S.dist.nRows) (e2 : S.nCols = S.dist.nCols) {opS : Op} {d m ro co : Int} (hd : 0 < d) (hm : 0 < m)
    (hsize : rowsOf opS d m ≤ S.nRows ∧ colsOf opS d m ≤ S.nCols) (hro : -S.nRows < ro ∧ ro ≤ 0) (hco : -S.nCols < co ∧ co ≤ 0)
    (hoff : ¬ E.G.len ∣ (if S.dist.naturalLayout = .ColMajor then ro else co)) (layout : Layout) (opA : Op) (n : Int) (alpha beta : T) (A : SpMat T) (b : Buf T) (ldb : Int) :
    (sketchSparseL E layout opS opA d n m alpha S ro co beta ldb (A, b)).1 = .ub := by
  obtain ⟨q1, q2⟩ := rowsOf_pos (op := opS) hd hm
  unfold sketchSparseL lsksp3
  rw [hb, if_pos (by simp), dimsBeforeOp_eq]
  exact lift_submatrix_neg_undef hG hD e1 e2 q1 q2 hsize.1 hsize.2 hro.1 hro.2 hco.1 hco.2 hoff _ _

omit [Neg T] [Field R] [LinearOrder R] [FloorRing R] in
/-- C42 (negative offsets, operators that have not been filled, `sketch_sparse` from the right). -/
theorem C42_negative_unfilled_undefined_sparse_right {E : SkEnv N K W WS R T} (hG : E.G.Ok) {S : DenseSkOp N K T} (hb : S.buff = none) (hD : DenseDistOk S.dist)
    (e1 : S.nRows = S.dist.nRows) (e2 : S.nCols = S.dist.nCols) {opS : Op} {n d ro co : Int} (hn : 0 < n) (hd : 0 < d)
    (hsize : rowsOf opS n d ≤ S.nRows ∧ colsOf opS n d ≤ S.nCols) (hro : -S.nRows < ro ∧ ro ≤ 0) (hco : -S.nCols < co ∧ co ≤ 0)
    (hoff : ¬ E.G.len ∣ (if S.dist.naturalLayout = .ColMajor then ro else co)) (layout : Layout) (opA : Op) (m : Int) (alpha beta : T) (A : SpMat T) (b : Buf T) (ldb : Int) :
    (sketchSparseR E layout opA opS m d n alpha S ro co beta ldb (A, b)).1 = .ub := by
  obtain ⟨q1, q2⟩ := rowsOf_pos (op := opS) hn hd
  unfold sketchSparseR rsksp3
  rw [hb, if_pos (by simp), dimsBeforeOp_eq]
  exact lift_submatrix_neg_undef hG hD e1 e2 q1 q2 hsize.1 hsize.2 hro.1 hro.2 hco.1 hco.2 hoff _ _

end

/-- Other negative offsets give a result without an error. The new 3 x 7 operator `exDense` with row-major layout has no entry (1, -1) and no entry (-1, 0). A sketch of the 1 x 1 matrix
(10) with the window at (1, -1) uses the operator's entry (0, 6); with the window at (-1, 0) it uses the first word of the counter that is two before the seed's counter plus 2^64. -/
theorem C42_negative_unfilled_counterexample : exDense.buff = none ∧ ¬ InOp exDense.nRows exDense.nCols 1 1 1 (-1) ∧ ¬ InOp exDense.nRows exDense.nCols 1 1 (-1) 0 ∧
    (sketchGeneralL exSkEnv .RowMajor .NoTrans .NoTrans 1 1 1 1 1 (-1) (Buf.ofList [10]) 1 0 1 (.dense exDense, Buf.ofList [9])).1 = .ok () ∧
    (sketchGeneralL exSkEnv .RowMajor .NoTrans .NoTrans 1 1 1 1 1 (-1) (Buf.ofList [10]) 1 0 1 (.dense exDense, Buf.ofList [9])).2.2 0 = .val (exDenseMat 0 6 * 10) ∧
    (sketchGeneralL exSkEnv .RowMajor .NoTrans .NoTrans 1 1 1 1 (-1) 0 (Buf.ofList [10]) 1 0 1 (.dense exDense, Buf.ofList [9])).1 = .ok () ∧
    (sketchGeneralL exSkEnv .RowMajor .NoTrans .NoTrans 1 1 1 1 (-1) 0 (Buf.ofList [10]) 1 0 1 (.dense exDense, Buf.ofList [9])).2.2 0 =
      .val (denseEntry exGen 1 exDist ⟨5 + (2 ^ 64 - 2), 3⟩ 0 0 * 10) := by
  refine ⟨rfl, by unfold InOp; decide, by unfold InOp; decide, ?_, ?_, ?_, ?_⟩ <;> decide +kernel

/-- The hypotheses of the theorems are met: a 2 x 2 window of that operator at row -1 and column -1. -/
example : exDense.buff = none ∧ DenseDistOk exDense.dist ∧ (rowsOf .NoTrans 2 2 ≤ exDense.nRows ∧ colsOf .NoTrans 2 2 ≤ exDense.nCols) ∧
    (-exDense.nRows < -1 ∧ (-1 : Int) ≤ 0) ∧ (-exDense.nCols < -1 ∧ (-1 : Int) ≤ 0) ∧
    ¬ exSkEnv.G.len ∣ (if exDense.dist.naturalLayout = .ColMajor then (-1 : Int) else -1) := by
  refine ⟨rfl, ⟨by decide, by decide⟩, ?_, ?_, ?_, ?_⟩ <;> decide

end RB
