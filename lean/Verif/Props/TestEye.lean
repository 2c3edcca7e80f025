import Verif.Props.TestLinop

/-!
# The tests with identity matrices (C124)

`test_left_apply_submatrix_to_eye` and `test_left_apply_transpose_to_eye` multiply the operator with an identity matrix and compare the result with the operator.
-/

namespace RB
open Spec
variable {N : Nat} {K W WS R T : Type} [Field R] [LinearOrder R] [FloorRing R] [Field T] [LinearOrder T]

omit [Field R] [LinearOrder R] [FloorRing R] [LinearOrder T] in
/-- `eye` makes an identity matrix, in both layouts. -/
theorem testEye_spec {n : Int} (hn : 0 ≤ n) (layout : Layout) :
    M.wp (testEye n) (zeroVec (n * n) : Buf T) (fun _ b => Holds b layout n n n (fun i j => if i = j then 1 else 0)) := by
  have had : ∀ i, i + n * i = addr layout n i i := fun i => by cases layout <;> simp only [addr] <;> ring
  have htl : tightLd layout n n = n := by cases layout <;> rfl
  have hld : LdOk layout n n n := by cases layout <;> exact le_refl _
  have h0 : Holds (zeroVec (n * n) : Buf T) layout n n n (fun _ _ => 0) := by
    have := ofFn_holds (m := n) (n := n) layout (fun _ => (0 : T))
    rw [htl] at this
    exact this
  unfold testEye
  refine M.wp_forI (fun k b => MatSt (zeroVec (n * n)) (addr layout n) n n (fun i j => .val (if i = j ∧ i < k then (1 : T) else 0)) b) hn
    ((MatSt.of_holds h0).congr fun i j hij => by rw [if_neg (by have := hij.1; omega)]) ?_
    (fun b h => MatSt.holds (h.congr fun i j hij => by
      by_cases e : i = j
      · rw [if_pos ⟨e, hij.2.1⟩, if_pos e]
      · rw [if_neg (fun h => e h.1), if_neg e]))
  intro k b k0 k1 h
  rw [had]
  refine h.wp_wr (adInj_addr hld) ⟨k0, k1, k0, k1⟩ (by simp) fun b' h' => h'.congr fun i j hij => ?_
  by_cases e : i = k ∧ j = k
  · rw [if_pos e, if_pos (by omega)]
  · rw [if_neg e]
    by_cases e2 : i = j ∧ i < k
    · rw [if_pos e2, if_pos (by omega)]
    · rw [if_neg e2, if_neg (by omega)]

omit [Field R] [LinearOrder R] [FloorRing R] [Field T] [LinearOrder T] in
theorem fltBuf_holds {b : Buf T} {layout : Layout} {ld m n : Int} {A : Int → Int → T} (h : Holds b layout ld m n A) : Holds (fltBuf b) layout ld m n (fun i j => .fin (A i j)) :=
  fun i j hij => fltBuf_val (h i j hij)

omit [Field R] [LinearOrder R] [FloorRing R] in
theorem matricesApproxEqual1_ok {A B : Buf (Flt T)} {layout : Layout} {op : Op} {m n lda ldb : Int} {Am Bm : Int → Int → T} (hm : 0 ≤ m) (hn : 0 ≤ n)
    (hA : Holds A layout lda m n (fun i j => .fin (Am i j))) (hB : Holds B layout ldb (rowsOf op m n) (colsOf op m n) (fun i j => .fin (Bm i j))) (atol rtol : T) :
    ∃ r, matricesApproxEqual1 layout op m n A lda B ldb (.fin atol) (.fin rtol) = .ok r := by
  unfold matricesApproxEqual1
  rcases C118_matrices_partial hm hn hA hB atol rtol with ⟨e, h⟩ | ⟨i, j, e, h1, h2⟩
  · exact ⟨_, e⟩
  · exact ⟨_, e⟩

omit [Field R] [LinearOrder R] [FloorRing R] [Field T] [LinearOrder T] in
theorem alloc_alloc (layout : Layout) (m n : Int) : Alloc (Buf.alloc T (m * n)) layout (tightLd layout m n) m n := by
  intro i j hij
  have := addr_bound (ldOk_tight layout m n) hij
  rw [extent_tight] at this
  unfold Buf.alloc
  rw [if_pos this]
  simp

/-- C124 (identity, left). For every program `apply` that leaves the matrix of the operator unchanged and turns B into `X'`, given the identity matrix, `test_left_apply_submatrix_to_eye` runs without
undefined behaviour on every window of the operator and accepts exactly if each entry of `X'` is close to `alpha * submat(S) + beta * B`. -/
theorem C124_left_eye {E : SkEnv N K W WS R T} (hE : SkEnvOk E) {atol rtol : T} {seedB : RNGState N K} {S : TestOp N K T} {Sm : Int → Int → T} (hS : TestOpIs E S Sm) {layout : Layout}
    {d1 m1 ro co : Int} {alpha beta : T} (hd : 0 < d1) (hm : 0 < m1) (hfB : d1 * m1 ≤ intMax 64) (hw : InOp S.dims.1 S.dims.2 d1 m1 ro co) {C : Int → Int → T}
    (hC : C = fun i j => testData E.G seedB d1 m1 (addr layout (tightLd layout d1 m1) i j)) {apply : Buf T → Int → Int → M (TestOp N K T × Buf T) Unit} {X' : Int → Int → T}
    (happly : ∀ A, Holds A layout m1 m1 m1 (fun i j => if i = j then 1 else 0) → M.wp (apply A m1 (tightLd layout d1 m1)) (S, Buf.ofFn (d1 * m1) (testData E.G seedB d1 m1))
      (fun _ s => TestOpIs E s.1 Sm ∧ s.1.dims = S.dims ∧ Holds s.2 layout (tightLd layout d1 m1) d1 m1 X')) :
    M.wp (testLeftEye E atol rtol seedB apply alpha d1 m1 ro co layout beta) S (fun r S' => TestOpIs E S' Sm ∧ S'.dims = S.dims ∧
      (r = none ↔ ∀ i j, InR d1 m1 i j → Close atol rtol (X' i j) (alpha * Sm (ro + i) (co + j) + beta * C i j))) := by
  obtain ⟨q1, q2⟩ := testOp_pos hS
  obtain ⟨w1, w2, w3, w4⟩ := hw
  unfold testLeftEye
  simp only [M.wp_bind, M.wp_get, M.wp_onLocal, M.wp_require, tightLd_if]
  refine ⟨by omega, by omega, M.wp_mono (testEye_spec hm.le layout) ?_⟩
  intro _ A hA
  refine ⟨_, _, randomMatrix_flat hE.gen hd hm hfB seedB, ?_⟩
  refine M.wp_mono (happly A hA) ?_
  rintro _ ⟨S1, b1⟩ ⟨g1, g2, g3⟩
  dsimp only at g1 g2 g3 ⊢
  refine M.wp_mono (toExplicit_spec hE g1 (b := Buf.alloc T (S.dims.1 * S.dims.2)) ?_) ?_
  · rw [g2]; exact alloc_alloc layout _ _
  rintro _ ⟨S2, x⟩ ⟨k1, k2, k3⟩
  rw [M.wp_modify]
  rw [g2] at k2 k3
  dsimp only at k1 k2 k3 ⊢
  set ldE := tightLd layout S.dims.1 S.dims.2 with hldE
  have hoff : (layoutToStrides layout ldE).irs * ro + (layoutToStrides layout ldE).ics * co = addr layout ldE ro co := by
    rw [← strides_at']; ring
  have hadd : ∀ i j, addr layout ldE ro co + addr layout ldE i j = addr layout ldE (ro + i) (co + j) := fun i j => by cases layout <;> simp only [addr] <;> ring
  have hin : ∀ i j, InR d1 m1 i j → InR S.dims.1 S.dims.2 (ro + i) (co + j) := fun i j h => by simp only [InR] at *; omega
  have hldw : LdOk layout ldE d1 m1 := by rw [hldE]; cases layout <;> simp only [LdOk, tightLd] <;> omega
  have hB : Holds (Buf.ofFn (d1 * m1) (testData E.G seedB d1 m1)) layout (tightLd layout d1 m1) d1 m1 C := by rw [hC]; exact ofFn_holds layout _
  rw [hoff]
  refine M.wp_mono (wp_writeMat (ad := fun i j => addr layout ldE ro co + addr layout ldE i j) (F := fun i j => alpha * Sm (ro + i) (co + j) + beta * C i j) hd.le hm.le
    (adInj_addr_off _ hldw) ?_ ?_) ?_
  · intro i j hij
    rw [hadd, k3.cells _ _ (hin i j hij)]; simp
  · intro i j hij b' hb' Q hQ
    beta_reduce at hb' hQ
    rw [hadd] at hb' hQ
    have e1 : addr layout ldE ro co + i * (layoutToStrides layout ldE).irs + j * (layoutToStrides layout ldE).ics = addr layout ldE (ro + i) (co + j) := by
      rw [← hadd, ← strides_at' layout ldE i j]; ring
    rw [e1, strides_at']
    rw [M.wp_bind, M.wp_rd]
    refine ⟨_, by rw [hb', k3.cells _ _ (hin i j hij)], ?_⟩
    rw [M.wp_bind, M.wp_lift]
    exact ⟨_, Buf.rd_val (hB i j hij), hQ⟩
  · rintro _ y hy
    rw [M.wp_lift]
    have hy' : Holds (y.shift (addr layout ldE ro co)) layout ldE d1 m1 (fun i j => alpha * Sm (ro + i) (co + j) + beta * C i j) := by
      intro i j hij
      exact hy.cells i j hij
    have := C118_matrices_one_layout_partial (op := .NoTrans) hd.le hm.le (fltBuf_holds g3) (fltBuf_holds hy') atol rtol
    obtain ⟨r, hr⟩ := matricesApproxEqual1_ok (op := .NoTrans) hd.le hm.le (fltBuf_holds g3) (fltBuf_holds hy') atol rtol
    refine ⟨r, hr, k1, k2, ?_⟩
    rw [hr] at this
    have t : (r = none) ↔ (Res.ok r = .ok none) := ⟨fun h => by rw [h], fun h => by cases h; rfl⟩
    rw [t, this]
    rfl

/-- C124 (identity, transposed). `test_left_apply_transpose_to_eye` accepts exactly if each entry of the result, computed from the identity matrix and zeros, is close to the transpose of the operator. -/
theorem C124_left_transpose_eye {E : SkEnv N K W WS R T} (hE : SkEnvOk E) {atol rtol : T} {S : TestOp N K T} {Sm : Int → Int → T} (hS : TestOpIs E S Sm) {layout : Layout}
    {apply : Buf T → Int → Int → M (TestOp N K T × Buf T) Unit} {X' : Int → Int → T}
    (happly : ∀ A, Holds A layout S.dims.1 S.dims.1 S.dims.1 (fun i j => if i = j then 1 else 0) →
      M.wp (apply A S.dims.1 (tightLd layout S.dims.2 S.dims.1)) (S, Buf.ofFn (S.dims.2 * S.dims.1) fun _ => 0)
      (fun _ s => TestOpIs E s.1 Sm ∧ s.1.dims = S.dims ∧ Holds s.2 layout (tightLd layout S.dims.2 S.dims.1) S.dims.2 S.dims.1 X')) :
    M.wp (testLeftTransEye E atol rtol apply layout) S (fun r S' => TestOpIs E S' Sm ∧ S'.dims = S.dims ∧
      (r = none ↔ ∀ i j, InR S.dims.2 S.dims.1 i j → Close atol rtol (X' i j) (Sm j i))) := by
  obtain ⟨q1, q2⟩ := testOp_pos hS
  unfold testLeftTransEye
  simp only [M.wp_bind, M.wp_get, M.wp_onLocal, tightLd_if]
  refine M.wp_mono (testEye_spec q1.le layout) ?_
  intro _ A hA
  refine M.wp_mono (happly A hA) ?_
  rintro _ ⟨S1, b1⟩ ⟨g1, g2, g3⟩
  dsimp only at g1 g2 g3 ⊢
  refine M.wp_mono (toExplicit_spec hE g1 (b := zeroVec (S.dims.1 * S.dims.2)) ?_) ?_
  · rw [g2]; exact ofFn_alloc layout _
  rintro _ ⟨S2, x⟩ ⟨k1, k2, k3⟩
  rw [g2] at k2 k3
  rw [M.wp_modify, M.wp_lift]
  dsimp only at k1 k2 k3 ⊢
  have hx : Holds x layout (tightLd layout S.dims.1 S.dims.2) (rowsOf .Trans S.dims.2 S.dims.1) (colsOf .Trans S.dims.2 S.dims.1) Sm := k3.holds
  have := C118_matrices_one_layout_partial (op := .Trans) q2.le q1.le (fltBuf_holds g3) (fltBuf_holds hx) atol rtol
  obtain ⟨r, hr⟩ := matricesApproxEqual1_ok (op := .Trans) q2.le q1.le (fltBuf_holds g3) (fltBuf_holds hx) atol rtol
  refine ⟨r, hr, k1, k2, ?_⟩
  rw [hr] at this
  have t : (r = none) ↔ (Res.ok r = .ok none) := ⟨fun h => by rw [h], fun h => by cases h; rfl⟩
  rw [t, this]
  rfl

end RB
