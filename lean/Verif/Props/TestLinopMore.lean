import Verif.Model.TestLinopMore
import Verif.Props.TestLibrary

/-!
# The other product tests (C124)

The tests on submatrices and transposes of random data, and the identity tests from the right.
-/

namespace RB
open Spec
variable {N : Nat} {K W WS R T : Type} [Field R] [LinearOrder R] [FloorRing R] [Field T] [LinearOrder T]


theorem offset_addr (layout : Layout) (m n ro co : Int) : offsetAndLdim layout m n ro co = (addr layout (tightLd layout m n) ro co, tightLd layout m n) := by
  cases layout <;> simp [offsetAndLdim, addr, tightLd] <;> ring

omit [Field T] [LinearOrder T] in
/-- A pointer to a window of an array. -/
theorem shifted_window {layout : Layout} {m0 n0 m n ro co : Int} {f : Int → T} (hm : 0 < m) (hn : 0 < n) (hw : InOp m0 n0 m n ro co) :
    LdOk layout (tightLd layout m0 n0) m n ∧
    Holds ((Buf.ofFn (m0 * n0) f).shift (addr layout (tightLd layout m0 n0) ro co)) layout (tightLd layout m0 n0) m n (fun i j => f (addr layout (tightLd layout m0 n0) (ro + i) (co + j))) ∧
    Full ((Buf.ofFn (m0 * n0) f).shift (addr layout (tightLd layout m0 n0) ro co)) (extent layout (tightLd layout m0 n0) m n) := by
  obtain ⟨w1, w2, w3, w4⟩ := hw
  have hadd : ∀ i j, addr layout (tightLd layout m0 n0) ro co + addr layout (tightLd layout m0 n0) i j = addr layout (tightLd layout m0 n0) (ro + i) (co + j) := fun i j => by
    cases layout <;> simp only [addr] <;> ring
  refine ⟨by cases layout <;> simp only [LdOk, tightLd] <;> omega, fun i j hij => ?_, fun p p0 p1 => ?_⟩
  · have hin : InR m0 n0 (ro + i) (co + j) := by simp only [InR] at *; omega
    have := ofFn_holds (T := T) layout f (m := m0) (n := n0) _ _ hin
    beta_reduce
    rw [← hadd] at this ⊢
    beta_reduce at this
    rw [← hadd] at this
    exact this
  · have hlast : extent layout (tightLd layout m0 n0) m n = addr layout (tightLd layout m0 n0) (m - 1) (n - 1) + 1 := by
      cases layout <;> simp only [extent, addr] <;> ring
    have hin : InR m0 n0 (ro + (m - 1)) (co + (n - 1)) := by simp only [InR] at *; omega
    have h1 := addr_bound (ldOk_tight layout m0 n0) hin
    have hin0 : InR m0 n0 ro co := by simp only [InR] at *; omega
    have h0 := addr_bound (ldOk_tight layout m0 n0) hin0
    rw [extent_tight, ← hadd] at h1
    refine ⟨f (addr layout (tightLd layout m0 n0) ro co + p), ?_⟩
    show Buf.ofFn (m0 * n0) f (addr layout (tightLd layout m0 n0) ro co + p) = _
    unfold Buf.ofFn
    rw [if_pos ⟨by omega, by omega⟩]

section
variable [IsStrictOrderedRing T]

/-- The tolerance of the tests on submatrices and transposes, from the left. -/
def Spec.leftTol (eps : T) (opA : Op) (m : Int) (Sm Am : Int → Int → T) (i j : Int) : T :=
  2 * (m : T) * eps * prodEntry m (fun i k => |Sm i k|) (fun k j => |opMat opA Am k j|) i j

/-- The tolerance of the tests on submatrices and transposes, from the right. -/
def Spec.rightTol (eps : T) (opA : Op) (n : Int) (Am Sm : Int → Int → T) (i j : Int) : T :=
  2 * (n : T) * eps * prodEntry n (fun i k => |opMat opA Am i k|) (fun k j => |Sm k j|) i j

theorem compareLeft_spec {E : SkEnv N K W WS R T} (hE : SkEnvOk E) {eps : T} {S : TestOp N K T} {Sm : Int → Int → T} (hS : TestOpIs E S Sm) {layout : Layout} {opA : Op}
    {n lda : Int} {A : Buf T} {Am : Int → Int → T} (hn : 0 < n) (hlda : LdOk layout lda (rowsOf opA S.dims.2 n) (colsOf opA S.dims.2 n))
    (hA : Holds A layout lda (rowsOf opA S.dims.2 n) (colsOf opA S.dims.2 n) Am) (hfull : Full A (extent layout lda (rowsOf opA S.dims.2 n) (colsOf opA S.dims.2 n)))
    {apply : Buf T → Int → Int → M (TestOp N K T × Buf T) Unit} {X' : Int → Int → T}
    (happly : M.wp (apply A lda (tightLd layout S.dims.1 n)) (S, Buf.ofFn (S.dims.1 * n) fun _ => 0)
      (fun _ s => TestOpIs E s.1 Sm ∧ s.1.dims = S.dims ∧ Holds s.2 layout (tightLd layout S.dims.1 n) S.dims.1 n X')) :
    M.wp (compareLeft E eps apply opA n layout A lda) S (fun r S' => TestOpIs E S' Sm ∧
      (r = none ↔ ∀ i j, InR S.dims.1 n i j → |X' i j - prodEntry S.dims.2 Sm (opMat opA Am) i j| ≤ leftTol eps opA S.dims.2 Sm Am i j) ∧
      ∀ p, r = some p → ∃ i j, InR S.dims.1 n i j ∧ p = addr layout (tightLd layout S.dims.1 n) i j ∧
        leftTol eps opA S.dims.2 Sm Am i j < |X' i j - prodEntry S.dims.2 Sm (opMat opA Am) i j|) := by
  obtain ⟨q1, q2⟩ := testOp_pos hS
  unfold compareLeft
  simp only [M.wp_bind, M.wp_get, M.wp_onLocal, tightLd_if]
  refine M.wp_mono happly ?_
  rintro _ ⟨S1, b1⟩ ⟨g1, g2, g3⟩
  dsimp only at g1 g2 g3 ⊢
  have hsub : ∀ F : Int → Int → T, subMat 0 0 F = F := fun F => by funext i j; simp [subMat]
  refine M.wp_mono (C124_reference_left (S := S1) (Am := Am) (C := fun _ _ => 0) hE g1 q1 hn q2 (by rw [g2]; exact ⟨le_refl _, le_refl _, by simp [rowsOf], by simp [colsOf]⟩) hlda (ldOk_tight _ _ _)
    hA hfull (ofFn_alloc layout _) (fun h => absurd rfl h)
    (by rw [extent_tight]; intro p p0 p1; unfold zeroVec Buf.ofFn; rw [if_pos ⟨p0, p1⟩]; simp)) ?_
  rintro _ s ⟨h1, h2, h3, -, h5, -⟩
  rw [M.wp_modify, M.wp_lift]
  obtain ⟨r, e1, e2, e3⟩ := within_tight q1 hn g3 h3 h5
  unfold productOf toleranceOf at e2 e3
  simp only [opMat, hsub, one_mul, zero_mul, add_zero, abs_one, abs_zero, mul_one, mul_zero] at e2 e3
  exact ⟨r, e1, h1, e2, e3⟩

/-- C124 (submatrix, left). For every program `apply` that leaves the matrix of the operator unchanged and turns zeros into `X'`, given a pointer to the window of the data and the leading dimension of
the whole, `test_left_apply_to_submatrix` accepts exactly if each entry of `X'` is within the tolerance of the product of the operator and the window. -/
theorem C124_left_submatrix {E : SkEnv N K W WS R T} (hE : SkEnvOk E) {eps : T} {seedA : RNGState N K} {S : TestOp N K T} {Sm : Int → Int → T} (hS : TestOpIs E S Sm) {layout : Layout}
    {n m0 n0 ro co : Int} (hn : 0 < n) (hfA : m0 * n0 ≤ intMax 64) (hw : InOp m0 n0 S.dims.2 n ro co) {Am : Int → Int → T}
    (hAm : Am = fun i j => testData E.G seedA m0 n0 (addr layout (tightLd layout m0 n0) (ro + i) (co + j)))
    {apply : Buf T → Int → Int → M (TestOp N K T × Buf T) Unit} {X' : Int → Int → T}
    (happly : ∀ A, Holds A layout (tightLd layout m0 n0) S.dims.2 n Am → M.wp (apply A (tightLd layout m0 n0) (tightLd layout S.dims.1 n)) (S, Buf.ofFn (S.dims.1 * n) fun _ => 0)
      (fun _ s => TestOpIs E s.1 Sm ∧ s.1.dims = S.dims ∧ Holds s.2 layout (tightLd layout S.dims.1 n) S.dims.1 n X')) :
    M.wp (testLeftSubmatrix E eps seedA apply n m0 n0 ro co layout) S (fun r S' => TestOpIs E S' Sm ∧
      (r = none ↔ ∀ i j, InR S.dims.1 n i j → |X' i j - prodEntry S.dims.2 Sm Am i j| ≤ leftTol eps .NoTrans S.dims.2 Sm Am i j) ∧
      ∀ p, r = some p → ∃ i j, InR S.dims.1 n i j ∧ p = addr layout (tightLd layout S.dims.1 n) i j ∧
        leftTol eps .NoTrans S.dims.2 Sm Am i j < |X' i j - prodEntry S.dims.2 Sm Am i j|) := by
  obtain ⟨q1, q2⟩ := testOp_pos hS
  obtain ⟨h1, h2, h3⟩ := shifted_window (layout := layout) (f := testData E.G seedA m0 n0) q2 hn hw
  unfold testLeftSubmatrix
  simp only [M.wp_bind, M.wp_get, M.wp_onLocal, M.wp_require]
  obtain ⟨w1, w2, w3, w4⟩ := hw
  refine ⟨by omega, by omega, _, _, randomMatrix_flat hE.gen (by omega) (by omega) hfA seedA, ?_⟩
  rw [offset_addr]
  rw [← hAm] at h2
  exact compareLeft_spec hE hS hn h1 h2 h3 (happly _ h2)

/-- C124 (transposed, left). The same for `test_left_apply_to_transposed` and the transpose of the data. -/
theorem C124_left_transposed {E : SkEnv N K W WS R T} (hE : SkEnvOk E) {eps : T} {seedA : RNGState N K} {S : TestOp N K T} {Sm : Int → Int → T} (hS : TestOpIs E S Sm) {layout : Layout}
    {n : Int} (hn : 0 < n) (hfA : n * S.dims.2 ≤ intMax 64) {Am : Int → Int → T}
    (hAm : Am = fun i j => testData E.G seedA n S.dims.2 (addr layout (tightLd layout n S.dims.2) i j))
    {apply : Buf T → Int → Int → M (TestOp N K T × Buf T) Unit} {X' : Int → Int → T}
    (happly : M.wp (apply (Buf.ofFn (n * S.dims.2) (testData E.G seedA n S.dims.2)) (tightLd layout n S.dims.2) (tightLd layout S.dims.1 n)) (S, Buf.ofFn (S.dims.1 * n) fun _ => 0)
      (fun _ s => TestOpIs E s.1 Sm ∧ s.1.dims = S.dims ∧ Holds s.2 layout (tightLd layout S.dims.1 n) S.dims.1 n X')) :
    M.wp (testLeftTransposed E eps seedA apply n layout) S (fun r S' => TestOpIs E S' Sm ∧
      (r = none ↔ ∀ i j, InR S.dims.1 n i j → |X' i j - prodEntry S.dims.2 Sm (fun k j => Am j k) i j| ≤ leftTol eps .Trans S.dims.2 Sm Am i j) ∧
      ∀ p, r = some p → ∃ i j, InR S.dims.1 n i j ∧ p = addr layout (tightLd layout S.dims.1 n) i j ∧
        leftTol eps .Trans S.dims.2 Sm Am i j < |X' i j - prodEntry S.dims.2 Sm (fun k j => Am j k) i j|) := by
  obtain ⟨q1, q2⟩ := testOp_pos hS
  unfold testLeftTransposed
  simp only [M.wp_bind, M.wp_get, M.wp_onLocal, tightLd_if]
  refine ⟨_, _, randomMatrix_flat hE.gen hn q2 hfA seedA, ?_⟩
  refine compareLeft_spec hE hS hn (ldOk_tight _ _ _) (by rw [hAm]; exact ofFn_holds layout _) ?_ happly
  simp only [rowsOf, colsOf]
  rw [extent_tight]
  exact fun p p0 p1 => ⟨_, by unfold Buf.ofFn; rw [if_pos ⟨p0, p1⟩]⟩

theorem compareRight_spec {E : SkEnv N K W WS R T} (hE : SkEnvOk E) {eps : T} {S : TestOp N K T} {Sm : Int → Int → T} (hS : TestOpIs E S Sm) {layout : Layout} {opA : Op}
    {m lda : Int} {A : Buf T} {Am : Int → Int → T} (hm : 0 < m) (hlda : LdOk layout lda (rowsOf opA m S.dims.1) (colsOf opA m S.dims.1))
    (hA : Holds A layout lda (rowsOf opA m S.dims.1) (colsOf opA m S.dims.1) Am) (hfull : Full A (extent layout lda (rowsOf opA m S.dims.1) (colsOf opA m S.dims.1)))
    {apply : Buf T → Int → Int → M (TestOp N K T × Buf T) Unit} {X' : Int → Int → T}
    (happly : M.wp (apply A lda (tightLd layout m S.dims.2)) (S, Buf.ofFn (m * S.dims.2) fun _ => 0)
      (fun _ s => TestOpIs E s.1 Sm ∧ s.1.dims = S.dims ∧ Holds s.2 layout (tightLd layout m S.dims.2) m S.dims.2 X')) :
    M.wp (compareRight E eps apply opA m layout A lda) S (fun r S' => TestOpIs E S' Sm ∧
      (r = none ↔ ∀ i j, InR m S.dims.2 i j → |X' i j - prodEntry S.dims.1 (opMat opA Am) Sm i j| ≤ rightTol eps opA S.dims.1 Am Sm i j) ∧
      ∀ p, r = some p → ∃ i j, InR m S.dims.2 i j ∧ p = addr layout (tightLd layout m S.dims.2) i j ∧
        rightTol eps opA S.dims.1 Am Sm i j < |X' i j - prodEntry S.dims.1 (opMat opA Am) Sm i j|) := by
  obtain ⟨q1, q2⟩ := testOp_pos hS
  unfold compareRight
  simp only [M.wp_bind, M.wp_get, M.wp_onLocal, tightLd_if]
  rw [mul_comm S.dims.2 m]
  refine M.wp_mono happly ?_
  rintro _ ⟨S1, b1⟩ ⟨g1, g2, g3⟩
  dsimp only at g1 g2 g3 ⊢
  have hsub : ∀ F : Int → Int → T, subMat 0 0 F = F := fun F => by funext i j; simp [subMat]
  refine M.wp_mono (C124_reference_right (S := S1) (Am := Am) (C := fun _ _ => 0) hE g1 hm q2 q1 (by rw [g2]; exact ⟨le_refl _, le_refl _, by simp [rowsOf], by simp [colsOf]⟩) hlda (ldOk_tight _ _ _)
    hA hfull (ofFn_alloc layout _) (fun h => absurd rfl h)
    (by rw [extent_tight]; intro p p0 p1; unfold zeroVec Buf.ofFn; rw [if_pos ⟨p0, p1⟩]; simp)) ?_
  rintro _ s ⟨h1, h2, h3, -, h5, -⟩
  rw [M.wp_modify, M.wp_lift]
  obtain ⟨r, e1, e2, e3⟩ := within_tight hm q2 g3 h3 h5
  unfold productOfR toleranceOfR at e2 e3
  simp only [opMat, hsub, one_mul, zero_mul, add_zero, abs_one, abs_zero, mul_one, mul_zero] at e2 e3
  exact ⟨r, e1, h1, e2, e3⟩

/-- C124 (submatrix, right). For every program `apply` that leaves the matrix of the operator unchanged and turns zeros into `X'`, given a pointer to the window of the data and the leading dimension of
the whole, `test_right_apply_to_submatrix` accepts exactly if each entry of `X'` is within the tolerance of the product of the window and the operator. -/
theorem C124_right_submatrix {E : SkEnv N K W WS R T} (hE : SkEnvOk E) {eps : T} {seedA : RNGState N K} {S : TestOp N K T} {Sm : Int → Int → T} (hS : TestOpIs E S Sm) {layout : Layout}
    {m m0 n0 ro co : Int} (hm : 0 < m) (hfA : m0 * n0 ≤ intMax 64) (hw : InOp m0 n0 m S.dims.1 ro co) {Am : Int → Int → T}
    (hAm : Am = fun i j => testData E.G seedA m0 n0 (addr layout (tightLd layout m0 n0) (ro + i) (co + j)))
    {apply : Buf T → Int → Int → M (TestOp N K T × Buf T) Unit} {X' : Int → Int → T}
    (happly : ∀ A, Holds A layout (tightLd layout m0 n0) m S.dims.1 Am → M.wp (apply A (tightLd layout m0 n0) (tightLd layout m S.dims.2)) (S, Buf.ofFn (m * S.dims.2) fun _ => 0)
      (fun _ s => TestOpIs E s.1 Sm ∧ s.1.dims = S.dims ∧ Holds s.2 layout (tightLd layout m S.dims.2) m S.dims.2 X')) :
    M.wp (testRightSubmatrix E eps seedA apply m m0 n0 ro co layout) S (fun r S' => TestOpIs E S' Sm ∧
      (r = none ↔ ∀ i j, InR m S.dims.2 i j → |X' i j - prodEntry S.dims.1 Am Sm i j| ≤ rightTol eps .NoTrans S.dims.1 Am Sm i j) ∧
      ∀ p, r = some p → ∃ i j, InR m S.dims.2 i j ∧ p = addr layout (tightLd layout m S.dims.2) i j ∧
        rightTol eps .NoTrans S.dims.1 Am Sm i j < |X' i j - prodEntry S.dims.1 Am Sm i j|) := by
  obtain ⟨q1, q2⟩ := testOp_pos hS
  obtain ⟨h1, h2, h3⟩ := shifted_window (layout := layout) (f := testData E.G seedA m0 n0) hm q1 hw
  unfold testRightSubmatrix
  simp only [M.wp_bind, M.wp_get, M.wp_onLocal, M.wp_require]
  obtain ⟨w1, w2, w3, w4⟩ := hw
  refine ⟨by omega, by omega, _, _, randomMatrix_flat hE.gen (by omega) (by omega) hfA seedA, ?_⟩
  rw [offset_addr]
  rw [← hAm] at h2
  exact compareRight_spec hE hS hm h1 h2 h3 (happly _ h2)

/-- C124 (transposed, right). The same for `test_right_apply_to_transposed` and the transpose of the data. -/
theorem C124_right_transposed {E : SkEnv N K W WS R T} (hE : SkEnvOk E) {eps : T} {seedA : RNGState N K} {S : TestOp N K T} {Sm : Int → Int → T} (hS : TestOpIs E S Sm) {layout : Layout}
    {m : Int} (hm : 0 < m) (hfA : S.dims.1 * m ≤ intMax 64) {Am : Int → Int → T}
    (hAm : Am = fun i j => testData E.G seedA S.dims.1 m (addr layout (tightLd layout S.dims.1 m) i j))
    {apply : Buf T → Int → Int → M (TestOp N K T × Buf T) Unit} {X' : Int → Int → T}
    (happly : M.wp (apply (Buf.ofFn (S.dims.1 * m) (testData E.G seedA S.dims.1 m)) (tightLd layout S.dims.1 m) (tightLd layout m S.dims.2)) (S, Buf.ofFn (m * S.dims.2) fun _ => 0)
      (fun _ s => TestOpIs E s.1 Sm ∧ s.1.dims = S.dims ∧ Holds s.2 layout (tightLd layout m S.dims.2) m S.dims.2 X')) :
    M.wp (testRightTransposed E eps seedA apply m layout) S (fun r S' => TestOpIs E S' Sm ∧
      (r = none ↔ ∀ i j, InR m S.dims.2 i j → |X' i j - prodEntry S.dims.1 (fun i k => Am k i) Sm i j| ≤ rightTol eps .Trans S.dims.1 Am Sm i j) ∧
      ∀ p, r = some p → ∃ i j, InR m S.dims.2 i j ∧ p = addr layout (tightLd layout m S.dims.2) i j ∧
        rightTol eps .Trans S.dims.1 Am Sm i j < |X' i j - prodEntry S.dims.1 (fun i k => Am k i) Sm i j|) := by
  obtain ⟨q1, q2⟩ := testOp_pos hS
  unfold testRightTransposed
  simp only [M.wp_bind, M.wp_get, M.wp_onLocal, tightLd_if]
  refine ⟨_, _, randomMatrix_flat hE.gen q1 hm hfA seedA, ?_⟩
  refine compareRight_spec hE hS hm (ldOk_tight _ _ _) (by rw [hAm]; exact ofFn_holds layout _) ?_ happly
  simp only [rowsOf, colsOf]
  rw [extent_tight]
  exact fun p p0 p1 => ⟨_, by unfold Buf.ofFn; rw [if_pos ⟨p0, p1⟩]⟩

/-- C124 (the library, submatrix). In exact arithmetic the product of the library with the whole operator passes `test_left_apply_to_submatrix`, for every window. -/
theorem C124_library_left_submatrix {E : SkEnv N K W WS R T} (hE : SkEnvOk E) {eps : T} (heps : 0 ≤ eps) {seedA : RNGState N K} {S : TestOp N K T} {Sm : Int → Int → T} {layout : Layout}
    {n m0 n0 ro co : Int} (hS : LeftTestable E 1 layout S Sm) (hn : 0 < n) (hfA : m0 * n0 ≤ intMax 64) (hw : InOp m0 n0 S.dims.2 n ro co) :
    M.wp (testLeftSubmatrix E eps seedA (fun A lda ldb => leftApply E layout .NoTrans .NoTrans S.dims.1 n S.dims.2 1 0 0 A lda 0 ldb) n m0 n0 ro co layout) S (fun r S' => TestOpIs E S' Sm ∧ r = none) := by
  obtain ⟨q1, q2⟩ := testOp_pos hS.1
  have hld : LdOk layout (tightLd layout m0 n0) S.dims.2 n := by obtain ⟨w1, w2, w3, w4⟩ := hw; cases layout <;> simp only [LdOk, tightLd] <;> omega
  refine M.wp_mono (C124_left_submatrix hE hS.1 hn hfA hw rfl (fun A hA => leftApply_spec hE hS hn.le hld (ldOk_tight _ _ _) hA (ofFn_holds layout _))) ?_
  rintro r S' ⟨h1, h2, -⟩
  refine ⟨h1, h2.mpr fun i j _ => ?_⟩
  rw [one_mul, zero_mul, add_zero, sub_self, abs_zero]
  unfold leftTol
  have t1 : (0 : T) ≤ (S.dims.2 : T) := by exact_mod_cast q2.le
  have t2 := prodEntry_nonneg (m := S.dims.2) (A := fun i k => |Sm i k|) (B := fun k j => |opMat .NoTrans (fun i j => testData E.G seedA m0 n0 (addr layout (tightLd layout m0 n0) (ro + i) (co + j))) k j|)
    (fun _ _ => abs_nonneg _) (fun _ _ => abs_nonneg _) i j
  positivity

/-- C124 (the library, submatrix). The same from the right. -/
theorem C124_library_right_submatrix {E : SkEnv N K W WS R T} (hE : SkEnvOk E) {eps : T} (heps : 0 ≤ eps) {seedA : RNGState N K} {S : TestOp N K T} {Sm : Int → Int → T} {layout : Layout}
    {m m0 n0 ro co : Int} (hS : RightTestable E 1 layout S Sm) (hm : 0 < m) (hfA : m0 * n0 ≤ intMax 64) (hw : InOp m0 n0 m S.dims.1 ro co) :
    M.wp (testRightSubmatrix E eps seedA (fun A lda ldb => rightApply E layout .NoTrans .NoTrans m S.dims.2 S.dims.1 1 A lda 0 0 0 ldb) m m0 n0 ro co layout) S (fun r S' => TestOpIs E S' Sm ∧ r = none) := by
  obtain ⟨q1, q2⟩ := testOp_pos hS.1
  have hld : LdOk layout (tightLd layout m0 n0) m S.dims.1 := by obtain ⟨w1, w2, w3, w4⟩ := hw; cases layout <;> simp only [LdOk, tightLd] <;> omega
  refine M.wp_mono (C124_right_submatrix hE hS.1 hm hfA hw rfl (fun A hA => rightApply_spec hE hS hm.le hld (ldOk_tight _ _ _) hA (ofFn_holds layout _))) ?_
  rintro r S' ⟨h1, h2, -⟩
  refine ⟨h1, h2.mpr fun i j _ => ?_⟩
  rw [one_mul, zero_mul, add_zero, sub_self, abs_zero]
  unfold rightTol
  have t1 : (0 : T) ≤ (S.dims.1 : T) := by exact_mod_cast q1.le
  have t2 := prodEntry_nonneg (m := S.dims.1) (B := fun i k => |Sm i k|) (A := fun k j => |opMat .NoTrans (fun i j => testData E.G seedA m0 n0 (addr layout (tightLd layout m0 n0) (ro + i) (co + j))) k j|)
    (fun _ _ => abs_nonneg _) (fun _ _ => abs_nonneg _) i j
  positivity

end

/-- C124 (identity, right). For every program `apply` that leaves the matrix of the operator unchanged and turns B into `X'`, given the identity matrix, `test_right_apply_submatrix_to_eye` runs without
undefined behaviour on every window of the operator and accepts exactly if each entry of `X'` is close to `alpha * submat(S) + beta * B`. -/
theorem C124_right_eye {E : SkEnv N K W WS R T} (hE : SkEnvOk E) {atol rtol : T} {seedB : RNGState N K} {S : TestOp N K T} {Sm : Int → Int → T} (hS : TestOpIs E S Sm) {layout : Layout}
    {d1 m1 ro co : Int} {alpha beta : T} (hd : 0 < d1) (hm : 0 < m1) (hfB : d1 * m1 ≤ intMax 64) (hw : InOp S.dims.1 S.dims.2 d1 m1 ro co) {C : Int → Int → T}
    (hC : C = fun i j => testData E.G seedB d1 m1 (addr layout (tightLd layout d1 m1) i j)) {apply : Buf T → Int → Int → M (TestOp N K T × Buf T) Unit} {X' : Int → Int → T}
    (happly : ∀ A, Holds A layout d1 d1 d1 (fun i j => if i = j then 1 else 0) → M.wp (apply A d1 (tightLd layout d1 m1)) (S, Buf.ofFn (d1 * m1) (testData E.G seedB d1 m1))
      (fun _ s => TestOpIs E s.1 Sm ∧ s.1.dims = S.dims ∧ Holds s.2 layout (tightLd layout d1 m1) d1 m1 X')) :
    M.wp (testRightEye E atol rtol seedB apply alpha d1 m1 ro co layout beta) S (fun r S' => TestOpIs E S' Sm ∧ S'.dims = S.dims ∧
      (r = none ↔ ∀ i j, InR d1 m1 i j → Close atol rtol (X' i j) (alpha * Sm (ro + i) (co + j) + beta * C i j))) := by
  obtain ⟨q1, q2⟩ := testOp_pos hS
  obtain ⟨w1, w2, w3, w4⟩ := hw
  unfold testRightEye
  simp only [M.wp_bind, M.wp_get, M.wp_onLocal, M.wp_require, tightLd_if]
  refine ⟨by omega, by omega, M.wp_mono (testEye_spec hd.le layout) ?_⟩
  intro _ A hA
  refine ⟨_, _, randomMatrix_flat hE.gen hd hm hfB seedB, ?_⟩
  refine M.wp_mono (happly A hA) ?_
  rintro _ ⟨S1, b1⟩ ⟨g1, g2, g3⟩
  dsimp only at g1 g2 g3 ⊢
  refine M.wp_mono (toExplicit_spec hE g1 (b := Buf.alloc T (S.dims.1 * S.dims.2)) ?_) ?_
  · rw [g2]; exact alloc_alloc layout _ _
  rintro _ ⟨S2, x⟩ ⟨k1, k2, k3⟩
  rw [M.wp_modify]
  rw [g2] at k2 k3
  dsimp only at k1 k2 k3 ⊢
  set ldE := tightLd layout S.dims.1 S.dims.2 with hldE
  have hoff : (layoutToStrides layout ldE).irs * ro + (layoutToStrides layout ldE).ics * co = addr layout ldE ro co := by
    rw [← strides_at']; ring
  have hadd : ∀ i j, addr layout ldE ro co + addr layout ldE i j = addr layout ldE (ro + i) (co + j) := fun i j => by cases layout <;> simp only [addr] <;> ring
  have hin : ∀ i j, InR d1 m1 i j → InR S.dims.1 S.dims.2 (ro + i) (co + j) := fun i j h => by simp only [InR] at *; omega
  have hldw : LdOk layout ldE d1 m1 := by rw [hldE]; cases layout <;> simp only [LdOk, tightLd] <;> omega
  have hB : Holds (Buf.ofFn (d1 * m1) (testData E.G seedB d1 m1)) layout (tightLd layout d1 m1) d1 m1 C := by rw [hC]; exact ofFn_holds layout _
  rw [hoff]
  refine M.wp_mono (wp_writeMat (ad := fun i j => addr layout ldE ro co + addr layout ldE i j) (F := fun i j => alpha * Sm (ro + i) (co + j) + beta * C i j) hd.le hm.le
    (adInj_addr_off _ hldw) ?_ ?_) ?_
  · intro i j hij
    rw [hadd, k3.cells _ _ (hin i j hij)]; simp
  · intro i j hij b' hb' Q hQ
    beta_reduce at hb' hQ
    rw [hadd] at hb' hQ
    have e1 : addr layout ldE ro co + i * (layoutToStrides layout ldE).irs + j * (layoutToStrides layout ldE).ics = addr layout ldE (ro + i) (co + j) := by
      rw [← hadd, ← strides_at' layout ldE i j]; ring
    rw [e1, strides_at']
    rw [M.wp_bind, M.wp_rd]
    refine ⟨_, by rw [hb', k3.cells _ _ (hin i j hij)], ?_⟩
    rw [M.wp_bind, M.wp_lift]
    exact ⟨_, Buf.rd_val (hB i j hij), hQ⟩
  · rintro _ y hy
    rw [M.wp_lift]
    have hy' : Holds (y.shift (addr layout ldE ro co)) layout ldE d1 m1 (fun i j => alpha * Sm (ro + i) (co + j) + beta * C i j) := by
      intro i j hij
      exact hy.cells i j hij
    have := C118_matrices_one_layout_partial (op := .NoTrans) hd.le hm.le (fltBuf_holds g3) (fltBuf_holds hy') atol rtol
    obtain ⟨r, hr⟩ := matricesApproxEqual1_ok (op := .NoTrans) hd.le hm.le (fltBuf_holds g3) (fltBuf_holds hy') atol rtol
    refine ⟨r, hr, k1, k2, ?_⟩
    rw [hr] at this
    have t : (r = none) ↔ (Res.ok r = .ok none) := ⟨fun h => by rw [h], fun h => by cases h; rfl⟩
    rw [t, this]
    rfl

/-- C124 (identity, right, transposed). `test_right_apply_transpose_to_eye` accepts exactly if each entry of the result, computed from the identity matrix and zeros, is close to the transpose of the operator. -/
theorem C124_right_transpose_eye {E : SkEnv N K W WS R T} (hE : SkEnvOk E) {atol rtol : T} {S : TestOp N K T} {Sm : Int → Int → T} (hS : TestOpIs E S Sm) {layout : Layout}
    {apply : Buf T → Int → Int → M (TestOp N K T × Buf T) Unit} {X' : Int → Int → T}
    (happly : ∀ A, Holds A layout S.dims.2 S.dims.2 S.dims.2 (fun i j => if i = j then 1 else 0) →
      M.wp (apply A S.dims.2 (tightLd layout S.dims.2 S.dims.1)) (S, Buf.ofFn (S.dims.2 * S.dims.1) fun _ => 0)
      (fun _ s => TestOpIs E s.1 Sm ∧ s.1.dims = S.dims ∧ Holds s.2 layout (tightLd layout S.dims.2 S.dims.1) S.dims.2 S.dims.1 X')) :
    M.wp (testRightTransEye E atol rtol apply layout) S (fun r S' => TestOpIs E S' Sm ∧ S'.dims = S.dims ∧
      (r = none ↔ ∀ i j, InR S.dims.2 S.dims.1 i j → Close atol rtol (X' i j) (Sm j i))) := by
  obtain ⟨q1, q2⟩ := testOp_pos hS
  unfold testRightTransEye
  simp only [M.wp_bind, M.wp_get, M.wp_onLocal, tightLd_if]
  refine M.wp_mono (testEye_spec q2.le layout) ?_
  intro _ A hA
  refine M.wp_mono (happly A hA) ?_
  rintro _ ⟨S1, b1⟩ ⟨g1, g2, g3⟩
  dsimp only at g1 g2 g3 ⊢
  refine M.wp_mono (toExplicit_spec hE g1 (b := zeroVec (S.dims.2 * S.dims.1)) ?_) ?_
  · rw [g2, mul_comm]; exact ofFn_alloc layout _
  rintro _ ⟨S2, x⟩ ⟨k1, k2, k3⟩
  rw [g2] at k2 k3
  rw [M.wp_modify, M.wp_lift]
  dsimp only at k1 k2 k3 ⊢
  have hx : Holds x layout (tightLd layout S.dims.1 S.dims.2) (rowsOf .Trans S.dims.2 S.dims.1) (colsOf .Trans S.dims.2 S.dims.1) Sm := k3.holds
  have := C118_matrices_one_layout_partial (op := .Trans) q2.le q1.le (fltBuf_holds g3) (fltBuf_holds hx) atol rtol
  obtain ⟨r, hr⟩ := matricesApproxEqual1_ok (op := .Trans) q2.le q1.le (fltBuf_holds g3) (fltBuf_holds hx) atol rtol
  refine ⟨r, hr, k1, k2, ?_⟩
  rw [hr] at this
  have t : (r = none) ↔ (Res.ok r = .ok none) := ⟨fun h => by rw [h], fun h => by cases h; rfl⟩
  rw [t, this]
  rfl

/-- The hypotheses are met by a 3 x 2 matrix, a 2 x 4 window of 5 x 6 data and the product of the library. -/
example : M.wp (testLeftSubmatrix exSkEnvRat (1 / 1000) ⟨0, 7⟩ (fun A lda ldb => leftApply exSkEnvRat .RowMajor .NoTrans .NoTrans 3 4 2 1 0 0 A lda 0 ldb) 4 5 6 2 1 .RowMajor)
      (.mat (.coo (cooOf 3 2 .Zero [⟨2, 1, 5⟩, ⟨0, 0, 4⟩]))) (fun r _ => r = none) := by
  have h : LeftTestable exSkEnvRat 1 .RowMajor (.mat (.coo (cooOf 3 2 .Zero [⟨2, 1, 5⟩, ⟨0, 0, (4 : ℚ)⟩]))) (toMat [⟨2, 1, 5⟩, ⟨0, 0, 4⟩]) := by
    have hr : InRange 3 2 [⟨2, 1, 5⟩, ⟨0, 0, (4 : ℚ)⟩] := by simp [InRange]
    have hc : CooIs (cooOf 3 2 .Zero [⟨2, 1, 5⟩, ⟨0, 0, (4 : ℚ)⟩]) [⟨2, 1, 5⟩, ⟨0, 0, 4⟩] := cooOf_is _ _ _ _
    have hnd : (([⟨2, 1, 5⟩, ⟨0, 0, (4 : ℚ)⟩] : List (Entry ℚ)).map Entry.pos).Nodup := by simp [Entry.pos]
    refine ⟨⟨by simp [SpMat.numRows, cooOf], by simp [SpMat.numCols, cooOf], _, hc, hr, hnd, rfl⟩, _, ⟨hc, trivial⟩, hc, rfl, hr, hnd, rfl, fun _ => Or.inl ⟨by decide, fun _ _ => ⟨⟨2, 1, 5⟩, ?_, by decide⟩⟩⟩
    simp [window, cooOf, spRows, spCols]
  have hd : (TestOp.mat (.coo (cooOf 3 2 .Zero [⟨2, 1, 5⟩, ⟨0, 0, (4 : ℚ)⟩])) : TestOp (2 ^ 128) Nat ℚ).dims = (3, 2) := rfl
  have t := C124_library_left_submatrix exSkEnvRat_ok (eps := 1 / 1000) (by norm_num) (seedA := ⟨0, 7⟩) (n := 4) (m0 := 5) (n0 := 6) (ro := 2) (co := 1) h (by norm_num) (by norm_num [intMax])
    (by rw [hd]; exact ⟨by norm_num, by norm_num, by norm_num, by norm_num⟩)
  rw [hd] at t
  exact M.wp_mono t fun _ _ h => h.2

/-- The hypotheses of the identity and transpose tests are met by a 1 x 1 matrix and a program that writes a number. -/
example : M.wp (testRightTransposed exSkEnvRat (1 / 1000) ⟨0, 7⟩ (fun _ _ _ => M.modify fun s => (s.1, Buf.ofFn (2 * 1) fun p => 5 * testData exSkEnvRat.G ⟨0, 7⟩ 1 2 p)) 2 .RowMajor)
      (.mat (.coo (cooOf 1 1 .Zero [⟨0, 0, 5⟩]))) (fun r _ => r = none) ∧
    M.wp (testRightTransEye exSkEnvRat (1 / 1000) 0 (fun _ _ _ => M.modify fun s => (s.1, Buf.ofFn (1 * 1) fun _ => 6)) .ColMajor)
      (.mat (.coo (cooOf 1 1 .Zero [⟨0, 0, 5⟩]))) (fun r _ => r ≠ none) := by
  have hS : TestOpIs exSkEnvRat (.mat (.coo (cooOf 1 1 .Zero [⟨0, 0, (5 : ℚ)⟩]))) (toMat [⟨0, 0, 5⟩]) :=
    ⟨by simp [SpMat.numRows, cooOf], by simp [SpMat.numCols, cooOf], [⟨0, 0, 5⟩], cooOf_is _ _ _ _, by simp [InRange, SpMat.numRows, SpMat.numCols, cooOf], by simp, rfl⟩
  have hd : (TestOp.mat (.coo (cooOf 1 1 .Zero [⟨0, 0, (5 : ℚ)⟩])) : TestOp (2 ^ 128) Nat ℚ).dims = (1, 1) := rfl
  constructor
  · refine M.wp_mono (C124_right_transposed exSkEnvRat_ok hS (layout := .RowMajor) (m := 2) (by norm_num) (by rw [hd]; norm_num [intMax]) rfl
      (X' := fun i j => 5 * testData exSkEnvRat.G ⟨0, 7⟩ 1 2 (addr .RowMajor 1 i j)) ?_) ?_
    · rw [M.wp_modify]
      exact ⟨hS, rfl, ofFn_holds (m := 2) (n := 1) .RowMajor _⟩
    · rintro r _ ⟨-, h, -⟩
      refine h.2 fun i j hij => ?_
      rw [hd] at hij ⊢
      obtain ⟨h0, h1, h2, h3⟩ := hij
      obtain rfl : j = 0 := by omega
      have e : prodEntry 1 (fun i k => testData exSkEnvRat.G ⟨0, 7⟩ 1 2 (addr .RowMajor (tightLd .RowMajor 1 2) k i)) (toMat [⟨0, 0, 5⟩]) i 0 = 5 * testData exSkEnvRat.G ⟨0, 7⟩ 1 2 (addr .RowMajor 1 i 0) := by
        simp [prodEntry, toMat, addr, tightLd, mul_comm]
      have e1 := (sub_eq_zero.2 e.symm)
      simp only [] at e1 ⊢
      rw [e1, abs_zero]
      unfold rightTol
      have t2 := prodEntry_nonneg (m := 1) (B := fun k j => |toMat [⟨0, 0, (5 : ℚ)⟩] k j|) (A := fun k j => |opMat .Trans (fun i j => testData exSkEnvRat.G ⟨0, 7⟩ 1 2 (addr .RowMajor (tightLd .RowMajor 1 2) i j)) k j|)
        (fun _ _ => abs_nonneg _) (fun _ _ => abs_nonneg _) i 0
      positivity
  · refine M.wp_mono (C124_right_transpose_eye exSkEnvRat_ok hS (layout := .ColMajor) (X' := fun _ _ => 6) fun A _ => ?_) ?_
    · rw [M.wp_modify]
      exact ⟨hS, rfl, ofFn_holds (m := 1) (n := 1) .ColMajor _⟩
    · rintro r _ ⟨-, -, h⟩ hr
      have := h.1 hr 0 0 (by rw [hd]; exact ⟨by norm_num, by norm_num, by norm_num, by norm_num⟩)
      revert this
      norm_num [Close, toMat]

end RB
