import Verif.Props.TestLinopMore
import Verif.Props.TestSpmats
import Verif.Spec.TestWindow

/-!
# The remaining product tests and the library (C124)

In exact arithmetic the library passes the tests with the identity matrix, with windows and transposes of the operator, and with a transposed operand.
-/

namespace RB
open Spec
variable {N : Nat} {K W WS R T : Type} [Field R] [LinearOrder R] [FloorRing R] [Field T] [LinearOrder T]

omit [LinearOrder T] in
/-- The object after a product is still the operator. -/
theorem testOp_after_mat {E : SkEnv N K W WS R T} {A A' : SpMat T} {L L' : List (Entry T)} {Sm : Int → Int → T} (h0 : TestOpIs E (.mat A) Sm) (h4 : InRange A.numRows A.numCols L) (h5 : (L.map Entry.pos).Nodup)
    (h6 : toMat L = Sm) (k3 : SameObject A A') (k4 : SpHolds A' L') (k5 : L'.Perm L) : TestOpIs E (.mat A') Sm ∧ (TestOp.mat A' : TestOp N K T).dims = (TestOp.mat A : TestOp N K T).dims := by
  have q := testOp_pos h0
  obtain ⟨q1, q2⟩ := q
  simp only [TestOp.dims] at q1 q2 ⊢
  cases A with
  | coo S =>
    cases A' with
    | coo S' =>
      obtain ⟨e1, e2, -, -⟩ := k3
      simp only [SpMat.numRows, SpMat.numCols] at *
      refine ⟨⟨by simp only [SpMat.numRows]; rw [e1]; exact q1, by simp only [SpMat.numCols]; rw [e2]; exact q2, L', k4.1, ?_, (k5.map _).nodup_iff.mpr h5, (subMat_perm k5).trans h6⟩, by rw [e1, e2]⟩
      simp only [SpMat.numRows, SpMat.numCols]
      rw [e1, e2]; exact fun e he => h4 e (k5.mem_iff.mp he)
    | csc S' => exact absurd k3 (by simp [SameObject])
    | csr S' => exact absurd k3 (by simp [SameObject])
  | csc S => rw [show A' = .csc S by simpa [SameObject] using k3]; exact ⟨h0, rfl⟩
  | csr S => rw [show A' = .csr S by simpa [SameObject] using k3]; exact ⟨h0, rfl⟩

omit [LinearOrder T] in
/-- A sparse operator after a product is still the operator. -/
theorem testOp_after_sparse {E : SkEnv N K W WS R T} {S : SparseSkOp N K T} {S' : SparseSkOp N K T} {Sm : Int → Int → T} (h0 : TestOpIs E (.sparse S) Sm) (k3 : SameOperator (.sparse S) (.sparse S')) :
    TestOpIs E (.sparse S') Sm ∧ (TestOp.sparse S' : TestOp N K T).dims = (TestOp.sparse S : TestOp N K T).dims := by
  rcases k3 with rfl | ⟨k3, k4, L1, L2, g1, g2, g3⟩
  · exact ⟨h0, rfl⟩
  · obtain ⟨p1, p2, L, hL, hin, hnd, hm, hf⟩ := h0
    have hO : OpHolds S L := by rcases hf with hf | hf; exacts [hf, absurd hf.1 (by omega)]
    have e := opHolds_unique g1 hO
    subst e
    have r1 : S'.nRows = S.nRows := by rw [k4]
    have r2 : S'.nCols = S.nCols := by rw [k4]
    simp only [TestOp.dims]
    refine ⟨⟨by rw [r1]; exact p1, by rw [r2]; exact p2, L2, ?_, ?_, (g3.map _).nodup_iff.mpr hnd, (subMat_perm g3).trans hm, Or.inl g2⟩, by rw [r1, r2]⟩
    · intro hn; rw [hn] at g3; exact hL (List.nil_perm.mp g3)
    · rw [r1, r2]; exact fun e he => hin e (g3.mem_iff.mp he)

/-- The product of the library with a window of the operator or its transpose. -/
theorem leftApply_window {E : SkEnv N K W WS R T} (hE : SkEnvOk E) {alpha beta : T} {layout : Layout} {opS opA : Op} {S : TestOp N K T} {Sm : Int → Int → T} {d m ro co : Int}
    (hS : LeftUsable E alpha layout opS opA S Sm d m ro co) {n lda ldb : Int} {A b : Buf T} {Am C : Int → Int → T} (hd : 0 ≤ d) (hn : 0 ≤ n) (hm : 0 ≤ m)
    (hlda : LdOk layout lda (rowsOf opA m n) (colsOf opA m n)) (hldb : LdOk layout ldb d n) (hA : Holds A layout lda (rowsOf opA m n) (colsOf opA m n) Am) (hC : Holds b layout ldb d n C) :
    M.wp (leftApply E layout opS opA d n m alpha ro co A lda beta ldb) (S, b) (fun _ s => TestOpIs E s.1 Sm ∧ s.1.dims = S.dims ∧
      Holds s.2 layout ldb d n (fun i j => alpha * prodEntry m (opMat opS (subMat ro co Sm)) (opMat opA Am) i j + beta * C i j)) := by
  have hal : Alloc b layout ldb d n := fun i j hij => by rw [hC i j hij]; simp
  unfold leftApply
  rw [M.wp_bind, M.wp_get]
  cases S with
  | dense S =>
    obtain ⟨h0, h1⟩ := hS
    have h := sketchGeneralL_spec hE h1 (layout := layout) (opA := opA) (n := n) (beta := beta) (A := A)
      (b := b) (lda := lda) (ldb := ldb) (Am := Am) (C := C) hd hn hm hlda hldb (fun _ => hA) hal (fun _ => hC)
    unfold sketchGeneralL at h
    rw [M.wp_bind, M.wp_get] at h
    simp only [onC, M.wp_zoom] at h ⊢
    refine M.wp_mono h ?_
    rintro _ b' ⟨k1, -, -⟩
    exact ⟨h0, trivial, k1⟩
  | sparse S =>
    obtain ⟨h0, h1⟩ := hS
    have h := sketchGeneralL_spec hE h1 (layout := layout) (opA := opA) (n := n) (beta := beta) (A := A)
      (b := b) (lda := lda) (ldb := ldb) (Am := Am) (C := C) hd hn hm hlda hldb (fun _ => hA) hal (fun _ => hC)
    unfold sketchGeneralL at h
    rw [M.wp_bind, M.wp_get] at h
    simp only [onSkSparse, M.wp_zoom] at h ⊢
    refine M.wp_mono h ?_
    rintro _ ⟨S', b'⟩ ⟨k1, -, k3⟩
    obtain ⟨t1, t2⟩ := testOp_after_sparse h0 k3
    exact ⟨t1, t2, k1⟩
  | mat S =>
    obtain ⟨h0, L, h1, h2, h3, h4, h5, h6, hw, h7⟩ := hS
    simp only [M.wp_zoom]
    refine M.wp_mono (C31_left_spmm_partial hE.env h1 h3 h4 (opB := opA) (alpha := alpha) (beta := beta) (Bm := Am) (C := C) h7 hw hd hn hm hlda hldb (fun _ => hA) hal (fun _ => hC)) ?_
    rintro _ ⟨S', b'⟩ ⟨k1, -, k3, E', k4, k5⟩
    rw [h6] at k1
    have hr : spRows S = S.numRows := by cases S <;> rfl
    have hc : spCols S = S.numCols := by cases S <;> rfl
    rw [hr, hc] at h4
    obtain ⟨t1, t2⟩ := testOp_after_mat h0 h4 h5 h6 k3 k4 k5
    exact ⟨t1, t2, k1⟩

/-- The product of the library with a window of the operator or its transpose, from the right. -/
theorem rightApply_window {E : SkEnv N K W WS R T} (hE : SkEnvOk E) {alpha beta : T} {layout : Layout} {opA opS : Op} {S : TestOp N K T} {Sm : Int → Int → T} {n d ro co : Int}
    (hS : RightUsable E alpha layout opA opS S Sm n d ro co) {m lda ldb : Int} {A b : Buf T} {Am C : Int → Int → T} (hm : 0 ≤ m) (hd : 0 ≤ d) (hn : 0 ≤ n)
    (hlda : LdOk layout lda (rowsOf opA m n) (colsOf opA m n)) (hldb : LdOk layout ldb m d) (hA : Holds A layout lda (rowsOf opA m n) (colsOf opA m n) Am) (hC : Holds b layout ldb m d C) :
    M.wp (rightApply E layout opA opS m d n alpha A lda ro co beta ldb) (S, b) (fun _ s => TestOpIs E s.1 Sm ∧ s.1.dims = S.dims ∧
      Holds s.2 layout ldb m d (fun i j => alpha * prodEntry n (opMat opA Am) (opMat opS (subMat ro co Sm)) i j + beta * C i j)) := by
  have hal : Alloc b layout ldb m d := fun i j hij => by rw [hC i j hij]; simp
  unfold rightApply
  rw [M.wp_bind, M.wp_get]
  cases S with
  | dense S =>
    obtain ⟨h0, h1⟩ := hS
    have h := sketchGeneralR_spec hE h1 (layout := layout) (opA := opA) (m := m) (beta := beta) (A := A)
      (b := b) (lda := lda) (ldb := ldb) (Am := Am) (C := C) hm hd hn hlda hldb (fun _ => hA) hal (fun _ => hC)
    unfold sketchGeneralR at h
    rw [M.wp_bind, M.wp_get] at h
    simp only [onC, M.wp_zoom] at h ⊢
    refine M.wp_mono h ?_
    rintro _ b' ⟨k1, -, -⟩
    exact ⟨h0, trivial, k1⟩
  | sparse S =>
    obtain ⟨h0, h1⟩ := hS
    have h := sketchGeneralR_spec hE h1 (layout := layout) (opA := opA) (m := m) (beta := beta) (A := A)
      (b := b) (lda := lda) (ldb := ldb) (Am := Am) (C := C) hm hd hn hlda hldb (fun _ => hA) hal (fun _ => hC)
    unfold sketchGeneralR at h
    rw [M.wp_bind, M.wp_get] at h
    simp only [onSkSparse, M.wp_zoom] at h ⊢
    refine M.wp_mono h ?_
    rintro _ ⟨S', b'⟩ ⟨k1, -, k3⟩
    obtain ⟨t1, t2⟩ := testOp_after_sparse h0 k3
    exact ⟨t1, t2, k1⟩
  | mat S =>
    obtain ⟨h0, L, h1, h2, h3, h4, h5, h6, hw, h7⟩ := hS
    simp only [M.wp_zoom]
    refine M.wp_mono (C32_right_spmm_partial hE.env h1 h3 h4 (opA := opA) (alpha := alpha) (beta := beta) (Am := Am) (C := C) h7 hw hm hd hn hlda hldb (fun _ => hA) hal (fun _ => hC)) ?_
    rintro _ ⟨S', b'⟩ ⟨k1, -, k3, E', k4, k5⟩
    rw [h6] at k1
    have hr : spRows S = S.numRows := by cases S <;> rfl
    have hc : spCols S = S.numCols := by cases S <;> rfl
    rw [hr, hc] at h4
    obtain ⟨t1, t2⟩ := testOp_after_mat h0 h4 h5 h6 k3 k4 k5
    exact ⟨t1, t2, k1⟩

omit [LinearOrder T] in
/-- The product with the identity matrix. -/
theorem prodEntry_eye_right {m : Int} {F : Int → Int → T} {i j : Int} (hj : 0 ≤ j ∧ j < m) : prodEntry m F (fun i j => if i = j then 1 else 0) i j = F i j := by
  unfold prodEntry
  rw [Finset.sum_eq_single j.toNat]
  · simp [Int.toNat_of_nonneg hj.1]
  · intro k hk hne
    have : (k : Int) ≠ j := by rintro rfl; simp at hne
    simp [this]
  · intro h
    simp only [Finset.mem_range, not_lt] at h
    omega

omit [LinearOrder T] in
theorem prodEntry_eye_left {n : Int} {F : Int → Int → T} {i j : Int} (hi : 0 ≤ i ∧ i < n) : prodEntry n (fun i j => if i = j then 1 else 0) F i j = F i j := by
  unfold prodEntry
  rw [Finset.sum_eq_single i.toNat]
  · simp [Int.toNat_of_nonneg hi.1]
  · intro k hk hne
    have : i ≠ (k : Int) := by rintro rfl; simp at hne
    simp [this]
  · intro h
    simp only [Finset.mem_range, not_lt] at h
    omega

/-- C124 (the library and the identity, left). In exact arithmetic the library passes `test_left_apply_submatrix_to_eye`, with any window of the operator, `alpha` and `beta`. -/
theorem C124_library_left_eye {E : SkEnv N K W WS R T} (hE : SkEnvOk E) {atol rtol : T} (ha : 0 ≤ atol) {seedB : RNGState N K} {S : TestOp N K T} {Sm : Int → Int → T} {layout : Layout}
    {d1 m1 ro co : Int} {alpha beta : T} (hS : LeftUsable E alpha layout .NoTrans .NoTrans S Sm d1 m1 ro co) (hd : 0 < d1) (hm : 0 < m1) (hfB : d1 * m1 ≤ intMax 64) (hw : InOp S.dims.1 S.dims.2 d1 m1 ro co) :
    M.wp (testLeftEye E atol rtol seedB (fun A lda ldb => leftApply E layout .NoTrans .NoTrans d1 m1 m1 alpha ro co A lda beta ldb) alpha d1 m1 ro co layout beta) S
      (fun r S' => TestOpIs E S' Sm ∧ S'.dims = S.dims ∧ r = none) := by
  refine M.wp_mono (C124_left_eye hE hS.1 hd hm hfB hw rfl (fun A hA => leftApply_window hE hS hd.le hm.le hm.le (by cases layout <;> simp [LdOk, rowsOf, colsOf]) (ldOk_tight _ _ _) hA (ofFn_holds layout _))) ?_
  rintro r S' ⟨h1, h2, h3⟩
  refine ⟨h1, h2, h3.mpr fun i j hij => ?_⟩
  rw [show opMat .NoTrans (fun i j : Int => if i = j then (1 : T) else 0) = fun i j => if i = j then 1 else 0 from rfl, prodEntry_eye_right ⟨hij.2.2.1, hij.2.2.2⟩]
  exact close_self ha _ _

/-- C124 (the library and the identity, right). In exact arithmetic the library passes `test_right_apply_submatrix_to_eye`. -/
theorem C124_library_right_eye {E : SkEnv N K W WS R T} (hE : SkEnvOk E) {atol rtol : T} (ha : 0 ≤ atol) {seedB : RNGState N K} {S : TestOp N K T} {Sm : Int → Int → T} {layout : Layout}
    {d1 m1 ro co : Int} {alpha beta : T} (hS : RightUsable E alpha layout .NoTrans .NoTrans S Sm d1 m1 ro co) (hd : 0 < d1) (hm : 0 < m1) (hfB : d1 * m1 ≤ intMax 64) (hw : InOp S.dims.1 S.dims.2 d1 m1 ro co) :
    M.wp (testRightEye E atol rtol seedB (fun A lda ldb => rightApply E layout .NoTrans .NoTrans d1 m1 d1 alpha A lda ro co beta ldb) alpha d1 m1 ro co layout beta) S
      (fun r S' => TestOpIs E S' Sm ∧ S'.dims = S.dims ∧ r = none) := by
  refine M.wp_mono (C124_right_eye hE hS.1 hd hm hfB hw rfl (fun A hA => rightApply_window hE hS hd.le hm.le hd.le (by cases layout <;> simp [LdOk, rowsOf, colsOf]) (ldOk_tight _ _ _) hA (ofFn_holds layout _))) ?_
  rintro r S' ⟨h1, h2, h3⟩
  refine ⟨h1, h2, h3.mpr fun i j hij => ?_⟩
  rw [show opMat .NoTrans (fun i j : Int => if i = j then (1 : T) else 0) = fun i j => if i = j then 1 else 0 from rfl, prodEntry_eye_left ⟨hij.1, hij.2.1⟩]
  exact close_self ha _ _

/-- C124 (the library and the identity, transposed operator, left). In exact arithmetic the library passes `test_left_apply_transpose_to_eye`. -/
theorem C124_library_left_transpose_eye {E : SkEnv N K W WS R T} (hE : SkEnvOk E) {atol rtol : T} (ha : 0 ≤ atol) {S : TestOp N K T} {Sm : Int → Int → T} {layout : Layout}
    (hS : LeftUsable E 1 layout .Trans .NoTrans S Sm S.dims.2 S.dims.1 0 0) :
    M.wp (testLeftTransEye E atol rtol (fun A lda ldb => leftApply E layout .Trans .NoTrans S.dims.2 S.dims.1 S.dims.1 1 0 0 A lda 0 ldb) layout) S
      (fun r S' => TestOpIs E S' Sm ∧ S'.dims = S.dims ∧ r = none) := by
  obtain ⟨q1, q2⟩ := testOp_pos hS.1
  refine M.wp_mono (C124_left_transpose_eye hE hS.1 (fun A hA => leftApply_window hE hS q2.le q1.le q1.le (by cases layout <;> simp [LdOk, rowsOf, colsOf]) (ldOk_tight _ _ _) hA (ofFn_holds layout _))) ?_
  rintro r S' ⟨h1, h2, h3⟩
  refine ⟨h1, h2, h3.mpr fun i j hij => ?_⟩
  rw [show opMat .NoTrans (fun i j : Int => if i = j then (1 : T) else 0) = fun i j => if i = j then 1 else 0 from rfl, prodEntry_eye_right ⟨hij.2.2.1, hij.2.2.2⟩]
  simp only [opMat, subMat, one_mul, zero_mul, add_zero, zero_add]
  exact close_self ha _ _

/-- C124 (the library and the identity, transposed operator, right). In exact arithmetic the library passes `test_right_apply_transpose_to_eye`. -/
theorem C124_library_right_transpose_eye {E : SkEnv N K W WS R T} (hE : SkEnvOk E) {atol rtol : T} (ha : 0 ≤ atol) {S : TestOp N K T} {Sm : Int → Int → T} {layout : Layout}
    (hS : RightUsable E 1 layout .NoTrans .Trans S Sm S.dims.2 S.dims.1 0 0) :
    M.wp (testRightTransEye E atol rtol (fun A lda ldb => rightApply E layout .NoTrans .Trans S.dims.2 S.dims.1 S.dims.2 1 A lda 0 0 0 ldb) layout) S
      (fun r S' => TestOpIs E S' Sm ∧ S'.dims = S.dims ∧ r = none) := by
  obtain ⟨q1, q2⟩ := testOp_pos hS.1
  refine M.wp_mono (C124_right_transpose_eye hE hS.1 (fun A hA => rightApply_window hE hS q2.le q1.le q2.le (by cases layout <;> simp [LdOk, rowsOf, colsOf]) (ldOk_tight _ _ _) hA (ofFn_holds layout _))) ?_
  rintro r S' ⟨h1, h2, h3⟩
  refine ⟨h1, h2, h3.mpr fun i j hij => ?_⟩
  rw [show opMat .NoTrans (fun i j : Int => if i = j then (1 : T) else 0) = fun i j => if i = j then 1 else 0 from rfl, prodEntry_eye_left ⟨hij.1, hij.2.1⟩]
  simp only [opMat, subMat, one_mul, zero_mul, add_zero, zero_add]
  exact close_self ha _ _

variable [IsStrictOrderedRing T]

/-- C124 (the library and a transposed operand, left). In exact arithmetic the library passes `test_left_apply_to_transposed`. -/
theorem C124_library_left_transposed {E : SkEnv N K W WS R T} (hE : SkEnvOk E) {eps : T} (heps : 0 ≤ eps) {seedA : RNGState N K} {S : TestOp N K T} {Sm : Int → Int → T} {layout : Layout}
    {n : Int} (hS : LeftUsable E 1 layout .NoTrans .Trans S Sm S.dims.1 S.dims.2 0 0) (hn : 0 < n) (hfA : n * S.dims.2 ≤ intMax 64) :
    M.wp (testLeftTransposed E eps seedA (fun A lda ldb => leftApply E layout .NoTrans .Trans S.dims.1 n S.dims.2 1 0 0 A lda 0 ldb) n layout) S (fun r S' => TestOpIs E S' Sm ∧ r = none) := by
  obtain ⟨q1, q2⟩ := testOp_pos hS.1
  have hsub : subMat 0 0 Sm = Sm := by funext i j; simp [subMat]
  refine M.wp_mono (C124_left_transposed hE hS.1 hn hfA rfl (leftApply_window hE hS q1.le hn.le q2.le (ldOk_tight layout n S.dims.2) (ldOk_tight _ _ _) (ofFn_holds layout _) (ofFn_holds layout _))) ?_
  rintro r S' ⟨h1, h2, -⟩
  refine ⟨h1, h2.mpr fun i j _ => ?_⟩
  rw [hsub, one_mul, zero_mul, add_zero]
  show |prodEntry S.dims.2 Sm (fun k j => testData E.G seedA n S.dims.2 (addr layout (tightLd layout n S.dims.2) j k)) i j - _| ≤ _
  rw [sub_self, abs_zero]
  unfold leftTol
  have t1 : (0 : T) ≤ (S.dims.2 : T) := by exact_mod_cast q2.le
  have t2 := prodEntry_nonneg (m := S.dims.2) (A := fun i k => |Sm i k|) (B := fun k j => |opMat .Trans (fun i j => testData E.G seedA n S.dims.2 (addr layout (tightLd layout n S.dims.2) i j)) k j|)
    (fun _ _ => abs_nonneg _) (fun _ _ => abs_nonneg _) i j
  positivity

/-- C124 (the library and a transposed operand, right). In exact arithmetic the library passes `test_right_apply_to_transposed`. -/
theorem C124_library_right_transposed {E : SkEnv N K W WS R T} (hE : SkEnvOk E) {eps : T} (heps : 0 ≤ eps) {seedA : RNGState N K} {S : TestOp N K T} {Sm : Int → Int → T} {layout : Layout}
    {m : Int} (hS : RightUsable E 1 layout .Trans .NoTrans S Sm S.dims.1 S.dims.2 0 0) (hm : 0 < m) (hfA : S.dims.1 * m ≤ intMax 64) :
    M.wp (testRightTransposed E eps seedA (fun A lda ldb => rightApply E layout .Trans .NoTrans m S.dims.2 S.dims.1 1 A lda 0 0 0 ldb) m layout) S (fun r S' => TestOpIs E S' Sm ∧ r = none) := by
  obtain ⟨q1, q2⟩ := testOp_pos hS.1
  have hsub : subMat 0 0 Sm = Sm := by funext i j; simp [subMat]
  refine M.wp_mono (C124_right_transposed hE hS.1 hm hfA rfl (rightApply_window hE hS hm.le q2.le q1.le (ldOk_tight layout S.dims.1 m) (ldOk_tight _ _ _) (ofFn_holds layout _) (ofFn_holds layout _))) ?_
  rintro r S' ⟨h1, h2, -⟩
  refine ⟨h1, h2.mpr fun i j _ => ?_⟩
  rw [hsub, one_mul, zero_mul, add_zero]
  show |prodEntry S.dims.1 (fun i k => testData E.G seedA S.dims.1 m (addr layout (tightLd layout S.dims.1 m) k i)) Sm i j - _| ≤ _
  rw [sub_self, abs_zero]
  unfold rightTol
  have t1 : (0 : T) ≤ (S.dims.1 : T) := by exact_mod_cast q1.le
  have t2 := prodEntry_nonneg (m := S.dims.1) (B := fun i k => |Sm i k|) (A := fun k j => |opMat .Trans (fun i j => testData E.G seedA S.dims.1 m (addr layout (tightLd layout S.dims.1 m) i j)) k j|)
    (fun _ _ => abs_nonneg _) (fun _ _ => abs_nonneg _) i j
  positivity

/-- The hypotheses are met by a 2 x 2 window of an unsorted 3 x 2 COO matrix; the library passes the test with it. -/
example : M.wp (testLeftEye exSkEnvRat (1 / 1000) 0 ⟨0, 8⟩ (fun A lda ldb => leftApply exSkEnvRat .RowMajor .NoTrans .NoTrans 2 2 2 3 1 0 A lda 5 ldb) 3 2 2 1 0 .RowMajor 5)
      (.mat (.coo (cooOf 3 2 .Zero [⟨2, 1, 5⟩, ⟨0, 0, 4⟩]))) (fun r _ => r = none) := by
  have h : LeftUsable exSkEnvRat 3 .RowMajor .NoTrans .NoTrans (.mat (.coo (cooOf 3 2 .Zero [⟨2, 1, 5⟩, ⟨0, 0, (4 : ℚ)⟩]))) (toMat [⟨2, 1, 5⟩, ⟨0, 0, 4⟩]) 2 2 1 0 := by
    have hr : InRange 3 2 [⟨2, 1, 5⟩, ⟨0, 0, (4 : ℚ)⟩] := by simp [InRange]
    have hc : CooIs (cooOf 3 2 .Zero [⟨2, 1, 5⟩, ⟨0, 0, (4 : ℚ)⟩]) [⟨2, 1, 5⟩, ⟨0, 0, 4⟩] := cooOf_is _ _ _ _
    have hnd : (([⟨2, 1, 5⟩, ⟨0, 0, (4 : ℚ)⟩] : List (Entry ℚ)).map Entry.pos).Nodup := by simp [Entry.pos]
    refine ⟨⟨by simp [SpMat.numRows, cooOf], by simp [SpMat.numCols, cooOf], _, hc, hr, hnd, rfl⟩, _, ⟨hc, trivial⟩, hc, rfl, hr, hnd, rfl, by simp [WindowOk, cooOf, rowsOf, colsOf],
      fun _ => Or.inl ⟨by decide, fun _ _ => ⟨⟨1, 1, 5⟩, ?_, by decide⟩⟩⟩
    simp [window, rowsOf, colsOf, opEntries]
  have hd : (TestOp.mat (.coo (cooOf 3 2 .Zero [⟨2, 1, 5⟩, ⟨0, 0, (4 : ℚ)⟩])) : TestOp (2 ^ 128) Nat ℚ).dims = (3, 2) := rfl
  have t := C124_library_left_eye exSkEnvRat_ok (atol := 1 / 1000) (rtol := 0) (by norm_num) (seedB := ⟨0, 8⟩) (beta := 5) h (by norm_num) (by norm_num) (by norm_num [intMax])
    (by rw [hd]; exact ⟨by norm_num, by norm_num, by norm_num, by norm_num⟩)
  exact M.wp_mono t fun _ _ h => h.2.2

end RB
