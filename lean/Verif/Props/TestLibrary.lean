import Verif.Props.TestEye
import Verif.Props.PowLu

/-!
# The product tests and the library (C124)

The library passes the tests in exact arithmetic, and a result that is correctly rounded can fail them.
-/

namespace RB
open Spec
variable {N : Nat} {K W WS R T : Type} [Field R] [LinearOrder R] [FloorRing R] [Field T] [LinearOrder T]

omit [Field R] [LinearOrder R] [FloorRing R] [Field T] [LinearOrder T] in
theorem opHolds_unique {S : SparseSkOp N K T} {L L' : List (Entry T)} (h : OpHolds S L) (h' : OpHolds S L') : L = L' := by
  obtain ⟨v, r, c, e1, e2, e3, h1, h2⟩ := h
  obtain ⟨v', r', c', f1, f2, f3, g1, g2⟩ := h'
  rw [e1] at f1; rw [e2] at f2; rw [e3] at f3
  cases f1; cases f2; cases f3
  exact cooHolds_unique h1 g1 (by omega)

/-- The product of the library with the whole operator, as the tests call it. -/
theorem leftApply_spec {E : SkEnv N K W WS R T} (hE : SkEnvOk E) {alpha beta : T} {layout : Layout} {S : TestOp N K T} {Sm : Int → Int → T} (hS : LeftTestable E alpha layout S Sm)
    {n lda ldb : Int} {A b : Buf T} {Am C : Int → Int → T} (hn : 0 ≤ n) (hlda : LdOk layout lda S.dims.2 n) (hldb : LdOk layout ldb S.dims.1 n)
    (hA : Holds A layout lda S.dims.2 n Am) (hC : Holds b layout ldb S.dims.1 n C) :
    M.wp (leftApply E layout .NoTrans .NoTrans S.dims.1 n S.dims.2 alpha 0 0 A lda beta ldb) (S, b) (fun _ s => TestOpIs E s.1 Sm ∧ s.1.dims = S.dims ∧
      Holds s.2 layout ldb S.dims.1 n (fun i j => alpha * prodEntry S.dims.2 Sm Am i j + beta * C i j)) := by
  have hsub : ∀ F : Int → Int → T, subMat 0 0 F = F := fun F => by funext i j; simp [subMat]
  obtain ⟨q1, q2⟩ := testOp_pos hS.1
  have hal : Alloc b layout ldb S.dims.1 n := fun i j hij => by rw [hC i j hij]; simp
  unfold leftApply
  rw [M.wp_bind, M.wp_get]
  cases S with
  | dense S =>
    obtain ⟨h0, h1⟩ := hS
    simp only [TestOp.dims] at *
    have h := C36_left_dense_partial hE h1 (layout := layout) (opS := .NoTrans) (opA := .NoTrans) (d := S.nRows) (n := n) (m := S.nCols) (ro := 0) (co := 0) (alpha := alpha) (beta := beta) (A := A)
      (b := b) (lda := lda) (ldb := ldb) (Am := Am) (C := C) ⟨le_refl _, le_refl _, by simp [rowsOf], by simp [colsOf]⟩ (fun _ => Or.inl ⟨q1, q2⟩) q1.le hn q2.le hlda hldb (fun _ => hA) hal (fun _ => hC)
    unfold sketchGeneralL at h
    rw [M.wp_bind, M.wp_get] at h
    simp only [onC, M.wp_zoom] at h ⊢
    refine M.wp_mono h ?_
    rintro _ b' ⟨k1, -, -⟩
    rw [hsub] at k1
    exact ⟨h0, trivial, k1⟩
  | sparse S =>
    obtain ⟨h0, h1⟩ := hS
    simp only [TestOp.dims] at *
    have h := sketchGeneralL_spec hE h1 (layout := layout) (opA := .NoTrans) (n := n) (beta := beta) (A := A)
      (b := b) (lda := lda) (ldb := ldb) (Am := Am) (C := C) q1.le hn q2.le hlda hldb (fun _ => hA) hal (fun _ => hC)
    unfold sketchGeneralL at h
    rw [M.wp_bind, M.wp_get] at h
    simp only [onSkSparse, M.wp_zoom] at h ⊢
    refine M.wp_mono h ?_
    rintro _ ⟨S', b'⟩ ⟨k1, -, k3⟩
    rw [hsub] at k1
    dsimp only at k1 k3 ⊢
    rcases k3 with rfl | ⟨k3, k4, L1, L2, g1, g2, g3⟩
    · exact ⟨h0, rfl, k1⟩
    · obtain ⟨p1, p2, L, hL, hin, hnd, hm, hf⟩ := h0
      have hO : OpHolds S L := by rcases hf with hf | hf; exacts [hf, absurd hf.1 (by omega)]
      have e := opHolds_unique g1 hO
      subst e
      have r1 : S'.nRows = S.nRows := by rw [k4]
      have r2 : S'.nCols = S.nCols := by rw [k4]
      refine ⟨⟨by rw [r1]; exact p1, by rw [r2]; exact p2, L2, ?_, ?_, (g3.map _).nodup_iff.mpr hnd, (subMat_perm g3).trans hm, Or.inl g2⟩, by rw [r1, r2], k1⟩
      · intro hn; rw [hn] at g3; exact hL (List.nil_perm.mp g3)
      · rw [r1, r2]; exact fun e he => hin e (g3.mem_iff.mp he)
  | mat S =>
    obtain ⟨h0, L, h1, h2, h3, h4, h5, h6, h7⟩ := hS
    simp only [M.wp_zoom]
    have hr : spRows S = S.numRows := by cases S <;> rfl
    have hc : spCols S = S.numCols := by cases S <;> rfl
    simp only [TestOp.dims] at *
    rw [hr, hc] at h4 h7
    refine M.wp_mono (C31_left_spmm_partial hE.env h1 h3 (by rw [hr, hc]; exact h4) (opA := .NoTrans) (opB := .NoTrans) (alpha := alpha) (beta := beta) (Bm := Am) (C := C) h7 ?_ q1.le hn q2.le hlda hldb
      (fun _ => hA) hal (fun _ => hC)) ?_
    · cases S <;> simp [WindowOk, rowsOf, colsOf, SpMat.numRows, SpMat.numCols]
    rintro _ ⟨S', b'⟩ ⟨k1, -, k3, E', k4, k5⟩
    rw [hsub, h6] at k1
    dsimp only at k1 k3 k4 ⊢
    cases S with
    | coo S =>
      cases S' with
      | coo S' =>
        obtain ⟨e1, e2, -, -⟩ := k3
        simp only [SpMat.numRows, SpMat.numCols] at *
        refine ⟨⟨by simp only [SpMat.numRows]; rw [e1]; exact q1, by simp only [SpMat.numCols]; rw [e2]; exact q2, E', k4.1, ?_, (k5.map _).nodup_iff.mpr h5, (subMat_perm k5).trans h6⟩, by rw [e1, e2], k1⟩
        simp only [SpMat.numRows, SpMat.numCols]
        rw [e1, e2]; exact fun e he => h4 e (k5.mem_iff.mp he)
      | csc S' => exact absurd k3 (by simp [SameObject])
      | csr S' => exact absurd k3 (by simp [SameObject])
    | csc S => rw [show S' = .csc S by simpa [SameObject] using k3]; exact ⟨h0, rfl, k1⟩
    | csr S => rw [show S' = .csr S by simpa [SameObject] using k3]; exact ⟨h0, rfl, k1⟩

/-- The product of the library with the whole operator, from the right. -/
theorem rightApply_spec {E : SkEnv N K W WS R T} (hE : SkEnvOk E) {alpha beta : T} {layout : Layout} {S : TestOp N K T} {Sm : Int → Int → T} (hS : RightTestable E alpha layout S Sm)
    {m lda ldb : Int} {A b : Buf T} {Am C : Int → Int → T} (hm0 : 0 ≤ m) (hlda : LdOk layout lda m S.dims.1) (hldb : LdOk layout ldb m S.dims.2)
    (hA : Holds A layout lda m S.dims.1 Am) (hC : Holds b layout ldb m S.dims.2 C) :
    M.wp (rightApply E layout .NoTrans .NoTrans m S.dims.2 S.dims.1 alpha A lda 0 0 beta ldb) (S, b) (fun _ s => TestOpIs E s.1 Sm ∧ s.1.dims = S.dims ∧
      Holds s.2 layout ldb m S.dims.2 (fun i j => alpha * prodEntry S.dims.1 Am Sm i j + beta * C i j)) := by
  have hsub : ∀ F : Int → Int → T, subMat 0 0 F = F := fun F => by funext i j; simp [subMat]
  obtain ⟨q1, q2⟩ := testOp_pos hS.1
  have hal : Alloc b layout ldb m S.dims.2 := fun i j hij => by rw [hC i j hij]; simp
  unfold rightApply
  rw [M.wp_bind, M.wp_get]
  cases S with
  | dense S =>
    obtain ⟨h0, h1⟩ := hS
    simp only [TestOp.dims] at *
    have h := C36_right_dense_partial hE h1 (layout := layout) (opS := .NoTrans) (opA := .NoTrans) (m := m) (d := S.nCols) (n := S.nRows) (ro := 0) (co := 0) (alpha := alpha) (beta := beta) (A := A)
      (b := b) (lda := lda) (ldb := ldb) (Am := Am) (C := C) ⟨le_refl _, le_refl _, by simp [rowsOf], by simp [colsOf]⟩ (fun _ => Or.inl ⟨q1, q2⟩) hm0 q2.le q1.le hlda hldb (fun _ => hA) hal (fun _ => hC)
    unfold sketchGeneralR at h
    rw [M.wp_bind, M.wp_get] at h
    simp only [onC, M.wp_zoom] at h ⊢
    refine M.wp_mono h ?_
    rintro _ b' ⟨k1, -, -⟩
    rw [hsub] at k1
    exact ⟨h0, trivial, k1⟩
  | sparse S =>
    obtain ⟨h0, h1⟩ := hS
    simp only [TestOp.dims] at *
    have h := sketchGeneralR_spec hE h1 (layout := layout) (opA := .NoTrans) (m := m) (beta := beta) (A := A)
      (b := b) (lda := lda) (ldb := ldb) (Am := Am) (C := C) hm0 q2.le q1.le hlda hldb (fun _ => hA) hal (fun _ => hC)
    unfold sketchGeneralR at h
    rw [M.wp_bind, M.wp_get] at h
    simp only [onSkSparse, M.wp_zoom] at h ⊢
    refine M.wp_mono h ?_
    rintro _ ⟨S', b'⟩ ⟨k1, -, k3⟩
    rw [hsub] at k1
    dsimp only at k1 k3 ⊢
    rcases k3 with rfl | ⟨k3, k4, L1, L2, g1, g2, g3⟩
    · exact ⟨h0, rfl, k1⟩
    · obtain ⟨p1, p2, L, hL, hin, hnd, hm, hf⟩ := h0
      have hO : OpHolds S L := by rcases hf with hf | hf; exacts [hf, absurd hf.1 (by omega)]
      have e := opHolds_unique g1 hO
      subst e
      have r1 : S'.nRows = S.nRows := by rw [k4]
      have r2 : S'.nCols = S.nCols := by rw [k4]
      refine ⟨⟨by rw [r1]; exact p1, by rw [r2]; exact p2, L2, ?_, ?_, (g3.map _).nodup_iff.mpr hnd, (subMat_perm g3).trans hm, Or.inl g2⟩, by rw [r1, r2], k1⟩
      · intro hn; rw [hn] at g3; exact hL (List.nil_perm.mp g3)
      · rw [r1, r2]; exact fun e he => hin e (g3.mem_iff.mp he)
  | mat S =>
    obtain ⟨h0, L, h1, h2, h3, h4, h5, h6, h7⟩ := hS
    simp only [M.wp_zoom]
    have hr : spRows S = S.numRows := by cases S <;> rfl
    have hc : spCols S = S.numCols := by cases S <;> rfl
    simp only [TestOp.dims] at *
    rw [hr, hc] at h4 h7
    refine M.wp_mono (C32_right_spmm_partial hE.env h1 h3 (by rw [hr, hc]; exact h4) (opA := .NoTrans) (opB := .NoTrans) (alpha := alpha) (beta := beta) (Am := Am) (C := C) h7 ?_ hm0 q2.le q1.le hlda hldb
      (fun _ => hA) hal (fun _ => hC)) ?_
    · cases S <;> simp [WindowOk, rowsOf, colsOf, SpMat.numRows, SpMat.numCols]
    rintro _ ⟨S', b'⟩ ⟨k1, -, k3, E', k4, k5⟩
    rw [hsub, h6] at k1
    dsimp only at k1 k3 k4 ⊢
    cases S with
    | coo S =>
      cases S' with
      | coo S' =>
        obtain ⟨e1, e2, -, -⟩ := k3
        simp only [SpMat.numRows, SpMat.numCols] at *
        refine ⟨⟨by simp only [SpMat.numRows]; rw [e1]; exact q1, by simp only [SpMat.numCols]; rw [e2]; exact q2, E', k4.1, ?_, (k5.map _).nodup_iff.mpr h5, (subMat_perm k5).trans h6⟩, by rw [e1, e2], k1⟩
        simp only [SpMat.numRows, SpMat.numCols]
        rw [e1, e2]; exact fun e he => h4 e (k5.mem_iff.mp he)
      | csc S' => exact absurd k3 (by simp [SameObject])
      | csr S' => exact absurd k3 (by simp [SameObject])
    | csc S => rw [show S' = .csc S by simpa [SameObject] using k3]; exact ⟨h0, rfl, k1⟩
    | csr S => rw [show S' = .csr S by simpa [SameObject] using k3]; exact ⟨h0, rfl, k1⟩

variable [IsStrictOrderedRing T]

omit [Field R] [LinearOrder R] [FloorRing R] in
theorem prodEntry_nonneg {m : Int} {A B : Int → Int → T} (hA : ∀ i j, 0 ≤ A i j) (hB : ∀ i j, 0 ≤ B i j) (i j : Int) : 0 ≤ prodEntry m A B i j :=
  Finset.sum_nonneg fun k _ => mul_nonneg (hA i k) (hB k j)

/-- C124 (the library, left). In exact arithmetic the product of the library with the whole operator passes `test_left_apply_to_random`, for every operator to which C31, C36 or C37 apply. -/
theorem C124_library_left {E : SkEnv N K W WS R T} (hE : SkEnvOk E) {eps : T} (heps : 0 ≤ eps) {seedA seedB : RNGState N K} {S : TestOp N K T} {Sm : Int → Int → T} {layout : Layout}
    {n : Int} {alpha beta : T} (hS : LeftTestable E alpha layout S Sm) (hn : 0 < n) (hfA : S.dims.2 * n ≤ intMax 64) (hfB : S.dims.1 * n ≤ intMax 64) :
    M.wp (testLeftRandom E eps seedA seedB (fun A lda ldb => leftApply E layout .NoTrans .NoTrans S.dims.1 n S.dims.2 alpha 0 0 A lda beta ldb) alpha n beta layout) S (fun r S' => TestOpIs E S' Sm ∧ r = none) := by
  obtain ⟨q1, q2⟩ := testOp_pos hS.1
  refine M.wp_mono (C124_left_random hE hS.1 hn hfA hfB rfl rfl (leftApply_spec hE hS hn.le (ldOk_tight _ _ _) (ldOk_tight _ _ _) (ofFn_holds layout _) (ofFn_holds layout _))) ?_
  rintro r S' ⟨h1, h2, -⟩
  refine ⟨h1, h2.mpr fun i j _ => ?_⟩
  rw [sub_self, abs_zero]
  have t1 : (0 : T) ≤ (S.dims.2 : T) := by exact_mod_cast q2.le
  have t2 := prodEntry_nonneg (m := S.dims.2) (A := fun i k => |Sm i k|) (B := fun k j => |testData E.G seedA S.dims.2 n (addr layout (tightLd layout S.dims.2 n) k j)|)
    (fun _ _ => abs_nonneg _) (fun _ _ => abs_nonneg _) i j
  positivity

/-- C124 (the library, right). In exact arithmetic the product of the library with the whole operator passes `test_right_apply_to_random`, for every operator to which C32, C36 or C37 apply. -/
theorem C124_library_right {E : SkEnv N K W WS R T} (hE : SkEnvOk E) {eps : T} (heps : 0 ≤ eps) {seedA seedB : RNGState N K} {S : TestOp N K T} {Sm : Int → Int → T} {layout : Layout}
    {m : Int} {alpha beta : T} (hS : RightTestable E alpha layout S Sm) (hm : 0 < m) (hfA : m * S.dims.1 ≤ intMax 64) (hfB : m * S.dims.2 ≤ intMax 64) :
    M.wp (testRightRandom E eps seedA seedB (fun A lda ldb => rightApply E layout .NoTrans .NoTrans m S.dims.2 S.dims.1 alpha A lda 0 0 beta ldb) alpha m layout beta) S (fun r S' => TestOpIs E S' Sm ∧ r = none) := by
  obtain ⟨q1, q2⟩ := testOp_pos hS.1
  refine M.wp_mono (C124_right_random hE hS.1 hm hfA hfB rfl rfl (rightApply_spec hE hS hm.le (ldOk_tight _ _ _) (ldOk_tight _ _ _) (ofFn_holds layout _) (ofFn_holds layout _))) ?_
  rintro r S' ⟨h1, h2, -⟩
  refine ⟨h1, h2.mpr fun i j _ => ?_⟩
  rw [sub_self, abs_zero]
  have t1 : (0 : T) ≤ (S.dims.1 : T) := by exact_mod_cast q1.le
  have t2 := prodEntry_nonneg (m := S.dims.1) (B := fun i k => |Sm i k|) (A := fun k j => |testData E.G seedA m S.dims.1 (addr layout (tightLd layout m S.dims.1) k j)|)
    (fun _ _ => abs_nonneg _) (fun _ _ => abs_nonneg _) i j
  positivity

/-- C124 (tolerance). The tolerance does not allow for the rounding of `beta * B`: if row `i` of the operator is zero, `0 < |beta| < 1/2` and `B` has a nonzero entry in the row, then the test rejects every
program whose result for the entry has the relative error `eps / 2` of a correctly rounded number. -/
theorem C124_tolerance_counterexample {E : SkEnv N K W WS R T} (hE : SkEnvOk E) {eps : T} (heps : 0 < eps) {seedA seedB : RNGState N K} {S : TestOp N K T} {Sm : Int → Int → T} (hS : TestOpIs E S Sm)
    {layout : Layout} {n : Int} {alpha beta : T} (hn : 0 < n) (hfA : S.dims.2 * n ≤ intMax 64) (hfB : S.dims.1 * n ≤ intMax 64) {C : Int → Int → T}
    (hC : C = fun i j => testData E.G seedB S.dims.1 n (addr layout (tightLd layout S.dims.1 n) i j)) {apply : Buf T → Int → Int → M (TestOp N K T × Buf T) Unit} {X' : Int → Int → T}
    (happly : M.wp (apply (Buf.ofFn (S.dims.2 * n) (testData E.G seedA S.dims.2 n)) (tightLd layout S.dims.2 n) (tightLd layout S.dims.1 n))
      (S, Buf.ofFn (S.dims.1 * n) (testData E.G seedB S.dims.1 n)) (fun _ s => TestOpIs E s.1 Sm ∧ s.1.dims = S.dims ∧ Holds s.2 layout (tightLd layout S.dims.1 n) S.dims.1 n X'))
    (hb0 : beta ≠ 0) (hb : |beta| < 1 / 2) {i j : Int} (hij : InR S.dims.1 n i j) (hrow : ∀ k, Sm i k = 0) (hCij : C i j ≠ 0) (hround : |X' i j - beta * C i j| = eps / 2 * |beta * C i j|) :
    M.wp (testLeftRandom E eps seedA seedB apply alpha n beta layout) S (fun r _ => r ≠ none) := by
  refine M.wp_mono (C124_left_random hE hS hn hfA hfB rfl hC happly) ?_
  rintro r S' ⟨-, h2, -⟩ hr
  have h := h2.mp hr i j hij
  have z : ∀ F G : Int → Int → T, (∀ k, F i k = 0) → prodEntry S.dims.2 F G i j = 0 := fun F G hF =>
    Finset.sum_eq_zero fun k _ => by rw [hF, zero_mul]
  rw [z _ _ hrow, z _ _ (fun k => by rw [hrow, abs_zero]), mul_zero, mul_zero, zero_add, zero_add, hround] at h
  have hpos : 0 < |beta * C i j| := abs_pos.mpr (mul_ne_zero hb0 hCij)
  have := mul_pos heps hpos
  nlinarith

/-- The hypotheses of C124 are met by an unsorted 3 x 2 COO matrix; the library passes the test with it. -/
example : LeftTestable exSkEnvRat 2 .RowMajor (.mat (.coo (cooOf 3 2 .Zero [⟨2, 1, 5⟩, ⟨0, 0, (4 : ℚ)⟩]))) (toMat [⟨2, 1, 5⟩, ⟨0, 0, 4⟩]) ∧
    M.wp (testLeftRandom exSkEnvRat (1 / 1000) ⟨0, 7⟩ ⟨0, 8⟩ (fun A lda ldb => leftApply exSkEnvRat .RowMajor .NoTrans .NoTrans 3 4 2 2 0 0 A lda 3 ldb) 2 4 3 .RowMajor)
      (.mat (.coo (cooOf 3 2 .Zero [⟨2, 1, 5⟩, ⟨0, 0, 4⟩]))) (fun r _ => r = none) := by
  have h : LeftTestable exSkEnvRat 2 .RowMajor (.mat (.coo (cooOf 3 2 .Zero [⟨2, 1, 5⟩, ⟨0, 0, (4 : ℚ)⟩]))) (toMat [⟨2, 1, 5⟩, ⟨0, 0, 4⟩]) := by
    have hr : InRange 3 2 [⟨2, 1, 5⟩, ⟨0, 0, (4 : ℚ)⟩] := by simp [InRange]
    have hc : CooIs (cooOf 3 2 .Zero [⟨2, 1, 5⟩, ⟨0, 0, (4 : ℚ)⟩]) [⟨2, 1, 5⟩, ⟨0, 0, 4⟩] := cooOf_is _ _ _ _
    have hnd : (([⟨2, 1, 5⟩, ⟨0, 0, (4 : ℚ)⟩] : List (Entry ℚ)).map Entry.pos).Nodup := by simp [Entry.pos]
    refine ⟨⟨by simp [SpMat.numRows, cooOf], by simp [SpMat.numCols, cooOf], _, hc, hr, hnd, rfl⟩, _, ⟨hc, trivial⟩, hc, rfl, hr, hnd, rfl, fun _ => Or.inl ⟨by decide, fun _ _ => ⟨⟨2, 1, 5⟩, ?_, by decide⟩⟩⟩
    simp [window, cooOf, spRows, spCols]
  have hd : (TestOp.mat (.coo (cooOf 3 2 .Zero [⟨2, 1, 5⟩, ⟨0, 0, (4 : ℚ)⟩])) : TestOp (2 ^ 128) Nat ℚ).dims = (3, 2) := rfl
  have t := C124_library_left exSkEnvRat_ok (eps := 1 / 1000) (by norm_num) (seedA := ⟨0, 7⟩) (seedB := ⟨0, 8⟩) (n := 4) (beta := 3) h (by norm_num) (by rw [hd]; norm_num [intMax]) (by rw [hd]; norm_num [intMax])
  rw [hd] at t
  exact ⟨h, M.wp_mono t fun _ _ h => h.2⟩

example : RightTestable exSkEnvRat 2 .RowMajor (.mat (.coo (cooOf 3 2 .Zero [⟨2, 1, 5⟩, ⟨0, 0, (4 : ℚ)⟩]))) (toMat [⟨2, 1, 5⟩, ⟨0, 0, 4⟩]) := by
  have hr : InRange 3 2 [⟨2, 1, 5⟩, ⟨0, 0, (4 : ℚ)⟩] := by simp [InRange]
  have hc : CooIs (cooOf 3 2 .Zero [⟨2, 1, 5⟩, ⟨0, 0, (4 : ℚ)⟩]) [⟨2, 1, 5⟩, ⟨0, 0, 4⟩] := cooOf_is _ _ _ _
  have hnd : (([⟨2, 1, 5⟩, ⟨0, 0, (4 : ℚ)⟩] : List (Entry ℚ)).map Entry.pos).Nodup := by simp [Entry.pos]
  refine ⟨⟨by simp [SpMat.numRows, cooOf], by simp [SpMat.numCols, cooOf], _, hc, hr, hnd, rfl⟩, _, ⟨hc, trivial⟩, hc, rfl, hr, hnd, rfl, fun _ => Or.inl ⟨by decide, fun _ _ => ⟨⟨1, 2, 5⟩, ?_, by decide⟩⟩⟩
  simp [window, cooOf, spRows, spCols, opEntries, Entry.swap]

/-- The hypotheses of the counterexample are met by the 1 x 1 matrix without entries, `beta = 1/10` and a program that writes `(1 + eps/2) * beta * B`. -/
example : M.wp (testLeftRandom exSkEnvRat (1 / 1000) ⟨0, 7⟩ ⟨0, 8⟩
      (fun _ _ _ => M.modify fun s => (s.1, Buf.ofFn (1 * 2) fun p => (1 + 1 / 1000 / 2) * (1 / 10 * testData exSkEnvRat.G ⟨0, 8⟩ 1 2 p))) 1 2 (1 / 10) .RowMajor)
    (.mat (.coo (cooOf 1 1 .Zero ([] : List (Entry ℚ))))) (fun r _ => r ≠ none) := by
  have hS : TestOpIs exSkEnvRat (.mat (.coo (cooOf 1 1 .Zero ([] : List (Entry ℚ))))) (fun _ _ => 0) :=
    ⟨by simp [SpMat.numRows, cooOf], by simp [SpMat.numCols, cooOf], [], cooOf_is _ _ _ _, by simp [InRange], by simp, by funext i j; simp [toMat]⟩
  have hv : testData exSkEnvRat.G ⟨0, 8⟩ 1 2 1 = (1 : ℚ) := by decide +kernel
  refine C124_tolerance_counterexample exSkEnvRat_ok (by norm_num) hS (by norm_num) (by simp [TestOp.dims, SpMat.numCols, cooOf, intMax]) (by simp [TestOp.dims, SpMat.numRows, cooOf, intMax]) rfl
    (X' := fun i j => (1 + 1 / 1000 / 2) * (1 / 10 * testData exSkEnvRat.G ⟨0, 8⟩ 1 2 (addr .RowMajor (tightLd .RowMajor 1 2) i j))) ?_ (by norm_num) (by rw [abs_of_pos] <;> norm_num) (i := 0) (j := 1)
    ⟨le_refl _, by simp [TestOp.dims, SpMat.numRows, cooOf], by norm_num, by norm_num⟩ (fun _ => rfl) ?_ ?_
  · rw [M.wp_modify]
    exact ⟨hS, rfl, ofFn_holds (m := 1) (n := 2) .RowMajor _⟩
  · show testData exSkEnvRat.G ⟨0, 8⟩ 1 2 1 ≠ (0 : ℚ)
    rw [hv]; norm_num
  · show |(1 + 1 / 1000 / 2) * (1 / 10 * testData exSkEnvRat.G ⟨0, 8⟩ 1 2 1) - 1 / 10 * testData exSkEnvRat.G ⟨0, 8⟩ 1 2 1| = 1 / 1000 / 2 * |1 / 10 * testData exSkEnvRat.G ⟨0, 8⟩ 1 2 (1 : Int)|
    rw [hv]; norm_num [abs_of_pos]

end RB
