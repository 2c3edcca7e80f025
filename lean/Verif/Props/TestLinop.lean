import Verif.Lemmas.TestLinop
import Verif.Props.TestCompare
import Verif.Props.Sketch

/-!
# The reference products of the tests (C124)

The tests of the products compare the library with a reference: an explicit copy of the operator, multiplied with `gemm`. The reference is the product that the library documents, for every operator, window,
layout and pair of transpositions. The product tests accept a program exactly if each entry of its result is within a tolerance of the exact product. The tolerance is computed from the result where the rounding
analysis needs the old `B`: for a `beta` below 1 in magnitude it can be smaller than the rounding error of a correctly rounded result.
-/

namespace RB
open Spec
variable {N : Nat} {K W WS R T : Type} [Field R] [LinearOrder R] [FloorRing R] [Field T] [LinearOrder T]

omit [LinearOrder T] in
/-- C124 (explicit copies). `to_explicit_buffer` writes the matrix of the operator to the array, in the layout of the caller, and nothing else; a sparse operator that had not been filled has been filled. -/
theorem C124_explicit {E : SkEnv N K W WS R T} (hE : SkEnvOk E) {S : TestOp N K T} {Sm : Int → Int → T} (hS : TestOpIs E S Sm) {layout : Layout} {b : Buf T}
    (hal : Alloc b layout (tightLd layout S.dims.1 S.dims.2) S.dims.1 S.dims.2) :
    M.wp (toExplicit E layout) (S, b) (fun _ s => TestOpIs E s.1 Sm ∧ s.1.dims = S.dims ∧ Holds s.2 layout (tightLd layout S.dims.1 S.dims.2) S.dims.1 S.dims.2 Sm ∧
      SameOutside b s.2 layout (tightLd layout S.dims.1 S.dims.2) S.dims.1 S.dims.2) :=
  M.wp_mono (toExplicit_spec hE hS hal) fun _ _ h => ⟨h.1, h.2.1, h.2.2.holds, h.2.2.sameOutside⟩

omit [LinearOrder T] in
theorem testOp_pos {E : SkEnv N K W WS R T} {S : TestOp N K T} {Sm : Int → Int → T} (hS : TestOpIs E S Sm) : 0 < S.dims.1 ∧ 0 < S.dims.2 := by
  cases S with
  | dense S =>
    obtain ⟨hD, hr, hc, -⟩ := hS
    obtain ⟨hR, hC, -⟩ := denseDist_facts hD
    simp only [TestOp.dims]; omega
  | sparse S => exact ⟨hS.1, hS.2.1⟩
  | mat A => exact ⟨hS.1, hS.2.1⟩

/-- C124 (reference, left). `reference_left_apply` computes `alpha * op(submat(S)) * op(A) + beta * B` and the tolerance. -/
theorem C124_reference_left {E : SkEnv N K W WS R T} (hE : SkEnvOk E) {eps : T} {S : TestOp N K T} {Sm : Int → Int → T} (hS : TestOpIs E S Sm) {layout : Layout} {opS opA : Op}
    {d n m ro co : Int} {alpha beta : T} {A b e : Buf T} {lda ldb : Int} {Am C : Int → Int → T} (hd : 0 < d) (hn : 0 < n) (hm : 0 < m)
    (hw : InOp S.dims.1 S.dims.2 (rowsOf opS d m) (colsOf opS d m) ro co) (hlda : LdOk layout lda (rowsOf opA m n) (colsOf opA m n)) (hldb : LdOk layout ldb d n)
    (hA : Holds A layout lda (rowsOf opA m n) (colsOf opA m n) Am) (hfull : Full A (extent layout lda (rowsOf opA m n) (colsOf opA m n))) (hal : Alloc b layout ldb d n)
    (hC : beta ≠ 0 → Holds b layout ldb d n C ∧ Full b (extent layout ldb d n)) (he : ∀ p, 0 ≤ p → p < extent layout ldb d n → e p ≠ .none) :
    M.wp (referenceLeftApply E eps layout opS opA d n m alpha ro co A lda beta ldb) ⟨S, b, e⟩ (fun _ s => TestOpIs E s.op Sm ∧ s.op.dims = S.dims ∧
      Holds s.b layout ldb d n (productOf opS opA m ro co alpha beta Sm Am C) ∧ SameOutside b s.b layout ldb d n ∧
      Holds s.e layout ldb d n (toleranceOf eps opS opA m ro co alpha beta Sm Am (productOf opS opA m ro co alpha beta Sm Am C)) ∧
      ∀ p, ¬ (0 ≤ p ∧ p < extent layout ldb d n) → s.e p = e p) := by
  obtain ⟨q1, q2⟩ := testOp_pos hS
  obtain ⟨w1, w2, w3, w4⟩ := hw
  set rowsS := S.dims.1 with hrows
  set colsS := S.dims.2 with hcols
  unfold referenceLeftApply
  simp only [M.wp_bind, M.wp_require, M.wp_get]
  refine ⟨hd, hm, hn, ?_⟩
  rw [← hrows, ← hcols]
  refine ⟨?_, ?_, ?_, ?_⟩
  · cases layout <;> cases opS <;> simp [dimsBeforeOp, rowsOf, colsOf] at * <;> omega
  · cases layout <;> cases opA <;> simpa [dimsBeforeOp, rowsOf, colsOf, LdOk] using hlda
  · cases layout <;> simpa [LdOk] using hldb
  have hlds : (if layout = .ColMajor then rowsS else colsS) = tightLd layout rowsS colsS := by cases layout <;> rfl
  have hsA : (if layout = .ColMajor then lda * ((dimsBeforeOp m n opA).2 - 1) + (dimsBeforeOp m n opA).1 else lda * ((dimsBeforeOp m n opA).1 - 1) + (dimsBeforeOp m n opA).2) =
      extent layout lda (rowsOf opA m n) (colsOf opA m n) := by
    cases layout <;> cases opA <;> simp [dimsBeforeOp, rowsOf, colsOf, extent]
  have hsB : (if layout = .ColMajor then ldb * (n - 1) + d else ldb * (d - 1) + n) = extent layout ldb d n := by cases layout <;> simp [extent]
  rw [hlds, hsA, hsB]
  have hpos : (if layout = .ColMajor then ro + tightLd layout rowsS colsS * co else ro * tightLd layout rowsS colsS + co) = addr layout (tightLd layout rowsS colsS) ro co := by
    cases layout <;> simp [addr, mul_comm]
  rw [hpos, M.wp_onLocal]
  refine M.wp_mono (toExplicit_spec hE hS (ofFn_alloc layout _)) ?_
  rintro _ ⟨S1, sd⟩ ⟨g1, g2, g3⟩
  dsimp only
  rw [M.wp_modify, M.wp_onLocal]
  rw [← hrows, ← hcols] at g3
  refine M.wp_mono (absStr_spec (layout := layout) q1.le q2.le g3.holds (ofFn_alloc layout _)) ?_
  rintro _ sa hsa
  dsimp only
  unfold RefSt.onB
  rw [M.wp_zoom]
  have hwin : ∀ i l, InR d m i l → InR rowsS colsS (ro + (if opS = .NoTrans then i else l)) (co + if opS = .NoTrans then l else i) := by
    rintro i l ⟨i0, i1, l0, l1⟩
    cases opS
    · simp only [rowsOf, colsOf, if_true] at *; refine ⟨?_, ?_, ?_, ?_⟩ <;> omega
    · simp only [rowsOf, colsOf, reduceCtorEq, if_false] at *; refine ⟨?_, ?_, ?_, ?_⟩ <;> omega
  have hop : ∀ {b' : Buf T} {F : Int → Int → T}, Holds b' layout (tightLd layout rowsS colsS) rowsS colsS F → ∀ i l, InR d m i l →
      b' (addr layout (tightLd layout rowsS colsS) ro co + opIndex layout (tightLd layout rowsS colsS) opS i l) = .val (opMat opS (subMat ro co F) i l) := by
    intro b' F hF i l hil
    have h1 := hF _ _ (hwin i l hil)
    rw [opIndex_eq]
    cases opS
    · simp only [opMat, subMat, if_true] at *
      rw [← h1]; congr 1; cases layout <;> simp only [addr] <;> ring
    · simp only [opMat, subMat, reduceCtorEq, if_false] at *
      rw [← h1]; congr 1; cases layout <;> simp only [addr] <;> ring
  have hin : ∀ l j, InR m n l j → InR (rowsOf opA m n) (colsOf opA m n) (if opA = .NoTrans then l else j) (if opA = .NoTrans then j else l) := by
    rintro l j ⟨l0, l1, j0, j1⟩
    cases opA
    · exact ⟨l0, l1, j0, j1⟩
    · exact ⟨j0, j1, l0, l1⟩
  have hopA : ∀ {b' : Buf T} {F : Int → Int → T}, Holds b' layout lda (rowsOf opA m n) (colsOf opA m n) F → ∀ l j, InR m n l j →
      b' (0 + opIndex layout lda opA l j) = .val (opMat opA F l j) := by
    intro b' F hF l j hlj
    have h1 := hF _ _ (hin l j hlj)
    rw [opIndex_eq, zero_add]
    cases opA
    · exact h1
    · exact h1
  have hldS : LdOk layout (tightLd layout rowsS colsS) (rowsOf opS d m) (colsOf opS d m) := by
    cases layout <;> simp only [LdOk, tightLd] <;> omega
  refine M.wp_mono (blasGemm_spec (Am := opMat opS (subMat ro co Sm)) (Bm := opMat opA Am) (C := C) hd.le hn.le hm.le hldS hlda hldb (fun _ => hop g3.holds) (fun _ => hopA hA) hal
    (fun h => (hC h).1)) ?_
  rintro _ b1 hb1
  dsimp only
  rw [M.wp_onLocal]
  have hnn : 0 ≤ extent layout lda (rowsOf opA m n) (colsOf opA m n) := by
    have := addr_bound hlda (hin 0 0 ⟨le_refl _, hm, le_refl _, hn⟩); omega
  have hnb : 0 ≤ extent layout ldb d n := by
    have := addr_bound hldb (i := 0) (j := 0) ⟨le_refl _, hd, le_refl _, hn⟩; omega
  refine M.wp_mono (absVec_spec hnn hfull (fun p p0 p1 => by unfold zeroVec Buf.ofFn; rw [if_pos ⟨p0, p1⟩]; simp)) ?_
  rintro _ aa ⟨ha1, -⟩
  dsimp only
  rw [M.wp_when]
  have haabs : Holds aa layout lda (rowsOf opA m n) (colsOf opA m n) (fun i j => |Am i j|) := fun i j hij =>
    ha1 _ (addr_bound hlda hij).1 (addr_bound hlda hij).2 _ (hA i j hij)
  have hX : Holds b1 layout ldb d n (productOf opS opA m ro co alpha beta Sm Am C) := hb1.holds
  have last : ∀ e1 : Buf T, Alloc e1 layout ldb d n → (|beta| * eps ≠ 0 → Holds e1 layout ldb d n fun i j => |productOf opS opA m ro co alpha beta Sm Am C i j|) →
      (∀ p, ¬ (0 ≤ p ∧ p < extent layout ldb d n) → e1 p = e p) →
      M.wp (RefSt.onE (blasGemm layout opS opA d n m (|alpha| * (m : T) * (2 * eps)) sa (addr layout (tightLd layout rowsS colsS) ro co) (tightLd layout rowsS colsS) aa 0 lda (|beta| * eps) 0 ldb))
        (⟨S1, b1, e1⟩ : RefSt N K T) (fun _ s => TestOpIs E s.op Sm ∧ s.op.dims = S.dims ∧
        Holds s.b layout ldb d n (productOf opS opA m ro co alpha beta Sm Am C) ∧ SameOutside b s.b layout ldb d n ∧
        Holds s.e layout ldb d n (toleranceOf eps opS opA m ro co alpha beta Sm Am (productOf opS opA m ro co alpha beta Sm Am C)) ∧
        ∀ p, ¬ (0 ≤ p ∧ p < extent layout ldb d n) → s.e p = e p) := by
    intro e1 h1 h2 h3
    unfold RefSt.onE
    rw [M.wp_zoom]
    refine M.wp_mono (blasGemm_spec (Am := opMat opS (subMat ro co fun i j => |Sm i j|)) (Bm := opMat opA fun i j => |Am i j|) hd.le hn.le hm.le hldS hlda hldb (fun _ => hop hsa) (fun _ => hopA haabs) h1 h2) ?_
    rintro _ e2 he2
    refine ⟨g1, g2, hX, hb1.sameOutside, fun i j hij => ?_, fun p hp => ?_⟩
    · dsimp only
      rw [he2.cells i j hij]
      congr 1
      unfold toleranceOf
      have e1 : (fun i k => |opMat opS (subMat ro co Sm) i k|) = opMat opS (subMat ro co fun i j => |Sm i j|) := by cases opS <;> rfl
      have e2 : (fun k j => |opMat opA Am k j|) = opMat opA fun i j => |Am i j| := by cases opA <;> rfl
      rw [e1, e2]
      ring
    · dsimp only
      rw [he2.outside p fun i j hij hpe => hp (hpe ▸ addr_bound hldb hij)]
      exact h3 p hp
  refine ⟨fun hbeta => ?_, fun hbeta => ?_⟩
  · unfold RefSt.onE
    rw [M.wp_zoom]
    have hb1full : Full b1 (extent layout ldb d n) := by
      intro p p0 p1
      by_cases hp : ∃ i j, InR d n i j ∧ p = addr layout ldb i j
      · obtain ⟨i, j, hij, rfl⟩ := hp
        exact ⟨_, hX i j hij⟩
      · push Not at hp
        rw [hb1.outside p hp]
        exact (hC hbeta).2 p p0 p1
    refine M.wp_mono (absVec_spec hnb hb1full he) ?_
    rintro _ e1 ⟨k1, k2⟩
    have hh : Holds e1 layout ldb d n fun i j => |productOf opS opA m ro co alpha beta Sm Am C i j| := fun i j hij =>
      k1 _ (addr_bound hldb hij).1 (addr_bound hldb hij).2 _ (hX i j hij)
    exact last e1 (fun i j hij => by rw [hh i j hij]; simp) (fun _ => hh) k2
  · refine last e (fun i j hij => he _ (addr_bound hldb hij).1 (addr_bound hldb hij).2) (fun h => ?_) (fun _ _ => rfl)
    rw [not_not] at hbeta
    rw [hbeta] at h
    exact absurd (by simp [abs]) h

theorem extent_flip (layout : Layout) (ld m n : Int) : extent layout.flip ld m n = extent layout ld n m := by cases layout <;> rfl

theorem ldOk_flip {layout : Layout} {ld m n : Int} (h : LdOk layout ld m n) : LdOk layout.flip ld n m := by cases layout <;> exact h

omit [LinearOrder T] in
theorem prodEntry_swap_factors (n : Int) (A B : Int → Int → T) (i j : Int) : prodEntry n (fun i k => B k i) (fun k j => A j k) j i = prodEntry n A B i j :=
  Finset.sum_congr rfl fun _ _ => mul_comm _ _

/-- C124 (reference, right). `reference_right_apply` computes `alpha * op(A) * op(submat(S)) + beta * B` and the tolerance. -/
theorem C124_reference_right {E : SkEnv N K W WS R T} (hE : SkEnvOk E) {eps : T} {S : TestOp N K T} {Sm : Int → Int → T} (hS : TestOpIs E S Sm) {layout : Layout} {opA opS : Op}
    {m d n ro co : Int} {alpha beta : T} {A b e : Buf T} {lda ldb : Int} {Am C : Int → Int → T} (hm : 0 < m) (hd : 0 < d) (hn : 0 < n)
    (hw : InOp S.dims.1 S.dims.2 (rowsOf opS n d) (colsOf opS n d) ro co) (hlda : LdOk layout lda (rowsOf opA m n) (colsOf opA m n)) (hldb : LdOk layout ldb m d)
    (hA : Holds A layout lda (rowsOf opA m n) (colsOf opA m n) Am) (hfull : Full A (extent layout lda (rowsOf opA m n) (colsOf opA m n))) (hal : Alloc b layout ldb m d)
    (hC : beta ≠ 0 → Holds b layout ldb m d C ∧ Full b (extent layout ldb m d)) (he : ∀ p, 0 ≤ p → p < extent layout ldb m d → e p ≠ .none) :
    M.wp (referenceRightApply E eps layout opA opS m d n alpha A lda ro co beta ldb) ⟨S, b, e⟩ (fun _ s => TestOpIs E s.op Sm ∧ s.op.dims = S.dims ∧
      Holds s.b layout ldb m d (productOfR opA opS n ro co alpha beta Am Sm C) ∧ SameOutside b s.b layout ldb m d ∧
      Holds s.e layout ldb m d (toleranceOfR eps opA opS n ro co alpha beta Am Sm (productOfR opA opS n ro co alpha beta Am Sm C)) ∧
      ∀ p, ¬ (0 ≤ p ∧ p < extent layout ldb m d) → s.e p = e p) := by
  obtain ⟨w1, w2, w3, w4⟩ := hw
  unfold referenceRightApply
  simp only [M.wp_bind, M.wp_require, M.wp_get]
  refine ⟨?_, ?_, ?_, ?_⟩
  · cases opS <;> simp [dimsBeforeOp, rowsOf, colsOf] at * <;> omega
  · cases opS <;> simp [dimsBeforeOp, rowsOf, colsOf] at * <;> omega
  · cases layout <;> cases opA <;> simpa [dimsBeforeOp, rowsOf, colsOf, LdOk] using hlda
  rw [show (if layout = .ColMajor then Layout.RowMajor else .ColMajor) = layout.flip by cases layout <;> rfl,
    show (if opS = .NoTrans then Op.Trans else .NoTrans) = opS.flip by cases opS <;> rfl]
  have hrS : rowsOf opS.flip d n = rowsOf opS n d := by cases opS <;> rfl
  have hcS : colsOf opS.flip d n = colsOf opS n d := by cases opS <;> rfl
  have hrA : rowsOf opA n m = colsOf opA m n := by cases opA <;> rfl
  have hcA : colsOf opA n m = rowsOf opA m n := by cases opA <;> rfl
  have hflip : layout.flip.flip = layout := by cases layout <;> rfl
  have hl : ∀ {b : Buf T} {ld m n : Int} {F : Int → Int → T}, Holds b layout ld m n F → Holds b layout.flip ld n m (fun i j => F j i) := fun h => holds_flip.mpr h
  refine M.wp_mono (C124_reference_left (C := fun i j => C j i) (Am := fun i j => Am j i) hE hS hd hm hn (by rw [hrS, hcS]; exact ⟨w1, w2, w3, w4⟩) (by rw [hrA, hcA]; exact ldOk_flip hlda) (ldOk_flip hldb)
    (by rw [hrA, hcA]; exact hl hA) (by rw [hrA, hcA, extent_flip]; exact hfull) ?_ ?_ (by rw [extent_flip]; exact he)) ?_
  · intro i j hij
    rw [addr_flip]
    exact hal j i ⟨hij.2.2.1, hij.2.2.2, hij.1, hij.2.1⟩
  · intro h
    rw [extent_flip]
    exact ⟨hl (hC h).1, (hC h).2⟩
  · rintro _ s ⟨g1, g2, g3, g4, g5, g6⟩
    have e1 : opMat opS.flip (subMat ro co Sm) = fun i k => opMat opS (subMat ro co Sm) k i := by cases opS <;> rfl
    have e2 : (opMat opA fun i j => Am j i) = fun k j => opMat opA Am j k := by cases opA <;> rfl
    have eX : ∀ i j, productOf opS.flip opA n ro co alpha beta Sm (fun i j => Am j i) (fun i j => C j i) j i = productOfR opA opS n ro co alpha beta Am Sm C i j := by
      intro i j
      unfold productOf productOfR
      rw [e1, e2, prodEntry_swap_factors]
    refine ⟨g1, g2, fun i j hij => ?_, fun p hp => g4 p fun i j hij => ?_, fun i j hij => ?_, fun p hp => g6 p (by rw [extent_flip]; exact hp)⟩
    · have := holds_flip.mp g3 i j hij
      rw [this]
      congr 1
      exact eX i j
    · rw [addr_flip]
      exact hp j i ⟨hij.2.2.1, hij.2.2.2, hij.1, hij.2.1⟩
    · have := holds_flip.mp g5 i j hij
      rw [this]
      congr 1
      unfold toleranceOf toleranceOfR
      beta_reduce
      rw [eX, e1, e2]
      congr 2
      exact prodEntry_swap_factors n (fun i k => |opMat opA Am i k|) (fun k j => |opMat opS (subMat ro co Sm) k j|) i j

/-! ## The tests with random data -/

omit [Field R] [LinearOrder R] [FloorRing R] [Field T] [LinearOrder T] in
theorem fltBuf_val {b : Buf T} {p : Int} {v : T} (h : b p = .val v) : fltBuf b p = .val (.fin v) := by
  unfold fltBuf; rw [h]

omit [Field R] [LinearOrder R] [FloorRing R] in
/-- The elementwise comparison of two tightly packed matrices. -/
theorem within_tight {layout : Layout} {m n : Int} (hm : 0 < m) (hn : 0 < n) {a x e : Buf T} {A X D : Int → Int → T} (ha : Holds a layout (tightLd layout m n) m n A)
    (hx : Holds x layout (tightLd layout m n) m n X) (he : Holds e layout (tightLd layout m n) m n D) :
    ∃ r, buffsWithinBounds (fltBuf a) (fltBuf x) (fltBuf e) (m * n) = .ok r ∧ (r = none ↔ ∀ i j, InR m n i j → |A i j - X i j| ≤ D i j) ∧
      ∀ p, r = some p → ∃ i j, InR m n i j ∧ p = addr layout (tightLd layout m n) i j ∧ D i j < |A i j - X i j| := by
  have hpos : ∀ p, 0 ≤ p → p < m * n → ∃ i j, InR m n i j ∧ p = addr layout (tightLd layout m n) i j := fun p => tight_pos hm hn
  let g : Buf T → Int → T := fun b p => match b p with | .val v => v | _ => 0
  have hg : ∀ {b : Buf T} {F : Int → Int → T}, Holds b layout (tightLd layout m n) m n F → ∀ i j, InR m n i j → g b (addr layout (tightLd layout m n) i j) = F i j := by
    intro b F h i j hij; simp only [g, h i j hij]
  have hv : ∀ {b : Buf T} {F : Int → Int → T}, Holds b layout (tightLd layout m n) m n F → ∀ p, 0 ≤ p → p < m * n → fltBuf b p = .val (.fin (g b p)) := by
    intro b F h p p0 p1
    obtain ⟨i, j, hij, rfl⟩ := hpos p p0 p1
    rw [hg h i j hij]; exact fltBuf_val (h i j hij)
  have hmn : 0 ≤ m * n := (mul_pos hm hn).le
  have hb : ∀ i j, InR m n i j → 0 ≤ addr layout (tightLd layout m n) i j ∧ addr layout (tightLd layout m n) i j < m * n := fun i j hij => by
    have := addr_bound (ldOk_tight layout m n) hij; rwa [extent_tight] at this
  rcases C118_bounds_partial hmn (hv ha) (hv hx) (hv he) with ⟨h1, h2⟩ | ⟨p, h1, p0, p1, h2, -⟩
  · refine ⟨none, h1, ⟨fun _ i j hij => ?_, fun _ => rfl⟩, fun p h => by cases h⟩
    have := h2 _ (hb i j hij).1 (hb i j hij).2
    beta_reduce at this
    rwa [hg ha i j hij, hg hx i j hij, hg he i j hij] at this
  · obtain ⟨i, j, hij, rfl⟩ := hpos p p0 p1
    beta_reduce at h2
    rw [hg ha i j hij, hg hx i j hij, hg he i j hij] at h2
    exact ⟨_, h1, ⟨fun h => (by cases h), fun h => absurd (h i j hij) h2⟩, fun q hq => by cases hq; exact ⟨i, j, hij, rfl, not_le.mp h2⟩⟩

/-- C124 (tests, left). For every program `apply` that leaves the matrix of the operator unchanged and produces the matrix `X'`, `test_left_apply_to_random` runs without undefined behaviour, and accepts exactly
if each entry of `X'` is within the tolerance of `alpha * S * A + beta * B`, where A and B are the random matrices; otherwise it reports an entry outside the tolerance. -/
theorem C124_left_random {E : SkEnv N K W WS R T} (hE : SkEnvOk E) {eps : T} {seedA seedB : RNGState N K} {S : TestOp N K T} {Sm : Int → Int → T} (hS : TestOpIs E S Sm) {layout : Layout}
    {n : Int} {alpha beta : T} (hn : 0 < n) (hfA : S.dims.2 * n ≤ intMax 64) (hfB : S.dims.1 * n ≤ intMax 64) {Am C : Int → Int → T}
    (hAm : Am = fun i j => testData E.G seedA S.dims.2 n (addr layout (tightLd layout S.dims.2 n) i j))
    (hC : C = fun i j => testData E.G seedB S.dims.1 n (addr layout (tightLd layout S.dims.1 n) i j)) {apply : Buf T → Int → Int → M (TestOp N K T × Buf T) Unit} {X' : Int → Int → T}
    (happly : M.wp (apply (Buf.ofFn (S.dims.2 * n) (testData E.G seedA S.dims.2 n)) (tightLd layout S.dims.2 n) (tightLd layout S.dims.1 n))
      (S, Buf.ofFn (S.dims.1 * n) (testData E.G seedB S.dims.1 n)) (fun _ s => TestOpIs E s.1 Sm ∧ s.1.dims = S.dims ∧ Holds s.2 layout (tightLd layout S.dims.1 n) S.dims.1 n X')) :
    M.wp (testLeftRandom E eps seedA seedB apply alpha n beta layout) S (fun r S' => TestOpIs E S' Sm ∧
      (r = none ↔ ∀ i j, InR S.dims.1 n i j → |X' i j - (alpha * prodEntry S.dims.2 Sm Am i j + beta * C i j)| ≤
        2 * (S.dims.2 : T) * eps * |alpha| * prodEntry S.dims.2 (fun i k => |Sm i k|) (fun k j => |Am k j|) i j + eps * |beta| * |alpha * prodEntry S.dims.2 Sm Am i j + beta * C i j|) ∧
      ∀ p, r = some p → ∃ i j, InR S.dims.1 n i j ∧ p = addr layout (tightLd layout S.dims.1 n) i j ∧
        2 * (S.dims.2 : T) * eps * |alpha| * prodEntry S.dims.2 (fun i k => |Sm i k|) (fun k j => |Am k j|) i j + eps * |beta| * |alpha * prodEntry S.dims.2 Sm Am i j + beta * C i j| <
          |X' i j - (alpha * prodEntry S.dims.2 Sm Am i j + beta * C i j)|) := by
  obtain ⟨q1, q2⟩ := testOp_pos hS
  unfold testLeftRandom
  simp only [M.wp_bind, M.wp_get, M.wp_onLocal, tightLd_if]
  refine ⟨_, _, randomMatrix_flat hE.gen q2 hn hfA seedA, ?_⟩
  refine ⟨_, _, randomMatrix_flat hE.gen q1 hn hfB seedB, ?_⟩
  refine M.wp_mono happly ?_
  rintro _ ⟨S1, b1⟩ ⟨g1, g2, g3⟩
  dsimp only at g1 g2 g3 ⊢
  have hsub : ∀ F : Int → Int → T, subMat 0 0 F = F := fun F => by funext i j; simp [subMat]
  have full : ∀ (f : Int → T) (m : Int), Full (Buf.ofFn m f) m := fun f m p p0 p1 => ⟨f p, by unfold Buf.ofFn; rw [if_pos ⟨p0, p1⟩]⟩
  refine M.wp_mono (C124_reference_left (S := S1) (Am := Am) (C := C) hE g1 q1 hn q2 (by rw [g2]; exact ⟨le_refl _, le_refl _, by simp [rowsOf], by simp [colsOf]⟩) (ldOk_tight _ _ _) (ldOk_tight _ _ _)
    (by rw [hAm]; exact ofFn_holds layout _) (by simp only [rowsOf, colsOf]; rw [extent_tight]; exact full _ _) (ofFn_alloc layout _) (fun _ => ⟨by rw [hC]; exact ofFn_holds layout _, by rw [extent_tight]; exact full _ _⟩)
    (by rw [extent_tight]; intro p p0 p1; unfold zeroVec Buf.ofFn; rw [if_pos ⟨p0, p1⟩]; simp)) ?_
  rintro _ s ⟨h1, h2, h3, -, h5, -⟩
  rw [M.wp_modify, M.wp_lift]
  obtain ⟨r, e1, e2, e3⟩ := within_tight q1 hn g3 h3 h5
  unfold productOf toleranceOf at e2 e3
  simp only [opMat, hsub] at e2 e3
  exact ⟨r, e1, h1, e2, e3⟩

/-- C124 (tests, right). The same for `test_right_apply_to_random`. -/
theorem C124_right_random {E : SkEnv N K W WS R T} (hE : SkEnvOk E) {eps : T} {seedA seedB : RNGState N K} {S : TestOp N K T} {Sm : Int → Int → T} (hS : TestOpIs E S Sm) {layout : Layout}
    {m : Int} {alpha beta : T} (hm : 0 < m) (hfA : m * S.dims.1 ≤ intMax 64) (hfB : m * S.dims.2 ≤ intMax 64) {Am C : Int → Int → T}
    (hAm : Am = fun i j => testData E.G seedA m S.dims.1 (addr layout (tightLd layout m S.dims.1) i j))
    (hC : C = fun i j => testData E.G seedB m S.dims.2 (addr layout (tightLd layout m S.dims.2) i j)) {apply : Buf T → Int → Int → M (TestOp N K T × Buf T) Unit} {X' : Int → Int → T}
    (happly : M.wp (apply (Buf.ofFn (m * S.dims.1) (testData E.G seedA m S.dims.1)) (tightLd layout m S.dims.1) (tightLd layout m S.dims.2))
      (S, Buf.ofFn (m * S.dims.2) (testData E.G seedB m S.dims.2)) (fun _ s => TestOpIs E s.1 Sm ∧ s.1.dims = S.dims ∧ Holds s.2 layout (tightLd layout m S.dims.2) m S.dims.2 X')) :
    M.wp (testRightRandom E eps seedA seedB apply alpha m layout beta) S (fun r S' => TestOpIs E S' Sm ∧
      (r = none ↔ ∀ i j, InR m S.dims.2 i j → |X' i j - (alpha * prodEntry S.dims.1 Am Sm i j + beta * C i j)| ≤
        2 * (S.dims.1 : T) * eps * |alpha| * prodEntry S.dims.1 (fun i k => |Am i k|) (fun k j => |Sm k j|) i j + eps * |beta| * |alpha * prodEntry S.dims.1 Am Sm i j + beta * C i j|) ∧
      ∀ p, r = some p → ∃ i j, InR m S.dims.2 i j ∧ p = addr layout (tightLd layout m S.dims.2) i j ∧
        2 * (S.dims.1 : T) * eps * |alpha| * prodEntry S.dims.1 (fun i k => |Am i k|) (fun k j => |Sm k j|) i j + eps * |beta| * |alpha * prodEntry S.dims.1 Am Sm i j + beta * C i j| <
          |X' i j - (alpha * prodEntry S.dims.1 Am Sm i j + beta * C i j)|) := by
  obtain ⟨q1, q2⟩ := testOp_pos hS
  unfold testRightRandom
  simp only [M.wp_bind, M.wp_get, M.wp_onLocal, tightLd_if]
  refine ⟨_, _, randomMatrix_flat hE.gen hm q1 hfA seedA, ?_⟩
  refine ⟨_, _, randomMatrix_flat hE.gen hm q2 hfB seedB, ?_⟩
  refine M.wp_mono happly ?_
  rintro _ ⟨S1, b1⟩ ⟨g1, g2, g3⟩
  dsimp only at g1 g2 g3 ⊢
  have hsub : ∀ F : Int → Int → T, subMat 0 0 F = F := fun F => by funext i j; simp [subMat]
  have full : ∀ (f : Int → T) (m : Int), Full (Buf.ofFn m f) m := fun f m p p0 p1 => ⟨f p, by unfold Buf.ofFn; rw [if_pos ⟨p0, p1⟩]⟩
  refine M.wp_mono (C124_reference_right (S := S1) (Am := Am) (C := C) hE g1 hm q2 q1 (by rw [g2]; exact ⟨le_refl _, le_refl _, by simp [rowsOf], by simp [colsOf]⟩) (ldOk_tight _ _ _) (ldOk_tight _ _ _)
    (by rw [hAm]; exact ofFn_holds layout _) (by simp only [rowsOf, colsOf]; rw [extent_tight]; exact full _ _) (ofFn_alloc layout _) (fun _ => ⟨by rw [hC]; exact ofFn_holds layout _, by rw [extent_tight]; exact full _ _⟩)
    (by rw [extent_tight]; intro p p0 p1; unfold zeroVec Buf.ofFn; rw [if_pos ⟨p0, p1⟩]; simp)) ?_
  rintro _ s ⟨h1, h2, h3, -, h5, -⟩
  rw [M.wp_modify, M.wp_lift]
  obtain ⟨r, e1, e2, e3⟩ := within_tight hm q2 g3 h3 h5
  unfold productOfR toleranceOfR at e2 e3
  simp only [opMat, hsub] at e2 e3
  exact ⟨r, e1, h1, e2, e3⟩

end RB
