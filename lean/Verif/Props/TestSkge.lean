import Verif.Spec.TestSkge
import Verif.Props.TestSpmmFixtures
import Verif.Props.TestLibraryMore
import Verif.Props.TestSketchSparse
import Verif.Props.FillDeterminism

/-! # C137: the operators of the sketching kernel tests -/

namespace RB
open Spec
variable {N : Nat} {K W WS R T : Type} [Field T] [LinearOrder T] [Field R] [LinearOrder R] [FloorRing R]

section
omit [LinearOrder T]

theorem sparseRun_nodup {G : Gen N K WS R} {sqrt : T → T} {D : SparseDist} {seed : RNGState N K} {L : List (Int × Int × T)} (hD : SparseDistOk D) (h : SparseRun G sqrt D seed L) :
    ((L.map (mkEntry D)).map Entry.pos).Nodup := by
  obtain ⟨-, -, hk, hkd, -⟩ := sparseDist_facts hD
  rcases h with ⟨-, rfl⟩ | ⟨-, h⟩
  · exact mkEntry_nodup _ (saso_nodup hk hkd)
  · exact mkEntry_nodup _ h.nodup

end

omit [Field T] [LinearOrder T] [FloorRing R] in
theorem kind_dist {F : SkgeFixture N K W WS R T} {v : Int} {axis : Axis} {fill : Bool} {nR nC : Int} {key : Nat} (h : OpOk F (.sparse v axis fill) nR nC key) :
    ∃ D, mkSparseDist nR nC v axis = .ok D ∧ SparseDistOk D ∧ D.nRows = nR ∧ D.nCols = nC ∧ D.majorAxis = axis ∧ D.vecNnz = v ∧
      (D.majorAxis = .Long → ∀ c t, 0 ≤ unif01 F.E.GS (advance ⟨0, F.keyOf key⟩ c) t ∧ unif01 F.E.GS (advance ⟨0, F.keyOf key⟩ c) t < 1) := by
  obtain ⟨h1, h2, h3⟩ := h
  cases axis with
  | Short =>
    obtain ⟨k1, k2, k3⟩ := h3
    have e : mkSparseDist nR nC v .Short = .ok ⟨nR, nC, .Short, min nR nC, nR + nC - min nR nC, v, v * (nR + nC - min nR nC)⟩ := by
      simp [mkSparseDist, Res.require, h1, h2, k1, k2, bind, Res.bind, pure]
    refine ⟨_, e, ⟨e, ?_⟩, rfl, rfl, rfl, rfl, fun h => by cases h⟩
    rw [show nR + nC - min nR nC = max nR nC by omega]; exact k3
  | Long =>
    obtain ⟨k1, k2, k3, k4⟩ := h3
    have e : mkSparseDist nR nC v .Long = .ok ⟨nR, nC, .Long, max nR nC, nR + nC - max nR nC, v, v * (nR + nC - max nR nC)⟩ := by
      simp [mkSparseDist, Res.require, h1, h2, k1, k2, bind, Res.bind, pure]
    refine ⟨_, e, ⟨e, ?_⟩, rfl, rfl, rfl, rfl, fun _ => k4⟩
    rw [show nR + nC - max nR nC = min nR nC by omega]; exact k3

/-- The operator of a test exists and is made without an error. -/
theorem C137_operator {F : SkgeFixture N K W WS R T} (hF : SkgeOk F) {kind : OpKind} {nR nC : Int} {key : Nat} (h : OpOk F kind nR nC key) :
    M.wp (makeTestOp F kind nR nC key) () (fun S _ => MadeOp F kind nR nC key S) ∧ ∃ Sm, IsTestMat F kind nR nC key Sm := by
  cases kind with
  | dense fill =>
    obtain ⟨h1, h2, h3⟩ := h
    have hL := (len_facts hF.env.gen).1
    have hD := mkDenseDist_eq (fam := .Gaussian) (ax := .Long) h1 h2
    have okD := denseDistOk_of_mk hD h3
    refine ⟨?_, _, _, hD, samples_denseEntry hF.env.gen okD⟩
    obtain ⟨S, hS, -, -⟩ := mkDenseSkOp_exists (T := T) hL okD ⟨0, F.keyOf key⟩
    unfold makeTestOp fixtureOp
    dsimp only
    rw [M.wp_bind, M.wp_bind, M.wp_lift]
    refine ⟨_, hD, ?_⟩
    cases fill with
    | false =>
      rw [if_neg (by simp), M.wp_lift]
      refine ⟨S, hS, ?_⟩
      rw [M.wp_pure]
      exact ⟨_, hD, ⟨S, hS, Or.inl rfl⟩, by rw [(mkDenseSkOp_ok okD hS).2.2.2.1]; rfl⟩
    | true =>
      rw [if_pos rfl]
      unfold filledOp
      rw [M.wp_bind, M.wp_lift]
      refine ⟨S, hS, ?_⟩
      rw [M.wp_bind, M.wp_onLocal]
      obtain ⟨u, S', e, b, rfl, hb⟩ := filled_op hF.env.gen okD hS (sqrt3 := F.E.sqrt3) F.E.env.sched
      refine ⟨u, _, e, ?_⟩
      show M.wp (pure _) _ _
      rw [M.wp_pure, M.wp_pure]
      exact ⟨_, hD, ⟨S, hS, Or.inr ⟨_, e⟩⟩, rfl⟩
  | sparse v axis fill =>
    obtain ⟨D, hD, okD, -⟩ := kind_dist h
    obtain ⟨Sm, hSm, -⟩ := C14_well_defined (sqrt := F.E.sqrt) (seed := (⟨0, F.keyOf key⟩ : RNGState N K)) hF.env.genS hF.env.sqrt okD
    refine ⟨?_, Sm, D, hD, hSm⟩
    unfold makeTestOp
    dsimp only
    rw [M.wp_bind, M.wp_lift]
    refine ⟨D, hD, ?_⟩
    cases fill with
    | false =>
      rw [if_neg (by simp), M.wp_pure]
      exact ⟨D, hD, rfl⟩
    | true =>
      rw [if_pos rfl, M.wp_bind, M.wp_onLocal]
      obtain ⟨L, S', e, -⟩ := fill_run hF.env (mkSparseSkOp_ok (T := T) F.E.GS.len okD (⟨0, F.keyOf key⟩ : RNGState N K))
      refine ⟨(), S', e, ?_⟩
      show M.wp (pure _) _ _
      rw [M.wp_pure]
      exact ⟨D, hD, e⟩

theorem withTestOp_spec {α : Type} {F : SkgeFixture N K W WS R T} (hF : SkgeOk F) {kind : OpKind} {nR nC : Int} {key : Nat} (h : OpOk F kind nR nC key) {test : M (TestOp N K T) α} {Q : α → Prop}
    (ht : ∀ S, MadeOp F kind nR nC key S → M.wp test S (fun r _ => Q r)) : M.wp (withTestOp F kind nR nC key test) () (fun r _ => Q r) := by
  unfold withTestOp
  simp only [M.wp_bind, M.wp_onLocal, M.wp_pure]
  exact M.wp_mono (C137_operator hF h).1 fun S _ hS => ht S hS

section
omit [LinearOrder T]

theorem toMat_ne_zero {L : List (Entry T)} {i j : Int} (h : toMat L i j ≠ 0) : ∃ e ∈ L, e.row = i ∧ e.col = j := by
  by_contra hn
  push Not at hn
  refine h ?_
  unfold toMat
  rw [List.filter_eq_nil_iff.mpr (by intro e he; simpa using hn e he)]
  rfl

theorem window_sees {L : List (Entry T)} {opS : Op} {d m ro co : Int} (h : 2 ≤ m → ∃ i j, InR d m i j ∧ j ≠ 0 ∧ opMat opS (subMat ro co (toMat L)) i j ≠ 0) (hm : 1 ≤ m) (nnz : Int) :
    CooOk nnz m (opEntries opS (window ro co (rowsOf opS d m) (colsOf opS d m) L)) := by
  refine Or.inl ⟨hm, fun h2 _ => ?_⟩
  obtain ⟨i, j, ⟨i0, i1, j0, j1⟩, hj, hne⟩ := h h2
  cases opS with
  | NoTrans =>
    obtain ⟨e, he, e1, e2⟩ := toMat_ne_zero hne
    refine ⟨⟨e.row - ro, e.col - co, e.val⟩, ?_, ?_⟩
    · refine List.mem_map.mpr ⟨e, List.mem_filter.mpr ⟨he, ?_⟩, rfl⟩
      have : ro ≤ e.row ∧ e.row < ro + rowsOf Op.NoTrans d m ∧ co ≤ e.col ∧ e.col < co + colsOf Op.NoTrans d m := by
        simp only [rowsOf, colsOf]; omega
      exact decide_eq_true this
    · show e.col - co ≠ 0
      omega
  | Trans =>
    obtain ⟨e, he, e1, e2⟩ := toMat_ne_zero hne
    refine ⟨⟨e.col - co, e.row - ro, e.val⟩, ?_, ?_⟩
    · refine List.mem_map.mpr ⟨⟨e.row - ro, e.col - co, e.val⟩, List.mem_map.mpr ⟨e, List.mem_filter.mpr ⟨he, ?_⟩, rfl⟩, rfl⟩
      have : ro ≤ e.row ∧ e.row < ro + rowsOf Op.Trans d m ∧ co ≤ e.col ∧ e.col < co + colsOf Op.Trans d m := by
        simp only [rowsOf, colsOf]; omega
      exact decide_eq_true this
    · show e.row - ro ≠ 0
      omega

end

/-- The operator of a test as a matrix, and what the library needs to use it. -/
theorem madeOp_facts [IsStrictOrderedRing R] {F : SkgeFixture N K W WS R T} (hF : SkgeOk F) {kind : OpKind} {nR nC : Int} {key : Nat} (h : OpOk F kind nR nC key) {Sm : Int → Int → T} (hSm : IsTestMat F kind nR nC key Sm)
    {S : TestOp N K T} (hS : MadeOp F kind nR nC key S) : TestOpIs F.E S Sm ∧ S.dims = (nR, nC) ∧
      match S with
      | .dense S => DenseIs F.E S Sm
      | .sparse S => ∃ L, SparseIs F.E S L ∧ InRange S.nRows S.nCols L ∧ toMat L = Sm ∧ (FilledFirst kind → 0 ≤ S.nnz)
      | .mat _ => False := by
  cases kind with
  | dense fill =>
    cases S with
    | dense S =>
      obtain ⟨D, hD, hfrom, -⟩ := hS
      obtain ⟨D', hD', hsm⟩ := hSm
      obtain rfl := Res.ok.inj (hD.symm.trans hD')
      have okD := denseDistOk_of_mk hD h.2.2
      obtain ⟨g1, g2, g3, -⟩ := denseFrom_is hF.env.gen okD hfrom hsm
      have hdims : D.nRows = nR ∧ D.nCols = nC := by
        rw [mkDenseDist_eq h.1 h.2.1] at hD
        obtain rfl := Res.ok.inj hD
        exact ⟨rfl, rfl⟩
      obtain ⟨S0, h0, hh⟩ := hfrom
      obtain ⟨hok, k1, k2, k3, k4⟩ := mkDenseSkOp_ok okD h0
      have hd : S.dist = D ∧ S.seedState = ⟨0, F.keyOf key⟩ := by
        rcases hh with rfl | ⟨sched, hh⟩
        · exact ⟨k1, k2⟩
        · obtain ⟨u, S', e, -, b, e'⟩ := denseIs_filled (E := F.E) (sched := sched) hF.env.gen hok (Or.inl k4) (A := Sm) (by rw [k1, k2]; exact hsm)
          rw [e] at hh
          obtain rfl : S' = S := (Prod.mk.inj hh).2
          rw [e']; exact ⟨k1, k2⟩
      refine ⟨⟨by rw [hd.1]; exact okD, by rw [hd.1]; exact g2, by rw [hd.1]; exact g3, by rw [hd.1, hd.2]; exact hsm⟩, ?_, g1⟩
      show (S.nRows, S.nCols) = _
      rw [g2, g3, hdims.1, hdims.2]
    | sparse S => exact hS.elim
    | mat A => exact hS.elim
  | sparse v axis fill =>
    cases S with
    | dense S => exact hS.elim
    | mat A => exact hS.elim
    | sparse S =>
      obtain ⟨D, hD, hmade⟩ := hS
      obtain ⟨D', hD', okD, d1, d2, d3, d4, hu⟩ := kind_dist h
      obtain rfl := Res.ok.inj (hD.symm.trans hD')
      obtain ⟨D', hD', hsm⟩ := hSm
      obtain rfl := Res.ok.inj (hD.symm.trans hD')
      have hfrom : SparseFrom F.E D ⟨0, F.keyOf key⟩ S := by
        cases fill
        · exact Or.inl (by simpa using hmade)
        · exact Or.inr (by simpa using hmade)
      obtain ⟨r1, r2, -, L0, hrun, his⟩ := sparseFrom_run hF.env okD hfrom
      have hin := sparseRun_inRange okD hrun hu
      have hmat := (C14_well_defined hF.env.genS hF.env.sqrt okD).unique (sparseFrom_samples hF.env okD hfrom his) hsm
      have hnd := sparseRun_nodup okD hrun
      refine ⟨⟨by rw [r1, d1]; exact h.1, by rw [r2, d2]; exact h.2.1, _, his.1, by rw [r1, r2]; exact hin, hnd, hmat, ?_⟩, ?_, _, his, by rw [r1, r2]; exact hin, hmat, ?_⟩
      · obtain ⟨-, his⟩ := his
        by_cases hn : S.nnz < 0
        · rw [if_pos hn] at his
          refine Or.inr ⟨hn, ?_⟩
          rcases hfrom with rfl | hf
          · exact his
          · obtain ⟨L1, S', e, k1, -⟩ := fill_run hF.env (mkSparseSkOp_ok (T := T) F.E.GS.len okD (⟨0, F.keyOf key⟩ : RNGState N K))
            rw [e] at hf
            obtain rfl : S' = S := (Prod.mk.inj hf).2
            have := opHolds_nnz k1; omega
        · rw [if_neg hn] at his
          exact Or.inl his
      · show (S.nRows, S.nCols) = _
        rw [r1, r2, d1, d2]
      · intro hfill
        rw [if_pos (show fill = true from hfill)] at hmade
        obtain ⟨L1, S', e, k1, -⟩ := fill_run hF.env (mkSparseSkOp_ok (T := T) F.E.GS.len okD (⟨0, F.keyOf key⟩ : RNGState N K))
        rw [e] at hmade
        obtain rfl : S' = S := (Prod.mk.inj hmade).2
        exact opHolds_nnz k1

theorem madeOp_left [IsStrictOrderedRing R] {F : SkgeFixture N K W WS R T} (hF : SkgeOk F) {kind : OpKind} {nR nC : Int} {key : Nat} (h : OpOk F kind nR nC key) {Sm : Int → Int → T} (hSm : IsTestMat F kind nR nC key Sm)
    {S : TestOp N K T} (hS : MadeOp F kind nR nC key S) {alpha : T} {layout : Layout} {opS opA : Op} {d m ro co : Int} (hd : 0 < d) (hm : 0 < m) (hw : InOp nR nC (rowsOf opS d m) (colsOf opS d m) ro co)
    (hk : SeesMore kind d m (opMat opS (subMat ro co Sm))) : LeftUsable F.E alpha layout opS opA S Sm d m ro co := by
  obtain ⟨g1, g2, g3⟩ := madeOp_facts hF h hSm hS
  refine ⟨g1, ?_⟩
  cases S with
  | dense S => exact ⟨g3, by rw [show S.nRows = nR from congrArg Prod.fst g2, show S.nCols = nC from congrArg Prod.snd g2]; exact hw, fun _ => fillOk_dims hd hm⟩
  | sparse S =>
    obtain ⟨L, h1, h2, rfl, -⟩ := g3
    refine ⟨L, h1, h2, rfl, by rw [show S.nRows = nR from congrArg Prod.fst g2, show S.nCols = nC from congrArg Prod.snd g2]; exact hw, fun _ => window_sees ?_ hm _⟩
    cases kind with
    | dense _ => exact hS.elim
    | sparse _ _ _ => exact hk
  | mat A => exact g3.elim

/-- From the right a sparse operator has been filled. -/
theorem madeOp_right [IsStrictOrderedRing R] {F : SkgeFixture N K W WS R T} (hF : SkgeOk F) {kind : OpKind} {nR nC : Int} {key : Nat} (h : OpOk F kind nR nC key) {Sm : Int → Int → T} (hSm : IsTestMat F kind nR nC key Sm)
    (hfill : FilledFirst kind)
    {S : TestOp N K T} (hS : MadeOp F kind nR nC key S) {alpha : T} {layout : Layout} {opS opA : Op} {d n ro co : Int} (hd : 0 < d) (hn : 0 < n) (hw : InOp nR nC (rowsOf opS n d) (colsOf opS n d) ro co)
    (hk : SeesMore kind d n (opMat opS.flip (subMat ro co Sm))) : RightUsable F.E alpha layout opA opS S Sm n d ro co := by
  obtain ⟨g1, g2, g3⟩ := madeOp_facts hF h hSm hS
  refine ⟨g1, ?_⟩
  cases S with
  | dense S => exact ⟨g3, by rw [show S.nRows = nR from congrArg Prod.fst g2, show S.nCols = nC from congrArg Prod.snd g2]; exact hw, fun _ => fillOk_dims hn hd⟩
  | sparse S =>
    obtain ⟨L, h1, h2, rfl, h4⟩ := g3
    refine ⟨L, h4 hfill, h1, h2, rfl, by rw [show S.nRows = nR from congrArg Prod.fst g2, show S.nCols = nC from congrArg Prod.snd g2]; exact hw, fun _ => ?_⟩
    have e1 : rowsOf opS n d = rowsOf opS.flip d n := by cases opS <;> rfl
    have e2 : colsOf opS n d = colsOf opS.flip d n := by cases opS <;> rfl
    rw [e1, e2]
    refine window_sees ?_ hn _
    cases kind with
    | dense _ => exact hS.elim
    | sparse _ _ _ => exact hk
  | mat A => exact g3.elim

omit [LinearOrder T] in
theorem leftTestable_usable {E : SkEnv N K W WS R T} {S : TestOp N K T} {alpha : T} {layout : Layout} {Sm : Int → Int → T} (h : LeftUsable E alpha layout .NoTrans .NoTrans S Sm S.dims.1 S.dims.2 0 0) :
    LeftTestable E alpha layout S Sm := by
  obtain ⟨h0, h⟩ := h
  cases S with
  | dense S => exact ⟨h0, h.1⟩
  | sparse S => exact ⟨h0, h⟩
  | mat A => exact leftTestable_of ⟨h0, h⟩

omit [LinearOrder T] in
theorem rightTestable_usable {E : SkEnv N K W WS R T} {S : TestOp N K T} {alpha : T} {layout : Layout} {Sm : Int → Int → T} (h : RightUsable E alpha layout .NoTrans .NoTrans S Sm S.dims.1 S.dims.2 0 0) :
    RightTestable E alpha layout S Sm := by
  obtain ⟨h0, h⟩ := h
  cases S with
  | dense S => exact ⟨h0, h.1⟩
  | sparse S => exact ⟨h0, h⟩
  | mat A => exact rightTestable_of ⟨h0, h⟩

end RB
