import Verif.Lemmas.Sketch

/-!
# Sketching functions (C36-C42, C49)

`Spec.LeftOk` and `Spec.RightOk` (in `Spec/Sketch.lean`) state when the theorems apply; `SkEnvOk` collects the assumptions about the environment.
-/

namespace RB
open Spec
variable {N : Nat} {K W WS R T : Type}

theorem rowsOf_pos {op : Op} {d m : Int} (hd : 0 < d) (hm : 0 < m) : 0 < rowsOf op d m ∧ 0 < colsOf op d m := by
  cases op <;> exact ⟨by assumption, by assumption⟩

theorem rowsOf_nonneg {op : Op} {d m : Int} (hd : 0 ≤ d) (hm : 0 ≤ m) : 0 ≤ rowsOf op d m ∧ 0 ≤ colsOf op d m := by
  cases op <;> exact ⟨by assumption, by assumption⟩

/-- A window that is not empty can be filled. -/
theorem fillOk_dims {len : Int} {D : DenseDist} {op : Op} {d m ro co : Int} (hd : 0 < d) (hm : 0 < m) : FillOk len D (rowsOf op d m) (colsOf op d m) ro co :=
  Or.inl (rowsOf_pos hd hm)

theorem inOp_zero (r c : Int) : InOp r c r c 0 0 := ⟨le_rfl, le_rfl, by omega, by omega⟩

theorem prodEntry_congr [NonUnitalNonAssocSemiring T] {m : Int} {A A' B B' : Int → Int → T} {i j : Int} (hA : ∀ l, 0 ≤ l → l < m → A i l = A' i l)
    (hB : ∀ l, 0 ≤ l → l < m → B l j = B' l j) : prodEntry m A B i j = prodEntry m A' B' i j := by
  unfold prodEntry
  refine Finset.sum_congr rfl fun l hl => ?_
  rw [Finset.mem_range] at hl
  rw [hA l (by omega) (by omega), hB l (by omega) (by omega)]

theorem subMat_zero (A : Int → Int → T) : subMat 0 0 A = A := by funext i j; simp [subMat]

section
variable [CommRing T] [DecidableEq T]

theorem lskge3_spec {E : SkEnv N K W WS R T} (hG : E.G.Ok) {S : DenseSkOp N K T} {Sm : Int → Int → T} (hS : DenseIs E S Sm) {layout : Layout}
    {opS opA : Op} {d n m ro co : Int} {alpha beta : T} {A b : Buf T} {lda ldb : Int} {Am C : Int → Int → T}
    (hw : InOp S.nRows S.nCols (rowsOf opS d m) (colsOf opS d m) ro co) (hne : S.buff = none → FillOk E.G.len S.dist (rowsOf opS d m) (colsOf opS d m) ro co)
    (hd : 0 ≤ d) (hn : 0 ≤ n) (hm : 0 ≤ m) (hlda : LdOk layout lda (rowsOf opA m n) (colsOf opA m n)) (hldb : LdOk layout ldb d n)
    (hA : alpha ≠ 0 → Holds A layout lda (rowsOf opA m n) (colsOf opA m n) Am)
    (hal : Alloc b layout ldb d n) (hC : beta ≠ 0 → Holds b layout ldb d n C) :
    M.wp (lskge3 E layout opS opA d n m alpha S ro co A lda beta ldb) b (fun _ b' =>
      MatSt b (addr layout ldb) d n (fun i j => .val (alpha * prodEntry m (opMat opS (subMat ro co Sm)) (opMat opA Am) i j + beta * C i j)) b') := by
  unfold lskge3
  cases hb : S.buff with
  | some sb =>
    simp only [DenseIs, hb] at hS
    rw [if_neg (by simp)]
    exact lskge3View_spec (S := S.view) hb (fun _ => hS) hw hd hn hm hlda hldb hA hal hC
  | none =>
    simp only [DenseIs, hb] at hS
    obtain ⟨h1, h2, h3, h4⟩ := hS
    obtain ⟨hr, hc⟩ := rowsOf_nonneg (op := opS) hd hm
    rw [if_pos (by simp), M.wp_bind, M.wp_lift, dimsBeforeOp_eq]
    obtain ⟨sb, ld, e, hsb⟩ := submatrixAsBlackbox_spec (sched := E.env.sched) hG h1 h2 h3 h4 hr hc (hne hb) hw
    refine ⟨_, e, ?_⟩
    refine M.wp_mono (lskge3View_spec (S := ⟨S.layout, rowsOf opS d m, colsOf opS d m, some sb, ld⟩) rfl (fun _ => hsb) (inOp_zero _ _)
      hd hn hm hlda hldb hA hal hC) ?_
    intro _ b' hM
    rw [subMat_zero] at hM
    exact hM

theorem rskge3_spec {E : SkEnv N K W WS R T} (hG : E.G.Ok) {S : DenseSkOp N K T} {Sm : Int → Int → T} (hS : DenseIs E S Sm) {layout : Layout}
    {opA opS : Op} {m d n ro co : Int} {alpha beta : T} {A b : Buf T} {lda ldb : Int} {Am C : Int → Int → T}
    (hw : InOp S.nRows S.nCols (rowsOf opS n d) (colsOf opS n d) ro co) (hne : S.buff = none → FillOk E.G.len S.dist (rowsOf opS n d) (colsOf opS n d) ro co)
    (hm : 0 ≤ m) (hd : 0 ≤ d) (hn : 0 ≤ n) (hlda : LdOk layout lda (rowsOf opA m n) (colsOf opA m n)) (hldb : LdOk layout ldb m d)
    (hA : alpha ≠ 0 → Holds A layout lda (rowsOf opA m n) (colsOf opA m n) Am)
    (hal : Alloc b layout ldb m d) (hC : beta ≠ 0 → Holds b layout ldb m d C) :
    M.wp (rskge3 E layout opA opS m d n alpha A lda S ro co beta ldb) b (fun _ b' =>
      MatSt b (addr layout ldb) m d (fun i j => .val (alpha * prodEntry n (opMat opA Am) (opMat opS (subMat ro co Sm)) i j + beta * C i j)) b') := by
  unfold rskge3
  cases hb : S.buff with
  | some sb =>
    simp only [DenseIs, hb] at hS
    rw [if_neg (by simp)]
    exact rskge3View_spec (S := S.view) hb (fun _ => hS) hw hm hd hn hlda hldb hA hal hC
  | none =>
    simp only [DenseIs, hb] at hS
    obtain ⟨h1, h2, h3, h4⟩ := hS
    obtain ⟨hr, hc⟩ := rowsOf_nonneg (op := opS) hn hd
    rw [if_pos (by simp), M.wp_bind, M.wp_lift, dimsBeforeOp_eq]
    obtain ⟨sb, ld, e, hsb⟩ := submatrixAsBlackbox_spec (sched := E.env.sched) hG h1 h2 h3 h4 hr hc (hne hb) hw
    refine ⟨_, e, ?_⟩
    refine M.wp_mono (rskge3View_spec (S := ⟨S.layout, rowsOf opS n d, colsOf opS n d, some sb, ld⟩) rfl (fun _ => hsb) (inOp_zero _ _)
      hm hd hn hlda hldb hA hal hC) ?_
    intro _ b' hM
    rw [subMat_zero] at hM
    exact hM

omit [CommRing T] [DecidableEq T] in
theorem opHolds_nnz {S : SparseSkOp N K T} {L : List (Entry T)} (h : OpHolds S L) : 0 ≤ S.nnz := by
  obtain ⟨v, r, c, -, -, -, -, h⟩ := h; omega

variable [Field R] [LinearOrder R] [FloorRing R]

/-- `sketch_general` from the left, for every operator. -/
theorem sketchGeneralL_spec {E : SkEnv N K W WS R T} (hE : SkEnvOk E) {S : SkOp N K T} {Sm : Int → Int → T} {layout : Layout}
    {opS opA : Op} {d n m ro co : Int} {alpha beta : T} {A b : Buf T} {lda ldb : Int} {Am C : Int → Int → T}
    (h : LeftOk E alpha S Sm opS d m ro co)
    (hd : 0 ≤ d) (hn : 0 ≤ n) (hm : 0 ≤ m) (hlda : LdOk layout lda (rowsOf opA m n) (colsOf opA m n)) (hldb : LdOk layout ldb d n)
    (hA : alpha ≠ 0 → Holds A layout lda (rowsOf opA m n) (colsOf opA m n) Am)
    (hal : Alloc b layout ldb d n) (hC : beta ≠ 0 → Holds b layout ldb d n C) :
    M.wp (sketchGeneralL E layout opS opA d n m alpha ro co A lda beta ldb) (S, b) (fun _ s' =>
      Holds s'.2 layout ldb d n (fun i j => alpha * prodEntry m (opMat opS (subMat ro co Sm)) (opMat opA Am) i j + beta * C i j) ∧
      SameOutside b s'.2 layout ldb d n ∧ SameOperator S s'.1) := by
  unfold sketchGeneralL
  rw [M.wp_bind, M.wp_get]
  cases S with
  | dense S =>
    obtain ⟨h1, h2, h3⟩ := h
    simp only [onC, M.wp_zoom]
    refine M.wp_mono (lskge3_spec hE.gen h1 h2 h3 hd hn hm hlda hldb hA hal hC) ?_
    intro _ b' hM
    exact ⟨hM.holds, hM.sameOutside, rfl⟩
  | sparse S =>
    obtain ⟨L, ⟨h1, h2⟩, h3, h4, ⟨w1, w2, w3, w4⟩, h6⟩ := h
    simp only [onSkSparse, M.wp_zoom, lskges, M.wp_bind, M.wp_get]
    by_cases hnn : S.nnz < 0
    · rw [if_pos hnn] at h2
      obtain ⟨S', e, g1, g2, g3⟩ := h2
      rw [if_pos hnn]
      simp only [filledCopy, M.wp_bind, M.wp_onLocal, M.wp_pure, M.wp_ubIf, M.wp_zoom]
      refine ⟨_, _, e, by have := opHolds_nnz g1; omega, ?_⟩
      have h3' : InRange S'.nRows S'.nCols L := by rw [g2, g3]; exact h3
      refine M.wp_mono (lskgesView_spec hE h1 g1 h3' h6 (by omega) (by omega) hd hn hm hlda hldb hA hal hC) ?_
      rintro _ s' ⟨k1, k2, -⟩
      rw [h4] at k1
      exact ⟨k1, k2, Or.inl rfl⟩
    · rw [if_neg hnn] at h2 ⊢
      refine M.wp_mono (lskgesView_spec hE h1 h2 h3 h6 (by omega) (by omega) hd hn hm hlda hldb hA hal hC) ?_
      rintro _ s' ⟨k1, k2, L', k3, k4, k5⟩
      rw [h4] at k1
      exact ⟨k1, k2, Or.inr ⟨by omega, k5, L, L', h2, k4, k3⟩⟩

/-- `sketch_general` from the right, for every operator. -/
theorem sketchGeneralR_spec {E : SkEnv N K W WS R T} (hE : SkEnvOk E) {S : SkOp N K T} {Sm : Int → Int → T} {layout : Layout}
    {opA opS : Op} {m d n ro co : Int} {alpha beta : T} {A b : Buf T} {lda ldb : Int} {Am C : Int → Int → T}
    (h : RightOk E alpha S Sm opS n d ro co)
    (hm : 0 ≤ m) (hd : 0 ≤ d) (hn : 0 ≤ n) (hlda : LdOk layout lda (rowsOf opA m n) (colsOf opA m n)) (hldb : LdOk layout ldb m d)
    (hA : alpha ≠ 0 → Holds A layout lda (rowsOf opA m n) (colsOf opA m n) Am)
    (hal : Alloc b layout ldb m d) (hC : beta ≠ 0 → Holds b layout ldb m d C) :
    M.wp (sketchGeneralR E layout opA opS m d n alpha A lda ro co beta ldb) (S, b) (fun _ s' =>
      Holds s'.2 layout ldb m d (fun i j => alpha * prodEntry n (opMat opA Am) (opMat opS (subMat ro co Sm)) i j + beta * C i j) ∧
      SameOutside b s'.2 layout ldb m d ∧ SameOperator S s'.1) := by
  unfold sketchGeneralR
  rw [M.wp_bind, M.wp_get]
  cases S with
  | dense S =>
    obtain ⟨h1, h2, h3⟩ := h
    simp only [onC, M.wp_zoom]
    refine M.wp_mono (rskge3_spec hE.gen h1 h2 h3 hm hd hn hlda hldb hA hal hC) ?_
    intro _ b' hM
    exact ⟨hM.holds, hM.sameOutside, rfl⟩
  | sparse S =>
    obtain ⟨L, h0, ⟨h1, h2⟩, h3, h4, ⟨w1, w2, w3, w4⟩, h6⟩ := h
    have hnn : ¬ S.nnz < 0 := by omega
    rw [if_neg hnn] at h2
    simp only [onSkSparse, M.wp_zoom, rskges, M.wp_bind, M.wp_get, M.wp_when]
    refine ⟨fun h => absurd h hnn, fun _ => ?_⟩
    refine M.wp_mono (rskgesView_spec hE h1 h2 h3 h6 (by omega) (by omega) hm hd hn hlda hldb hA hal hC) ?_
    rintro _ s' ⟨k1, k2, L', k3, k4, k5⟩
    rw [h4] at k1
    exact ⟨k1, k2, Or.inr ⟨h0, k5, L, L', h2, k4, k3⟩⟩

end

/-! ## Operators that meet the hypotheses -/

/-- A new dense operator is the matrix its distribution and seed determine. -/
theorem denseIs_new [Mul T] {E : SkEnv N K W WS R T} {D : DenseDist} {seed : RNGState N K} {S : DenseSkOp N K T} {A : Int → Int → T}
    (hD : DenseDistOk D) (h : mkDenseSkOp E.G.len D seed = .ok S) (hA : Samples E.G E.sqrt3 D seed A) : DenseIs E S A := by
  obtain ⟨h1, h2, h3, h4, -⟩ := mkDenseSkOp_ok hD h
  simp only [DenseIs, h4, h2, h3]
  exact ⟨hD, by rw [h1.rows, h2], by rw [h1.cols, h2], hA⟩

/-- It is the same matrix after `fill_dense`. -/
theorem denseIs_filled [Mul T] {E : SkEnv N K W WS R T} (hG : E.G.Ok) {sched : List Nat} {S : DenseSkOp N K T} {A : Int → Int → T} (hS : DenseOpOk E.G.len S)
    (hmem : S.ownMemory = true ∨ S.buff.isSome) (hA : Samples E.G E.sqrt3 S.dist S.seedState A) :
    M.wp (fillDenseOp sched E.G E.sqrt3) S (fun _ S' => DenseIs E S' A ∧ ∃ b', S' = { S with buff := some b' }) := by
  refine M.wp_mono (C47_fill_dense hG hS hmem) ?_
  rintro _ S' ⟨b', rfl, -, h⟩
  refine ⟨?_, b', rfl⟩
  obtain ⟨hD, hr, hc, hl, -, -⟩ := hS
  obtain ⟨hR, hC, hfit, hlay⟩ := denseDist_facts hD
  have hld : tightLd S.layout S.nRows S.nCols = S.dist.dimMajor := by
    rw [hl, hr, hc]; rcases hlay with ⟨a, b, _⟩ | ⟨a, b, _⟩ <;> rw [a, b] <;> rfl
  simp only [DenseIs]
  rw [hld]
  intro i j hij
  rw [h i j hij]
  rw [hr, hc] at hij
  rw [samples_unique hG hD hA hij]

theorem sparseRun_inRange [Field R] [LinearOrder R] [IsStrictOrderedRing R] [FloorRing R] [Ring T] {G : Gen N K WS R} {sqrt : T → T} {D : SparseDist}
    (hD : SparseDistOk D) {seed : RNGState N K} {L : List (Int × Int × T)} (h : SparseRun G sqrt D seed L)
    (hu : D.majorAxis = .Long → ∀ c t, 0 ≤ unif01 G (advance seed c) t ∧ unif01 G (advance seed c) t < 1) :
    InRange D.nRows D.nCols (L.map (mkEntry D)) := by
  obtain ⟨hR, hC, hk, hkd, hfull, hfit, hax'⟩ := sparseDist_facts hD
  apply mkEntry_range
  intro e he
  rcases hax' with ⟨a, hmaj, hmin⟩ | ⟨a, hmaj, hmin⟩
  · rcases h with ⟨-, rfl⟩ | ⟨a', -⟩
    · have := saso_mem hk hkd he
      rw [hmaj, hmin] at this
      exact ⟨this.1, this.2.1, this.2.2.1, this.2.2.2.1⟩
    · rw [a] at a'; cases a'
  · rcases h with ⟨a', -⟩ | ⟨-, hrun⟩
    · rw [a] at a'; cases a'
    · have h1 := hrun.mem_short e he
      have hq : e.1.toNat < D.dimMinor.toNat := by omega
      obtain ⟨out, hm, -, hf⟩ := hrun.filter e.1.toNat hq
      rw [show ((e.1.toNat : Nat) : Int) = e.1 by omega] at hm hf
      have : e ∈ L.filter (fun d => d.1 = e.1) := by simp [he]
      rw [hf] at this
      obtain ⟨d, hd, hde⟩ := List.mem_map.mp this
      obtain ⟨t, -, -, t2, -⟩ := hm.value d hd
      have hlong : e.2.1 = d.1 := by rw [← hde]
      have := (lasoIdx_eq (G := G) (seed := seed) (k := D.vecNnz) (i := e.1) (t := t) (show 0 < D.dimMajor by omega) (hu a _ _).1 (hu a _ _).2).2
      refine ⟨h1.1, by omega, by omega, by omega⟩

/-- The entries of an operator that has not been filled are in range and are its sampled matrix; filling it gives the same entries (up to
order). For long-axis operators the uniform values must be in [0, 1). -/
theorem sparseIs_sampled [Field R] [LinearOrder R] [IsStrictOrderedRing R] [FloorRing R] [Ring T] {E : SkEnv N K W WS R T} (hE : SkEnvOk E)
    {S : SparseSkOp N K T} (hS : SparseOpOk S) (hn : S.nnz < 0) {A : Int → Int → T} (hA : SparseSamples E.GS E.sqrt S.dist S.seedState A)
    (hu : S.dist.majorAxis = .Long → ∀ c t, 0 ≤ unif01 E.GS (advance S.seedState c) t ∧ unif01 E.GS (advance S.seedState c) t < 1) :
    ∃ L, SparseIs E S L ∧ toMat L = A ∧ InRange S.nRows S.nCols L ∧
      M.wp (fillSparse E.GS E.sqrt E.order) S (fun _ S' => ∃ L', SparseIs E S' L' ∧ L'.Perm L ∧ 0 ≤ S'.nnz ∧
        S' = { S with nnz := S'.nnz, vals := S'.vals, rows := S'.rows, cols := S'.cols }) := by
  obtain ⟨L, h1, L0, rfl, h2⟩ := sparseIs_of_dist hE hS.dist hS.nRows hS.nCols hn
  refine ⟨_, h1, ?_, ?_, ?_⟩
  · obtain ⟨L1, g1, g2⟩ := sparseSamples_run hE.genS hE.sqrt hS.dist hA
    funext i j
    rw [← g2 i j]
    exact toMat_perm ((sparseRun_perm h2 g1).map _) i j
  · rw [hS.nRows, hS.nCols]; exact sparseRun_inRange hS.dist h2 hu
  · obtain ⟨L1, S', e, g1, g2, g3, g4⟩ := fill_run hE hS
    refine ⟨_, _, e, _, ⟨g3, ?_⟩, (sparseRun_perm g4 h2).map _, opHolds_nnz g1, g2⟩
    rw [if_neg (by have := opHolds_nnz g1; omega)]
    exact g1

/-- An environment: four words per counter, integers as scalars, four threads. -/
def exSkEnv : SkEnv (2 ^ 128) Nat Int Int ℚ ℤ := ⟨exEnv, exGen, 1, exGenQ, fun x => x, fun _ l => l⟩

theorem exSkEnv_ok : SkEnvOk exSkEnv := ⟨exEnv_ok, Or.inr rfl, Or.inr rfl, rfl, fun _ l => List.Perm.refl l⟩

/-- A new 3 x 7 dense operator. -/
def exDense : DenseSkOp (2 ^ 128) Nat ℤ := ⟨exDist, ⟨5, 3⟩, ⟨11, 3⟩, 3, 7, true, none, .RowMajor⟩

example : mkDenseSkOp 4 exDist ⟨5, 3⟩ = .ok exDense := rfl

/-- The matrix of `exDense`. -/
def exDenseMat : Int → Int → ℤ := denseEntry exGen 1 exDist ⟨5, 3⟩

theorem exDense_is : DenseIs exSkEnv exDense exDenseMat :=
  denseIs_new (E := exSkEnv) (D := exDist) (seed := ⟨5, 3⟩) ⟨by decide, by decide⟩ rfl (samples_denseEntry (Or.inr rfl) ⟨by decide, by decide⟩)

/-! ## C36 -/

section
variable [CommRing T] [DecidableEq T] [Field R] [LinearOrder R] [FloorRing R]

/-- C36 (left). `sketch_general` with a dense operator sets every entry of B to `alpha * (op(submat(S)) * op(A)) + beta * B`, changes nothing
outside B and does not change the operator (one that was not filled is still not filled). A is not read if `alpha = 0`; B need not be
initialised if `beta = 0`.

Missing: for operators that have not been filled, the empty windows excluded by `FillOk`; all of them are undefined (`C36_empty_undefined_left`). -/
theorem C36_left_dense_partial {E : SkEnv N K W WS R T} (hE : SkEnvOk E) {S : DenseSkOp N K T} {Sm : Int → Int → T} (hS : DenseIs E S Sm)
    {layout : Layout} {opS opA : Op} {d n m ro co : Int} {alpha beta : T} {A b : Buf T} {lda ldb : Int} {Am C : Int → Int → T}
    (hw : InOp S.nRows S.nCols (rowsOf opS d m) (colsOf opS d m) ro co) (hne : S.buff = none → FillOk E.G.len S.dist (rowsOf opS d m) (colsOf opS d m) ro co)
    (hd : 0 ≤ d) (hn : 0 ≤ n) (hm : 0 ≤ m) (hlda : LdOk layout lda (rowsOf opA m n) (colsOf opA m n)) (hldb : LdOk layout ldb d n)
    (hA : alpha ≠ 0 → Holds A layout lda (rowsOf opA m n) (colsOf opA m n) Am)
    (hal : Alloc b layout ldb d n) (hC : beta ≠ 0 → Holds b layout ldb d n C) :
    M.wp (sketchGeneralL E layout opS opA d n m alpha ro co A lda beta ldb) (.dense S, b) (fun _ s' =>
      Holds s'.2 layout ldb d n (fun i j => alpha * prodEntry m (opMat opS (subMat ro co Sm)) (opMat opA Am) i j + beta * C i j) ∧
      SameOutside b s'.2 layout ldb d n ∧ s'.1 = .dense S) := by
  refine M.wp_mono (sketchGeneralL_spec hE (S := .dense S) ⟨hS, hw, hne⟩ hd hn hm hlda hldb hA hal hC) ?_
  rintro _ ⟨S', b'⟩ ⟨h1, h2, h3⟩
  refine ⟨h1, h2, ?_⟩
  cases S' with
  | dense S' => rw [show S' = S from h3]
  | sparse S' => exact h3.elim

/-- C36 (right). The same for `alpha * (op(A) * op(submat(S))) + beta * B`. -/
theorem C36_right_dense_partial {E : SkEnv N K W WS R T} (hE : SkEnvOk E) {S : DenseSkOp N K T} {Sm : Int → Int → T} (hS : DenseIs E S Sm)
    {layout : Layout} {opA opS : Op} {m d n ro co : Int} {alpha beta : T} {A b : Buf T} {lda ldb : Int} {Am C : Int → Int → T}
    (hw : InOp S.nRows S.nCols (rowsOf opS n d) (colsOf opS n d) ro co) (hne : S.buff = none → FillOk E.G.len S.dist (rowsOf opS n d) (colsOf opS n d) ro co)
    (hm : 0 ≤ m) (hd : 0 ≤ d) (hn : 0 ≤ n) (hlda : LdOk layout lda (rowsOf opA m n) (colsOf opA m n)) (hldb : LdOk layout ldb m d)
    (hA : alpha ≠ 0 → Holds A layout lda (rowsOf opA m n) (colsOf opA m n) Am)
    (hal : Alloc b layout ldb m d) (hC : beta ≠ 0 → Holds b layout ldb m d C) :
    M.wp (sketchGeneralR E layout opA opS m d n alpha A lda ro co beta ldb) (.dense S, b) (fun _ s' =>
      Holds s'.2 layout ldb m d (fun i j => alpha * prodEntry n (opMat opA Am) (opMat opS (subMat ro co Sm)) i j + beta * C i j) ∧
      SameOutside b s'.2 layout ldb m d ∧ s'.1 = .dense S) := by
  refine M.wp_mono (sketchGeneralR_spec hE (S := .dense S) ⟨hS, hw, hne⟩ hm hd hn hlda hldb hA hal hC) ?_
  rintro _ ⟨S', b'⟩ ⟨h1, h2, h3⟩
  refine ⟨h1, h2, ?_⟩
  cases S' with
  | dense S' => rw [show S' = S from h3]
  | sparse S' => exact h3.elim

/-- The overload for the whole operator (left): for every operator whose dimensions are those of `op(S)`. -/
theorem C36_left_full_partial {E : SkEnv N K W WS R T} (hE : SkEnvOk E) {S : SkOp N K T} {Sm : Int → Int → T} {layout : Layout}
    {opS opA : Op} {d n m : Int} {alpha beta : T} {A b : Buf T} {lda ldb : Int} {Am C : Int → Int → T}
    (h : LeftOk E alpha S Sm opS d m 0 0) (h1 : S.nRows = rowsOf opS d m) (h2 : S.nCols = colsOf opS d m)
    (hd : 0 ≤ d) (hn : 0 ≤ n) (hm : 0 ≤ m) (hlda : LdOk layout lda (rowsOf opA m n) (colsOf opA m n)) (hldb : LdOk layout ldb d n)
    (hA : alpha ≠ 0 → Holds A layout lda (rowsOf opA m n) (colsOf opA m n) Am)
    (hal : Alloc b layout ldb d n) (hC : beta ≠ 0 → Holds b layout ldb d n C) :
    M.wp (sketchGeneralLFull E layout opS opA d n m alpha A lda beta ldb) (S, b) (fun _ s' =>
      Holds s'.2 layout ldb d n (fun i j => alpha * prodEntry m (opMat opS Sm) (opMat opA Am) i j + beta * C i j) ∧
      SameOutside b s'.2 layout ldb d n ∧ SameOperator S s'.1) := by
  unfold sketchGeneralLFull
  simp only [M.wp_bind, M.wp_get, M.wp_require]
  refine ⟨by rw [h1]; cases opS <;> simp [rowsOf], by rw [h2]; cases opS <;> simp [colsOf], ?_⟩
  refine M.wp_mono (sketchGeneralL_spec hE h hd hn hm hlda hldb hA hal hC) ?_
  rw [subMat_zero]
  exact fun _ _ h => h

/-- The overload for the whole operator (right). -/
theorem C36_right_full_partial {E : SkEnv N K W WS R T} (hE : SkEnvOk E) {S : SkOp N K T} {Sm : Int → Int → T} {layout : Layout}
    {opA opS : Op} {m d n : Int} {alpha beta : T} {A b : Buf T} {lda ldb : Int} {Am C : Int → Int → T}
    (h : RightOk E alpha S Sm opS n d 0 0) (h1 : S.nRows = rowsOf opS n d) (h2 : S.nCols = colsOf opS n d)
    (hm : 0 ≤ m) (hd : 0 ≤ d) (hn : 0 ≤ n) (hlda : LdOk layout lda (rowsOf opA m n) (colsOf opA m n)) (hldb : LdOk layout ldb m d)
    (hA : alpha ≠ 0 → Holds A layout lda (rowsOf opA m n) (colsOf opA m n) Am)
    (hal : Alloc b layout ldb m d) (hC : beta ≠ 0 → Holds b layout ldb m d C) :
    M.wp (sketchGeneralRFull E layout opA opS m d n alpha A lda beta ldb) (S, b) (fun _ s' =>
      Holds s'.2 layout ldb m d (fun i j => alpha * prodEntry n (opMat opA Am) (opMat opS Sm) i j + beta * C i j) ∧
      SameOutside b s'.2 layout ldb m d ∧ SameOperator S s'.1) := by
  unfold sketchGeneralRFull
  simp only [M.wp_bind, M.wp_get, M.wp_require]
  refine ⟨by rw [h1]; cases opS <;> simp [rowsOf], by rw [h2]; cases opS <;> simp [colsOf], ?_⟩
  refine M.wp_mono (sketchGeneralR_spec hE h hm hd hn hlda hldb hA hal hC) ?_
  rw [subMat_zero]
  exact fun _ _ h => h

end

/-- The hypotheses of C36 are met by the new operator `exDense`: its 2 x 3 window at (1, 2) applied to the transpose of a 2 x 3 matrix stored
with leading dimension 4, C uninitialised. -/
example : SkEnvOk exSkEnv ∧ DenseIs exSkEnv exDense exDenseMat ∧ InOp exDense.nRows exDense.nCols (rowsOf .NoTrans 2 3) (colsOf .NoTrans 2 3) 1 2 ∧
    LdOk .RowMajor 4 (rowsOf .Trans 3 2) (colsOf .Trans 3 2) ∧ LdOk .RowMajor 2 2 2 ∧
    Holds (Buf.ofList ([1, 2, 3, 0, 4, 5, 6] : List ℤ)) .RowMajor 4 2 3 (fun i j => 1 + 3 * i + j) := by
  refine ⟨exSkEnv_ok, exDense_is, by unfold InOp exDense; decide, by simp [LdOk, colsOf], by simp [LdOk], ?_⟩
  intro i j hij
  obtain ⟨h1, h2, h3, h4⟩ := hij
  obtain rfl | rfl : i = 0 ∨ i = 1 := by omega
  all_goals obtain rfl | rfl | rfl : j = 0 ∨ j = 1 ∨ j = 2 := by omega
  all_goals rfl

/-- The 1 x 0 window at column 4 of a 2 x 8 operator is inside the operator. The product with a 0 x 1 matrix should be `beta * B`, but if the
operator has not been filled, the code writes outside its temporary array. -/
theorem C36_empty_window_counterexample : ∃ S : DenseSkOp (2 ^ 128) Nat ℤ,
    mkDenseSkOp 4 ⟨2, 8, .Long, 8, 2, .Uniform, .RowMajor⟩ ⟨0, 0⟩ = .ok S ∧ InOp S.nRows S.nCols 1 0 0 4 ∧
    (sketchGeneralL exSkEnv .RowMajor .NoTrans .NoTrans 1 1 0 1 0 4 (Buf.ofList []) 1 0 1 (.dense S, Buf.ofList [5])).1 = .ub := by
  refine ⟨_, rfl, by unfold InOp; decide, rfl⟩

/-! ## C37 -/

section
variable [CommRing T] [DecidableEq T] [Field R] [LinearOrder R] [FloorRing R]

/-- C37 (left). `sketch_general` with a sparse operator, filled or not, sets every entry of B to `alpha * (op(submat(S)) * op(A)) + beta * B`,
where `S` is the matrix of the entries `L`, and changes nothing outside B. An operator that was not filled is unchanged; the arrays of a filled
one list the same entries, possibly in another order.

Missing: windows with the nonzeros of `op(submat(S))` all in its first column, and `m = 0`, as far as `CooOk` excludes them. For these the
code is undefined (`C37_left_sparse_undefined` in SpmmExact.lean; `C37_first_column_counterexample`). -/
theorem C37_left_sparse_partial {E : SkEnv N K W WS R T} (hE : SkEnvOk E) {S : SparseSkOp N K T} {L : List (Entry T)} (hS : SparseIs E S L)
    (hr : InRange S.nRows S.nCols L) {layout : Layout} {opS opA : Op} {d n m ro co : Int} {alpha beta : T} {A b : Buf T} {lda ldb : Int}
    {Am C : Int → Int → T} (hw : InOp S.nRows S.nCols (rowsOf opS d m) (colsOf opS d m) ro co)
    (hK : alpha ≠ 0 → CooOk L.length m (opEntries opS (window ro co (rowsOf opS d m) (colsOf opS d m) L)))
    (hd : 0 ≤ d) (hn : 0 ≤ n) (hm : 0 ≤ m) (hlda : LdOk layout lda (rowsOf opA m n) (colsOf opA m n)) (hldb : LdOk layout ldb d n)
    (hA : alpha ≠ 0 → Holds A layout lda (rowsOf opA m n) (colsOf opA m n) Am)
    (hal : Alloc b layout ldb d n) (hC : beta ≠ 0 → Holds b layout ldb d n C) :
    M.wp (sketchGeneralL E layout opS opA d n m alpha ro co A lda beta ldb) (.sparse S, b) (fun _ s' =>
      Holds s'.2 layout ldb d n (fun i j => alpha * prodEntry m (opMat opS (subMat ro co (toMat L))) (opMat opA Am) i j + beta * C i j) ∧
      SameOutside b s'.2 layout ldb d n ∧ SameOperator (.sparse S) s'.1) :=
  sketchGeneralL_spec hE (S := .sparse S) ⟨L, hS, hr, rfl, hw, hK⟩ hd hn hm hlda hldb hA hal hC

/-- C37 (right, filled operators). The same for `alpha * (op(A) * op(submat(S))) + beta * B`, if the operator has been filled.

Missing: operators that have not been filled (see `C37_right_unfilled` and `C37_right_unfilled_counterexample`), and the same windows as for
left sketches. -/
theorem C37_right_sparse_partial {E : SkEnv N K W WS R T} (hE : SkEnvOk E) {S : SparseSkOp N K T} {L : List (Entry T)} (hf : 0 ≤ S.nnz)
    (hS : SparseIs E S L) (hr : InRange S.nRows S.nCols L) {layout : Layout} {opA opS : Op} {m d n ro co : Int} {alpha beta : T} {A b : Buf T}
    {lda ldb : Int} {Am C : Int → Int → T} (hw : InOp S.nRows S.nCols (rowsOf opS n d) (colsOf opS n d) ro co)
    (hK : alpha ≠ 0 → CooOk L.length n (opEntries opS.flip (window ro co (rowsOf opS n d) (colsOf opS n d) L)))
    (hm : 0 ≤ m) (hd : 0 ≤ d) (hn : 0 ≤ n) (hlda : LdOk layout lda (rowsOf opA m n) (colsOf opA m n)) (hldb : LdOk layout ldb m d)
    (hA : alpha ≠ 0 → Holds A layout lda (rowsOf opA m n) (colsOf opA m n) Am)
    (hal : Alloc b layout ldb m d) (hC : beta ≠ 0 → Holds b layout ldb m d C) :
    M.wp (sketchGeneralR E layout opA opS m d n alpha A lda ro co beta ldb) (.sparse S, b) (fun _ s' =>
      Holds s'.2 layout ldb m d (fun i j => alpha * prodEntry n (opMat opA Am) (opMat opS (subMat ro co (toMat L))) i j + beta * C i j) ∧
      SameOutside b s'.2 layout ldb m d ∧ SameOperator (.sparse S) s'.1) :=
  sketchGeneralR_spec hE (S := .sparse S) ⟨L, hf, hS, hr, rfl, hw, hK⟩ hm hd hn hlda hldb hA hal hC

/-- C37 (right, operators that have not been filled). The product is applied twice: with P = `op(A) * op(submat(S))`, B becomes
`alpha * P + beta * (alpha * P + beta * B)`, and the operator has been filled. With `beta = 0` this is the documented result. -/
theorem C37_right_unfilled {E : SkEnv N K W WS R T} (hE : SkEnvOk E) {S : SparseSkOp N K T} {L : List (Entry T)} (hf : S.nnz < 0)
    (hok : SparseOpOk S) (hS : SparseIs E S L) (hr : InRange S.nRows S.nCols L) {layout : Layout} {opA opS : Op} {m d n ro co : Int}
    {alpha beta : T} {A b : Buf T} {lda ldb : Int} {Am C : Int → Int → T} (hw : InOp S.nRows S.nCols (rowsOf opS n d) (colsOf opS n d) ro co)
    (hK : alpha ≠ 0 → CooOk L.length n (opEntries opS.flip (window ro co (rowsOf opS n d) (colsOf opS n d) L)))
    (hm : 0 ≤ m) (hd : 0 ≤ d) (hn : 0 ≤ n) (hlda : LdOk layout lda (rowsOf opA m n) (colsOf opA m n)) (hldb : LdOk layout ldb m d)
    (hA : alpha ≠ 0 → Holds A layout lda (rowsOf opA m n) (colsOf opA m n) Am)
    (hal : Alloc b layout ldb m d) (hC : beta ≠ 0 → Holds b layout ldb m d C) :
    M.wp (sketchGeneralR E layout opA opS m d n alpha A lda ro co beta ldb) (.sparse S, b) (fun _ s' => ∃ P : Int → Int → T,
      P = prodEntry n (opMat opA Am) (opMat opS (subMat ro co (toMat L))) ∧
      Holds s'.2 layout ldb m d (fun i j => alpha * P i j + beta * (alpha * P i j + beta * C i j)) ∧ SameOutside b s'.2 layout ldb m d ∧
      ∃ S' L', s'.1 = .sparse S' ∧ OpHolds S' L' ∧ L'.Perm L ∧
        S' = { S with nnz := S'.nnz, vals := S'.vals, rows := S'.rows, cols := S'.cols }) := by
  obtain ⟨w1, w2, w3, w4⟩ := hw
  obtain ⟨h1, h2⟩ := hS
  rw [if_pos hf] at h2
  obtain ⟨S1, e1, g1, g2, g3⟩ := h2
  obtain ⟨L0, S2, e2, k1, k2, k3, k4⟩ := fill_run hE hok
  have hp : (L0.map (mkEntry S.dist)).Perm L := by
    obtain ⟨L1, S1', e1', k1', -, -, k4'⟩ := fill_run hE (mkSparseSkOp_ok E.GS.len hok.dist S.seedState :
      SparseOpOk (mkSparseSkOp E.GS.len S.dist S.seedState : SparseSkOp N K T))
    rw [e1'] at e1
    have hSS : S1' = S1 := (Prod.mk.inj e1).2
    subst hSS
    obtain ⟨v, r, c, a1, a2, a3, a4, a5⟩ := g1
    obtain ⟨v', r', c', b1, b2, b3, b4, b5⟩ := k1'
    rw [a1] at b1; rw [a2] at b2; rw [a3] at b3
    cases b1; cases b2; cases b3
    have := cooHolds_unique a4 b4 (by omega)
    rw [this]
    exact (sparseRun_perm k4 k4').map _
  unfold sketchGeneralR
  rw [M.wp_bind, M.wp_get]
  simp only [onSkSparse, M.wp_zoom, rskges, M.wp_bind, M.wp_get, M.wp_when]
  refine ⟨fun _ => ?_, fun h => absurd hf h⟩
  simp only [filledCopy, M.wp_bind, M.wp_onLocal, M.wp_pure, M.wp_ubIf]
  refine ⟨_, _, e1, by have := opHolds_nnz g1; omega, ?_⟩
  have h3' : InRange S1.nRows S1.nCols L := by rw [g2, g3]; exact hr
  refine M.wp_mono (rskgesView_spec hE h1 g1 h3' hK (by omega) (by omega) hm hd hn hlda hldb hA hal hC) ?_
  rintro _ ⟨S1', b1⟩ ⟨q1, q2, -⟩
  dsimp only at q1 q2
  -- the second product, with the operator itself
  have hview : M.wp (rskgesView E layout opA opS m d n alpha A lda ro co beta ldb) (S2, b1) (fun _ s' =>
      Holds s'.2 layout ldb m d (fun i j => alpha * prodEntry n (opMat opA Am) (opMat opS (subMat ro co (toMat (L0.map (mkEntry S.dist))))) i j +
        beta * (alpha * prodEntry n (opMat opA Am) (opMat opS (subMat ro co (toMat L))) i j + beta * C i j)) ∧
      SameOutside b1 s'.2 layout ldb m d ∧ ∃ L', L'.Perm (L0.map (mkEntry S.dist)) ∧ OpHolds s'.1 L' ∧
        s'.1 = { S2 with vals := s'.1.vals, rows := s'.1.rows, cols := s'.1.cols }) := by
    have hr2 : S2.nRows = S.nRows ∧ S2.nCols = S.nCols := by rw [k2]; exact ⟨rfl, rfl⟩
    refine rskgesView_spec hE k3 k1 (by rw [hr2.1, hr2.2]; exact fun e he => hr e (hp.subset he)) (fun ha => ?_) (by omega) (by omega) hm hd hn hlda hldb hA
      (fun i j hij => by rw [q1 i j hij]; simp) (fun _ => q1)
    refine CooOk.perm_of (hK ha) hp ?_
    have := window_perm (ro := ro) (co := co) (d := rowsOf opS n d) (m := colsOf opS n d) hp.symm
    cases opS
    · exact this.map _
    · exact this
  -- the view of the unfilled operator fills it
  have hfill : rskgesView E layout opA opS m d n alpha A lda ro co beta ldb (S, b1) =
      rskgesView E layout opA opS m d n alpha A lda ro co beta ldb (S2, b1) := by
    have hc : cooViewOfSkop E.GS E.sqrt E.order S = cooViewOfSkop E.GS E.sqrt E.order S2 := by
      have hn2 : ¬ S2.nnz ≤ 0 := by
        obtain ⟨v, r, c, -, -, -, -, h⟩ := k1
        have := List.length_pos_iff.mpr k3
        omega
      unfold cooViewOfSkop
      rw [M.bind_ok (show (M.get : M (SparseSkOp N K T) _) S = (.ok S, S) from rfl),
        M.bind_ok (show (M.get : M (SparseSkOp N K T) _) S2 = (.ok S2, S2) from rfl),
        M.bind_ok (show M.when (S.nnz ≤ 0) _ S = (.ok (), S2) by unfold M.when; rw [if_pos (by omega)]; exact e2),
        M.bind_ok (show M.when (S2.nnz ≤ 0) _ S2 = (.ok (), S2) by unfold M.when; rw [if_neg hn2]; rfl)]
    have hz : (onSp (cooViewOfSkop E.GS E.sqrt E.order) : M (SparseSkOp N K T × Buf T) (CooMat T)) (S, b1) =
        (onSp (cooViewOfSkop E.GS E.sqrt E.order) : M (SparseSkOp N K T × Buf T) (CooMat T)) (S2, b1) := by
      simp only [onSp, M.zoom, hc]
    unfold rskgesView
    obtain ⟨s, e, -⟩ := cooViewOfSkop_run (G := E.GS) (sqrt := E.sqrt) (order := E.order) k3 k1
    have hok2 : (onSp (cooViewOfSkop E.GS E.sqrt E.order) : M (SparseSkOp N K T × Buf T) (CooMat T)) (S2, b1) =
        (.ok ⟨S2.nRows, S2.nCols, false, S2.nnz, .Zero, S2.vals, S2.rows, S2.cols, s⟩, (S2, b1)) := by
      simp only [onSp, M.zoom, e]
    rw [M.bind_ok (hz.trans hok2), M.bind_ok hok2]
  obtain ⟨u, s', e', z1, z2, L', z3, z4, z5⟩ := hview
  refine ⟨u, s', by rw [hfill]; exact e', _, rfl, ?_, ?_, s'.1, L', rfl, z4, z3.trans hp, ?_⟩
  · intro i j hij
    rw [z1 i j hij]
    have : toMat (L0.map (mkEntry S.dist)) = toMat L := by funext i j; exact toMat_perm hp i j
    rw [this]
  · intro p hp
    rw [z2 p hp]; exact q2 p hp
  · rw [z5, k2]

end

/-- Every index along the longer dimension of a short-axis operator occurs. -/
theorem sparseRun_long_mem [Field R] [LinearOrder R] [FloorRing R] [Ring T] {G : Gen N K WS R} {sqrt : T → T} {D : SparseDist}
    (hD : SparseDistOk D) (hax : D.majorAxis = .Short) {seed : RNGState N K} {L : List (Int × Int × T)} (h : SparseRun G sqrt D seed L) {q : Int}
    (h0 : 0 ≤ q) (h1 : q < max D.nRows D.nCols) : ∃ e ∈ L, e.2.1 = q := by
  obtain ⟨hR, hC, hk, hkd, hfull, hfit, hax'⟩ := sparseDist_facts hD
  rcases hax' with ⟨-, hmaj, hmin⟩ | ⟨a, -, -⟩
  swap
  · rw [a] at hax; cases hax
  rcases h with ⟨-, rfl⟩ | ⟨a, -⟩
  swap
  · rw [a] at hax; cases hax
  have := saso_count (T := T) (G := G) (seed := seed) hk hkd D.dimMinor.toNat q h0 (by omega)
  rw [show ((D.dimMinor.toNat : Nat) : Int) = D.dimMinor by omega] at this
  have hne : 0 < ((sasoTriples (T := T) G seed D.vecNnz D.dimMajor D.dimMinor).filter fun e => e.2.1 = q).length := by omega
  obtain ⟨e, he⟩ := List.exists_mem_of_length_pos hne
  simp only [List.mem_filter, decide_eq_true_eq] at he
  exact ⟨e, he.1, he.2⟩

/-- The column condition holds for all windows of a short-axis operator that contain whole short-axis vectors. -/
theorem regularOk_saso [Field R] [LinearOrder R] [IsStrictOrderedRing R] [FloorRing R] [Ring T] {G : Gen N K WS R} {sqrt : T → T} {D : SparseDist}
    (hD : SparseDistOk D) (hax : D.majorAxis = .Short) {seed : RNGState N K} {L : List (Int × Int × T)} (h : SparseRun G sqrt D seed L)
    {m ro co : Int} (hm : 1 ≤ m) :
    (D.nRows ≤ D.nCols → 0 ≤ co → m + co ≤ D.nCols → RegularOk m (window 0 co D.nRows m (L.map (mkEntry D)))) ∧
    (D.nCols < D.nRows → 0 ≤ ro → m + ro ≤ D.nRows → RegularOk m ((window ro 0 m D.nCols (L.map (mkEntry D))).map Entry.swap)) := by
  have hin := sparseRun_inRange hD h (by rw [hax]; intro h; cases h)
  refine ⟨fun hw c0 c1 => ⟨hm, fun h2 _ => ?_⟩, fun hw c0 c1 => ⟨hm, fun h2 _ => ?_⟩⟩
  · obtain ⟨e, he, hq⟩ := sparseRun_long_mem hD hax h (q := co + 1) (by omega) (by omega)
    have hr := hin _ (List.mem_map_of_mem (f := mkEntry D) he)
    have hc : (mkEntry D e).col = co + 1 := by unfold mkEntry; rw [if_pos hw]; exact hq
    refine ⟨_, List.mem_map_of_mem (f := fun e : Entry T => { e with row := e.row - 0, col := e.col - co })
      (List.mem_filter.mpr ⟨List.mem_map_of_mem (f := mkEntry D) he, ?_⟩), ?_⟩
    · simp only [decide_eq_true_eq]; omega
    · simp only; omega
  · obtain ⟨e, he, hq⟩ := sparseRun_long_mem hD hax h (q := ro + 1) (by omega) (by omega)
    have hr := hin _ (List.mem_map_of_mem (f := mkEntry D) he)
    have hc : (mkEntry D e).row = ro + 1 := by unfold mkEntry; rw [if_neg (by omega)]; exact hq
    refine ⟨_, List.mem_map_of_mem (f := Entry.swap) (List.mem_map_of_mem (f := fun e : Entry T => { e with row := e.row - ro, col := e.col - 0 })
      (List.mem_filter.mpr ⟨List.mem_map_of_mem (f := mkEntry D) he, ?_⟩)), ?_⟩
    · simp only [decide_eq_true_eq]; omega
    · simp only [Entry.swap]; omega

section
variable [CommRing T] [DecidableEq T] [Field R] [LinearOrder R] [IsStrictOrderedRing R] [FloorRing R]

/-- C37 (left, short-axis operators). For a short-axis operator as its constructor leaves it, and for the same operator after `fill_sparse`,
left sketches with windows that contain whole short-axis vectors are correct without further conditions: B becomes
`alpha * (op(submat(S)) * op(A)) + beta * B`, where `S` is the matrix that the distribution and the seed determine. This covers `d x m`
operators with `d <= m` as they are, and the transposes of tall ones. -/
theorem C37_left_short_axis {E : SkEnv N K W WS R T} (hE : SkEnvOk E) {S0 : SparseSkOp N K T} (hok : SparseOpOk S0) (hn0 : S0.nnz < 0)
    (hax : S0.dist.majorAxis = .Short) {Sm : Int → Int → T} (hSm : SparseSamples E.GS E.sqrt S0.dist S0.seedState Sm)
    {S : SparseSkOp N K T} (hS : S = S0 ∨ fillSparse E.GS E.sqrt E.order S0 = (.ok (), S))
    {layout : Layout} {opS opA : Op} {d n m ro co : Int} {alpha beta : T} {A b : Buf T} {lda ldb : Int} {Am C : Int → Int → T}
    (hw : opS = .NoTrans ∧ S0.nRows ≤ S0.nCols ∧ d = S0.nRows ∧ ro = 0 ∧ 0 ≤ co ∧ m + co ≤ S0.nCols ∨
      opS = .Trans ∧ S0.nCols < S0.nRows ∧ d = S0.nCols ∧ co = 0 ∧ 0 ≤ ro ∧ m + ro ≤ S0.nRows)
    (hm : 1 ≤ m) (hn : 0 ≤ n) (hlda : LdOk layout lda (rowsOf opA m n) (colsOf opA m n)) (hldb : LdOk layout ldb d n)
    (hA : alpha ≠ 0 → Holds A layout lda (rowsOf opA m n) (colsOf opA m n) Am)
    (hal : Alloc b layout ldb d n) (hC : beta ≠ 0 → Holds b layout ldb d n C) :
    M.wp (sketchGeneralL E layout opS opA d n m alpha ro co A lda beta ldb) (.sparse S, b) (fun _ s' =>
      Holds s'.2 layout ldb d n (fun i j => alpha * prodEntry m (opMat opS (subMat ro co Sm)) (opMat opA Am) i j + beta * C i j) ∧
      SameOutside b s'.2 layout ldb d n ∧ SameOperator (.sparse S) s'.1) := by
  obtain ⟨hR, hC', -⟩ := sparseDist_facts hok.dist
  have hr := hok.nRows; have hc := hok.nCols
  obtain ⟨L1, g1, g2⟩ := sparseSamples_run hE.genS hE.sqrt hok.dist hSm
  have hmat : toMat (L1.map (mkEntry S0.dist)) = Sm := by funext i j; exact g2 i j
  -- the entries of `S`
  obtain ⟨L0, hrun, hSL, hdim⟩ : ∃ L0, SparseRun E.GS E.sqrt S0.dist S0.seedState L0 ∧ SparseIs E S (L0.map (mkEntry S0.dist)) ∧
      S.nRows = S0.nRows ∧ S.nCols = S0.nCols := by
    rcases hS with rfl | hS
    · obtain ⟨L, h1, L0, rfl, h2⟩ := sparseIs_of_dist hE hok.dist hok.nRows hok.nCols hn0
      exact ⟨L0, h2, h1, rfl, rfl⟩
    · obtain ⟨L0, S', e, k1, k2, k3, k4⟩ := fill_run hE hok
      rw [e] at hS
      have hSS : S' = S := (Prod.mk.inj hS).2
      subst hSS
      refine ⟨L0, k4, ⟨k3, ?_⟩, by rw [k2], by rw [k2]⟩
      rw [if_neg (by have := opHolds_nnz k1; omega)]
      exact k1
  rw [← hmat, show toMat (L1.map (mkEntry S0.dist)) = toMat (L0.map (mkEntry S0.dist)) from
    funext fun i => funext fun j => toMat_perm ((sparseRun_perm g1 hrun).map _) i j]
  have hin := sparseRun_inRange hok.dist hrun (by rw [hax]; intro h; cases h)
  have hreg := regularOk_saso hok.dist hax hrun (ro := ro) (co := co) hm
  refine C37_left_sparse_partial hE hSL (by rw [hdim.1, hdim.2, hr, hc]; exact hin) ?_ (fun _ => ?_) ?_ hn (by omega) hlda hldb hA hal hC
  · rw [hdim.1, hdim.2]
    rcases hw with ⟨rfl, a, rfl, rfl, b, c⟩ | ⟨rfl, a, rfl, rfl, b, c⟩
    · exact ⟨le_rfl, b, by simp [rowsOf], by simpa [colsOf] using c⟩
    · exact ⟨b, le_rfl, by simpa [rowsOf] using c, by simp [colsOf]⟩
  · rcases hw with ⟨rfl, a, rfl, rfl, b, c⟩ | ⟨rfl, a, rfl, rfl, b, c⟩
    · simp only [opEntries, rowsOf, colsOf]; rw [hr]
      exact Or.inl (hreg.1 (by omega) b (by omega))
    · simp only [opEntries, rowsOf, colsOf]; rw [hc]
      exact Or.inl (hreg.2 (by omega) b (by omega))
  · rcases hw with ⟨-, -, rfl, -⟩ | ⟨-, -, rfl, -⟩ <;> omega

/-- C37 (right, short-axis operators). For a filled short-axis operator, right sketches with windows that contain whole short-axis vectors are
correct without further conditions: `n x d` operators with `n > d` as they are, and the transposes of wide ones. -/
theorem C37_right_short_axis_partial {E : SkEnv N K W WS R T} (hE : SkEnvOk E) {S0 : SparseSkOp N K T} (hok : SparseOpOk S0)
    (hax : S0.dist.majorAxis = .Short) {Sm : Int → Int → T} (hSm : SparseSamples E.GS E.sqrt S0.dist S0.seedState Sm)
    {S : SparseSkOp N K T} (hS : fillSparse E.GS E.sqrt E.order S0 = (.ok (), S))
    {layout : Layout} {opA opS : Op} {m d n ro co : Int} {alpha beta : T} {A b : Buf T} {lda ldb : Int} {Am C : Int → Int → T}
    (hw : opS = .Trans ∧ S0.nRows ≤ S0.nCols ∧ d = S0.nRows ∧ ro = 0 ∧ 0 ≤ co ∧ n + co ≤ S0.nCols ∨
      opS = .NoTrans ∧ S0.nCols < S0.nRows ∧ d = S0.nCols ∧ co = 0 ∧ 0 ≤ ro ∧ n + ro ≤ S0.nRows)
    (hm : 0 ≤ m) (hn : 1 ≤ n) (hlda : LdOk layout lda (rowsOf opA m n) (colsOf opA m n)) (hldb : LdOk layout ldb m d)
    (hA : alpha ≠ 0 → Holds A layout lda (rowsOf opA m n) (colsOf opA m n) Am)
    (hal : Alloc b layout ldb m d) (hC : beta ≠ 0 → Holds b layout ldb m d C) :
    M.wp (sketchGeneralR E layout opA opS m d n alpha A lda ro co beta ldb) (.sparse S, b) (fun _ s' =>
      Holds s'.2 layout ldb m d (fun i j => alpha * prodEntry n (opMat opA Am) (opMat opS (subMat ro co Sm)) i j + beta * C i j) ∧
      SameOutside b s'.2 layout ldb m d ∧ SameOperator (.sparse S) s'.1) := by
  obtain ⟨hR, hC', -⟩ := sparseDist_facts hok.dist
  have hr := hok.nRows; have hc := hok.nCols
  obtain ⟨L1, g1, g2⟩ := sparseSamples_run hE.genS hE.sqrt hok.dist hSm
  have hmat : toMat (L1.map (mkEntry S0.dist)) = Sm := by funext i j; exact g2 i j
  obtain ⟨L0, S', e, k1, k2, k3, hrun⟩ := fill_run hE hok
  rw [e] at hS
  have hSS : S' = S := (Prod.mk.inj hS).2
  subst hSS
  have hnn := opHolds_nnz k1
  have hdim : S'.nRows = S0.nRows ∧ S'.nCols = S0.nCols := by rw [k2]; exact ⟨rfl, rfl⟩
  rw [← hmat, show toMat (L1.map (mkEntry S0.dist)) = toMat (L0.map (mkEntry S0.dist)) from
    funext fun i => funext fun j => toMat_perm ((sparseRun_perm g1 hrun).map _) i j]
  have hin := sparseRun_inRange hok.dist hrun (by rw [hax]; intro h; cases h)
  have hreg := regularOk_saso hok.dist hax hrun (ro := ro) (co := co) hn
  refine C37_right_sparse_partial hE hnn ⟨k3, by rw [if_neg (by omega)]; exact k1⟩ (by rw [hdim.1, hdim.2, hr, hc]; exact hin) ?_ (fun _ => ?_) hm ?_
    (by omega) hlda hldb hA hal hC
  · rw [hdim.1, hdim.2]
    rcases hw with ⟨rfl, a, rfl, rfl, b, c⟩ | ⟨rfl, a, rfl, rfl, b, c⟩
    · exact ⟨le_rfl, b, by simp [rowsOf], by simpa [colsOf] using c⟩
    · exact ⟨b, le_rfl, by simpa [rowsOf] using c, by simp [colsOf]⟩
  · rcases hw with ⟨rfl, a, rfl, rfl, b, c⟩ | ⟨rfl, a, rfl, rfl, b, c⟩
    · simp only [opEntries, rowsOf, colsOf, Op.flip]; rw [hr]
      exact Or.inl (hreg.1 (by omega) b (by omega))
    · simp only [opEntries, rowsOf, colsOf, Op.flip]; rw [hc]
      exact Or.inl (hreg.2 (by omega) b (by omega))
  · rcases hw with ⟨-, -, rfl, -⟩ | ⟨-, -, rfl, -⟩ <;> omega

end

/-- The hypotheses of `C37_left_short_axis` are met by the new 3 x 8 operator with 2 nonzeros per column, its columns 2 .. 6 and a 5 x 2 matrix. -/
example : SkEnvOk exSkEnv ∧ SparseOpOk (mkSparseSkOp 4 exSaso ⟨0, 7⟩ : SparseSkOp (2 ^ 128) Nat ℤ) ∧ exSaso.majorAxis = .Short ∧
    (mkSparseSkOp 4 exSaso ⟨0, 7⟩ : SparseSkOp (2 ^ 128) Nat ℤ).nnz < 0 ∧ (∃ Sm, SparseSamples exGenQ (fun x : ℤ => x) exSaso ⟨0, 7⟩ Sm) ∧
    (3 : Int) ≤ 8 ∧ (5 : Int) + 2 ≤ 8 ∧ LdOk .ColMajor 5 (rowsOf .NoTrans 5 2) (colsOf .NoTrans 5 2) ∧ Alloc (Buf.alloc ℤ 6) .ColMajor 3 3 2 := by
  refine ⟨exSkEnv_ok, mkSparseSkOp_ok 4 exSaso_ok _, rfl, by simp [mkSparseSkOp], (C14_well_defined (Or.inr rfl) rfl exSaso_ok).exists, by decide, by decide,
    by simp [LdOk, rowsOf], ?_⟩
  intro i j hij
  simp only [InR] at hij
  have : 0 ≤ addr .ColMajor 3 i j ∧ addr .ColMajor 3 i j < 6 := by simp only [addr]; omega
  simp only [Buf.alloc]
  rw [if_pos this]; simp

/-- An operator with user-provided arrays: 1 x 2, with the single entry 5 in its first column. -/
def exFirstCol : SparseSkOp (2 ^ 128) Nat ℤ :=
  ⟨⟨1, 2, .Long, 2, 1, 1, 1⟩, ⟨0, 7⟩, ⟨1, 7⟩, 1, 2, false, 1, some (Buf.ofList [5]), some (Buf.ofList [0]), some (Buf.ofList [0])⟩

/-- C37 is false if all nonzeros of `op(submat(S))` are in its first column: memory is accessed out of bounds. -/
theorem C37_first_column_counterexample : OpHolds exFirstCol [⟨0, 0, 5⟩] ∧
    (sketchGeneralL exSkEnv .ColMajor .NoTrans .NoTrans 1 1 2 1 0 0 (Buf.ofList [1, 1]) 2 0 1 (.sparse exFirstCol, Buf.ofList [0])).1 = .ub := by
  refine ⟨⟨_, _, _, rfl, rfl, rfl, ?_, rfl⟩, rfl⟩
  intro i h
  have : i = 0 := by simpa using h
  subst this
  exact ⟨rfl, rfl, rfl⟩

/-- A new 1 x 1 sparse operator; its single entry is 1 or -1. -/
def exTinyOp : SparseSkOp (2 ^ 128) Nat ℤ := mkSparseSkOp 4 ⟨1, 1, .Short, 1, 1, 1, 1⟩ ⟨0, 7⟩

/-- C37 is false for right sketches with an operator that has not been filled: with A = [1], B = [0], `alpha = beta = 1` the result is twice
the entry `x` of the operator, and the operator has been changed. -/
theorem C37_right_unfilled_counterexample : ∃ x : ℤ, x ≠ 0 ∧ SparseIs exSkEnv exTinyOp [⟨0, 0, x⟩] ∧
    M.wp (sketchGeneralR exSkEnv .ColMajor .NoTrans .NoTrans 1 1 1 1 (Buf.ofList [1]) 1 0 0 1 1) (.sparse exTinyOp, Buf.ofList [0])
      (fun _ s' => s'.2 0 = .val (2 * x) ∧ s'.1 ≠ .sparse exTinyOp) := by
  have hok : SparseOpOk exTinyOp := mkSparseSkOp_ok 4 ⟨by decide, by decide⟩ _
  obtain ⟨L, h1, L0, rfl, h2⟩ := sparseIs_of_dist exSkEnv_ok hok.dist hok.nRows hok.nCols (S := exTinyOp) (by simp [exTinyOp, mkSparseSkOp])
  have hin := sparseRun_inRange hok.dist h2 (by intro h; cases h)
  rcases h2 with ⟨-, rfl⟩ | ⟨h, -⟩
  swap
  · cases h
  obtain ⟨e, he⟩ : ∃ e : Int × Int × ℤ, sasoTriples (T := ℤ) exSkEnv.GS exTinyOp.seedState 1 1 1 = [e] := ⟨_, rfl⟩
  have hval : e.2.2 = 1 ∨ e.2.2 = -1 :=
    (saso_mem (T := ℤ) (G := exSkEnv.GS) (seed := exTinyOp.seedState) (k := 1) (n := 1) (r := 1) (e := e) (by decide) (by decide) (by rw [he]; simp)).2.2.2.2
  have hL : (sasoTriples (T := ℤ) exSkEnv.GS exTinyOp.seedState exTinyOp.dist.vecNnz exTinyOp.dist.dimMajor exTinyOp.dist.dimMinor).map
      (mkEntry exTinyOp.dist) = [⟨0, 0, e.2.2⟩] := by
    have h3 : (sasoTriples (T := ℤ) exSkEnv.GS exTinyOp.seedState exTinyOp.dist.vecNnz exTinyOp.dist.dimMajor exTinyOp.dist.dimMinor) = [e] := he
    rw [h3] at hin ⊢
    have := hin (mkEntry exTinyOp.dist e) (by simp)
    have hR : exTinyOp.dist.nRows = 1 := rfl
    have hC : exTinyOp.dist.nCols = 1 := rfl
    rw [hR, hC] at this
    have h4 : mkEntry exTinyOp.dist e = ⟨e.1, e.2.1, e.2.2⟩ := rfl
    rw [h4] at this
    simp only at this
    rw [List.map_singleton, h4, show e.1 = 0 by omega, show e.2.1 = 0 by omega]
  rw [hL] at h1 hin
  refine ⟨e.2.2, by rcases hval with h | h <;> rw [h] <;> decide, h1, ?_⟩
  refine M.wp_mono (C37_right_unfilled exSkEnv_ok (by simp [exTinyOp, mkSparseSkOp]) hok h1 hin (Am := fun _ _ => 1) (C := fun _ _ => 0)
    (inOp_zero _ _) (fun _ => Or.inl ⟨le_rfl, by omega⟩) (by decide) (by decide) (by decide) (by simp [LdOk, rowsOf]) (by simp [LdOk]) (fun _ => ?_) ?_ (fun _ => ?_)) ?_
  · intro i j hij
    simp only [InR, rowsOf, colsOf] at hij
    obtain rfl : i = 0 := by omega
    obtain rfl : j = 0 := by omega
    rfl
  · intro i j hij
    simp only [InR] at hij
    obtain rfl : i = 0 := by omega
    obtain rfl : j = 0 := by omega
    intro h; cases h
  · intro i j hij
    simp only [InR] at hij
    obtain rfl : i = 0 := by omega
    obtain rfl : j = 0 := by omega
    rfl
  · rintro _ s' ⟨P, rfl, k1, -, S', L', k2, k3, -⟩
    refine ⟨?_, ?_⟩
    · have := k1 0 0 (by simp [InR])
      rw [show addr .ColMajor 1 0 0 = 0 from rfl] at this
      rw [this]
      simp [prodEntry, opMat, subMat, toMat]
      ring
    · rw [k2]
      intro h
      have hnn := opHolds_nnz k3
      rw [SkOp.sparse.inj h] at hnn
      simp [exTinyOp, mkSparseSkOp] at hnn

end RB
