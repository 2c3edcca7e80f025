import Verif.Model.TestSketchSparse
import Verif.Props.TestLibraryMore
import Verif.Props.TestSketch

/-!
# C134: the tests of `sketch_sparse` accept the library and find every difference
-/

namespace RB
open Spec
variable {N : Nat} {K W WS R T : Type}

/-! ## Specification -/

/-- The COO matrix is the identity of order m: it stores (0, 0, 1), (1, 1, 1), ..., each once, with indices from zero. -/
def Spec.SparseEye [One T] (m : Int) (A : CooMat T) : Prop :=
  A.nRows = m ∧ A.nCols = m ∧ A.indexBase = .Zero ∧ SpHolds (.coo A) ((List.range m.toNat).map fun l : Nat => ⟨(l : Int), (l : Int), 1⟩)

/-! ## The sparse identity -/

section
variable [Field T]

theorem eyeEntries_eq (k : Nat) : diagEntries (fun _ => (1 : T)) 0 k = (List.range k).map fun l : Nat => ⟨(l : Int), (l : Int), 1⟩ := by
  unfold diagEntries
  simp

theorem eyeLoop_spec {k : Nat} {b : CooBufs T} (hal : b.Alloc k) :
    M.wp (forI 0 (k : Int) fun i => do
      onCRows (M.wr i i)
      onCCols (M.wr i i)
      onCVals (M.wr i 1)) b (fun _ b' => b' = b.overE (diagEntries (fun _ => (1 : T)) 0 k)) := by
  refine M.wp_forI (fun l b' => b' = b.overE (diagEntries (fun _ => (1 : T)) 0 l.toNat)) (by omega) (by simp [diagEntries, CooBufs.overE_nil]) ?_
    (fun b' h => by rw [h, Int.toNat_natCast])
  rintro l b' l0 l1 rfl
  obtain ⟨q, rfl⟩ : ∃ q : Nat, l = q := ⟨l.toNat, by omega⟩
  obtain ⟨h1, h2, h3⟩ := hal q (by omega) (by omega)
  rw [show ((q : Int) + 1).toNat = q + 1 by omega, diagEntries_succ, Int.toNat_natCast]
  have hlen := diagEntries_length (fun _ => (1 : T)) 0 q
  generalize diagEntries (fun _ => (1 : T)) 0 q = E at hlen
  simp only [M.wp_bind, onCVals, onCRows, onCCols, M.wp_zoom, M.wp_wr]
  refine ⟨Buf.overL_ne_none h2, Buf.overL_ne_none h3, Buf.overL_ne_none h1, ?_⟩
  have key : ∀ e : Entry T, b.overE (E ++ [e]) = ⟨(b.overE E).vals.set q e.val, (b.overE E).rows.set q e.row, (b.overE E).cols.set q e.col⟩ := by
    intro e
    subst hlen
    simp only [CooBufs.overE, List.map_append, List.map_cons, List.map_nil]
    congr 1
    · rw [← Buf.overL_push]; simp
    · rw [← Buf.overL_push]; simp
    · rw [← Buf.overL_push]; simp
  rw [key]
  simp

theorem cooEye_wp {m : Int} (hm : 0 ≤ m) {Q : Unit → CooMat T → Prop} (h : ∀ A, SparseEye m A → M.wp (if intMax 32 < m then M.lift .ub else pure ()) A Q) : M.wp (cooEye m) (mkCoo m m : CooMat T) Q := by
  obtain ⟨k, rfl⟩ := Int.eq_ofNat_of_zero_le hm
  unfold cooEye
  obtain ⟨A1, e1, e2⟩ := overE_after_reserve (mkCoo_empty (T := T) (m := k) (n := k)) (diagEntries (fun _ => (1 : T)) 0 k) _ (fun A => SparseEye (k : Int) A)
    (fun b hal => eyeLoop_spec (by rwa [diagEntries_length] at hal))
    (fun A' q1 q2 q3 q4 _ q6 => ⟨q2, q3, q4, by
      rw [Int.toNat_natCast, ← eyeEntries_eq]
      exact ⟨q1, by rw [q6]; trivial⟩⟩)
  rw [diagEntries_length] at e1
  rw [M.wp_bind]
  refine M.wp_mono (show M.wp (reserveCoo (k : Int)) (mkCoo k k) (fun _ s => s = A1) from ⟨_, _, e1, rfl⟩) ?_
  rintro - _ rfl
  rw [M.wp_bind]
  exact M.wp_mono e2 fun _ A hA => h A hA

/-- C134 (the data). `eye` is the identity, for every order that an `int` can hold. -/
theorem C134_eye {m : Int} (hm : 0 ≤ m) (h32 : m ≤ intMax 32) : M.wp (cooEye m) (mkCoo m m : CooMat T) (fun _ A => SparseEye m A) := by
  refine cooEye_wp hm fun A hA => ?_
  rw [if_neg (not_lt.mpr h32), M.wp_pure]
  exact hA

theorem sparseEye_facts {m : Int} {A : CooMat T} (h : SparseEye m A) :
    ∃ L, SpHolds (.coo A) L ∧ spBase (.coo A) = .Zero ∧ InRange (spRows (.coo A)) (spCols (.coo A)) L ∧ (∀ i j, InR m m i j → toMat L i j = if i = j then 1 else 0) ∧
      (∀ l, 0 ≤ l → l < m → (⟨l, l, 1⟩ : Entry T) ∈ L) := by
  obtain ⟨h1, h2, h3, h4⟩ := h
  refine ⟨_, h4, h3, ?_, ?_, ?_⟩
  · intro e he
    obtain ⟨l, hl, rfl⟩ := List.mem_map.mp he
    have := List.mem_range.mp hl
    simp only [spRows, spCols, h1, h2]
    omega
  · intro i j hij
    obtain ⟨i0, i1, j0, j1⟩ := hij
    rw [← eyeEntries_eq, diagEntries_toMat _ _ _ i0 j0]
    unfold diagMat
    exact if_congr (by omega) rfl rfl
  · intro l l0 l1
    exact List.mem_map.mpr ⟨l.toNat, List.mem_range.mpr (by omega), by simp [l0]⟩

theorem eye_supported {m k : Int} {A : CooMat T} {L : List (Entry T)} {op opB : Op} {layout : Layout} (hm : 0 < m) (hL : ∀ l, 0 ≤ l → l < m → (⟨l, l, 1⟩ : Entry T) ∈ L) :
    Supported (.coo A) op layout opB k m (opEntries op (window 0 0 m m L)) := by
  refine Or.inl ⟨by omega, fun h2 _ => ⟨⟨1, 1, 1⟩, ?_, one_ne_zero⟩⟩
  have : (⟨1, 1, 1⟩ : Entry T) ∈ window 0 0 m m L :=
    List.mem_map.mpr ⟨⟨1, 1, 1⟩, List.mem_filter.mpr ⟨hL 1 (by omega) (by omega), by simp; omega⟩, by simp⟩
  cases op with
  | NoTrans => exact this
  | Trans => exact List.mem_map.mpr ⟨_, this, rfl⟩

theorem prodEntry_eyeR {m : Int} {F I : Int → Int → T} (hI : ∀ i j, InR m m i j → I i j = if i = j then 1 else 0) {i j : Int} (hj : 0 ≤ j ∧ j < m) : prodEntry m F I i j = F i j := by
  rw [← prodEntry_eye_right (F := F) (i := i) hj]
  unfold prodEntry
  refine Finset.sum_congr rfl fun k hk => ?_
  have := Finset.mem_range.mp hk
  rw [hI _ _ ⟨by omega, by omega, hj.1, hj.2⟩]

theorem prodEntry_eyeL {m : Int} {F I : Int → Int → T} (hI : ∀ i j, InR m m i j → I i j = if i = j then 1 else 0) {i j : Int} (hi : 0 ≤ i ∧ i < m) : prodEntry m I F i j = F i j := by
  rw [← prodEntry_eye_left (F := F) (j := j) hi]
  unfold prodEntry
  refine Finset.sum_congr rfl fun k hk => ?_
  have := Finset.mem_range.mp hk
  rw [hI _ _ ⟨hi.1, hi.2, by omega, by omega⟩]

end

/-- C134 (the data, too large). If the order exceeds the largest `int`, the loop counter of `eye` overflows: the behaviour is undefined. -/
theorem C134_eye_overflow [Field T] {m : Int} (h32 : intMax 32 < m) : (cooEye m (mkCoo m m : CooMat T)).1 = .ub := by
  have hm : 0 ≤ m := le_trans (by norm_num [intMax]) h32.le
  obtain ⟨k, rfl⟩ := Int.eq_ofNat_of_zero_le hm
  obtain ⟨A1, e1, r, A2, e2, -⟩ := overE_after_reserve (mkCoo_empty (T := T) (m := k) (n := k)) (diagEntries (fun _ => (1 : T)) 0 k) _ (fun _ => True)
    (fun b hal => eyeLoop_spec (by rwa [diagEntries_length] at hal)) (fun _ _ _ _ _ _ _ => trivial)
  rw [diagEntries_length] at e1
  show (M.bind (reserveCoo (k : Int)) _ _).1 = _
  unfold M.bind
  rw [e1]
  show (M.bind (M.zoom CooMat.bufs CooMat.withBufs _) _ _).1 = _
  unfold M.bind
  rw [e2]
  dsimp only
  rw [if_pos h32]
  rfl

/-! ## What the tests check -/

section
variable [Field R] [LinearOrder R] [FloorRing R] [Field T] [LinearOrder T] {E : SkEnv N K W WS R T}

omit [LinearOrder T] in
theorem sketchOfEye_spec {sk : DenseSkOp N K T → Int → M (SpMat T × Buf T) Unit} {k ldb : Int} (hk : 0 ≤ k) (h32 : k ≤ intMax 32) {S : DenseSkOp N K T} {b : Buf T} {P : Buf T → Prop}
    (hsk : ∀ A, SparseEye k A → M.wp (sk S ldb) (.coo A, b) (fun _ s => P s.2)) :
    M.wp (sketchOfEye sk k ldb) (.dense S, b) (fun _ s => s.1 = .dense S ∧ P s.2) := by
  unfold sketchOfEye
  rw [M.wp_bind, M.wp_get]
  dsimp only
  rw [M.wp_bind, M.wp_onLocal]
  refine M.wp_mono (C134_eye hk h32) ?_
  rintro _ A hA
  rw [M.wp_bind, M.wp_onLocal]
  refine M.wp_mono (hsk A hA) ?_
  rintro _ s hs
  rw [M.wp_modify]
  exact ⟨rfl, hs⟩

/-- C134 (what the left test checks). Whatever call `sk` is tested: if, given the sparse identity, it turns B into X, then `test_left_submat_sketch_of_eye` has defined behaviour, leaves the operator
as it is and accepts exactly if every entry of X is close to `alpha * submat(S) + beta * B`. -/
theorem C134_left_submatrix_compares (hE : SkEnvOk E) {atol rtol : T} {seedB : RNGState N K} {S : DenseSkOp N K T} {Sm : Int → Int → T} (hS : TestOpIs E (.dense S) Sm) {layout : Layout}
    {d m ro co : Int} {alpha beta : T} (hd : 0 < d) (hm : 0 < m) (h32 : m ≤ intMax 32) (hfB : d * m ≤ intMax 64) (hw : InOp S.nRows S.nCols d m ro co) {C : Int → Int → T}
    (hC : C = fun i j => testData E.G seedB d m (addr layout (tightLd layout d m) i j)) {sk : DenseSkOp N K T → Int → M (SpMat T × Buf T) Unit} {X : Int → Int → T}
    (hsk : ∀ A, SparseEye m A → M.wp (sk S (tightLd layout d m)) (.coo A, Buf.ofFn (d * m) (testData E.G seedB d m)) (fun _ s => Holds s.2 layout (tightLd layout d m) d m X)) :
    M.wp (testLeftSubmatSketch E atol rtol seedB sk alpha d m ro co layout beta) (.dense S)
      (fun r _ => r = none ↔ ∀ i j, InR d m i j → Close atol rtol (X i j) (alpha * Sm (ro + i) (co + j) + beta * C i j)) := by
  unfold testLeftSubmatSketch
  refine M.wp_mono (C124_left_eye hE hS hd hm hfB hw hC (X' := X) fun A _ => M.wp_mono (sketchOfEye_spec (P := fun b => Holds b layout (tightLd layout d m) d m X) hm.le h32 hsk) ?_) ?_
  · rintro _ ⟨s1, s2⟩ ⟨rfl, h⟩
    exact ⟨hS, rfl, h⟩
  · rintro r S' ⟨-, -, h⟩
    exact h

/-- C134 (what the transposed left test checks). The same for `test_left_transposed_sketch_of_eye`: it accepts exactly if every entry of X, computed from the sparse identity and zeros, is close to that of the
transpose of S. -/
theorem C134_left_transposed_compares (hE : SkEnvOk E) {atol rtol : T} {S : DenseSkOp N K T} {Sm : Int → Int → T} (hS : TestOpIs E (.dense S) Sm) {layout : Layout} (h32 : S.nRows ≤ intMax 32)
    {sk : DenseSkOp N K T → Int → M (SpMat T × Buf T) Unit} {X : Int → Int → T}
    (hsk : ∀ A, SparseEye S.nRows A → M.wp (sk S (tightLd layout S.nCols S.nRows)) (.coo A, Buf.ofFn (S.nCols * S.nRows) fun _ => 0)
      (fun _ s => Holds s.2 layout (tightLd layout S.nCols S.nRows) S.nCols S.nRows X)) :
    M.wp (testLeftTransposedSketch E atol rtol sk layout) (.dense S) (fun r _ => r = none ↔ ∀ i j, InR S.nCols S.nRows i j → Close atol rtol (X i j) (Sm j i)) := by
  unfold testLeftTransposedSketch
  rw [M.wp_bind, M.wp_get]
  refine M.wp_mono (C124_left_transpose_eye hE hS (X' := X) fun A _ => M.wp_mono (sketchOfEye_spec (P := fun b => Holds b layout (tightLd layout S.nCols S.nRows) S.nCols S.nRows X) (testOp_pos hS).1.le h32 hsk) ?_) ?_
  · rintro _ ⟨s1, s2⟩ ⟨rfl, h⟩
    exact ⟨hS, rfl, h⟩
  · rintro r S' ⟨-, -, h⟩
    exact h

/-- C134 (what the right test checks). The same for `test_right_submat_sketch_of_eye`. -/
theorem C134_right_submatrix_compares (hE : SkEnvOk E) {atol rtol : T} {seedB : RNGState N K} {S : DenseSkOp N K T} {Sm : Int → Int → T} (hS : TestOpIs E (.dense S) Sm) {layout : Layout}
    {n d ro co : Int} {alpha beta : T} (hn : 0 < n) (hd : 0 < d) (h32 : n ≤ intMax 32) (hfB : n * d ≤ intMax 64) (hw : InOp S.nRows S.nCols n d ro co) {C : Int → Int → T}
    (hC : C = fun i j => testData E.G seedB n d (addr layout (tightLd layout n d) i j)) {sk : DenseSkOp N K T → Int → M (SpMat T × Buf T) Unit} {X : Int → Int → T}
    (hsk : ∀ A, SparseEye n A → M.wp (sk S (tightLd layout n d)) (.coo A, Buf.ofFn (n * d) (testData E.G seedB n d)) (fun _ s => Holds s.2 layout (tightLd layout n d) n d X)) :
    M.wp (testRightSubmatSketch E atol rtol seedB sk alpha n d ro co layout beta) (.dense S)
      (fun r _ => r = none ↔ ∀ i j, InR n d i j → Close atol rtol (X i j) (alpha * Sm (ro + i) (co + j) + beta * C i j)) := by
  unfold testRightSubmatSketch
  refine M.wp_mono (C124_right_eye hE hS hn hd hfB hw hC (X' := X) fun A _ => M.wp_mono (sketchOfEye_spec (P := fun b => Holds b layout (tightLd layout n d) n d X) hn.le h32 hsk) ?_) ?_
  · rintro _ ⟨s1, s2⟩ ⟨rfl, h⟩
    exact ⟨hS, rfl, h⟩
  · rintro r S' ⟨-, -, h⟩
    exact h

/-- C134 (what the transposed right test checks). The same for `test_right_transposed_sketch_of_eye`. -/
theorem C134_right_transposed_compares (hE : SkEnvOk E) {atol rtol : T} {S : DenseSkOp N K T} {Sm : Int → Int → T} (hS : TestOpIs E (.dense S) Sm) {layout : Layout} (h32 : S.nCols ≤ intMax 32)
    {sk : DenseSkOp N K T → Int → M (SpMat T × Buf T) Unit} {X : Int → Int → T}
    (hsk : ∀ A, SparseEye S.nCols A → M.wp (sk S (tightLd layout S.nCols S.nRows)) (.coo A, Buf.ofFn (S.nCols * S.nRows) fun _ => 0)
      (fun _ s => Holds s.2 layout (tightLd layout S.nCols S.nRows) S.nCols S.nRows X)) :
    M.wp (testRightTransposedSketch E atol rtol sk layout) (.dense S) (fun r _ => r = none ↔ ∀ i j, InR S.nCols S.nRows i j → Close atol rtol (X i j) (Sm j i)) := by
  unfold testRightTransposedSketch
  rw [M.wp_bind, M.wp_get]
  refine M.wp_mono (C124_right_transpose_eye hE hS (X' := X) fun A _ => M.wp_mono (sketchOfEye_spec (P := fun b => Holds b layout (tightLd layout S.nCols S.nRows) S.nCols S.nRows X) (testOp_pos hS).2.le h32 hsk) ?_) ?_
  · rintro _ ⟨s1, s2⟩ ⟨rfl, h⟩
    exact ⟨hS, rfl, h⟩
  · rintro r S' ⟨-, -, h⟩
    exact h

/-! ## The library -/

omit [Field R] [LinearOrder R] [FloorRing R] in
/-- The sketch of the sparse identity from the left. -/
theorem lsksp3_eye (hE : SkEnvOk E) {S : DenseSkOp N K T} {Sm : Int → Int → T} (hD : DenseIs E S Sm) {layout : Layout} {op : Op} {d m ro co : Int} {alpha beta : T} {A : CooMat T} {b : Buf T}
    {C : Int → Int → T} (hA : SparseEye m A) (hd : 0 < d) (hm : 0 < m) (hw : InOp S.nRows S.nCols (rowsOf op d m) (colsOf op d m) ro co) (hb : Holds b layout (tightLd layout d m) d m C) :
    M.wp (lsksp3 E layout op .NoTrans d m m alpha S ro co 0 0 beta (tightLd layout d m)) (.coo A, b) (fun _ s =>
      Holds s.2 layout (tightLd layout d m) d m fun i j => alpha * opMat op (subMat ro co Sm) i j + beta * C i j) := by
  obtain ⟨L, h1, h2, h3, h4, h5⟩ := sparseEye_facts hA
  refine M.wp_mono (C41_left_partial hE.env hE.gen hD h1 h2 h3 (layout := layout) (opS := op) (opA := .NoTrans) (n := m) (alpha := alpha) (beta := beta) hw
    (fun _ => Or.inl (by cases op <;> exact ⟨by assumption, by assumption⟩)) ⟨by rw [hA.1]; exact le_rfl, by rw [hA.2.1]; exact le_rfl⟩ (fun _ => eye_supported hm h5) hd.le hm.le hm.le (ldOk_tight _ _ _)
    (fun i j hij h => by cases (hb i j hij).symm.trans h) (fun _ => hb)) ?_
  rintro _ s ⟨k1, -⟩ i j hij
  rw [k1 i j hij, show opMat .NoTrans (toMat L) = toMat L from rfl]
  beta_reduce
  rw [prodEntry_eyeR h4 ⟨hij.2.2.1, hij.2.2.2⟩]

omit [Field R] [LinearOrder R] [FloorRing R] in
/-- The sketch of the sparse identity from the right. -/
theorem rsksp3_eye (hE : SkEnvOk E) {S : DenseSkOp N K T} {Sm : Int → Int → T} (hD : DenseIs E S Sm) {layout : Layout} {op : Op} {n d ro co : Int} {alpha beta : T} {A : CooMat T} {b : Buf T}
    {C : Int → Int → T} (hA : SparseEye n A) (hn : 0 < n) (hd : 0 < d) (hw : InOp S.nRows S.nCols (rowsOf op n d) (colsOf op n d) ro co) (hb : Holds b layout (tightLd layout n d) n d C) :
    M.wp (rsksp3 E layout .NoTrans op n d n alpha 0 0 S ro co beta (tightLd layout n d)) (.coo A, b) (fun _ s =>
      Holds s.2 layout (tightLd layout n d) n d fun i j => alpha * opMat op (subMat ro co Sm) i j + beta * C i j) := by
  obtain ⟨L, h1, h2, h3, h4, h5⟩ := sparseEye_facts hA
  refine M.wp_mono (C41_right_partial hE.env hE.gen hD h1 h2 h3 (layout := layout) (opA := .NoTrans) (opS := op) (alpha := alpha) (beta := beta) hw
    (fun _ => Or.inl (by cases op <;> exact ⟨by assumption, by assumption⟩)) ⟨by rw [hA.1]; exact le_rfl, by rw [hA.2.1]; exact le_rfl⟩ (fun _ => eye_supported hn h5) hn.le hd.le hn.le (ldOk_tight _ _ _)
    (fun i j hij h => by cases (hb i j hij).symm.trans h) (fun _ => hb)) ?_
  rintro _ s ⟨k1, -⟩ i j hij
  rw [k1 i j hij, show opMat .NoTrans (toMat L) = toMat L from rfl]
  beta_reduce
  rw [prodEntry_eyeL h4 ⟨hij.1, hij.2.1⟩]

/-- C134 (left). In exact arithmetic the library passes `test_left_submat_sketch_of_eye` with any window of an operator that has been filled or not, any `alpha` and `beta`. -/
theorem C134_left_submatrix (hE : SkEnvOk E) {atol rtol : T} (ha : 0 ≤ atol) {seedB : RNGState N K} {S : DenseSkOp N K T} {Sm : Int → Int → T} (hS : TestOpIs E (.dense S) Sm) (hD : DenseIs E S Sm)
    {layout : Layout} {d m ro co : Int} {alpha beta : T} (hd : 0 < d) (hm : 0 < m) (h32 : m ≤ intMax 32) (hfB : d * m ≤ intMax 64) (hw : InOp S.nRows S.nCols d m ro co) :
    M.wp (testLeftSubmatSketch E atol rtol seedB (fun S ldb => lsksp3 E layout .NoTrans .NoTrans d m m alpha S ro co 0 0 beta ldb) alpha d m ro co layout beta) (.dense S) (fun r _ => r = none) := by
  refine M.wp_mono (C134_left_submatrix_compares hE hS hd hm h32 hfB hw rfl fun A hA => lsksp3_eye hE hD hA hd hm hw (ofFn_holds layout _)) ?_
  exact fun r _ h => h.mpr fun i j _ => close_self ha _ _

/-- C134 (left, transposed). In exact arithmetic the library passes `test_left_transposed_sketch_of_eye`. -/
theorem C134_left_transposed (hE : SkEnvOk E) {atol rtol : T} (ha : 0 ≤ atol) {S : DenseSkOp N K T} {Sm : Int → Int → T} (hS : TestOpIs E (.dense S) Sm) (hD : DenseIs E S Sm) {layout : Layout}
    (h32 : S.nRows ≤ intMax 32) :
    M.wp (testLeftTransposedSketch E atol rtol (fun S' ldb => lsksp3 E layout .Trans .NoTrans S.nCols S.nRows S.nRows 1 S' 0 0 0 0 0 ldb) layout) (.dense S) (fun r _ => r = none) := by
  obtain ⟨q1, q2⟩ := testOp_pos hS
  refine M.wp_mono (C134_left_transposed_compares hE hS h32 fun A hA => lsksp3_eye hE hD hA q2 q1 ⟨le_rfl, le_rfl, by simp [rowsOf], by simp [colsOf]⟩ (ofFn_holds layout _)) ?_
  refine fun r _ h => h.mpr fun i j _ => ?_
  simp only [opMat, subMat, one_mul, zero_mul, add_zero, zero_add]
  exact close_self ha _ _

/-- C134 (right). In exact arithmetic the library passes `test_right_submat_sketch_of_eye`. -/
theorem C134_right_submatrix (hE : SkEnvOk E) {atol rtol : T} (ha : 0 ≤ atol) {seedB : RNGState N K} {S : DenseSkOp N K T} {Sm : Int → Int → T} (hS : TestOpIs E (.dense S) Sm) (hD : DenseIs E S Sm)
    {layout : Layout} {n d ro co : Int} {alpha beta : T} (hn : 0 < n) (hd : 0 < d) (h32 : n ≤ intMax 32) (hfB : n * d ≤ intMax 64) (hw : InOp S.nRows S.nCols n d ro co) :
    M.wp (testRightSubmatSketch E atol rtol seedB (fun S ldb => rsksp3 E layout .NoTrans .NoTrans n d n alpha 0 0 S ro co beta ldb) alpha n d ro co layout beta) (.dense S) (fun r _ => r = none) := by
  refine M.wp_mono (C134_right_submatrix_compares hE hS hn hd h32 hfB hw rfl fun A hA => rsksp3_eye hE hD hA hn hd hw (ofFn_holds layout _)) ?_
  exact fun r _ h => h.mpr fun i j _ => close_self ha _ _

/-- C134 (right, transposed). In exact arithmetic the library passes `test_right_transposed_sketch_of_eye`. -/
theorem C134_right_transposed (hE : SkEnvOk E) {atol rtol : T} (ha : 0 ≤ atol) {S : DenseSkOp N K T} {Sm : Int → Int → T} (hS : TestOpIs E (.dense S) Sm) (hD : DenseIs E S Sm) {layout : Layout}
    (h32 : S.nCols ≤ intMax 32) :
    M.wp (testRightTransposedSketch E atol rtol (fun S' ldb => rsksp3 E layout .NoTrans .Trans S.nCols S.nRows S.nCols 1 0 0 S' 0 0 0 ldb) layout) (.dense S) (fun r _ => r = none) := by
  obtain ⟨q1, q2⟩ := testOp_pos hS
  refine M.wp_mono (C134_right_transposed_compares hE hS h32 fun A hA => rsksp3_eye hE hD hA q2 q1 ⟨le_rfl, le_rfl, by simp [rowsOf], by simp [colsOf]⟩ (ofFn_holds layout _)) ?_
  refine fun r _ h => h.mpr fun i j _ => ?_
  simp only [opMat, subMat, one_mul, zero_mul, add_zero, zero_add]
  exact close_self ha _ _

/-! ## The fixtures -/

omit [LinearOrder T] in
/-- The operator of a fixture is the one of its distribution and seed, filled or not. -/
theorem fixtureOp_spec (hE : SkEnvOk E) {nR nC : Int} (hr : 0 < nR) (hc : 0 < nC) (hfit : nR * nC ≤ intMax 64) (seed : RNGState N K) (pre : Bool) :
    M.wp (fixtureOp E nR nC seed pre) () (fun S _ => S.nRows = nR ∧ S.nCols = nC ∧ (S.buff.isSome = pre) ∧ ∃ Sm, TestOpIs E (.dense S) Sm ∧ DenseIs E S Sm) := by
  have hL := (len_facts hE.gen).1
  have hD := mkDenseDist_eq (fam := .Gaussian) (ax := .Long) hr hc
  have okD := denseDistOk_of_mk hD hfit
  unfold fixtureOp
  rw [M.wp_bind, M.wp_lift]
  refine ⟨_, hD, ?_⟩
  revert okD
  generalize hDD : DenseDist.mk _ _ _ _ _ _ _ = D
  intro okD
  have e1 : D.nRows = nR := by rw [← hDD]
  have e2 : D.nCols = nC := by rw [← hDD]
  have e3 : D.dimMajor = tightLd D.naturalLayout D.nRows D.nCols := by
    rw [← hDD]
    dsimp only
    unfold naturalLayout
    rcases lt_trichotomy nR nC with h | h | h <;> simp [tightLd, h, not_lt.mpr h.le, h.le]
  obtain ⟨S, hS, lS, -⟩ := mkDenseSkOp_exists (T := T) hL okD seed
  obtain ⟨h1, h2, h3, h4, h5⟩ := mkDenseSkOp_ok okD hS
  have hsam : Samples E.G E.sqrt3 S.dist S.seedState (denseEntry E.G E.sqrt3 D seed) := by rw [h2, h3]; exact samples_denseEntry hE.gen okD
  cases pre with
  | false =>
    rw [if_neg (by simp), M.wp_lift]
    refine ⟨S, hS, by rw [h1.rows, h2, e1], by rw [h1.cols, h2, e2], by rw [h4]; rfl, _, ⟨by rw [h2]; exact okD, h1.rows, h1.cols, hsam⟩, ?_⟩
    unfold DenseIs
    rw [h4]
    exact ⟨by rw [h2]; exact okD, h1.rows, h1.cols, hsam⟩
  | true =>
    rw [if_pos rfl]
    unfold filledOp
    rw [M.wp_bind, M.wp_lift]
    refine ⟨S, hS, ?_⟩
    rw [M.wp_bind, M.wp_onLocal]
    refine M.wp_mono (filled_op hE.gen okD hS _) ?_
    rintro _ _ ⟨b, rfl, hb⟩
    rw [M.wp_pure]
    refine ⟨by rw [← e1, ← h2]; exact h1.rows, by rw [← e2, ← h2]; exact h1.cols, rfl, _, ⟨by rw [h2]; exact okD, h1.rows, h1.cols, hsam⟩, ?_⟩
    show Holds b S.layout (tightLd S.layout S.nRows S.nCols) S.nRows S.nCols _
    rw [lS, h1.rows, h1.cols, h2, ← e3]
    exact hb

/-- C134 (`TestLSKSP3::sketch_eye`). The library passes the test, with all positive sizes, seeds and layouts, and operators that have been filled or not. -/
theorem C134_lsksp3_eye (hE : SkEnvOk E) {atol rtol : T} (ha : 0 ≤ atol) {seedB seed : RNGState N K} {m d : Int} (hm : 0 < m) (hd : 0 < d) (h32 : m ≤ intMax 32) (hfit : d * m ≤ intMax 64)
    (pre : Bool) (layout : Layout) : M.wp (testLsksp3Eye E atol rtol seedB seed m d pre layout) () (fun r _ => r = none) := by
  unfold testLsksp3Eye
  rw [M.wp_bind]
  refine M.wp_mono (fixtureOp_spec hE hd hm hfit seed pre) ?_
  rintro S _ ⟨rfl, rfl, -, Sm, h1, h2⟩
  rw [M.wp_bind, M.wp_onLocal]
  exact M.wp_mono (C134_left_submatrix hE ha h1 h2 hd hm h32 hfit ⟨le_rfl, le_rfl, by simp, by simp⟩) fun r _ h => by rw [M.wp_pure]; exact h

/-- C134 (`TestLSKSP3::transpose_S`). -/
theorem C134_lsksp3_transpose (hE : SkEnvOk E) {atol rtol : T} (ha : 0 ≤ atol) {seed : RNGState N K} {m d : Int} (hm : 0 < m) (hd : 0 < d) (h32 : m ≤ intMax 32) (hfit : m * d ≤ intMax 64)
    (layout : Layout) : M.wp (testLsksp3Transpose E atol rtol seed m d layout) () (fun r _ => r = none) := by
  unfold testLsksp3Transpose
  rw [M.wp_bind]
  refine M.wp_mono (fixtureOp_spec hE hm hd hfit seed true) ?_
  rintro S _ ⟨rfl, rfl, -, Sm, h1, h2⟩
  rw [M.wp_bind, M.wp_onLocal]
  exact M.wp_mono (C134_left_transposed hE ha h1 h2 h32) fun r _ h => by rw [M.wp_pure]; exact h

/-- C134 (`TestLSKSP3::submatrix_S`). The library passes the test for every window; the window must be smaller than the operator in both directions, else the test raises an error. -/
theorem C134_lsksp3_submatrix (hE : SkEnvOk E) {atol rtol : T} (ha : 0 ≤ atol) {seedB seed : RNGState N K} {d m d0 m0 ro co : Int} (hd : 0 < d) (hm : 0 < m) (hd0 : d < d0) (hm0 : m < m0)
    (h32 : m ≤ intMax 32) (hfit : d0 * m0 ≤ intMax 64) (hw : InOp d0 m0 d m ro co) (layout : Layout) :
    M.wp (testLsksp3Submatrix E atol rtol seedB seed d m d0 m0 ro co layout) () (fun r _ => r = none) := by
  unfold testLsksp3Submatrix
  rw [M.wp_bind, M.wp_require]
  refine ⟨hd0, ?_⟩
  rw [M.wp_bind, M.wp_require]
  refine ⟨hm0, ?_⟩
  rw [M.wp_bind]
  refine M.wp_mono (fixtureOp_spec hE (by omega) (by omega) hfit seed false) ?_
  rintro S _ ⟨rfl, rfl, -, Sm, h1, h2⟩
  rw [M.wp_bind, M.wp_onLocal]
  exact M.wp_mono (C134_left_submatrix hE ha h1 h2 hd hm h32 (by nlinarith) hw) fun r _ h => by rw [M.wp_pure]; exact h

/-- C134 (`TestLSKSP3::submatrix_S`, wrong sizes). -/
theorem C134_lsksp3_submatrix_error {atol rtol : T} {seedB seed : RNGState N K} {d m d0 m0 ro co : Int} (h : ¬ (d < d0 ∧ m < m0)) (layout : Layout) :
    testLsksp3Submatrix E atol rtol seedB seed d m d0 m0 ro co layout () = (.throw .require, ()) := by
  unfold testLsksp3Submatrix
  by_cases h1 : d < d0
  · have h2 : ¬ m < m0 := fun h2 => h ⟨h1, h2⟩
    simp [M.require, M.lift, bind, M.bind, h1, h2]
  · simp [M.require, M.lift, bind, M.bind, h1]

/-- C134 (`TestRSKSP3::sketch_eye`). -/
theorem C134_rsksp3_eye (hE : SkEnvOk E) {atol rtol : T} (ha : 0 ≤ atol) {seedB seed : RNGState N K} {m d : Int} (hm : 0 < m) (hd : 0 < d) (h32 : m ≤ intMax 32) (hfit : m * d ≤ intMax 64)
    (pre : Bool) (layout : Layout) : M.wp (testRsksp3Eye E atol rtol seedB seed m d pre layout) () (fun r _ => r = none) := by
  unfold testRsksp3Eye
  rw [M.wp_bind]
  refine M.wp_mono (fixtureOp_spec hE hm hd hfit seed pre) ?_
  rintro S _ ⟨rfl, rfl, -, Sm, h1, h2⟩
  rw [M.wp_bind, M.wp_onLocal]
  exact M.wp_mono (C134_right_submatrix hE ha h1 h2 hm hd h32 hfit ⟨le_rfl, le_rfl, by simp, by simp⟩) fun r _ h => by rw [M.wp_pure]; exact h

/-- C134 (`TestRSKSP3::transpose_S`). -/
theorem C134_rsksp3_transpose (hE : SkEnvOk E) {atol rtol : T} (ha : 0 ≤ atol) {seed : RNGState N K} {m d : Int} (hm : 0 < m) (hd : 0 < d) (h32 : m ≤ intMax 32) (hfit : d * m ≤ intMax 64)
    (layout : Layout) : M.wp (testRsksp3Transpose E atol rtol seed m d layout) () (fun r _ => r = none) := by
  unfold testRsksp3Transpose
  rw [M.wp_bind]
  refine M.wp_mono (fixtureOp_spec hE hd hm hfit seed false) ?_
  rintro S _ ⟨rfl, rfl, -, Sm, h1, h2⟩
  rw [M.wp_bind, M.wp_onLocal]
  exact M.wp_mono (C134_right_transposed hE ha h1 h2 h32) fun r _ h => by rw [M.wp_pure]; exact h

/-- C134 (`TestRSKSP3::submatrix_S`). -/
theorem C134_rsksp3_submatrix (hE : SkEnvOk E) {atol rtol : T} (ha : 0 ≤ atol) {seedB seed : RNGState N K} {d m d0 m0 ro co : Int} (hd : 0 < d) (hm : 0 < m) (h32 : m ≤ intMax 32)
    (hfit : m0 * d0 ≤ intMax 64) (hw : InOp m0 d0 m d ro co) (layout : Layout) :
    M.wp (testRsksp3Submatrix E atol rtol seedB seed d m d0 m0 ro co layout) () (fun r _ => r = none) := by
  obtain ⟨w1, w2, w3, w4⟩ := hw
  unfold testRsksp3Submatrix
  rw [M.wp_bind]
  refine M.wp_mono (fixtureOp_spec hE (by omega) (by omega) hfit seed false) ?_
  rintro S _ ⟨rfl, rfl, -, Sm, h1, h2⟩
  rw [M.wp_bind, M.wp_onLocal]
  exact M.wp_mono (C134_right_submatrix hE ha h1 h2 hm hd h32 (by nlinarith) ⟨w1, w2, w3, w4⟩) fun r _ h => by rw [M.wp_pure]; exact h

end

/-! ## Examples -/

/-- The hypotheses are met by the sizes of the tests. -/
example : M.wp (testLsksp3Eye exSketchEnv (1 / 1000) 0 ⟨0, 42⟩ ⟨0, 0⟩ 200 30 true .ColMajor) () (fun r _ => r = none) :=
  C134_lsksp3_eye exSketchEnv_ok (by norm_num) (by norm_num) (by norm_num) (by norm_num [intMax]) (by norm_num [intMax]) _ _

example : M.wp (testLsksp3Transpose exSketchEnv (1 / 1000) 0 ⟨0, 0⟩ 200 30 .RowMajor) () (fun r _ => r = none) :=
  C134_lsksp3_transpose exSketchEnv_ok (by norm_num) (by norm_num) (by norm_num) (by norm_num [intMax]) (by norm_num [intMax]) _

example : M.wp (testLsksp3Submatrix exSketchEnv (1 / 1000) 0 ⟨0, 42⟩ ⟨0, 0⟩ 3 10 8 12 3 1 .ColMajor) () (fun r _ => r = none) :=
  C134_lsksp3_submatrix exSketchEnv_ok (by norm_num) (by norm_num) (by norm_num) (by norm_num) (by norm_num) (by norm_num [intMax]) (by norm_num [intMax]) (by norm_num [InOp]) _

example : M.wp (testRsksp3Eye exSketchEnv (1 / 1000) 0 ⟨0, 11⟩ ⟨0, 0⟩ 10 51 false .RowMajor) () (fun r _ => r = none) :=
  C134_rsksp3_eye exSketchEnv_ok (by norm_num) (by norm_num) (by norm_num) (by norm_num [intMax]) (by norm_num [intMax]) _ _

example : M.wp (testRsksp3Transpose exSketchEnv (1 / 1000) 0 ⟨0, 0⟩ 200 30 .ColMajor) () (fun r _ => r = none) :=
  C134_rsksp3_transpose exSketchEnv_ok (by norm_num) (by norm_num) (by norm_num) (by norm_num [intMax]) (by norm_num [intMax]) _

example : M.wp (testRsksp3Submatrix exSketchEnv (1 / 1000) 0 ⟨0, 11⟩ ⟨0, 0⟩ 3 10 8 12 2 1 .RowMajor) () (fun r _ => r = none) :=
  C134_rsksp3_submatrix exSketchEnv_ok (by norm_num) (by norm_num) (by norm_num) (by norm_num [intMax]) (by norm_num [intMax]) (by norm_num [InOp]) _

/-- A call that changes nothing is found: the test reports the first entry that differs. (The generator of this example ignores the key, so B is the operator; with alpha = 2 its entries should double.
The first is zero.) -/
example : ((do
    let S ← fixtureOp exSketchEnv 2 3 ⟨0, 7⟩ false
    let r ← M.onLocal (testLeftSubmatSketch exSketchEnv (1 / 1000) 0 ⟨0, 42⟩ (fun _ _ => pure ()) 2 2 3 0 0 .RowMajor 0) (.dense S)
    pure r.1 : M Unit (Option (Int × Int))) ()).1 = .ok (some (0, 1)) := by decide +kernel

end RB
