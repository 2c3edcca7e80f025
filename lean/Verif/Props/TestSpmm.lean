import Verif.Props.TestLibraryMore
import Verif.Props.Stab
import Verif.Spec.TestSpmm

/-!
# C136: the random sparse matrix of the product tests
-/

namespace RB
open Spec
variable {N : Nat} {K W WS R T : Type} [Field T] [LinearOrder T]

/-- `dense_to_coo` does not mark the matrix as sorted. -/
theorem dense_to_coo_sort {A : CooMat T} (hc : CooEmpty A) (hm : 0 ≤ A.nRows) (hn : 0 ≤ A.nCols) {sr sc : Int} {mat : Buf T} (tol : T) {F : Int → Int → T}
    (h : StrHolds mat sr sc A.nRows A.nCols F) :
    M.wp (denseToCooStr sr sc mat tol) A (fun _ A' => ∃ E, Kept A.nRows A.nCols F tol E ∧ CooIs A' E ∧ A'.nRows = A.nRows ∧ A'.nCols = A.nCols ∧ A'.indexBase = .Zero ∧ A'.sort = A.sort) := by
  obtain ⟨a, ha⟩ := Int.eq_ofNat_of_zero_le hm
  obtain ⟨b, hb⟩ := Int.eq_ofNat_of_zero_le hn
  unfold denseToCooStr
  simp only [M.wp_bind, M.wp_get, M.wp_lift]
  rw [ha, hb] at h ⊢
  refine ⟨_, nnzInDense_spec h, ?_⟩
  obtain ⟨A1, r1, r2⟩ := overE_after_reserve hc (keptR tol F a b) _
    (fun A' => ∃ E, Kept a b F tol E ∧ CooIs A' E ∧ A'.nRows = a ∧ A'.nCols = b ∧ A'.indexBase = .Zero ∧ A'.sort = A.sort)
    (fun bf hal => denseToCooLoop_spec h hal)
    (fun A' q1 q2 q3 q4 _ q6 => ⟨_, keptR_kept tol F a b, q1, by rw [q2, ha], by rw [q3, hb], q4, q6⟩)
  have w1 : M.wp (reserveCoo ((keptR tol F a b).length : Int)) A (fun _ s => s = A1) := by
    unfold M.wp; rw [r1]; exact ⟨_, _, rfl, rfl⟩
  refine M.wp_mono w1 ?_
  rintro - _ rfl
  exact r2

variable [IsStrictOrderedRing T]

theorem kept_zero_mem {m n : Int} {F : Int → Int → T} {E : List (Entry T)} (h : Kept m n F 0 E) (e : Entry T) : e ∈ E ↔ InR m n e.row e.col ∧ e.val = F e.row e.col ∧ e.val ≠ 0 := by
  rw [h.mem e, abs_pos]

omit [IsStrictOrderedRing T] in
theorem denseToCoo_col (m n : Int) (b : Buf T) : denseToCoo .ColMajor b (0 : T) (mkCoo m n) = denseToCooStr 1 m b 0 (mkCoo m n) := rfl
omit [IsStrictOrderedRing T] in
theorem denseToCsc_col (m n : Int) (b : Buf T) : denseToCsc .ColMajor b (0 : T) (mkCsc m n) = denseToCscStr 1 m b 0 (mkCsc m n) := rfl
omit [IsStrictOrderedRing T] in
theorem denseToCsr_col (m n : Int) (b : Buf T) : denseToCsr .ColMajor b (0 : T) (mkCsr m n) = denseToCsrStr 1 m b 0 (mkCsr m n) := rfl

theorem made_coo {m n : Int} (hm : 0 < m) (hn : 0 < n) {F : Int → Int → T} {b : Buf T} (h : StrHolds b 1 m m n F) :
    M.wp (denseToCoo .ColMajor b (0 : T)) (mkCoo m n) (fun _ A => MadeFrom .coo (.coo A) m n F) := by
  unfold M.wp
  rw [denseToCoo_col]
  refine M.wp_mono (dense_to_coo_sort (A := mkCoo m n) (sr := 1) (sc := m) mkCoo_empty hm.le hn.le (0 : T) h) ?_
  rintro _ A ⟨E, hk, he, d1, d2, hb, hso⟩
  exact ⟨trivial, d1, d2, hb, E, ⟨he, by rw [hso]; trivial⟩, hk.nodup, kept_zero_mem hk⟩

theorem made_csc {m n : Int} (hm : 0 < m) (hn : 0 < n) {F : Int → Int → T} {b : Buf T} (h : StrHolds b 1 m m n F) :
    M.wp (denseToCsc .ColMajor b (0 : T)) (mkCsc m n) (fun _ A => MadeFrom .csc (.csc A) m n F) := by
  unfold M.wp
  rw [denseToCsc_col]
  refine M.wp_mono (C28_dense_to_csc (A := mkCsc m n) (sr := 1) (sc := m) (mkCsc_empty hn.le) hm.le (0 : T) h) ?_
  rintro _ A ⟨E, hk, he, -, d1, d2, hb, -⟩
  exact ⟨trivial, d1, d2, hb, E, he, hk.nodup, kept_zero_mem hk⟩

theorem made_csr {m n : Int} (hm : 0 < m) (hn : 0 < n) {F : Int → Int → T} {b : Buf T} (h : StrHolds b 1 m m n F) :
    M.wp (denseToCsr .ColMajor b (0 : T)) (mkCsr m n) (fun _ A => MadeFrom .csr (.csr A) m n F) := by
  unfold M.wp
  rw [denseToCsr_col]
  refine M.wp_mono (C28_dense_to_csr (A := mkCsr m n) (sr := 1) (sc := m) (mkCsr_empty hm.le) hn.le (0 : T) h) ?_
  rintro _ A ⟨E, hk, he, -, d1, d2, hb, -⟩
  exact ⟨trivial, d1, d2, hb, E, he, hk.nodup, kept_zero_mem hk⟩

/-- C136 (the matrix). `make_test_matrix` creates the sparsified random matrix in the format of the fixture, for every size, probability and key. -/
theorem C136_matrix {X : SpmmFixture N K W WS R T} (hG : X.E.G.Ok) (h3 : X.E.sqrt3 * X.E.sqrt3 = 3) (hs : 0 < X.E.sqrt3) {m n : Int} (hm : 0 < m) (hn : 0 < n) (hmn : m * n ≤ intMax 64) {p : T}
    (hp : 0 ≤ p ∧ p ≤ 1) (key : Nat) :
    M.wp (makeTestMatrix X m n p key) () (fun A _ => MadeFrom X.fmt A m n (sparsifiedTest X.E.G X.E.sqrt3 (1 - p) m n ⟨0, X.keyOf key⟩)) := by
  unfold makeTestMatrix
  simp only [M.wp_bind, M.wp_require, M.wp_onLocal]
  refine ⟨hp.1, hp.2, M.wp_mono (C126_sparsify_layout hG h3 hs hm hn hmn (ofFn_alloc .ColMajor _)) ?_⟩
  intro _ dn hd
  have hd' : StrHolds dn 1 m m n (sparsifiedTest X.E.G X.E.sqrt3 (1 - p) m n ⟨0, X.keyOf key⟩) := fun i j hij => by
    have := hd i j hij
    rw [str_addr] at this
    simpa using this
  cases X.fmt with
  | coo =>
    simp only [M.wp_bind, M.wp_onLocal, M.wp_pure]
    exact made_coo hm hn hd'
  | csc =>
    simp only [M.wp_bind, M.wp_onLocal, M.wp_pure]
    exact made_csc hm hn hd'
  | csr =>
    simp only [M.wp_bind, M.wp_onLocal, M.wp_pure]
    exact made_csr hm hn hd'

omit [IsStrictOrderedRing T] in
/-- C136 (the matrix, errors). A number that is not a probability is refused. -/
theorem C136_matrix_error {X : SpmmFixture N K W WS R T} {m n : Int} {p : T} (hp : ¬ (0 ≤ p ∧ p ≤ 1)) (key : Nat) : makeTestMatrix X m n p key () = (.throw .require, ()) := by
  unfold makeTestMatrix
  by_cases h0 : p ≥ 0
  · have h1 : ¬ p ≤ 1 := fun h1 => hp ⟨h0, h1⟩
    have e0 : (M.require (p ≥ 0) : M Unit Unit) () = (.ok (), ()) := by unfold M.require M.lift Res.require; rw [if_pos h0]
    have e1 : (M.require (p ≤ 1) : M Unit Unit) () = (.throw .require, ()) := by unfold M.require M.lift Res.require; rw [if_neg h1]
    rw [M.bind_ok e0, M.bind_throw e1]
  · have e0 : (M.require (p ≥ 0) : M Unit Unit) () = (.throw .require, ()) := by unfold M.require M.lift Res.require; rw [if_neg h0]
    rw [M.bind_throw e0]

/-! ## The matrix as an operator -/

omit [IsStrictOrderedRing T] in
theorem toMat_made {m n : Int} {F : Int → Int → T} {L : List (Entry T)} (hnd : (L.map Entry.pos).Nodup) (h : ∀ e, e ∈ L ↔ InR m n e.row e.col ∧ e.val = F e.row e.col ∧ e.val ≠ 0) :
    toMat L = inside m n F := by
  funext i j
  unfold inside
  by_cases hx : ∃ e ∈ L, e.row = i ∧ e.col = j
  · obtain ⟨e, he, rfl, rfl⟩ := hx
    obtain ⟨h1, h2, h3⟩ := (h e).mp he
    rw [show (if 0 ≤ e.row ∧ e.row < m ∧ 0 ≤ e.col ∧ e.col < n then F e.row e.col else 0) = F e.row e.col from if_pos h1, ← h2]
    exact toMat_mem hnd he
  · have h0 : toMat L i j = 0 := by
      unfold toMat
      rw [List.filter_eq_nil_iff.mpr]
      · rfl
      · intro e he hh
        simp only [decide_eq_true_eq] at hh
        exact hx ⟨e, he, hh⟩
    rw [h0]
    split_ifs with hr
    · by_contra hne
      exact hx ⟨⟨i, j, F i j⟩, (h _).mpr ⟨hr, rfl, fun h => hne h.symm⟩, rfl, rfl⟩
    · rfl


omit [IsStrictOrderedRing T] [LinearOrder T] in
/-- The entries of a window. -/
theorem mem_made_window {m n d c ro co : Int} {F : Int → Int → T} {L : List (Entry T)} (h : ∀ e, e ∈ L ↔ InR m n e.row e.col ∧ e.val = F e.row e.col ∧ e.val ≠ 0) (e : Entry T) :
    e ∈ window ro co d c L ↔ InR d c e.row e.col ∧ e.val = subMat ro co (inside m n F) e.row e.col ∧ e.val ≠ 0 := by
  have hin : ∀ (v : T) i j, v ≠ 0 → (v = inside m n F i j ↔ InR m n i j ∧ v = F i j) := fun v i j hv => by
    unfold inside
    by_cases hr : InR m n i j
    · rw [show (if 0 ≤ i ∧ i < m ∧ 0 ≤ j ∧ j < n then F i j else 0) = F i j from if_pos hr]
      exact ⟨fun h => ⟨hr, h⟩, fun h => h.2⟩
    · rw [show (if 0 ≤ i ∧ i < m ∧ 0 ≤ j ∧ j < n then F i j else 0) = 0 from if_neg hr]
      exact ⟨fun h => absurd h hv, fun h => absurd h.1 hr⟩
  obtain ⟨i, j, v⟩ := e
  simp only [subMat, window, List.mem_map, List.mem_filter, decide_eq_true_eq]
  constructor
  · rintro ⟨⟨i', j', v'⟩, ⟨h1, h2⟩, h3⟩
    obtain ⟨g1, g2, g3⟩ := (h _).mp h1
    simp only [Entry.mk.injEq] at h3
    obtain ⟨rfl, rfl, rfl⟩ := h3
    dsimp only at *
    refine ⟨⟨by omega, by omega, by omega, by omega⟩, (hin _ _ _ g3).mpr ?_, g3⟩
    rw [show ro + (i' - ro) = i' by ring, show co + (j' - co) = j' by ring]
    exact ⟨g1, g2⟩
  · rintro ⟨⟨r1, r2, r3, r4⟩, g2, g3⟩
    obtain ⟨k1, k2⟩ := (hin _ _ _ g3).mp g2
    exact ⟨⟨ro + i, co + j, v⟩, ⟨(h _).mpr ⟨k1, k2, g3⟩, ⟨show ro ≤ ro + i by omega, show ro + i < ro + d by omega, show co ≤ co + j by omega, show co + j < co + c by omega⟩⟩, by simp⟩

omit [IsStrictOrderedRing T] [LinearOrder T] in
/-- The entries of `op(submat(A))`. -/
theorem mem_opWindow {m n d c ro co : Int} {op : Op} {F : Int → Int → T} {L : List (Entry T)} (h : ∀ e, e ∈ L ↔ InR m n e.row e.col ∧ e.val = F e.row e.col ∧ e.val ≠ 0) (e : Entry T) :
    e ∈ opEntries op (window ro co (rowsOf op d c) (colsOf op d c) L) ↔ InR d c e.row e.col ∧ e.val = opMat op (subMat ro co (inside m n F)) e.row e.col ∧ e.val ≠ 0 := by
  cases op with
  | NoTrans => exact mem_made_window h e
  | Trans =>
    simp only [opEntries, List.mem_map]
    constructor
    · rintro ⟨e', h1, rfl⟩
      obtain ⟨⟨g1, g2, g3, g4⟩, k1, k2⟩ := (mem_made_window h e').mp h1
      exact ⟨⟨g3, g4, g1, g2⟩, k1, k2⟩
    · rintro ⟨⟨g1, g2, g3, g4⟩, k1, k2⟩
      exact ⟨e.swap, (mem_made_window h e.swap).mpr ⟨⟨g3, g4, g1, g2⟩, k1, k2⟩, rfl⟩

omit [IsStrictOrderedRing T] [LinearOrder T] in
/-- The condition of the kernels in terms of the matrix. -/
theorem regular_of {r c : Int} (hc : 1 ≤ c) {F : Int → Int → T} {W : List (Entry T)} (hW : ∀ e, e ∈ W ↔ InR r c e.row e.col ∧ e.val = F e.row e.col ∧ e.val ≠ 0) (h : NotOnlyFirst r c F) :
    RegularOk c W := by
  refine ⟨hc, fun h2 hne => ?_⟩
  obtain ⟨e, he⟩ := List.exists_mem_of_ne_nil W hne
  obtain ⟨e1, e2, e3⟩ := (hW e).mp he
  obtain ⟨i, j, g1, g2, g3⟩ := h h2 ⟨e.row, e.col, e1, by rw [← e2]; exact e3⟩
  exact ⟨⟨i, j, F i j⟩, (hW _).mpr ⟨g1, rfl, g3⟩, g2⟩

omit [IsStrictOrderedRing T] [LinearOrder T] in
theorem supported_of {fmt : SpFmt} {A : SpMat T} (hf : HasFmt fmt A) {op opB : Op} {layout : Layout} {r c : Int} (hc : 1 ≤ c) {F : Int → Int → T} {W : List (Entry T)}
    (hW : ∀ e, e ∈ W ↔ InR r c e.row e.col ∧ e.val = F e.row e.col ∧ e.val ≠ 0) (h : KernelOk fmt op layout opB r c F) : Supported A op layout opB r c W := by
  have h31 : c ≤ 2 ^ 31 → ∀ e ∈ W, e.col < 2 ^ 31 := fun hc e he => by
    have := ((hW e).mp he).1.2.2.2
    omega
  have hr := regular_of hc hW
  cases fmt <;> cases A <;> simp only [HasFmt] at hf
  · exact Or.inl (hr h)
  · cases op <;> simp only [Supported, KernelOk] at h ⊢ <;> split_ifs at h ⊢ <;> first | exact h | exact hr h | exact h31 h
  · cases op <;> simp only [Supported, KernelOk] at h ⊢ <;> split_ifs at h ⊢ <;> first | exact h | exact hr h | exact h31 h

variable [Field R] [LinearOrder R] [FloorRing R]

omit [IsStrictOrderedRing T] in
/-- The facts about a made matrix that the tests need. -/
theorem made_facts {E : SkEnv N K W WS R T} {fmt : SpFmt} {A : SpMat T} {m n : Int} {F : Int → Int → T} (h : MadeFrom fmt A m n F) (hm : 0 < m) (hn : 0 < n) (hc : fmt = .csr → n ≤ 2 ^ 31) :
    TestOpIs E (.mat A) (inside m n F) ∧ (TestOp.mat A : TestOp N K T).dims = (m, n) ∧ ∃ L, SpHolds A L ∧ Copyable A L ∧ InRange (spRows A) (spCols A) L ∧ (L.map Entry.pos).Nodup ∧
      toMat L = inside m n F ∧ ∀ e, e ∈ L ↔ InR m n e.row e.col ∧ e.val = F e.row e.col ∧ e.val ≠ 0 := by
  obtain ⟨hf, hr, hcl, hb, L, hL, hnd, hmem⟩ := h
  have hin : InRange m n L := fun e he => ((hmem e).mp he).1
  have hcopy : Copyable A L := by
    cases fmt <;> cases A <;> simp only [HasFmt] at hf
    · exact hL.1
    · exact ⟨hL, hb⟩
    · exact ⟨hL, hb, fun e he => by have := ((hmem e).mp he).1.2.2.2; have := hc rfl; omega⟩
  have e1 : A.numRows = m := by rw [← hr]; cases A <;> rfl
  have e2 : A.numCols = n := by rw [← hcl]; cases A <;> rfl
  have hM := toMat_made hnd hmem
  refine ⟨⟨by rw [e1]; exact hm, by rw [e2]; exact hn, L, hcopy, by rw [e1, e2]; exact hin, hnd, hM⟩, by simp only [TestOp.dims]; rw [e1, e2], L, hL, hcopy, by rw [hr, hcl]; exact hin, hnd, hM, hmem⟩

omit [IsStrictOrderedRing T] in
/-- The matrix can be used from the left. -/
theorem made_left {E : SkEnv N K W WS R T} {fmt : SpFmt} {A : SpMat T} {m n : Int} {F : Int → Int → T} (h : MadeFrom fmt A m n F) (hm : 0 < m) (hn : 0 < n) (hc : fmt = .csr → n ≤ 2 ^ 31)
    {alpha : T} {layout : Layout} {opS opA : Op} {d c ro co : Int} (hc1 : 1 ≤ c) (hw : FmtWindow fmt m n (rowsOf opS d c) (colsOf opS d c) ro co)
    (hk : alpha ≠ 0 → KernelOk fmt opS layout opA d c (opMat opS (subMat ro co (inside m n F)))) : LeftUsable E alpha layout opS opA (.mat A) (inside m n F) d c ro co := by
  obtain ⟨g1, -, L, g2, g3, g4, g5, g6, g7⟩ := made_facts (E := E) h hm hn hc
  obtain ⟨hf, hr, hcl, hb, -⟩ := h
  refine ⟨g1, L, g2, g3, hb, g4, g5, g6, ?_, fun ha => supported_of hf hc1 (mem_opWindow g7) (hk ha)⟩
  cases fmt <;> cases A <;> simp only [HasFmt] at hf <;> simp only [FmtWindow, WindowOk, spRows, spCols] at * <;> rw [hr, hcl] <;> exact hw

omit [IsStrictOrderedRing T] in
/-- The matrix can be used from the right. -/
theorem made_right {E : SkEnv N K W WS R T} {fmt : SpFmt} {A : SpMat T} {m n : Int} {F : Int → Int → T} (h : MadeFrom fmt A m n F) (hm : 0 < m) (hn : 0 < n) (hc : fmt = .csr → n ≤ 2 ^ 31)
    {alpha : T} {layout : Layout} {opS opA : Op} {d c ro co : Int} (hc1 : 1 ≤ c) (hw : FmtWindow fmt m n (rowsOf opS c d) (colsOf opS c d) ro co)
    (hk : alpha ≠ 0 → KernelOk fmt opS.flip layout.flip opA d c (opMat opS.flip (subMat ro co (inside m n F)))) : RightUsable E alpha layout opA opS (.mat A) (inside m n F) c d ro co := by
  obtain ⟨g1, -, L, g2, g3, g4, g5, g6, g7⟩ := made_facts (E := E) h hm hn hc
  obtain ⟨hf, hr, hcl, hb, -⟩ := h
  have e1 : rowsOf opS c d = rowsOf opS.flip d c := by cases opS <;> rfl
  have e2 : colsOf opS c d = colsOf opS.flip d c := by cases opS <;> rfl
  refine ⟨g1, L, g2, g3, hb, g4, g5, g6, ?_, fun ha => ?_⟩
  · cases fmt <;> cases A <;> simp only [HasFmt] at hf <;> simp only [FmtWindow, WindowOk, spRows, spCols] at * <;> rw [hr, hcl] <;> exact hw
  · rw [e1, e2]; exact supported_of hf hc1 (mem_opWindow g7) (hk ha)

end RB
