import Verif.Props.TestSpmm

/-!
# C136: the sparse product tests

The fixtures create a random sparse matrix in one of three formats and compare a product with it to a reference. Every test runs without undefined behaviour and accepts exactly if the result of
the product under test agrees with the reference (`..._compares`), and it accepts the library.
-/

namespace RB
open Spec
variable {N : Nat} {K W WS R T : Type} [Field T] [LinearOrder T]

omit [LinearOrder T] in
theorem inside_inside (m n : Int) (F : Int → Int → T) : inside m n (inside m n F) = inside m n F := by
  funext i j
  unfold inside
  split_ifs <;> rfl

theorem madeFrom_inside {fmt : SpFmt} {A : SpMat T} {m n : Int} {F : Int → Int → T} (h : MadeFrom fmt A m n F) : MadeFrom fmt A m n (inside m n F) := by
  obtain ⟨h1, h2, h3, h4, L, h5, h6, h7⟩ := h
  refine ⟨h1, h2, h3, h4, L, h5, h6, fun e => (h7 e).trans (and_congr_right fun hr => ?_)⟩
  rw [show inside m n F e.row e.col = F e.row e.col from if_pos hr]

variable [IsStrictOrderedRing T]

theorem withTestMatrix_spec {α : Type} {X : SpmmFixture N K W WS R T} (hX : FixtureOk X) {m n : Int} {p : T} (hs : SizeOk X m n p) {key : Nat} {test : M (TestOp N K T) α} {Q : α → Prop}
    (h : ∀ A, MadeFrom X.fmt A m n (testMat X m n p key) → M.wp test (.mat A) (fun r _ => Q r)) : M.wp (withTestMatrix X m n p key test) () (fun r _ => Q r) := by
  unfold withTestMatrix
  simp only [M.wp_bind, M.wp_onLocal, M.wp_pure]
  refine M.wp_mono (C136_matrix hX.env.gen hX.sq hX.pos hs.rows hs.cols hs.size hs.prob key) ?_
  intro A _ hA
  exact h A (madeFrom_inside hA)

variable [Field R] [LinearOrder R] [FloorRing R]

omit [IsStrictOrderedRing T] in
theorem made_op {X : SpmmFixture N K W WS R T} {m n : Int} {p : T} {key : Nat} (hs : SizeOk X m n p) {A : SpMat T} (h : MadeFrom X.fmt A m n (testMat X m n p key)) :
    TestOpIs X.E (.mat A) (testMat X m n p key) ∧ (TestOp.mat A : TestOp N K T).dims = (m, n) := by
  obtain ⟨h1, h2, -⟩ := made_facts (E := X.E) (N := N) (K := K) h hs.rows hs.cols hs.csr
  unfold testMat at h1 ⊢
  rw [inside_inside] at h1
  exact ⟨h1, h2⟩

omit [IsStrictOrderedRing T] in
theorem made_leftUsable {X : SpmmFixture N K W WS R T} {m n : Int} {p : T} {key : Nat} (hs : SizeOk X m n p) {A : SpMat T} (h : MadeFrom X.fmt A m n (testMat X m n p key)) {alpha : T} {layout : Layout}
    {opS opA : Op} {d c ro co : Int} (hc1 : 1 ≤ c) (hw : FmtWindow X.fmt m n (rowsOf opS d c) (colsOf opS d c) ro co)
    (hk : alpha ≠ 0 → KernelOk X.fmt opS layout opA d c (opMat opS (subMat ro co (testMat X m n p key)))) : LeftUsable X.E alpha layout opS opA (.mat A) (testMat X m n p key) d c ro co := by
  have e : inside m n (testMat X m n p key) = testMat X m n p key := inside_inside m n _
  have := made_left (E := X.E) h hs.rows hs.cols hs.csr hc1 hw (by rw [e]; exact hk)
  rwa [e] at this

omit [IsStrictOrderedRing T] in
theorem made_rightUsable {X : SpmmFixture N K W WS R T} {m n : Int} {p : T} {key : Nat} (hs : SizeOk X m n p) {A : SpMat T} (h : MadeFrom X.fmt A m n (testMat X m n p key)) {alpha : T} {layout : Layout}
    {opS opA : Op} {d c ro co : Int} (hc1 : 1 ≤ c) (hw : FmtWindow X.fmt m n (rowsOf opS c d) (colsOf opS c d) ro co)
    (hk : alpha ≠ 0 → KernelOk X.fmt opS.flip layout.flip opA d c (opMat opS.flip (subMat ro co (testMat X m n p key)))) : RightUsable X.E alpha layout opA opS (.mat A) (testMat X m n p key) c d ro co := by
  have e : inside m n (testMat X m n p key) = testMat X m n p key := inside_inside m n _
  have := made_right (E := X.E) h hs.rows hs.cols hs.csr hc1 hw (by rw [e]; exact hk)
  rwa [e] at this

omit [IsStrictOrderedRing T] [LinearOrder T] in
theorem leftTestable_of {E : SkEnv N K W WS R T} {A : SpMat T} {alpha : T} {layout : Layout} {Sm : Int → Int → T} (h : LeftUsable E alpha layout .NoTrans .NoTrans (.mat A) Sm (spRows A) (spCols A) 0 0) :
    LeftTestable E alpha layout (.mat A) Sm := by
  obtain ⟨h0, L, h1, h2, h3, h4, h5, h6, -, h7⟩ := h
  exact ⟨h0, L, h1, h2, h3, h4, h5, h6, h7⟩

omit [IsStrictOrderedRing T] [LinearOrder T] in
theorem rightTestable_of {E : SkEnv N K W WS R T} {A : SpMat T} {alpha : T} {layout : Layout} {Sm : Int → Int → T} (h : RightUsable E alpha layout .NoTrans .NoTrans (.mat A) Sm (spRows A) (spCols A) 0 0) :
    RightTestable E alpha layout (.mat A) Sm := by
  obtain ⟨h0, L, h1, h2, h3, h4, h5, h6, -, h7⟩ := h
  exact ⟨h0, L, h1, h2, h3, h4, h5, h6, h7⟩

theorem fmtWindow_whole (fmt : SpFmt) (m n : Int) : FmtWindow fmt m n m n 0 0 := by cases fmt <;> simp [FmtWindow]

/-! ## The identity as the other factor -/

theorem leftEye_compares {X : SpmmFixture N K W WS R T} (hX : FixtureOk X) {L : LeftProduct N K T} {key : Nat} {m n d1 m1 ro co : Int} {layout : Layout} {p alpha beta : T} (hs : SizeOk X m n p)
    (hd : 0 < d1) (hm : 0 < m1) (hf : d1 * m1 ≤ intMax 64) (hw : InOp m n d1 m1 ro co) {C X' : Int → Int → T}
    (hC : C = fun i j => testData X.E.G ⟨0, X.keyOf 42⟩ d1 m1 (addr layout (tightLd layout d1 m1) i j))
    (hL : LeftGives X L m n p key layout .NoTrans .NoTrans d1 m1 m1 alpha ro co eyeMat beta C X') :
    M.wp (withTestMatrix X m n p key (testLeftEye X.E X.atol X.rtol ⟨0, X.keyOf 42⟩ (fun A lda ldb => L layout .NoTrans .NoTrans d1 m1 m1 alpha ro co A lda beta ldb) alpha d1 m1 ro co layout beta)) ()
      (fun r _ => r = none ↔ ∀ i j, InR d1 m1 i j → Close X.atol X.rtol (X' i j) (alpha * testMat X m n p key (ro + i) (co + j) + beta * C i j)) := by
  refine withTestMatrix_spec hX hs (Q := fun r => r = none ↔ _) fun A hA => ?_
  obtain ⟨g1, g2⟩ := made_op (N := N) (K := K) hs hA
  refine M.wp_mono (C124_left_eye hX.env g1 hd hm hf (by rw [g2]; exact hw) hC fun A' hA' => ?_) fun r _ h => h.2.2
  rw [g2]
  refine hL A' _ m1 _ A hA (by cases layout <;> simp [LdOk, rowsOf, colsOf]) hA' (ldOk_tight _ _ _) ?_
  rw [hC]
  exact ofFn_holds layout _

theorem rightEye_compares {X : SpmmFixture N K W WS R T} (hX : FixtureOk X) {P : RightProduct N K T} {key : Nat} {m n d1 m1 ro co : Int} {layout : Layout} {p alpha beta : T} (hs : SizeOk X m n p)
    (hd : 0 < d1) (hm : 0 < m1) (hf : d1 * m1 ≤ intMax 64) (hw : InOp m n d1 m1 ro co) {C X' : Int → Int → T}
    (hC : C = fun i j => testData X.E.G ⟨0, X.keyOf 11⟩ d1 m1 (addr layout (tightLd layout d1 m1) i j))
    (hP : RightGives X P m n p key layout .NoTrans .NoTrans d1 m1 d1 alpha ro co eyeMat beta C X') :
    M.wp (withTestMatrix X m n p key (testRightEye X.E X.atol X.rtol ⟨0, X.keyOf 11⟩ (fun A lda ldb => P layout .NoTrans .NoTrans d1 m1 d1 alpha A lda ro co beta ldb) alpha d1 m1 ro co layout beta)) ()
      (fun r _ => r = none ↔ ∀ i j, InR d1 m1 i j → Close X.atol X.rtol (X' i j) (alpha * testMat X m n p key (ro + i) (co + j) + beta * C i j)) := by
  refine withTestMatrix_spec hX hs (Q := fun r => r = none ↔ _) fun A hA => ?_
  obtain ⟨g1, g2⟩ := made_op (N := N) (K := K) hs hA
  refine M.wp_mono (C124_right_eye hX.env g1 hd hm hf (by rw [g2]; exact hw) hC fun A' hA' => ?_) fun r _ h => h.2.2
  rw [g2]
  refine hP A' _ d1 _ A hA (by cases layout <;> simp [LdOk, rowsOf, colsOf]) hA' (ldOk_tight _ _ _) ?_
  rw [hC]
  exact ofFn_holds layout _

theorem whole_inOp (m n : Int) : InOp m n m n 0 0 := ⟨le_rfl, le_rfl, by omega, by omega⟩

/-- C136 (`multiply_eye` from the left). The test accepts exactly if the result of the product with the identity is close to the matrix.) -/
theorem C136_left_eye_compares {X : SpmmFixture N K W WS R T} (hX : FixtureOk X) {L : LeftProduct N K T} {key : Nat} {m n : Int} {layout : Layout} {p : T} (hs : SizeOk X m n p) {C X' : Int → Int → T}
    (hC : C = fun i j => testData X.E.G ⟨0, X.keyOf 42⟩ m n (addr layout (tightLd layout m n) i j))
    (hL : LeftGives X L m n p key layout .NoTrans .NoTrans m n n 1 0 0 eyeMat 0 C X') :
    M.wp (leftMultiplyEye X L key m n layout p) () (fun r _ => r = none ↔ ∀ i j, InR m n i j → Close X.atol X.rtol (X' i j) (testMat X m n p key i j)) := by
  unfold leftMultiplyEye
  have := leftEye_compares hX hs hs.rows hs.cols hs.size (whole_inOp m n) hC hL
  simpa only [one_mul, zero_mul, add_zero, zero_add] using this

/-- C136 (`alpha_beta` from the left).) -/
theorem C136_left_alpha_beta_compares {X : SpmmFixture N K W WS R T} (hX : FixtureOk X) {L : LeftProduct N K T} {key : Nat} {m n : Int} {layout : Layout} {p alpha beta : T} (hs : SizeOk X m n p) (hab : alpha ≠ 1 ∨ beta ≠ 0) {C X' : Int → Int → T}
    (hC : C = fun i j => testData X.E.G ⟨0, X.keyOf 42⟩ m n (addr layout (tightLd layout m n) i j))
    (hL : LeftGives X L m n p key layout .NoTrans .NoTrans m n n alpha 0 0 eyeMat beta C X') :
    M.wp (leftAlphaBeta X L key alpha beta m n layout p) () (fun r _ => r = none ↔ ∀ i j, InR m n i j → Close X.atol X.rtol (X' i j) (alpha * testMat X m n p key i j + beta * C i j)) := by
  unfold leftAlphaBeta
  simp only [M.wp_bind, M.wp_require]
  refine ⟨hab, ?_⟩
  have := leftEye_compares hX hs hs.rows hs.cols hs.size (whole_inOp m n) hC hL
  simpa only [zero_add] using this

/-- C136 (`submatrix_self` from the left). The window is smaller than the matrix.) -/
theorem C136_left_submatrix_self_compares {X : SpmmFixture N K W WS R T} (hX : FixtureOk X) {L : LeftProduct N K T} {key : Nat} {d m d0 m0 ro co : Int} {layout : Layout} {p : T} (hs : SizeOk X d0 m0 p) (hd : 0 < d) (hm : 0 < m) (hf : d * m ≤ intMax 64) (hlt : d < d0 ∧ m < m0) (hw : InOp d0 m0 d m ro co) {C X' : Int → Int → T}
    (hC : C = fun i j => testData X.E.G ⟨0, X.keyOf 42⟩ d m (addr layout (tightLd layout d m) i j))
    (hL : LeftGives X L d0 m0 p key layout .NoTrans .NoTrans d m m 1 ro co eyeMat 0 C X') :
    M.wp (leftSubmatrixSelf X L key d m d0 m0 ro co layout p) () (fun r _ => r = none ↔ ∀ i j, InR d m i j → Close X.atol X.rtol (X' i j) (testMat X d0 m0 p key (ro + i) (co + j))) := by
  unfold leftSubmatrixSelf
  simp only [M.wp_bind, M.wp_require]
  refine ⟨hlt.1, hlt.2, ?_⟩
  have := leftEye_compares hX hs hd hm hf hw hC hL
  simpa only [one_mul, zero_mul, add_zero] using this

/-- C136 (`multiply_eye` from the right). The test accepts exactly if the result of the product with the identity is close to the matrix.) -/
theorem C136_right_eye_compares {X : SpmmFixture N K W WS R T} (hX : FixtureOk X) {P : RightProduct N K T} {key : Nat} {m n : Int} {layout : Layout} {p : T} (hs : SizeOk X m n p) {C X' : Int → Int → T}
    (hC : C = fun i j => testData X.E.G ⟨0, X.keyOf 11⟩ m n (addr layout (tightLd layout m n) i j))
    (hP : RightGives X P m n p key layout .NoTrans .NoTrans m n m 1 0 0 eyeMat 0 C X') :
    M.wp (rightMultiplyEye X P key m n layout p) () (fun r _ => r = none ↔ ∀ i j, InR m n i j → Close X.atol X.rtol (X' i j) (testMat X m n p key i j)) := by
  unfold rightMultiplyEye
  have := rightEye_compares hX hs hs.rows hs.cols hs.size (whole_inOp m n) hC hP
  simpa only [one_mul, zero_mul, add_zero, zero_add] using this

/-- C136 (`alpha_beta` from the right).) -/
theorem C136_right_alpha_beta_compares {X : SpmmFixture N K W WS R T} (hX : FixtureOk X) {P : RightProduct N K T} {key : Nat} {m n : Int} {layout : Layout} {p alpha beta : T} (hs : SizeOk X m n p) {C X' : Int → Int → T}
    (hC : C = fun i j => testData X.E.G ⟨0, X.keyOf 11⟩ m n (addr layout (tightLd layout m n) i j))
    (hP : RightGives X P m n p key layout .NoTrans .NoTrans m n m alpha 0 0 eyeMat beta C X') :
    M.wp (rightAlphaBeta X P key alpha beta m n layout p) () (fun r _ => r = none ↔ ∀ i j, InR m n i j → Close X.atol X.rtol (X' i j) (alpha * testMat X m n p key i j + beta * C i j)) := by
  unfold rightAlphaBeta
  have := rightEye_compares hX hs hs.rows hs.cols hs.size (whole_inOp m n) hC hP
  simpa only [zero_add] using this

/-- C136 (`submatrix_self` from the right).) -/
theorem C136_right_submatrix_self_compares {X : SpmmFixture N K W WS R T} (hX : FixtureOk X) {P : RightProduct N K T} {key : Nat} {d m d0 m0 ro co : Int} {layout : Layout} {p : T} (hs : SizeOk X m0 d0 p) (hd : 0 < d) (hm : 0 < m) (hf : m * d ≤ intMax 64) (hw : InOp m0 d0 m d ro co) {C X' : Int → Int → T}
    (hC : C = fun i j => testData X.E.G ⟨0, X.keyOf 11⟩ m d (addr layout (tightLd layout m d) i j))
    (hP : RightGives X P m0 d0 p key layout .NoTrans .NoTrans m d m 1 ro co eyeMat 0 C X') :
    M.wp (rightSubmatrixSelf X P key d m d0 m0 ro co layout p) () (fun r _ => r = none ↔ ∀ i j, InR m d i j → Close X.atol X.rtol (X' i j) (testMat X m0 d0 p key (ro + i) (co + j))) := by
  unfold rightSubmatrixSelf
  have := rightEye_compares hX hs hm hd hf hw hC hP
  simpa only [one_mul, zero_mul, add_zero] using this

/-- C136 (`transpose_self` from the left). The test accepts exactly if the result is close to the transpose of the matrix. -/
theorem C136_left_transpose_self_compares {X : SpmmFixture N K W WS R T} (hX : FixtureOk X) {L : LeftProduct N K T} {key : Nat} {m n : Int} {layout : Layout} {p : T} (hs : SizeOk X m n p) {X' : Int → Int → T}
    (hL : LeftGives X L m n p key layout .Trans .NoTrans n m m 1 0 0 eyeMat 0 (fun _ _ => 0) X') :
    M.wp (leftTransposeSelf X L key m n layout p) () (fun r _ => r = none ↔ ∀ i j, InR n m i j → Close X.atol X.rtol (X' i j) (testMat X m n p key j i)) := by
  unfold leftTransposeSelf
  refine withTestMatrix_spec hX hs (Q := fun r => r = none ↔ _) fun A hA => ?_
  obtain ⟨g1, g2⟩ := made_op (N := N) (K := K) hs hA
  have := C124_left_transpose_eye hX.env (atol := X.atol) (rtol := X.rtol) (layout := layout) (X' := X') (apply := fun A lda ldb => L layout .Trans .NoTrans n m m 1 0 0 A lda 0 ldb) g1 (fun A' hA' => by
    rw [g2] at hA' ⊢
    exact hL A' _ m _ A hA (by cases layout <;> simp [LdOk, rowsOf, colsOf]) hA' (ldOk_tight _ _ _) (ofFn_holds layout _))
  rw [g2] at this
  exact M.wp_mono this fun r _ h => h.2.2

/-- C136 (`transpose_self` from the right). -/
theorem C136_right_transpose_self_compares {X : SpmmFixture N K W WS R T} (hX : FixtureOk X) {P : RightProduct N K T} {key : Nat} {m n : Int} {layout : Layout} {p : T} (hs : SizeOk X m n p) {X' : Int → Int → T}
    (hP : RightGives X P m n p key layout .NoTrans .Trans n m n 1 0 0 eyeMat 0 (fun _ _ => 0) X') :
    M.wp (rightTransposeSelf X P key m n layout p) () (fun r _ => r = none ↔ ∀ i j, InR n m i j → Close X.atol X.rtol (X' i j) (testMat X m n p key j i)) := by
  unfold rightTransposeSelf
  refine withTestMatrix_spec hX hs (Q := fun r => r = none ↔ _) fun A hA => ?_
  obtain ⟨g1, g2⟩ := made_op (N := N) (K := K) hs hA
  have := C124_right_transpose_eye hX.env (atol := X.atol) (rtol := X.rtol) (layout := layout) (X' := X') (apply := fun A lda ldb => P layout .NoTrans .Trans n m n 1 A lda 0 0 0 ldb) g1 (fun A' hA' => by
    rw [g2] at hA' ⊢
    exact hP A' _ n _ A hA (by cases layout <;> simp [LdOk, rowsOf, colsOf]) hA' (ldOk_tight _ _ _) (ofFn_holds layout _))
  rw [g2] at this
  exact M.wp_mono this fun r _ h => h.2.2

/-! ## Random data as the other factor -/

/-- C136 (`submatrix_other` from the left). The test accepts exactly if the result differs from the product with the window of the random data by at most the bound of the reference. -/
theorem C136_left_submatrix_other_compares {X : SpmmFixture N K W WS R T} (hX : FixtureOk X) {L : LeftProduct N K T} {key : Nat} {d m n m0 n0 ro co : Int} {layout : Layout} {p : T} (hs : SizeOk X d m p)
    (hn : 0 < n) (hf : m0 * n0 ≤ intMax 64) (hlt : m < m0 ∧ n < n0) (hw : InOp m0 n0 m n ro co) {Am X' : Int → Int → T}
    (hAm : Am = fun i j => testData X.E.G ⟨0, X.keyOf 13⟩ m0 n0 (addr layout (tightLd layout m0 n0) (ro + i) (co + j)))
    (hL : LeftGives X L d m p key layout .NoTrans .NoTrans d n m 1 0 0 Am 0 (fun _ _ => 0) X') :
    M.wp (leftSubmatrixOther X L key d m n m0 n0 ro co layout p) () (fun r _ => r = none ↔ ∀ i j, InR d n i j →
      |X' i j - prodEntry m (testMat X d m p key) Am i j| ≤ leftTol X.eps .NoTrans m (testMat X d m p key) Am i j) := by
  unfold leftSubmatrixOther
  simp only [M.wp_bind, M.wp_onLocal, M.wp_pure, M.wp_require]
  refine M.wp_mono (C136_matrix hX.env.gen hX.sq hX.pos hs.rows hs.cols hs.size hs.prob key) ?_
  intro A _ hA
  replace hA := madeFrom_inside hA
  refine ⟨hlt.1, hlt.2, ?_⟩
  obtain ⟨g1, g2⟩ := made_op (N := N) (K := K) hs hA
  have hld : LdOk layout (tightLd layout m0 n0) m n := by obtain ⟨w1, w2, w3, w4⟩ := hw; cases layout <;> simp only [LdOk, tightLd] <;> omega
  have := C124_left_submatrix hX.env (eps := X.eps) (layout := layout) (X' := X') (n := n) (apply := fun A lda ldb => L layout .NoTrans .NoTrans d n m 1 0 0 A lda 0 ldb) g1 hn hf (by rw [g2]; exact hw) hAm (fun A' hA' => by
    rw [g2] at hA' ⊢
    exact hL A' _ _ _ A hA hld hA' (ldOk_tight _ _ _) (ofFn_holds layout _))
  rw [g2] at this
  exact M.wp_mono this fun r _ h => h.2.1

/-- C136 (`submatrix_other` from the right). -/
theorem C136_right_submatrix_other_compares {X : SpmmFixture N K W WS R T} (hX : FixtureOk X) {P : RightProduct N K T} {key : Nat} {d m n m0 n0 ro co : Int} {layout : Layout} {p : T} (hs : SizeOk X n d p)
    (hm : 0 < m) (hf : m0 * n0 ≤ intMax 64) (hw : InOp m0 n0 m n ro co) {Am X' : Int → Int → T}
    (hAm : Am = fun i j => testData X.E.G ⟨0, X.keyOf 1⟩ m0 n0 (addr layout (tightLd layout m0 n0) (ro + i) (co + j)))
    (hP : RightGives X P n d p key layout .NoTrans .NoTrans m d n 1 0 0 Am 0 (fun _ _ => 0) X') :
    M.wp (rightSubmatrixOther X P key d m n m0 n0 ro co layout p) () (fun r _ => r = none ↔ ∀ i j, InR m d i j →
      |X' i j - prodEntry n Am (testMat X n d p key) i j| ≤ rightTol X.eps .NoTrans n Am (testMat X n d p key) i j) := by
  unfold rightSubmatrixOther
  refine withTestMatrix_spec hX hs (Q := fun r => r = none ↔ _) fun A hA => ?_
  obtain ⟨g1, g2⟩ := made_op (N := N) (K := K) hs hA
  have hld : LdOk layout (tightLd layout m0 n0) m n := by obtain ⟨w1, w2, w3, w4⟩ := hw; cases layout <;> simp only [LdOk, tightLd] <;> omega
  have := C124_right_submatrix hX.env (eps := X.eps) (layout := layout) (X' := X') (m := m) (apply := fun A lda ldb => P layout .NoTrans .NoTrans m d n 1 A lda 0 0 0 ldb) g1 hm hf (by rw [g2]; exact hw) hAm (fun A' hA' => by
    rw [g2] at hA' ⊢
    exact hP A' _ _ _ A hA hld hA' (ldOk_tight _ _ _) (ofFn_holds layout _))
  rw [g2] at this
  exact M.wp_mono this fun r _ h => h.2.1

/-- C136 (`transpose_other` from the left). -/
theorem C136_left_transpose_other_compares {X : SpmmFixture N K W WS R T} (hX : FixtureOk X) {L : LeftProduct N K T} {key : Nat} {d m n : Int} {layout : Layout} {p : T} (hs : SizeOk X d m p)
    (hn : 0 < n) (hf : n * m ≤ intMax 64) {Am X' : Int → Int → T} (hAm : Am = fun i j => testData X.E.G ⟨0, X.keyOf 101⟩ n m (addr layout (tightLd layout n m) i j))
    (hL : LeftGives X L d m p key layout .NoTrans .Trans d n m 1 0 0 Am 0 (fun _ _ => 0) X') :
    M.wp (leftTransposeOther X L key d m n layout p) () (fun r _ => r = none ↔ ∀ i j, InR d n i j →
      |X' i j - prodEntry m (testMat X d m p key) (fun k j => Am j k) i j| ≤ leftTol X.eps .Trans m (testMat X d m p key) Am i j) := by
  unfold leftTransposeOther
  refine withTestMatrix_spec hX hs (Q := fun r => r = none ↔ _) fun A hA => ?_
  obtain ⟨g1, g2⟩ := made_op (N := N) (K := K) hs hA
  have := C124_left_transposed hX.env (eps := X.eps) (seedA := ⟨0, X.keyOf 101⟩) (layout := layout) (X' := X') (n := n) (Am := Am) (apply := fun A lda ldb => L layout .NoTrans .Trans d n m 1 0 0 A lda 0 ldb) g1 hn (by rw [g2]; exact hf) (by rw [g2]; exact hAm) (by
    rw [g2]
    exact hL _ _ _ _ A hA (ldOk_tight layout n m) (by rw [hAm]; exact ofFn_holds layout _) (ldOk_tight _ _ _) (ofFn_holds layout _))
  rw [g2] at this
  exact M.wp_mono this fun r _ h => h.2.1

/-- C136 (`transpose_other` from the right). -/
theorem C136_right_transpose_other_compares {X : SpmmFixture N K W WS R T} (hX : FixtureOk X) {P : RightProduct N K T} {key : Nat} {d n m : Int} {layout : Layout} {p : T} (hs : SizeOk X n d p)
    (hm : 0 < m) (hf : n * m ≤ intMax 64) {Am X' : Int → Int → T} (hAm : Am = fun i j => testData X.E.G ⟨0, X.keyOf 0⟩ n m (addr layout (tightLd layout n m) i j))
    (hP : RightGives X P n d p key layout .Trans .NoTrans m d n 1 0 0 Am 0 (fun _ _ => 0) X') :
    M.wp (rightTransposeOther X P key d n m layout p) () (fun r _ => r = none ↔ ∀ i j, InR m d i j →
      |X' i j - prodEntry n (fun i k => Am k i) (testMat X n d p key) i j| ≤ rightTol X.eps .Trans n Am (testMat X n d p key) i j) := by
  unfold rightTransposeOther
  refine withTestMatrix_spec hX hs (Q := fun r => r = none ↔ _) fun A hA => ?_
  obtain ⟨g1, g2⟩ := made_op (N := N) (K := K) hs hA
  have := C124_right_transposed hX.env (eps := X.eps) (seedA := ⟨0, X.keyOf 0⟩) (layout := layout) (X' := X') (m := m) (Am := Am) (apply := fun A lda ldb => P layout .Trans .NoTrans m d n 1 A lda 0 0 0 ldb) g1 hm (by rw [g2]; exact hf) (by rw [g2]; exact hAm) (by
    rw [g2]
    exact hP _ _ _ _ A hA (ldOk_tight layout n m) (by rw [hAm]; exact ofFn_holds layout _) (ldOk_tight _ _ _) (ofFn_holds layout _))
  rw [g2] at this
  exact M.wp_mono this fun r _ h => h.2.1

/-! ## The library -/

/-- The library passes a test of a window with the identity, from the left. -/
theorem library_leftEye {X : SpmmFixture N K W WS R T} (hX : FixtureOk X) {key : Nat} {m n d1 m1 ro co : Int} {layout : Layout} {p alpha beta : T} (hs : SizeOk X m n p)
    (hd : 0 < d1) (hm : 0 < m1) (hf : d1 * m1 ≤ intMax 64) (hw : InOp m n d1 m1 ro co) (hw' : FmtWindow X.fmt m n d1 m1 ro co)
    (hk : alpha ≠ 0 → KernelOk X.fmt .NoTrans layout .NoTrans d1 m1 (subMat ro co (testMat X m n p key))) :
    M.wp (withTestMatrix X m n p key (testLeftEye X.E X.atol X.rtol ⟨0, X.keyOf 42⟩ (fun A lda ldb => leftApply X.E layout .NoTrans .NoTrans d1 m1 m1 alpha ro co A lda beta ldb) alpha d1 m1 ro co layout beta)) ()
      (fun r _ => r = none) := by
  refine withTestMatrix_spec hX hs (Q := fun r => r = none) fun A hA => ?_
  obtain ⟨-, g2⟩ := made_op (N := N) (K := K) hs hA
  exact M.wp_mono (C124_library_left_eye hX.env hX.atol (made_leftUsable hs hA (by omega) hw' hk) hd hm hf (by rw [g2]; exact hw)) fun r _ h => h.2.2

/-- The same from the right. -/
theorem library_rightEye {X : SpmmFixture N K W WS R T} (hX : FixtureOk X) {key : Nat} {m n d1 m1 ro co : Int} {layout : Layout} {p alpha beta : T} (hs : SizeOk X m n p)
    (hd : 0 < d1) (hm : 0 < m1) (hf : d1 * m1 ≤ intMax 64) (hw : InOp m n d1 m1 ro co) (hw' : FmtWindow X.fmt m n d1 m1 ro co)
    (hk : alpha ≠ 0 → KernelOk X.fmt .Trans layout.flip .NoTrans m1 d1 (fun i j => subMat ro co (testMat X m n p key) j i)) :
    M.wp (withTestMatrix X m n p key (testRightEye X.E X.atol X.rtol ⟨0, X.keyOf 11⟩ (fun A lda ldb => rightApply X.E layout .NoTrans .NoTrans d1 m1 d1 alpha A lda ro co beta ldb) alpha d1 m1 ro co layout beta)) ()
      (fun r _ => r = none) := by
  refine withTestMatrix_spec hX hs (Q := fun r => r = none) fun A hA => ?_
  obtain ⟨-, g2⟩ := made_op (N := N) (K := K) hs hA
  exact M.wp_mono (C124_library_right_eye hX.env hX.atol (made_rightUsable hs hA (by omega) hw' hk) hd hm hf (by rw [g2]; exact hw)) fun r _ h => h.2.2

/-- C136 (the library, `multiply_eye` from the left). Missing: the matrices for which the kernels fail (C31, C33: all nonzeros in the first column). -/
theorem C136_left_eye_partial {X : SpmmFixture N K W WS R T} (hX : FixtureOk X) {key : Nat} {m n : Int} {layout : Layout} {p : T} (hs : SizeOk X m n p)
    (hk : KernelOk X.fmt .NoTrans layout .NoTrans m n (testMat X m n p key)) : M.wp (leftMultiplyEye X (leftApply X.E) key m n layout p) () (fun r _ => r = none) :=
  library_leftEye hX hs hs.rows hs.cols hs.size (whole_inOp m n) (fmtWindow_whole _ m n) (fun _ => by rw [subMat_zero]; exact hk)

/-- C136 (the library, `alpha_beta` from the left). Missing: as in `C136_left_eye_partial`. -/
theorem C136_left_alpha_beta_partial {X : SpmmFixture N K W WS R T} (hX : FixtureOk X) {key : Nat} {m n : Int} {layout : Layout} {p alpha beta : T} (hs : SizeOk X m n p) (hab : alpha ≠ 1 ∨ beta ≠ 0)
    (hk : alpha ≠ 0 → KernelOk X.fmt .NoTrans layout .NoTrans m n (testMat X m n p key)) : M.wp (leftAlphaBeta X (leftApply X.E) key alpha beta m n layout p) () (fun r _ => r = none) := by
  unfold leftAlphaBeta
  simp only [M.wp_bind, M.wp_require]
  exact ⟨hab, library_leftEye hX hs hs.rows hs.cols hs.size (whole_inOp m n) (fmtWindow_whole _ m n) (fun h => by rw [subMat_zero]; exact hk h)⟩

omit [IsStrictOrderedRing T] in
/-- C136 (errors). `alpha_beta` from the left refuses `alpha = 1`, `beta = 0`. -/
theorem C136_left_alpha_beta_error (X : SpmmFixture N K W WS R T) (L : LeftProduct N K T) (key : Nat) (m n : Int) (layout : Layout) (p : T) :
    leftAlphaBeta X L key 1 0 m n layout p () = (.throw .require, ()) := by
  unfold leftAlphaBeta
  have e0 : (M.require ((1 : T) ≠ 1 ∨ (0 : T) ≠ 0) : M Unit Unit) () = (.throw .require, ()) := by unfold M.require M.lift Res.require; rw [if_neg (by simp)]
  rw [M.bind_throw e0]

/-- C136 (the library, `submatrix_self` from the left, COO). Missing: as in `C136_left_eye_partial`, and the other formats, which are not used in this test. -/
theorem C136_left_submatrix_self_partial {X : SpmmFixture N K W WS R T} (hX : FixtureOk X) (hcoo : X.fmt = .coo) {key : Nat} {d m d0 m0 ro co : Int} {layout : Layout} {p : T} (hs : SizeOk X d0 m0 p)
    (hd : 0 < d) (hm : 0 < m) (hlt : d < d0 ∧ m < m0) (hw : InOp d0 m0 d m ro co)
    (hk : NotOnlyFirst d m (subMat ro co (testMat X d0 m0 p key))) : M.wp (leftSubmatrixSelf X (leftApply X.E) key d m d0 m0 ro co layout p) () (fun r _ => r = none) := by
  unfold leftSubmatrixSelf
  simp only [M.wp_bind, M.wp_require]
  have hf : d * m ≤ intMax 64 := le_trans (by nlinarith) hs.size
  exact ⟨hlt.1, hlt.2, library_leftEye hX hs hd hm hf hw (by rw [hcoo]; exact ⟨hlt.1.le, hlt.2.le⟩) (fun _ => by rw [hcoo]; exact hk)⟩

/-- C136 (the library, `transpose_self` from the left). Missing: as in `C136_left_eye_partial`. -/
theorem C136_left_transpose_self_partial {X : SpmmFixture N K W WS R T} (hX : FixtureOk X) {key : Nat} {m n : Int} {layout : Layout} {p : T} (hs : SizeOk X m n p)
    (hk : KernelOk X.fmt .Trans layout .NoTrans n m (fun i j => testMat X m n p key j i)) : M.wp (leftTransposeSelf X (leftApply X.E) key m n layout p) () (fun r _ => r = none) := by
  unfold leftTransposeSelf
  refine withTestMatrix_spec hX hs (Q := fun r => r = none) fun A hA => ?_
  obtain ⟨-, g2⟩ := made_op (N := N) (K := K) hs hA
  have := C124_library_left_transpose_eye hX.env (S := .mat A) (rtol := X.rtol) (layout := layout) hX.atol (by
    rw [g2]; exact made_leftUsable hs hA (by have := hs.rows; omega) (fmtWindow_whole _ m n) (fun _ => by rw [subMat_zero]; exact hk))
  rw [g2] at this
  exact M.wp_mono this fun r _ h => h.2.2

/-- C136 (the library, `submatrix_other` from the left). Missing: as in `C136_left_eye_partial`. -/
theorem C136_left_submatrix_other_partial {X : SpmmFixture N K W WS R T} (hX : FixtureOk X) {key : Nat} {d m n m0 n0 ro co : Int} {layout : Layout} {p : T} (hs : SizeOk X d m p)
    (hn : 0 < n) (hf : m0 * n0 ≤ intMax 64) (hlt : m < m0 ∧ n < n0) (hw : InOp m0 n0 m n ro co) (hk : KernelOk X.fmt .NoTrans layout .NoTrans d m (testMat X d m p key)) :
    M.wp (leftSubmatrixOther X (leftApply X.E) key d m n m0 n0 ro co layout p) () (fun r _ => r = none) := by
  unfold leftSubmatrixOther
  simp only [M.wp_bind, M.wp_onLocal, M.wp_pure, M.wp_require]
  refine M.wp_mono (C136_matrix hX.env.gen hX.sq hX.pos hs.rows hs.cols hs.size hs.prob key) ?_
  intro A _ hA
  replace hA := madeFrom_inside hA
  refine ⟨hlt.1, hlt.2, ?_⟩
  obtain ⟨-, g2⟩ := made_op (N := N) (K := K) hs hA
  have hu : LeftTestable X.E 1 layout (.mat A) (testMat X d m p key) := leftTestable_of (by
    obtain ⟨-, r1, r2, -⟩ := id hA
    rw [r1, r2]; exact made_leftUsable hs hA (by have := hs.cols; omega) (fmtWindow_whole _ d m) (fun _ => by rw [subMat_zero]; exact hk))
  have := C124_library_left_submatrix hX.env hX.eps (seedA := ⟨0, X.keyOf 13⟩) hu hn hf (by rw [g2]; exact hw)
  rw [g2] at this
  exact M.wp_mono this fun r _ h => h.2

/-- C136 (the library, `transpose_other` from the left). Missing: as in `C136_left_eye_partial`. -/
theorem C136_left_transpose_other_partial {X : SpmmFixture N K W WS R T} (hX : FixtureOk X) {key : Nat} {d m n : Int} {layout : Layout} {p : T} (hs : SizeOk X d m p)
    (hn : 0 < n) (hf : n * m ≤ intMax 64) (hk : KernelOk X.fmt .NoTrans layout .Trans d m (testMat X d m p key)) :
    M.wp (leftTransposeOther X (leftApply X.E) key d m n layout p) () (fun r _ => r = none) := by
  unfold leftTransposeOther
  refine withTestMatrix_spec hX hs (Q := fun r => r = none) fun A hA => ?_
  obtain ⟨-, g2⟩ := made_op (N := N) (K := K) hs hA
  have := C124_library_left_transposed hX.env hX.eps (seedA := ⟨0, X.keyOf 101⟩) (S := .mat A) (layout := layout) (by
    rw [g2]; exact made_leftUsable hs hA (by have := hs.cols; omega) (fmtWindow_whole _ d m) (fun _ => by rw [subMat_zero]; exact hk)) hn (by rw [g2]; exact hf)
  rw [g2] at this
  exact M.wp_mono this fun r _ h => h.2

/-- C136 (the library, `multiply_eye` from the right). The kernels see the transpose of the matrix in the other layout. Missing: as in `C136_left_eye_partial`. -/
theorem C136_right_eye_partial {X : SpmmFixture N K W WS R T} (hX : FixtureOk X) {key : Nat} {m n : Int} {layout : Layout} {p : T} (hs : SizeOk X m n p)
    (hk : KernelOk X.fmt .Trans layout.flip .NoTrans n m (fun i j => testMat X m n p key j i)) : M.wp (rightMultiplyEye X (rightApply X.E) key m n layout p) () (fun r _ => r = none) :=
  library_rightEye hX hs hs.rows hs.cols hs.size (whole_inOp m n) (fmtWindow_whole _ m n) (fun _ => by rw [subMat_zero]; exact hk)

/-- C136 (the library, `alpha_beta` from the right). Missing: as in `C136_left_eye_partial`. -/
theorem C136_right_alpha_beta_partial {X : SpmmFixture N K W WS R T} (hX : FixtureOk X) {key : Nat} {m n : Int} {layout : Layout} {p alpha beta : T} (hs : SizeOk X m n p)
    (hk : alpha ≠ 0 → KernelOk X.fmt .Trans layout.flip .NoTrans n m (fun i j => testMat X m n p key j i)) : M.wp (rightAlphaBeta X (rightApply X.E) key alpha beta m n layout p) () (fun r _ => r = none) :=
  library_rightEye hX hs hs.rows hs.cols hs.size (whole_inOp m n) (fmtWindow_whole _ m n) (fun h => by rw [subMat_zero]; exact hk h)

/-- C136 (the library, `submatrix_self` from the right, COO). Missing: as in `C136_left_submatrix_self_partial`. -/
theorem C136_right_submatrix_self_partial {X : SpmmFixture N K W WS R T} (hX : FixtureOk X) (hcoo : X.fmt = .coo) {key : Nat} {d m d0 m0 ro co : Int} {layout : Layout} {p : T} (hs : SizeOk X m0 d0 p)
    (hd : 0 < d) (hm : 0 < m) (hw : InOp m0 d0 m d ro co) (hk : NotOnlyFirst d m (fun i j => subMat ro co (testMat X m0 d0 p key) j i)) :
    M.wp (rightSubmatrixSelf X (rightApply X.E) key d m d0 m0 ro co layout p) () (fun r _ => r = none) := by
  obtain ⟨w1, w2, w3, w4⟩ := id hw
  have hf : m * d ≤ intMax 64 := le_trans (by nlinarith [hs.rows, hs.cols]) hs.size
  exact library_rightEye hX hs hm hd hf hw (by rw [hcoo]; exact ⟨by omega, by omega⟩) (fun _ => by rw [hcoo]; exact hk)

/-- C136 (the library, `transpose_self` from the right). Missing: as in `C136_left_eye_partial`. -/
theorem C136_right_transpose_self_partial {X : SpmmFixture N K W WS R T} (hX : FixtureOk X) {key : Nat} {m n : Int} {layout : Layout} {p : T} (hs : SizeOk X m n p)
    (hk : KernelOk X.fmt .NoTrans layout.flip .NoTrans m n (testMat X m n p key)) : M.wp (rightTransposeSelf X (rightApply X.E) key m n layout p) () (fun r _ => r = none) := by
  unfold rightTransposeSelf
  refine withTestMatrix_spec hX hs (Q := fun r => r = none) fun A hA => ?_
  obtain ⟨-, g2⟩ := made_op (N := N) (K := K) hs hA
  have := C124_library_right_transpose_eye hX.env (S := .mat A) (rtol := X.rtol) (layout := layout) hX.atol (by
    rw [g2]; exact made_rightUsable hs hA (by have := hs.cols; omega) (fmtWindow_whole _ m n) (fun _ => by rw [subMat_zero]; exact hk))
  rw [g2] at this
  exact M.wp_mono this fun r _ h => h.2.2

/-- C136 (the library, `submatrix_other` from the right). Missing: as in `C136_left_eye_partial`. -/
theorem C136_right_submatrix_other_partial {X : SpmmFixture N K W WS R T} (hX : FixtureOk X) {key : Nat} {d m n m0 n0 ro co : Int} {layout : Layout} {p : T} (hs : SizeOk X n d p)
    (hm : 0 < m) (hf : m0 * n0 ≤ intMax 64) (hw : InOp m0 n0 m n ro co) (hk : KernelOk X.fmt .Trans layout.flip .NoTrans d n (fun i j => testMat X n d p key j i)) :
    M.wp (rightSubmatrixOther X (rightApply X.E) key d m n m0 n0 ro co layout p) () (fun r _ => r = none) := by
  unfold rightSubmatrixOther
  refine withTestMatrix_spec hX hs (Q := fun r => r = none) fun A hA => ?_
  obtain ⟨-, g2⟩ := made_op (N := N) (K := K) hs hA
  have hu : RightTestable X.E 1 layout (.mat A) (testMat X n d p key) := rightTestable_of (by
    obtain ⟨-, r1, r2, -⟩ := id hA
    rw [r1, r2]; exact made_rightUsable hs hA (by have := hs.rows; omega) (fmtWindow_whole _ n d) (fun _ => by rw [subMat_zero]; exact hk))
  have := C124_library_right_submatrix hX.env hX.eps (seedA := ⟨0, X.keyOf 1⟩) hu hm hf (by rw [g2]; exact hw)
  rw [g2] at this
  exact M.wp_mono this fun r _ h => h.2

/-- C136 (the library, `transpose_other` from the right). Missing: as in `C136_left_eye_partial`. -/
theorem C136_right_transpose_other_partial {X : SpmmFixture N K W WS R T} (hX : FixtureOk X) {key : Nat} {d n m : Int} {layout : Layout} {p : T} (hs : SizeOk X n d p)
    (hm : 0 < m) (hf : n * m ≤ intMax 64) (hk : KernelOk X.fmt .Trans layout.flip .Trans d n (fun i j => testMat X n d p key j i)) :
    M.wp (rightTransposeOther X (rightApply X.E) key d n m layout p) () (fun r _ => r = none) := by
  unfold rightTransposeOther
  refine withTestMatrix_spec hX hs (Q := fun r => r = none) fun A hA => ?_
  obtain ⟨-, g2⟩ := made_op (N := N) (K := K) hs hA
  have := C124_library_right_transposed hX.env hX.eps (seedA := ⟨0, X.keyOf 0⟩) (S := .mat A) (layout := layout) (by
    rw [g2]; exact made_rightUsable hs hA (by have := hs.rows; omega) (fmtWindow_whole _ n d) (fun _ => by rw [subMat_zero]; exact hk)) hm (by rw [g2]; exact hf)
  rw [g2] at this
  exact M.wp_mono this fun r _ h => h.2

omit [IsStrictOrderedRing T] in
/-- C136 (errors). `submatrix_self` from the left refuses a window with as many rows or columns as the matrix. -/
theorem C136_left_submatrix_self_error (X : SpmmFixture N K W WS R T) (L : LeftProduct N K T) (key : Nat) {d m d0 m0 : Int} (h : d0 ≤ d ∨ m0 ≤ m) (ro co : Int) (layout : Layout) (p : T) :
    leftSubmatrixSelf X L key d m d0 m0 ro co layout p () = (.throw .require, ()) := by
  unfold leftSubmatrixSelf
  by_cases h0 : d0 > d
  · have e0 : (M.require (d0 > d) : M Unit Unit) () = (.ok (), ()) := by unfold M.require M.lift Res.require; rw [if_pos h0]
    have e1 : (M.require (m0 > m) : M Unit Unit) () = (.throw .require, ()) := by unfold M.require M.lift Res.require; rw [if_neg (by omega)]
    rw [M.bind_ok e0, M.bind_throw e1]
  · have e0 : (M.require (d0 > d) : M Unit Unit) () = (.throw .require, ()) := by unfold M.require M.lift Res.require; rw [if_neg h0]
    rw [M.bind_throw e0]

/-! ## The hypotheses are met -/

/-- A fixture with real numbers. -/
noncomputable def exFixture (fmt : SpFmt) : SpmmFixture (2 ^ 128) Nat Int Int ℚ ℝ := ⟨exSkEnvR, 1 / 1000, 1 / 1000, 1 / 1000, [], [], fmt, id⟩

theorem exFixture_ok (fmt : SpFmt) : FixtureOk (exFixture fmt) :=
  ⟨exSkEnvR_ok, Real.mul_self_sqrt (by norm_num), by simp [exFixture, exSkEnvR], by norm_num [exFixture], by norm_num [exFixture]⟩

theorem exFixture_size (fmt : SpFmt) {m n : Int} (hm : 0 < m) (hn : 0 < n) (h : m * n ≤ intMax 64) (hc : n ≤ 2 ^ 31) {p : ℝ} (hp : 0 ≤ p ∧ p ≤ 1) : SizeOk (exFixture fmt) m n p :=
  ⟨hm, hn, h, hp, fun _ => hc⟩

/-- An entry of the matrix of the examples. -/
theorem exFixture_entry (fmt : SpFmt) : testMat (exFixture fmt) 2 3 1 0 1 0 = Real.sqrt 3 ∧ testMat (exFixture fmt) 2 3 1 0 0 1 = Real.sqrt 3 * 2 := by
  have h3 := Real.sqrt_nonneg 3
  constructor
  · simp [testMat, inside, sparsifiedTest, flatUnif, denseRaw, genValue, exFixture, exSkEnvR]
    intro h; linarith
  · simp [testMat, inside, sparsifiedTest, flatUnif, denseRaw, genValue, exFixture, exSkEnvR]
    linarith

theorem exFixture_kernel (fmt : SpFmt) : NotOnlyFirst 2 3 (testMat (exFixture fmt) 2 3 1 0) := fun _ _ =>
  ⟨0, 1, ⟨by norm_num, by norm_num, by norm_num, by norm_num⟩, by norm_num, by rw [(exFixture_entry fmt).2]; simp⟩

/-- The library passes `multiply_eye` from the left with a 2 x 3 matrix in each format. -/
example (fmt : SpFmt) : M.wp (leftMultiplyEye (exFixture fmt) (leftApply (exFixture fmt).E) 0 2 3 .ColMajor 1) () (fun r _ => r = none) :=
  C136_left_eye_partial (exFixture_ok fmt) (exFixture_size fmt (by norm_num) (by norm_num) (by norm_num [intMax]) (by norm_num) ⟨by norm_num, le_rfl⟩) (by
    cases fmt
    · exact exFixture_kernel _
    · show KernelOk .csc _ _ _ _ _ _
      simp only [KernelOk]; rw [if_neg (by simp)]; exact exFixture_kernel _
    · show KernelOk .csr _ _ _ _ _ _
      simp only [KernelOk]; rw [if_neg (by simp)]; norm_num)

/-- A 200 x 30 CSR matrix of the suite, every probability and key. -/
example (key : Nat) {p : ℝ} (hp : 0 ≤ p ∧ p ≤ 1) : M.wp (leftMultiplyEye (exFixture .csr) (leftApply (exFixture .csr).E) key 200 30 .RowMajor p) () (fun r _ => r = none) ∧
    M.wp (rightTransposeOther (exFixture .csc) (rightApply (exFixture .csc).E) key 7 5 22 .RowMajor p) () (fun r _ => r = none) :=
  ⟨C136_left_eye_partial (exFixture_ok .csr) (exFixture_size .csr (by norm_num) (by norm_num) (by norm_num [intMax]) (by norm_num) hp) trivial,
   C136_right_transpose_other_partial (exFixture_ok .csc) (exFixture_size .csc (by norm_num) (by norm_num) (by norm_num [intMax]) (by norm_num) hp) (by norm_num) (by norm_num [intMax])
    (by simp only [exFixture, KernelOk]; rw [if_neg (by simp)]; norm_num)⟩

/-- A product that does nothing does not pass `transpose_self`. -/
example (fmt : SpFmt) : M.wp (leftTransposeSelf (exFixture fmt) (fun _ _ _ _ _ _ _ _ _ _ _ _ _ => pure ()) 0 2 3 .ColMajor 1) () (fun r _ => r ≠ none) := by
  have hs : SizeOk (exFixture fmt) 2 3 1 := exFixture_size fmt (by norm_num) (by norm_num) (by norm_num [intMax]) (by norm_num) ⟨by norm_num, le_rfl⟩
  refine M.wp_mono (C136_left_transpose_self_compares (exFixture_ok fmt) (X' := fun _ _ => 0) hs ?_) fun r _ h hr => ?_
  · intro A b lda ldb S hS _ _ _ hb
    rw [M.wp_pure]
    obtain ⟨g1, g2⟩ := made_op (N := 2 ^ 128) (K := Nat) hs hS
    exact ⟨g1, g2, hb⟩
  · have := h.mp hr 1 0 ⟨by norm_num, by norm_num, by norm_num, by norm_num⟩
    rw [(exFixture_entry fmt).2] at this
    have h3 : (1 : ℝ) < Real.sqrt 3 := by rw [Real.lt_sqrt] <;> norm_num
    simp only [Close, exFixture, zero_sub, abs_neg, abs_zero, abs_mul] at this
    rw [abs_of_nonneg (Real.sqrt_nonneg 3)] at this
    norm_num at this
    linarith

end RB
