import Verif.Props.TestSkgeFixtures

/-!
# C137: the sketching kernel tests, fixture by fixture

The matrix `Sm` of the operator is determined by its distribution and key (`IsTestMat`; it exists by `C137_operator`). The product under test is described by `LeftOpGives` or `RightOpGives`.
-/

namespace RB
open Spec
variable {N : Nat} {K W WS R T : Type} [Field T] [LinearOrder T] [IsStrictOrderedRing T] [Field R] [LinearOrder R] [IsStrictOrderedRing R] [FloorRing R]
variable {F : SkgeFixture N K W WS R T} {L : LeftProduct N K T} {P : RightProduct N K T} {key : Nat} {Sm : Int → Int → T} {layout : Layout}

/-! ## Dense operators from the left -/

omit [IsStrictOrderedRing T] in
/-- C137 (`TestLSKGE3::sketch_eye`). The test accepts exactly if the result of the product with the identity is close to the matrix of the operator. -/
theorem C137_lskge3_eye_compares (hF : SkgeOk F) {m d : Int} {pre : Bool} (h : OpOk F (.dense pre) d m key) (hSm : IsTestMat F (.dense pre) d m key Sm) (hf : d * m ≤ intMax 64)
    {C X' : Int → Int → T} (hC : C = fun i j => testData F.E.G ⟨0, F.keyOf 42⟩ d m (addr layout (tightLd layout d m) i j))
    (hg : LeftOpGives F L (.dense pre) d m key Sm layout .NoTrans .NoTrans d m m 1 0 0 eyeMat 0 C X') :
    M.wp (lskge3Eye F L key m d pre layout) () (fun r _ => r = none ↔ ∀ i j, InR d m i j → Close F.atol F.rtol (X' i j) (Sm i j)) := by
  unfold lskge3Eye
  have := leftEye_op hF h hSm h.1 h.2.1 hf (whole_inOp _ _) hC hg
  simp only [one_mul, zero_mul, add_zero, zero_add] at this
  exact this

omit [IsStrictOrderedRing T] in
/-- C137 (`TestLSKGE3::sketch_eye`). The library passes the test. -/
theorem C137_lskge3_eye (hF : SkgeOk F) {m d : Int} {pre : Bool} (h : OpOk F (.dense pre) d m key) (hf : d * m ≤ intMax 64) :
    M.wp (lskge3Eye F (leftApply F.E) key m d pre layout) () (fun r _ => r = none) := by
  unfold lskge3Eye
  obtain ⟨Sm, hSm⟩ := (C137_operator hF h).2
  exact leftEye_lib hF h h.1 h.2.1 hf (whole_inOp _ _) hSm (fun S hS => madeOp_left hF h hSm hS h.1 h.2.1 (whole_inOp _ _) trivial)

omit [IsStrictOrderedRing T] in
/-- C137 (`TestLSKGE3::transpose_S`). The test accepts exactly if the result is close to the transpose of the matrix of the operator. -/
theorem C137_lskge3_transpose_compares (hF : SkgeOk F) {m d : Int} (h : OpOk F (.dense true) m d key) (hSm : IsTestMat F (.dense true) m d key Sm) {X' : Int → Int → T}
    (hg : LeftOpGives F L (.dense true) m d key Sm layout .Trans .NoTrans d m m 1 0 0 eyeMat 0 (fun _ _ => 0) X') :
    M.wp (lskge3Transpose F L key m d layout) () (fun r _ => r = none ↔ ∀ i j, InR d m i j → Close F.atol F.rtol (X' i j) (Sm j i)) :=
  leftTrans_op hF h hSm hg

omit [IsStrictOrderedRing T] in
/-- C137 (`TestLSKGE3::transpose_S`). The library passes the test. -/
theorem C137_lskge3_transpose (hF : SkgeOk F) {m d : Int} (h : OpOk F (.dense true) m d key) : M.wp (lskge3Transpose F (leftApply F.E) key m d layout) () (fun r _ => r = none) := by
  obtain ⟨Sm, hSm⟩ := (C137_operator hF h).2
  exact leftTrans_lib hF h hSm trivial

omit [IsStrictOrderedRing T] in
/-- C137 (`TestLSKGE3::submatrix_S`). The test accepts exactly if the result of the product with the identity is close to the window of the operator. -/
theorem C137_lskge3_submatrix_S_compares (hF : SkgeOk F) {d m d0 m0 ro co : Int} (h : OpOk F (.dense false) d0 m0 key) (hSm : IsTestMat F (.dense false) d0 m0 key Sm) (hlt : d < d0 ∧ m < m0) (hd : 0 < d) (hm : 0 < m) (hw : InOp d0 m0 d m ro co) (hf : d * m ≤ intMax 64)
    {C X' : Int → Int → T} (hC : C = fun i j => testData F.E.G ⟨0, F.keyOf 42⟩ d m (addr layout (tightLd layout d m) i j))
    (hg : LeftOpGives F L (.dense false) d0 m0 key Sm layout .NoTrans .NoTrans d m m 1 ro co eyeMat 0 C X') :
    M.wp (lskge3SubmatrixS F L key d m d0 m0 ro co layout) () (fun r _ => r = none ↔ ∀ i j, InR d m i j → Close F.atol F.rtol (X' i j) (Sm (ro + i) (co + j))) := by
  unfold lskge3SubmatrixS
  simp only [M.wp_bind, M.wp_require]
  have := leftEye_op hF h hSm hd hm hf hw hC hg
  simp only [one_mul, zero_mul, add_zero] at this
  exact ⟨hlt.1, hlt.2, this⟩

omit [IsStrictOrderedRing T] in
/-- C137 (`TestLSKGE3::submatrix_S`). The library passes the test. -/
theorem C137_lskge3_submatrix_S (hF : SkgeOk F) {d m d0 m0 ro co : Int} (h : OpOk F (.dense false) d0 m0 key) (hlt : d < d0 ∧ m < m0) (hd : 0 < d) (hm : 0 < m) (hw : InOp d0 m0 d m ro co) (hf : d * m ≤ intMax 64) :
    M.wp (lskge3SubmatrixS F (leftApply F.E) key d m d0 m0 ro co layout) () (fun r _ => r = none) := by
  unfold lskge3SubmatrixS
  simp only [M.wp_bind, M.wp_require]
  obtain ⟨Sm, hSm⟩ := (C137_operator hF h).2
  exact ⟨hlt.1, hlt.2, leftEye_lib hF h hd hm hf hw hSm (fun S hS => madeOp_left hF h hSm hS hd hm hw trivial)⟩

/-- C137 (`TestLSKGE3::submatrix_A`). The test accepts exactly if the result differs from the product with the window of the random data by at most the bound of the reference. -/
theorem C137_lskge3_submatrix_A_compares (hF : SkgeOk F) {d m n m0 n0 ro co : Int} (h : OpOk F (.dense false) d m key) (hSm : IsTestMat F (.dense false) d m key Sm) (hlt : m < m0 ∧ n < n0) (hn : 0 < n) (hf : m0 * n0 ≤ intMax 64) (hw : InOp m0 n0 m n ro co)
    {Am X' : Int → Int → T} (hAm : Am = fun i j => testData F.E.G ⟨0, F.keyOf 13⟩ m0 n0 (addr layout (tightLd layout m0 n0) (ro + i) (co + j)))
    (hg : LeftOpGives F L (.dense false) d m key Sm layout .NoTrans .NoTrans d n m 1 0 0 Am 0 (fun _ _ => 0) X') :
    M.wp (lskge3SubmatrixA F L key d m n m0 n0 ro co layout) () (fun r _ => r = none ↔ ∀ i j, InR d n i j → |X' i j - prodEntry m Sm Am i j| ≤ leftTol F.eps .NoTrans m Sm Am i j) := by
  unfold lskge3SubmatrixA
  simp only [M.wp_bind, M.wp_require]
  exact ⟨hlt.1, hlt.2, leftSub_op hF h hSm hn hf hw hAm hg⟩

/-- C137 (`TestLSKGE3::submatrix_A`). The library passes the test. -/
theorem C137_lskge3_submatrix_A (hF : SkgeOk F) {d m n m0 n0 ro co : Int} (h : OpOk F (.dense false) d m key) (hlt : m < m0 ∧ n < n0) (hn : 0 < n) (hf : m0 * n0 ≤ intMax 64) (hw : InOp m0 n0 m n ro co) :
    M.wp (lskge3SubmatrixA F (leftApply F.E) key d m n m0 n0 ro co layout) () (fun r _ => r = none) := by
  unfold lskge3SubmatrixA
  simp only [M.wp_bind, M.wp_require]
  obtain ⟨Sm, hSm⟩ := (C137_operator hF h).2
  exact ⟨hlt.1, hlt.2, leftSub_lib hF h hSm hn hf hw (fun S hS => madeOp_left hF h hSm hS h.1 h.2.1 (whole_inOp _ _) trivial)⟩

/-! ## Dense operators from the right -/

omit [IsStrictOrderedRing T] in
/-- C137 (`TestRSKGE3::sketch_eye`). The test accepts exactly if the result of the product with the identity is close to the matrix of the operator. -/
theorem C137_rskge3_eye_compares (hF : SkgeOk F) {m d : Int} {pre : Bool} (h : OpOk F (.dense pre) m d key) (hSm : IsTestMat F (.dense pre) m d key Sm) (hf : m * d ≤ intMax 64)
    {C X' : Int → Int → T} (hC : C = fun i j => testData F.E.G ⟨0, F.keyOf 11⟩ m d (addr layout (tightLd layout m d) i j))
    (hg : RightOpGives F P (.dense pre) m d key Sm layout .NoTrans .NoTrans m d m 1 0 0 eyeMat 0 C X') :
    M.wp (rskge3Eye F P key m d pre layout) () (fun r _ => r = none ↔ ∀ i j, InR m d i j → Close F.atol F.rtol (X' i j) (Sm i j)) := by
  unfold rskge3Eye
  have := rightEye_op hF h hSm h.1 h.2.1 hf (whole_inOp _ _) hC hg
  simp only [one_mul, zero_mul, add_zero, zero_add] at this
  exact this

omit [IsStrictOrderedRing T] in
/-- C137 (`TestRSKGE3::sketch_eye`). The library passes the test. -/
theorem C137_rskge3_eye (hF : SkgeOk F) {m d : Int} {pre : Bool} (h : OpOk F (.dense pre) m d key) (hf : m * d ≤ intMax 64) :
    M.wp (rskge3Eye F (rightApply F.E) key m d pre layout) () (fun r _ => r = none) := by
  unfold rskge3Eye
  obtain ⟨Sm, hSm⟩ := (C137_operator hF h).2
  exact rightEye_lib hF h h.1 h.2.1 hf (whole_inOp _ _) hSm (fun S hS => madeOp_right hF h hSm trivial hS h.2.1 h.1 (whole_inOp _ _) trivial)

omit [IsStrictOrderedRing T] in
/-- C137 (`TestRSKGE3::transpose_S`). The test accepts exactly if the result is close to the transpose of the matrix of the operator. -/
theorem C137_rskge3_transpose_compares (hF : SkgeOk F) {m d : Int} (h : OpOk F (.dense false) d m key) (hSm : IsTestMat F (.dense false) d m key Sm) {X' : Int → Int → T}
    (hg : RightOpGives F P (.dense false) d m key Sm layout .NoTrans .Trans m d m 1 0 0 eyeMat 0 (fun _ _ => 0) X') :
    M.wp (rskge3Transpose F P key m d layout) () (fun r _ => r = none ↔ ∀ i j, InR m d i j → Close F.atol F.rtol (X' i j) (Sm j i)) :=
  rightTrans_op hF h hSm hg

omit [IsStrictOrderedRing T] in
/-- C137 (`TestRSKGE3::transpose_S`). The library passes the test. -/
theorem C137_rskge3_transpose (hF : SkgeOk F) {m d : Int} (h : OpOk F (.dense false) d m key) : M.wp (rskge3Transpose F (rightApply F.E) key m d layout) () (fun r _ => r = none) := by
  obtain ⟨Sm, hSm⟩ := (C137_operator hF h).2
  exact rightTrans_lib hF h hSm trivial trivial

omit [IsStrictOrderedRing T] in
/-- C137 (`TestRSKGE3::submatrix_S`). The test accepts exactly if the result of the product with the identity is close to the window of the operator. -/
theorem C137_rskge3_submatrix_S_compares (hF : SkgeOk F) {d m d0 m0 ro co : Int} (h : OpOk F (.dense false) m0 d0 key) (hSm : IsTestMat F (.dense false) m0 d0 key Sm) (hd : 0 < m) (hm : 0 < d) (hw : InOp m0 d0 m d ro co) (hf : m * d ≤ intMax 64)
    {C X' : Int → Int → T} (hC : C = fun i j => testData F.E.G ⟨0, F.keyOf 11⟩ m d (addr layout (tightLd layout m d) i j))
    (hg : RightOpGives F P (.dense false) m0 d0 key Sm layout .NoTrans .NoTrans m d m 1 ro co eyeMat 0 C X') :
    M.wp (rskge3SubmatrixS F P key d m d0 m0 ro co layout) () (fun r _ => r = none ↔ ∀ i j, InR m d i j → Close F.atol F.rtol (X' i j) (Sm (ro + i) (co + j))) := by
  unfold rskge3SubmatrixS
  have := rightEye_op hF h hSm hd hm hf hw hC hg
  simp only [one_mul, zero_mul, add_zero] at this
  exact this

omit [IsStrictOrderedRing T] in
/-- C137 (`TestRSKGE3::submatrix_S`). The library passes the test. -/
theorem C137_rskge3_submatrix_S (hF : SkgeOk F) {d m d0 m0 ro co : Int} (h : OpOk F (.dense false) m0 d0 key) (hd : 0 < m) (hm : 0 < d) (hw : InOp m0 d0 m d ro co) (hf : m * d ≤ intMax 64) :
    M.wp (rskge3SubmatrixS F (rightApply F.E) key d m d0 m0 ro co layout) () (fun r _ => r = none) := by
  unfold rskge3SubmatrixS
  obtain ⟨Sm, hSm⟩ := (C137_operator hF h).2
  exact rightEye_lib hF h hd hm hf hw hSm (fun S hS => madeOp_right hF h hSm trivial hS hm hd hw trivial)

/-- C137 (`TestRSKGE3::submatrix_A`). The test accepts exactly if the result differs from the product with the window of the random data by at most the bound of the reference. -/
theorem C137_rskge3_submatrix_A_compares (hF : SkgeOk F) {d m n m0 n0 ro co : Int} (h : OpOk F (.dense false) n d key) (hSm : IsTestMat F (.dense false) n d key Sm) (hm : 0 < m) (hf : m0 * n0 ≤ intMax 64) (hw : InOp m0 n0 m n ro co)
    {Am X' : Int → Int → T} (hAm : Am = fun i j => testData F.E.G ⟨0, F.keyOf 1⟩ m0 n0 (addr layout (tightLd layout m0 n0) (ro + i) (co + j)))
    (hg : RightOpGives F P (.dense false) n d key Sm layout .NoTrans .NoTrans m d n 1 0 0 Am 0 (fun _ _ => 0) X') :
    M.wp (rskge3SubmatrixA F P key d m n m0 n0 ro co layout) () (fun r _ => r = none ↔ ∀ i j, InR m d i j → |X' i j - prodEntry n Am Sm i j| ≤ rightTol F.eps .NoTrans n Am Sm i j) := by
  unfold rskge3SubmatrixA
  exact rightSub_op hF h hSm hm hf hw hAm hg

/-- C137 (`TestRSKGE3::submatrix_A`). The library passes the test. -/
theorem C137_rskge3_submatrix_A (hF : SkgeOk F) {d m n m0 n0 ro co : Int} (h : OpOk F (.dense false) n d key) (hm : 0 < m) (hf : m0 * n0 ≤ intMax 64) (hw : InOp m0 n0 m n ro co) :
    M.wp (rskge3SubmatrixA F (rightApply F.E) key d m n m0 n0 ro co layout) () (fun r _ => r = none) := by
  unfold rskge3SubmatrixA
  obtain ⟨Sm, hSm⟩ := (C137_operator hF h).2
  exact rightSub_lib hF h hSm hm hf hw (fun S hS => madeOp_right hF h hSm trivial hS h.2.1 h.1 (whole_inOp _ _) trivial)

/-! ## Sparse operators from the left -/

/-- C137 (`TestLSKGES::apply`). The test accepts exactly if the result differs from the product with the random data by at most the bound of the reference. -/
theorem C137_lskges_apply_compares (hF : SkgeOk F) {axis : Axis} {v d m n : Int} (h : OpOk F (.sparse v axis false) d m key) (hSm : IsTestMat F (.sparse v axis false) d m key Sm) (hn : 0 < n) (hfA : m * n ≤ intMax 64) (hfB : d * n ≤ intMax 64)
    {Am C X' : Int → Int → T} (hAm : Am = fun i j => testData F.E.G ⟨0, F.keyOf 99⟩ m n (addr layout (tightLd layout m n) i j))
    (hC : C = fun i j => testData F.E.G ⟨0, F.keyOf 42⟩ d n (addr layout (tightLd layout d n) i j))
    (hg : LeftOpGives F L (.sparse v axis false) d m key Sm layout .NoTrans .NoTrans d n m 1 0 0 Am 0 C X') :
    M.wp (lskgesApply F L axis d m n layout key v) () (fun r _ => r = none ↔ ∀ i j, InR d n i j → |X' i j - prodEntry m Sm Am i j| ≤ 2 * (m : T) * F.eps * prodEntry m (fun i k => |Sm i k|) (fun k j => |Am k j|) i j) :=
  leftRandom_op hF h hSm hn hfA hfB hAm hC hg

/-- C137 (`TestLSKGES::apply`). The library passes the test. Missing: operators whose nonzeros are all in the first column (C37), unless the major axis is short and the operator not tall. -/
theorem C137_lskges_apply_partial (hF : SkgeOk F) {axis : Axis} {v d m n : Int} (h : OpOk F (.sparse v axis false) d m key) (hSm : IsTestMat F (.sparse v axis false) d m key Sm) (hn : 0 < n) (hfA : m * n ≤ intMax 64) (hfB : d * n ≤ intMax 64)
    (hk : axis = .Short ∧ d ≤ m ∨ SeesMore (.sparse v axis false) d m Sm) :
    M.wp (lskgesApply F (leftApply F.E) axis d m n layout key v) () (fun r _ => r = none) :=
  leftRandom_lib hF h hSm hn hfA hfB (whole_left hF h hSm hk)

omit [IsStrictOrderedRing T] in
/-- C137 (`TestLSKGES::submatrix_S`). The test accepts exactly if the result of the product with the identity is close to the window of the operator. -/
theorem C137_lskges_submatrix_S_compares (hF : SkgeOk F) {d1 m1 d0 m0 ro co : Int} (h : OpOk F (.sparse (d0.tdiv 3) .Short false) d0 m0 key) (hSm : IsTestMat F (.sparse (d0.tdiv 3) .Short false) d0 m0 key Sm) (hd : 0 < d1) (hm : 0 < m1) (hw : InOp d0 m0 d1 m1 ro co) (hf : d1 * m1 ≤ intMax 64)
    {C X' : Int → Int → T} (hC : C = fun i j => testData F.E.G ⟨0, F.keyOf 42⟩ d1 m1 (addr layout (tightLd layout d1 m1) i j))
    (hg : LeftOpGives F L (.sparse (d0.tdiv 3) .Short false) d0 m0 key Sm layout .NoTrans .NoTrans d1 m1 m1 1 ro co eyeMat 0 C X') :
    M.wp (lskgesSubmatrixS F L key d1 m1 d0 m0 ro co layout) () (fun r _ => r = none ↔ ∀ i j, InR d1 m1 i j → Close F.atol F.rtol (X' i j) (Sm (ro + i) (co + j))) := by
  unfold lskgesSubmatrixS
  have := leftEye_op hF h hSm hd hm hf hw hC hg
  simp only [one_mul, zero_mul, add_zero] at this
  exact this

omit [IsStrictOrderedRing T] in
/-- C137 (`TestLSKGES::submatrix_S`). The library passes the test. Missing: windows without a nonzero outside the first column (C37). -/
theorem C137_lskges_submatrix_S_partial (hF : SkgeOk F) {d1 m1 d0 m0 ro co : Int} (h : OpOk F (.sparse (d0.tdiv 3) .Short false) d0 m0 key) (hSm : IsTestMat F (.sparse (d0.tdiv 3) .Short false) d0 m0 key Sm) (hd : 0 < d1) (hm : 0 < m1) (hw : InOp d0 m0 d1 m1 ro co) (hf : d1 * m1 ≤ intMax 64)
    (hk : SeesMore (.sparse (d0.tdiv 3) .Short false) d1 m1 (subMat ro co Sm)) :
    M.wp (lskgesSubmatrixS F (leftApply F.E) key d1 m1 d0 m0 ro co layout) () (fun r _ => r = none) := by
  unfold lskgesSubmatrixS
  exact leftEye_lib hF h hd hm hf hw hSm (fun S hS => madeOp_left hF h hSm hS hd hm hw hk)

omit [IsStrictOrderedRing T] in
/-- C137 (`TestLSKGES::alpha_beta`). The test accepts exactly if the result of the product with the identity is close to the multiple of the operator plus the multiple of the data that were there. -/
theorem C137_lskges_alpha_beta_compares (hF : SkgeOk F) {alpha beta : T} {m d : Int} (h : OpOk F (.sparse (d.tdiv 2) .Short false) d m key) (hSm : IsTestMat F (.sparse (d.tdiv 2) .Short false) d m key Sm) (hf : d * m ≤ intMax 64)
    {C X' : Int → Int → T} (hC : C = fun i j => testData F.E.G ⟨0, F.keyOf 42⟩ d m (addr layout (tightLd layout d m) i j))
    (hg : LeftOpGives F L (.sparse (d.tdiv 2) .Short false) d m key Sm layout .NoTrans .NoTrans d m m alpha 0 0 eyeMat beta C X') :
    M.wp (lskgesAlphaBeta F L key alpha beta m d layout) () (fun r _ => r = none ↔ ∀ i j, InR d m i j → Close F.atol F.rtol (X' i j) (alpha * Sm i j + beta * C i j)) := by
  unfold lskgesAlphaBeta
  have := leftEye_op hF h hSm h.1 h.2.1 hf (whole_inOp _ _) hC hg
  simp only [zero_add] at this
  exact this

omit [IsStrictOrderedRing T] in
/-- C137 (`TestLSKGES::alpha_beta`). The library passes the test. Missing: tall operators whose nonzeros are all in the first column (C37). -/
theorem C137_lskges_alpha_beta_partial (hF : SkgeOk F) {alpha beta : T} {m d : Int} (h : OpOk F (.sparse (d.tdiv 2) .Short false) d m key) (hSm : IsTestMat F (.sparse (d.tdiv 2) .Short false) d m key Sm) (hf : d * m ≤ intMax 64)
    (hk : d ≤ m ∨ SeesMore (.sparse (d.tdiv 2) .Short false) d m Sm) :
    M.wp (lskgesAlphaBeta F (leftApply F.E) key alpha beta m d layout) () (fun r _ => r = none) := by
  unfold lskgesAlphaBeta
  exact leftEye_lib hF h h.1 h.2.1 hf (whole_inOp _ _) hSm (whole_left hF h hSm (hk.imp_left fun h => ⟨rfl, h⟩))

omit [IsStrictOrderedRing T] in
/-- C137 (`TestLSKGES::transpose_S`). The test accepts exactly if the result is close to the transpose of the matrix of the operator. -/
theorem C137_lskges_transpose_compares (hF : SkgeOk F) {axis : Axis} {m d : Int} (h : OpOk F (.sparse (halfNnz axis d m) axis false) m d key) (hSm : IsTestMat F (.sparse (halfNnz axis d m) axis false) m d key Sm) (hlt : d < m) {X' : Int → Int → T}
    (hg : LeftOpGives F L (.sparse (halfNnz axis d m) axis false) m d key Sm layout .Trans .NoTrans d m m 1 0 0 eyeMat 0 (fun _ _ => 0) X') :
    M.wp (lskgesTranspose F L axis key m d layout) () (fun r _ => r = none ↔ ∀ i j, InR d m i j → Close F.atol F.rtol (X' i j) (Sm j i)) := by
  unfold lskgesTranspose
  simp only [M.wp_bind, M.wp_require]
  exact ⟨hlt, leftTrans_op hF h hSm hg⟩

omit [IsStrictOrderedRing T] in
/-- C137 (`TestLSKGES::transpose_S`). The library passes the test. Missing: operators with a long major axis whose nonzeros are all in the first row (C37). -/
theorem C137_lskges_transpose_partial (hF : SkgeOk F) {axis : Axis} {m d : Int} (h : OpOk F (.sparse (halfNnz axis d m) axis false) m d key) (hSm : IsTestMat F (.sparse (halfNnz axis d m) axis false) m d key Sm) (hlt : d < m)
    (hk : axis = .Short ∨ SeesMore (.sparse (halfNnz axis d m) axis false) d m (fun i j => Sm j i)) : M.wp (lskgesTranspose F (leftApply F.E) axis key m d layout) () (fun r _ => r = none) := by
  unfold lskgesTranspose
  simp only [M.wp_bind, M.wp_require]
  refine ⟨hlt, leftTrans_lib hF h hSm ?_⟩
  rcases hk with rfl | hk
  · exact (short_sees hF h hSm).2 hlt
  · exact hk

/-- C137 (`TestLSKGES::submatrix_A`). The test accepts exactly if the result differs from the product with the window of the random data by at most the bound of the reference. -/
theorem C137_lskges_submatrix_A_compares (hF : SkgeOk F) {axis : Axis} {d m n m0 n0 ro co : Int} (h : OpOk F (.sparse (halfNnz axis d m) axis false) d m key) (hSm : IsTestMat F (.sparse (halfNnz axis d m) axis false) d m key Sm) (hn : 0 < n) (hf : m0 * n0 ≤ intMax 64) (hw : InOp m0 n0 m n ro co)
    {Am X' : Int → Int → T} (hAm : Am = fun i j => testData F.E.G ⟨0, F.keyOf 13⟩ m0 n0 (addr layout (tightLd layout m0 n0) (ro + i) (co + j)))
    (hg : LeftOpGives F L (.sparse (halfNnz axis d m) axis false) d m key Sm layout .NoTrans .NoTrans d n m 1 0 0 Am 0 (fun _ _ => 0) X') :
    M.wp (lskgesSubmatrixA F L axis key d m n m0 n0 ro co layout) () (fun r _ => r = none ↔ ∀ i j, InR d n i j → |X' i j - prodEntry m Sm Am i j| ≤ leftTol F.eps .NoTrans m Sm Am i j) := by
  unfold lskgesSubmatrixA
  exact leftSub_op hF h hSm hn hf hw hAm hg

/-- C137 (`TestLSKGES::submatrix_A`). The library passes the test. Missing: operators whose nonzeros are all in the first column (C37), unless the major axis is short and the operator not tall. -/
theorem C137_lskges_submatrix_A_partial (hF : SkgeOk F) {axis : Axis} {d m n m0 n0 ro co : Int} (h : OpOk F (.sparse (halfNnz axis d m) axis false) d m key) (hSm : IsTestMat F (.sparse (halfNnz axis d m) axis false) d m key Sm) (hn : 0 < n) (hf : m0 * n0 ≤ intMax 64) (hw : InOp m0 n0 m n ro co)
    (hk : axis = .Short ∧ d ≤ m ∨ SeesMore (.sparse (halfNnz axis d m) axis false) d m Sm) :
    M.wp (lskgesSubmatrixA F (leftApply F.E) axis key d m n m0 n0 ro co layout) () (fun r _ => r = none) := by
  unfold lskgesSubmatrixA
  exact leftSub_lib hF h hSm hn hf hw (whole_left hF h hSm hk)

/-- C137 (`TestLSKGES::transpose_A`). The test accepts exactly if the result differs from the product with the transpose of the random data by at most the bound of the reference. -/
theorem C137_lskges_transpose_A_compares (hF : SkgeOk F) {axis : Axis} {d m n : Int} (h : OpOk F (.sparse (halfNnz axis d m) axis false) d m key) (hSm : IsTestMat F (.sparse (halfNnz axis d m) axis false) d m key Sm) (hn : 0 < n) (hf : n * m ≤ intMax 64)
    {Am X' : Int → Int → T} (hAm : Am = fun i j => testData F.E.G ⟨0, F.keyOf 101⟩ n m (addr layout (tightLd layout n m) i j))
    (hg : LeftOpGives F L (.sparse (halfNnz axis d m) axis false) d m key Sm layout .NoTrans .Trans d n m 1 0 0 Am 0 (fun _ _ => 0) X') :
    M.wp (lskgesTransposeA F L axis key d m n layout) () (fun r _ => r = none ↔ ∀ i j, InR d n i j → |X' i j - prodEntry m Sm (fun k j => Am j k) i j| ≤ leftTol F.eps .Trans m Sm Am i j) :=
  leftTransposed_op hF h hSm hn hf hAm hg

/-- C137 (`TestLSKGES::transpose_A`). The library passes the test. Missing: operators whose nonzeros are all in the first column (C37), unless the major axis is short and the operator not tall. -/
theorem C137_lskges_transpose_A_partial (hF : SkgeOk F) {axis : Axis} {d m n : Int} (h : OpOk F (.sparse (halfNnz axis d m) axis false) d m key) (hSm : IsTestMat F (.sparse (halfNnz axis d m) axis false) d m key Sm) (hn : 0 < n) (hf : n * m ≤ intMax 64)
    (hk : axis = .Short ∧ d ≤ m ∨ SeesMore (.sparse (halfNnz axis d m) axis false) d m Sm) : M.wp (lskgesTransposeA F (leftApply F.E) axis key d m n layout) () (fun r _ => r = none) :=
  leftTransposed_lib hF h hSm hn hf (whole_left hF h hSm hk)

/-! ## Sparse operators from the right -/

omit [IsStrictOrderedRing T] in
/-- C137 (`TestRSKGES::sketch_eye`). The test accepts exactly if the result of the product with the identity is close to the matrix of the operator. -/
theorem C137_rskges_eye_compares (hF : SkgeOk F) {axis : Axis} {m d v : Int} (h : OpOk F (.sparse v axis true) m d key) (hSm : IsTestMat F (.sparse v axis true) m d key Sm) (hf : m * d ≤ intMax 64)
    {C X' : Int → Int → T} (hC : C = fun i j => testData F.E.G ⟨0, F.keyOf 11⟩ m d (addr layout (tightLd layout m d) i j))
    (hg : RightOpGives F P (.sparse v axis true) m d key Sm layout .NoTrans .NoTrans m d m 1 0 0 eyeMat 0 C X') :
    M.wp (rskgesEye F P key m d axis v layout) () (fun r _ => r = none ↔ ∀ i j, InR m d i j → Close F.atol F.rtol (X' i j) (Sm i j)) := by
  unfold rskgesEye
  have := rightEye_op hF h hSm h.1 h.2.1 hf (whole_inOp _ _) hC hg
  simp only [one_mul, zero_mul, add_zero, zero_add] at this
  exact this

omit [IsStrictOrderedRing T] in
/-- C137 (`TestRSKGES::sketch_eye`). The library passes the test. Missing: operators whose nonzeros are all in the first row (C37), unless the major axis is short and the operator tall. -/
theorem C137_rskges_eye_partial (hF : SkgeOk F) {axis : Axis} {m d v : Int} (h : OpOk F (.sparse v axis true) m d key) (hSm : IsTestMat F (.sparse v axis true) m d key Sm) (hf : m * d ≤ intMax 64)
    (hk : axis = .Short ∧ d < m ∨ SeesMore (.sparse v axis true) d m (fun i j => Sm j i)) :
    M.wp (rskgesEye F (rightApply F.E) key m d axis v layout) () (fun r _ => r = none) := by
  unfold rskgesEye
  exact rightEye_lib hF h h.1 h.2.1 hf (whole_inOp _ _) hSm (whole_right hF h hSm hk)

/-- C137 (`TestRSKGES::apply`). The test accepts exactly if the result differs from the product with the random data by at most the bound of the reference. -/
theorem C137_rskges_apply_compares (hF : SkgeOk F) {axis : Axis} {v d m n : Int} (h : OpOk F (.sparse v axis true) n d key) (hSm : IsTestMat F (.sparse v axis true) n d key Sm) (hm : 0 < m) (hfA : m * n ≤ intMax 64) (hfB : m * d ≤ intMax 64)
    {Am C X' : Int → Int → T} (hAm : Am = fun i j => testData F.E.G ⟨0, F.keyOf 57⟩ m n (addr layout (tightLd layout m n) i j))
    (hC : C = fun i j => testData F.E.G ⟨0, F.keyOf 10⟩ m d (addr layout (tightLd layout m d) i j))
    (hg : RightOpGives F P (.sparse v axis true) n d key Sm layout .NoTrans .NoTrans m d n 1 0 0 Am 0 C X') :
    M.wp (rskgesApply F P axis d m n layout key v) () (fun r _ => r = none ↔ ∀ i j, InR m d i j → |X' i j - prodEntry n Am Sm i j| ≤ 2 * (n : T) * F.eps * prodEntry n (fun i k => |Am i k|) (fun k j => |Sm k j|) i j) :=
  rightRandom_op hF h hSm hm hfA hfB hAm hC hg

/-- C137 (`TestRSKGES::apply`). The library passes the test. Missing: operators whose nonzeros are all in the first row (C37), unless the major axis is short and the operator tall. -/
theorem C137_rskges_apply_partial (hF : SkgeOk F) {axis : Axis} {v d m n : Int} (h : OpOk F (.sparse v axis true) n d key) (hSm : IsTestMat F (.sparse v axis true) n d key Sm) (hm : 0 < m) (hfA : m * n ≤ intMax 64) (hfB : m * d ≤ intMax 64)
    (hk : axis = .Short ∧ d < n ∨ SeesMore (.sparse v axis true) d n (fun i j => Sm j i)) :
    M.wp (rskgesApply F (rightApply F.E) axis d m n layout key v) () (fun r _ => r = none) :=
  rightRandom_lib hF h hSm hm hfA hfB (whole_right hF h hSm hk)

omit [IsStrictOrderedRing T] in
/-- C137 (`TestRSKGES::submatrix_S`). The test accepts exactly if the result of the product with the identity is close to the window of the operator. -/
theorem C137_rskges_submatrix_S_compares (hF : SkgeOk F) {d1 n1 d0 n0 ro co : Int} (h : OpOk F (.sparse (d0.tdiv 3) .Short true) n0 d0 key) (hSm : IsTestMat F (.sparse (d0.tdiv 3) .Short true) n0 d0 key Sm) (hle : d1 ≤ d0 ∧ n1 ≤ n0) (hd : 0 < n1) (hm : 0 < d1) (hw : InOp n0 d0 n1 d1 ro co) (hf : n1 * d1 ≤ intMax 64)
    {C X' : Int → Int → T} (hC : C = fun i j => testData F.E.G ⟨0, F.keyOf 11⟩ n1 d1 (addr layout (tightLd layout n1 d1) i j))
    (hg : RightOpGives F P (.sparse (d0.tdiv 3) .Short true) n0 d0 key Sm layout .NoTrans .NoTrans n1 d1 n1 1 ro co eyeMat 0 C X') :
    M.wp (rskgesSubmatrixS F P key d1 n1 d0 n0 ro co layout) () (fun r _ => r = none ↔ ∀ i j, InR n1 d1 i j → Close F.atol F.rtol (X' i j) (Sm (ro + i) (co + j))) := by
  unfold rskgesSubmatrixS
  simp only [M.wp_bind, M.wp_require]
  have := rightEye_op hF h hSm hd hm hf hw hC hg
  simp only [one_mul, zero_mul, add_zero] at this
  exact ⟨hle.1, hle.2, this⟩

omit [IsStrictOrderedRing T] in
/-- C137 (`TestRSKGES::submatrix_S`). The library passes the test. Missing: windows without a nonzero outside the first row (C37). -/
theorem C137_rskges_submatrix_S_partial (hF : SkgeOk F) {d1 n1 d0 n0 ro co : Int} (h : OpOk F (.sparse (d0.tdiv 3) .Short true) n0 d0 key) (hSm : IsTestMat F (.sparse (d0.tdiv 3) .Short true) n0 d0 key Sm) (hle : d1 ≤ d0 ∧ n1 ≤ n0) (hd : 0 < n1) (hm : 0 < d1) (hw : InOp n0 d0 n1 d1 ro co) (hf : n1 * d1 ≤ intMax 64)
    (hk : SeesMore (.sparse (d0.tdiv 3) .Short true) d1 n1 (fun i j => Sm (ro + j) (co + i))) :
    M.wp (rskgesSubmatrixS F (rightApply F.E) key d1 n1 d0 n0 ro co layout) () (fun r _ => r = none) := by
  unfold rskgesSubmatrixS
  simp only [M.wp_bind, M.wp_require]
  exact ⟨hle.1, hle.2, rightEye_lib hF h hd hm hf hw hSm (fun S hS => madeOp_right hF h hSm rfl hS hm hd hw hk)⟩

/-! ## Errors -/

omit [LinearOrder T] [IsStrictOrderedRing T] [IsStrictOrderedRing R] in
/-- C137 (errors). A test whose sparse operator would have no nonzeros per vector, or more than the major axis has positions, throws an error. -/
theorem C137_sparse_error {α : Type} {v nR nC : Int} {axis : Axis} (h : v ≤ 0 ∨ (if axis = .Short then min nR nC else max nR nC) < v) (fill : Bool) (key : Nat) (test : M (TestOp N K T) α) :
    withTestOp F (.sparse v axis fill) nR nC key test () = (.throw .require, ()) := by
  have e : mkSparseDist nR nC v axis = .throw .require := by
    unfold mkSparseDist
    dsimp only
    generalize (if axis = .Short then min nR nC else max nR nC) = dim at h ⊢
    by_cases h1 : 0 < nR <;> by_cases h2 : 0 < nC <;> by_cases h3 : 0 < v <;> by_cases h4 : v ≤ dim <;> first | omega | simp [Res.require, h1, h2, h3, h4, bind, Res.bind]
  have e2 : makeTestOp F (.sparse v axis fill) nR nC key () = (.throw .require, ()) := by
    unfold makeTestOp
    dsimp only
    exact M.bind_throw (by unfold M.lift; rw [e])
  unfold withTestOp
  exact M.bind_throw e2

omit [IsStrictOrderedRing T] [IsStrictOrderedRing R] in
/-- C137 (errors). `submatrix_S` from the left refuses a window with as many rows or columns as the operator, `submatrix_A` data that are not larger than the window; `transpose_S` for sparse operators
refuses operators that are not tall; `submatrix_S` from the right refuses windows that are larger than the operator. -/
theorem C137_require_errors (F : SkgeFixture N K W WS R T) (L : LeftProduct N K T) (P : RightProduct N K T) (key : Nat) (layout : Layout) (axis : Axis) (n ro co : Int) :
    (∀ d m d0 m0, d0 ≤ d ∨ m0 ≤ m → lskge3SubmatrixS F L key d m d0 m0 ro co layout () = (.throw .require, ())) ∧
    (∀ d m m0 n0, m0 ≤ m ∨ n0 ≤ n → lskge3SubmatrixA F L key d m n m0 n0 ro co layout () = (.throw .require, ())) ∧
    (∀ d m, m ≤ d → lskgesTranspose F L axis key m d layout () = (.throw .require, ())) ∧
    (∀ d1 n1 d0 n0, d0 < d1 ∨ n0 < n1 → rskgesSubmatrixS F P key d1 n1 d0 n0 ro co layout () = (.throw .require, ())) := by
  refine ⟨fun d m d0 m0 h => ?_, fun d m m0 n0 h => ?_, fun d m h => ?_, fun d1 n1 d0 n0 h => ?_⟩
  · unfold lskge3SubmatrixS
    by_cases h0 : d0 > d
    · rw [M.bind_ok (require_true h0), M.bind_throw (require_false (by omega))]
    · rw [M.bind_throw (require_false h0)]
  · unfold lskge3SubmatrixA
    by_cases h0 : m0 > m
    · rw [M.bind_ok (require_true h0), M.bind_throw (require_false (by omega))]
    · rw [M.bind_throw (require_false h0)]
  · unfold lskgesTranspose
    rw [M.bind_throw (require_false (by omega))]
  · unfold rskgesSubmatrixS
    by_cases h0 : d0 ≥ d1
    · rw [M.bind_ok (require_true h0), M.bind_throw (require_false (by omega))]
    · rw [M.bind_throw (require_false h0)]

/-! ## The hypotheses are met -/

/-- A fixture with real numbers. -/
noncomputable def exSkge : SkgeFixture (2 ^ 128) Nat Int Int ℚ ℝ := ⟨exSkEnvR, 1 / 1000, 1 / 1000, 1 / 1000, id⟩

theorem exSkge_ok : SkgeOk exSkge := ⟨exSkEnvR_ok, by norm_num [exSkge], by norm_num [exSkge]⟩

/-- Sizes of the suite (test/test_matmul_cores/test_lskge3.cc:121-131), every key and layout, filled or not. -/
example (key : Nat) (pre : Bool) (layout : Layout) : M.wp (lskge3Eye exSkge (leftApply exSkge.E) key 200 30 pre layout) () (fun r _ => r = none) ∧
    M.wp (lskge3SubmatrixS exSkge (leftApply exSkge.E) key 3 10 8 12 3 1 layout) () (fun r _ => r = none) :=
  ⟨C137_lskge3_eye exSkge_ok ⟨by norm_num, by norm_num, by norm_num [intMax]⟩ (by norm_num [intMax]),
   C137_lskge3_submatrix_S exSkge_ok ⟨by norm_num, by norm_num, by norm_num [intMax]⟩ ⟨by norm_num, by norm_num⟩ (by norm_num) (by norm_num) ⟨by norm_num, by norm_num, by norm_num, by norm_num⟩ (by norm_num [intMax])⟩

example (key : Nat) (layout : Layout) : M.wp (rskge3Transpose exSkge (rightApply exSkge.E) key 200 30 layout) () (fun r _ => r = none) ∧
    M.wp (rskge3SubmatrixA exSkge (rightApply exSkge.E) key 3 10 5 13 8 1 2 layout) () (fun r _ => r = none) :=
  ⟨C137_rskge3_transpose exSkge_ok ⟨by norm_num, by norm_num, by norm_num [intMax]⟩,
   C137_rskge3_submatrix_A exSkge_ok ⟨by norm_num, by norm_num, by norm_num [intMax]⟩ (by norm_num) (by norm_num [intMax]) ⟨by norm_num, by norm_num, by norm_num, by norm_num⟩⟩

theorem exSkge_short (key : Nat) (fill : Bool) {v nR nC : Int} (h1 : 0 < nR) (h2 : 0 < nC) (h3 : 0 < v) (h4 : v ≤ min nR nC) (h5 : 2 * (v * max nR nC) ≤ intMax 64) : OpOk exSkge (.sparse v .Short fill) nR nC key :=
  ⟨h1, h2, h3, h4, h5⟩

/-- Sparse operators with a short major axis: every key, layout and scalar. -/
example (key : Nat) (layout : Layout) (alpha beta : ℝ) : M.wp (lskgesApply exSkge (leftApply exSkge.E) .Short 19 201 12 layout key 7) () (fun r _ => r = none) ∧
    M.wp (lskgesAlphaBeta exSkge (leftApply exSkge.E) key alpha beta 21 4 layout) () (fun r _ => r = none) ∧
    M.wp (lskgesTranspose exSkge (leftApply exSkge.E) .Short key 21 4 layout) () (fun r _ => r = none) ∧
    M.wp (rskgesApply exSkge (rightApply exSkge.E) .Short 12 3 201 layout key 7) () (fun r _ => r = none) := by
  have o1 := exSkge_short key false (v := 7) (nR := 19) (nC := 201) (by norm_num) (by norm_num) (by norm_num) (by norm_num) (by norm_num [intMax])
  have o2 := exSkge_short key false (v := (4 : Int).tdiv 2) (nR := 4) (nC := 21) (by norm_num) (by norm_num) (by decide) (by decide) (by decide)
  have o3 := exSkge_short key false (v := halfNnz .Short 4 21) (nR := 21) (nC := 4) (by norm_num) (by norm_num) (by decide) (by decide) (by decide)
  have o4 := exSkge_short key true (v := 7) (nR := 201) (nC := 12) (by norm_num) (by norm_num) (by norm_num) (by norm_num) (by norm_num [intMax])
  obtain ⟨-, S1, h1⟩ := C137_operator exSkge_ok o1
  obtain ⟨-, S2, h2⟩ := C137_operator exSkge_ok o2
  obtain ⟨-, S3, h3⟩ := C137_operator exSkge_ok o3
  obtain ⟨-, S4, h4⟩ := C137_operator exSkge_ok o4
  exact ⟨C137_lskges_apply_partial exSkge_ok o1 h1 (by norm_num) (by norm_num [intMax]) (by norm_num [intMax]) (Or.inl ⟨rfl, by norm_num⟩),
    C137_lskges_alpha_beta_partial exSkge_ok o2 h2 (by norm_num [intMax]) (Or.inl (by norm_num)),
    C137_lskges_transpose_partial exSkge_ok o3 h3 (by norm_num) (Or.inl rfl),
    C137_rskges_apply_partial exSkge_ok o4 h4 (by norm_num) (by norm_num [intMax]) (by norm_num [intMax]) (Or.inl ⟨rfl, by norm_num⟩)⟩

/-- The same fixture without tolerances. -/
noncomputable def exSkge0 : SkgeFixture (2 ^ 128) Nat Int Int ℚ ℝ := ⟨exSkEnvR, 0, 0, 0, id⟩

theorem exSkge0_ok : SkgeOk exSkge0 := ⟨exSkEnvR_ok, le_rfl, le_rfl⟩

/-- A product that does nothing does not pass `transpose_S` with a sparse operator. -/
example (key : Nat) : M.wp (lskgesTranspose exSkge0 (fun _ _ _ _ _ _ _ _ _ _ _ _ _ => pure ()) .Short key 5 2 .ColMajor) () (fun r _ => r ≠ none) := by
  have o : OpOk exSkge0 (.sparse (halfNnz .Short 2 5) .Short false) 5 2 key := ⟨by norm_num, by norm_num, by decide, by decide, by decide⟩
  obtain ⟨-, Sm, hSm⟩ := C137_operator exSkge0_ok o
  refine M.wp_mono (C137_lskges_transpose_compares exSkge0_ok (X' := fun _ _ => 0) o hSm (by norm_num) ?_) fun r _ h hr => ?_
  · intro A b lda ldb S hS _ _ _ hb
    rw [M.wp_pure]
    obtain ⟨g1, g2, -⟩ := madeOp_facts exSkge0_ok o hSm hS
    exact ⟨g1, g2, hb⟩
  · obtain ⟨D, hD, okD, d1, d2, d3, d4, -⟩ := kind_dist o
    obtain ⟨D', hD', hsm⟩ := hSm
    obtain rfl := Res.ok.inj (hD.symm.trans hD')
    obtain ⟨j, j0, j1, hne⟩ := (short_nonzero exSkge0_ok.env okD d3 hsm).2 (by omega) 0 le_rfl (by omega)
    have := h.mp hr j 0 ⟨j0, by omega, by norm_num, by norm_num⟩
    exact hne (by simpa [Close, exSkge0] using this)

end RB
