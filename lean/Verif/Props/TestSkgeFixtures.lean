import Verif.Props.TestSkge

/-!
# C137: the sketching kernel tests

Every test runs without undefined behaviour and accepts exactly if the result of the product under test agrees with the reference (`..._compares`), and it accepts the library.
-/

namespace RB
open Spec
variable {N : Nat} {K W WS R T : Type} [Field T] [LinearOrder T] [IsStrictOrderedRing T] [Field R] [LinearOrder R] [IsStrictOrderedRing R] [FloorRing R]
variable {F : SkgeFixture N K W WS R T} {L : LeftProduct N K T} {P : RightProduct N K T} {kind : OpKind} {nR nC : Int} {key : Nat} {Sm : Int → Int → T} {layout : Layout}

/-! ## Any operator -/

omit [IsStrictOrderedRing T] in
theorem leftEye_op (hF : SkgeOk F) (h : OpOk F kind nR nC key) (hSm : IsTestMat F kind nR nC key Sm) {d1 m1 ro co : Int} {alpha beta : T} (hd : 0 < d1) (hm : 0 < m1) (hf : d1 * m1 ≤ intMax 64)
    (hw : InOp nR nC d1 m1 ro co) {C X' : Int → Int → T} (hC : C = fun i j => testData F.E.G ⟨0, F.keyOf 42⟩ d1 m1 (addr layout (tightLd layout d1 m1) i j))
    (hL : LeftOpGives F L kind nR nC key Sm layout .NoTrans .NoTrans d1 m1 m1 alpha ro co eyeMat beta C X') :
    M.wp (withTestOp F kind nR nC key (testLeftEye F.E F.atol F.rtol ⟨0, F.keyOf 42⟩ (fun A lda ldb => L layout .NoTrans .NoTrans d1 m1 m1 alpha ro co A lda beta ldb) alpha d1 m1 ro co layout beta)) ()
      (fun r _ => r = none ↔ ∀ i j, InR d1 m1 i j → Close F.atol F.rtol (X' i j) (alpha * Sm (ro + i) (co + j) + beta * C i j)) := by
  refine withTestOp_spec hF h (Q := fun r => r = none ↔ _) fun S hS => ?_
  obtain ⟨g1, g2, -⟩ := madeOp_facts hF h hSm hS
  refine M.wp_mono (C124_left_eye hF.env g1 hd hm hf (by rw [g2]; exact hw) hC fun A' hA' => ?_) fun r _ h => h.2.2
  rw [g2]
  refine hL A' _ m1 _ S hS (by cases layout <;> simp [LdOk, rowsOf, colsOf]) hA' (ldOk_tight _ _ _) ?_
  rw [hC]
  exact ofFn_holds layout _

omit [IsStrictOrderedRing T] in
theorem rightEye_op (hF : SkgeOk F) (h : OpOk F kind nR nC key) (hSm : IsTestMat F kind nR nC key Sm) {d1 m1 ro co : Int} {alpha beta : T} (hd : 0 < d1) (hm : 0 < m1) (hf : d1 * m1 ≤ intMax 64)
    (hw : InOp nR nC d1 m1 ro co) {C X' : Int → Int → T} (hC : C = fun i j => testData F.E.G ⟨0, F.keyOf 11⟩ d1 m1 (addr layout (tightLd layout d1 m1) i j))
    (hP : RightOpGives F P kind nR nC key Sm layout .NoTrans .NoTrans d1 m1 d1 alpha ro co eyeMat beta C X') :
    M.wp (withTestOp F kind nR nC key (testRightEye F.E F.atol F.rtol ⟨0, F.keyOf 11⟩ (fun A lda ldb => P layout .NoTrans .NoTrans d1 m1 d1 alpha A lda ro co beta ldb) alpha d1 m1 ro co layout beta)) ()
      (fun r _ => r = none ↔ ∀ i j, InR d1 m1 i j → Close F.atol F.rtol (X' i j) (alpha * Sm (ro + i) (co + j) + beta * C i j)) := by
  refine withTestOp_spec hF h (Q := fun r => r = none ↔ _) fun S hS => ?_
  obtain ⟨g1, g2, -⟩ := madeOp_facts hF h hSm hS
  refine M.wp_mono (C124_right_eye hF.env g1 hd hm hf (by rw [g2]; exact hw) hC fun A' hA' => ?_) fun r _ h => h.2.2
  rw [g2]
  refine hP A' _ d1 _ S hS (by cases layout <;> simp [LdOk, rowsOf, colsOf]) hA' (ldOk_tight _ _ _) ?_
  rw [hC]
  exact ofFn_holds layout _

omit [IsStrictOrderedRing T] in
theorem leftTrans_op (hF : SkgeOk F) (h : OpOk F kind nR nC key) (hSm : IsTestMat F kind nR nC key Sm) {X' : Int → Int → T}
    (hL : LeftOpGives F L kind nR nC key Sm layout .Trans .NoTrans nC nR nR 1 0 0 eyeMat 0 (fun _ _ => 0) X') :
    M.wp (withTestOp F kind nR nC key (testLeftTransEye F.E F.atol F.rtol (fun A lda ldb => L layout .Trans .NoTrans nC nR nR 1 0 0 A lda 0 ldb) layout)) ()
      (fun r _ => r = none ↔ ∀ i j, InR nC nR i j → Close F.atol F.rtol (X' i j) (Sm j i)) := by
  refine withTestOp_spec hF h (Q := fun r => r = none ↔ _) fun S hS => ?_
  obtain ⟨g1, g2, -⟩ := madeOp_facts hF h hSm hS
  have := C124_left_transpose_eye hF.env (atol := F.atol) (rtol := F.rtol) (layout := layout) (X' := X') (apply := fun A lda ldb => L layout .Trans .NoTrans nC nR nR 1 0 0 A lda 0 ldb) g1 (fun A' hA' => by
    rw [g2] at hA' ⊢
    exact hL A' _ nR _ S hS (by cases layout <;> simp [LdOk, rowsOf, colsOf]) hA' (ldOk_tight _ _ _) (ofFn_holds layout _))
  rw [g2] at this
  exact M.wp_mono this fun r _ h => h.2.2

omit [IsStrictOrderedRing T] in
theorem rightTrans_op (hF : SkgeOk F) (h : OpOk F kind nR nC key) (hSm : IsTestMat F kind nR nC key Sm) {X' : Int → Int → T}
    (hP : RightOpGives F P kind nR nC key Sm layout .NoTrans .Trans nC nR nC 1 0 0 eyeMat 0 (fun _ _ => 0) X') :
    M.wp (withTestOp F kind nR nC key (testRightTransEye F.E F.atol F.rtol (fun A lda ldb => P layout .NoTrans .Trans nC nR nC 1 A lda 0 0 0 ldb) layout)) ()
      (fun r _ => r = none ↔ ∀ i j, InR nC nR i j → Close F.atol F.rtol (X' i j) (Sm j i)) := by
  refine withTestOp_spec hF h (Q := fun r => r = none ↔ _) fun S hS => ?_
  obtain ⟨g1, g2, -⟩ := madeOp_facts hF h hSm hS
  have := C124_right_transpose_eye hF.env (atol := F.atol) (rtol := F.rtol) (layout := layout) (X' := X') (apply := fun A lda ldb => P layout .NoTrans .Trans nC nR nC 1 A lda 0 0 0 ldb) g1 (fun A' hA' => by
    rw [g2] at hA' ⊢
    exact hP A' _ nC _ S hS (by cases layout <;> simp [LdOk, rowsOf, colsOf]) hA' (ldOk_tight _ _ _) (ofFn_holds layout _))
  rw [g2] at this
  exact M.wp_mono this fun r _ h => h.2.2

theorem leftSub_op (hF : SkgeOk F) (h : OpOk F kind nR nC key) (hSm : IsTestMat F kind nR nC key Sm) {n m0 n0 ro co : Int} (hn : 0 < n) (hf : m0 * n0 ≤ intMax 64) (hw : InOp m0 n0 nC n ro co)
    {Am X' : Int → Int → T} (hAm : Am = fun i j => testData F.E.G ⟨0, F.keyOf 13⟩ m0 n0 (addr layout (tightLd layout m0 n0) (ro + i) (co + j)))
    (hL : LeftOpGives F L kind nR nC key Sm layout .NoTrans .NoTrans nR n nC 1 0 0 Am 0 (fun _ _ => 0) X') :
    M.wp (withTestOp F kind nR nC key (testLeftSubmatrix F.E F.eps ⟨0, F.keyOf 13⟩ (fun A lda ldb => L layout .NoTrans .NoTrans nR n nC 1 0 0 A lda 0 ldb) n m0 n0 ro co layout)) ()
      (fun r _ => r = none ↔ ∀ i j, InR nR n i j → |X' i j - prodEntry nC Sm Am i j| ≤ leftTol F.eps .NoTrans nC Sm Am i j) := by
  refine withTestOp_spec hF h (Q := fun r => r = none ↔ _) fun S hS => ?_
  obtain ⟨g1, g2, -⟩ := madeOp_facts hF h hSm hS
  have hld : LdOk layout (tightLd layout m0 n0) nC n := by obtain ⟨w1, w2, w3, w4⟩ := hw; cases layout <;> simp only [LdOk, tightLd] <;> omega
  have := C124_left_submatrix hF.env (eps := F.eps) (layout := layout) (X' := X') (n := n) (apply := fun A lda ldb => L layout .NoTrans .NoTrans nR n nC 1 0 0 A lda 0 ldb) g1 hn hf (by rw [g2]; exact hw) hAm (fun A' hA' => by
    rw [g2] at hA' ⊢
    exact hL A' _ _ _ S hS hld hA' (ldOk_tight _ _ _) (ofFn_holds layout _))
  rw [g2] at this
  exact M.wp_mono this fun r _ h => h.2.1

theorem rightSub_op (hF : SkgeOk F) (h : OpOk F kind nR nC key) (hSm : IsTestMat F kind nR nC key Sm) {m m0 n0 ro co : Int} (hm : 0 < m) (hf : m0 * n0 ≤ intMax 64) (hw : InOp m0 n0 m nR ro co)
    {Am X' : Int → Int → T} (hAm : Am = fun i j => testData F.E.G ⟨0, F.keyOf 1⟩ m0 n0 (addr layout (tightLd layout m0 n0) (ro + i) (co + j)))
    (hP : RightOpGives F P kind nR nC key Sm layout .NoTrans .NoTrans m nC nR 1 0 0 Am 0 (fun _ _ => 0) X') :
    M.wp (withTestOp F kind nR nC key (testRightSubmatrix F.E F.eps ⟨0, F.keyOf 1⟩ (fun A lda ldb => P layout .NoTrans .NoTrans m nC nR 1 A lda 0 0 0 ldb) m m0 n0 ro co layout)) ()
      (fun r _ => r = none ↔ ∀ i j, InR m nC i j → |X' i j - prodEntry nR Am Sm i j| ≤ rightTol F.eps .NoTrans nR Am Sm i j) := by
  refine withTestOp_spec hF h (Q := fun r => r = none ↔ _) fun S hS => ?_
  obtain ⟨g1, g2, -⟩ := madeOp_facts hF h hSm hS
  have hld : LdOk layout (tightLd layout m0 n0) m nR := by obtain ⟨w1, w2, w3, w4⟩ := hw; cases layout <;> simp only [LdOk, tightLd] <;> omega
  have := C124_right_submatrix hF.env (eps := F.eps) (layout := layout) (X' := X') (m := m) (apply := fun A lda ldb => P layout .NoTrans .NoTrans m nC nR 1 A lda 0 0 0 ldb) g1 hm hf (by rw [g2]; exact hw) hAm (fun A' hA' => by
    rw [g2] at hA' ⊢
    exact hP A' _ _ _ S hS hld hA' (ldOk_tight _ _ _) (ofFn_holds layout _))
  rw [g2] at this
  exact M.wp_mono this fun r _ h => h.2.1

/-! ## Any operator, the library -/

omit [IsStrictOrderedRing T] in
theorem leftEye_lib (hF : SkgeOk F) (h : OpOk F kind nR nC key) {d1 m1 ro co : Int} {alpha beta : T} (hd : 0 < d1) (hm : 0 < m1) (hf : d1 * m1 ≤ intMax 64) (hw : InOp nR nC d1 m1 ro co)
    (hSm : IsTestMat F kind nR nC key Sm) (hu : ∀ S, MadeOp F kind nR nC key S → LeftUsable F.E alpha layout .NoTrans .NoTrans S Sm d1 m1 ro co) :
    M.wp (withTestOp F kind nR nC key (testLeftEye F.E F.atol F.rtol ⟨0, F.keyOf 42⟩ (fun A lda ldb => leftApply F.E layout .NoTrans .NoTrans d1 m1 m1 alpha ro co A lda beta ldb) alpha d1 m1 ro co layout beta)) ()
      (fun r _ => r = none) := by
  refine withTestOp_spec hF h (Q := fun r => r = none) fun S hS => ?_
  obtain ⟨-, g2, -⟩ := madeOp_facts hF h hSm hS
  exact M.wp_mono (C124_library_left_eye hF.env hF.atol (hu S hS) hd hm hf (by rw [g2]; exact hw)) fun r _ h => h.2.2

omit [IsStrictOrderedRing T] in
theorem rightEye_lib (hF : SkgeOk F) (h : OpOk F kind nR nC key) {d1 m1 ro co : Int} {alpha beta : T} (hd : 0 < d1) (hm : 0 < m1) (hf : d1 * m1 ≤ intMax 64) (hw : InOp nR nC d1 m1 ro co)
    (hSm : IsTestMat F kind nR nC key Sm) (hu : ∀ S, MadeOp F kind nR nC key S → RightUsable F.E alpha layout .NoTrans .NoTrans S Sm d1 m1 ro co) :
    M.wp (withTestOp F kind nR nC key (testRightEye F.E F.atol F.rtol ⟨0, F.keyOf 11⟩ (fun A lda ldb => rightApply F.E layout .NoTrans .NoTrans d1 m1 d1 alpha A lda ro co beta ldb) alpha d1 m1 ro co layout beta)) ()
      (fun r _ => r = none) := by
  refine withTestOp_spec hF h (Q := fun r => r = none) fun S hS => ?_
  obtain ⟨-, g2, -⟩ := madeOp_facts hF h hSm hS
  exact M.wp_mono (C124_library_right_eye hF.env hF.atol (hu S hS) hd hm hf (by rw [g2]; exact hw)) fun r _ h => h.2.2

omit [IsStrictOrderedRing T] in
theorem leftTrans_lib (hF : SkgeOk F) (h : OpOk F kind nR nC key) (hSm : IsTestMat F kind nR nC key Sm) (hk : SeesMore kind nC nR (fun i j => Sm j i)) :
    M.wp (withTestOp F kind nR nC key (testLeftTransEye F.E F.atol F.rtol (fun A lda ldb => leftApply F.E layout .Trans .NoTrans nC nR nR 1 0 0 A lda 0 ldb) layout)) () (fun r _ => r = none) := by
  refine withTestOp_spec hF h (Q := fun r => r = none) fun S hS => ?_
  obtain ⟨-, g2, -⟩ := madeOp_facts hF h hSm hS
  have := C124_library_left_transpose_eye hF.env (S := S) (rtol := F.rtol) (layout := layout) hF.atol (by
    rw [g2]; exact madeOp_left hF h hSm hS h.2.1 h.1 (whole_inOp nR nC) (by rw [subMat_zero]; exact hk))
  rw [g2] at this
  exact M.wp_mono this fun r _ h => h.2.2

omit [IsStrictOrderedRing T] in
theorem rightTrans_lib (hF : SkgeOk F) (h : OpOk F kind nR nC key) (hSm : IsTestMat F kind nR nC key Sm) (hfill : FilledFirst kind) (hk : SeesMore kind nR nC Sm) :
    M.wp (withTestOp F kind nR nC key (testRightTransEye F.E F.atol F.rtol (fun A lda ldb => rightApply F.E layout .NoTrans .Trans nC nR nC 1 A lda 0 0 0 ldb) layout)) () (fun r _ => r = none) := by
  refine withTestOp_spec hF h (Q := fun r => r = none) fun S hS => ?_
  obtain ⟨-, g2, -⟩ := madeOp_facts hF h hSm hS
  have := C124_library_right_transpose_eye hF.env (S := S) (rtol := F.rtol) (layout := layout) hF.atol (by
    rw [g2]; exact madeOp_right hF h hSm hfill hS h.1 h.2.1 (whole_inOp nR nC) (by rw [subMat_zero]; exact hk))
  rw [g2] at this
  exact M.wp_mono this fun r _ h => h.2.2

theorem leftSub_lib (hF : SkgeOk F) (h : OpOk F kind nR nC key) (hSm : IsTestMat F kind nR nC key Sm) {n m0 n0 ro co : Int} (hn : 0 < n) (hf : m0 * n0 ≤ intMax 64) (hw : InOp m0 n0 nC n ro co)
    (hu : ∀ S, MadeOp F kind nR nC key S → LeftUsable F.E 1 layout .NoTrans .NoTrans S Sm nR nC 0 0) :
    M.wp (withTestOp F kind nR nC key (testLeftSubmatrix F.E F.eps ⟨0, F.keyOf 13⟩ (fun A lda ldb => leftApply F.E layout .NoTrans .NoTrans nR n nC 1 0 0 A lda 0 ldb) n m0 n0 ro co layout)) ()
      (fun r _ => r = none) := by
  refine withTestOp_spec hF h (Q := fun r => r = none) fun S hS => ?_
  obtain ⟨-, g2, -⟩ := madeOp_facts hF h hSm hS
  have := C124_library_left_submatrix hF.env hF.eps (seedA := ⟨0, F.keyOf 13⟩) (leftTestable_usable (by rw [g2]; exact hu S hS)) hn hf (by rw [g2]; exact hw)
  rw [g2] at this
  exact M.wp_mono this fun r _ h => h.2

theorem rightSub_lib (hF : SkgeOk F) (h : OpOk F kind nR nC key) (hSm : IsTestMat F kind nR nC key Sm) {m m0 n0 ro co : Int} (hm : 0 < m) (hf : m0 * n0 ≤ intMax 64) (hw : InOp m0 n0 m nR ro co)
    (hu : ∀ S, MadeOp F kind nR nC key S → RightUsable F.E 1 layout .NoTrans .NoTrans S Sm nR nC 0 0) :
    M.wp (withTestOp F kind nR nC key (testRightSubmatrix F.E F.eps ⟨0, F.keyOf 1⟩ (fun A lda ldb => rightApply F.E layout .NoTrans .NoTrans m nC nR 1 A lda 0 0 0 ldb) m m0 n0 ro co layout)) ()
      (fun r _ => r = none) := by
  refine withTestOp_spec hF h (Q := fun r => r = none) fun S hS => ?_
  obtain ⟨-, g2, -⟩ := madeOp_facts hF h hSm hS
  have := C124_library_right_submatrix hF.env hF.eps (seedA := ⟨0, F.keyOf 1⟩) (rightTestable_usable (by rw [g2]; exact hu S hS)) hm hf (by rw [g2]; exact hw)
  rw [g2] at this
  exact M.wp_mono this fun r _ h => h.2

/-! ## Random data -/

theorem leftRandom_op (hF : SkgeOk F) (h : OpOk F kind nR nC key) (hSm : IsTestMat F kind nR nC key Sm) {n : Int} (hn : 0 < n) (hfA : nC * n ≤ intMax 64) (hfB : nR * n ≤ intMax 64)
    {Am C X' : Int → Int → T} (hAm : Am = fun i j => testData F.E.G ⟨0, F.keyOf 99⟩ nC n (addr layout (tightLd layout nC n) i j))
    (hC : C = fun i j => testData F.E.G ⟨0, F.keyOf 42⟩ nR n (addr layout (tightLd layout nR n) i j))
    (hL : LeftOpGives F L kind nR nC key Sm layout .NoTrans .NoTrans nR n nC 1 0 0 Am 0 C X') :
    M.wp (withTestOp F kind nR nC key (testLeftRandom F.E F.eps ⟨0, F.keyOf 99⟩ ⟨0, F.keyOf 42⟩ (fun A lda ldb => L layout .NoTrans .NoTrans nR n nC 1 0 0 A lda 0 ldb) 1 n 0 layout)) ()
      (fun r _ => r = none ↔ ∀ i j, InR nR n i j → |X' i j - prodEntry nC Sm Am i j| ≤ 2 * (nC : T) * F.eps * prodEntry nC (fun i k => |Sm i k|) (fun k j => |Am k j|) i j) := by
  refine withTestOp_spec hF h (Q := fun r => r = none ↔ _) fun S hS => ?_
  obtain ⟨g1, g2, -⟩ := madeOp_facts hF h hSm hS
  have := C124_left_random hF.env (eps := F.eps) (seedA := ⟨0, F.keyOf 99⟩) (seedB := ⟨0, F.keyOf 42⟩) (layout := layout) (X' := X') (n := n) (Am := Am) (C := C) (alpha := 1) (beta := 0)
    (apply := fun A lda ldb => L layout .NoTrans .NoTrans nR n nC 1 0 0 A lda 0 ldb) g1 hn (by rw [g2]; exact hfA) (by rw [g2]; exact hfB) (by rw [g2]; exact hAm) (by rw [g2]; exact hC) (by
    rw [g2]
    exact hL _ _ _ _ S hS (ldOk_tight layout nC n) (by rw [hAm]; exact ofFn_holds layout _) (ldOk_tight _ _ _) (by rw [hC]; exact ofFn_holds layout _))
  rw [g2] at this
  refine M.wp_mono this fun r _ h => ?_
  simpa only [abs_one, mul_one, one_mul, abs_zero, zero_mul, mul_zero, add_zero] using h.2.1

theorem rightRandom_op (hF : SkgeOk F) (h : OpOk F kind nR nC key) (hSm : IsTestMat F kind nR nC key Sm) {m : Int} (hm : 0 < m) (hfA : m * nR ≤ intMax 64) (hfB : m * nC ≤ intMax 64)
    {Am C X' : Int → Int → T} (hAm : Am = fun i j => testData F.E.G ⟨0, F.keyOf 57⟩ m nR (addr layout (tightLd layout m nR) i j))
    (hC : C = fun i j => testData F.E.G ⟨0, F.keyOf 10⟩ m nC (addr layout (tightLd layout m nC) i j))
    (hP : RightOpGives F P kind nR nC key Sm layout .NoTrans .NoTrans m nC nR 1 0 0 Am 0 C X') :
    M.wp (withTestOp F kind nR nC key (testRightRandom F.E F.eps ⟨0, F.keyOf 57⟩ ⟨0, F.keyOf 10⟩ (fun A lda ldb => P layout .NoTrans .NoTrans m nC nR 1 A lda 0 0 0 ldb) 1 m layout 0)) ()
      (fun r _ => r = none ↔ ∀ i j, InR m nC i j → |X' i j - prodEntry nR Am Sm i j| ≤ 2 * (nR : T) * F.eps * prodEntry nR (fun i k => |Am i k|) (fun k j => |Sm k j|) i j) := by
  refine withTestOp_spec hF h (Q := fun r => r = none ↔ _) fun S hS => ?_
  obtain ⟨g1, g2, -⟩ := madeOp_facts hF h hSm hS
  have := C124_right_random hF.env (eps := F.eps) (seedA := ⟨0, F.keyOf 57⟩) (seedB := ⟨0, F.keyOf 10⟩) (layout := layout) (X' := X') (m := m) (Am := Am) (C := C) (alpha := 1) (beta := 0)
    (apply := fun A lda ldb => P layout .NoTrans .NoTrans m nC nR 1 A lda 0 0 0 ldb) g1 hm (by rw [g2]; exact hfA) (by rw [g2]; exact hfB) (by rw [g2]; exact hAm) (by rw [g2]; exact hC) (by
    rw [g2]
    exact hP _ _ _ _ S hS (ldOk_tight layout m nR) (by rw [hAm]; exact ofFn_holds layout _) (ldOk_tight _ _ _) (by rw [hC]; exact ofFn_holds layout _))
  rw [g2] at this
  refine M.wp_mono this fun r _ h => ?_
  simpa only [abs_one, mul_one, one_mul, abs_zero, zero_mul, mul_zero, add_zero] using h.2.1

theorem leftTransposed_op (hF : SkgeOk F) (h : OpOk F kind nR nC key) (hSm : IsTestMat F kind nR nC key Sm) {n : Int} (hn : 0 < n) (hf : n * nC ≤ intMax 64)
    {Am X' : Int → Int → T} (hAm : Am = fun i j => testData F.E.G ⟨0, F.keyOf 101⟩ n nC (addr layout (tightLd layout n nC) i j))
    (hL : LeftOpGives F L kind nR nC key Sm layout .NoTrans .Trans nR n nC 1 0 0 Am 0 (fun _ _ => 0) X') :
    M.wp (withTestOp F kind nR nC key (testLeftTransposed F.E F.eps ⟨0, F.keyOf 101⟩ (fun A lda ldb => L layout .NoTrans .Trans nR n nC 1 0 0 A lda 0 ldb) n layout)) ()
      (fun r _ => r = none ↔ ∀ i j, InR nR n i j → |X' i j - prodEntry nC Sm (fun k j => Am j k) i j| ≤ leftTol F.eps .Trans nC Sm Am i j) := by
  refine withTestOp_spec hF h (Q := fun r => r = none ↔ _) fun S hS => ?_
  obtain ⟨g1, g2, -⟩ := madeOp_facts hF h hSm hS
  have := C124_left_transposed hF.env (eps := F.eps) (seedA := ⟨0, F.keyOf 101⟩) (layout := layout) (X' := X') (n := n) (Am := Am) (apply := fun A lda ldb => L layout .NoTrans .Trans nR n nC 1 0 0 A lda 0 ldb) g1 hn (by rw [g2]; exact hf) (by rw [g2]; exact hAm) (by
    rw [g2]
    exact hL _ _ _ _ S hS (ldOk_tight layout n nC) (by rw [hAm]; exact ofFn_holds layout _) (ldOk_tight _ _ _) (ofFn_holds layout _))
  rw [g2] at this
  exact M.wp_mono this fun r _ h => h.2.1

theorem leftRandom_lib (hF : SkgeOk F) (h : OpOk F kind nR nC key) (hSm : IsTestMat F kind nR nC key Sm) {n : Int} (hn : 0 < n) (hfA : nC * n ≤ intMax 64) (hfB : nR * n ≤ intMax 64)
    (hu : ∀ S, MadeOp F kind nR nC key S → LeftUsable F.E 1 layout .NoTrans .NoTrans S Sm nR nC 0 0) :
    M.wp (withTestOp F kind nR nC key (testLeftRandom F.E F.eps ⟨0, F.keyOf 99⟩ ⟨0, F.keyOf 42⟩ (fun A lda ldb => leftApply F.E layout .NoTrans .NoTrans nR n nC 1 0 0 A lda 0 ldb) 1 n 0 layout)) ()
      (fun r _ => r = none) := by
  refine withTestOp_spec hF h (Q := fun r => r = none) fun S hS => ?_
  obtain ⟨-, g2, -⟩ := madeOp_facts hF h hSm hS
  have := C124_library_left hF.env hF.eps (seedA := ⟨0, F.keyOf 99⟩) (seedB := ⟨0, F.keyOf 42⟩) (beta := 0) (leftTestable_usable (by rw [g2]; exact hu S hS)) hn (by rw [g2]; exact hfA) (by rw [g2]; exact hfB)
  rw [g2] at this
  exact M.wp_mono this fun r _ h => h.2

theorem rightRandom_lib (hF : SkgeOk F) (h : OpOk F kind nR nC key) (hSm : IsTestMat F kind nR nC key Sm) {m : Int} (hm : 0 < m) (hfA : m * nR ≤ intMax 64) (hfB : m * nC ≤ intMax 64)
    (hu : ∀ S, MadeOp F kind nR nC key S → RightUsable F.E 1 layout .NoTrans .NoTrans S Sm nR nC 0 0) :
    M.wp (withTestOp F kind nR nC key (testRightRandom F.E F.eps ⟨0, F.keyOf 57⟩ ⟨0, F.keyOf 10⟩ (fun A lda ldb => rightApply F.E layout .NoTrans .NoTrans m nC nR 1 A lda 0 0 0 ldb) 1 m layout 0)) ()
      (fun r _ => r = none) := by
  refine withTestOp_spec hF h (Q := fun r => r = none) fun S hS => ?_
  obtain ⟨-, g2, -⟩ := madeOp_facts hF h hSm hS
  have := C124_library_right hF.env hF.eps (seedA := ⟨0, F.keyOf 57⟩) (seedB := ⟨0, F.keyOf 10⟩) (beta := 0) (rightTestable_usable (by rw [g2]; exact hu S hS)) hm (by rw [g2]; exact hfA) (by rw [g2]; exact hfB)
  rw [g2] at this
  exact M.wp_mono this fun r _ h => h.2

theorem leftTransposed_lib (hF : SkgeOk F) (h : OpOk F kind nR nC key) (hSm : IsTestMat F kind nR nC key Sm) {n : Int} (hn : 0 < n) (hf : n * nC ≤ intMax 64)
    (hu : ∀ S, MadeOp F kind nR nC key S → LeftUsable F.E 1 layout .NoTrans .Trans S Sm nR nC 0 0) :
    M.wp (withTestOp F kind nR nC key (testLeftTransposed F.E F.eps ⟨0, F.keyOf 101⟩ (fun A lda ldb => leftApply F.E layout .NoTrans .Trans nR n nC 1 0 0 A lda 0 ldb) n layout)) () (fun r _ => r = none) := by
  refine withTestOp_spec hF h (Q := fun r => r = none) fun S hS => ?_
  obtain ⟨-, g2, -⟩ := madeOp_facts hF h hSm hS
  have := C124_library_left_transposed hF.env hF.eps (seedA := ⟨0, F.keyOf 101⟩) (S := S) (layout := layout) (by rw [g2]; exact hu S hS) hn (by rw [g2]; exact hf)
  rw [g2] at this
  exact M.wp_mono this fun r _ h => h.2

/-! ## Sparse operators with nonzeros in every column (left) or row (right) -/

omit [LinearOrder T] [IsStrictOrderedRing T] in
/-- Every vector along the short axis of a short-axis operator has a nonzero. -/
theorem short_nonzero {E : SkEnv N K W WS R T} (hE : SkEnvOk E) {D : SparseDist} (hD : SparseDistOk D) (hax : D.majorAxis = .Short) {seed : RNGState N K} (hSm : SparseSamples E.GS E.sqrt D seed Sm) :
    (D.nRows ≤ D.nCols → ∀ j, 0 ≤ j → j < D.nCols → ∃ i, 0 ≤ i ∧ i < D.nRows ∧ Sm i j ≠ 0) ∧ (D.nCols < D.nRows → ∀ i, 0 ≤ i → i < D.nRows → ∃ j, 0 ≤ j ∧ j < D.nCols ∧ Sm i j ≠ 0) := by
  obtain ⟨hR, hC, hk, hkd, -, -, hax'⟩ := sparseDist_facts hD
  have hfrom : SparseFrom E D seed (mkSparseSkOp E.GS.len D seed) := Or.inl rfl
  obtain ⟨-, -, -, L0, hrun, his⟩ := sparseFrom_run hE hD hfrom
  have hmat := (C14_well_defined hE.genS hE.sqrt hD).unique (sparseFrom_samples hE hD hfrom his) hSm
  have hin := sparseRun_inRange hD hrun (by rw [hax]; intro h; cases h)
  have hval : ∀ e ∈ L0.map (mkEntry D), Sm e.row e.col ≠ 0 := by
    intro e he
    rcases hrun with ⟨-, rfl⟩ | ⟨a, -⟩
    swap
    · rw [a] at hax; cases hax
    rw [← hmat, toMat_mem (mkEntry_nodup D (saso_nodup hk hkd)) he]
    obtain ⟨x, hx, rfl⟩ := List.mem_map.1 he
    rw [mkEntry_val]
    rcases (saso_mem hk hkd hx).2.2.2.2 with h | h <;> rw [h] <;> simp
  refine ⟨fun hw j j0 j1 => ?_, fun hw i i0 i1 => ?_⟩
  · obtain ⟨e, he, hq⟩ := sparseRun_long_mem hD hax hrun (q := j) j0 (by omega)
    have he' := List.mem_map_of_mem (f := mkEntry D) he
    have hc : (mkEntry D e).col = j := by unfold mkEntry; rw [if_pos hw]; exact hq
    refine ⟨(mkEntry D e).row, (hin _ he').1, (hin _ he').2.1, ?_⟩
    rw [← hc]; exact hval _ he'
  · obtain ⟨e, he, hq⟩ := sparseRun_long_mem hD hax hrun (q := i) i0 (by omega)
    have he' := List.mem_map_of_mem (f := mkEntry D) he
    have hc : (mkEntry D e).row = i := by unfold mkEntry; rw [if_neg (by omega)]; exact hq
    refine ⟨(mkEntry D e).col, (hin _ he').2.2.1, (hin _ he').2.2.2, ?_⟩
    rw [← hc]; exact hval _ he'

omit [IsStrictOrderedRing T] in
theorem short_sees {v : Int} {fill : Bool} (hF : SkgeOk F) (h : OpOk F (.sparse v .Short fill) nR nC key) (hSm : IsTestMat F (.sparse v .Short fill) nR nC key Sm) :
    (nR ≤ nC → SeesMore (.sparse v .Short fill) nR nC Sm) ∧ (nC < nR → SeesMore (.sparse v .Short fill) nC nR (fun i j => Sm j i)) := by
  obtain ⟨D, hD, okD, d1, d2, d3, d4, hu⟩ := kind_dist h
  obtain ⟨D', hD', hsm⟩ := hSm
  obtain rfl := Res.ok.inj (hD.symm.trans hD')
  obtain ⟨h1, h2⟩ := short_nonzero hF.env okD d3 hsm
  rw [d1, d2] at h1 h2
  refine ⟨fun hle hc => ?_, fun hlt hc => ?_⟩
  · obtain ⟨i, i0, i1, hne⟩ := h1 hle 1 (by omega) (by omega)
    exact ⟨i, 1, ⟨i0, i1, by omega, by omega⟩, one_ne_zero, hne⟩
  · obtain ⟨j, j0, j1, hne⟩ := h2 hlt 1 (by omega) (by omega)
    exact ⟨j, 1, ⟨j0, j1, by omega, by omega⟩, one_ne_zero, hne⟩

omit [IsStrictOrderedRing T] in
/-- A whole operator can be used from the left if its major axis is short and it is not tall, or if it has a nonzero outside the first column. -/
theorem whole_left {v : Int} {axis : Axis} {fill : Bool} (hF : SkgeOk F) (h : OpOk F (.sparse v axis fill) nR nC key) (hSm : IsTestMat F (.sparse v axis fill) nR nC key Sm)
    (hk : axis = .Short ∧ nR ≤ nC ∨ SeesMore (.sparse v axis fill) nR nC Sm) {alpha : T} {opA : Op} (S : TestOp N K T) (hS : MadeOp F (.sparse v axis fill) nR nC key S) :
    LeftUsable F.E alpha layout .NoTrans opA S Sm nR nC 0 0 := by
  refine madeOp_left hF h hSm hS h.1 h.2.1 (whole_inOp nR nC) ?_
  rw [subMat_zero]
  rcases hk with ⟨rfl, hle⟩ | hk
  · exact (short_sees hF h hSm).1 hle
  · exact hk

omit [IsStrictOrderedRing T] in
/-- A whole operator can be used from the right if its major axis is short and it is tall, or if it has a nonzero outside the first row. -/
theorem whole_right {v : Int} {axis : Axis} (hF : SkgeOk F) (h : OpOk F (.sparse v axis true) nR nC key) (hSm : IsTestMat F (.sparse v axis true) nR nC key Sm)
    (hk : axis = .Short ∧ nC < nR ∨ SeesMore (.sparse v axis true) nC nR (fun i j => Sm j i)) {alpha : T} {opA : Op} (S : TestOp N K T) (hS : MadeOp F (.sparse v axis true) nR nC key S) :
    RightUsable F.E alpha layout opA .NoTrans S Sm nR nC 0 0 := by
  refine madeOp_right hF h hSm rfl hS h.2.1 h.1 (whole_inOp nR nC) ?_
  rw [subMat_zero]
  rcases hk with ⟨rfl, hle⟩ | hk
  · exact (short_sees hF h hSm).2 hle
  · exact hk

omit [LinearOrder T] [IsStrictOrderedRing T] [IsStrictOrderedRing R] [FloorRing R] [Field T] [Field R] [LinearOrder R] in
theorem require_false {p : Prop} [Decidable p] (h : ¬ p) : (M.require p : M Unit Unit) () = (.throw .require, ()) := by unfold M.require M.lift Res.require; rw [if_neg h]

omit [LinearOrder T] [IsStrictOrderedRing T] [IsStrictOrderedRing R] [FloorRing R] [Field T] [Field R] [LinearOrder R] in
theorem require_true {p : Prop} [Decidable p] (h : p) : (M.require p : M Unit Unit) () = (.ok (), ()) := by unfold M.require M.lift Res.require; rw [if_pos h]

end RB
