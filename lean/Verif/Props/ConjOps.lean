import Verif.Spec.ConjOps
import Verif.Props.Sketch64

/-! # C105: `blas::Op::ConjTrans` -/

namespace RB
open Spec
variable {N : Nat} {K W WS R T : Type}

theorem dimsBeforeOpC_eq (m n : Int) (op : BlasOp) : dimsBeforeOpC m n op = dimsBeforeOp m n (realOp op) := by cases op <;> rfl

theorem unlessNo_eq (op : BlasOp) : op.unlessNo = realOp op := by cases op <;> rfl

theorem unlessNo_forLayout (l l' : Layout) (op : BlasOp) : (opForLayoutC l l' op).unlessNo = opForLayout l l' (realOp op) := by
  unfold opForLayoutC opForLayout
  cases op <;> by_cases h : l = l' <;> simp [h, BlasOp.flip, BlasOp.unlessNo, Op.flip, realOp]

theorem onlyTrans_of_ne {op : BlasOp} (h : op ≠ .ConjTrans) : op.onlyTrans = realOp op := by cases op <;> first | rfl | exact absurd rfl h

theorem onlyTrans_flip (op : BlasOp) : op.flip.onlyTrans = (realOp op).flip := by cases op <;> rfl

section
variable [Zero T] [One T] [Add T] [Mul T] [BEq T]

/-- C105 (dense times sparse). `spmm` with the sparse factor on the right: `ConjTrans` is `Trans`, for both factors. -/
theorem C105_right_spmm (env : Env T) (layout : Layout) (opA opB : BlasOp) (m d n : Int) (alpha : T) (A : Buf T) (lda iOff jOff : Int) (beta : T) (ldc : Int) :
    rightSpmmC env layout opA opB m d n alpha A lda iOff jOff beta ldc = rightSpmm env layout (realOp opA) (realOp opB) m d n alpha A lda iOff jOff beta ldc := by
  unfold rightSpmmC leftSpmmC rightSpmm
  rw [onlyTrans_flip, unlessNo_eq]

/-- C105 (sparse times dense, partial). `spmm` with the sparse factor on the left: `ConjTrans` is `Trans` for the dense factor. Missing: `ConjTrans` for the sparse factor, see
`C105_left_spmm_conj`. -/
theorem C105_left_spmm_partial (env : Env T) (layout : Layout) {opA : BlasOp} (h : opA ≠ .ConjTrans) (opB : BlasOp) (d n m : Int) (alpha : T) (ro co : Int) (B : Buf T) (ldb : Int)
    (beta : T) (ldc : Int) :
    leftSpmmC env layout opA opB d n m alpha ro co B ldb beta ldc = leftSpmm env layout (realOp opA) (realOp opB) d n m alpha ro co B ldb beta ldc := by
  unfold leftSpmmC
  rw [onlyTrans_of_ne h, unlessNo_eq]

/-- C105 fails for every product with a sparse factor on the left: a call with `ConjTrans` for it does exactly what the call with `NoTrans` does. -/
theorem C105_left_spmm_conj (env : Env T) (layout : Layout) (opB : BlasOp) (d n m : Int) (alpha : T) (ro co : Int) (B : Buf T) (ldb : Int) (beta : T) (ldc : Int) :
    leftSpmmC env layout .ConjTrans opB d n m alpha ro co B ldb beta ldc = leftSpmm env layout .NoTrans (realOp opB) d n m alpha ro co B ldb beta ldc := by
  unfold leftSpmmC
  rw [unlessNo_eq]; rfl

omit [One T] in
theorem lskge3ViewC_eq (layout : Layout) (opS opA : BlasOp) (d n m : Int) (alpha : T) (S : BFO T) (roS coS : Int) (A : Buf T) (lda : Int) (beta : T) (ldb : Int) :
    lskge3ViewC layout opS opA d n m alpha S roS coS A lda beta ldb = lskge3View layout (realOp opS) (realOp opA) d n m alpha S roS coS A lda beta ldb := by
  obtain ⟨l, nr, nc, b, ld⟩ := S
  cases l <;> cases layout <;> cases opS <;> cases opA <;> rfl

omit [One T] in
theorem rskge3ViewC_eq (layout : Layout) (opA opS : BlasOp) (m d n : Int) (alpha : T) (A : Buf T) (lda : Int) (S : BFO T) (roS coS : Int) (beta : T) (ldb : Int) :
    rskge3ViewC layout opA opS m d n alpha A lda S roS coS beta ldb = rskge3View layout (realOp opA) (realOp opS) m d n alpha A lda S roS coS beta ldb := by
  obtain ⟨l, nr, nc, b, ld⟩ := S
  cases l <;> cases layout <;> cases opA <;> cases opS <;> rfl

omit [One T] in
theorem lskge3C_eq (E : SkEnv N K W WS R T) (layout : Layout) (opS opA : BlasOp) (d n m : Int) (alpha : T) (S : DenseSkOp N K T) (roS coS : Int) (A : Buf T) (lda : Int)
    (beta : T) (ldb : Int) :
    lskge3C E layout opS opA d n m alpha S roS coS A lda beta ldb = lskge3 E layout (realOp opS) (realOp opA) d n m alpha S roS coS A lda beta ldb := by
  unfold lskge3C lskge3
  simp only [dimsBeforeOpC_eq, lskge3ViewC_eq]

omit [One T] in
theorem rskge3C_eq (E : SkEnv N K W WS R T) (layout : Layout) (opA opS : BlasOp) (m d n : Int) (alpha : T) (A : Buf T) (lda : Int) (S : DenseSkOp N K T) (roS coS : Int)
    (beta : T) (ldb : Int) :
    rskge3C E layout opA opS m d n alpha A lda S roS coS beta ldb = rskge3 E layout (realOp opA) (realOp opS) m d n alpha A lda S roS coS beta ldb := by
  unfold rskge3C rskge3
  simp only [dimsBeforeOpC_eq, rskge3ViewC_eq]

theorem lsksp3ViewC_eq (env : Env T) (layout : Layout) (opS opA : BlasOp) (d n m : Int) (alpha : T) (S : BFO T) (roS coS roA coA : Int) (beta : T) (ldb : Int) :
    lsksp3ViewC env layout opS opA d n m alpha S roS coS roA coA beta ldb = lsksp3View env layout (realOp opS) (realOp opA) d n m alpha S roS coS roA coA beta ldb := by
  obtain ⟨l, nr, nc, b, ld⟩ := S
  cases l <;> cases layout <;> cases opS <;> cases opA <;> rfl

theorem rsksp3ViewC_eq (env : Env T) (layout : Layout) {opA : BlasOp} (h : opA ≠ .ConjTrans) (opS : BlasOp) (m d n : Int) (alpha : T) (roA coA : Int) (S : BFO T)
    (roS coS : Int) (beta : T) (ldb : Int) :
    rsksp3ViewC env layout opA opS m d n alpha roA coA S roS coS beta ldb = rsksp3View env layout (realOp opA) (realOp opS) m d n alpha roA coA S roS coS beta ldb := by
  obtain ⟨l, nr, nc, b, ld⟩ := S
  cases opA <;> first | exact absurd rfl h | (cases l <;> cases layout <;> cases opS <;> rfl)

/-- C105 (sketches of sparse matrices from the left). `ConjTrans` is `Trans`, for the operator and the data. -/
theorem C105_sketch_sparse_left (E : SkEnv N K W WS R T) (layout : Layout) (opS opA : BlasOp) (d n m : Int) (alpha : T) (S : DenseSkOp N K T) (roS coS : Int) (beta : T) (ldb : Int) :
    sketchSparseLC E layout opS opA d n m alpha S roS coS beta ldb = sketchSparseL E layout (realOp opS) (realOp opA) d n m alpha S roS coS beta ldb := by
  unfold sketchSparseLC sketchSparseL lsksp3C lsksp3
  simp only [dimsBeforeOpC_eq, lsksp3ViewC_eq]

/-- C105 (sketches of sparse matrices from the right, partial). `ConjTrans` is `Trans` for the operator. Missing: `ConjTrans` for the data, see `C105_sketch_sparse_right_conj`. -/
theorem C105_sketch_sparse_right_partial (E : SkEnv N K W WS R T) (layout : Layout) {opA : BlasOp} (h : opA ≠ .ConjTrans) (opS : BlasOp) (m d n : Int) (alpha : T)
    (S : DenseSkOp N K T) (roS coS : Int) (beta : T) (ldb : Int) :
    sketchSparseRC E layout opA opS m d n alpha S roS coS beta ldb = sketchSparseR E layout (realOp opA) (realOp opS) m d n alpha S roS coS beta ldb := by
  unfold sketchSparseRC sketchSparseR rsksp3C rsksp3
  simp only [dimsBeforeOpC_eq, rsksp3ViewC_eq E.env layout h]

end

section
variable [Field R] [LinearOrder R] [FloorRing R] [Zero T] [One T] [Neg T] [Add T] [Mul T] [BEq T]

/-- C105 (sketches from the right). For dense and sparse operators, `ConjTrans` is `Trans`, for the operator and the data. -/
theorem C105_right (E : SkEnv N K W WS R T) (layout : Layout) (opA opS : BlasOp) (m d n : Int) (alpha : T) (A : Buf T) (lda roS coS : Int) (beta : T) (ldb : Int) :
    sketchGeneralRC E layout opA opS m d n alpha A lda roS coS beta ldb = sketchGeneralR E layout (realOp opA) (realOp opS) m d n alpha A lda roS coS beta ldb ∧
    sketchGeneralRFullC E layout opA opS m d n alpha A lda beta ldb = sketchGeneralRFull E layout (realOp opA) (realOp opS) m d n alpha A lda beta ldb := by
  have h1 : ∀ roS coS : Int, sketchGeneralRC E layout opA opS m d n alpha A lda roS coS beta ldb =
      sketchGeneralR E layout (realOp opA) (realOp opS) m d n alpha A lda roS coS beta ldb := fun roS coS => by
    unfold sketchGeneralRC sketchGeneralR rskgesC rskges rskgesViewC rskgesView
    simp only [rskge3C_eq, C105_right_spmm]
    funext s
    rcases s with ⟨x, b⟩
    cases x <;> rfl
  refine ⟨h1 roS coS, ?_⟩
  unfold sketchGeneralRFullC sketchGeneralRFull
  rw [h1]
  cases opS <;> rfl

/-- C105 (sketches from the left, partial). `ConjTrans` is `Trans` for the data and, if the operator is dense, for the operator. Missing: `ConjTrans` for sparse operators,
see `C105_left_conj`. -/
theorem C105_left_partial (E : SkEnv N K W WS R T) (layout : Layout) (opS opA : BlasOp) (d n m : Int) (alpha : T) (roS coS : Int) (A : Buf T) (lda : Int) (beta : T) (ldb : Int)
    (s : SkOp N K T × Buf T) (h : opS ≠ .ConjTrans ∨ ∃ S, s.1 = .dense S) :
    sketchGeneralLC E layout opS opA d n m alpha roS coS A lda beta ldb s = sketchGeneralL E layout (realOp opS) (realOp opA) d n m alpha roS coS A lda beta ldb s ∧
    sketchGeneralLFullC E layout opS opA d n m alpha A lda beta ldb s = sketchGeneralLFull E layout (realOp opS) (realOp opA) d n m alpha A lda beta ldb s := by
  have h1 : ∀ roS coS : Int, sketchGeneralLC E layout opS opA d n m alpha roS coS A lda beta ldb s =
      sketchGeneralL E layout (realOp opS) (realOp opA) d n m alpha roS coS A lda beta ldb s := fun roS coS => by
    rcases h with h | ⟨S, hS⟩
    · unfold sketchGeneralLC sketchGeneralL lskgesC lskges lskgesViewC lskgesView
      simp only [lskge3C_eq, C105_left_spmm_partial E.env layout h]
      rcases s with ⟨x, b⟩
      cases x <;> rfl
    · obtain ⟨s1, s2⟩ := s
      dsimp only at hS
      subst hS
      show onC (lskge3C E layout opS opA d n m alpha S roS coS A lda beta ldb) _ = _
      rw [lskge3C_eq]
      rfl
  refine ⟨h1 roS coS, ?_⟩
  unfold sketchGeneralLFullC sketchGeneralLFull
  refine M.bind_congr_ok fun a s' hs => ?_
  cases hs
  have e1 : (if opS = .NoTrans then d else m) = if realOp opS = .NoTrans then d else m := by cases opS <;> rfl
  have e2 : (if opS = .NoTrans then m else d) = if realOp opS = .NoTrans then m else d := by cases opS <;> rfl
  rw [e1, e2]
  refine M.bind_congr_ok fun a s' hs => ?_
  cases require_state hs
  refine M.bind_congr_ok fun a s' hs => ?_
  cases require_state hs
  exact h1 0 0

/-- C105 (sketches of vectors, partial). For `NoTrans` and `Trans`. Missing: `ConjTrans`, see `C105_vector_conj_sparse` and `C105_vector_conj_dense`. -/
theorem C105_vector_partial (E : SkEnv N K W WS R T) {opS : BlasOp} (h : opS ≠ .ConjTrans) (d m : Int) (alpha : T) (roS coS : Int) (x : Buf T) (incx : Int) (beta : T) (incy : Int)
    (s : SkOp N K T × Buf T) :
    sketchVectorC E opS d m alpha roS coS x incx beta incy s = sketchVector E (realOp opS) d m alpha roS coS x incx beta incy s ∧
    sketchVectorFullC E opS alpha x incx beta incy s = sketchVectorFull E (realOp opS) alpha x incx beta incy s := by
  have h1 : ∀ d m roS coS : Int, sketchVectorC E opS d m alpha roS coS x incx beta incy s = sketchVector E (realOp opS) d m alpha roS coS x incx beta incy s := fun d m roS coS => by
    unfold sketchVectorC sketchVector
    rw [(C105_left_partial E .RowMajor opS .NoTrans _ 1 _ alpha roS coS x incx beta incy s (Or.inl h)).1]
    cases opS <;> first | rfl | exact absurd rfl h
  exact ⟨h1 d m roS coS, h1 s.1.distRows s.1.distCols 0 0⟩

theorem lskgesC_conj (E : SkEnv N K W WS R T) (layout : Layout) (opA : BlasOp) (d n m : Int) (alpha : T) (roS coS : Int) (A : Buf T) (lda : Int) (beta : T) (ldb : Int) :
    lskgesC E layout .ConjTrans opA d n m alpha roS coS A lda beta ldb = lskges E layout .NoTrans (realOp opA) d n m alpha roS coS A lda beta ldb := by
  unfold lskgesC lskges lskgesViewC lskgesView
  simp only [C105_left_spmm_conj]

/-- C105 fails for every sketch from the left with a sparse operator: a call with `ConjTrans` for the operator does exactly what the call with `NoTrans` does. For the whole operator,
if it is square (otherwise, the dimensions that pass the first checks are those of the transpose). -/
theorem C105_left_conj (E : SkEnv N K W WS R T) (layout : Layout) (opA : BlasOp) (d n m : Int) (alpha : T) (roS coS : Int) (A : Buf T) (lda : Int) (beta : T) (ldb : Int)
    (S : SparseSkOp N K T) (B : Buf T) :
    sketchGeneralLC E layout .ConjTrans opA d n m alpha roS coS A lda beta ldb (.sparse S, B) =
      sketchGeneralL E layout .NoTrans (realOp opA) d n m alpha roS coS A lda beta ldb (.sparse S, B) ∧
    (d = m → sketchGeneralLFullC E layout .ConjTrans opA d n m alpha A lda beta ldb (.sparse S, B) =
      sketchGeneralLFull E layout .NoTrans (realOp opA) d n m alpha A lda beta ldb (.sparse S, B)) := by
  have h1 : ∀ roS coS : Int, sketchGeneralLC E layout .ConjTrans opA d n m alpha roS coS A lda beta ldb (.sparse S, B) =
      sketchGeneralL E layout .NoTrans (realOp opA) d n m alpha roS coS A lda beta ldb (.sparse S, B) := fun roS coS => by
    show onSkSparse S (lskgesC E layout .ConjTrans opA d n m alpha roS coS A lda beta ldb) _ = _
    rw [lskgesC_conj]
    rfl
  refine ⟨h1 roS coS, fun hd => ?_⟩
  subst hd
  unfold sketchGeneralLFullC sketchGeneralLFull
  have e1 : (if BlasOp.ConjTrans = .NoTrans then d else d) = d := by split <;> rfl
  have e2 : (if Op.NoTrans = .NoTrans then d else d) = d := by split <;> rfl
  rw [e1, e2]
  refine M.bind_congr_ok fun a s' hs => ?_
  cases hs
  refine M.bind_congr_ok fun a s' hs => ?_
  cases require_state hs
  refine M.bind_congr_ok fun a s' hs => ?_
  cases require_state hs
  exact h1 0 0

/-- C105 fails for every sketch of a vector with a sparse operator: a call with `ConjTrans` computes `S x`, not the product with the transpose. -/
theorem C105_vector_conj_sparse (E : SkEnv N K W WS R T) (d m : Int) (alpha : T) (roS coS : Int) (x : Buf T) (incx : Int) (beta : T) (incy : Int) (S : SparseSkOp N K T) (y : Buf T) :
    sketchVectorC E .ConjTrans d m alpha roS coS x incx beta incy (.sparse S, y) = sketchVector E .NoTrans d m alpha roS coS x incx beta incy (.sparse S, y) ∧
    sketchVectorFullC E .ConjTrans alpha x incx beta incy (.sparse S, y) = sketchVectorFull E .NoTrans alpha x incx beta incy (.sparse S, y) :=
  ⟨(C105_left_conj E .RowMajor .NoTrans d 1 m alpha roS coS x incx beta incy S y).1, (C105_left_conj E .RowMajor .NoTrans S.dist.nRows 1 S.dist.nCols alpha 0 0 x incx beta incy S y).1⟩

/-- C105 fails for sketches of vectors with a dense operator, unless the window is square: a call with `ConjTrans` and a `d x m` window uses the `m x d` window at the same place,
as a call with `Trans` and these dimensions would. -/
theorem C105_vector_conj_dense (E : SkEnv N K W WS R T) (d m : Int) (alpha : T) (roS coS : Int) (x : Buf T) (incx : Int) (beta : T) (incy : Int) (S : DenseSkOp N K T) (y : Buf T) :
    sketchVectorC E .ConjTrans d m alpha roS coS x incx beta incy (.dense S, y) = sketchVector E .Trans m d alpha roS coS x incx beta incy (.dense S, y) :=
  (C105_left_partial E .RowMajor .ConjTrans .NoTrans d 1 m alpha roS coS x incx beta incy (.dense S, y) (Or.inr ⟨S, rfl⟩)).1

end

section
variable [Zero T] [One T] [Add T] [Mul T] [BEq T]

/-- C105 fails for every sketch of a square sparse matrix from the right: a call with `ConjTrans` for the data does exactly what the call with `NoTrans` does. -/
theorem C105_sketch_sparse_right_conj (E : SkEnv N K W WS R T) (layout : Layout) (opS : BlasOp) (m d : Int) (alpha : T) (S : DenseSkOp N K T) (roS coS : Int) (beta : T) (ldb : Int) :
    sketchSparseRC E layout .ConjTrans opS m d m alpha S roS coS beta ldb = sketchSparseR E layout .NoTrans (realOp opS) m d m alpha S roS coS beta ldb := by
  have h : ∀ (V : BFO T) (r c : Int), rsksp3ViewC E.env layout .ConjTrans opS m d m alpha 0 0 V r c beta ldb =
      rsksp3View E.env layout .NoTrans (realOp opS) m d m alpha 0 0 V r c beta ldb := fun V r c => by
    obtain ⟨l, nr, nc, b, ld⟩ := V
    cases l <;> cases layout <;> cases opS <;> rfl
  unfold sketchSparseRC sketchSparseR rsksp3C rsksp3
  simp only [dimsBeforeOpC_eq, h]

end

/-- The product of the conjugate transpose of the matrix A = (0 1; 0 0), in CSC format, and the vector (1, 2), overwriting: the call leaves A (1, 2) = (2, 0); the correct result is
the product of the transpose, (0, 1), which the call with `Trans` gives. -/
theorem C105_spmm_counterexample :
    let A := cscOf 2 2 [0, 0, 1] [⟨0, 1, (1 : ℤ)⟩]
    let call := fun op => leftSpmmC exEnv .ColMajor op .NoTrans 2 1 2 1 0 0 (Buf.ofList [1, 2]) 2 0 2 (.csc A, Buf.ofList [7, 7])
    CscIs A [⟨0, 1, 1⟩] ∧
    (call .ConjTrans).1 = .ok () ∧ (call .ConjTrans).2.2 0 = .val 2 ∧ (call .ConjTrans).2.2 1 = .val 0 ∧
    (call .Trans).1 = .ok () ∧ (call .Trans).2.2 0 = .val 0 ∧ (call .Trans).2.2 1 = .val 1 := by
  refine ⟨⟨rfl, csIs_ofList (n := 2) rfl rfl rfl (by decide) (by decide)⟩, ?_⟩
  decide +kernel

/-- The hypotheses of the partial theorems are met by calls with the transpose, and by calls with the conjugate transpose of a dense operator. -/
example : BlasOp.Trans ≠ .ConjTrans ∧ realOp .Trans = .Trans ∧ (BlasOp.ConjTrans ≠ .ConjTrans ∨ ∃ S, (SkOp.dense exDense, Buf.ofList [(0 : ℤ)]).1 = SkOp.dense S) :=
  ⟨by decide, rfl, Or.inr ⟨exDense, rfl⟩⟩

end RB
