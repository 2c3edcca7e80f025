import Verif.Props.SketchApi

/-!
# Sketches with alpha = 0 (C91), negative offsets (C42)
-/

namespace RB
open Spec
variable {N : Nat} {K W WS R T : Type}

/-! ## `alpha = 0`: the data matrix is not accessed -/

section
variable [Zero T] [Add T] [Mul T] [BEq T]

theorem blasGemm_zero_right {layout : Layout} {opA opB : Op} {m n k : Int} {alpha : T} (h : (alpha == 0) = true) (A : Buf T) (a0 lda : Int)
    (B B' : Buf T) (b0 ldb : Int) (beta : T) (c0 ldc : Int) :
    blasGemm layout opA opB m n k alpha A a0 lda B b0 ldb beta c0 ldc = blasGemm layout opA opB m n k alpha A a0 lda B' b0 ldb beta c0 ldc := by
  unfold blasGemm
  simp only [h, if_true]

theorem blasGemm_zero_left {layout : Layout} {opA opB : Op} {m n k : Int} {alpha : T} (h : (alpha == 0) = true) (A A' : Buf T) (a0 lda : Int)
    (B : Buf T) (b0 ldb : Int) (beta : T) (c0 ldc : Int) :
    blasGemm layout opA opB m n k alpha A a0 lda B b0 ldb beta c0 ldc = blasGemm layout opA opB m n k alpha A' a0 lda B b0 ldb beta c0 ldc := by
  unfold blasGemm
  simp only [h, if_true]

variable [One T]

theorem leftSpmm_zero (env : Env T) {layout : Layout} {opA opB : Op} {d n m : Int} {alpha : T} (h : (alpha == 0) = true) (ro co : Int)
    (B B' : Buf T) (ldb : Int) (beta : T) (ldc : Int) :
    leftSpmm env layout opA opB d n m alpha ro co B ldb beta ldc = leftSpmm env layout opA opB d n m alpha ro co B' ldb beta ldc := by
  unfold leftSpmm leftSpmmCooN leftSpmmCscN leftSpmmCsrN
  simp only [h, if_true]

variable [Neg T] [Field R] [LinearOrder R] [FloorRing R]

/-- C91 (`sketch_general`, left). If `alpha` is zero, the call does not depend on what A points to: for every operator and every B, the outcome (normal
end, error or undefined behaviour), B and the operator are the same for any two A, which need not be initialised, nor even exist. -/
theorem C91_general_left (E : SkEnv N K W WS R T) (layout : Layout) (opS opA : Op) (d n m : Int) {alpha : T} (h : (alpha == 0) = true) (ro co : Int)
    (A A' : Buf T) (lda : Int) (beta : T) (ldb : Int) (s : SkOp N K T × Buf T) :
    sketchGeneralL E layout opS opA d n m alpha ro co A lda beta ldb s = sketchGeneralL E layout opS opA d n m alpha ro co A' lda beta ldb s := by
  unfold sketchGeneralL lskge3 lskge3View lskges lskgesView
  simp only [blasGemm_zero_right h _ _ _ A A', leftSpmm_zero E.env h _ _ A A']

/-- C91 (`sketch_general`, right). -/
theorem C91_general_right (E : SkEnv N K W WS R T) (layout : Layout) (opA opS : Op) (m d n : Int) {alpha : T} (h : (alpha == 0) = true)
    (A A' : Buf T) (lda ro co : Int) (beta : T) (ldb : Int) (s : SkOp N K T × Buf T) :
    sketchGeneralR E layout opA opS m d n alpha A lda ro co beta ldb s = sketchGeneralR E layout opA opS m d n alpha A' lda ro co beta ldb s := by
  unfold sketchGeneralR rskge3 rskge3View rskges rskgesView rightSpmm
  simp only [blasGemm_zero_left h A A', leftSpmm_zero E.env h _ _ A A']

/-- C91 (`sketch_general` with the whole operator, left). -/
theorem C91_full_left (E : SkEnv N K W WS R T) (layout : Layout) (opS opA : Op) (d n m : Int) {alpha : T} (h : (alpha == 0) = true)
    (A A' : Buf T) (lda : Int) (beta : T) (ldb : Int) (s : SkOp N K T × Buf T) :
    sketchGeneralLFull E layout opS opA d n m alpha A lda beta ldb s = sketchGeneralLFull E layout opS opA d n m alpha A' lda beta ldb s := by
  unfold sketchGeneralLFull
  rw [show (sketchGeneralL E layout opS opA d n m alpha 0 0 A lda beta ldb : M (SkOp N K T × Buf T) Unit) = _ from
    funext (C91_general_left E layout opS opA d n m h 0 0 A A' lda beta ldb)]

/-- C91 (`sketch_general` with the whole operator, right). -/
theorem C91_full_right (E : SkEnv N K W WS R T) (layout : Layout) (opA opS : Op) (m d n : Int) {alpha : T} (h : (alpha == 0) = true)
    (A A' : Buf T) (lda : Int) (beta : T) (ldb : Int) (s : SkOp N K T × Buf T) :
    sketchGeneralRFull E layout opA opS m d n alpha A lda beta ldb s = sketchGeneralRFull E layout opA opS m d n alpha A' lda beta ldb s := by
  unfold sketchGeneralRFull
  rw [show (sketchGeneralR E layout opA opS m d n alpha A lda 0 0 beta ldb : M (SkOp N K T × Buf T) Unit) = _ from
    funext (C91_general_right E layout opA opS m d n h A A' lda 0 0 beta ldb)]

/-- C91 (`sketch_vector`). -/
theorem C91_vector (E : SkEnv N K W WS R T) (opS : Op) (d m : Int) {alpha : T} (h : (alpha == 0) = true) (ro co : Int) (x x' : Buf T)
    (incx : Int) (beta : T) (incy : Int) (s : SkOp N K T × Buf T) :
    sketchVector E opS d m alpha ro co x incx beta incy s = sketchVector E opS d m alpha ro co x' incx beta incy s ∧
    sketchVectorFull E opS alpha x incx beta incy s = sketchVectorFull E opS alpha x' incx beta incy s := by
  have key : ∀ d m ro co, (sketchVector E opS d m alpha ro co x incx beta incy : M (SkOp N K T × Buf T) Unit) =
      sketchVector E opS d m alpha ro co x' incx beta incy := fun d m ro co => funext (C91_general_left E .RowMajor opS .NoTrans _ 1 _ h ro co x x' incx beta incy)
  refine ⟨by rw [key], ?_⟩
  unfold sketchVectorFull
  simp only [key]

end

section
variable [Field T] [LinearOrder T] [Field R] [LinearOrder R] [FloorRing R]

/-- C91 (`sketch_symmetric`), if the symmetry of A is not checked (negative tolerance).

Missing: with a tolerance of at least 0 (the default) A is read although `alpha` is zero, against the documentation (`C91_symmetric_counterexample`). -/
theorem C91_symmetric_partial (E : SkEnv N K W WS R T) (layout : Layout) (n d : Int) (ro co : Int)
    (A A' : Buf T) (lda : Int) (beta : T) (ldb : Int) {tol : T} (ht : tol < 0) (s : SkOp N K T × Buf T) :
    sketchSymmetricL E layout d n 0 ro co A lda beta ldb tol s = sketchSymmetricL E layout d n 0 ro co A' lda beta ldb tol s ∧
    sketchSymmetricR E layout n d 0 A lda ro co beta ldb tol s = sketchSymmetricR E layout n d 0 A' lda ro co beta ldb tol s := by
  constructor
  · unfold sketchSymmetricL requireSymmetric
    simp only [ht, if_true]
    rw [show (sketchGeneralL E layout .NoTrans .NoTrans d n n 0 ro co A lda beta ldb : M (SkOp N K T × Buf T) Unit) = _ from
      funext (C91_general_left E layout .NoTrans .NoTrans d n n (by simp) ro co A A' lda beta ldb)]
  · unfold sketchSymmetricR requireSymmetric
    simp only [ht, if_true]
    rw [show (sketchGeneralR E layout .NoTrans .NoTrans n d n 0 A lda ro co beta ldb : M (SkOp N K T × Buf T) Unit) = _ from
      funext (C91_general_right E layout .NoTrans .NoTrans n d n (by simp) A A' lda ro co beta ldb)]

omit [Field T] [LinearOrder T] in
theorem Buf.rd_ub {A : Buf T} {p : Int} (h : ∀ v, A p ≠ .val v) : A.rd p = .ub := by
  unfold Buf.rd
  cases h' : A p with
  | val v => exact absurd h' (h v)
  | _ => rfl

theorem forN_first_ub {body : Nat → Res Unit} (h : body 0 = .ub) (k : Nat) : forN (k + 1) body = .ub := by
  induction k with
  | zero => exact h
  | succ k ih => rw [forN, ih]; rfl

theorem forI_first_ub {n : Int} {lo : Int} (hn : lo < n) {body : Int → Res Unit} (h : body lo = .ub) : forI lo n body = .ub := by
  obtain ⟨k, hk⟩ : ∃ k : Nat, (n - lo).toNat = k + 1 := ⟨(n - lo - 1).toNat, by omega⟩
  unfold forI
  rw [hk]
  exact forN_first_ub (by simpa using h) k

theorem requireSymmetric_undef {layout : Layout} {A : Buf T} {n lda : Int} {tol : T} (ht : 0 ≤ tol) (hn : 2 ≤ n)
    (hA : ∀ v, A (addr layout lda 0 1) ≠ .val v) : requireSymmetric layout A n lda tol = .ub := by
  have hr : A.rd ((layoutToStrides layout lda).at 0 1) = .ub := by
    have e : (layoutToStrides layout lda).at 0 1 = addr layout lda 0 1 := by cases layout <;> simp [layoutToStrides, Strides.at, addr]
    rw [e]
    exact Buf.rd_ub hA
  unfold requireSymmetric
  rw [if_neg (not_lt.mpr ht)]
  refine forI_first_ub (by omega) (forI_first_ub (by omega) ?_)
  simp only [zero_add, hr]
  rfl

/-- With the default tolerance, `sketch_symmetric` reads A for every `alpha`, also for `alpha = 0`, where the documentation says that A is not accessed:
whenever n ≥ 2 and the entry (0, 1) of A has not been initialised (or does not exist), the call is undefined. -/
theorem C91_symmetric_counterexample (E : SkEnv N K W WS R T) (layout : Layout) {n : Int} (hn : 2 ≤ n) (d : Int) (alpha : T) (ro co : Int)
    {A : Buf T} {lda : Int} (hA : ∀ v, A (addr layout lda 0 1) ≠ .val v) (beta : T) (ldb : Int) {tol : T} (ht : 0 ≤ tol) (s : SkOp N K T × Buf T) :
    (sketchSymmetricL E layout d n alpha ro co A lda beta ldb tol s).1 = .ub ∧ (sketchSymmetricR E layout n d alpha A lda ro co beta ldb tol s).1 = .ub := by
  unfold sketchSymmetricL sketchSymmetricR
  rw [requireSymmetric_undef ht hn hA]
  exact ⟨rfl, rfl⟩

end

/-! ## `sketch_sparse` with `alpha = 0` -/

section
variable [CommRing T] [DecidableEq T]

theorem rightSpmm_alpha_zero (env : Env T) {B : SpMat T} (hb : spBase B = .Zero) {layout : Layout} {opA opB : Op} {m d n iOff jOff : Int} {beta : T}
    (A : Buf T) {b : Buf T} {lda ldc : Int} {C : Int → Int → T} (hw : WindowOk B (rowsOf opB n d) (colsOf opB n d) iOff jOff) (hm : 0 ≤ m) (hd : 0 ≤ d)
    (hlda : LdOk layout lda (rowsOf opA m n) (colsOf opA m n)) (hldc : LdOk layout ldc m d)
    (hal : Alloc b layout ldc m d) (hC : beta ≠ 0 → Holds b layout ldc m d C) :
    M.wp (rightSpmm env layout opA opB m d n 0 A lda iOff jOff beta ldc) (B, b) (fun _ s' => s'.1 = B ∧
      Holds s'.2 layout ldc m d (fun i j => beta * C i j) ∧ SameOutside b s'.2 layout ldc m d) := by
  have hro : rowsOf opA n m = colsOf opA m n := by cases opA <;> rfl
  have hco : colsOf opA n m = rowsOf opA m n := by cases opA <;> rfl
  have hldf : ∀ {ld r c : Int}, LdOk layout ld r c → LdOk layout.flip ld c r := by intro ld r c h; cases layout <;> exact h
  have hl := C34_alpha_zero env hb (layout := layout.flip) (opA := opB.flip) (opB := opA) (d := d) (n := m) (m := n) (ro := iOff)
    (co := jOff) (alpha := (0 : T)) (beta := beta) (by simp) A (b := b) (ldb := lda) (ldc := ldc) (C := fun i j => C j i)
    (by cases opB <;> exact hw) hd hm (by rw [hro, hco]; exact hldf hlda) (hldf hldc)
    (fun i j hij => by rw [addr_flip]; exact hal j i ⟨hij.2.2.1, hij.2.2.2, hij.1, hij.2.1⟩)
    (fun hb i j hij => by rw [addr_flip]; exact hC (by simpa using hb) j i ⟨hij.2.2.1, hij.2.2.2, hij.1, hij.2.1⟩)
  unfold rightSpmm
  refine M.wp_mono hl ?_
  rintro _ s' ⟨h1, h2, h3⟩
  refine ⟨h1, fun i j hij => ?_, fun p hp => h3 p fun i j hij => ?_⟩
  · have := h2 j i ⟨hij.2.2.1, hij.2.2.2, hij.1, hij.2.1⟩
    rw [addr_flip] at this
    rw [this]
    by_cases h0 : beta = 0 <;> simp [h0]
  · rw [addr_flip]; exact hp j i ⟨hij.2.2.1, hij.2.2.2, hij.1, hij.2.1⟩

/-- C91 (`sketch_sparse`). If `alpha` is zero, `sketch_sparse` sets B to `beta * B`, whatever the arrays of the sparse matrix A contain, even if they
have not been allocated: only its dimensions and its index base matter. A is unchanged. -/
theorem C91_sparse_left {E : SkEnv N K W WS R T} (hG : E.G.Ok) {S : DenseSkOp N K T} {Sm : Int → Int → T} (hS : DenseIs E S Sm)
    {A : SpMat T} (hb : spBase A = .Zero)
    {layout : Layout} {opS opA : Op} {d n m ro co : Int} {beta : T} {b : Buf T} {ldb : Int} {C : Int → Int → T}
    (hw : InOp S.nRows S.nCols (rowsOf opS d m) (colsOf opS d m) ro co) (hne : S.buff = none → 0 ≤ m ∧ FillOk E.G.len S.dist (rowsOf opS d m) (colsOf opS d m) ro co)
    (hwA : WindowOk A (rowsOf opA m n) (colsOf opA m n) 0 0)
    (hd : 0 ≤ d) (hn : 0 ≤ n) (hldb : LdOk layout ldb d n) (hal : Alloc b layout ldb d n) (hC : beta ≠ 0 → Holds b layout ldb d n C) :
    M.wp (sketchSparseL E layout opS opA d n m 0 S ro co beta ldb) (A, b) (fun _ s' => s'.1 = A ∧
      Holds s'.2 layout ldb d n (fun i j => beta * C i j) ∧ SameOutside b s'.2 layout ldb d n) := by
  have hwA1 : rowsOf opA m n + 0 ≤ spRows A ∧ colsOf opA m n + 0 ≤ spCols A := by
    cases A <;> simp only [WindowOk, spRows, spCols] at hwA ⊢ <;> omega
  have key : ∀ {S : BFO T} {sb : Buf T} {ro co : Int}, S.buff = some sb → InOp S.nRows S.nCols (rowsOf opS d m) (colsOf opS d m) ro co →
      M.wp (lsksp3View E.env layout opS opA d n m 0 S ro co 0 0 beta ldb) (A, b) (fun _ s' => s'.1 = A ∧
        Holds s'.2 layout ldb d n (fun i j => beta * C i j) ∧ SameOutside b s'.2 layout ldb d n) := by
    intro S sb ro co hbuf hw
    unfold lsksp3View BFO.getBuff
    rw [hbuf]
    simp only [M.wp_bind, M.wp_pure, M.wp_get, M.wp_require, dimsBeforeOp_eq, ldOk_iff]
    have e1 : A.numRows = spRows A := by cases A <;> rfl
    have e2 : A.numCols = spCols A := by cases A <;> rfl
    rw [e1, e2]
    refine ⟨hwA1.1, hwA1.2, hw.2.2.1, hw.2.2.2, hldb, ?_⟩
    exact rightSpmm_alpha_zero E.env hb _ hwA hd hn (opWindow_ld hw) hldb hal hC
  unfold sketchSparseL lsksp3
  cases hbuf : S.buff with
  | some sb =>
    simp only [Option.isNone_some, Bool.false_eq_true, if_false]
    exact key (S := S.view) hbuf hw
  | none =>
    simp only [DenseIs, hbuf] at hS
    obtain ⟨hD, e1, e2, hSm⟩ := hS
    obtain ⟨q1, q2⟩ := rowsOf_nonneg (op := opS) hd (hne hbuf).1
    obtain ⟨sb, ld, e, hsb⟩ := submatrixAsBlackbox_spec (sched := E.env.sched) hG hD e1 e2 hSm q1 q2 (hne hbuf).2 hw
    simp only [Option.isNone_none, if_true, M.wp_bind, M.wp_lift, dimsBeforeOp_eq]
    exact ⟨_, e, key (S := ⟨S.layout, rowsOf opS d m, colsOf opS d m, some sb, ld⟩) rfl (inOp_zero _ _)⟩

/-- C91 (`sketch_sparse`, right). -/
theorem C91_sparse_right {E : SkEnv N K W WS R T} (hG : E.G.Ok) {S : DenseSkOp N K T} {Sm : Int → Int → T} (hS : DenseIs E S Sm)
    {A : SpMat T} (hb : spBase A = .Zero)
    {layout : Layout} {opA opS : Op} {m d n ro co : Int} {beta : T} {b : Buf T} {ldb : Int} {C : Int → Int → T}
    (hw : InOp S.nRows S.nCols (rowsOf opS n d) (colsOf opS n d) ro co) (hne : S.buff = none → 0 ≤ n ∧ FillOk E.G.len S.dist (rowsOf opS n d) (colsOf opS n d) ro co)
    (hwA : WindowOk A (rowsOf opA m n) (colsOf opA m n) 0 0)
    (hm : 0 ≤ m) (hd : 0 ≤ d) (hldb : LdOk layout ldb m d) (hal : Alloc b layout ldb m d) (hC : beta ≠ 0 → Holds b layout ldb m d C) :
    M.wp (sketchSparseR E layout opA opS m d n 0 S ro co beta ldb) (A, b) (fun _ s' => s'.1 = A ∧
      Holds s'.2 layout ldb m d (fun i j => beta * C i j) ∧ SameOutside b s'.2 layout ldb m d) := by
  have hwA1 : rowsOf opA m n + 0 ≤ spRows A ∧ colsOf opA m n + 0 ≤ spCols A := by
    cases A <;> simp only [WindowOk, spRows, spCols] at hwA ⊢ <;> omega
  have key : ∀ {S : BFO T} {sb : Buf T} {ro co : Int}, S.buff = some sb → InOp S.nRows S.nCols (rowsOf opS n d) (colsOf opS n d) ro co →
      M.wp (rsksp3View E.env layout opA opS m d n 0 0 0 S ro co beta ldb) (A, b) (fun _ s' => s'.1 = A ∧
        Holds s'.2 layout ldb m d (fun i j => beta * C i j) ∧ SameOutside b s'.2 layout ldb m d) := by
    intro S sb ro co hbuf hw
    unfold rsksp3View BFO.getBuff
    rw [hbuf]
    simp only [M.wp_bind, M.wp_pure, M.wp_get, M.wp_require, dimsBeforeOp_eq, ldOk_iff]
    have e1 : A.numRows = spRows A := by cases A <;> rfl
    have e2 : A.numCols = spCols A := by cases A <;> rfl
    rw [e1, e2]
    refine ⟨hwA1.1, hwA1.2, hw.2.2.1, hw.2.2.2, hldb, ?_⟩
    refine M.wp_mono (C34_alpha_zero E.env hb (by simp) _ hwA hm hd (opWindow_ld hw) hldb hal fun h0 => hC (by simpa using h0)) ?_
    rintro _ s' ⟨h1, h2, h3⟩
    refine ⟨h1, fun i j hij => ?_, h3⟩
    rw [h2 i j hij]
    by_cases h0 : beta = 0 <;> simp [h0]
  unfold sketchSparseR rsksp3
  cases hbuf : S.buff with
  | some sb =>
    simp only [Option.isNone_some, Bool.false_eq_true, if_false]
    exact key (S := S.view) hbuf hw
  | none =>
    simp only [DenseIs, hbuf] at hS
    obtain ⟨hD, e1, e2, hSm⟩ := hS
    obtain ⟨q1, q2⟩ := rowsOf_nonneg (op := opS) (hne hbuf).1 hd
    obtain ⟨sb, ld, e, hsb⟩ := submatrixAsBlackbox_spec (sched := E.env.sched) hG hD e1 e2 hSm q1 q2 (hne hbuf).2 hw
    simp only [Option.isNone_none, if_true, M.wp_bind, M.wp_lift, dimsBeforeOp_eq]
    exact ⟨_, e, key (S := ⟨S.layout, rowsOf opS n d, colsOf opS n d, some sb, ld⟩) rfl (inOp_zero _ _)⟩

end

/-- The hypotheses of C91 are met: `alpha = 0` and a 2 x 3 window of the new operator `exDense`; a 3 x 3 CSC matrix without arrays; a symmetric
sketch with the default tolerance 0, n = 2 and no A at all. -/
example : ((0 : ℤ) == 0) = true ∧ DenseIs exSkEnv exDense exDenseMat ∧ spBase (.csc (mkCsc 3 3 : CscMat ℤ)) = .Zero ∧
    InOp exDense.nRows exDense.nCols (rowsOf .NoTrans 2 3) (colsOf .NoTrans 2 3) 1 2 ∧
    WindowOk (.csc (mkCsc 3 3 : CscMat ℤ)) (rowsOf .Trans 3 3) (colsOf .Trans 3 3) 0 0 ∧
    (∀ v : ℚ, Buf.ofList ([] : List ℚ) (addr .ColMajor 2 0 1) ≠ .val v) := by
  refine ⟨rfl, exDense_is, rfl, by unfold InOp exDense; decide, by simp [WindowOk, mkCsc, rowsOf, colsOf], fun v => by simp [Buf.ofList, addr]⟩

/-! ## Negative offsets (C42) -/

section
variable [Zero T] [One T] [Neg T] [Add T] [Mul T] [BEq T] [Field R] [LinearOrder R] [FloorRing R]

omit [Zero T] [One T] [Neg T] [Add T] [Mul T] [BEq T] [Field R] [LinearOrder R] [FloorRing R] in
theorem M.bind_ub' {σ α β : Type} {m : M σ α} {f : α → M σ β} {s : σ} (h : (m s).1 = .ub) : ((m >>= f) s).1 = .ub := by
  rw [M.bind_ub (s' := (m s).2) (by rw [← h])]

theorem M.forN_first_ub {σ : Type} {body : Nat → M σ Unit} {s : σ} (h : (body 0 s).1 = .ub) (k : Nat) : (forN (k + 1) body s).1 = .ub := by
  induction k with
  | zero => exact h
  | succ k ih => rw [forN]; exact M.bind_ub' ih

theorem M.forI_first_ub {σ : Type} {lo n : Int} (hn : lo < n) {body : Int → M σ Unit} {s : σ} (h : (body lo s).1 = .ub) : (forI lo n body s).1 = .ub := by
  obtain ⟨k, hk⟩ : ∃ k : Nat, (n - lo).toNat = k + 1 := ⟨(n - lo - 1).toNat, by omega⟩
  unfold forI
  rw [hk]
  exact M.forN_first_ub (by simpa using h) k

theorem M.foldN_first_ub {σ α : Type} {body : Nat → α → M σ α} {a : α} {s : σ} (h : (body 0 a s).1 = .ub) (k : Nat) : (foldN (k + 1) body a s).1 = .ub := by
  induction k with
  | zero => exact h
  | succ k ih => rw [foldN]; exact M.bind_ub' ih

theorem M.foldI_first_ub {σ α : Type} {lo n : Int} (hn : lo < n) {body : Int → α → M σ α} {a : α} {s : σ} (h : (body lo a s).1 = .ub) :
    (foldI lo n body a s).1 = .ub := by
  obtain ⟨k, hk⟩ : ∃ k : Nat, (n - lo).toNat = k + 1 := ⟨(n - lo - 1).toNat, by omega⟩
  unfold foldI
  rw [hk]
  exact M.foldN_first_ub (by simpa using h) k

theorem M.pure_bind' {σ α β : Type} (a : α) (f : α → M σ β) : ((pure a : M σ α) >>= f) = f a := rfl

omit [One T] [Neg T] in
theorem blasGemm_undef {layout : Layout} {opA opB : Op} {m n k : Int} {alpha : T} (ha : (alpha == 0) = false) {A B : Buf T} {a0 lda b0 ldb : Int}
    {beta : T} {c0 ldc : Int} (hm : 0 < m) (hn : 0 < n) (hk : 0 < k) (hlda : LdOk layout lda (rowsOf opA m k) (colsOf opA m k))
    (hldb : LdOk layout ldb (rowsOf opB k n) (colsOf opB k n)) (hldc : LdOk layout ldc m n) (hA : ∀ v, A a0 ≠ .val v) (b : Buf T) :
    (blasGemm layout opA opB m n k alpha A a0 lda B b0 ldb beta c0 ldc b).1 = .ub := by
  obtain ⟨out, hout⟩ : ∃ out : M (Buf T) Unit → Res Unit, ∀ m, out m = (m b).1 := ⟨_, fun _ => rfl⟩
  rw [← hout]
  unfold blasGemm
  simp only
  have e : ∀ {ld r c : Int}, LdOk layout ld r c → (if layout = .ColMajor then r ≤ ld else c ≤ ld) := by
    intro ld r c h; cases layout <;> simpa [LdOk] using h
  have hc : ∀ {c : Prop} [Decidable c], c → (blasCheck c : M (Buf T) Unit) = pure () := by intro c _ h; unfold blasCheck; rw [if_pos h]
  rw [hc (by omega : 0 ≤ m), M.pure_bind', hc (by omega : 0 ≤ n), M.pure_bind', hc (by omega : 0 ≤ k), M.pure_bind', 
    hc (show (if layout = .ColMajor then (dimsBeforeOp m k opA).1 ≤ lda else (dimsBeforeOp m k opA).2 ≤ lda) by rw [dimsBeforeOp_eq]; exact e hlda),
    M.pure_bind',
    hc (show (if layout = .ColMajor then (dimsBeforeOp k n opB).1 ≤ ldb else (dimsBeforeOp k n opB).2 ≤ ldb) by rw [dimsBeforeOp_eq]; exact e hldb),
    M.pure_bind', hc (e hldc), M.pure_bind', hout]
  refine M.forI_first_ub hm (M.forI_first_ub hn ?_)
  rw [ha]
  simp only [Bool.false_eq_true, if_false]
  refine M.bind_ub' (M.foldI_first_ub hk (M.bind_ub' ?_))
  have : opIndex layout lda opA 0 0 = 0 := by cases opA <;> cases layout <;> simp [opIndex, layoutToStrides, Strides.at]
  rw [this, add_zero, Buf.rd_ub hA]
  rfl

/-- A negative offset into a filled dense operator is not rejected: if the window's first entry would be before the start of the operator's array (for
an operator in row-major order: whenever `ro` is negative), the call reads outside that array, which is undefined behaviour. -/
theorem C42_negative_offset_undefined (E : SkEnv N K W WS R T) {S : DenseSkOp N K T} {sb : Buf T} (hb : S.buff = some sb)
    (hneg : ∀ p < 0, ∀ v, sb p ≠ .val v) {layout : Layout} {opS opA : Op} {d n m ro co : Int} (hd : 0 < d) (hn : 0 < n) (hm : 0 < m)
    (hfit : rowsOf opS d m + ro ≤ S.nRows ∧ colsOf opS d m + co ≤ S.nCols) (hsize : rowsOf opS d m ≤ S.nRows ∧ colsOf opS d m ≤ S.nCols)
    (hro : addr S.layout (tightLd S.layout S.nRows S.nCols) ro co < 0) {alpha : T} (ha : (alpha == 0) = false) (A : Buf T) {lda : Int}
    (hlda : LdOk layout lda (rowsOf opA m n) (colsOf opA m n)) (beta : T) {ldb : Int} (hldb : LdOk layout ldb d n) (b : Buf T) :
    (sketchGeneralL E layout opS opA d n m alpha ro co A lda beta ldb (.dense S, b)).1 = .ub := by
  have main : (lskge3View layout opS opA d n m alpha S.view ro co A lda beta ldb b).1 = .ub := by
    obtain ⟨out, hout⟩ : ∃ out : M (Buf T) Unit → Res Unit, ∀ m, out m = (m b).1 := ⟨_, fun _ => rfl⟩
    rw [← hout]
    unfold lskge3View BFO.getBuff
    rw [show S.view.buff = some sb from hb]
    have hr : ∀ {c : Prop} [Decidable c], c → (M.require c : M (Buf T) Unit) = pure () := by
      intro c _ h; unfold M.require; rw [Res.require_eq_ok h]; rfl
    simp only
    rw [M.pure_bind', hr (show S.view.nRows ≥ (dimsBeforeOp d m opS).1 + ro by rw [dimsBeforeOp_eq]; exact hfit.1), M.pure_bind',
      hr (show S.view.nCols ≥ (dimsBeforeOp d m opS).2 + co by rw [dimsBeforeOp_eq]; exact hfit.2), M.pure_bind',
      hr (show lda ≥ if layout = .ColMajor then (dimsBeforeOp m n opA).1 else (dimsBeforeOp m n opA).2 by rw [dimsBeforeOp_eq, ldOk_iff]; exact hlda),
      M.pure_bind', hr (show ldb ≥ if layout = .ColMajor then d else n by rw [ldOk_iff]; exact hldb), M.pure_bind', hout]
    have h0 : InOp S.view.nRows S.view.nCols (rowsOf opS d m) (colsOf opS d m) 0 0 := ⟨le_rfl, le_rfl, (add_zero _).trans_le hsize.1, (add_zero _).trans_le hsize.2⟩
    have hld := opWindow_ld (layout := layout) (S := S.view) h0
    have e2 : (offsetAndLdim S.view.layout S.view.nRows S.view.nCols ro co).2 = (offsetAndLdim S.view.layout S.view.nRows S.view.nCols 0 0).2 := by
      unfold offsetAndLdim; split <;> rfl
    refine blasGemm_undef ha hd hn hm (by rw [e2]; exact hld) hlda hldb (hneg _ ?_) b
    have e1 : (offsetAndLdim S.view.layout S.view.nRows S.view.nCols ro co).1 = addr S.layout (tightLd S.layout S.nRows S.nCols) ro co := by
      show (offsetAndLdim S.layout S.nRows S.nCols ro co).1 = _
      unfold offsetAndLdim
      cases S.layout <;> simp [addr, tightLd, mul_comm]
    rw [e1]
    exact hro
  unfold sketchGeneralL
  rw [M.bind_ok (show (M.get : M (SkOp N K T × Buf T) _) _ = (.ok _, _) from rfl)]
  simp only [onC, M.zoom, lskge3, hb, Option.isNone_some, Bool.false_eq_true, if_false]
  revert main
  rcases lskge3View layout opS opA d n m alpha S.view ro co A lda beta ldb b with ⟨r, b'⟩
  rintro rfl
  rfl

end

/-- A 2 x 2 operator in row-major order with entries 1, 2, 3, 4. -/
def exSquareFilled : DenseSkOp (2 ^ 128) Nat ℤ :=
  ⟨⟨2, 2, .Long, 2, 2, .Uniform, .RowMajor⟩, ⟨0, 0⟩, ⟨1, 0⟩, 2, 2, true, some (Buf.ofList [1, 2, 3, 4]), .RowMajor⟩

/-- A negative column offset is not rejected either. The window of this operator at (1, -1), which is not inside the operator, is taken to be the
entry (0, 1): with A = (10) the result is B = (20), without an error. -/
theorem C42_negative_offset_counterexample : Holds (Buf.ofList ([1, 2, 3, 4] : List ℤ)) .RowMajor 2 2 2 (fun i j => 2 * i + j + 1) ∧
    exSquareFilled.buff = some (Buf.ofList [1, 2, 3, 4]) ∧ ¬ InOp exSquareFilled.nRows exSquareFilled.nCols 1 1 1 (-1) ∧
    (sketchGeneralL exSkEnv .RowMajor .NoTrans .NoTrans 1 1 1 1 1 (-1) (Buf.ofList [10]) 1 0 1 (.dense exSquareFilled, Buf.ofList [9])).1 = .ok () ∧
    (sketchGeneralL exSkEnv .RowMajor .NoTrans .NoTrans 1 1 1 1 1 (-1) (Buf.ofList [10]) 1 0 1 (.dense exSquareFilled, Buf.ofList [9])).2.2 0 = .val 20 := by
  refine ⟨?_, rfl, by unfold InOp; decide, rfl, rfl⟩
  rintro i j ⟨i0, i1, j0, j1⟩
  obtain rfl | rfl : i = 0 ∨ i = 1 := by omega
  all_goals obtain rfl | rfl : j = 0 ∨ j = 1 := by omega
  all_goals rfl

/-- The hypotheses of `C42_negative_offset_undefined` are met: the 1 x 1 window at (-1, 0) of that operator. -/
example : (∀ p < 0, ∀ v, Buf.ofList ([1, 2, 3, 4] : List ℤ) p ≠ .val v) ∧ rowsOf .NoTrans 1 1 + -1 ≤ exSquareFilled.nRows ∧
    colsOf .NoTrans 1 1 + 0 ≤ exSquareFilled.nCols ∧
    addr exSquareFilled.layout (tightLd exSquareFilled.layout exSquareFilled.nRows exSquareFilled.nCols) (-1) 0 < 0 := by
  refine ⟨fun p hp v => ?_, by decide, by decide, by decide⟩
  unfold Buf.ofList
  rw [if_neg (by omega)]
  simp

end RB
