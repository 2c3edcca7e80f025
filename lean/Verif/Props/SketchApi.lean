import Verif.Props.SketchFill
import Verif.Props.Util

/-!
# sketch_vector, sketch_symmetric, sketch_sparse, argument checks and streaming (C39-C42, C49)
-/

namespace RB
open Spec
variable {N : Nat} {K W WS R T : Type}

/-! ## C39 -/

section
variable [CommRing T] [DecidableEq T] [Field R] [LinearOrder R] [FloorRing R]

/-- C39. Let submat(S) be the d x m window of the operator at (ro, co). `sketch_vector` sets `y[i*incy]`, for every row i of `op(submat(S))`, to
`alpha * Σ_j op(submat(S))[i, j] * x[j*incx] + beta * y[i*incy]`, and changes nothing else in y. Of x, it reads `x[j*incx]` only (and only if
`alpha ≠ 0`): the other locations need not exist. y need not be initialised if `beta = 0`.

Missing: the cases excluded by `LeftOk`, as for `sketch_general` (C36, C37). -/
theorem C39_sketch_vector_partial {E : SkEnv N K W WS R T} (hE : SkEnvOk E) {S : SkOp N K T} {Sm : Int → Int → T} {opS : Op} {d m ro co : Int}
    {alpha beta : T} {x y : Buf T} {incx incy : Int} {xv yv : Int → T} {rows cols : Int}
    (hdim : (opS = .NoTrans ∧ rows = d ∧ cols = m) ∨ (opS = .Trans ∧ rows = m ∧ cols = d))
    (h : LeftOk E alpha S Sm opS rows cols ro co) (hd : 0 ≤ d) (hm : 0 ≤ m) (hincx : 1 ≤ incx) (hincy : 1 ≤ incy)
    (hx : alpha ≠ 0 → ∀ j, 0 ≤ j → j < cols → x (j * incx) = .val (xv j))
    (hal : ∀ i, 0 ≤ i → i < rows → y (i * incy) ≠ .none) (hy : beta ≠ 0 → ∀ i, 0 ≤ i → i < rows → y (i * incy) = .val (yv i)) :
    M.wp (sketchVector E opS d m alpha ro co x incx beta incy) (S, y) (fun _ s' =>
      (∀ i, 0 ≤ i → i < rows →
        s'.2 (i * incy) = .val (alpha * (∑ j ∈ Finset.range cols.toNat, opMat opS (subMat ro co Sm) i j * xv j) + beta * yv i)) ∧
      (∀ p, (∀ i, 0 ≤ i → i < rows → p ≠ i * incy) → s'.2 p = y p) ∧ SameOperator S s'.1) := by
  have hrun : sketchVector E opS d m alpha ro co x incx beta incy =
      (sketchGeneralL E .RowMajor opS .NoTrans rows 1 cols alpha ro co x incx beta incy : M (SkOp N K T × Buf T) Unit) := by
    unfold sketchVector
    rcases hdim with ⟨rfl, rfl, rfl⟩ | ⟨rfl, rfl, rfl⟩ <;> rfl
  rw [hrun]
  have hrc : 0 ≤ rows ∧ 0 ≤ cols := by rcases hdim with ⟨-, rfl, rfl⟩ | ⟨-, rfl, rfl⟩ <;> exact ⟨by assumption, by assumption⟩
  have hone : ∀ {r i j : Int}, InR r 1 i j → j = 0 := by intro r i j h; obtain ⟨-, -, h1, h2⟩ := h; omega
  refine M.wp_mono (sketchGeneralL_spec hE h (Am := fun j _ => xv j) (C := fun i _ => yv i) hrc.1 (by decide) hrc.2 (by simpa [LdOk, colsOf] using hincx)
    (by simpa [LdOk] using hincy) (fun ha i j hij => ?_) (fun i j hij => ?_) (fun hb i j hij => ?_)) ?_
  · obtain rfl := hone (r := cols) hij
    simpa [addr] using hx ha i hij.1 hij.2.1
  · obtain rfl := hone hij
    simpa [addr] using hal i hij.1 hij.2.1
  · obtain rfl := hone hij
    simpa [addr] using hy hb i hij.1 hij.2.1
  · rintro _ s' ⟨k1, k2, k3⟩
    refine ⟨fun i i0 i1 => ?_, fun p hp => k2 p fun i j hij => ?_, k3⟩
    · have := k1 i 0 ⟨i0, i1, le_rfl, by decide⟩
      simpa [addr, prodEntry, opMat] using this
    · obtain rfl := hone hij
      simpa [addr] using hp i hij.1 hij.2.1

/-- C39 (whole operator). The overload without dimensions uses the whole operator. -/
theorem C39_full_partial {E : SkEnv N K W WS R T} (hE : SkEnvOk E) {S : SkOp N K T} {Sm : Int → Int → T} {opS : Op}
    {alpha beta : T} {x y : Buf T} {incx incy : Int} {xv yv : Int → T} {rows cols : Int} (hr : S.distRows = S.nRows) (hc : S.distCols = S.nCols)
    (hdim : (opS = .NoTrans ∧ rows = S.nRows ∧ cols = S.nCols) ∨ (opS = .Trans ∧ rows = S.nCols ∧ cols = S.nRows))
    (h : LeftOk E alpha S Sm opS rows cols 0 0) (hd : 0 ≤ S.nRows) (hm : 0 ≤ S.nCols) (hincx : 1 ≤ incx) (hincy : 1 ≤ incy)
    (hx : alpha ≠ 0 → ∀ j, 0 ≤ j → j < cols → x (j * incx) = .val (xv j))
    (hal : ∀ i, 0 ≤ i → i < rows → y (i * incy) ≠ .none) (hy : beta ≠ 0 → ∀ i, 0 ≤ i → i < rows → y (i * incy) = .val (yv i)) :
    M.wp (sketchVectorFull E opS alpha x incx beta incy) (S, y) (fun _ s' =>
      (∀ i, 0 ≤ i → i < rows → s'.2 (i * incy) = .val (alpha * (∑ j ∈ Finset.range cols.toNat, opMat opS Sm i j * xv j) + beta * yv i)) ∧
      (∀ p, (∀ i, 0 ≤ i → i < rows → p ≠ i * incy) → s'.2 p = y p) ∧ SameOperator S s'.1) := by
  unfold sketchVectorFull
  rw [M.wp_bind, M.wp_get]
  dsimp only
  rw [hr, hc]
  have := C39_sketch_vector_partial hE hdim h hd hm hincx hincy hx hal hy
  rwa [subMat_zero] at this

end

/-- The hypotheses of C39 are met: the transposed 2 x 3 window at (1, 2) of the new operator `exDense`, x = (1, 2) with stride 2 and y uninitialised
with stride 3. -/
example : LeftOk exSkEnv (1 : ℤ) (.dense exDense) exDenseMat .Trans 3 2 1 2 ∧
    (∀ j : Int, 0 ≤ j → j < 2 → Buf.ofList ([1, 0, 2] : List ℤ) (j * 2) = .val (j + 1)) ∧
    (∀ i : Int, 0 ≤ i → i < 3 → Buf.alloc ℤ 7 (i * 3) ≠ .none) := by
  refine ⟨⟨exDense_is, by unfold InOp exDense; decide, fun _ => by decide⟩, ?_, ?_⟩
  · intro j h1 h2
    obtain rfl | rfl : j = 0 ∨ j = 1 := by omega
    all_goals rfl
  · intro i h1 h2
    simp only [Buf.alloc]
    rw [if_pos (by omega)]; simp

/-! ## C40 -/

section
variable [Field T] [LinearOrder T] [IsStrictOrderedRing T] [Field R] [LinearOrder R] [FloorRing R]

/-- The n x n matrix is symmetric up to the tolerance; a negative tolerance accepts every matrix. -/
def Spec.NearlySymmetric (n : Int) (A : Int → Int → T) (tol : T) : Prop :=
  tol < 0 ∨ ∀ i j, InR n n i j → |A i j - A j i| ≤ (|A i j| + |A j i| + 1) * tol

omit [FloorRing R] [LinearOrder R] [Field R] in
theorem requireSymmetric_cases {layout : Layout} {A : Buf T} {n lda : Int} {tol : T} {Am : Int → Int → T} (hA : Holds A layout lda n n Am) :
    (NearlySymmetric n Am tol → requireSymmetric layout A n lda tol = .ok ()) ∧
    (¬ NearlySymmetric n Am tol → requireSymmetric layout A n lda tol = .throw .errorIf) := by
  by_cases ht : tol < 0
  · exact ⟨fun _ => C21_negative_tol ht, fun h => absurd (Or.inl ht) h⟩
  · obtain ⟨h1, h2⟩ := C21_require_symmetric (not_lt.mp ht) hA
    refine ⟨fun h => h1.mpr (h.resolve_left ht), fun h => h2.resolve_left fun h3 => h (Or.inr (h1.mp h3))⟩

/-- C40 (left). If A is symmetric up to the tolerance, `sketch_symmetric` sets B to `alpha * submat(S) * A + beta * B`; otherwise it raises an
error and changes neither B nor the operator.

Missing: the cases excluded by `LeftOk`, as for `sketch_general` (C36, C37). -/
theorem C40_left_partial {E : SkEnv N K W WS R T} (hE : SkEnvOk E) {S : SkOp N K T} {Sm : Int → Int → T} {layout : Layout} {d n ro co : Int}
    {alpha beta tol : T} {A b : Buf T} {lda ldb : Int} {Am C : Int → Int → T} (h : LeftOk E alpha S Sm .NoTrans d n ro co) (hd : 0 ≤ d) (hn : 0 ≤ n)
    (hlda : n ≤ lda) (hldb : LdOk layout ldb d n) (hA : Holds A layout lda n n Am) (hal : Alloc b layout ldb d n)
    (hC : beta ≠ 0 → Holds b layout ldb d n C) :
    (NearlySymmetric n Am tol → M.wp (sketchSymmetricL E layout d n alpha ro co A lda beta ldb tol) (S, b) (fun _ s' =>
      Holds s'.2 layout ldb d n (fun i j => alpha * prodEntry n (subMat ro co Sm) Am i j + beta * C i j) ∧
      SameOutside b s'.2 layout ldb d n ∧ SameOperator S s'.1)) ∧
    (¬ NearlySymmetric n Am tol → sketchSymmetricL E layout d n alpha ro co A lda beta ldb tol (S, b) = (.throw .errorIf, (S, b))) := by
  obtain ⟨h1, h2⟩ := requireSymmetric_cases (tol := tol) hA
  refine ⟨fun hs => ?_, fun hs => ?_⟩
  · unfold sketchSymmetricL
    rw [M.wp_bind, M.wp_lift]
    refine ⟨(), h1 hs, ?_⟩
    exact sketchGeneralL_spec hE h (opA := .NoTrans) hd hn hn (by cases layout <;> exact hlda) hldb (fun _ => hA) hal hC
  · unfold sketchSymmetricL
    rw [h2 hs]; rfl

/-- C40 (right). The same for `alpha * A * submat(S) + beta * B`.

Missing: the cases excluded by `RightOk`, as for `sketch_general` (C36, C37). -/
theorem C40_right_partial {E : SkEnv N K W WS R T} (hE : SkEnvOk E) {S : SkOp N K T} {Sm : Int → Int → T} {layout : Layout} {n d ro co : Int}
    {alpha beta tol : T} {A b : Buf T} {lda ldb : Int} {Am C : Int → Int → T} (h : RightOk E alpha S Sm .NoTrans n d ro co) (hd : 0 ≤ d) (hn : 0 ≤ n)
    (hlda : n ≤ lda) (hldb : LdOk layout ldb n d) (hA : Holds A layout lda n n Am) (hal : Alloc b layout ldb n d)
    (hC : beta ≠ 0 → Holds b layout ldb n d C) :
    (NearlySymmetric n Am tol → M.wp (sketchSymmetricR E layout n d alpha A lda ro co beta ldb tol) (S, b) (fun _ s' =>
      Holds s'.2 layout ldb n d (fun i j => alpha * prodEntry n Am (subMat ro co Sm) i j + beta * C i j) ∧
      SameOutside b s'.2 layout ldb n d ∧ SameOperator S s'.1)) ∧
    (¬ NearlySymmetric n Am tol → sketchSymmetricR E layout n d alpha A lda ro co beta ldb tol (S, b) = (.throw .errorIf, (S, b))) := by
  obtain ⟨h1, h2⟩ := requireSymmetric_cases (tol := tol) hA
  refine ⟨fun hs => ?_, fun hs => ?_⟩
  · unfold sketchSymmetricR
    rw [M.wp_bind, M.wp_lift]
    refine ⟨(), h1 hs, ?_⟩
    exact sketchGeneralR_spec hE h (opA := .NoTrans) hn hd hn (by cases layout <;> exact hlda) hldb (fun _ => hA) hal hC
  · unfold sketchSymmetricR
    rw [h2 hs]; rfl

/-- C40 (whole operator, left): S is d x n, A is n x n. -/
theorem C40_left_full_partial {E : SkEnv N K W WS R T} (hE : SkEnvOk E) {S : SkOp N K T} {Sm : Int → Int → T} {layout : Layout}
    {alpha beta tol : T} {A b : Buf T} {lda ldb : Int} {Am C : Int → Int → T} (hr : S.distRows = S.nRows) (hc : S.distCols = S.nCols)
    (h : LeftOk E alpha S Sm .NoTrans S.nRows S.nCols 0 0) (hd : 0 ≤ S.nRows) (hn : 0 ≤ S.nCols)
    (hlda : S.nCols ≤ lda) (hldb : LdOk layout ldb S.nRows S.nCols) (hA : Holds A layout lda S.nCols S.nCols Am) (hal : Alloc b layout ldb S.nRows S.nCols)
    (hC : beta ≠ 0 → Holds b layout ldb S.nRows S.nCols C) :
    (NearlySymmetric S.nCols Am tol → M.wp (sketchSymmetricLFull E layout alpha A lda beta ldb tol) (S, b) (fun _ s' =>
      Holds s'.2 layout ldb S.nRows S.nCols (fun i j => alpha * prodEntry S.nCols Sm Am i j + beta * C i j) ∧
      SameOutside b s'.2 layout ldb S.nRows S.nCols ∧ SameOperator S s'.1)) ∧
    (¬ NearlySymmetric S.nCols Am tol → sketchSymmetricLFull E layout alpha A lda beta ldb tol (S, b) = (.throw .errorIf, (S, b))) := by
  have := C40_left_partial hE (tol := tol) h hd hn hlda hldb hA hal hC
  rw [subMat_zero] at this
  have hrun : sketchSymmetricLFull E layout alpha A lda beta ldb tol (S, b) =
      sketchSymmetricL E layout S.nRows S.nCols alpha 0 0 A lda beta ldb tol (S, b) := by
    unfold sketchSymmetricLFull
    rw [M.bind_ok (show (M.get : M (SkOp N K T × Buf T) _) _ = (.ok _, _) from rfl)]
    dsimp only
    rw [hr, hc]
  unfold M.wp at *
  rw [hrun]
  exact this

/-- C40 (whole operator, right): S is n x d, A is n x n. -/
theorem C40_right_full_partial {E : SkEnv N K W WS R T} (hE : SkEnvOk E) {S : SkOp N K T} {Sm : Int → Int → T} {layout : Layout}
    {alpha beta tol : T} {A b : Buf T} {lda ldb : Int} {Am C : Int → Int → T} (hr : S.distRows = S.nRows) (hc : S.distCols = S.nCols)
    (h : RightOk E alpha S Sm .NoTrans S.nRows S.nCols 0 0) (hd : 0 ≤ S.nCols) (hn : 0 ≤ S.nRows)
    (hlda : S.nRows ≤ lda) (hldb : LdOk layout ldb S.nRows S.nCols) (hA : Holds A layout lda S.nRows S.nRows Am) (hal : Alloc b layout ldb S.nRows S.nCols)
    (hC : beta ≠ 0 → Holds b layout ldb S.nRows S.nCols C) :
    (NearlySymmetric S.nRows Am tol → M.wp (sketchSymmetricRFull E layout alpha A lda beta ldb tol) (S, b) (fun _ s' =>
      Holds s'.2 layout ldb S.nRows S.nCols (fun i j => alpha * prodEntry S.nRows Am Sm i j + beta * C i j) ∧
      SameOutside b s'.2 layout ldb S.nRows S.nCols ∧ SameOperator S s'.1)) ∧
    (¬ NearlySymmetric S.nRows Am tol → sketchSymmetricRFull E layout alpha A lda beta ldb tol (S, b) = (.throw .errorIf, (S, b))) := by
  have := C40_right_partial hE (tol := tol) h hd hn hlda hldb hA hal hC
  rw [subMat_zero] at this
  have hrun : sketchSymmetricRFull E layout alpha A lda beta ldb tol (S, b) =
      sketchSymmetricR E layout S.nRows S.nCols alpha A lda 0 0 beta ldb tol (S, b) := by
    unfold sketchSymmetricRFull
    rw [M.bind_ok (show (M.get : M (SkOp N K T × Buf T) _) _ = (.ok _, _) from rfl)]
    dsimp only
    rw [hr, hc]
  unfold M.wp at *
  rw [hrun]
  exact this

end

/-- An environment with rational scalars. -/
def exSkEnvQ : SkEnv (2 ^ 128) Nat Int Int ℚ ℚ :=
  ⟨⟨fun lt l => l.mergeSort fun a b => !lt b a, [1, 0], 2⟩, exGenQ, 2, exGenQ, fun x => x, fun _ l => l.reverse⟩

/-- A new 3 x 7 dense operator with rational entries. -/
def exDenseQ : DenseSkOp (2 ^ 128) Nat ℚ := ⟨exDist, ⟨5, 3⟩, ⟨11, 3⟩, 3, 7, true, none, .RowMajor⟩

/-- The hypotheses of C40 are met: a 2 x 2 window of a new operator; the matrix [[1, 2], [2, 4]] is symmetric, [[1, 2], [3, 4]] is not. -/
example : SkEnvOk exSkEnvQ ∧ (∃ Sm, LeftOk exSkEnvQ (3 : ℚ) (.dense exDenseQ) Sm .NoTrans 2 2 1 4 ∧ RightOk exSkEnvQ (3 : ℚ) (.dense exDenseQ) Sm .NoTrans 2 2 1 4) ∧
    Holds (Buf.ofList ([1, 2, 2, 4] : List ℚ)) .ColMajor 2 2 2 (fun i j => (1 + i) * (1 + j)) ∧
    NearlySymmetric 2 (fun i j => ((1 + i) * (1 + j) : ℚ)) 0 ∧
    Holds (Buf.ofList ([1, 3, 2, 4] : List ℚ)) .ColMajor 2 2 2 (fun i j => 1 + 2 * i + j) ∧ ¬ NearlySymmetric 2 (fun i j => (1 + 2 * i + j : ℚ)) 0 := by
  have hmk : mkDenseSkOp exSkEnvQ.G.len exDist ⟨5, 3⟩ = .ok exDenseQ := rfl
  have hD : DenseDistOk exDist := ⟨by decide, by decide⟩
  have hS := denseIs_new (E := exSkEnvQ) hD hmk (samples_denseEntry (Or.inr rfl) hD)
  refine ⟨⟨⟨mergeSort_sortOk, by decide⟩, Or.inr rfl, Or.inr rfl, rfl, fun _ l => List.reverse_perm l⟩,
    ⟨_, ⟨hS, by unfold InOp exDenseQ; decide, fun _ => by decide⟩, ⟨hS, by unfold InOp exDenseQ; decide, fun _ => by decide⟩⟩, ?_, Or.inr ?_, ?_, ?_⟩
  · rintro i j ⟨h1, h2, h3, h4⟩; interval_cases i <;> interval_cases j <;> (simp [Buf.ofList, addr]; try norm_num)
  · intro i j _
    have : (1 + (i : ℚ)) * (1 + j) = (1 + j) * (1 + i) := mul_comm _ _
    simp [this]
  · rintro i j ⟨h1, h2, h3, h4⟩; interval_cases i <;> interval_cases j <;> (simp [Buf.ofList, addr]; try norm_num)
  · rintro (h | h)
    · exact absurd h (lt_irrefl _)
    · have := h 0 1 (by simp [InR])
      norm_num at this

/-! ## C41 -/

/-- The window of an operator's buffer as the matrix passed on to the sparse product. -/
theorem opWindow_holds {S : BFO T} {sb : Buf T} {layout : Layout} {opS : Op} {d m ro co : Int} {Sm : Int → Int → T}
    (hS : Holds sb S.layout (tightLd S.layout S.nRows S.nCols) S.nRows S.nCols Sm)
    (hw : InOp S.nRows S.nCols (rowsOf opS d m) (colsOf opS d m) ro co) :
    Holds (sb.shift (offsetAndLdim S.layout S.nRows S.nCols ro co).1) layout (offsetAndLdim S.layout S.nRows S.nCols ro co).2
      (rowsOf (opForLayout S.layout layout opS) d m) (colsOf (opForLayout S.layout layout opS) d m)
      (opMat (opForLayout S.layout layout opS) (opMat opS (subMat ro co Sm))) := by
  intro i j hij
  have key := fun {i l : Int} (h : InR d m i l) => opWindow_cells (layout := layout) hS hw h
  simp only [opIndex_eq] at key
  unfold Buf.shift
  revert key hij
  cases opForLayout S.layout layout opS with
  | NoTrans => intro hij key; exact key hij
  | Trans => intro hij key; exact key (i := j) (l := i) ⟨hij.2.2.1, hij.2.2.2, hij.1, hij.2.1⟩

theorem opMat_opMat (op : Op) (A : Int → Int → T) : opMat op (opMat op A) = A := by cases op <;> rfl

section
variable [CommRing T] [DecidableEq T]

theorem lsksp3View_spec {env : Env T} (henv : EnvOk env) {A : SpMat T} {L : List (Entry T)} (hA : SpHolds A L) (hb : spBase A = .Zero)
    (hr : InRange (spRows A) (spCols A) L) {layout : Layout} {opS opA : Op} {d n m : Int} {alpha beta : T} {S : BFO T} {sb : Buf T}
    {ro co roA coA : Int} {b : Buf T} {ldb : Int} {Sm C : Int → Int → T} (hbuf : S.buff = some sb)
    (hS : Holds sb S.layout (tightLd S.layout S.nRows S.nCols) S.nRows S.nCols Sm)
    (hw : InOp S.nRows S.nCols (rowsOf opS d m) (colsOf opS d m) ro co)
    (hwA : WindowOk A (rowsOf opA m n) (colsOf opA m n) roA coA) (hwA1 : rowsOf opA m n + roA ≤ spRows A) (hwA2 : colsOf opA m n + coA ≤ spCols A)
    (hK : alpha ≠ 0 → Supported A opA.flip layout.flip (opForLayout S.layout layout opS) n m
      (opEntries opA.flip (window roA coA (rowsOf opA m n) (colsOf opA m n) L)))
    (hd : 0 ≤ d) (hn : 0 ≤ n) (hm : 0 ≤ m) (hldb : LdOk layout ldb d n) (hal : Alloc b layout ldb d n) (hC : beta ≠ 0 → Holds b layout ldb d n C) :
    M.wp (lsksp3View env layout opS opA d n m alpha S ro co roA coA beta ldb) (A, b) (fun _ s' =>
      Holds s'.2 layout ldb d n (fun i j => alpha * prodEntry m (opMat opS (subMat ro co Sm)) (opMat opA (subMat roA coA (toMat L))) i j + beta * C i j) ∧
      SameOutside b s'.2 layout ldb d n ∧ SameObject A s'.1 ∧ ∃ L', SpHolds s'.1 L' ∧ L'.Perm L) := by
  unfold lsksp3View BFO.getBuff
  rw [hbuf]
  simp only [M.wp_bind, M.wp_pure, M.wp_get, M.wp_require, dimsBeforeOp_eq, ldOk_iff]
  have e1 : A.numRows = spRows A := by cases A <;> rfl
  have e2 : A.numCols = spCols A := by cases A <;> rfl
  rw [e1, e2]
  refine ⟨hwA1, hwA2, hw.2.2.1, hw.2.2.2, hldb, ?_⟩
  refine M.wp_mono (C32_right_spmm_partial henv hA hb hr (layout := layout) (opA := opForLayout S.layout layout opS) (opB := opA) (m := d) (d := n)
    (n := m) hK hwA hd hn hm (opWindow_ld hw) hldb (fun _ => opWindow_holds hS hw) hal hC) ?_
  rintro _ s' ⟨k1, k2, k3, k4⟩
  rw [opMat_opMat] at k1
  exact ⟨k1, k2, k3, k4⟩

theorem rsksp3View_spec {env : Env T} (henv : EnvOk env) {A : SpMat T} {L : List (Entry T)} (hA : SpHolds A L) (hb : spBase A = .Zero)
    (hr : InRange (spRows A) (spCols A) L) {layout : Layout} {opA opS : Op} {m d n : Int} {alpha beta : T} {S : BFO T} {sb : Buf T}
    {ro co roA coA : Int} {b : Buf T} {ldb : Int} {Sm C : Int → Int → T} (hbuf : S.buff = some sb)
    (hS : Holds sb S.layout (tightLd S.layout S.nRows S.nCols) S.nRows S.nCols Sm)
    (hw : InOp S.nRows S.nCols (rowsOf opS n d) (colsOf opS n d) ro co)
    (hwA : WindowOk A (rowsOf opA m n) (colsOf opA m n) roA coA) (hwA1 : rowsOf opA m n + roA ≤ spRows A) (hwA2 : colsOf opA m n + coA ≤ spCols A)
    (hK : alpha ≠ 0 → Supported A opA layout (opForLayout S.layout layout opS) m n
      (opEntries opA (window roA coA (rowsOf opA m n) (colsOf opA m n) L)))
    (hm : 0 ≤ m) (hd : 0 ≤ d) (hn : 0 ≤ n) (hldb : LdOk layout ldb m d) (hal : Alloc b layout ldb m d) (hC : beta ≠ 0 → Holds b layout ldb m d C) :
    M.wp (rsksp3View env layout opA opS m d n alpha roA coA S ro co beta ldb) (A, b) (fun _ s' =>
      Holds s'.2 layout ldb m d (fun i j => alpha * prodEntry n (opMat opA (subMat roA coA (toMat L))) (opMat opS (subMat ro co Sm)) i j + beta * C i j) ∧
      SameOutside b s'.2 layout ldb m d ∧ SameObject A s'.1 ∧ ∃ L', SpHolds s'.1 L' ∧ L'.Perm L) := by
  unfold rsksp3View BFO.getBuff
  rw [hbuf]
  simp only [M.wp_bind, M.wp_pure, M.wp_get, M.wp_require, dimsBeforeOp_eq, ldOk_iff]
  have e1 : A.numRows = spRows A := by cases A <;> rfl
  have e2 : A.numCols = spCols A := by cases A <;> rfl
  rw [e1, e2]
  refine ⟨hwA1, hwA2, hw.2.2.1, hw.2.2.2, hldb, ?_⟩
  refine M.wp_mono (C31_left_spmm_partial henv hA hb hr (layout := layout) (opA := opA) (opB := opForLayout S.layout layout opS) (d := m) (n := d)
    (m := n) hK hwA hm hd hn (opWindow_ld hw) hldb (fun _ => opWindow_holds hS hw) hal hC) ?_
  rintro _ s' ⟨k1, k2, k3, k4⟩
  rw [opMat_opMat] at k1
  exact ⟨k1, k2, k3, k4⟩

/-- C41 (left). For a dense operator S, filled or not, and a sparse matrix A in COO, CSC or CSR format with entries `L`, `sketch_sparse` sets B to
`alpha * op(submat(S)) * op(A) + beta * B` and changes nothing outside B; the entries of A are the same afterwards (those of a COO matrix possibly
in another order). (For a COO matrix with larger dimensions, A is its leading submatrix.)

Missing: the cases excluded by `Supported`, as for sparse products (C31); the windows excluded by `FillOk`, which are undefined (C36). -/
theorem C41_left_partial {E : SkEnv N K W WS R T} (hE : EnvOk E.env) (hG : E.G.Ok) {S : DenseSkOp N K T} {Sm : Int → Int → T} (hS : DenseIs E S Sm)
    {A : SpMat T} {L : List (Entry T)} (hA : SpHolds A L) (hb : spBase A = .Zero) (hr : InRange (spRows A) (spCols A) L)
    {layout : Layout} {opS opA : Op} {d n m ro co : Int} {alpha beta : T} {b : Buf T} {ldb : Int} {C : Int → Int → T}
    (hw : InOp S.nRows S.nCols (rowsOf opS d m) (colsOf opS d m) ro co) (hne : S.buff = none → FillOk E.G.len S.dist (rowsOf opS d m) (colsOf opS d m) ro co)
    (hwA : WindowOk A (rowsOf opA m n) (colsOf opA m n) 0 0)
    (hK : alpha ≠ 0 → Supported A opA.flip layout.flip (if S.layout = layout then opS else opS.flip) n m
      (opEntries opA.flip (window 0 0 (rowsOf opA m n) (colsOf opA m n) L)))
    (hd : 0 ≤ d) (hn : 0 ≤ n) (hm : 0 ≤ m) (hldb : LdOk layout ldb d n) (hal : Alloc b layout ldb d n) (hC : beta ≠ 0 → Holds b layout ldb d n C) :
    M.wp (sketchSparseL E layout opS opA d n m alpha S ro co beta ldb) (A, b) (fun _ s' =>
      Holds s'.2 layout ldb d n (fun i j => alpha * prodEntry m (opMat opS (subMat ro co Sm)) (opMat opA (toMat L)) i j + beta * C i j) ∧
      SameOutside b s'.2 layout ldb d n ∧ SameObject A s'.1 ∧ ∃ L', SpHolds s'.1 L' ∧ L'.Perm L) := by
  have hwA1 : rowsOf opA m n + 0 ≤ spRows A ∧ colsOf opA m n + 0 ≤ spCols A := by
    cases A <;> simp only [WindowOk, spRows, spCols] at hwA ⊢ <;> omega
  have hop : ∀ l : Layout, (if l = layout then opS else opS.flip) = opForLayout l layout opS := by
    intro l; unfold opForLayout; by_cases h : l = layout <;> simp [h]
  rw [hop] at hK
  rw [← subMat_zero (toMat L)]
  unfold sketchSparseL lsksp3
  cases hbuf : S.buff with
  | some sb =>
    simp only [DenseIs, hbuf] at hS
    simp only [Option.isNone_some, Bool.false_eq_true, if_false]
    exact lsksp3View_spec (S := S.view) hE hA hb hr hbuf hS hw hwA hwA1.1 hwA1.2 hK hd hn hm hldb hal hC
  | none =>
    simp only [DenseIs, hbuf] at hS
    obtain ⟨hD, e1, e2, hSm⟩ := hS
    obtain ⟨q1, q2⟩ := rowsOf_nonneg (op := opS) hd hm
    obtain ⟨sb, ld, e, hsb⟩ := submatrixAsBlackbox_spec (sched := E.env.sched) hG hD e1 e2 hSm q1 q2 (hne hbuf) hw
    simp only [Option.isNone_none, if_true, M.wp_bind, M.wp_lift, dimsBeforeOp_eq]
    refine ⟨_, e, ?_⟩
    have := lsksp3View_spec (S := ⟨S.layout, rowsOf opS d m, colsOf opS d m, some sb, ld⟩) hE hA hb hr rfl hsb (inOp_zero _ _) hwA hwA1.1 hwA1.2 hK
      hd hn hm hldb hal hC
    rw [subMat_zero] at this
    exact this

/-- C41 (right). The same for `alpha * op(A) * op(submat(S)) + beta * B`.

Missing: as for left sketches. -/
theorem C41_right_partial {E : SkEnv N K W WS R T} (hE : EnvOk E.env) (hG : E.G.Ok) {S : DenseSkOp N K T} {Sm : Int → Int → T} (hS : DenseIs E S Sm)
    {A : SpMat T} {L : List (Entry T)} (hA : SpHolds A L) (hb : spBase A = .Zero) (hr : InRange (spRows A) (spCols A) L)
    {layout : Layout} {opA opS : Op} {m d n ro co : Int} {alpha beta : T} {b : Buf T} {ldb : Int} {C : Int → Int → T}
    (hw : InOp S.nRows S.nCols (rowsOf opS n d) (colsOf opS n d) ro co) (hne : S.buff = none → FillOk E.G.len S.dist (rowsOf opS n d) (colsOf opS n d) ro co)
    (hwA : WindowOk A (rowsOf opA m n) (colsOf opA m n) 0 0)
    (hK : alpha ≠ 0 → Supported A opA layout (if S.layout = layout then opS else opS.flip) m n
      (opEntries opA (window 0 0 (rowsOf opA m n) (colsOf opA m n) L)))
    (hm : 0 ≤ m) (hd : 0 ≤ d) (hn : 0 ≤ n) (hldb : LdOk layout ldb m d) (hal : Alloc b layout ldb m d) (hC : beta ≠ 0 → Holds b layout ldb m d C) :
    M.wp (sketchSparseR E layout opA opS m d n alpha S ro co beta ldb) (A, b) (fun _ s' =>
      Holds s'.2 layout ldb m d (fun i j => alpha * prodEntry n (opMat opA (toMat L)) (opMat opS (subMat ro co Sm)) i j + beta * C i j) ∧
      SameOutside b s'.2 layout ldb m d ∧ SameObject A s'.1 ∧ ∃ L', SpHolds s'.1 L' ∧ L'.Perm L) := by
  have hwA1 : rowsOf opA m n + 0 ≤ spRows A ∧ colsOf opA m n + 0 ≤ spCols A := by
    cases A <;> simp only [WindowOk, spRows, spCols] at hwA ⊢ <;> omega
  have hop : ∀ l : Layout, (if l = layout then opS else opS.flip) = opForLayout l layout opS := by
    intro l; unfold opForLayout; by_cases h : l = layout <;> simp [h]
  rw [hop] at hK
  rw [← subMat_zero (toMat L)]
  unfold sketchSparseR rsksp3
  cases hbuf : S.buff with
  | some sb =>
    simp only [DenseIs, hbuf] at hS
    simp only [Option.isNone_some, Bool.false_eq_true, if_false]
    exact rsksp3View_spec (S := S.view) hE hA hb hr hbuf hS hw hwA hwA1.1 hwA1.2 hK hm hd hn hldb hal hC
  | none =>
    simp only [DenseIs, hbuf] at hS
    obtain ⟨hD, e1, e2, hSm⟩ := hS
    obtain ⟨q1, q2⟩ := rowsOf_nonneg (op := opS) hn hd
    obtain ⟨sb, ld, e, hsb⟩ := submatrixAsBlackbox_spec (sched := E.env.sched) hG hD e1 e2 hSm q1 q2 (hne hbuf) hw
    simp only [Option.isNone_none, if_true, M.wp_bind, M.wp_lift, dimsBeforeOp_eq]
    refine ⟨_, e, ?_⟩
    have := rsksp3View_spec (S := ⟨S.layout, rowsOf opS n d, colsOf opS n d, some sb, ld⟩) hE hA hb hr rfl hsb (inOp_zero _ _) hwA hwA1.1 hwA1.2 hK
      hm hd hn hldb hal hC
    rw [subMat_zero (subMat ro co Sm)] at this
    exact this

end

/-- The hypotheses of C41 are met: a 2 x 3 window of the new operator `exDense` and the transpose of a 3 x 3 COO matrix with duplicates; right
sketches with the same objects. -/
example : EnvOk exSkEnv.env ∧ exSkEnv.G.Ok ∧ DenseIs exSkEnv exDense exDenseMat ∧ SpHolds (.coo (cooOf 3 3 .Zero sampleE)) sampleE ∧
    InRange 3 3 sampleE ∧ InOp exDense.nRows exDense.nCols (rowsOf .NoTrans 2 3) (colsOf .NoTrans 2 3) 1 2 ∧
    WindowOk (.coo (cooOf 3 3 .Zero sampleE)) (rowsOf .Trans 3 3) (colsOf .Trans 3 3) 0 0 ∧
    Supported (.coo (cooOf 3 3 .Zero sampleE)) .NoTrans .ColMajor .NoTrans 3 3 (window 0 0 3 3 sampleE) := by
  refine ⟨exEnv_ok, Or.inr rfl, exDense_is, ⟨cooOf_is _ _ _ _, trivial⟩, by simp [InRange, sampleE], by unfold InOp exDense; decide,
    by simp [WindowOk, cooOf, rowsOf, colsOf], Or.inl ⟨by decide, fun _ _ => ⟨⟨0, 2, 7⟩, by decide, by decide⟩⟩⟩

/-! ## C42 -/

section
variable [Zero T] [One T] [Neg T] [Add T] [Mul T] [BEq T] [Field R] [LinearOrder R] [FloorRing R]

omit [Neg T] [Field R] [LinearOrder R] [FloorRing R] in
/-- C42 (right products with a sparse factor). An error is raised, and neither C nor the sparse matrix is changed, unless all dimensions fit. -/
theorem C42_right_spmm (env : Env T) (B : SpMat T) (layout : Layout) (opA opB : Op) (m d n iOff jOff : Int) (alpha beta : T) (A b : Buf T)
    (lda ldc : Int)
    (h : ¬ (spBase B = .Zero ∧ WindowOk B (rowsOf opB n d) (colsOf opB n d) iOff jOff ∧ LdOk layout lda (rowsOf opA m n) (colsOf opA m n) ∧
      LdOk layout ldc m d)) :
    rightSpmm env layout opA opB m d n alpha A lda iOff jOff beta ldc (B, b) = (.throw .require, (B, b)) := by
  unfold rightSpmm
  apply C42_left_spmm
  have e1 : rowsOf opB.flip d n = rowsOf opB n d := by cases opB <;> rfl
  have e2 : colsOf opB.flip d n = colsOf opB n d := by cases opB <;> rfl
  have e3 : LdOk layout.flip lda (rowsOf opA n m) (colsOf opA n m) ↔ LdOk layout lda (rowsOf opA m n) (colsOf opA m n) := by
    cases layout <;> cases opA <;> rfl
  have e4 : LdOk layout.flip ldc d m ↔ LdOk layout ldc m d := by cases layout <;> rfl
  rw [e1, e2, e3, e4]
  exact h

/-- C42 (dense operators, left). Unless the window is inside the operator and both leading dimensions are large enough, an error is raised, and
neither B nor the operator is changed. (For an operator without a buffer the window must not be empty or start at a negative offset, as such
calls have no defined behaviour.) -/
theorem C42_left_dense {E : SkEnv N K W WS R T} (hG : E.G.Ok) {S : DenseSkOp N K T} {Sm : Int → Int → T} (hS : DenseIs E S Sm) (layout : Layout)
    (opS opA : Op) (d n m : Int) (alpha beta : T) (ro co : Int) (A b : Buf T) (lda ldb : Int)
    (hne : S.buff = none → 0 ≤ d ∧ 0 ≤ m ∧ FillOk E.G.len S.dist (rowsOf opS d m) (colsOf opS d m) ro co ∧ 0 ≤ ro ∧ 0 ≤ co)
    (h : ¬ (rowsOf opS d m + ro ≤ S.nRows ∧ colsOf opS d m + co ≤ S.nCols ∧ LdOk layout lda (rowsOf opA m n) (colsOf opA m n) ∧ LdOk layout ldb d n)) :
    sketchGeneralL E layout opS opA d n m alpha ro co A lda beta ldb (.dense S, b) = (.throw .require, (.dense S, b)) := by
  have main : lskge3 E layout opS opA d n m alpha S ro co A lda beta ldb b = (.throw .require, b) := by
    unfold lskge3
    cases hbuf : S.buff with
    | some sb =>
      simp only [Option.isNone_some, Bool.false_eq_true, if_false]
      exact lskge3View_throw (S := S.view) hbuf h
    | none =>
      simp only [DenseIs, hbuf] at hS
      obtain ⟨hD, e1, e2, hA⟩ := hS
      obtain ⟨p1, p2, pF, p3, p4⟩ := hne hbuf
      obtain ⟨q1, q2⟩ := rowsOf_nonneg (op := opS) p1 p2
      simp only [Option.isNone_none, if_true, dimsBeforeOp_eq]
      by_cases hw : rowsOf opS d m + ro ≤ S.nRows ∧ colsOf opS d m + co ≤ S.nCols
      · obtain ⟨sb, ld, e, hsb⟩ := submatrixAsBlackbox_spec (sched := E.env.sched) hG hD e1 e2 hA q1 q2 pF ⟨p3, p4, hw.1, hw.2⟩
        rw [e, M.bind_ok (show (M.lift (Res.ok _) : M (Buf T) (BFO T)) b = (.ok _, b) from rfl)]
        refine lskge3View_throw (sb := sb) rfl ?_
        rintro ⟨-, -, h3, h4⟩
        exact h ⟨hw.1, hw.2, h3, h4⟩
      · rw [submatrix_throw hw]; rfl
  unfold sketchGeneralL
  rw [M.bind_ok (show (M.get : M (SkOp N K T × Buf T) _) _ = (.ok _, _) from rfl)]
  simp only [onC, M.zoom, main]

/-- C42 (dense operators, right). -/
theorem C42_right_dense {E : SkEnv N K W WS R T} (hG : E.G.Ok) {S : DenseSkOp N K T} {Sm : Int → Int → T} (hS : DenseIs E S Sm) (layout : Layout)
    (opA opS : Op) (m d n : Int) (alpha beta : T) (ro co : Int) (A b : Buf T) (lda ldb : Int)
    (hne : S.buff = none → 0 ≤ n ∧ 0 ≤ d ∧ FillOk E.G.len S.dist (rowsOf opS n d) (colsOf opS n d) ro co ∧ 0 ≤ ro ∧ 0 ≤ co)
    (h : ¬ (rowsOf opS n d + ro ≤ S.nRows ∧ colsOf opS n d + co ≤ S.nCols ∧ LdOk layout lda (rowsOf opA m n) (colsOf opA m n) ∧ LdOk layout ldb m d)) :
    sketchGeneralR E layout opA opS m d n alpha A lda ro co beta ldb (.dense S, b) = (.throw .require, (.dense S, b)) := by
  have main : rskge3 E layout opA opS m d n alpha A lda S ro co beta ldb b = (.throw .require, b) := by
    unfold rskge3
    cases hbuf : S.buff with
    | some sb =>
      simp only [Option.isNone_some, Bool.false_eq_true, if_false]
      exact rskge3View_throw (S := S.view) hbuf h
    | none =>
      simp only [DenseIs, hbuf] at hS
      obtain ⟨hD, e1, e2, hA⟩ := hS
      obtain ⟨p1, p2, pF, p3, p4⟩ := hne hbuf
      obtain ⟨q1, q2⟩ := rowsOf_nonneg (op := opS) p1 p2
      simp only [Option.isNone_none, if_true, dimsBeforeOp_eq]
      by_cases hw : rowsOf opS n d + ro ≤ S.nRows ∧ colsOf opS n d + co ≤ S.nCols
      · obtain ⟨sb, ld, e, hsb⟩ := submatrixAsBlackbox_spec (sched := E.env.sched) hG hD e1 e2 hA q1 q2 pF ⟨p3, p4, hw.1, hw.2⟩
        rw [e, M.bind_ok (show (M.lift (Res.ok _) : M (Buf T) (BFO T)) b = (.ok _, b) from rfl)]
        refine rskge3View_throw (sb := sb) rfl ?_
        rintro ⟨-, -, h3, h4⟩
        exact h ⟨hw.1, hw.2, h3, h4⟩
      · rw [submatrix_throw hw]; rfl
  unfold sketchGeneralR
  rw [M.bind_ok (show (M.get : M (SkOp N K T × Buf T) _) _ = (.ok _, _) from rfl)]
  simp only [onC, M.zoom, main]

/-- C42 (whole operator, left). The overload without offsets raises an error, and changes nothing, unless the operator is d x m (or m x d if it
is transposed). -/
theorem C42_left_full (E : SkEnv N K W WS R T) (S : SkOp N K T) (layout : Layout) (opS opA : Op) (d n m : Int) (alpha beta : T) (A b : Buf T)
    (lda ldb : Int) (h : ¬ (S.nRows = rowsOf opS d m ∧ S.nCols = colsOf opS d m)) :
    sketchGeneralLFull E layout opS opA d n m alpha A lda beta ldb (S, b) = (.throw .require, (S, b)) := by
  unfold sketchGeneralLFull
  rw [M.bind_ok (show (M.get : M (SkOp N K T × Buf T) _) _ = (.ok _, _) from rfl)]
  have e1 : (if opS = .NoTrans then d else m) = rowsOf opS d m := by cases opS <;> rfl
  have e2 : (if opS = .NoTrans then m else d) = colsOf opS d m := by cases opS <;> rfl
  by_cases h1 : S.nRows = if opS = .NoTrans then d else m
  · rw [require_eq_pure h1, pure_bind]
    exact require_false_run (fun h2 => h ⟨by rw [← e1]; exact h1, by rw [← e2]; exact h2⟩) _ _
  · exact require_false_run h1 _ _

/-- C42 (whole operator, right). -/
theorem C42_right_full (E : SkEnv N K W WS R T) (S : SkOp N K T) (layout : Layout) (opA opS : Op) (m d n : Int) (alpha beta : T) (A b : Buf T)
    (lda ldb : Int) (h : ¬ (S.nRows = rowsOf opS n d ∧ S.nCols = colsOf opS n d)) :
    sketchGeneralRFull E layout opA opS m d n alpha A lda beta ldb (S, b) = (.throw .require, (S, b)) := by
  unfold sketchGeneralRFull
  rw [M.bind_ok (show (M.get : M (SkOp N K T × Buf T) _) _ = (.ok _, _) from rfl)]
  have e1 : (if opS = .NoTrans then n else d) = rowsOf opS n d := by cases opS <;> rfl
  have e2 : (if opS = .NoTrans then d else n) = colsOf opS n d := by cases opS <;> rfl
  by_cases h1 : S.nRows = if opS = .NoTrans then n else d
  · rw [require_eq_pure h1, pure_bind]
    exact require_false_run (fun h2 => h ⟨by rw [← e1]; exact h1, by rw [← e2]; exact h2⟩) _ _
  · exact require_false_run h1 _ _

theorem lskgesView_throw {E : SkEnv N K W WS R T} {S : SparseSkOp N K T} {L : List (Entry T)} (hL : L ≠ []) (h : OpHolds S L) {layout : Layout}
    {opS opA : Op} {d n m ro co : Int} {alpha beta : T} {A b : Buf T} {lda ldb : Int}
    (hn : ¬ (rowsOf opS d m ≤ S.nRows ∧ colsOf opS d m ≤ S.nCols ∧ LdOk layout lda (rowsOf opA m n) (colsOf opA m n) ∧ LdOk layout ldb d n)) :
    lskgesView E layout opS opA d n m alpha ro co A lda beta ldb (S, b) = (.throw .require, (S, b)) := by
  obtain ⟨s, e, -⟩ := cooViewOfSkop_run (G := E.GS) (sqrt := E.sqrt) (order := E.order) hL h
  unfold lskgesView
  rw [M.bind_ok (show (onSp (cooViewOfSkop E.GS E.sqrt E.order) : M (SparseSkOp N K T × Buf T) (CooMat T)) (S, b) =
    (.ok ⟨S.nRows, S.nCols, false, S.nnz, .Zero, S.vals, S.rows, S.cols, s⟩, (S, b)) by
    simp only [onSp, M.zoom, e])]
  have := C42_left_spmm E.env (.coo ⟨S.nRows, S.nCols, false, S.nnz, .Zero, S.vals, S.rows, S.cols, s⟩) layout opS opA d n m ro co alpha beta A b lda ldb
    (by rintro ⟨-, ⟨h1, h2⟩, h3, h4⟩; exact hn ⟨h1, h2, h3, h4⟩)
  simp only [onSkArrays, M.zoom, this]

theorem rskgesView_throw {E : SkEnv N K W WS R T} {S : SparseSkOp N K T} {L : List (Entry T)} (hL : L ≠ []) (h : OpHolds S L) {layout : Layout}
    {opA opS : Op} {m d n ro co : Int} {alpha beta : T} {A b : Buf T} {lda ldb : Int}
    (hn : ¬ (rowsOf opS n d ≤ S.nRows ∧ colsOf opS n d ≤ S.nCols ∧ LdOk layout lda (rowsOf opA m n) (colsOf opA m n) ∧ LdOk layout ldb m d)) :
    rskgesView E layout opA opS m d n alpha A lda ro co beta ldb (S, b) = (.throw .require, (S, b)) := by
  obtain ⟨s, e, -⟩ := cooViewOfSkop_run (G := E.GS) (sqrt := E.sqrt) (order := E.order) hL h
  unfold rskgesView
  rw [M.bind_ok (show (onSp (cooViewOfSkop E.GS E.sqrt E.order) : M (SparseSkOp N K T × Buf T) (CooMat T)) (S, b) =
    (.ok ⟨S.nRows, S.nCols, false, S.nnz, .Zero, S.vals, S.rows, S.cols, s⟩, (S, b)) by
    simp only [onSp, M.zoom, e])]
  have := C42_right_spmm E.env (.coo ⟨S.nRows, S.nCols, false, S.nnz, .Zero, S.vals, S.rows, S.cols, s⟩) layout opA opS m d n ro co alpha beta A b lda ldb
    (by rintro ⟨-, ⟨h1, h2⟩, h3, h4⟩; exact hn ⟨h1, h2, h3, h4⟩)
  simp only [onSkArrays, M.zoom, this]

theorem filledCopy_run {σ : Type} {E : SkEnv N K W WS R T} {S S' : SparseSkOp N K T} {s : σ}
    (h : fillSparse E.GS E.sqrt E.order (mkSparseSkOp E.GS.len S.dist S.seedState) = (.ok (), S')) : filledCopy E S s = (.ok S', s) := by
  unfold filledCopy
  rw [M.bind_ok (a := ((), S')) (s' := s)]
  · rfl
  · simp only [M.onLocal, h]

/-- C42 (sparse operators, left). Unless the window has at most as many rows and columns as the operator and both leading dimensions are large
enough, an error is raised, and neither B nor the operator is changed.

Missing: windows that are not inside the operator because of their offsets; no error is raised for them (`C42_offsets_counterexample`). -/
theorem C42_left_sparse_partial {E : SkEnv N K W WS R T} {S : SparseSkOp N K T} {L : List (Entry T)} (hS : SparseIs E S L) (layout : Layout)
    (opS opA : Op) (d n m : Int) (alpha beta : T) (ro co : Int) (A b : Buf T) (lda ldb : Int)
    (h : ¬ (rowsOf opS d m ≤ S.nRows ∧ colsOf opS d m ≤ S.nCols ∧ LdOk layout lda (rowsOf opA m n) (colsOf opA m n) ∧ LdOk layout ldb d n)) :
    sketchGeneralL E layout opS opA d n m alpha ro co A lda beta ldb (.sparse S, b) = (.throw .require, (.sparse S, b)) := by
  have main : lskges E layout opS opA d n m alpha ro co A lda beta ldb (S, b) = (.throw .require, (S, b)) := by
    obtain ⟨hL, h2⟩ := hS
    unfold lskges
    rw [M.bind_ok (show (M.get : M (SparseSkOp N K T × Buf T) _) _ = (.ok _, _) from rfl)]
    dsimp only
    by_cases hnn : S.nnz < 0
    · rw [if_pos hnn] at h2 ⊢
      obtain ⟨S', e, g1, g2, g3⟩ := h2
      have := opHolds_nnz g1
      rw [M.bind_ok (filledCopy_run e), M.bind_ok (show M.ubIf (S'.nnz < 0) _ = (.ok (), _) by simp [M.ubIf, show ¬ S'.nnz < 0 by omega]; rfl)]
      simp only [M.zoom]
      rw [lskgesView_throw hL g1 (by rw [g2, g3]; exact h)]
    · rw [if_neg hnn] at h2 ⊢
      exact lskgesView_throw hL h2 h
  unfold sketchGeneralL
  rw [M.bind_ok (show (M.get : M (SkOp N K T × Buf T) _) _ = (.ok _, _) from rfl)]
  simp only [onSkSparse, M.zoom, main]

/-- C42 (sparse operators, right).

Missing: as for left sketches. -/
theorem C42_right_sparse_partial {E : SkEnv N K W WS R T} {S : SparseSkOp N K T} {L : List (Entry T)} (hS : SparseIs E S L) (layout : Layout)
    (opA opS : Op) (m d n : Int) (alpha beta : T) (ro co : Int) (A b : Buf T) (lda ldb : Int)
    (h : ¬ (rowsOf opS n d ≤ S.nRows ∧ colsOf opS n d ≤ S.nCols ∧ LdOk layout lda (rowsOf opA m n) (colsOf opA m n) ∧ LdOk layout ldb m d)) :
    sketchGeneralR E layout opA opS m d n alpha A lda ro co beta ldb (.sparse S, b) = (.throw .require, (.sparse S, b)) := by
  have main : rskges E layout opA opS m d n alpha A lda ro co beta ldb (S, b) = (.throw .require, (S, b)) := by
    obtain ⟨hL, h2⟩ := hS
    unfold rskges
    rw [M.bind_ok (show (M.get : M (SparseSkOp N K T × Buf T) _) _ = (.ok _, _) from rfl)]
    dsimp only
    by_cases hnn : S.nnz < 0
    · rw [if_pos hnn] at h2
      obtain ⟨S', e, g1, g2, g3⟩ := h2
      have := opHolds_nnz g1
      refine M.bind_throw ?_
      unfold M.when
      rw [if_pos hnn]
      rw [M.bind_ok (filledCopy_run e), M.bind_ok (show M.ubIf (S'.nnz < 0) _ = (.ok (), _) by simp [M.ubIf, show ¬ S'.nnz < 0 by omega]; rfl)]
      simp only [M.zoom]
      rw [rskgesView_throw hL g1 (by rw [g2, g3]; exact h)]
    · rw [if_neg hnn] at h2
      rw [M.bind_ok (show M.when (S.nnz < 0) _ (S, b) = (.ok (), (S, b)) by unfold M.when; rw [if_neg hnn]; rfl)]
      exact rskgesView_throw hL h2 h
  unfold sketchGeneralR
  rw [M.bind_ok (show (M.get : M (SkOp N K T × Buf T) _) _ = (.ok _, _) from rfl)]
  simp only [onSkSparse, M.zoom, main]

omit [Neg T] [Field R] [LinearOrder R] [FloorRing R] in
theorem lsksp3View_throw {env : Env T} {A : SpMat T} {layout : Layout} {opS opA : Op} {d n m : Int} {alpha beta : T} {S : BFO T} {sb : Buf T}
    {ro co : Int} {b : Buf T} {ldb : Int} (hb : S.buff = some sb)
    (h : ¬ (spBase A = .Zero ∧ WindowOk A (rowsOf opA m n) (colsOf opA m n) 0 0 ∧ rowsOf opS d m + ro ≤ S.nRows ∧ colsOf opS d m + co ≤ S.nCols ∧
      LdOk layout ldb d n)) :
    lsksp3View env layout opS opA d n m alpha S ro co 0 0 beta ldb (A, b) = (.throw .require, (A, b)) := by
  apply M.eq_throw_of_wpx
  unfold lsksp3View BFO.getBuff
  rw [hb]
  simp only [M.wpx_bind, M.wpx_pure, M.wpx_get, M.wpx_require, dimsBeforeOp_eq, ldOk_iff]
  refine ⟨fun h1 => ⟨fun h2 => ⟨fun h3 => ⟨fun h4 => ⟨fun h5 => ?_, fun _ => (by simp)⟩, fun _ => (by simp)⟩, fun _ => (by simp)⟩,
    fun _ => (by simp)⟩, fun _ => (by simp)⟩
  have := C42_right_spmm env A layout (opForLayout S.layout layout opS) opA d n m 0 0 alpha beta
    (sb.shift (offsetAndLdim S.layout S.nRows S.nCols ro co).1) b (offsetAndLdim S.layout S.nRows S.nCols ro co).2 ldb
    (fun hh => h ⟨hh.1, hh.2.1, h3, h4, h5⟩)
  unfold M.wpx
  rw [this]
  exact ⟨rfl, rfl⟩

omit [Neg T] [Field R] [LinearOrder R] [FloorRing R] in
theorem rsksp3View_throw {env : Env T} {A : SpMat T} {layout : Layout} {opA opS : Op} {m d n : Int} {alpha beta : T} {S : BFO T} {sb : Buf T}
    {ro co : Int} {b : Buf T} {ldb : Int} (hb : S.buff = some sb)
    (h : ¬ (spBase A = .Zero ∧ WindowOk A (rowsOf opA m n) (colsOf opA m n) 0 0 ∧ rowsOf opS n d + ro ≤ S.nRows ∧ colsOf opS n d + co ≤ S.nCols ∧
      LdOk layout ldb m d)) :
    rsksp3View env layout opA opS m d n alpha 0 0 S ro co beta ldb (A, b) = (.throw .require, (A, b)) := by
  apply M.eq_throw_of_wpx
  unfold rsksp3View BFO.getBuff
  rw [hb]
  simp only [M.wpx_bind, M.wpx_pure, M.wpx_get, M.wpx_require, dimsBeforeOp_eq, ldOk_iff]
  refine ⟨fun h1 => ⟨fun h2 => ⟨fun h3 => ⟨fun h4 => ⟨fun h5 => ?_, fun _ => (by simp)⟩, fun _ => (by simp)⟩, fun _ => (by simp)⟩,
    fun _ => (by simp)⟩, fun _ => (by simp)⟩
  have := C42_left_spmm env A layout opA (opForLayout S.layout layout opS) m d n 0 0 alpha beta
    (sb.shift (offsetAndLdim S.layout S.nRows S.nCols ro co).1) b (offsetAndLdim S.layout S.nRows S.nCols ro co).2 ldb
    (fun hh => h ⟨hh.1, hh.2.1, h3, h4, h5⟩)
  unfold M.wpx
  rw [this]
  exact ⟨rfl, rfl⟩

omit [Neg T] [Field R] [LinearOrder R] [FloorRing R] in
/-- C42 (`sketch_sparse`, left). Unless A has the right dimensions (for COO: at least as large) and zero-based indices, the window is inside the
operator and `ldb` is large enough, an error is raised, and neither B nor A is changed. -/
theorem C42_sketch_sparse_left {E : SkEnv N K W WS R T} (hG : E.G.Ok) {S : DenseSkOp N K T} {Sm : Int → Int → T} (hS : DenseIs E S Sm)
    (A : SpMat T) (layout : Layout) (opS opA : Op) (d n m : Int) (alpha beta : T) (ro co : Int) (b : Buf T) (ldb : Int)
    (hne : S.buff = none → 0 ≤ d ∧ 0 ≤ m ∧ FillOk E.G.len S.dist (rowsOf opS d m) (colsOf opS d m) ro co ∧ 0 ≤ ro ∧ 0 ≤ co)
    (h : ¬ (spBase A = .Zero ∧ WindowOk A (rowsOf opA m n) (colsOf opA m n) 0 0 ∧ rowsOf opS d m + ro ≤ S.nRows ∧ colsOf opS d m + co ≤ S.nCols ∧
      LdOk layout ldb d n)) :
    sketchSparseL E layout opS opA d n m alpha S ro co beta ldb (A, b) = (.throw .require, (A, b)) := by
  unfold sketchSparseL lsksp3
  cases hbuf : S.buff with
  | some sb =>
    simp only [Option.isNone_some, Bool.false_eq_true, if_false]
    exact lsksp3View_throw (S := S.view) hbuf h
  | none =>
    simp only [DenseIs, hbuf] at hS
    obtain ⟨hD, e1, e2, hA⟩ := hS
    obtain ⟨p1, p2, pF, p3, p4⟩ := hne hbuf
    obtain ⟨q1, q2⟩ := rowsOf_nonneg (op := opS) p1 p2
    simp only [Option.isNone_none, if_true, dimsBeforeOp_eq]
    by_cases hw : rowsOf opS d m + ro ≤ S.nRows ∧ colsOf opS d m + co ≤ S.nCols
    · obtain ⟨sb, ld, e, hsb⟩ := submatrixAsBlackbox_spec (sched := E.env.sched) hG hD e1 e2 hA q1 q2 pF ⟨p3, p4, hw.1, hw.2⟩
      rw [e, M.bind_ok (show (M.lift (Res.ok _) : M (SpMat T × Buf T) (BFO T)) (A, b) = (.ok _, (A, b)) from rfl)]
      refine lsksp3View_throw (sb := sb) rfl ?_
      rintro ⟨h1, h2, -, -, h5⟩
      exact h ⟨h1, h2, hw.1, hw.2, h5⟩
    · rw [submatrix_throw hw]; rfl

omit [Neg T] [Field R] [LinearOrder R] [FloorRing R] in
/-- C42 (`sketch_sparse`, right). -/
theorem C42_sketch_sparse_right {E : SkEnv N K W WS R T} (hG : E.G.Ok) {S : DenseSkOp N K T} {Sm : Int → Int → T} (hS : DenseIs E S Sm)
    (A : SpMat T) (layout : Layout) (opA opS : Op) (m d n : Int) (alpha beta : T) (ro co : Int) (b : Buf T) (ldb : Int)
    (hne : S.buff = none → 0 ≤ n ∧ 0 ≤ d ∧ FillOk E.G.len S.dist (rowsOf opS n d) (colsOf opS n d) ro co ∧ 0 ≤ ro ∧ 0 ≤ co)
    (h : ¬ (spBase A = .Zero ∧ WindowOk A (rowsOf opA m n) (colsOf opA m n) 0 0 ∧ rowsOf opS n d + ro ≤ S.nRows ∧ colsOf opS n d + co ≤ S.nCols ∧
      LdOk layout ldb m d)) :
    sketchSparseR E layout opA opS m d n alpha S ro co beta ldb (A, b) = (.throw .require, (A, b)) := by
  unfold sketchSparseR rsksp3
  cases hbuf : S.buff with
  | some sb =>
    simp only [Option.isNone_some, Bool.false_eq_true, if_false]
    exact rsksp3View_throw (S := S.view) hbuf h
  | none =>
    simp only [DenseIs, hbuf] at hS
    obtain ⟨hD, e1, e2, hA⟩ := hS
    obtain ⟨p1, p2, pF, p3, p4⟩ := hne hbuf
    obtain ⟨q1, q2⟩ := rowsOf_nonneg (op := opS) p1 p2
    simp only [Option.isNone_none, if_true, dimsBeforeOp_eq]
    by_cases hw : rowsOf opS n d + ro ≤ S.nRows ∧ colsOf opS n d + co ≤ S.nCols
    · obtain ⟨sb, ld, e, hsb⟩ := submatrixAsBlackbox_spec (sched := E.env.sched) hG hD e1 e2 hA q1 q2 pF ⟨p3, p4, hw.1, hw.2⟩
      rw [e, M.bind_ok (show (M.lift (Res.ok _) : M (SpMat T × Buf T) (BFO T)) (A, b) = (.ok _, (A, b)) from rfl)]
      refine rsksp3View_throw (sb := sb) rfl ?_
      rintro ⟨h1, h2, -, -, h5⟩
      exact h ⟨h1, h2, hw.1, hw.2, h5⟩
    · rw [submatrix_throw hw]; rfl

end

/-- A window of a sparse operator may exceed the operator: the 1 x 1 window at (5, 7) of a 1 x 2 operator is accepted, and B becomes 0. The same
window of a dense 1 x 2 operator is rejected by C42. -/
theorem C42_offsets_counterexample : OpHolds exFirstCol [⟨0, 0, 5⟩] ∧ ¬ InOp exFirstCol.nRows exFirstCol.nCols 1 1 5 7 ∧
    (sketchGeneralL exSkEnv .ColMajor .NoTrans .NoTrans 1 1 1 1 5 7 (Buf.ofList [1]) 1 0 1 (.sparse exFirstCol, Buf.ofList [9])).1 = .ok () := by
  refine ⟨⟨_, _, _, rfl, rfl, rfl, ?_, rfl⟩, by unfold InOp exFirstCol; decide, rfl⟩
  intro i h
  have : i = 0 := by simpa using h
  subst this
  exact ⟨rfl, rfl, rfl⟩

/-- Arguments that do not fit: a 2 x 3 window at (2, 2) of the 3 x 7 operator `exDense`; a leading dimension that is too small; a CSC matrix with
other dimensions. -/
example : ¬ (rowsOf .NoTrans 2 3 + 2 ≤ exDense.nRows) ∧ ¬ LdOk .ColMajor 1 (rowsOf .NoTrans 3 2) (colsOf .NoTrans 3 2) ∧
    ¬ WindowOk (.csc (mkCsc 2 3 : CscMat ℤ)) 2 2 0 0 := by
  simp [LdOk, rowsOf, exDense, WindowOk, mkCsc]

/-! ## C49 -/

/-- The window that starts `k` columns of `op(submat(S))` further to the right. -/
def Spec.nextWindow (op : Op) (ro co k : Int) : Int × Int := match op with | .NoTrans => (ro, co + k) | .Trans => (ro + k, co)

theorem prodEntry_split [NonUnitalNonAssocSemiring T] {m1 m2 : Int} (h1 : 0 ≤ m1) (h2 : 0 ≤ m2) (A B : Int → Int → T) (i j : Int) :
    prodEntry (m1 + m2) A B i j = prodEntry m1 A B i j + prodEntry m2 (fun i l => A i (m1 + l)) (fun l j => B (m1 + l) j) i j := by
  unfold prodEntry
  rw [show (m1 + m2).toNat = m1.toNat + m2.toNat by omega, Finset.sum_range_add]
  congr 1
  refine Finset.sum_congr rfl fun l _ => ?_
  rw [show ((m1.toNat + l : Nat) : Int) = m1 + l by omega]

section
variable [CommRing T] [DecidableEq T] [Field R] [LinearOrder R] [FloorRing R]

/-- An operator that a sketch has been applied to can be used in the same way again. -/
theorem LeftOk.same {E : SkEnv N K W WS R T} {alpha : T} {S S' : SkOp N K T} {Sm : Int → Int → T} {opS : Op} {d m ro co : Int}
    (h : LeftOk E alpha S Sm opS d m ro co) (hs : SameOperator S S') : LeftOk E alpha S' Sm opS d m ro co := by
  cases S with
  | dense S =>
    cases S' with
    | sparse _ => exact hs.elim
    | dense S' => cases hs; exact h
  | sparse S =>
    cases S' with
    | dense _ => exact hs.elim
    | sparse S' =>
      rcases hs with rfl | ⟨h0, h1, L1, L2, h2, h3, h4⟩
      · exact h
      · obtain ⟨L, ⟨k1, k2⟩, k3, k4, k5, k6⟩ := h
        rw [if_neg (by omega)] at k2
        obtain rfl : L = L1 := by
          obtain ⟨v, r, c, a1, a2, a3, a4, a5⟩ := k2
          obtain ⟨v', r', c', b1, b2, b3, b4, b5⟩ := h2
          rw [a1] at b1; rw [a2] at b2; rw [a3] at b3
          cases b1; cases b2; cases b3
          exact cooHolds_unique a4 b4 (by omega)
        have e1 : S'.nRows = S.nRows := by rw [h1]
        have e2 : S'.nCols = S.nCols := by rw [h1]
        refine ⟨L2, ⟨fun h => k1 (by rw [h] at h4; exact List.Perm.eq_nil h4.symm), ?_⟩, ?_, ?_, ?_, fun ha => ?_⟩
        · rw [if_neg (by have := opHolds_nnz h3; omega)]; exact h3
        · rw [e1, e2]; exact fun e he => k3 e (h4.subset he)
        · rw [← k4]; funext i j; exact toMat_perm h4 i j
        · rw [e1, e2]; exact k5
        · refine CooOk.perm_of (k6 ha) h4 ?_
          have := window_perm (ro := ro) (co := co) (d := rowsOf opS d m) (m := colsOf opS d m) h4.symm
          cases opS
          · exact this
          · exact this.map _

/-- C49. Sketch A1 with the first m1 columns of `op(submat(S))`, then A2 with the next m2 columns, accumulating (`beta = 1`): the result is the same
as when the stacked matrix [A1; A2] is sketched at once: all contents of B are equal. The three data matrices can be stored anywhere, with any
leading dimensions and transposed or not.

Missing: the cases excluded by `LeftOk`, as for `sketch_general` (C36, C37). -/
theorem C49_streaming_partial {E : SkEnv N K W WS R T} (hE : SkEnvOk E) {S : SkOp N K T} {Sm : Int → Int → T} {layout : Layout}
    {opS op1 op2 op3 : Op} {d n m1 m2 ro co : Int} {alpha beta : T} {A1 A2 A3 b : Buf T} {ld1 ld2 ld3 ldb : Int} {M1 M2 M3 C : Int → Int → T}
    (h1 : LeftOk E alpha S Sm opS d m1 ro co) (h2 : LeftOk E alpha S Sm opS d m2 (nextWindow opS ro co m1).1 (nextWindow opS ro co m1).2)
    (h3 : LeftOk E alpha S Sm opS d (m1 + m2) ro co) (hd : 0 ≤ d) (hn : 0 ≤ n) (hm1 : 0 ≤ m1) (hm2 : 0 ≤ m2)
    (hl1 : LdOk layout ld1 (rowsOf op1 m1 n) (colsOf op1 m1 n)) (hl2 : LdOk layout ld2 (rowsOf op2 m2 n) (colsOf op2 m2 n))
    (hl3 : LdOk layout ld3 (rowsOf op3 (m1 + m2) n) (colsOf op3 (m1 + m2) n)) (hldb : LdOk layout ldb d n)
    (hA1 : Holds A1 layout ld1 (rowsOf op1 m1 n) (colsOf op1 m1 n) M1) (hA2 : Holds A2 layout ld2 (rowsOf op2 m2 n) (colsOf op2 m2 n) M2)
    (hA3 : Holds A3 layout ld3 (rowsOf op3 (m1 + m2) n) (colsOf op3 (m1 + m2) n) M3)
    (hstack : ∀ i j, InR (m1 + m2) n i j → opMat op3 M3 i j = if i < m1 then opMat op1 M1 i j else opMat op2 M2 (i - m1) j)
    (hal : Alloc b layout ldb d n) (hC : beta ≠ 0 → Holds b layout ldb d n C) :
    ∃ b' S1 S2, (do sketchGeneralL E layout opS op1 d n m1 alpha ro co A1 ld1 beta ldb
                    sketchGeneralL E layout opS op2 d n m2 alpha (nextWindow opS ro co m1).1 (nextWindow opS ro co m1).2 A2 ld2 1 ldb) (S, b) =
        (.ok (), (S1, b')) ∧
      sketchGeneralL E layout opS op3 d n (m1 + m2) alpha ro co A3 ld3 beta ldb (S, b) = (.ok (), (S2, b')) ∧ SameOperator S S2 := by
  obtain ⟨_, ⟨T1, b1⟩, e1, k1, k2, k3⟩ := sketchGeneralL_spec hE h1 hd hn hm1 hl1 hldb (fun _ => hA1) hal hC
  dsimp only at k1 k2 k3
  obtain ⟨_, ⟨T2, b2⟩, e2, q1, q2, -⟩ := sketchGeneralL_spec hE (LeftOk.same h2 k3) (beta := 1) (b := b1) hd hn hm2 hl2 hldb (fun _ => hA2)
    (fun i j hij => by rw [k1 i j hij]; simp) (fun _ => k1)
  obtain ⟨_, ⟨T3, b3⟩, e3, r1, r2, r3⟩ := sketchGeneralL_spec hE h3 hd hn (by omega) hl3 hldb (fun _ => hA3) hal hC
  dsimp only at q1 q2 r1 r2 r3
  have hbb : b2 = b3 := by
    refine MatSt.unique (b0 := b) (ad := addr layout ldb) (m := d) (n := n) ⟨fun i j hij => q1 i j hij, fun p hp => (q2 p hp).trans (k2 p hp)⟩
      ⟨fun i j hij => ?_, r2⟩
    rw [r1 i j hij]
    dsimp only
    rw [prodEntry_split hm1 hm2]
    have f1 : prodEntry m1 (opMat opS (subMat ro co Sm)) (opMat op3 M3) i j = prodEntry m1 (opMat opS (subMat ro co Sm)) (opMat op1 M1) i j := by
      refine prodEntry_congr (fun _ _ _ => rfl) fun l l0 l1 => ?_
      rw [hstack l j ⟨l0, by omega, hij.2.2.1, hij.2.2.2⟩, if_pos l1]
    have f2 : prodEntry m2 (fun i l => opMat opS (subMat ro co Sm) i (m1 + l)) (fun l j => opMat op3 M3 (m1 + l) j) i j =
        prodEntry m2 (opMat opS (subMat (nextWindow opS ro co m1).1 (nextWindow opS ro co m1).2 Sm)) (opMat op2 M2) i j := by
      refine prodEntry_congr (fun l l0 l1 => ?_) fun l l0 l1 => ?_
      · cases opS <;> simp [opMat, subMat, nextWindow, add_assoc]
      · rw [hstack (m1 + l) j ⟨by omega, by omega, hij.2.2.1, hij.2.2.2⟩, if_neg (by omega), show m1 + l - m1 = l by omega]
    rw [f1, f2]
    congr 1
    ring
  subst hbb
  exact ⟨b2, T2, T3, by rw [M.bind_ok e1, e2], e3, r3⟩

end

/-- The hypotheses of C49 are met: columns 1-2 and 3-5 of the first two rows of the new operator `exDense`, and the matrices [1; 2], [3; 4; 5]. -/
example : LeftOk exSkEnv (1 : ℤ) (.dense exDense) exDenseMat .NoTrans 2 2 0 1 ∧
    LeftOk exSkEnv (1 : ℤ) (.dense exDense) exDenseMat .NoTrans 2 3 (nextWindow .NoTrans 0 1 2).1 (nextWindow .NoTrans 0 1 2).2 ∧
    LeftOk exSkEnv (1 : ℤ) (.dense exDense) exDenseMat .NoTrans 2 (2 + 3) 0 1 ∧
    Holds (Buf.ofList ([1, 2] : List ℤ)) .ColMajor 2 2 1 (fun i _ => i + 1) ∧ Holds (Buf.ofList ([3, 4, 5] : List ℤ)) .ColMajor 3 3 1 (fun i _ => i + 3) ∧
    Holds (Buf.ofList ([1, 2, 3, 4, 5] : List ℤ)) .ColMajor 5 5 1 (fun i _ => i + 1) := by
  refine ⟨⟨exDense_is, by unfold InOp exDense; decide, fun _ => by decide⟩, ⟨exDense_is, by unfold InOp exDense; decide, fun _ => by decide⟩,
    ⟨exDense_is, by unfold InOp exDense; decide, fun _ => by decide⟩, ?_, ?_, ?_⟩
  all_goals
    rintro i j ⟨h1, h2, h3, h4⟩
    obtain rfl : j = 0 := by omega
    interval_cases i <;> rfl

end RB
