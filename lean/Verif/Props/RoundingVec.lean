import Verif.Props.RoundingDense

/-!
# C55, C100: rounding errors of `sketch_vector`
-/

namespace RB
open Spec
variable {N : Nat} {K W WS F : Type} {val : F → ℝ} {u : ℝ} [Zero F] [One F] [Add F] [Mul F] [BEq F]
variable {Q : Type} [Field Q] [LinearOrder Q] [FloorRing Q] [Neg F]

theorem sketchVector_eq (E : SkEnv N K W WS Q F) {opS : Op} {d m ro co rows cols : Int} {alpha beta : F} {x : Buf F} {incx incy : Int}
    (hdim : (opS = .NoTrans ∧ rows = d ∧ cols = m) ∨ (opS = .Trans ∧ rows = m ∧ cols = d)) :
    sketchVector E opS d m alpha ro co x incx beta incy =
      (sketchGeneralL E .RowMajor opS .NoTrans rows 1 cols alpha ro co x incx beta incy : M (SkOp N K F × Buf F) Unit) := by
  unfold sketchVector
  rcases hdim with ⟨rfl, rfl, rfl⟩ | ⟨rfl, rfl, rfl⟩ <;> rfl

/-- C55 for `sketch_vector` with a sparse operator, filled or not, that consists of the entries `L`: in floating-point arithmetic every entry of y differs from the exact
`alpha * Σ_j op(submat(S))[i, j] * x_j + beta * y_i` by at most `(1 + u)^(c + 3) - 1` times the same expression with all numbers replaced by their absolute values, where `c` is the number of
entries in row i of `op(submat(S))`; nothing else in y changes. Missing: the entries excluded by `CooOk`, as in C37. -/
theorem C55_sketch_vector_partial (R : Rounding F val u) {E : SkEnv N K W WS Q F} (hE : SkEnvOk E) {S : SparseSkOp N K F} {L : List (Entry F)}
    (h : SparseIs E S L) (hr : InRange S.nRows S.nCols L) {opS : Op} {d m ro co rows cols : Int} {alpha beta : F} {x y : Buf F}
    {incx incy : Int} {xv yv : Int → F} (hdim : (opS = .NoTrans ∧ rows = d ∧ cols = m) ∨ (opS = .Trans ∧ rows = m ∧ cols = d))
    (hw : InOp S.nRows S.nCols d m ro co)
    (hK : (alpha == 0) = false → CooOk L.length cols (opEntries opS (window ro co d m L)))
    (hd : 0 ≤ d) (hm : 0 ≤ m) (hincx : 1 ≤ incx) (hincy : 1 ≤ incy)
    (hx : (alpha == 0) = false → ∀ j, 0 ≤ j → j < cols → x (j * incx) = .val (xv j))
    (hal : ∀ i, 0 ≤ i → i < rows → y (i * incy) ≠ .none) (hy : (beta == 0) = false → ∀ i, 0 ≤ i → i < rows → y (i * incy) = .val (yv i)) :
    M.wp (sketchVector E opS d m alpha ro co x incx beta incy) (.sparse S, y) (fun _ s' => ∃ X : Int → F,
      (∀ i, 0 ≤ i → i < rows → s'.2 (i * incy) = .val (X i)) ∧ (∀ p, (∀ i, 0 ≤ i → i < rows → p ≠ i * incy) → s'.2 p = y p) ∧
      ∀ i, 0 ≤ i → i < rows →
        |val (X i) - (val alpha * (∑ j ∈ Finset.range cols.toNat, opMat opS (subMat ro co (toMat (mapEntries val L))) i j * val (xv j)) + val beta * val (yv i))| ≤
          gam u (rowCount (opEntries opS (window ro co d m L)) i + 3) *
            (|val alpha| * (∑ j ∈ Finset.range cols.toNat, opMat opS (subMat ro co (toMat (mapEntries (fun x => |val x|) L))) i j * |val (xv j)|) +
              |val beta| * |val (yv i)|)) := by
  rw [sketchVector_eq E hdim]
  have hrc : 0 ≤ rows ∧ 0 ≤ cols := by rcases hdim with ⟨-, rfl, rfl⟩ | ⟨-, rfl, rfl⟩ <;> exact ⟨by assumption, by assumption⟩
  have hdm : rowsOf opS rows cols = d ∧ colsOf opS rows cols = m := by
    rcases hdim with ⟨rfl, rfl, rfl⟩ | ⟨rfl, rfl, rfl⟩ <;> exact ⟨rfl, rfl⟩
  have hone : ∀ {r i j : Int}, InR r 1 i j → j = 0 := by intro r i j h; obtain ⟨-, -, h1, h2⟩ := h; omega
  refine M.wp_mono (C55_sketch_left_partial R hE h hr (Am := fun j _ => xv j) (C := fun i _ => yv i) (by rw [hdm.1, hdm.2]; exact hw)
    (by rw [hdm.1, hdm.2]; exact hK) hrc.1 (by decide) hrc.2 (by simpa [LdOk, colsOf] using hincx)
    (by simpa [LdOk] using hincy) (fun ha i j hij => ?_) (fun i j hij => ?_) (fun hb i j hij => ?_)) ?_
  · obtain rfl := hone (r := cols) hij
    simpa [addr] using hx ha i hij.1 hij.2.1
  · obtain rfl := hone hij
    simpa [addr] using hal i hij.1 hij.2.1
  · obtain rfl := hone hij
    simpa [addr] using hy hb i hij.1 hij.2.1
  · rintro _ s' ⟨X, k1, k2, k3⟩
    refine ⟨fun i => X i 0, fun i i0 i1 => ?_, fun p hp => k2 p fun i j hij => ?_, fun i i0 i1 => ?_⟩
    · simpa [addr] using k1 i 0 ⟨i0, i1, le_rfl, by decide⟩
    · obtain rfl := hone hij
      simpa [addr] using hp i hij.1 hij.2.1
    · have := k3 i 0 ⟨i0, i1, le_rfl, by decide⟩
      rw [hdm.1, hdm.2] at this
      exact this

/-- C100 for `sketch_vector` with a dense operator, filled or not, that consists of the (rounded) numbers `Sm`: every entry of y differs from the exact
`alpha * Σ_j op(submat(S))[i, j] * x_j + beta * y_i` by at most `(1 + u)^(c + 3) - 1` times the same expression with all numbers replaced by their absolute values, where `c` is the length of
x; nothing else in y changes, and the operator is unchanged. Missing: the empty windows of operators that have not been filled that are undefined, as in C36. -/
theorem C100_sketch_vector_partial (R : Rounding F val u) {E : SkEnv N K W WS Q F} (hG : E.G.Ok) {S : DenseSkOp N K F} {Sm : Int → Int → F}
    (hS : DenseIs E S Sm) {opS : Op} {d m ro co rows cols : Int} {alpha beta : F} {x y : Buf F} {incx incy : Int} {xv yv : Int → F}
    (hdim : (opS = .NoTrans ∧ rows = d ∧ cols = m) ∨ (opS = .Trans ∧ rows = m ∧ cols = d))
    (hw : InOp S.nRows S.nCols d m ro co) (hne : S.buff = none → FillOk E.G.len S.dist d m ro co)
    (hd : 0 ≤ d) (hm : 0 ≤ m) (hincx : 1 ≤ incx) (hincy : 1 ≤ incy)
    (hx : (alpha == 0) = false → ∀ j, 0 ≤ j → j < cols → x (j * incx) = .val (xv j))
    (hal : ∀ i, 0 ≤ i → i < rows → y (i * incy) ≠ .none) (hy : (beta == 0) = false → ∀ i, 0 ≤ i → i < rows → y (i * incy) = .val (yv i)) :
    M.wp (sketchVector E opS d m alpha ro co x incx beta incy) (.dense S, y) (fun _ s' => s'.1 = .dense S ∧ ∃ X : Int → F,
      (∀ i, 0 ≤ i → i < rows → s'.2 (i * incy) = .val (X i)) ∧ (∀ p, (∀ i, 0 ≤ i → i < rows → p ≠ i * incy) → s'.2 p = y p) ∧
      ∀ i, 0 ≤ i → i < rows →
        |val (X i) - (val alpha * (∑ j ∈ Finset.range cols.toNat, opMat opS (subMat ro co fun i j => val (Sm i j)) i j * val (xv j)) + val beta * val (yv i))| ≤
          gam u (cols.toNat + 3) *
            (|val alpha| * (∑ j ∈ Finset.range cols.toNat, opMat opS (subMat ro co fun i j => |val (Sm i j)|) i j * |val (xv j)|) + |val beta| * |val (yv i)|)) := by
  rw [sketchVector_eq E hdim]
  have hrc : 0 ≤ rows ∧ 0 ≤ cols := by rcases hdim with ⟨-, rfl, rfl⟩ | ⟨-, rfl, rfl⟩ <;> exact ⟨by assumption, by assumption⟩
  have hdm : rowsOf opS rows cols = d ∧ colsOf opS rows cols = m := by
    rcases hdim with ⟨rfl, rfl, rfl⟩ | ⟨rfl, rfl, rfl⟩ <;> exact ⟨rfl, rfl⟩
  have hone : ∀ {r i j : Int}, InR r 1 i j → j = 0 := by intro r i j h; obtain ⟨-, -, h1, h2⟩ := h; omega
  refine M.wp_mono (C100_sketch_left_partial R hG hS (Am := fun j _ => xv j) (C := fun i _ => yv i) (by rw [hdm.1, hdm.2]; exact hw)
    (by rw [hdm.1, hdm.2]; exact hne) hrc.1 (by decide) hrc.2 (by simpa [LdOk, colsOf] using hincx)
    (by simpa [LdOk] using hincy) (fun ha i j hij => ?_) (fun i j hij => ?_) (fun hb i j hij => ?_)) ?_
  · obtain rfl := hone (r := cols) hij
    simpa [addr] using hx ha i hij.1 hij.2.1
  · obtain rfl := hone hij
    simpa [addr] using hal i hij.1 hij.2.1
  · obtain rfl := hone hij
    simpa [addr] using hy hb i hij.1 hij.2.1
  · rintro _ s' ⟨k0, X, k1, k2, k3⟩
    refine ⟨k0, fun i => X i 0, fun i i0 i1 => ?_, fun p hp => k2 p fun i j hij => ?_, fun i i0 i1 => ?_⟩
    · simpa [addr] using k1 i 0 ⟨i0, i1, le_rfl, by decide⟩
    · obtain rfl := hone hij
      simpa [addr] using hp i hij.1 hij.2.1
    · exact k3 i 0 ⟨i0, i1, le_rfl, by decide⟩

/-- The hypotheses of C100 are met by the transposed 2 x 3 window at (1, 4) of a new operator with double-precision numbers, x = (1, 1 + 2⁻⁵²) with stride 2 and an uninitialised y
with stride 3. -/
example : Rounding (Fl 53) Subtype.val (2⁻¹ ^ 53) ∧ flSkEnv.G.Ok ∧ DenseIs flSkEnv flDense (denseEntry flDenseGen Fl.next exDist ⟨5, 3⟩) ∧
    ((Op.Trans = .NoTrans ∧ (3 : Int) = 2 ∧ (2 : Int) = 3) ∨ (Op.Trans = .Trans ∧ (3 : Int) = 3 ∧ (2 : Int) = 2)) ∧
    InOp flDense.nRows flDense.nCols 2 3 1 4 ∧ (flDense.buff = none → FillOk flSkEnv.G.len flDense.dist 2 3 1 4) ∧
    (∀ j : Int, 0 ≤ j → j < 2 → Buf.ofList [(1 : Fl 53), 0, Fl.next] (j * 2) = .val (if j = 0 then 1 else Fl.next)) ∧
    ∀ i : Int, 0 ≤ i → i < 3 → Buf.alloc (Fl 53) 7 (i * 3) ≠ .none := by
  have hD : DenseDistOk exDist := ⟨by decide, by decide⟩
  refine ⟨Fl.rounding 53, Or.inr rfl, denseIs_new (E := flSkEnv) (seed := ⟨5, 3⟩) hD rfl (samples_denseEntry (Or.inr rfl) hD), Or.inr ⟨rfl, rfl, rfl⟩,
    by unfold InOp flDense; decide, fun _ => Or.inl ⟨by decide, by decide⟩, ?_, ?_⟩
  · intro j h0 h1
    obtain rfl | rfl : j = 0 ∨ j = 1 := by omega
    all_goals simp [Buf.ofList]
  · intro i h0 h1
    simp only [Buf.alloc]
    rw [if_pos (by omega)]; simp

end RB
