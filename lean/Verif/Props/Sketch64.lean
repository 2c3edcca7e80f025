import Verif.Model.Sketch64
import Verif.Props.Dense64
import Verif.Props.Sparse64
import Verif.Props.Spmm64
import Verif.Props.SketchApi

/-!
# C104: index arithmetic of sketches

The functions with suffix `64` compute with `int64_t` and with sparse indices of `w` bits; the functions without suffix compute with integers.
-/

namespace RB
open Spec
variable {N : Nat} {K W WS R T : Type}

/-- The number of entries of the dense operator is a 64-bit integer; for an operator that has not been filled, the sizes are as C56 needs them for
the r x c window. -/
structure Spec.DenseFits (len : Int) (S : DenseSkOp N K T) (r c : Int) : Prop where
  size : S.nRows * S.nCols < 2 ^ 63
  fill : S.buff = none → PaddedFits len S.dist ∧ majorLen S.dist r c ≤ len * 2 ^ 31

/-! ## Dense operators -/

theorem inOp_bounds {nR nC r c ro co : Int} (hr : 0 < r) (hc : 0 < c) (hw : InOp nR nC r c ro co) (hS : nR * nC < 2 ^ 63) :
    r + ro < 2 ^ 63 ∧ c + co < 2 ^ 63 ∧ 0 ≤ nR * co ∧ 0 ≤ ro * nC ∧ ro + nR * co < 2 ^ 63 ∧ ro * nC + co < 2 ^ 63 := by
  obtain ⟨h1, h2, h3, h4⟩ := hw
  have e1 : nR * (co + 1) ≤ nR * nC := mul_le_mul_of_nonneg_left (by omega) (by omega)
  have e2 : (ro + 1) * nC ≤ nR * nC := mul_le_mul_of_nonneg_right (by omega) (by omega)
  have e3 : nR * 1 ≤ nR * nC := mul_le_mul_of_nonneg_left (by omega) (by omega)
  have e4 : 1 * nC ≤ nR * nC := mul_le_mul_of_nonneg_right (by omega) (by omega)
  have p1 : 0 ≤ nR * co := mul_nonneg (by omega) h2
  have p2 : 0 ≤ ro * nC := mul_nonneg h1 (by omega)
  rw [mul_add] at e1
  rw [add_mul] at e2
  refine ⟨by omega, by omega, p1, p2, by omega, by omega⟩

theorem offsetAndLdim64_eq {layout : Layout} {nR nC r c ro co : Int} (hr : 0 < r) (hc : 0 < c) (hw : InOp nR nC r c ro co) (hS : nR * nC < 2 ^ 63) :
    offsetAndLdim64 layout nR nC ro co = .ok (offsetAndLdim layout nR nC ro co) := by
  obtain ⟨b1, b2, b3, b4, b5, b6⟩ := inOp_bounds hr hc hw hS
  obtain ⟨h1, h2, h3, h4⟩ := hw
  unfold offsetAndLdim64 offsetAndLdim
  split_ifs
  · rw [i64_ok (by omega) (by omega)]
    show (i64 (ro + nR * co) >>= fun q => pure (q, nR)) = _
    rw [i64_ok (by omega) (by omega)]; rfl
  · rw [i64_ok (by omega) (by omega)]
    show (i64 (ro * nC + co) >>= fun q => pure (q, nC)) = _
    rw [i64_ok (by omega) (by omega)]; rfl

theorem requireEnd64_eq {σ : Type} {bound len off : Int} (h0 : 0 ≤ len + off) (h1 : len + off < 2 ^ 63) :
    (requireEnd64 bound len off : M σ Unit) = M.require (bound ≥ len + off) := by
  unfold requireEnd64
  rw [mlift_i64 (by omega) h1]

theorem mlift_ok {σ α β : Type} {r : Res α} {a : α} (h : r = .ok a) {f : α → M σ β} : (M.lift r >>= f) = f a := by
  subst h; rfl

theorem lskge3View64_eq [Zero T] [Add T] [Mul T] [BEq T] {layout : Layout} {opS opA : Op} {d n m : Int} {alpha : T} {S : BFO T} {ro co : Int}
    {A : Buf T} {lda : Int} {beta : T} {ldb : Int} (hd : 0 < d) (hm : 0 < m) (hw : InOp S.nRows S.nCols (rowsOf opS d m) (colsOf opS d m) ro co)
    (hS : S.nRows * S.nCols < 2 ^ 63) :
    lskge3View64 layout opS opA d n m alpha S ro co A lda beta ldb = lskge3View layout opS opA d n m alpha S ro co A lda beta ldb := by
  obtain ⟨hr, hc⟩ := rowsOf_pos (op := opS) hd hm
  obtain ⟨b1, b2, -⟩ := inOp_bounds hr hc hw hS
  have w1 := hw.1
  have w2 := hw.2.1
  unfold lskge3View64 lskge3View
  rw [dimsBeforeOp_eq, requireEnd64_eq (by omega) b1, requireEnd64_eq (by omega) b2, offsetAndLdim64_eq hr hc hw hS]
  rfl

theorem rskge3View64_eq [Zero T] [Add T] [Mul T] [BEq T] {layout : Layout} {opA opS : Op} {m d n : Int} {alpha : T} {S : BFO T} {ro co : Int}
    {A : Buf T} {lda : Int} {beta : T} {ldb : Int} (hn : 0 < n) (hd : 0 < d) (hw : InOp S.nRows S.nCols (rowsOf opS n d) (colsOf opS n d) ro co)
    (hS : S.nRows * S.nCols < 2 ^ 63) :
    rskge3View64 layout opA opS m d n alpha A lda S ro co beta ldb = rskge3View layout opA opS m d n alpha A lda S ro co beta ldb := by
  obtain ⟨hr, hc⟩ := rowsOf_pos (op := opS) hn hd
  obtain ⟨b1, b2, -⟩ := inOp_bounds hr hc hw hS
  have w1 := hw.1
  have w2 := hw.2.1
  unfold rskge3View64 rskge3View
  rw [dimsBeforeOp_eq, requireEnd64_eq (by omega) b1, requireEnd64_eq (by omega) b2, offsetAndLdim64_eq hr hc hw hS]
  rfl

theorem submatrixAsBlackbox64_eq [Mul T] {sched : List Nat} {G : Gen N K W T} {sqrt3 : T} {S : DenseSkOp N K T} {r c ro co : Int} (hG : G.Ok)
    (hD : DenseDistOk S.dist) (h1 : S.nRows = S.dist.nRows) (h2 : S.nCols = S.dist.nCols) (hr : 0 < r) (hc : 0 < c)
    (hw : InOp S.nRows S.nCols r c ro co) (hS : DenseFits G.len S r c) (hb : S.buff = none) :
    submatrixAsBlackbox64 sched G sqrt3 S r c ro co = submatrixAsBlackbox sched G sqrt3 S r c ro co := by
  obtain ⟨hs, hf⟩ := hS
  obtain ⟨f1, f2⟩ := hf hb
  obtain ⟨b1, b2, -⟩ := inOp_bounds hr hc hw hs
  obtain ⟨w1, w2, w3, w4⟩ := hw
  have hrc : r * c ≤ S.nRows * S.nCols := mul_le_mul (by omega) (by omega) (by omega) (by omega)
  have hrc0 : 0 < r * c := mul_pos hr hc
  have hb' : ∀ {β : Type} {x : Int} {f : Int → Res β}, (Res.ok x >>= f) = f x := fun {_ _ _} => rfl
  unfold submatrixAsBlackbox64 submatrixAsBlackbox
  rw [i64_ok (by omega) (by omega), hb', i64_ok (by omega) (by omega), hb', i64_ok (by omega) (by omega), hb',
    C56_same_partial hG hD f1 ⟨hr, hc, w1, w2, by omega, by omega⟩ f2]
  rcases fillDenseUnpacked sched G sqrt3 S.layout S.dist r c ro co S.seedState (Buf.alloc T (r * c)) with ⟨x, b⟩
  cases x <;> rfl

/-- The view of an operator that was sampled into an array of its own. -/
theorem submatrixAsBlackbox_dims [Mul T] {sched : List Nat} {G : Gen N K W T} {sqrt3 : T} {S : DenseSkOp N K T} {r c ro co : Int} {V : BFO T}
    (h : submatrixAsBlackbox sched G sqrt3 S r c ro co = .ok V) : V.nRows = r ∧ V.nCols = c ∧ V.layout = S.layout := by
  unfold submatrixAsBlackbox at h
  by_cases h1 : ro + r ≤ S.nRows
  · by_cases h2 : co + c ≤ S.nCols
    · rw [show Res.require (ro + r ≤ S.nRows) = .ok () by simp [Res.require, h1], show Res.require (co + c ≤ S.nCols) = .ok () by simp [Res.require, h2]] at h
      change (if r * c < 0 then _ else _) = _ at h
      split_ifs at h
      split at h
      · cases h; exact ⟨rfl, rfl, rfl⟩
      · cases h
      · cases h
    · rw [show Res.require (ro + r ≤ S.nRows) = .ok () by simp [Res.require, h1], show Res.require (co + c ≤ S.nCols) = .throw .require by simp [Res.require, h2]] at h
      cases h
  · rw [show Res.require (ro + r ≤ S.nRows) = .throw .require by simp [Res.require, h1]] at h
    cases h

theorem mlift_congr {σ α β : Type} {r : Res α} {f g : α → M σ β} (h : ∀ a, r = .ok a → f a = g a) : (M.lift r >>= f) = (M.lift r >>= g) := by
  cases r with
  | ok a => exact h a rfl
  | throw e => rfl
  | ub => rfl

/-- C104 (dense operators, left). If the sizes are representable, a sketch of a nonempty window behaves as if its integers were unbounded. -/
theorem C104_dense_left_same [Zero T] [Add T] [Mul T] [BEq T] {E : SkEnv N K W WS R T} (hG : E.G.Ok) {S : DenseSkOp N K T} {Sm : Int → Int → T}
    (hS : DenseIs E S Sm) {layout : Layout} {opS opA : Op} {d n m ro co : Int} {alpha beta : T} {A : Buf T} {lda ldb : Int} (hd : 0 < d) (hm : 0 < m)
    (hw : InOp S.nRows S.nCols (rowsOf opS d m) (colsOf opS d m) ro co) (hF : DenseFits E.G.len S (rowsOf opS d m) (colsOf opS d m)) :
    lskge3_64 E layout opS opA d n m alpha S ro co A lda beta ldb = lskge3 E layout opS opA d n m alpha S ro co A lda beta ldb := by
  obtain ⟨hr, hc⟩ := rowsOf_pos (op := opS) hd hm
  unfold lskge3_64 lskge3
  cases hb : S.buff with
  | some sb =>
    simp only [Option.isNone_some, Bool.false_eq_true, if_false]
    exact lskge3View64_eq (S := S.view) hd hm hw hF.size
  | none =>
    simp only [DenseIs, hb] at hS
    obtain ⟨h1, h2, h3, -⟩ := hS
    simp only [Option.isNone_none, if_true]
    rw [dimsBeforeOp_eq, submatrixAsBlackbox64_eq hG h1 h2 h3 hr hc hw hF hb]
    refine mlift_congr fun V hV => ?_
    obtain ⟨e1, e2, -⟩ := submatrixAsBlackbox_dims hV
    have hrc : rowsOf opS d m * colsOf opS d m ≤ S.nRows * S.nCols := by
      obtain ⟨w1, w2, w3, w4⟩ := hw
      exact mul_le_mul (by omega) (by omega) (by omega) (by omega)
    exact lskge3View64_eq hd hm (by rw [e1, e2]; exact inOp_zero _ _) (by rw [e1, e2]; have := hF.size; omega)

/-- C104 (dense operators, right). -/
theorem C104_dense_right_same [Zero T] [Add T] [Mul T] [BEq T] {E : SkEnv N K W WS R T} (hG : E.G.Ok) {S : DenseSkOp N K T} {Sm : Int → Int → T}
    (hS : DenseIs E S Sm) {layout : Layout} {opA opS : Op} {m d n ro co : Int} {alpha beta : T} {A : Buf T} {lda ldb : Int} (hn : 0 < n) (hd : 0 < d)
    (hw : InOp S.nRows S.nCols (rowsOf opS n d) (colsOf opS n d) ro co) (hF : DenseFits E.G.len S (rowsOf opS n d) (colsOf opS n d)) :
    rskge3_64 E layout opA opS m d n alpha A lda S ro co beta ldb = rskge3 E layout opA opS m d n alpha A lda S ro co beta ldb := by
  obtain ⟨hr, hc⟩ := rowsOf_pos (op := opS) hn hd
  unfold rskge3_64 rskge3
  cases hb : S.buff with
  | some sb =>
    simp only [Option.isNone_some, Bool.false_eq_true, if_false]
    exact rskge3View64_eq (S := S.view) hn hd hw hF.size
  | none =>
    simp only [DenseIs, hb] at hS
    obtain ⟨h1, h2, h3, -⟩ := hS
    simp only [Option.isNone_none, if_true]
    rw [dimsBeforeOp_eq, submatrixAsBlackbox64_eq hG h1 h2 h3 hr hc hw hF hb]
    refine mlift_congr fun V hV => ?_
    obtain ⟨e1, e2, -⟩ := submatrixAsBlackbox_dims hV
    have hrc : rowsOf opS n d * colsOf opS n d ≤ S.nRows * S.nCols := by
      obtain ⟨w1, w2, w3, w4⟩ := hw
      exact mul_le_mul (by omega) (by omega) (by omega) (by omega)
    exact rskge3View64_eq hn hd (by rw [e1, e2]; exact inOp_zero _ _) (by rw [e1, e2]; have := hF.size; omega)

/-! ## Sparse operators -/

/-- For a sparse operator with indices of `w` bits: rows, columns and nonzeros can be numbered, and an operator that has not been filled can be
filled (C57). -/
structure Spec.SparseFits [Field R] [LinearOrder R] (w : Nat) (E : SkEnv N K W WS R T)
    (S : SparseSkOp N K T) : Prop where
  width : 3 ≤ w ∧ w ≤ 64
  count : (if S.nnz < 0 then S.dist.fullNnz else S.nnz) ≤ intMax w
  rows : S.nRows ≤ intMax w ∧ S.nRows < 2 ^ 63 - 1
  cols : S.nCols ≤ intMax w ∧ S.nCols < 2 ^ 63 - 1
  fill : S.nnz < 0 → UnitRange E.GS ∧ SparseDistOk S.dist ∧ IndexFits w S.dist

theorem onSp_ok {α : Type} {m : M (SparseSkOp N K T) α} {S : SparseSkOp N K T} {b : Buf T} {a : α} (h : m S = (.ok a, S)) :
    (onSp m : M (SparseSkOp N K T × Buf T) α) (S, b) = (.ok a, (S, b)) := by
  simp only [onSp, M.zoom, h]

section
variable [Field R] [LinearOrder R] [FloorRing R] [CommRing T]

theorem cooView64_eq {w : Nat} {G : Gen N K WS R} {sqrt : T → T} {order : Int → List (Int × T) → List (Int × T)} {S : SparseSkOp N K T}
    {L : List (Entry T)} (hL : L ≠ []) (h : OpHolds S L) : cooViewOfSkop64 w G sqrt order S = cooViewOfSkop G sqrt order S := by
  have hpos : 0 < L.length := List.length_pos_iff.mpr hL
  have hn : ¬ S.nnz ≤ 0 := by obtain ⟨_, _, _, -, -, -, -, h⟩ := h; omega
  unfold cooViewOfSkop64 cooViewOfSkop
  refine M.bind_congr_ok fun S' s' hs => ?_
  cases hs
  unfold M.when
  rw [if_neg hn, if_neg hn]

/-- C104 (view). `coo_view_of_skop` on an operator that has not been filled: if the index type can number rows, columns and nonzeros, it behaves as if its integers were unbounded. -/
theorem C104_coo_view_same [IsStrictOrderedRing R] {w : Nat} {G : Gen N K WS R} {sqrt : T → T} {order : Int → List (Int × T) → List (Int × T)} {S : SparseSkOp N K T} (hw : 3 ≤ w) (hw' : w ≤ 64)
    (hG : UnitRange G) (hD : SparseDistOk S.dist) (hI : IndexFits w S.dist) : cooViewOfSkop64 w G sqrt order S = cooViewOfSkop G sqrt order S := by
  unfold cooViewOfSkop64 cooViewOfSkop
  refine M.bind_congr_ok fun S' s' hs => ?_
  cases hs
  unfold M.when
  split_ifs with h
  · show M.bind _ _ _ = M.bind _ _ _
    unfold M.bind
    rw [C57_fill_partial hw hw' hG hD hI]
  · rfl

variable [DecidableEq T]

theorem lskgesView64_eq {w : Nat} {E : SkEnv N K W WS R T} (hE : SkEnvOk E) {S : SparseSkOp N K T} {L : List (Entry T)} (hL : L ≠ []) (h : OpHolds S L)
    (hr : InRange S.nRows S.nCols L) {layout : Layout} {opS opA : Op} {d n m ro co : Int} {alpha beta : T} {A b : Buf T} {lda ldb : Int}
    (hK : alpha ≠ 0 → CooOk L.length m (opEntries opS (window ro co (rowsOf opS d m) (colsOf opS d m) L)))
    (hw1 : rowsOf opS d m ≤ S.nRows) (hw2 : colsOf opS d m ≤ S.nCols) (hd : 0 ≤ d) (hn : 0 ≤ n) (hm : 0 ≤ m)
    (hlda : LdOk layout lda (rowsOf opA m n) (colsOf opA m n)) (hldb : LdOk layout ldb d n)
    (hpA : PositionsFit layout lda (rowsOf opA m n) (colsOf opA m n)) (hpB : PositionsFit layout ldb d n) (hdim : d + 1 < 2 ^ 63 ∧ m + 1 < 2 ^ 63)
    (hF : CooFits w L.length (rowsOf opS d m) (colsOf opS d m) ro co) :
    lskgesView64 w E layout opS opA d n m alpha ro co A lda beta ldb (S, b) = lskgesView E layout opS opA d n m alpha ro co A lda beta ldb (S, b) := by
  obtain ⟨s, e, h1, h2⟩ := cooViewOfSkop_run (G := E.GS) (sqrt := E.sqrt) (order := E.order) hL h
  have e64 := (cooView64_eq (w := w) (G := E.GS) (sqrt := E.sqrt) (order := E.order) hL h).trans e
  unfold lskgesView64 lskgesView
  rw [M.bind_ok (onSp_ok e64), M.bind_ok (onSp_ok e)]
  simp only [onSkArrays, M.zoom]
  have hlen : S.nnz = L.length := h1.nnz
  have hle := intMax_le64 hF.width.2
  rw [C103_left_same (w := w) hE.env (A := .coo ⟨S.nRows, S.nCols, false, S.nnz, .Zero, S.vals, S.rows, S.cols, s⟩) ⟨h1, h2⟩ rfl hr
    (layout := layout) (opA := opS) (opB := opA) (d := d) (n := n) (m := m) (ro := ro) (co := co) (alpha := alpha) (beta := beta)
    (fun ha => by show CooOk S.nnz m _; rw [hlen]; exact hK (by simpa using ha)) ⟨hw1, hw2⟩ hd hn hm hlda hldb
    ⟨hpA, hpB, hdim, by show S.nnz < _; have := hF.nnz; omega, fun _ => by show CooFits w S.nnz _ _ _ _; rw [hlen]; exact hF⟩]

theorem rskgesView64_eq {w : Nat} {E : SkEnv N K W WS R T} (hE : SkEnvOk E) {S : SparseSkOp N K T} {L : List (Entry T)} (hL : L ≠ []) (h : OpHolds S L)
    (hr : InRange S.nRows S.nCols L) {layout : Layout} {opA opS : Op} {m d n ro co : Int} {alpha beta : T} {A b : Buf T} {lda ldb : Int}
    (hK : alpha ≠ 0 → CooOk L.length n (opEntries opS.flip (window ro co (rowsOf opS n d) (colsOf opS n d) L)))
    (hw1 : rowsOf opS n d ≤ S.nRows) (hw2 : colsOf opS n d ≤ S.nCols) (hm : 0 ≤ m) (hd : 0 ≤ d) (hn : 0 ≤ n)
    (hlda : LdOk layout lda (rowsOf opA m n) (colsOf opA m n)) (hldb : LdOk layout ldb m d)
    (hpA : PositionsFit layout lda (rowsOf opA m n) (colsOf opA m n)) (hpB : PositionsFit layout ldb m d) (hdim : d + 1 < 2 ^ 63 ∧ n + 1 < 2 ^ 63)
    (hF : CooFits w L.length (rowsOf opS n d) (colsOf opS n d) ro co) :
    rskgesView64 w E layout opA opS m d n alpha A lda ro co beta ldb (S, b) = rskgesView E layout opA opS m d n alpha A lda ro co beta ldb (S, b) := by
  obtain ⟨s, e, h1, h2⟩ := cooViewOfSkop_run (G := E.GS) (sqrt := E.sqrt) (order := E.order) hL h
  have e64 := (cooView64_eq (w := w) (G := E.GS) (sqrt := E.sqrt) (order := E.order) hL h).trans e
  unfold rskgesView64 rskgesView
  rw [M.bind_ok (onSp_ok e64), M.bind_ok (onSp_ok e)]
  simp only [onSkArrays, M.zoom]
  have hlen : S.nnz = L.length := h1.nnz
  have hle := intMax_le64 hF.width.2
  have key := C103_left_same (w := w) hE.env (A := .coo ⟨S.nRows, S.nCols, false, S.nnz, .Zero, S.vals, S.rows, S.cols, s⟩) ⟨h1, h2⟩ rfl hr
    (layout := layout.flip) (opA := opS.flip) (opB := opA) (d := d) (n := m) (m := n) (ro := ro) (co := co) (alpha := alpha) (beta := beta)
    (B := A) (b := b) (ldb := lda) (ldc := ldb)
    (fun ha => by
      show CooOk S.nnz n _
      rw [hlen]
      have := hK (by simpa using ha)
      cases opS <;> exact this)
    (by cases opS <;> exact ⟨hw1, hw2⟩) hd hm hn (by cases layout <;> cases opA <;> exact hlda) (by cases layout <;> exact hldb)
    ⟨by cases layout <;> cases opA <;> exact hpA, by cases layout <;> exact hpB, hdim, by show S.nnz < _; have := hF.nnz; omega, fun _ => by
      show CooFits w S.nnz _ _ _ _
      rw [hlen]
      cases opS <;> exact hF⟩
  simp only [rightSpmm64, rightSpmm, key]

variable [IsStrictOrderedRing R]

omit [DecidableEq T] [IsStrictOrderedRing R] in
theorem Spec.SparseFits.coo {w : Nat} {E : SkEnv N K W WS R T} (hE : SkEnvOk E) {S : SparseSkOp N K T} (hF : SparseFits w E S) {L : List (Entry T)}
    (h : SparseIs E S L) {r c ro co : Int} (hr : 0 ≤ r) (hc : 0 ≤ c) (hw : InOp S.nRows S.nCols r c ro co) : CooFits w L.length r c ro co := by
  obtain ⟨w1, w2, w3, w4⟩ := hw
  have h1 := hF.rows
  have h2 := hF.cols
  have e1 : intMax 64 = 2 ^ 63 - 1 := rfl
  have e2 : intMin 64 = -2 ^ 63 := rfl
  have hcount : (L.length : Int) ≤ intMax w := by
    have hc := hF.count
    have h3 := h.2
    by_cases hn : S.nnz < 0
    · rw [if_pos hn] at hc h3
      obtain ⟨S', e, ⟨_, _, _, -, -, -, -, hl⟩, -⟩ := h3
      obtain ⟨_, S'', e', L', v, r, c, -, rfl, -, hle, -⟩ := fillSparse_spec hE.genS hE.sqrt hE.order
        (mkSparseSkOp_ok (T := T) E.GS.len (hF.fill hn).2.1 S.seedState)
      rw [e] at e'
      have e2 := congrArg (fun p => p.2.nnz) e'
      simp only at e2
      have e3 : (mkSparseSkOp E.GS.len S.dist S.seedState : SparseSkOp N K T).dist = S.dist := rfl
      rw [e3] at hle
      omega
    · rw [if_neg hn] at hc h3
      obtain ⟨_, _, _, -, -, -, -, hl⟩ := h3
      omega
  exact ⟨⟨by have := hF.width; omega, hF.width.2⟩, hcount, by omega, by omega, ⟨by omega, by omega⟩, ⟨by omega, by omega⟩⟩

omit [DecidableEq T] in
theorem filledCopy64_eq {σ : Type} {w : Nat} {E : SkEnv N K W WS R T} {S : SparseSkOp N K T} (hF : SparseFits w E S) (hn : S.nnz < 0) :
    (filledCopy64 w E S : M σ (SparseSkOp N K T)) = filledCopy E S := by
  obtain ⟨h1, h2, h3⟩ := hF.fill hn
  have := C57_fill_partial (w := w) (G := E.GS) (sqrt := E.sqrt) (order := E.order) (S := mkSparseSkOp E.GS.len S.dist S.seedState) hF.width.1 hF.width.2 h1 h2 h3
  unfold filledCopy64 filledCopy M.onLocal
  simp only [this]

/-- C104 (sparse operators, left). -/
theorem C104_sparse_left_same {w : Nat} {E : SkEnv N K W WS R T} (hE : SkEnvOk E) {S : SparseSkOp N K T} {L : List (Entry T)} (hS : SparseIs E S L)
    (hr : InRange S.nRows S.nCols L) {layout : Layout} {opS opA : Op} {d n m ro co : Int} {alpha beta : T} {A b : Buf T} {lda ldb : Int}
    (hw : InOp S.nRows S.nCols (rowsOf opS d m) (colsOf opS d m) ro co)
    (hK : alpha ≠ 0 → CooOk L.length m (opEntries opS (window ro co (rowsOf opS d m) (colsOf opS d m) L))) (hd : 0 ≤ d) (hn : 0 ≤ n) (hm : 0 ≤ m)
    (hlda : LdOk layout lda (rowsOf opA m n) (colsOf opA m n)) (hldb : LdOk layout ldb d n) (hF : SparseFits w E S)
    (hpA : PositionsFit layout lda (rowsOf opA m n) (colsOf opA m n)) (hpB : PositionsFit layout ldb d n) :
    lskges64 w E layout opS opA d n m alpha ro co A lda beta ldb (S, b) = lskges E layout opS opA d n m alpha ro co A lda beta ldb (S, b) := by
  obtain ⟨q1, q2⟩ := rowsOf_nonneg (op := opS) hd hm
  have hC := hF.coo hE hS q1 q2 hw
  obtain ⟨w1, w2, w3, w4⟩ := hw
  have hdim : d + 1 < 2 ^ 63 ∧ m + 1 < 2 ^ 63 := by
    have h1 := hF.rows
    have h2 := hF.cols
    cases opS <;> simp only [rowsOf, colsOf] at w3 w4 <;> constructor <;> omega
  obtain ⟨hL, h2⟩ := hS
  unfold lskges64 lskges
  refine M.bind_congr_ok fun s s1 hs => ?_
  cases hs
  by_cases hnn : S.nnz < 0
  · rw [if_pos hnn] at h2
    obtain ⟨S', e, g1, g2, g3⟩ := h2
    simp only [if_pos hnn]
    rw [filledCopy64_eq hF hnn]
    have hfc : (filledCopy E S : M (SparseSkOp N K T × Buf T) (SparseSkOp N K T)) (S, b) = (.ok S', (S, b)) := by
      have h0 : (M.onLocal (fillSparse E.GS E.sqrt E.order) (mkSparseSkOp E.GS.len S.dist S.seedState) : M (SparseSkOp N K T × Buf T) _) (S, b) =
          (.ok ((), S'), (S, b)) := by unfold M.onLocal; rw [e]
      unfold filledCopy
      rw [M.bind_ok h0]
      rfl
    rw [M.bind_ok hfc, M.bind_ok hfc]
    refine M.bind_congr_ok fun _ s2 hs2 => ?_
    have e2 : s2 = (S, b) := by
      unfold M.ubIf at hs2
      rw [if_neg (by have := opHolds_nnz g1; omega)] at hs2
      cases hs2; rfl
    subst e2
    simp only [M.zoom]
    rw [lskgesView64_eq hE hL g1 (by rw [g2, g3]; exact hr) hK (by omega) (by omega) hd hn hm hlda hldb hpA hpB hdim hC]
  · rw [if_neg hnn] at h2
    simp only [if_neg hnn]
    exact lskgesView64_eq hE hL h2 hr hK (by omega) (by omega) hd hn hm hlda hldb hpA hpB hdim hC

omit [IsStrictOrderedRing R] in
/-- C104 (sparse operators, right). The operator has been filled. -/
theorem C104_sparse_right_same {w : Nat} {E : SkEnv N K W WS R T} (hE : SkEnvOk E) {S : SparseSkOp N K T} {L : List (Entry T)} (h0 : 0 ≤ S.nnz)
    (hS : SparseIs E S L) (hr : InRange S.nRows S.nCols L) {layout : Layout} {opA opS : Op} {m d n ro co : Int} {alpha beta : T} {A b : Buf T}
    {lda ldb : Int} (hw : InOp S.nRows S.nCols (rowsOf opS n d) (colsOf opS n d) ro co)
    (hK : alpha ≠ 0 → CooOk L.length n (opEntries opS.flip (window ro co (rowsOf opS n d) (colsOf opS n d) L))) (hm : 0 ≤ m) (hd : 0 ≤ d) (hn : 0 ≤ n)
    (hlda : LdOk layout lda (rowsOf opA m n) (colsOf opA m n)) (hldb : LdOk layout ldb m d) (hF : SparseFits w E S)
    (hpA : PositionsFit layout lda (rowsOf opA m n) (colsOf opA m n)) (hpB : PositionsFit layout ldb m d) :
    rskges64 w E layout opA opS m d n alpha A lda ro co beta ldb (S, b) = rskges E layout opA opS m d n alpha A lda ro co beta ldb (S, b) := by
  obtain ⟨q1, q2⟩ := rowsOf_nonneg (op := opS) hn hd
  have hC := hF.coo hE hS q1 q2 hw
  obtain ⟨w1, w2, w3, w4⟩ := hw
  have hdim : d + 1 < 2 ^ 63 ∧ n + 1 < 2 ^ 63 := by
    have h1 := hF.rows
    have h2 := hF.cols
    cases opS <;> simp only [rowsOf, colsOf] at w3 w4 <;> constructor <;> omega
  obtain ⟨hL, h2⟩ := hS
  have hnn : ¬ S.nnz < 0 := by omega
  rw [if_neg hnn] at h2
  unfold rskges64 rskges
  refine M.bind_congr_ok fun s s1 hs => ?_
  cases hs
  unfold M.when
  simp only [if_neg hnn]
  refine M.bind_congr_ok fun _ s2 hs2 => ?_
  cases hs2
  exact rskgesView64_eq hE hL h2 hr hK (by omega) (by omega) hm hd hn hlda hldb hpA hpB hdim hC

/-! ## sketch_general -/

/-- The sizes in a sketch that have to be representable. A dense operator: nonempty window, see `DenseFits`. A sparse operator with indices of `w`
bits: see `SparseFits`, and positions in the two dense matrices, which are `rA x cA` and `rB x cB`. -/
def Spec.SketchFits (w : Nat) (E : SkEnv N K W WS R T) (S : SkOp N K T) (r c : Int) (layout : Layout) (lda rA cA ldb rB cB : Int) : Prop :=
  match S with
  | .dense S => 0 < r ∧ 0 < c ∧ DenseFits E.G.len S r c
  | .sparse S => SparseFits w E S ∧ PositionsFit layout lda rA cA ∧ PositionsFit layout ldb rB cB

/-- C104 (left). C33 with machine integers: `sketch_general` sets B to `alpha * op(submat(S)) * op(A) + beta * B` and changes nothing else, if
the sizes are representable.

Missing: the cases that are missing in C33, empty windows of dense operators, and sizes that are not representable (`C104_rejection_counterexample`). -/
theorem C104_left_partial {w : Nat} {E : SkEnv N K W WS R T} (hE : SkEnvOk E) {S : SkOp N K T} {Sm : Int → Int → T} {layout : Layout}
    {opS opA : Op} {d n m ro co : Int} {alpha beta : T} {A b : Buf T} {lda ldb : Int} {Am C : Int → Int → T}
    (h : LeftOk E alpha S Sm opS d m ro co)
    (hd : 0 ≤ d) (hn : 0 ≤ n) (hm : 0 ≤ m) (hlda : LdOk layout lda (rowsOf opA m n) (colsOf opA m n)) (hldb : LdOk layout ldb d n)
    (hA : alpha ≠ 0 → Holds A layout lda (rowsOf opA m n) (colsOf opA m n) Am)
    (hal : Alloc b layout ldb d n) (hC : beta ≠ 0 → Holds b layout ldb d n C)
    (hF : SketchFits w E S (rowsOf opS d m) (colsOf opS d m) layout lda (rowsOf opA m n) (colsOf opA m n) ldb d n) :
    M.wp (sketchGeneralL64 w E layout opS opA d n m alpha ro co A lda beta ldb) (S, b) (fun _ s' =>
      Holds s'.2 layout ldb d n (fun i j => alpha * prodEntry m (opMat opS (subMat ro co Sm)) (opMat opA Am) i j + beta * C i j) ∧
      SameOutside b s'.2 layout ldb d n ∧ SameOperator S s'.1) := by
  have key : sketchGeneralL64 w E layout opS opA d n m alpha ro co A lda beta ldb (S, b) =
      sketchGeneralL E layout opS opA d n m alpha ro co A lda beta ldb (S, b) := by
    unfold sketchGeneralL64 sketchGeneralL
    refine M.bind_congr_ok fun s s1 hs => ?_
    cases hs
    cases S with
    | dense S =>
      obtain ⟨f1, f2, f3⟩ := hF
      obtain ⟨g1, g2, -⟩ := h
      simp only
      rw [C104_dense_left_same hE.gen g1 (by cases opS <;> assumption) (by cases opS <;> assumption) g2 f3]
    | sparse S =>
      obtain ⟨f1, f2, f3⟩ := hF
      obtain ⟨L, g1, g2, g3, g4, g5⟩ := h
      simp only [onSkSparse, M.zoom]
      rw [C104_sparse_left_same hE g1 g2 g4 g5 hd hn hm hlda hldb f1 f2 f3]
  unfold M.wp
  rw [key]
  exact sketchGeneralL_spec hE h hd hn hm hlda hldb hA hal hC

omit [IsStrictOrderedRing R] in
/-- C104 (right). C34 with machine integers.

Missing: as for left sketches. -/
theorem C104_right_partial {w : Nat} {E : SkEnv N K W WS R T} (hE : SkEnvOk E) {S : SkOp N K T} {Sm : Int → Int → T} {layout : Layout}
    {opA opS : Op} {m d n ro co : Int} {alpha beta : T} {A b : Buf T} {lda ldb : Int} {Am C : Int → Int → T}
    (h : RightOk E alpha S Sm opS n d ro co)
    (hm : 0 ≤ m) (hd : 0 ≤ d) (hn : 0 ≤ n) (hlda : LdOk layout lda (rowsOf opA m n) (colsOf opA m n)) (hldb : LdOk layout ldb m d)
    (hA : alpha ≠ 0 → Holds A layout lda (rowsOf opA m n) (colsOf opA m n) Am)
    (hal : Alloc b layout ldb m d) (hC : beta ≠ 0 → Holds b layout ldb m d C)
    (hF : SketchFits w E S (rowsOf opS n d) (colsOf opS n d) layout lda (rowsOf opA m n) (colsOf opA m n) ldb m d) :
    M.wp (sketchGeneralR64 w E layout opA opS m d n alpha A lda ro co beta ldb) (S, b) (fun _ s' =>
      Holds s'.2 layout ldb m d (fun i j => alpha * prodEntry n (opMat opA Am) (opMat opS (subMat ro co Sm)) i j + beta * C i j) ∧
      SameOutside b s'.2 layout ldb m d ∧ SameOperator S s'.1) := by
  have key : sketchGeneralR64 w E layout opA opS m d n alpha A lda ro co beta ldb (S, b) =
      sketchGeneralR E layout opA opS m d n alpha A lda ro co beta ldb (S, b) := by
    unfold sketchGeneralR64 sketchGeneralR
    refine M.bind_congr_ok fun s s1 hs => ?_
    cases hs
    cases S with
    | dense S =>
      obtain ⟨f1, f2, f3⟩ := hF
      obtain ⟨g1, g2, -⟩ := h
      simp only
      rw [C104_dense_right_same hE.gen g1 (by cases opS <;> assumption) (by cases opS <;> assumption) g2 f3]
    | sparse S =>
      obtain ⟨f1, f2, f3⟩ := hF
      obtain ⟨L, g0, g1, g2, g3, g4, g5⟩ := h
      simp only [onSkSparse, M.zoom]
      rw [C104_sparse_right_same hE g0 g1 g2 g4 g5 hm hd hn hlda hldb f1 f2 f3]
  unfold M.wp
  rw [key]
  exact sketchGeneralR_spec hE h hm hd hn hlda hldb hA hal hC

/-! ## sketch_sparse -/

omit [Field R] [LinearOrder R] [FloorRing R] [CommRing T] [DecidableEq T] [IsStrictOrderedRing R] in
/-- Positions in a window of a dense operator. -/
theorem opWindow_fits {S : BFO T} {layout : Layout} {opS : Op} {d m ro co : Int} (hd : 0 < d) (hm : 0 < m)
    (hw : InOp S.nRows S.nCols (rowsOf opS d m) (colsOf opS d m) ro co) (hS : S.nRows * S.nCols < 2 ^ 63) :
    PositionsFit layout (offsetAndLdim S.layout S.nRows S.nCols ro co).2 (rowsOf (opForLayout S.layout layout opS) d m)
      (colsOf (opForLayout S.layout layout opS) d m) := by
  obtain ⟨hr, hc⟩ := rowsOf_pos (op := opS) hd hm
  obtain ⟨b1, b2, -⟩ := inOp_bounds hr hc hw hS
  obtain ⟨w1, w2, w3, w4⟩ := hw
  have p1 : (colsOf opS d m - 1) * S.nRows ≤ S.nCols * S.nRows := mul_le_mul_of_nonneg_right (by omega) (by omega)
  have p2 : (rowsOf opS d m - 1) * S.nCols ≤ S.nRows * S.nCols := mul_le_mul_of_nonneg_right (by omega) (by omega)
  rw [mul_comm S.nCols] at p1
  cases hl : S.layout <;> cases layout <;> cases opS <;>
    simp only [rowsOf, colsOf, opForLayout, offsetAndLdim, PositionsFit, Op.flip, ne_eq, reduceCtorEq, not_true_eq_false, not_false_eq_true, if_true,
      if_false] at * <;> constructor <;> omega

/-- The sizes of the sparse matrix that have to be representable: its dimensions, the number of its nonzeros, and for a COO matrix both as stored
indices. -/
structure Spec.MatrixFits (w : Nat) (A : SpMat T) : Prop where
  rows : spRows A < 2 ^ 63 - 1
  cols : spCols A < 2 ^ 63 - 1
  nnz : spNnz A < 2 ^ 63
  coo : (∃ A', A = .coo A') → (1 ≤ w ∧ w ≤ 64) ∧ spNnz A ≤ intMax w ∧ spRows A ≤ intMax w ∧ spCols A ≤ intMax w

omit [Field R] [LinearOrder R] [FloorRing R] [CommRing T] [DecidableEq T] [IsStrictOrderedRing R] in
theorem Spec.MatrixFits.window {w : Nat} {A : SpMat T} (h : MatrixFits w A) {r c : Int} (hr : 0 ≤ r) (hc : 0 ≤ c) (h1 : r ≤ spRows A) (h2 : c ≤ spCols A)
    (hA : ∃ A', A = .coo A') : CooFits w (spNnz A) r c 0 0 := by
  obtain ⟨k1, k2, k3, k4⟩ := h.coo hA
  have := intMax_le64 k1.2
  have e1 : intMax 64 = 2 ^ 63 - 1 := rfl
  have e2 : intMin 64 = -2 ^ 63 := rfl
  exact ⟨k1, k2, by omega, by omega, ⟨by omega, by omega⟩, ⟨by omega, by omega⟩⟩

end

section
variable [CommRing T] [DecidableEq T]

omit [CommRing T] [DecidableEq T] in
theorem require_state {σ : Type} {c : Prop} [Decidable c] {s s' : σ} {u : Unit} (h : (M.require c : M σ Unit) s = (.ok u, s')) : s' = s := by
  unfold M.require Res.require at h
  split_ifs at h <;> cases h; rfl

omit [CommRing T] [DecidableEq T] in
theorem getBuff_state {σ : Type} {S : BFO T} {s s' : σ} {sb : Buf T} (h : (S.getBuff : M σ (Buf T)) s = (.ok sb, s')) : s' = s := by
  unfold BFO.getBuff at h
  cases hb : S.buff with
  | none => rw [hb] at h; cases h
  | some x => rw [hb] at h; cases h; rfl

theorem lsksp3View64_eq {w : Nat} {env : Env T} (henv : EnvOk env) {A : SpMat T} {L : List (Entry T)} (hA : SpHolds A L) (hb : spBase A = .Zero)
    (hr : InRange (spRows A) (spCols A) L) {layout : Layout} {opS opA : Op} {d n m : Int} {alpha beta : T} {S : BFO T}
    {ro co : Int} {b : Buf T} {ldb : Int}
    (hw : InOp S.nRows S.nCols (rowsOf opS d m) (colsOf opS d m) ro co)
    (hwA : WindowOk A (rowsOf opA m n) (colsOf opA m n) 0 0) (hwA1 : rowsOf opA m n ≤ spRows A) (hwA2 : colsOf opA m n ≤ spCols A)
    (hK : alpha ≠ 0 → Supported A opA.flip layout.flip (opForLayout S.layout layout opS) n m
      (opEntries opA.flip (window 0 0 (rowsOf opA m n) (colsOf opA m n) L)))
    (hd : 0 < d) (hn : 0 ≤ n) (hm : 0 < m) (hldb : LdOk layout ldb d n) (hS : S.nRows * S.nCols < 2 ^ 63) (hF : MatrixFits w A)
    (hpB : PositionsFit layout ldb d n) :
    lsksp3View64 w env layout opS opA d n m alpha S ro co 0 0 beta ldb (A, b) = lsksp3View env layout opS opA d n m alpha S ro co 0 0 beta ldb (A, b) := by
  obtain ⟨hr0, hc0⟩ := rowsOf_pos (op := opS) hd hm
  obtain ⟨q1, q2⟩ := rowsOf_nonneg (op := opA) hm.le hn
  obtain ⟨b1, b2, -⟩ := inOp_bounds hr0 hc0 hw hS
  have w1 := hw.1
  have w2 := hw.2.1
  have f1 := hF.rows
  have f2 := hF.cols
  have hdim : n + 1 < 2 ^ 63 ∧ m + 1 < 2 ^ 63 := by cases opA <;> simp only [rowsOf, colsOf] at hwA1 hwA2 <;> omega
  unfold lsksp3View64 lsksp3View
  refine M.bind_congr_ok fun sb s1 hs1 => ?_
  cases getBuff_state hs1
  refine M.bind_congr_ok fun s s2 hs2 => ?_
  cases hs2
  rw [dimsBeforeOp_eq, dimsBeforeOp_eq, requireEnd64_eq (by omega) (by omega), requireEnd64_eq (by omega) (by omega), requireEnd64_eq (by omega) b1,
    requireEnd64_eq (by omega) b2, offsetAndLdim64_eq hr0 hc0 hw hS]
  have key := C103_left_same (w := w) henv hA hb hr (layout := layout.flip) (opA := opA.flip) (opB := opForLayout S.layout layout opS) (d := n) (n := d)
    (m := m) (ro := 0) (co := 0) (alpha := alpha) (beta := beta) (B := sb.shift (offsetAndLdim S.layout S.nRows S.nCols ro co).1) (b := b)
    (ldb := (offsetAndLdim S.layout S.nRows S.nCols ro co).2) (ldc := ldb)
    (fun ha => by
      have := hK (by simpa using ha)
      cases opA <;> exact this)
    (by cases opA <;> exact hwA) hn hd.le hm.le
    (by
      have := opWindow_ld (layout := layout) hw
      revert this
      generalize opForLayout S.layout layout opS = o
      cases layout <;> cases o <;> exact id)
    (by cases layout <;> exact hldb)
    ⟨by
      have := opWindow_fits (layout := layout) hd hm hw hS
      revert this
      generalize opForLayout S.layout layout opS = o
      cases layout <;> cases o <;> exact id, by cases layout <;> exact hpB, hdim, hF.nnz, fun h => by
      have := hF.window q1 q2 hwA1 hwA2 h
      cases opA <;> exact this⟩
  refine M.bind_congr_ok fun _ s2 hs2 => ?_
  cases require_state hs2
  refine M.bind_congr_ok fun _ s2 hs2 => ?_
  cases require_state hs2
  refine M.bind_congr_ok fun _ s2 hs2 => ?_
  cases require_state hs2
  refine M.bind_congr_ok fun _ s2 hs2 => ?_
  cases require_state hs2
  refine M.bind_congr_ok fun _ s2 hs2 => ?_
  cases require_state hs2
  exact key

theorem rsksp3View64_eq {w : Nat} {env : Env T} (henv : EnvOk env) {A : SpMat T} {L : List (Entry T)} (hA : SpHolds A L) (hb : spBase A = .Zero)
    (hr : InRange (spRows A) (spCols A) L) {layout : Layout} {opA opS : Op} {m d n : Int} {alpha beta : T} {S : BFO T}
    {ro co : Int} {b : Buf T} {ldb : Int}
    (hw : InOp S.nRows S.nCols (rowsOf opS n d) (colsOf opS n d) ro co)
    (hwA : WindowOk A (rowsOf opA m n) (colsOf opA m n) 0 0) (hwA1 : rowsOf opA m n ≤ spRows A) (hwA2 : colsOf opA m n ≤ spCols A)
    (hK : alpha ≠ 0 → Supported A opA layout (opForLayout S.layout layout opS) m n
      (opEntries opA (window 0 0 (rowsOf opA m n) (colsOf opA m n) L)))
    (hm : 0 ≤ m) (hd : 0 < d) (hn : 0 < n) (hldb : LdOk layout ldb m d) (hS : S.nRows * S.nCols < 2 ^ 63) (hF : MatrixFits w A)
    (hpB : PositionsFit layout ldb m d) :
    rsksp3View64 w env layout opA opS m d n alpha 0 0 S ro co beta ldb (A, b) = rsksp3View env layout opA opS m d n alpha 0 0 S ro co beta ldb (A, b) := by
  obtain ⟨hr0, hc0⟩ := rowsOf_pos (op := opS) hn hd
  obtain ⟨q1, q2⟩ := rowsOf_nonneg (op := opA) hm hn.le
  obtain ⟨b1, b2, -⟩ := inOp_bounds hr0 hc0 hw hS
  have w1 := hw.1
  have w2 := hw.2.1
  have f1 := hF.rows
  have f2 := hF.cols
  have hdim : m + 1 < 2 ^ 63 ∧ n + 1 < 2 ^ 63 := by cases opA <;> simp only [rowsOf, colsOf] at hwA1 hwA2 <;> omega
  unfold rsksp3View64 rsksp3View
  refine M.bind_congr_ok fun sb s1 hs1 => ?_
  cases getBuff_state hs1
  refine M.bind_congr_ok fun s s2 hs2 => ?_
  cases hs2
  rw [dimsBeforeOp_eq, dimsBeforeOp_eq, requireEnd64_eq (by omega) (by omega), requireEnd64_eq (by omega) (by omega), requireEnd64_eq (by omega) b1,
    requireEnd64_eq (by omega) b2, offsetAndLdim64_eq hr0 hc0 hw hS]
  have key := C103_left_same (w := w) henv hA hb hr (layout := layout) (opA := opA) (opB := opForLayout S.layout layout opS) (d := m) (n := d)
    (m := n) (ro := 0) (co := 0) (alpha := alpha) (beta := beta) (B := sb.shift (offsetAndLdim S.layout S.nRows S.nCols ro co).1) (b := b)
    (ldb := (offsetAndLdim S.layout S.nRows S.nCols ro co).2) (ldc := ldb)
    (fun ha => hK (by simpa using ha)) hwA hm hd.le hn.le (opWindow_ld hw) hldb
    ⟨opWindow_fits hn hd hw hS, hpB, hdim, hF.nnz, fun h => hF.window q1 q2 hwA1 hwA2 h⟩
  refine M.bind_congr_ok fun _ s2 hs2 => ?_
  cases require_state hs2
  refine M.bind_congr_ok fun _ s2 hs2 => ?_
  cases require_state hs2
  refine M.bind_congr_ok fun _ s2 hs2 => ?_
  cases require_state hs2
  refine M.bind_congr_ok fun _ s2 hs2 => ?_
  cases require_state hs2
  refine M.bind_congr_ok fun _ s2 hs2 => ?_
  cases require_state hs2
  exact key

/-- C104 (`sketch_sparse`, left). C41 with machine integers, for nonempty windows.

Missing: as for `sketch_general`. -/
theorem C104_sparse_data_left_partial {w : Nat} {E : SkEnv N K W WS R T} (hE : EnvOk E.env) (hG : E.G.Ok) {S : DenseSkOp N K T} {Sm : Int → Int → T}
    (hS : DenseIs E S Sm) {A : SpMat T} {L : List (Entry T)} (hA : SpHolds A L) (hb : spBase A = .Zero) (hr : InRange (spRows A) (spCols A) L)
    {layout : Layout} {opS opA : Op} {d n m ro co : Int} {alpha beta : T} {b : Buf T} {ldb : Int} {C : Int → Int → T}
    (hw : InOp S.nRows S.nCols (rowsOf opS d m) (colsOf opS d m) ro co) (hwA : WindowOk A (rowsOf opA m n) (colsOf opA m n) 0 0)
    (hK : alpha ≠ 0 → Supported A opA.flip layout.flip (if S.layout = layout then opS else opS.flip) n m
      (opEntries opA.flip (window 0 0 (rowsOf opA m n) (colsOf opA m n) L)))
    (hd : 0 < d) (hn : 0 ≤ n) (hm : 0 < m) (hldb : LdOk layout ldb d n) (hal : Alloc b layout ldb d n) (hC : beta ≠ 0 → Holds b layout ldb d n C)
    (hF : DenseFits E.G.len S (rowsOf opS d m) (colsOf opS d m)) (hFA : MatrixFits w A) (hpB : PositionsFit layout ldb d n) :
    M.wp (sketchSparseL64 w E layout opS opA d n m alpha S ro co beta ldb) (A, b) (fun _ s' =>
      Holds s'.2 layout ldb d n (fun i j => alpha * prodEntry m (opMat opS (subMat ro co Sm)) (opMat opA (toMat L)) i j + beta * C i j) ∧
      SameOutside b s'.2 layout ldb d n ∧ SameObject A s'.1 ∧ ∃ L', SpHolds s'.1 L' ∧ L'.Perm L) := by
  obtain ⟨hr0, hc0⟩ := rowsOf_pos (op := opS) hd hm
  have h2 := C41_left_partial hE hG hS hA hb hr hw (fun _ => fillOk_pos hr0 hc0) hwA hK hd.le hn hm.le hldb hal hC
  have hwA1 : rowsOf opA m n ≤ spRows A ∧ colsOf opA m n ≤ spCols A := by
    cases A <;> simp only [WindowOk, spRows, spCols] at hwA ⊢ <;> omega
  have hop : ∀ l : Layout, (if l = layout then opS else opS.flip) = opForLayout l layout opS := by
    intro l; unfold opForLayout; by_cases h : l = layout <;> simp [h]
  rw [hop] at hK
  have key : sketchSparseL64 w E layout opS opA d n m alpha S ro co beta ldb (A, b) = sketchSparseL E layout opS opA d n m alpha S ro co beta ldb (A, b) := by
    unfold sketchSparseL64 sketchSparseL lsksp3_64 lsksp3
    cases hbuf : S.buff with
    | some sb =>
      simp only [Option.isNone_some, Bool.false_eq_true, if_false]
      exact lsksp3View64_eq (S := S.view) hE hA hb hr hw hwA hwA1.1 hwA1.2 hK hd hn hm hldb hF.size hFA hpB
    | none =>
      simp only [DenseIs, hbuf] at hS
      obtain ⟨h1, h2, h3, -⟩ := hS
      simp only [Option.isNone_none, if_true]
      rw [dimsBeforeOp_eq, submatrixAsBlackbox64_eq hG h1 h2 h3 hr0 hc0 hw hF hbuf]
      have hrc : rowsOf opS d m * colsOf opS d m ≤ S.nRows * S.nCols := by
        obtain ⟨w1, w2, w3, w4⟩ := hw
        exact mul_le_mul (by omega) (by omega) (by omega) (by omega)
      cases hV : submatrixAsBlackbox E.env.sched E.G E.sqrt3 S (rowsOf opS d m) (colsOf opS d m) ro co with
      | throw e => rfl
      | ub => rfl
      | ok V =>
        obtain ⟨e1, e2, e3⟩ := submatrixAsBlackbox_dims hV
        exact lsksp3View64_eq (S := V) hE hA hb hr (by rw [e1, e2]; exact inOp_zero _ _) hwA hwA1.1 hwA1.2 (by rw [e3]; exact hK) hd hn hm hldb
          (by rw [e1, e2]; have := hF.size; omega) hFA hpB
  unfold M.wp
  rw [key]
  exact h2

/-- C104 (`sketch_sparse`, right). -/
theorem C104_sparse_data_right_partial {w : Nat} {E : SkEnv N K W WS R T} (hE : EnvOk E.env) (hG : E.G.Ok) {S : DenseSkOp N K T} {Sm : Int → Int → T}
    (hS : DenseIs E S Sm) {A : SpMat T} {L : List (Entry T)} (hA : SpHolds A L) (hb : spBase A = .Zero) (hr : InRange (spRows A) (spCols A) L)
    {layout : Layout} {opA opS : Op} {m d n ro co : Int} {alpha beta : T} {b : Buf T} {ldb : Int} {C : Int → Int → T}
    (hw : InOp S.nRows S.nCols (rowsOf opS n d) (colsOf opS n d) ro co) (hwA : WindowOk A (rowsOf opA m n) (colsOf opA m n) 0 0)
    (hK : alpha ≠ 0 → Supported A opA layout (if S.layout = layout then opS else opS.flip) m n
      (opEntries opA (window 0 0 (rowsOf opA m n) (colsOf opA m n) L)))
    (hm : 0 ≤ m) (hd : 0 < d) (hn : 0 < n) (hldb : LdOk layout ldb m d) (hal : Alloc b layout ldb m d) (hC : beta ≠ 0 → Holds b layout ldb m d C)
    (hF : DenseFits E.G.len S (rowsOf opS n d) (colsOf opS n d)) (hFA : MatrixFits w A) (hpB : PositionsFit layout ldb m d) :
    M.wp (sketchSparseR64 w E layout opA opS m d n alpha S ro co beta ldb) (A, b) (fun _ s' =>
      Holds s'.2 layout ldb m d (fun i j => alpha * prodEntry n (opMat opA (toMat L)) (opMat opS (subMat ro co Sm)) i j + beta * C i j) ∧
      SameOutside b s'.2 layout ldb m d ∧ SameObject A s'.1 ∧ ∃ L', SpHolds s'.1 L' ∧ L'.Perm L) := by
  obtain ⟨hr0, hc0⟩ := rowsOf_pos (op := opS) hn hd
  have h2 := C41_right_partial hE hG hS hA hb hr hw (fun _ => fillOk_pos hr0 hc0) hwA hK hm hd.le hn.le hldb hal hC
  have hwA1 : rowsOf opA m n ≤ spRows A ∧ colsOf opA m n ≤ spCols A := by
    cases A <;> simp only [WindowOk, spRows, spCols] at hwA ⊢ <;> omega
  have hop : ∀ l : Layout, (if l = layout then opS else opS.flip) = opForLayout l layout opS := by
    intro l; unfold opForLayout; by_cases h : l = layout <;> simp [h]
  rw [hop] at hK
  have key : sketchSparseR64 w E layout opA opS m d n alpha S ro co beta ldb (A, b) = sketchSparseR E layout opA opS m d n alpha S ro co beta ldb (A, b) := by
    unfold sketchSparseR64 sketchSparseR rsksp3_64 rsksp3
    cases hbuf : S.buff with
    | some sb =>
      simp only [Option.isNone_some, Bool.false_eq_true, if_false]
      exact rsksp3View64_eq (S := S.view) hE hA hb hr hw hwA hwA1.1 hwA1.2 hK hm hd hn hldb hF.size hFA hpB
    | none =>
      simp only [DenseIs, hbuf] at hS
      obtain ⟨h1, h2, h3, -⟩ := hS
      simp only [Option.isNone_none, if_true]
      rw [dimsBeforeOp_eq, submatrixAsBlackbox64_eq hG h1 h2 h3 hr0 hc0 hw hF hbuf]
      have hrc : rowsOf opS n d * colsOf opS n d ≤ S.nRows * S.nCols := by
        obtain ⟨w1, w2, w3, w4⟩ := hw
        exact mul_le_mul (by omega) (by omega) (by omega) (by omega)
      cases hV : submatrixAsBlackbox E.env.sched E.G E.sqrt3 S (rowsOf opS n d) (colsOf opS n d) ro co with
      | throw e => rfl
      | ub => rfl
      | ok V =>
        obtain ⟨e1, e2, e3⟩ := submatrixAsBlackbox_dims hV
        exact rsksp3View64_eq (S := V) hE hA hb hr (by rw [e1, e2]; exact inOp_zero _ _) hwA hwA1.1 hwA1.2 (by rw [e3]; exact hK) hm hd hn hldb
          (by rw [e1, e2]; have := hF.size; omega) hFA hpB
  unfold M.wp
  rw [key]
  exact h2

end

section
variable [Field R] [LinearOrder R] [FloorRing R] [CommRing T] [DecidableEq T]

/-- C104 is false without the restriction: a window of a dense operator that ends beyond 2^63 should be rejected by an exception; the check itself
overflows, so the call is undefined. -/
theorem C104_rejection_counterexample {w : Nat} {E : SkEnv N K W WS R T} {S : DenseSkOp N K T} {layout : Layout} {opS opA : Op}
    {d n m ro co : Int} {alpha beta : T} {A b : Buf T} {lda ldb : Int} (hS : S.nRows < 2 ^ 63) (hro : 2 ^ 63 ≤ rowsOf opS d m + ro) :
    (sketchGeneralL E layout opS opA d n m alpha ro co A lda beta ldb (.dense S, b)).1 = .throw .require ∧
    (sketchGeneralL64 w E layout opS opA d n m alpha ro co A lda beta ldb (.dense S, b)).1 = .ub := by
  have e0 : (dimsBeforeOp d m opS).1 = rowsOf opS d m := by cases opS <;> rfl
  have u1 : i64 (rowsOf opS d m + ro) = .ub :=
    if_neg fun h => by have h1 : rowsOf opS d m + ro ≤ 2 ^ 63 - 1 := h.2; omega
  have u2 : i64 (ro + rowsOf opS d m) = .ub := by rw [add_comm]; exact u1
  show (onC (lskge3 E layout opS opA d n m alpha S ro co A lda beta ldb) (SkOp.dense S, b)).1 = _ ∧
    (onC (lskge3_64 E layout opS opA d n m alpha S ro co A lda beta ldb) (SkOp.dense S, b)).1 = _
  simp only [onC, M.zoom]
  unfold lskge3 lskge3_64
  cases hb : S.buff with
  | none =>
    simp only [Option.isNone_none, if_true, e0]
    constructor
    · have : submatrixAsBlackbox E.env.sched E.G E.sqrt3 S (rowsOf opS d m) (dimsBeforeOp d m opS).2 ro co = .throw .require := by
        unfold submatrixAsBlackbox Res.require
        rw [if_neg (by omega)]; rfl
      rw [this]; rfl
    · have : submatrixAsBlackbox64 E.env.sched E.G E.sqrt3 S (rowsOf opS d m) (dimsBeforeOp d m opS).2 ro co = .ub := by
        unfold submatrixAsBlackbox64
        rw [u2]; rfl
      rw [this]; rfl
  | some sb =>
    simp only [Option.isNone_some, Bool.false_eq_true, if_false]
    have hg : (S.view.getBuff : M (Buf T) _) b = (.ok sb, b) := by
      unfold BFO.getBuff DenseSkOp.view
      simp only [hb]; rfl
    unfold lskge3View lskge3View64
    rw [M.bind_ok hg, M.bind_ok hg]
    constructor
    · have : (M.require (S.view.nRows ≥ (dimsBeforeOp d m opS).1 + ro) : M (Buf T) Unit) b = (.throw .require, b) := by
        have h1 : Res.require (S.view.nRows ≥ (dimsBeforeOp d m opS).1 + ro) = .throw .require :=
          if_neg (by rw [e0]; show ¬ S.nRows ≥ rowsOf opS d m + ro; omega)
        unfold M.require
        rw [h1]; rfl
      rw [M.bind_throw this]
    · have : (requireEnd64 S.view.nRows (dimsBeforeOp d m opS).1 ro : M (Buf T) Unit) b = (.ub, b) := by
        unfold requireEnd64
        rw [e0, u1]; rfl
      rw [M.bind_ub this]

end

/-! ## Examples -/

theorem exGenQ_range : UnitRange exGenQ := by
  intro c k i
  have h : ∀ x : Int, 0 ≤ x → x < 3 → (-1 : ℚ) ≤ ((x : ℚ) - 1) / 2 ∧ ((x : ℚ) - 1) / 2 ≤ 1 := by
    intro x h0 h1
    interval_cases x <;> norm_num
  exact h _ (Int.emod_nonneg _ (by decide)) (Int.emod_lt_of_pos _ (by decide))

/-- The sizes are representable for the dense operator of the examples of C33 and C41, for a new 3 x 8 sparse operator with `int` indices, and
for the sparse matrix of the example of C41. -/
example : DenseFits exSkEnv.G.len exDense 2 3 ∧ SketchFits 32 exSkEnv (.dense exDense) 2 3 .ColMajor 3 3 2 2 2 2 ∧
    SketchFits 32 exSkEnv (.sparse (mkSparseSkOp 4 exSaso ⟨0, 7⟩)) 3 8 .ColMajor 8 8 2 3 3 2 ∧ MatrixFits 32 (.coo (cooOf 3 3 .Zero sampleE)) := by
  have h1 : DenseFits exSkEnv.G.len exDense 2 3 := ⟨by decide, fun _ => ⟨by unfold PaddedFits; decide, by decide⟩⟩
  refine ⟨h1, ⟨by decide, by decide, h1⟩, ⟨⟨by decide, by decide, by decide, by decide, fun _ => ⟨exGenQ_range, exSaso_ok, by decide, by decide, fun _ => by decide⟩⟩,
    by unfold PositionsFit; decide, by unfold PositionsFit; decide⟩, ⟨by decide, by decide, by decide, fun _ => by decide⟩⟩

/-- The hypotheses of `C104_rejection_counterexample` are met. -/
example : exDense.nRows < 2 ^ 63 ∧ (2 : Int) ^ 63 ≤ rowsOf .NoTrans 1 2 + (2 ^ 63 - 1) := by decide

end RB
