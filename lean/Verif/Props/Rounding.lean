import Verif.Spec.Rounding
import Verif.Props.Spmm
import Verif.Props.Sketch
import Mathlib.Data.Int.Log
import Mathlib.Algebra.Order.Round
import Mathlib.Tactic.Positivity
import Mathlib.Tactic.FieldSimp

/-!
# C55: rounding errors of sparse products

The theorems are about the computations with floating-point numbers: `F` is any type of numbers with the standard model `Rounding F val u`.
-/

namespace RB
open Spec
variable {F : Type} {val : F → ℝ} {u : ℝ}

/-- `x` approximates the real number `y` up to `n` roundings, relative to `Y`. -/
def Approx (val : F → ℝ) (u : ℝ) (n : Nat) (x : F) (y Y : ℝ) : Prop := |y| ≤ Y ∧ |val x - y| ≤ gam u n * Y

theorem gam_nonneg (hu : 0 ≤ u) (n : Nat) : 0 ≤ gam u n := by
  unfold gam
  have := one_le_pow₀ (show 1 ≤ 1 + u by linarith) (n := n)
  linarith

theorem gam_mono (hu : 0 ≤ u) {m n : Nat} (h : m ≤ n) : gam u m ≤ gam u n := by
  unfold gam
  have := pow_le_pow_right₀ (show 1 ≤ 1 + u by linarith) h
  linarith

theorem Approx.mono (hu : 0 ≤ u) {m n : Nat} {x : F} {y Y : ℝ} (h : Approx val u m x y Y) (hmn : m ≤ n) : Approx val u n x y Y :=
  ⟨h.1, h.2.trans (mul_le_mul_of_nonneg_right (gam_mono hu hmn) ((abs_nonneg y).trans h.1))⟩

theorem Approx.exact (x : F) (hu : 0 ≤ u) (n : Nat) : Approx val u n x (val x) |val x| :=
  ⟨le_refl _, by rw [sub_self, abs_zero]; exact mul_nonneg (gam_nonneg hu n) (abs_nonneg _)⟩

/-- A rounded operation. -/
theorem approx_round {r e E : ℝ} {n : Nat} {z v : ℝ} (hu : 0 ≤ u) (hr : |z - r| ≤ u * |r|) (he : |r - e| ≤ gam u n * E) (hE : |e| ≤ E) (hv : v = z) :
    |v - e| ≤ gam u (n + 1) * E := by
  subst hv
  have h1 : |r| ≤ |e| + |r - e| := by
    calc |r| = |e + (r - e)| := by ring_nf
      _ ≤ _ := abs_add_le _ _
  have h2 : |v - e| ≤ |v - r| + |r - e| := by
    calc |v - e| = |(v - r) + (r - e)| := by ring_nf
      _ ≤ _ := abs_add_le _ _
  have h3 : u * |r| ≤ u * (E + gam u n * E) := mul_le_mul_of_nonneg_left (by linarith) hu
  have h4 : gam u (n + 1) * E = u * (E + gam u n * E) + gam u n * E := by unfold gam; ring
  linarith

theorem window_mapEntries {R' : Type} (f : F → R') (ro co d m : Int) (E : List (Entry F)) :
    window ro co d m (mapEntries f E) = mapEntries f (window ro co d m E) := by
  unfold window mapEntries
  rw [List.filter_map, List.map_map, List.map_map]
  rfl

theorem opEntries_mapEntries {R' : Type} (f : F → R') (op : Op) (E : List (Entry F)) : opEntries op (mapEntries f E) = mapEntries f (opEntries op E) := by
  cases op
  · rfl
  · simp only [opEntries, mapEntries, List.map_map]; rfl

theorem acc_mapEntries {f : F → ℝ} {W : List (Entry F)} {w : Entry ℝ → ℝ} {i : Int} {x : ℝ} :
    acc (mapEntries f W) w i x = x + ((W.filter fun e => e.row = i).map fun e => w ⟨e.row, e.col, f e.val⟩).sum := by
  rw [acc_eq_sum]
  unfold mapEntries
  rw [List.filter_map, List.map_map]
  rfl

section
variable [Zero F] [One F] [Add F] [Mul F] [BEq F]

theorem Approx.mul (R : Rounding F val u) {n : Nat} {x w : F} {y Y : ℝ} (h : Approx val u n x y Y) :
    Approx val u (n + 1) (x * w) (y * val w) (Y * |val w|) := by
  refine ⟨by rw [abs_mul]; exact mul_le_mul_of_nonneg_right h.1 (abs_nonneg _), ?_⟩
  refine approx_round R.nonneg (R.mul x w) ?_ (by rw [abs_mul]; exact mul_le_mul_of_nonneg_right h.1 (abs_nonneg _)) rfl
  rw [← sub_mul, abs_mul, ← mul_assoc]
  exact mul_le_mul_of_nonneg_right h.2 (abs_nonneg _)

theorem Approx.add (R : Rounding F val u) {n : Nat} {x x' : F} {y y' Y Y' : ℝ} (h : Approx val u n x y Y) (h' : Approx val u n x' y' Y') :
    Approx val u (n + 1) (x + x') (y + y') (Y + Y') := by
  have hE : |y + y'| ≤ Y + Y' := (abs_add_le _ _).trans (add_le_add h.1 h'.1)
  refine ⟨hE, approx_round R.nonneg (R.add x x') ?_ hE rfl⟩
  calc |val x + val x' - (y + y')| = |(val x - y) + (val x' - y')| := by ring_nf
    _ ≤ |val x - y| + |val x' - y'| := abs_add_le _ _
    _ ≤ gam u n * (Y + Y') := by rw [mul_add]; exact add_le_add h.2 h'.2

/-- The scaled values of the kernels: at most two roundings. -/
theorem approx_scale (R : Rounding F val u) {alpha : F} {s : F → F} (hs : KernScale alpha s) (v : F) :
    Approx val u 2 (s v) (val alpha * val v) (|val alpha| * |val v|) := by
  have hm : Approx val u 1 (alpha * v) (val alpha * val v) (|val alpha| * |val v|) := (Approx.exact alpha R.nonneg 0).mul R
  rcases hs with rfl | rfl
  · unfold scaleVal
    by_cases ha : (alpha == 1) = true
    · rw [if_pos ha, (R.beq_one alpha).mp ha, one_mul, abs_one, one_mul]
      exact Approx.exact v R.nonneg 2
    · rw [if_neg ha]
      have h0 : Approx val u 1 (0 : F) 0 0 := by
        have := Approx.exact (val := val) (0 : F) R.nonneg 1
        rw [R.zero, abs_zero] at this; exact this
      have := h0.add R hm
      rw [zero_add, zero_add] at this
      exact this
  · exact hm.mono R.nonneg (by omega)

theorem approx_acc (R : Rounding F val u) {W : List (Entry F)} {w : Entry F → F} {v V : Entry F → ℝ} {i : Int} {n : Nat} {x : F} {y Y : ℝ}
    (hx : Approx val u n x y Y) (hw : ∀ e ∈ W, Approx val u n (w e) (v e) (V e)) :
    Approx val u (n + rowCount W i) (acc W w i x) (y + ((W.filter fun e => e.row = i).map v).sum) (Y + ((W.filter fun e => e.row = i).map V).sum) := by
  induction W generalizing x y Y n with
  | nil => simpa [acc, rowCount] using hx
  | cons e W ih =>
    have hstep : acc (e :: W) w i x = acc W w i (if e.row = i then x + w e else x) := rfl
    rw [hstep]
    by_cases he : e.row = i
    · rw [if_pos he, rowCount, List.filter_cons_of_pos (by simpa using he)]
      have := ih (hx.add R (hw e (by simp))) (fun e' he' => (hw e' (List.mem_cons_of_mem _ he')).mono R.nonneg (Nat.le_succ n))
      simp only [List.map_cons, List.sum_cons, List.length_cons]
      rw [← add_assoc y, ← add_assoc Y]
      rw [show n + ((W.filter fun e => decide (e.row = i)).length + 1) = n + 1 + rowCount W i by unfold rowCount; omega]
      exact this
    · rw [if_neg he, rowCount, List.filter_cons_of_neg (by simpa using he)]
      exact ih hx (fun e' he' => hw e' (List.mem_cons_of_mem _ he'))

/-- The heart of C55: the computed entry against the exact one. -/
theorem prodVal_approx (R : Rounding F val u) {alpha beta : F} {s : F → F} (hs : KernScale alpha s) {W : List (Entry F)} {Bm C : Int → Int → F} {i j : Int} :
    Approx val u (rowCount W i + 3) (prodVal alpha beta s W Bm C i j)
      (prodVal (val alpha) (val beta) (fun v => val alpha * v) (mapEntries val W) (fun i j => val (Bm i j)) (fun i j => val (C i j)) i j)
      (prodVal |val alpha| |val beta| (fun v => |val alpha| * v) (mapEntries (fun x => |val x|) W) (fun i j => |val (Bm i j)|)
        (fun i j => |val (C i j)|) i j) := by
  have hba : (val alpha == 0) = (alpha == 0) := by
    rw [Bool.eq_iff_iff, R.beq_zero]; exact beq_iff_eq
  have hbb : (val beta == 0) = (beta == 0) := by
    rw [Bool.eq_iff_iff, R.beq_zero]; exact beq_iff_eq
  have hbx : ∀ x : ℝ, (|x| == 0) = (x == 0) := by
    intro x; rw [Bool.eq_iff_iff, beq_iff_eq, beq_iff_eq, abs_eq_zero]
  have hinit : ∀ n, 1 ≤ n → Approx val u n (if (beta == 0) = true then 0 else beta * C i j) (if (beta == 0) = true then 0 else val beta * val (C i j))
      (if (beta == 0) = true then 0 else |val beta| * |val (C i j)|) := by
    intro n hn
    split_ifs
    · have := Approx.exact (val := val) (0 : F) R.nonneg n
      rw [R.zero, abs_zero] at this; exact this
    · exact ((Approx.exact beta R.nonneg 0).mul R).mono R.nonneg hn
  unfold prodVal
  rw [hbx, hbx, hba, hbb]
  by_cases ha : (alpha == 0) = true
  · rw [if_pos ha, if_pos ha, if_pos ha]
    exact hinit _ (by omega)
  · rw [if_neg ha, if_neg ha, if_neg ha, acc_mapEntries, acc_mapEntries, add_comm _ 3]
    refine approx_acc R (hinit 3 (by omega)) ?_
    intro e _
    exact (approx_scale R hs e.val).mul R

/-- C55. Every entry that `left_spmm` computes in floating-point arithmetic differs from the exact
`alpha * (op(submat(A)) * op(B)) + beta * C` by at most `(1 + u)^(k + 3) - 1` times the same expression with all numbers replaced by their
absolute values, where `k` is the number of stored entries in the corresponding row of `op(submat(A))`. This holds for all schedules,
thread counts and orders in which the entries are stored. Missing: the cases excluded by `Supported`, as in C31. -/
theorem C55_left_spmm_partial (R : Rounding F val u) {env : Env F} (henv : EnvOk env) {A : SpMat F} {E : List (Entry F)}
    (h : SpHolds A E) (hb : spBase A = .Zero) (hr : InRange (spRows A) (spCols A) E) {layout : Layout} {opA opB : Op} {d n m ro co : Int}
    {alpha beta : F} {B b : Buf F} {ldb ldc : Int} {Bm C : Int → Int → F}
    (hK : (alpha == 0) = false → Supported A opA layout opB d m (opEntries opA (window ro co (rowsOf opA d m) (colsOf opA d m) E)))
    (hw : WindowOk A (rowsOf opA d m) (colsOf opA d m) ro co) (hd : 0 ≤ d) (hn : 0 ≤ n) (hm : 0 ≤ m)
    (hldb : LdOk layout ldb (rowsOf opB m n) (colsOf opB m n)) (hldc : LdOk layout ldc d n)
    (hB : (alpha == 0) = false → Holds B layout ldb (rowsOf opB m n) (colsOf opB m n) Bm)
    (hal : Alloc b layout ldc d n) (hC : (beta == 0) = false → Holds b layout ldc d n C) :
    M.wp (leftSpmm env layout opA opB d n m alpha ro co B ldb beta ldc) (A, b) (fun _ s' => ∃ X : Int → Int → F,
      Holds s'.2 layout ldc d n X ∧ SameOutside b s'.2 layout ldc d n ∧
      ∀ i j, InR d n i j →
        |val (X i j) - (val alpha * prodEntry m (opMat opA (subMat ro co (toMat (mapEntries val E)))) (opMat opB fun i j => val (Bm i j)) i j +
            val beta * val (C i j))| ≤
          gam u (rowCount (opEntries opA (window ro co (rowsOf opA d m) (colsOf opA d m) E)) i + 3) *
            (|val alpha| * prodEntry m (opMat opA (subMat ro co (toMat (mapEntries (fun x => |val x|) E)))) (opMat opB fun i j => |val (Bm i j)|) i j +
              |val beta| * |val (C i j)|)) := by
  obtain ⟨s, E1, A', h1, h2, h3, h4, E2, h5, h6⟩ := leftSpmm_run henv.srt h hb hr layout opA opB alpha
  refine M.wp_mono (h6 hK hw hd hn hm hldb hldc hB hal hC env.sched env.nt henv.nt) ?_
  rintro _ s' ⟨rfl, hM⟩
  refine ⟨_, fun i j hij => hM.cells i j hij, hM.sameOutside, fun i j hij => ?_⟩
  have hperm : ∀ {R' : Type} (f : F → R'), (mapEntries f E2).Perm (mapEntries f E) := fun f => h5.map _
  have key := (prodVal_approx R h1 (beta := beta) (W := opEntries opA (window ro co (rowsOf opA d m) (colsOf opA d m) E2)) (Bm := opMat opB Bm) (C := C)
    (i := i) (j := j)).2
  rw [← opEntries_mapEntries, ← opEntries_mapEntries, ← window_mapEntries, ← window_mapEntries, prodVal_eq (Or.inr rfl) ⟨hij.1, hij.2.1⟩,
    prodVal_eq (Or.inr rfl) ⟨hij.1, hij.2.1⟩, subMat_perm (hperm val), subMat_perm (hperm fun x => |val x|)] at key
  have hcount : rowCount (opEntries opA (window ro co (rowsOf opA d m) (colsOf opA d m) E2)) i =
      rowCount (opEntries opA (window ro co (rowsOf opA d m) (colsOf opA d m) E)) i := by
    unfold rowCount
    apply List.Perm.length_eq
    apply List.Perm.filter
    cases opA
    · exact window_perm h5
    · exact (window_perm h5).map _
  rw [hcount] at key
  cases opB <;> exact key

/-- C55 for `right_spmm`, where the second factor is sparse; the number of roundings is determined by the stored entries in the
corresponding column of `op(submat(B))`. Missing: the cases excluded by `Supported`, as in C32. -/
theorem C55_right_spmm_partial (R : Rounding F val u) {env : Env F} (henv : EnvOk env) {B : SpMat F} {E : List (Entry F)}
    (h : SpHolds B E) (hb : spBase B = .Zero) (hr : InRange (spRows B) (spCols B) E) {layout : Layout} {opA opB : Op} {m d n iOff jOff : Int}
    {alpha beta : F} {A b : Buf F} {lda ldc : Int} {Am C : Int → Int → F}
    (hK : (alpha == 0) = false →
      Supported B opB.flip layout.flip opA d n (opEntries opB.flip (window iOff jOff (rowsOf opB n d) (colsOf opB n d) E)))
    (hw : WindowOk B (rowsOf opB n d) (colsOf opB n d) iOff jOff) (hm : 0 ≤ m) (hd : 0 ≤ d) (hn : 0 ≤ n)
    (hlda : LdOk layout lda (rowsOf opA m n) (colsOf opA m n)) (hldc : LdOk layout ldc m d)
    (hA : (alpha == 0) = false → Holds A layout lda (rowsOf opA m n) (colsOf opA m n) Am)
    (hal : Alloc b layout ldc m d) (hC : (beta == 0) = false → Holds b layout ldc m d C) :
    M.wp (rightSpmm env layout opA opB m d n alpha A lda iOff jOff beta ldc) (B, b) (fun _ s' => ∃ X : Int → Int → F,
      Holds s'.2 layout ldc m d X ∧ SameOutside b s'.2 layout ldc m d ∧
      ∀ i j, InR m d i j →
        |val (X i j) - (val alpha * prodEntry n (opMat opA fun i j => val (Am i j)) (opMat opB (subMat iOff jOff (toMat (mapEntries val E)))) i j +
            val beta * val (C i j))| ≤
          gam u (rowCount (opEntries opB.flip (window iOff jOff (rowsOf opB n d) (colsOf opB n d) E)) j + 3) *
            (|val alpha| * prodEntry n (opMat opA fun i j => |val (Am i j)|)
                (opMat opB (subMat iOff jOff (toMat (mapEntries (fun x => |val x|) E)))) i j +
              |val beta| * |val (C i j)|)) := by
  have hfl : ∀ {b : Buf F} {ld m n : Int} {A : Int → Int → F}, Holds b layout.flip ld m n A ↔ Holds b layout ld n m (fun i j => A j i) := by
    intro b ld m n A
    constructor
    · intro h i j hij
      rw [← addr_flip]; exact h j i ⟨hij.2.2.1, hij.2.2.2, hij.1, hij.2.1⟩
    · intro h i j hij
      rw [addr_flip]; exact h j i ⟨hij.2.2.1, hij.2.2.2, hij.1, hij.2.1⟩
  have hro : rowsOf opA n m = colsOf opA m n := by cases opA <;> rfl
  have hco : colsOf opA n m = rowsOf opA m n := by cases opA <;> rfl
  have hldf : ∀ {ld r c : Int}, LdOk layout ld r c → LdOk layout.flip ld c r := by intro ld r c h; cases layout <;> exact h
  have hl := C55_left_spmm_partial R henv h hb hr (layout := layout.flip) (opA := opB.flip) (opB := opA) (d := d) (n := m) (m := n) (ro := iOff)
    (co := jOff) (alpha := alpha) (beta := beta) (B := A) (b := b) (ldb := lda) (ldc := ldc) (Bm := fun i j => Am j i) (C := fun i j => C j i)
    (by rw [opEntries_flip_window]; exact hK) (by cases opB <;> exact hw) hd hm hn (by rw [hro, hco]; exact hldf hlda) (hldf hldc)
    (fun ha => by rw [hro, hco, hfl]; exact hA ha)
    (fun i j hij => by rw [addr_flip]; exact hal j i ⟨hij.2.2.1, hij.2.2.2, hij.1, hij.2.1⟩)
    (fun hb => by rw [hfl]; exact hC hb)
  unfold rightSpmm
  refine M.wp_mono hl ?_
  rintro _ s' ⟨X, h1, h2, h3⟩
  refine ⟨fun i j => X j i, hfl.mp h1, ?_, fun i j hij => ?_⟩
  · intro p hp
    refine h2 p fun i j hij => ?_
    rw [addr_flip]; exact hp j i ⟨hij.2.2.1, hij.2.2.2, hij.1, hij.2.1⟩
  · have := h3 j i ⟨hij.2.2.1, hij.2.2.2, hij.1, hij.2.1⟩
    have hp : ∀ (f : F → ℝ) , prodEntry n (opMat opB.flip (subMat iOff jOff (toMat (mapEntries f E)))) (opMat opA fun i j => f (Am j i)) j i =
        prodEntry n (opMat opA fun i j => f (Am i j)) (opMat opB (subMat iOff jOff (toMat (mapEntries f E)))) i j := by
      intro f
      unfold prodEntry
      refine Finset.sum_congr rfl fun k _ => ?_
      rw [mul_comm]
      cases opA <;> cases opB <;> rfl
    rw [opEntries_flip_window, hp val, hp (fun x => |val x|)] at this
    exact this

/-! ## Sketching with sparse operators -/

section
variable {N : Nat} {K W WS Q : Type} [Field Q] [LinearOrder Q] [FloorRing Q] [Neg F]

theorem lskgesView_rounding (R : Rounding F val u) {E : SkEnv N K W WS Q F} (hE : SkEnvOk E) {S : SparseSkOp N K F} {L : List (Entry F)}
    (hL : L ≠ []) (h : OpHolds S L)
    (hr : InRange S.nRows S.nCols L) {layout : Layout} {opS opA : Op} {d n m ro co : Int} {alpha beta : F} {A b : Buf F} {lda ldb : Int}
    {Am C : Int → Int → F}
    (hK : (alpha == 0) = false → CooOk L.length m (opEntries opS (window ro co (rowsOf opS d m) (colsOf opS d m) L)))
    (hw1 : rowsOf opS d m ≤ S.nRows) (hw2 : colsOf opS d m ≤ S.nCols) (hd : 0 ≤ d) (hn : 0 ≤ n) (hm : 0 ≤ m)
    (hlda : LdOk layout lda (rowsOf opA m n) (colsOf opA m n)) (hldb : LdOk layout ldb d n)
    (hA : (alpha == 0) = false → Holds A layout lda (rowsOf opA m n) (colsOf opA m n) Am)
    (hal : Alloc b layout ldb d n) (hC : (beta == 0) = false → Holds b layout ldb d n C) :
    M.wp (lskgesView E layout opS opA d n m alpha ro co A lda beta ldb) (S, b) (fun _ s' => ∃ X : Int → Int → F,
      Holds s'.2 layout ldb d n X ∧ SameOutside b s'.2 layout ldb d n ∧
      ∀ i j, InR d n i j →
        |val (X i j) - (val alpha * prodEntry m (opMat opS (subMat ro co (toMat (mapEntries val L)))) (opMat opA fun i j => val (Am i j)) i j +
            val beta * val (C i j))| ≤
          gam u (rowCount (opEntries opS (window ro co (rowsOf opS d m) (colsOf opS d m) L)) i + 3) *
            (|val alpha| * prodEntry m (opMat opS (subMat ro co (toMat (mapEntries (fun x => |val x|) L)))) (opMat opA fun i j => |val (Am i j)|) i j +
              |val beta| * |val (C i j)|)) := by
  obtain ⟨s, e, h1, h2⟩ := cooViewOfSkop_run (G := E.GS) (sqrt := E.sqrt) (order := E.order) hL h
  unfold lskgesView
  simp only [M.wp_bind, onSp, M.wp_zoom]
  refine ⟨_, _, e, ?_⟩
  simp only [onSkArrays, M.wp_zoom]
  refine M.wp_mono (C55_left_spmm_partial R hE.env (A := .coo ⟨S.nRows, S.nCols, false, S.nnz, .Zero, S.vals, S.rows, S.cols, s⟩) ⟨h1, h2⟩ rfl hr
    (layout := layout) (opA := opS) (opB := opA) (d := d) (n := n) (m := m) (ro := ro) (co := co) (alpha := alpha) (beta := beta)
    (fun ha => by show CooOk S.nnz m _; rw [show S.nnz = _ from h1.nnz]; exact hK ha) ⟨hw1, hw2⟩ hd hn hm hlda hldb hA hal hC) ?_
  rintro _ ⟨A', b'⟩ hk
  cases A' <;> exact hk

theorem rskgesView_rounding (R : Rounding F val u) {E : SkEnv N K W WS Q F} (hE : SkEnvOk E) {S : SparseSkOp N K F} {L : List (Entry F)}
    (hL : L ≠ []) (h : OpHolds S L)
    (hr : InRange S.nRows S.nCols L) {layout : Layout} {opA opS : Op} {m d n ro co : Int} {alpha beta : F} {A b : Buf F} {lda ldb : Int}
    {Am C : Int → Int → F}
    (hK : (alpha == 0) = false → CooOk L.length n (opEntries opS.flip (window ro co (rowsOf opS n d) (colsOf opS n d) L)))
    (hw1 : rowsOf opS n d ≤ S.nRows) (hw2 : colsOf opS n d ≤ S.nCols) (hm : 0 ≤ m) (hd : 0 ≤ d) (hn : 0 ≤ n)
    (hlda : LdOk layout lda (rowsOf opA m n) (colsOf opA m n)) (hldb : LdOk layout ldb m d)
    (hA : (alpha == 0) = false → Holds A layout lda (rowsOf opA m n) (colsOf opA m n) Am)
    (hal : Alloc b layout ldb m d) (hC : (beta == 0) = false → Holds b layout ldb m d C) :
    M.wp (rskgesView E layout opA opS m d n alpha A lda ro co beta ldb) (S, b) (fun _ s' => ∃ X : Int → Int → F,
      Holds s'.2 layout ldb m d X ∧ SameOutside b s'.2 layout ldb m d ∧
      ∀ i j, InR m d i j →
        |val (X i j) - (val alpha * prodEntry n (opMat opA fun i j => val (Am i j)) (opMat opS (subMat ro co (toMat (mapEntries val L)))) i j +
            val beta * val (C i j))| ≤
          gam u (rowCount (opEntries opS.flip (window ro co (rowsOf opS n d) (colsOf opS n d) L)) j + 3) *
            (|val alpha| * prodEntry n (opMat opA fun i j => |val (Am i j)|)
                (opMat opS (subMat ro co (toMat (mapEntries (fun x => |val x|) L)))) i j +
              |val beta| * |val (C i j)|)) := by
  obtain ⟨s, e, h1, h2⟩ := cooViewOfSkop_run (G := E.GS) (sqrt := E.sqrt) (order := E.order) hL h
  unfold rskgesView
  simp only [M.wp_bind, onSp, M.wp_zoom]
  refine ⟨_, _, e, ?_⟩
  simp only [onSkArrays, M.wp_zoom]
  refine M.wp_mono (C55_right_spmm_partial R hE.env (B := .coo ⟨S.nRows, S.nCols, false, S.nnz, .Zero, S.vals, S.rows, S.cols, s⟩) ⟨h1, h2⟩ rfl hr
    (layout := layout) (opA := opA) (opB := opS) (m := m) (d := d) (n := n) (iOff := ro) (jOff := co) (alpha := alpha) (beta := beta)
    (fun ha => by show CooOk S.nnz n _; rw [show S.nnz = _ from h1.nnz]; exact hK ha) ⟨hw1, hw2⟩ hm hd hn hlda hldb hA hal hC) ?_
  rintro _ ⟨A', b'⟩ hk
  cases A' <;> exact hk

/-- C55 for `sketch_general` from the left with a sparse operator, filled or not, that consists of the entries `L`. Missing: the
entries excluded by `CooOk`, as in C37. For dense operators see C100. -/
theorem C55_sketch_left_partial (R : Rounding F val u) {E : SkEnv N K W WS Q F} (hE : SkEnvOk E) {S : SparseSkOp N K F} {L : List (Entry F)}
    (h : SparseIs E S L) (hr : InRange S.nRows S.nCols L) {layout : Layout} {opS opA : Op} {d n m ro co : Int} {alpha beta : F} {A b : Buf F}
    {lda ldb : Int} {Am C : Int → Int → F}
    (hw : InOp S.nRows S.nCols (rowsOf opS d m) (colsOf opS d m) ro co)
    (hK : (alpha == 0) = false → CooOk L.length m (opEntries opS (window ro co (rowsOf opS d m) (colsOf opS d m) L)))
    (hd : 0 ≤ d) (hn : 0 ≤ n) (hm : 0 ≤ m)
    (hlda : LdOk layout lda (rowsOf opA m n) (colsOf opA m n)) (hldb : LdOk layout ldb d n)
    (hA : (alpha == 0) = false → Holds A layout lda (rowsOf opA m n) (colsOf opA m n) Am)
    (hal : Alloc b layout ldb d n) (hC : (beta == 0) = false → Holds b layout ldb d n C) :
    M.wp (sketchGeneralL E layout opS opA d n m alpha ro co A lda beta ldb) (.sparse S, b) (fun _ s' => ∃ X : Int → Int → F,
      Holds s'.2 layout ldb d n X ∧ SameOutside b s'.2 layout ldb d n ∧
      ∀ i j, InR d n i j →
        |val (X i j) - (val alpha * prodEntry m (opMat opS (subMat ro co (toMat (mapEntries val L)))) (opMat opA fun i j => val (Am i j)) i j +
            val beta * val (C i j))| ≤
          gam u (rowCount (opEntries opS (window ro co (rowsOf opS d m) (colsOf opS d m) L)) i + 3) *
            (|val alpha| * prodEntry m (opMat opS (subMat ro co (toMat (mapEntries (fun x => |val x|) L)))) (opMat opA fun i j => |val (Am i j)|) i j +
              |val beta| * |val (C i j)|)) := by
  obtain ⟨h1, h2⟩ := h
  obtain ⟨w1, w2, w3, w4⟩ := hw
  unfold sketchGeneralL
  rw [M.wp_bind, M.wp_get]
  simp only [onSkSparse, M.wp_zoom, lskges, M.wp_bind, M.wp_get]
  by_cases hnn : S.nnz < 0
  · rw [if_pos hnn] at h2
    obtain ⟨S', e, g1, g2, g3⟩ := h2
    rw [if_pos hnn]
    simp only [filledCopy, M.wp_bind, M.wp_onLocal, M.wp_pure, M.wp_ubIf, M.wp_zoom]
    refine ⟨_, _, e, by have := opHolds_nnz g1; omega, ?_⟩
    have h3' : InRange S'.nRows S'.nCols L := by rw [g2, g3]; exact hr
    exact lskgesView_rounding R hE h1 g1 h3' hK (by omega) (by omega) hd hn hm hlda hldb hA hal hC
  · rw [if_neg hnn] at h2 ⊢
    exact lskgesView_rounding R hE h1 h2 hr hK (by omega) (by omega) hd hn hm hlda hldb hA hal hC

/-- C55 for `sketch_general` from the right with a filled sparse operator that consists of the entries `L`. Missing:
operators that have not been filled (see C38) and the entries excluded by `CooOk`, as in C38. For dense operators see C100. -/
theorem C55_sketch_right_partial (R : Rounding F val u) {E : SkEnv N K W WS Q F} (hE : SkEnvOk E) {S : SparseSkOp N K F} {L : List (Entry F)}
    (hnn : 0 ≤ S.nnz) (h : SparseIs E S L) (hr : InRange S.nRows S.nCols L) {layout : Layout} {opA opS : Op} {m d n ro co : Int} {alpha beta : F}
    {A b : Buf F} {lda ldb : Int} {Am C : Int → Int → F}
    (hw : InOp S.nRows S.nCols (rowsOf opS n d) (colsOf opS n d) ro co)
    (hK : (alpha == 0) = false → CooOk L.length n (opEntries opS.flip (window ro co (rowsOf opS n d) (colsOf opS n d) L)))
    (hm : 0 ≤ m) (hd : 0 ≤ d) (hn : 0 ≤ n)
    (hlda : LdOk layout lda (rowsOf opA m n) (colsOf opA m n)) (hldb : LdOk layout ldb m d)
    (hA : (alpha == 0) = false → Holds A layout lda (rowsOf opA m n) (colsOf opA m n) Am)
    (hal : Alloc b layout ldb m d) (hC : (beta == 0) = false → Holds b layout ldb m d C) :
    M.wp (sketchGeneralR E layout opA opS m d n alpha A lda ro co beta ldb) (.sparse S, b) (fun _ s' => ∃ X : Int → Int → F,
      Holds s'.2 layout ldb m d X ∧ SameOutside b s'.2 layout ldb m d ∧
      ∀ i j, InR m d i j →
        |val (X i j) - (val alpha * prodEntry n (opMat opA fun i j => val (Am i j)) (opMat opS (subMat ro co (toMat (mapEntries val L)))) i j +
            val beta * val (C i j))| ≤
          gam u (rowCount (opEntries opS.flip (window ro co (rowsOf opS n d) (colsOf opS n d) L)) j + 3) *
            (|val alpha| * prodEntry n (opMat opA fun i j => |val (Am i j)|)
                (opMat opS (subMat ro co (toMat (mapEntries (fun x => |val x|) L)))) i j +
              |val beta| * |val (C i j)|)) := by
  obtain ⟨h1, h2⟩ := h
  obtain ⟨w1, w2, w3, w4⟩ := hw
  unfold sketchGeneralR
  rw [M.wp_bind, M.wp_get]
  have hnn' : ¬ S.nnz < 0 := by omega
  rw [if_neg hnn'] at h2
  simp only [onSkSparse, M.wp_zoom, rskges, M.wp_bind, M.wp_get, M.wp_when]
  refine ⟨fun h => absurd h hnn', fun _ => ?_⟩
  exact rskgesView_rounding R hE h1 h2 hr hK (by omega) (by omega) hm hd hn hlda hldb hA hal hC

end

end

/-! ## Binary floating-point numbers meet the model -/

/-- `x` is a floating-point number with `p` significant bits. (The exponent is unbounded.) -/
def IsFl (p : Nat) (x : ℝ) : Prop := ∃ k e : ℤ, |k| ≤ 2 ^ p ∧ x = k * 2 ^ e

/-- The floating-point numbers with `p` significant bits. -/
def Fl (p : Nat) : Type := { x : ℝ // IsFl p x }

/-- A nearest floating-point number. -/
noncomputable def fl (p : Nat) (x : ℝ) : ℝ := round (x / 2 ^ (Int.log 2 |x| - p + 1)) * 2 ^ (Int.log 2 |x| - p + 1)

theorem fl_isFl (p : Nat) (x : ℝ) : IsFl p (fl p x) := by
  refine ⟨_, _, ?_, rfl⟩
  have h1 := Int.lt_zpow_succ_log_self (R := ℝ) (b := 2) (by omega) |x|
  have hpos : (0 : ℝ) < 2 ^ (Int.log 2 |x| - p + 1) := by positivity
  have h2 : |x / 2 ^ (Int.log 2 |x| - p + 1)| < 2 ^ p := by
    rw [abs_div, abs_of_pos hpos, div_lt_iff₀ hpos, ← zpow_natCast, ← zpow_add₀ (by norm_num)]
    rw [show (p : ℤ) + (Int.log 2 |x| - p + 1) = Int.log 2 |x| + 1 by ring]
    exact_mod_cast h1
  have h3 := abs_sub_round (x / 2 ^ (Int.log 2 |x| - p + 1))
  generalize x / 2 ^ (Int.log 2 |x| - p + 1) = y at *
  rw [abs_le] at h3 ⊢
  rw [abs_lt] at h2
  constructor
  · have : (-2 ^ p - 1 : ℝ) < (round y : ℝ) := by linarith [h3.2, h2.1]
    have : (-2 ^ p - 1 : ℤ) < round y := by exact_mod_cast this
    omega
  · have : (round y : ℝ) < 2 ^ p + 1 := by linarith [h3.1, h2.2]
    have : round y < 2 ^ p + 1 := by exact_mod_cast this
    omega

theorem fl_error (p : Nat) (x : ℝ) : |fl p x - x| ≤ 2⁻¹ ^ p * |x| := by
  by_cases hx : x = 0
  · simp [fl, hx]
  have h1 := Int.zpow_log_le_self (R := ℝ) (b := 2) (by omega) (abs_pos.mpr hx)
  have hpos : (0 : ℝ) < 2 ^ (Int.log 2 |x| - p + 1) := by positivity
  have h3 := abs_sub_round (x / 2 ^ (Int.log 2 |x| - p + 1))
  have h4 : |fl p x - x| = |x / 2 ^ (Int.log 2 |x| - p + 1) - round (x / 2 ^ (Int.log 2 |x| - p + 1))| * 2 ^ (Int.log 2 |x| - p + 1) := by
    rw [← abs_of_pos hpos, ← abs_mul, abs_of_pos hpos, sub_mul, div_mul_cancel₀ _ hpos.ne', abs_sub_comm]
    rfl
  rw [h4]
  have h5 : (1 / 2 : ℝ) * 2 ^ (Int.log 2 |x| - p + 1) = 2⁻¹ ^ p * 2 ^ Int.log 2 |x| := by
    rw [zpow_add₀ (by norm_num), zpow_sub₀ (by norm_num), zpow_natCast, zpow_one, inv_pow]
    field_simp
  calc _ ≤ 1 / 2 * 2 ^ (Int.log 2 |x| - p + 1) := mul_le_mul_of_nonneg_right h3 hpos.le
    _ = 2⁻¹ ^ p * 2 ^ Int.log 2 |x| := h5
    _ ≤ 2⁻¹ ^ p * |x| := mul_le_mul_of_nonneg_left (by exact_mod_cast h1) (by positivity)

namespace Fl
variable {p : Nat}

instance : Zero (Fl p) := ⟨⟨0, 0, 0, by simp, by simp⟩⟩
instance : One (Fl p) := ⟨⟨1, 1, 0, by simpa using one_le_pow₀ (by norm_num), by simp⟩⟩
noncomputable instance : Add (Fl p) := ⟨fun x y => ⟨fl p (x.1 + y.1), fl_isFl p _⟩⟩
noncomputable instance : Mul (Fl p) := ⟨fun x y => ⟨fl p (x.1 * y.1), fl_isFl p _⟩⟩
instance : Neg (Fl p) := ⟨fun x => ⟨-x.1, by obtain ⟨k, e, h1, h2⟩ := x.2; exact ⟨-k, e, by rwa [abs_neg], by rw [h2]; push_cast; ring⟩⟩⟩
noncomputable instance : DecidableEq (Fl p) := Classical.decEq _

/-- Arithmetic with `p` significant bits has unit roundoff `2^-p`: 53 bits for `double`, 24 bits for `float`. -/
theorem rounding (p : Nat) : Rounding (Fl p) Subtype.val (2⁻¹ ^ p) where
  nonneg := by positivity
  zero := rfl
  one := rfl
  add x y := fl_error p _
  mul x y := fl_error p _
  beq_zero x := by rw [beq_iff_eq]; exact ⟨fun h => by rw [h]; rfl, fun h => Subtype.ext h⟩
  beq_one x := by rw [beq_iff_eq]; exact ⟨fun h => by rw [h]; rfl, fun h => Subtype.ext h⟩

/-- The floating-point number `1 + 2^-52`. -/
noncomputable def next : Fl 53 := ⟨1 + 2⁻¹ ^ 52, 2 ^ 52 + 1, -52, by norm_num [abs_of_nonneg], by norm_num⟩

end Fl

/-- Sums of floating-point numbers of this kind are not exact. -/
example : ¬ ∀ x y : Fl 1, (x + y : Fl 1).1 = x.1 + y.1 := by
  intro h
  have h2 : (1 + 1 : Fl 1).1 = 2 := by rw [h]; exact one_add_one_eq_two
  have h3 : ((1 + 1) + ((1 + 1) + 1) : Fl 1).1 = 5 := (h _ _).trans (by rw [h (1 + 1) 1, h2]; show (2 : ℝ) + (2 + 1) = 5; norm_num)
  obtain ⟨k, e, hk, he⟩ := ((1 + 1) + ((1 + 1) + 1) : Fl 1).2
  rw [h3] at he
  have hk' : k = -2 ∨ k = -1 ∨ k = 0 ∨ k = 1 ∨ k = 2 := by rw [abs_le] at hk; omega
  have hz : ∀ e : ℤ, (5 : ℝ) ≠ 2 ^ e := by
    intro e he
    rcases le_or_gt 3 e with h | h
    · have := zpow_le_zpow_right₀ (show (1 : ℝ) ≤ 2 by norm_num) h; norm_num at this; linarith
    · have := zpow_le_zpow_right₀ (show (1 : ℝ) ≤ 2 by norm_num) (show e ≤ 2 by omega); norm_num at this; linarith
  have hp : (0 : ℝ) < 2 ^ e := by positivity
  rcases hk' with rfl | rfl | rfl | rfl | rfl
  · push_cast at he; linarith
  · push_cast at he; linarith
  · push_cast at he; linarith
  · exact hz e (by simpa using he)
  · refine hz (e + 1) ?_
    rw [zpow_add₀ (by norm_num), zpow_one]; push_cast at he; linarith

/-- An environment for double-precision products. -/
def flEnv : Env (Fl 53) := ⟨fun lt l => l.mergeSort fun a b => !lt b a, [2, 0, 0, 1, 2, 1], 4⟩

/-- A 3 x 3 matrix with duplicates. -/
noncomputable def flE : List (Entry (Fl 53)) := [⟨2, 0, Fl.next⟩, ⟨0, 0, 1⟩, ⟨1, 2, Fl.next⟩, ⟨2, 1, -Fl.next⟩, ⟨1, 2, 1⟩]

/-- The hypotheses of C55 are met by the product of the transpose of a window of an unsorted COO matrix of double-precision numbers with
duplicates and a 2 x 2 matrix. -/
example : Rounding (Fl 53) Subtype.val (2⁻¹ ^ 53) ∧ EnvOk flEnv ∧ SpHolds (.coo (cooOf 3 3 .Zero flE)) flE ∧ InRange 3 3 flE ∧
    Supported (.coo (cooOf 3 3 .Zero flE)) .Trans .ColMajor .NoTrans 3 2 (opEntries .Trans (window 1 0 2 3 flE)) ∧
    WindowOk (.coo (cooOf 3 3 .Zero flE)) 2 3 1 0 ∧
    Holds (Buf.ofList [1, Fl.next, Fl.next, Fl.next]) .ColMajor 2 2 2 (fun i j => if i = 0 ∧ j = 0 then 1 else Fl.next) ∧
    Alloc (Buf.alloc (Fl 53) 6) .ColMajor 3 3 2 ∧ rowCount (opEntries .Trans (window 1 0 2 3 flE)) 2 = 2 := by
  refine ⟨Fl.rounding 53, ⟨mergeSort_sortOk, by decide⟩, ⟨cooOf_is _ _ _ _, trivial⟩, by simp [InRange, flE], Or.inl ⟨by decide, fun _ _ => ?_⟩,
    by simp [WindowOk, cooOf], ?_, ?_, ?_⟩
  · exact ⟨⟨0, 1, Fl.next⟩, by simp [window, flE, opEntries, Entry.swap], by decide⟩
  · intro i j hij
    obtain ⟨h1, h2, h3, h4⟩ := hij
    obtain rfl | rfl : i = 0 ∨ i = 1 := by omega
    all_goals obtain rfl | rfl : j = 0 ∨ j = 1 := by omega
    all_goals simp [addr, Buf.ofList]
  · intro i j hij
    simp only [InR] at hij
    have : 0 ≤ addr .ColMajor 3 i j ∧ addr .ColMajor 3 i j < 6 := by simp only [addr]; omega
    simp only [Buf.alloc]
    rw [if_pos this]; simp
  · simp [rowCount, window, flE, opEntries, Entry.swap]

end RB
