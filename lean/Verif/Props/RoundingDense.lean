import Verif.Props.Rounding
import Verif.Props.SketchApi

/-!
# C100: rounding errors of sketches with dense operators

As in C55, `F` is any type of numbers with the standard model of floating-point arithmetic. The products are those of the modelled `gemm`
(`Model/Blas.lean`), which adds the products of an entry in the order of the index; an optimised BLAS may add them in another order.
-/

namespace RB
open Spec
variable {N : Nat} {K W WS R T : Type}

section
variable [Zero T] [Add T] [Mul T] [BEq T]

/-- The computed scalar product of row `i` and column `j`. -/
def dotVal (k : Nat) (A B : Int → Int → T) (i j : Int) : T :=
  match k with
  | 0 => 0
  | k + 1 => dotVal k A B i j + A i k * B k j

/-- The computed product, scaled by `alpha`. -/
def gemmAcc (alpha : T) (k : Int) (A B : Int → Int → T) (i j : Int) : T :=
  if alpha == 0 then 0 else alpha * dotVal k.toNat A B i j

/-- The computed entry of `alpha * A * B + beta * C`. -/
def gemmVal (alpha beta : T) (k : Int) (A B C : Int → Int → T) (i j : Int) : T :=
  if beta == 0 then gemmAcc alpha k A B i j else gemmAcc alpha k A B i j + beta * C i j

theorem blasGemm_val {layout : Layout} {opA opB : Op} {m n k : Int} {alpha beta : T} {A B b : Buf T}
    {a0 lda b0 ldb ldc : Int} {Am Bm C : Int → Int → T} (hm : 0 ≤ m) (hn : 0 ≤ n) (hk : 0 ≤ k)
    (hlda : LdOk layout lda (rowsOf opA m k) (colsOf opA m k)) (hldb : LdOk layout ldb (rowsOf opB k n) (colsOf opB k n))
    (hldc : LdOk layout ldc m n)
    (hA : (alpha == 0) = false → ∀ i l, InR m k i l → A (a0 + opIndex layout lda opA i l) = .val (Am i l))
    (hB : (alpha == 0) = false → ∀ l j, InR k n l j → B (b0 + opIndex layout ldb opB l j) = .val (Bm l j))
    (hal : Alloc b layout ldc m n) (hC : (beta == 0) = false → Holds b layout ldc m n C) :
    M.wp (blasGemm layout opA opB m n k alpha A a0 lda B b0 ldb beta 0 ldc) b (fun _ b' =>
      MatSt b (addr layout ldc) m n (fun i j => .val (gemmVal alpha beta k Am Bm C i j)) b') := by
  have hinj := adInj_addr hldc
  have hcheck : ∀ {c : Prop} [Decidable c] {s : Buf T} {Q : Unit → Buf T → Prop}, c → (M.wp (blasCheck c) s Q ↔ Q () s) := by
    intro c _ s Q hc
    unfold blasCheck; rw [if_pos hc, M.wp_pure]
  unfold blasGemm
  rw [M.wp_bind, hcheck hm, M.wp_bind, hcheck hn, M.wp_bind, hcheck hk]
  have e1 : (if layout = .ColMajor then (dimsBeforeOp m k opA).1 ≤ lda else (dimsBeforeOp m k opA).2 ≤ lda) := by
    cases layout <;> cases opA <;> simpa [dimsBeforeOp, LdOk, rowsOf, colsOf] using hlda
  have e2 : (if layout = .ColMajor then (dimsBeforeOp k n opB).1 ≤ ldb else (dimsBeforeOp k n opB).2 ≤ ldb) := by
    cases layout <;> cases opB <;> simpa [dimsBeforeOp, LdOk, rowsOf, colsOf] using hldb
  have e3 : (if layout = .ColMajor then m ≤ ldc else n ≤ ldc) := by
    cases layout <;> simpa [LdOk] using hldc
  rw [M.wp_bind, hcheck e1, M.wp_bind, hcheck e2, M.wp_bind, hcheck e3]
  let R : Int → Int → T := gemmVal alpha beta k Am Bm C
  refine M.wp_forI (fun i b' => MatSt b (addr layout ldc) m n (fun r c => if r < i then .val (R r c) else b (addr layout ldc r c)) b') hm
    ((MatSt.init b _ m n).congr fun r c hrc => by rw [if_neg (by have := hrc.1; omega)]) ?_
    (fun b' h => h.congr fun r c hrc => by rw [if_pos hrc.2.1])
  intro i b1 i0 i1 h1
  refine M.wp_forI (fun j b' => MatSt b (addr layout ldc) m n (fun r c => if r < i ∨ (r = i ∧ c < j) then .val (R r c) else b (addr layout ldc r c)) b') hn
    (h1.congr fun r c hrc => by
      have : (r < i ∨ r = i ∧ c < 0) ↔ r < i := by have := hrc.2.2.1; omega
      simp only [this]) ?_
    (fun b' h => h.congr fun r c hrc => by
      have : (r < i ∨ r = i ∧ c < n) ↔ r < i + 1 := by have := hrc.2.2.2; omega
      simp only [this])
  intro j b2 j0 j1 h2
  have hij : InR m n i j := ⟨i0, i1, j0, j1⟩
  rw [strides_at, zero_add]
  have hcell : b2 (addr layout ldc i j) = b (addr layout ldc i j) := by
    rw [h2.cells i j hij, if_neg (by omega)]
  have hfin : ∀ v, v = R i j → M.wp (M.wr (addr layout ldc i j) v) b2 (fun _ s' => MatSt b (addr layout ldc) m n
      (fun r c => if r < i ∨ (r = i ∧ c < j + 1) then .val (R r c) else b (addr layout ldc r c)) s') := by
    rintro v rfl
    refine h2.wp_wr hinj hij (by rw [if_neg (by omega)]; exact hal i j hij) ?_
    intro b'' h3
    refine h3.congr fun r c hrc => ?_
    by_cases he : r = i ∧ c = j
    · obtain ⟨rfl, rfl⟩ := he
      rw [if_pos ⟨rfl, rfl⟩, if_pos (by omega)]
    · rw [if_neg he]
      have : (r < i ∨ r = i ∧ c < j) ↔ (r < i ∨ r = i ∧ c < j + 1) := by
        constructor <;> rintro (h | h)
        · exact Or.inl h
        · exact Or.inr ⟨h.1, by omega⟩
        · exact Or.inl h
        · refine Or.inr ⟨h.1, ?_⟩
          have : c ≠ j := fun hc => he ⟨h.1, hc⟩
          omega
      simp only [this]
  have hjp : ∀ p, gemmAcc alpha k Am Bm i j = p → M.wp (if (beta == 0) = true then M.wr (addr layout ldc i j) p else do
        let c ← M.rd (addr layout ldc i j)
        M.wr (addr layout ldc i j) (p + beta * c)) b2 (fun _ s' => MatSt b (addr layout ldc) m n
      (fun r c => if r < i ∨ (r = i ∧ c < j + 1) then .val (R r c) else b (addr layout ldc r c)) s') := by
    rintro p rfl
    cases hb : (beta == 0) with
    | true =>
      rw [if_pos rfl]
      exact hfin _ (by simp only [R, gemmVal, hb, if_true])
    | false =>
      rw [if_neg (by simp), M.wp_bind, M.wp_rd]
      exact ⟨_, by rw [hcell]; exact hC hb i j hij, hfin _ (by simp only [R, gemmVal, hb]; rfl)⟩
  dsimp only
  cases ha : (alpha == 0) with
  | true =>
    rw [if_pos rfl, M.wp_bind, M.wp_pure]
    exact hjp _ (by simp only [gemmAcc, ha, if_true])
  | false =>
    rw [if_neg (by simp), M.wp_bind]
    refine M.wp_foldI (fun l acc b' => acc = dotVal l.toNat Am Bm i j ∧ b' = b2) hk ⟨rfl, rfl⟩ ?_ ?_
    · rintro l acc b' l0 l1 ⟨rfl, rfl⟩
      rw [M.wp_bind, M.wp_lift]
      refine ⟨_, Buf.rd_val (hA ha i l ⟨i0, i1, l0, l1⟩), ?_⟩
      rw [M.wp_bind, M.wp_lift]
      refine ⟨_, Buf.rd_val (hB ha l j ⟨l0, l1, j0, j1⟩), ?_⟩
      rw [M.wp_pure]
      refine ⟨?_, rfl⟩
      have : (l + 1).toNat = l.toNat + 1 := by omega
      rw [this, dotVal, Int.toNat_of_nonneg l0]
    · rintro acc b' ⟨rfl, rfl⟩
      rw [M.wp_bind, M.wp_pure]
      exact hjp _ (by simp only [gemmAcc, ha]; rfl)

theorem lskge3View_val {layout : Layout} {opS opA : Op} {d n m : Int} {alpha beta : T} {S : BFO T} {sb : Buf T} {ro co : Int} {A b : Buf T}
    {lda ldb : Int} {Sm Am C : Int → Int → T} (hbuf : S.buff = some sb)
    (hS : (alpha == 0) = false → Holds sb S.layout (tightLd S.layout S.nRows S.nCols) S.nRows S.nCols Sm)
    (hw : InOp S.nRows S.nCols (rowsOf opS d m) (colsOf opS d m) ro co) (hd : 0 ≤ d) (hn : 0 ≤ n) (hm : 0 ≤ m)
    (hlda : LdOk layout lda (rowsOf opA m n) (colsOf opA m n)) (hldb : LdOk layout ldb d n)
    (hA : (alpha == 0) = false → Holds A layout lda (rowsOf opA m n) (colsOf opA m n) Am)
    (hal : Alloc b layout ldb d n) (hC : (beta == 0) = false → Holds b layout ldb d n C) :
    M.wp (lskge3View layout opS opA d n m alpha S ro co A lda beta ldb) b (fun _ b' =>
      MatSt b (addr layout ldb) d n (fun i j => .val (gemmVal alpha beta m (opMat opS (subMat ro co Sm)) (opMat opA Am) C i j)) b') := by
  unfold lskge3View BFO.getBuff
  rw [hbuf]
  simp only [M.wp_bind, M.wp_pure, M.wp_require, dimsBeforeOp_eq, ldOk_iff]
  refine ⟨hw.2.2.1, hw.2.2.2, hlda, hldb, ?_⟩
  refine blasGemm_val hd hn hm (opWindow_ld hw) hlda hldb (fun ha i l hil => opWindow_cells (hS ha) hw hil) (fun ha l j hlj => ?_) hal hC
  obtain ⟨l0, l1, j0, j1⟩ := hlj
  rw [zero_add, opIndex_eq]
  cases opA with
  | NoTrans => exact hA ha l j ⟨l0, l1, j0, j1⟩
  | Trans => exact hA ha j l ⟨j0, j1, l0, l1⟩

theorem rskge3View_val {layout : Layout} {opA opS : Op} {m d n : Int} {alpha beta : T} {S : BFO T} {sb : Buf T} {ro co : Int} {A b : Buf T}
    {lda ldb : Int} {Sm Am C : Int → Int → T} (hbuf : S.buff = some sb)
    (hS : (alpha == 0) = false → Holds sb S.layout (tightLd S.layout S.nRows S.nCols) S.nRows S.nCols Sm)
    (hw : InOp S.nRows S.nCols (rowsOf opS n d) (colsOf opS n d) ro co) (hm : 0 ≤ m) (hd : 0 ≤ d) (hn : 0 ≤ n)
    (hlda : LdOk layout lda (rowsOf opA m n) (colsOf opA m n)) (hldb : LdOk layout ldb m d)
    (hA : (alpha == 0) = false → Holds A layout lda (rowsOf opA m n) (colsOf opA m n) Am)
    (hal : Alloc b layout ldb m d) (hC : (beta == 0) = false → Holds b layout ldb m d C) :
    M.wp (rskge3View layout opA opS m d n alpha A lda S ro co beta ldb) b (fun _ b' =>
      MatSt b (addr layout ldb) m d (fun i j => .val (gemmVal alpha beta n (opMat opA Am) (opMat opS (subMat ro co Sm)) C i j)) b') := by
  unfold rskge3View BFO.getBuff
  rw [hbuf]
  simp only [M.wp_bind, M.wp_pure, M.wp_require, dimsBeforeOp_eq, ldOk_iff]
  refine ⟨hw.2.2.1, hw.2.2.2, hlda, hldb, ?_⟩
  refine blasGemm_val hm hd hn hlda (opWindow_ld hw) hldb (fun ha i l hil => ?_) (fun ha i l hil => opWindow_cells (hS ha) hw hil) hal hC
  obtain ⟨i0, i1, l0, l1⟩ := hil
  rw [zero_add, opIndex_eq]
  cases opA with
  | NoTrans => exact hA ha i l ⟨i0, i1, l0, l1⟩
  | Trans => exact hA ha l i ⟨l0, l1, i0, i1⟩

theorem lskge3_val {E : SkEnv N K W WS R T} (hG : E.G.Ok) {S : DenseSkOp N K T} {Sm : Int → Int → T} (hS : DenseIs E S Sm) {layout : Layout}
    {opS opA : Op} {d n m ro co : Int} {alpha beta : T} {A b : Buf T} {lda ldb : Int} {Am C : Int → Int → T}
    (hw : InOp S.nRows S.nCols (rowsOf opS d m) (colsOf opS d m) ro co) (hne : S.buff = none → FillOk E.G.len S.dist (rowsOf opS d m) (colsOf opS d m) ro co)
    (hd : 0 ≤ d) (hn : 0 ≤ n) (hm : 0 ≤ m) (hlda : LdOk layout lda (rowsOf opA m n) (colsOf opA m n)) (hldb : LdOk layout ldb d n)
    (hA : (alpha == 0) = false → Holds A layout lda (rowsOf opA m n) (colsOf opA m n) Am)
    (hal : Alloc b layout ldb d n) (hC : (beta == 0) = false → Holds b layout ldb d n C) :
    M.wp (lskge3 E layout opS opA d n m alpha S ro co A lda beta ldb) b (fun _ b' =>
      MatSt b (addr layout ldb) d n (fun i j => .val (gemmVal alpha beta m (opMat opS (subMat ro co Sm)) (opMat opA Am) C i j)) b') := by
  unfold lskge3
  cases hb : S.buff with
  | some sb =>
    simp only [DenseIs, hb] at hS
    rw [if_neg (by simp)]
    exact lskge3View_val (S := S.view) hb (fun _ => hS) hw hd hn hm hlda hldb hA hal hC
  | none =>
    simp only [DenseIs, hb] at hS
    obtain ⟨h1, h2, h3, h4⟩ := hS
    obtain ⟨hr, hc⟩ := rowsOf_nonneg (op := opS) hd hm
    rw [if_pos (by simp), M.wp_bind, M.wp_lift, dimsBeforeOp_eq]
    obtain ⟨sb, ld, e, hsb⟩ := submatrixAsBlackbox_spec (sched := E.env.sched) hG h1 h2 h3 h4 hr hc (hne hb) hw
    refine ⟨_, e, ?_⟩
    refine M.wp_mono (lskge3View_val (S := ⟨S.layout, rowsOf opS d m, colsOf opS d m, some sb, ld⟩) rfl (fun _ => hsb) (inOp_zero _ _)
      hd hn hm hlda hldb hA hal hC) ?_
    intro _ b' hM
    rw [subMat_zero] at hM
    exact hM

theorem rskge3_val {E : SkEnv N K W WS R T} (hG : E.G.Ok) {S : DenseSkOp N K T} {Sm : Int → Int → T} (hS : DenseIs E S Sm) {layout : Layout}
    {opA opS : Op} {m d n ro co : Int} {alpha beta : T} {A b : Buf T} {lda ldb : Int} {Am C : Int → Int → T}
    (hw : InOp S.nRows S.nCols (rowsOf opS n d) (colsOf opS n d) ro co) (hne : S.buff = none → FillOk E.G.len S.dist (rowsOf opS n d) (colsOf opS n d) ro co)
    (hm : 0 ≤ m) (hd : 0 ≤ d) (hn : 0 ≤ n) (hlda : LdOk layout lda (rowsOf opA m n) (colsOf opA m n)) (hldb : LdOk layout ldb m d)
    (hA : (alpha == 0) = false → Holds A layout lda (rowsOf opA m n) (colsOf opA m n) Am)
    (hal : Alloc b layout ldb m d) (hC : (beta == 0) = false → Holds b layout ldb m d C) :
    M.wp (rskge3 E layout opA opS m d n alpha A lda S ro co beta ldb) b (fun _ b' =>
      MatSt b (addr layout ldb) m d (fun i j => .val (gemmVal alpha beta n (opMat opA Am) (opMat opS (subMat ro co Sm)) C i j)) b') := by
  unfold rskge3
  cases hb : S.buff with
  | some sb =>
    simp only [DenseIs, hb] at hS
    rw [if_neg (by simp)]
    exact rskge3View_val (S := S.view) hb (fun _ => hS) hw hm hd hn hlda hldb hA hal hC
  | none =>
    simp only [DenseIs, hb] at hS
    obtain ⟨h1, h2, h3, h4⟩ := hS
    obtain ⟨hr, hc⟩ := rowsOf_nonneg (op := opS) hn hd
    rw [if_pos (by simp), M.wp_bind, M.wp_lift, dimsBeforeOp_eq]
    obtain ⟨sb, ld, e, hsb⟩ := submatrixAsBlackbox_spec (sched := E.env.sched) hG h1 h2 h3 h4 hr hc (hne hb) hw
    refine ⟨_, e, ?_⟩
    refine M.wp_mono (rskge3View_val (S := ⟨S.layout, rowsOf opS n d, colsOf opS n d, some sb, ld⟩) rfl (fun _ => hsb) (inOp_zero _ _)
      hm hd hn hlda hldb hA hal hC) ?_
    intro _ b' hM
    rw [subMat_zero] at hM
    exact hM

end

/-! ## Error bounds -/

section
variable {F : Type} {val : F → ℝ} {u : ℝ} [Zero F] [One F] [Add F] [Mul F] [BEq F]

theorem Approx.mul' (R : Rounding F val u) {n : Nat} {x w : F} {y Y : ℝ} (h : Approx val u n x y Y) :
    Approx val u (n + 1) (w * x) (val w * y) (|val w| * Y) := by
  have hE : |val w * y| ≤ |val w| * Y := by rw [abs_mul]; exact mul_le_mul_of_nonneg_left h.1 (abs_nonneg _)
  refine ⟨hE, approx_round R.nonneg (R.mul w x) ?_ hE rfl⟩
  rw [← mul_sub, abs_mul, mul_left_comm]
  exact mul_le_mul_of_nonneg_left h.2 (abs_nonneg _)

theorem approx_zero (R : Rounding F val u) (n : Nat) : Approx val u n (0 : F) 0 0 := by
  have := Approx.exact (val := val) (0 : F) R.nonneg n
  rw [R.zero, abs_zero] at this; exact this

theorem dotVal_approx (R : Rounding F val u) (k : Nat) (A B : Int → Int → F) (i j : Int) :
    Approx val u (k + 1) (dotVal k A B i j) (∑ l ∈ Finset.range k, val (A i l) * val (B l j)) (∑ l ∈ Finset.range k, |val (A i l)| * |val (B l j)|) := by
  induction k with
  | zero => exact approx_zero R _
  | succ k ih =>
    rw [Finset.sum_range_succ, Finset.sum_range_succ]
    exact ih.add R (((Approx.exact _ R.nonneg 0).mul R).mono R.nonneg (by omega))

theorem gemmVal_approx (R : Rounding F val u) {alpha beta : F} {k : Int} {A B C : Int → Int → F} {i j : Int} :
    Approx val u (k.toNat + 3) (gemmVal alpha beta k A B C i j)
      (val alpha * prodEntry k (fun i j => val (A i j)) (fun i j => val (B i j)) i j + val beta * val (C i j))
      (|val alpha| * prodEntry k (fun i j => |val (A i j)|) (fun i j => |val (B i j)|) i j + |val beta| * |val (C i j)|) := by
  have hacc : Approx val u (k.toNat + 2) (gemmAcc alpha k A B i j) (val alpha * prodEntry k (fun i j => val (A i j)) (fun i j => val (B i j)) i j)
      (|val alpha| * prodEntry k (fun i j => |val (A i j)|) (fun i j => |val (B i j)|) i j) := by
    unfold gemmAcc
    cases ha : (alpha == 0) with
    | true =>
      rw [(R.beq_zero alpha).mp ha, abs_zero, zero_mul, zero_mul, if_pos rfl]
      exact approx_zero R _
    | false =>
      rw [if_neg (by simp)]
      exact (dotVal_approx R k.toNat A B i j).mul' R
  unfold gemmVal
  cases hb : (beta == 0) with
  | true =>
    rw [(R.beq_zero beta).mp hb, abs_zero, zero_mul, zero_mul, add_zero, add_zero, if_pos rfl]
    exact hacc.mono R.nonneg (by omega)
  | false =>
    rw [if_neg (by simp)]
    exact hacc.add R (((Approx.exact _ R.nonneg 0).mul R).mono R.nonneg (by omega))

variable {Q : Type} [Field Q] [LinearOrder Q] [FloorRing Q] [Neg F]

/-- C100. Every entry that `sketch_general` computes in floating-point arithmetic from the left with a dense operator, filled or not, differs
from the exact `alpha * (op(submat(S)) * op(A)) + beta * C` by at most `(1 + u)^(m + 3) - 1` times the same expression with all numbers
replaced by their absolute values, where `Sm` are the (rounded) numbers the operator consists of. Missing: those empty windows of
operators that have not been filled that are undefined, as in C36. -/
theorem C100_sketch_left_partial (R : Rounding F val u) {E : SkEnv N K W WS Q F} (hG : E.G.Ok) {S : DenseSkOp N K F} {Sm : Int → Int → F}
    (hS : DenseIs E S Sm) {layout : Layout} {opS opA : Op} {d n m ro co : Int} {alpha beta : F} {A b : Buf F} {lda ldb : Int} {Am C : Int → Int → F}
    (hw : InOp S.nRows S.nCols (rowsOf opS d m) (colsOf opS d m) ro co) (hne : S.buff = none → FillOk E.G.len S.dist (rowsOf opS d m) (colsOf opS d m) ro co)
    (hd : 0 ≤ d) (hn : 0 ≤ n) (hm : 0 ≤ m) (hlda : LdOk layout lda (rowsOf opA m n) (colsOf opA m n)) (hldb : LdOk layout ldb d n)
    (hA : (alpha == 0) = false → Holds A layout lda (rowsOf opA m n) (colsOf opA m n) Am)
    (hal : Alloc b layout ldb d n) (hC : (beta == 0) = false → Holds b layout ldb d n C) :
    M.wp (sketchGeneralL E layout opS opA d n m alpha ro co A lda beta ldb) (.dense S, b) (fun _ s' => s'.1 = .dense S ∧ ∃ X : Int → Int → F,
      Holds s'.2 layout ldb d n X ∧ SameOutside b s'.2 layout ldb d n ∧
      ∀ i j, InR d n i j →
        |val (X i j) - (val alpha * prodEntry m (opMat opS (subMat ro co fun i j => val (Sm i j))) (opMat opA fun i j => val (Am i j)) i j +
            val beta * val (C i j))| ≤
          gam u (m.toNat + 3) *
            (|val alpha| * prodEntry m (opMat opS (subMat ro co fun i j => |val (Sm i j)|)) (opMat opA fun i j => |val (Am i j)|) i j +
              |val beta| * |val (C i j)|)) := by
  unfold sketchGeneralL
  rw [M.wp_bind, M.wp_get]
  simp only [onC, M.wp_zoom]
  refine M.wp_mono (lskge3_val hG hS hw hne hd hn hm hlda hldb hA hal hC) ?_
  intro _ b' hM
  refine ⟨trivial, _, hM.holds, hM.sameOutside, fun i j _ => ?_⟩
  have := (gemmVal_approx R (alpha := alpha) (beta := beta) (k := m) (A := opMat opS (subMat ro co Sm)) (B := opMat opA Am) (C := C) (i := i) (j := j)).2
  cases opS <;> cases opA <;> exact this

/-- C100 for `sketch_general` from the right. Missing: as for sketches from the left. -/
theorem C100_sketch_right_partial (R : Rounding F val u) {E : SkEnv N K W WS Q F} (hG : E.G.Ok) {S : DenseSkOp N K F} {Sm : Int → Int → F}
    (hS : DenseIs E S Sm) {layout : Layout} {opA opS : Op} {m d n ro co : Int} {alpha beta : F} {A b : Buf F} {lda ldb : Int} {Am C : Int → Int → F}
    (hw : InOp S.nRows S.nCols (rowsOf opS n d) (colsOf opS n d) ro co) (hne : S.buff = none → FillOk E.G.len S.dist (rowsOf opS n d) (colsOf opS n d) ro co)
    (hm : 0 ≤ m) (hd : 0 ≤ d) (hn : 0 ≤ n) (hlda : LdOk layout lda (rowsOf opA m n) (colsOf opA m n)) (hldb : LdOk layout ldb m d)
    (hA : (alpha == 0) = false → Holds A layout lda (rowsOf opA m n) (colsOf opA m n) Am)
    (hal : Alloc b layout ldb m d) (hC : (beta == 0) = false → Holds b layout ldb m d C) :
    M.wp (sketchGeneralR E layout opA opS m d n alpha A lda ro co beta ldb) (.dense S, b) (fun _ s' => s'.1 = .dense S ∧ ∃ X : Int → Int → F,
      Holds s'.2 layout ldb m d X ∧ SameOutside b s'.2 layout ldb m d ∧
      ∀ i j, InR m d i j →
        |val (X i j) - (val alpha * prodEntry n (opMat opA fun i j => val (Am i j)) (opMat opS (subMat ro co fun i j => val (Sm i j))) i j +
            val beta * val (C i j))| ≤
          gam u (n.toNat + 3) *
            (|val alpha| * prodEntry n (opMat opA fun i j => |val (Am i j)|) (opMat opS (subMat ro co fun i j => |val (Sm i j)|)) i j +
              |val beta| * |val (C i j)|)) := by
  unfold sketchGeneralR
  rw [M.wp_bind, M.wp_get]
  simp only [onC, M.wp_zoom]
  refine M.wp_mono (rskge3_val hG hS hw hne hm hd hn hlda hldb hA hal hC) ?_
  intro _ b' hM
  refine ⟨trivial, _, hM.holds, hM.sameOutside, fun i j _ => ?_⟩
  have := (gemmVal_approx R (alpha := alpha) (beta := beta) (k := n) (A := opMat opA Am) (B := opMat opS (subMat ro co Sm)) (C := C) (i := i) (j := j)).2
  cases opS <;> cases opA <;> exact this

omit [Neg F] in
theorem lsksp3View_rounding (R : Rounding F val u) {env : Env F} (henv : EnvOk env) {A : SpMat F} {L : List (Entry F)} (hA : SpHolds A L) (hb : spBase A = .Zero)
    (hr : InRange (spRows A) (spCols A) L) {layout : Layout} {opS opA : Op} {d n m : Int} {alpha beta : F} {S : BFO F} {sb : Buf F}
    {ro co roA coA : Int} {b : Buf F} {ldb : Int} {Sm C : Int → Int → F} (hbuf : S.buff = some sb)
    (hS : Holds sb S.layout (tightLd S.layout S.nRows S.nCols) S.nRows S.nCols Sm)
    (hw : InOp S.nRows S.nCols (rowsOf opS d m) (colsOf opS d m) ro co)
    (hwA : WindowOk A (rowsOf opA m n) (colsOf opA m n) roA coA) (hwA1 : rowsOf opA m n + roA ≤ spRows A) (hwA2 : colsOf opA m n + coA ≤ spCols A)
    (hK : (alpha == 0) = false → Supported A opA.flip layout.flip (opForLayout S.layout layout opS) n m
      (opEntries opA.flip (window roA coA (rowsOf opA m n) (colsOf opA m n) L)))
    (hd : 0 ≤ d) (hn : 0 ≤ n) (hm : 0 ≤ m) (hldb : LdOk layout ldb d n) (hal : Alloc b layout ldb d n) (hC : (beta == 0) = false → Holds b layout ldb d n C) :
    M.wp (lsksp3View env layout opS opA d n m alpha S ro co roA coA beta ldb) (A, b) (fun _ s' => ∃ X : Int → Int → F,
      Holds s'.2 layout ldb d n X ∧ SameOutside b s'.2 layout ldb d n ∧
      ∀ i j, InR d n i j →
        |val (X i j) - (val alpha * prodEntry m (opMat opS (subMat ro co fun i j => val (Sm i j))) (opMat opA (subMat roA coA (toMat (mapEntries val L)))) i j + val beta * val (C i j))| ≤
          gam u (rowCount (opEntries opA.flip (window roA coA (rowsOf opA m n) (colsOf opA m n) L)) j + 3) *
            (|val alpha| * prodEntry m (opMat opS (subMat ro co fun i j => |val (Sm i j)|)) (opMat opA (subMat roA coA (toMat (mapEntries (fun x => |val x|) L)))) i j +
              |val beta| * |val (C i j)|)) := by
  unfold lsksp3View BFO.getBuff
  rw [hbuf]
  simp only [M.wp_bind, M.wp_pure, M.wp_get, M.wp_require, dimsBeforeOp_eq, ldOk_iff]
  have e1 : A.numRows = spRows A := by cases A <;> rfl
  have e2 : A.numCols = spCols A := by cases A <;> rfl
  rw [e1, e2]
  refine ⟨hwA1, hwA2, hw.2.2.1, hw.2.2.2, hldb, ?_⟩
  refine M.wp_mono (C55_right_spmm_partial R henv hA hb hr (layout := layout) (opA := opForLayout S.layout layout opS) (opB := opA) (m := d) (d := n)
    (n := m) hK hwA hd hn hm (opWindow_ld hw) hldb (fun _ => opWindow_holds hS hw) hal hC) ?_
  rintro _ s' ⟨X, k1, k2, k3⟩
  refine ⟨X, k1, k2, fun i j hij => ?_⟩
  have := k3 i j hij
  revert this
  cases opForLayout S.layout layout opS <;> cases opS <;> exact id

omit [Neg F] in
theorem rsksp3View_rounding (R : Rounding F val u) {env : Env F} (henv : EnvOk env) {A : SpMat F} {L : List (Entry F)} (hA : SpHolds A L) (hb : spBase A = .Zero)
    (hr : InRange (spRows A) (spCols A) L) {layout : Layout} {opA opS : Op} {m d n : Int} {alpha beta : F} {S : BFO F} {sb : Buf F}
    {ro co roA coA : Int} {b : Buf F} {ldb : Int} {Sm C : Int → Int → F} (hbuf : S.buff = some sb)
    (hS : Holds sb S.layout (tightLd S.layout S.nRows S.nCols) S.nRows S.nCols Sm)
    (hw : InOp S.nRows S.nCols (rowsOf opS n d) (colsOf opS n d) ro co)
    (hwA : WindowOk A (rowsOf opA m n) (colsOf opA m n) roA coA) (hwA1 : rowsOf opA m n + roA ≤ spRows A) (hwA2 : colsOf opA m n + coA ≤ spCols A)
    (hK : (alpha == 0) = false → Supported A opA layout (opForLayout S.layout layout opS) m n
      (opEntries opA (window roA coA (rowsOf opA m n) (colsOf opA m n) L)))
    (hm : 0 ≤ m) (hd : 0 ≤ d) (hn : 0 ≤ n) (hldb : LdOk layout ldb m d) (hal : Alloc b layout ldb m d) (hC : (beta == 0) = false → Holds b layout ldb m d C) :
    M.wp (rsksp3View env layout opA opS m d n alpha roA coA S ro co beta ldb) (A, b) (fun _ s' => ∃ X : Int → Int → F,
      Holds s'.2 layout ldb m d X ∧ SameOutside b s'.2 layout ldb m d ∧
      ∀ i j, InR m d i j →
        |val (X i j) - (val alpha * prodEntry n (opMat opA (subMat roA coA (toMat (mapEntries val L)))) (opMat opS (subMat ro co fun i j => val (Sm i j))) i j + val beta * val (C i j))| ≤
          gam u (rowCount (opEntries opA (window roA coA (rowsOf opA m n) (colsOf opA m n) L)) i + 3) *
            (|val alpha| * prodEntry n (opMat opA (subMat roA coA (toMat (mapEntries (fun x => |val x|) L)))) (opMat opS (subMat ro co fun i j => |val (Sm i j)|)) i j +
              |val beta| * |val (C i j)|)) := by
  unfold rsksp3View BFO.getBuff
  rw [hbuf]
  simp only [M.wp_bind, M.wp_pure, M.wp_get, M.wp_require, dimsBeforeOp_eq, ldOk_iff]
  have e1 : A.numRows = spRows A := by cases A <;> rfl
  have e2 : A.numCols = spCols A := by cases A <;> rfl
  rw [e1, e2]
  refine ⟨hwA1, hwA2, hw.2.2.1, hw.2.2.2, hldb, ?_⟩
  refine M.wp_mono (C55_left_spmm_partial R henv hA hb hr (layout := layout) (opA := opA) (opB := opForLayout S.layout layout opS) (d := m) (n := d)
    (m := n) hK hwA hm hd hn (opWindow_ld hw) hldb (fun _ => opWindow_holds hS hw) hal hC) ?_
  rintro _ s' ⟨X, k1, k2, k3⟩
  refine ⟨X, k1, k2, fun i j hij => ?_⟩
  have := k3 i j hij
  revert this
  cases opForLayout S.layout layout opS <;> cases opS <;> exact id

omit [Field Q] [LinearOrder Q] [FloorRing Q] [Neg F] in
/-- C100 for `sketch_sparse` from the left: as C55 for sparse products, where the numbers of the operator take the place of the dense matrix.
Missing: the cases excluded by `Supported` and by `FillOk`, as in C41. -/
theorem C100_sparse_left_partial (R : Rounding F val u) {E : SkEnv N K W WS Q F} (hE : EnvOk E.env) (hG : E.G.Ok) {S : DenseSkOp N K F} {Sm : Int → Int → F} (hS : DenseIs E S Sm)
    {A : SpMat F} {L : List (Entry F)} (hA : SpHolds A L) (hb : spBase A = .Zero) (hr : InRange (spRows A) (spCols A) L)
    {layout : Layout} {opS opA : Op} {d n m ro co : Int} {alpha beta : F} {b : Buf F} {ldb : Int} {C : Int → Int → F}
    (hw : InOp S.nRows S.nCols (rowsOf opS d m) (colsOf opS d m) ro co) (hne : S.buff = none → FillOk E.G.len S.dist (rowsOf opS d m) (colsOf opS d m) ro co)
    (hwA : WindowOk A (rowsOf opA m n) (colsOf opA m n) 0 0)
    (hK : (alpha == 0) = false → Supported A opA.flip layout.flip (if S.layout = layout then opS else opS.flip) n m
      (opEntries opA.flip (window 0 0 (rowsOf opA m n) (colsOf opA m n) L)))
    (hd : 0 ≤ d) (hn : 0 ≤ n) (hm : 0 ≤ m) (hldb : LdOk layout ldb d n) (hal : Alloc b layout ldb d n) (hC : (beta == 0) = false → Holds b layout ldb d n C) :
    M.wp (sketchSparseL E layout opS opA d n m alpha S ro co beta ldb) (A, b) (fun _ s' => ∃ X : Int → Int → F,
      Holds s'.2 layout ldb d n X ∧ SameOutside b s'.2 layout ldb d n ∧
      ∀ i j, InR d n i j →
        |val (X i j) - (val alpha * prodEntry m (opMat opS (subMat ro co fun i j => val (Sm i j))) (opMat opA (toMat (mapEntries val L))) i j + val beta * val (C i j))| ≤
          gam u (rowCount (opEntries opA.flip (window 0 0 (rowsOf opA m n) (colsOf opA m n) L)) j + 3) *
            (|val alpha| * prodEntry m (opMat opS (subMat ro co fun i j => |val (Sm i j)|)) (opMat opA (toMat (mapEntries (fun x => |val x|) L))) i j +
              |val beta| * |val (C i j)|)) := by
  have hwA1 : rowsOf opA m n + 0 ≤ spRows A ∧ colsOf opA m n + 0 ≤ spCols A := by
    cases A <;> simp only [WindowOk, spRows, spCols] at hwA ⊢ <;> omega
  have hop : ∀ l : Layout, (if l = layout then opS else opS.flip) = opForLayout l layout opS := by
    intro l; unfold opForLayout; by_cases h : l = layout <;> simp [h]
  rw [hop] at hK
  rw [← subMat_zero (toMat (mapEntries val L)), ← subMat_zero (toMat (mapEntries (fun x => |val x|) L))]
  unfold sketchSparseL lsksp3
  cases hbuf : S.buff with
  | some sb =>
    simp only [DenseIs, hbuf] at hS
    simp only [Option.isNone_some, Bool.false_eq_true, if_false]
    exact lsksp3View_rounding R (S := S.view) hE hA hb hr hbuf hS hw hwA hwA1.1 hwA1.2 hK hd hn hm hldb hal hC
  | none =>
    simp only [DenseIs, hbuf] at hS
    obtain ⟨hD, e1, e2, hSm⟩ := hS
    obtain ⟨q1, q2⟩ := rowsOf_nonneg (op := opS) hd hm
    obtain ⟨sb, ld, e, hsb⟩ := submatrixAsBlackbox_spec (sched := E.env.sched) hG hD e1 e2 hSm q1 q2 (hne hbuf) hw
    simp only [Option.isNone_none, if_true, M.wp_bind, M.wp_lift, dimsBeforeOp_eq]
    refine ⟨_, e, ?_⟩
    have := lsksp3View_rounding R (S := ⟨S.layout, rowsOf opS d m, colsOf opS d m, some sb, ld⟩) hE hA hb hr rfl hsb (inOp_zero _ _) hwA hwA1.1 hwA1.2 hK
      hd hn hm hldb hal hC
    rw [subMat_zero fun i j => val (subMat ro co Sm i j), subMat_zero fun i j => |val (subMat ro co Sm i j)|] at this
    exact this

omit [Field Q] [LinearOrder Q] [FloorRing Q] [Neg F] in
/-- C100 for `sketch_sparse` from the right. Missing: as for sketches from the left. -/
theorem C100_sparse_right_partial (R : Rounding F val u) {E : SkEnv N K W WS Q F} (hE : EnvOk E.env) (hG : E.G.Ok) {S : DenseSkOp N K F} {Sm : Int → Int → F} (hS : DenseIs E S Sm)
    {A : SpMat F} {L : List (Entry F)} (hA : SpHolds A L) (hb : spBase A = .Zero) (hr : InRange (spRows A) (spCols A) L)
    {layout : Layout} {opA opS : Op} {m d n ro co : Int} {alpha beta : F} {b : Buf F} {ldb : Int} {C : Int → Int → F}
    (hw : InOp S.nRows S.nCols (rowsOf opS n d) (colsOf opS n d) ro co) (hne : S.buff = none → FillOk E.G.len S.dist (rowsOf opS n d) (colsOf opS n d) ro co)
    (hwA : WindowOk A (rowsOf opA m n) (colsOf opA m n) 0 0)
    (hK : (alpha == 0) = false → Supported A opA layout (if S.layout = layout then opS else opS.flip) m n
      (opEntries opA (window 0 0 (rowsOf opA m n) (colsOf opA m n) L)))
    (hm : 0 ≤ m) (hd : 0 ≤ d) (hn : 0 ≤ n) (hldb : LdOk layout ldb m d) (hal : Alloc b layout ldb m d) (hC : (beta == 0) = false → Holds b layout ldb m d C) :
    M.wp (sketchSparseR E layout opA opS m d n alpha S ro co beta ldb) (A, b) (fun _ s' => ∃ X : Int → Int → F,
      Holds s'.2 layout ldb m d X ∧ SameOutside b s'.2 layout ldb m d ∧
      ∀ i j, InR m d i j →
        |val (X i j) - (val alpha * prodEntry n (opMat opA (toMat (mapEntries val L))) (opMat opS (subMat ro co fun i j => val (Sm i j))) i j + val beta * val (C i j))| ≤
          gam u (rowCount (opEntries opA (window 0 0 (rowsOf opA m n) (colsOf opA m n) L)) i + 3) *
            (|val alpha| * prodEntry n (opMat opA (toMat (mapEntries (fun x => |val x|) L))) (opMat opS (subMat ro co fun i j => |val (Sm i j)|)) i j +
              |val beta| * |val (C i j)|)) := by
  have hwA1 : rowsOf opA m n + 0 ≤ spRows A ∧ colsOf opA m n + 0 ≤ spCols A := by
    cases A <;> simp only [WindowOk, spRows, spCols] at hwA ⊢ <;> omega
  have hop : ∀ l : Layout, (if l = layout then opS else opS.flip) = opForLayout l layout opS := by
    intro l; unfold opForLayout; by_cases h : l = layout <;> simp [h]
  rw [hop] at hK
  rw [← subMat_zero (toMat (mapEntries val L)), ← subMat_zero (toMat (mapEntries (fun x => |val x|) L))]
  unfold sketchSparseR rsksp3
  cases hbuf : S.buff with
  | some sb =>
    simp only [DenseIs, hbuf] at hS
    simp only [Option.isNone_some, Bool.false_eq_true, if_false]
    exact rsksp3View_rounding R (S := S.view) hE hA hb hr hbuf hS hw hwA hwA1.1 hwA1.2 hK hm hd hn hldb hal hC
  | none =>
    simp only [DenseIs, hbuf] at hS
    obtain ⟨hD, e1, e2, hSm⟩ := hS
    obtain ⟨q1, q2⟩ := rowsOf_nonneg (op := opS) hn hd
    obtain ⟨sb, ld, e, hsb⟩ := submatrixAsBlackbox_spec (sched := E.env.sched) hG hD e1 e2 hSm q1 q2 (hne hbuf) hw
    simp only [Option.isNone_none, if_true, M.wp_bind, M.wp_lift, dimsBeforeOp_eq]
    refine ⟨_, e, ?_⟩
    have := rsksp3View_rounding R (S := ⟨S.layout, rowsOf opS n d, colsOf opS n d, some sb, ld⟩) hE hA hb hr rfl hsb (inOp_zero _ _) hwA hwA1.1 hwA1.2 hK
      hm hd hn hldb hal hC
    rw [subMat_zero fun i j => val (subMat ro co Sm i j), subMat_zero fun i j => |val (subMat ro co Sm i j)|] at this
    exact this

end

/-- A generator of double-precision numbers. -/
noncomputable def flDenseGen : Gen (2 ^ 128) Nat Int (Fl 53) :=
  { len := 4, word := fun c k i => (c.val + k + i) % 3, boxmuller := fun a b => (if a = 0 then Fl.next else 1, if b = 0 then -Fl.next else 1),
    uneg11 := fun a => if a = 0 then -1 else if a = 1 then Fl.next else 1, nat := Int.toNat }

/-- An environment for sketches in double precision. -/
noncomputable def flSkEnv : SkEnv (2 ^ 128) Nat Int Int ℚ (Fl 53) := ⟨flEnv, flDenseGen, Fl.next, exGenQ, fun x => x, fun _ l => l⟩

/-- A new 3 x 7 dense operator with double-precision numbers. -/
def flDense : DenseSkOp (2 ^ 128) Nat (Fl 53) := ⟨exDist, ⟨5, 3⟩, ⟨11, 3⟩, 3, 7, true, none, .RowMajor⟩

/-- The hypotheses about sparse data matrices are met by the transpose of an unsorted 3 x 3 COO matrix with duplicates, sketched with the 2 x 3
window at (1, 4). -/
example : EnvOk flSkEnv.env ∧ SpHolds (.coo (cooOf 3 3 .Zero flE)) flE ∧ InRange 3 3 flE ∧
    InOp flDense.nRows flDense.nCols (rowsOf .NoTrans 2 3) (colsOf .NoTrans 2 3) 1 4 ∧ WindowOk (.coo (cooOf 3 3 .Zero flE)) 3 3 0 0 ∧
    Supported (.coo (cooOf 3 3 .Zero flE)) (Op.flip .Trans) (Layout.flip .RowMajor) .NoTrans 3 3 (opEntries (Op.flip .Trans) (window 0 0 3 3 flE)) ∧
    rowCount (opEntries (Op.flip .Trans) (window 0 0 3 3 flE)) 1 = 2 := by
  refine ⟨⟨mergeSort_sortOk, by decide⟩, ⟨cooOf_is _ _ _ _, trivial⟩, by simp [InRange, flE], by unfold InOp flDense; decide, by simp [WindowOk, cooOf],
    Or.inl ⟨by decide, fun _ _ => ?_⟩, ?_⟩
  · exact ⟨⟨1, 2, Fl.next⟩, by simp [window, flE, opEntries, Op.flip], by decide⟩
  · simp [rowCount, window, flE, opEntries, Op.flip]

/-- The hypotheses of C100 are met by the 2 x 2 window at (1, 4) of a new operator with double-precision numbers, both for sketching from the
left and from the right. -/
example : Rounding (Fl 53) Subtype.val (2⁻¹ ^ 53) ∧ flSkEnv.G.Ok ∧ DenseIs flSkEnv flDense (denseEntry flDenseGen Fl.next exDist ⟨5, 3⟩) ∧
    InOp flDense.nRows flDense.nCols (rowsOf .NoTrans 2 2) (colsOf .NoTrans 2 2) 1 4 ∧ (flDense.buff = none → (0 : Int) < 2 ∧ (0 : Int) < 2) ∧
    Holds (Buf.ofList [1, Fl.next, Fl.next, Fl.next]) .ColMajor 2 2 2 (fun i j => if i = 0 ∧ j = 0 then 1 else Fl.next) ∧
    Alloc (Buf.alloc (Fl 53) 4) .ColMajor 2 2 2 := by
  have hD : DenseDistOk exDist := ⟨by decide, by decide⟩
  refine ⟨Fl.rounding 53, Or.inr rfl, denseIs_new (E := flSkEnv) (seed := ⟨5, 3⟩) hD rfl (samples_denseEntry (Or.inr rfl) hD), by unfold InOp flDense; decide,
    fun _ => by decide, ?_, ?_⟩
  · intro i j hij
    obtain ⟨h1, h2, h3, h4⟩ := hij
    obtain rfl | rfl : i = 0 ∨ i = 1 := by omega
    all_goals obtain rfl | rfl : j = 0 ∨ j = 1 := by omega
    all_goals simp [addr, Buf.ofList]
  · intro i j hij
    simp only [InR] at hij
    have : 0 ≤ addr .ColMajor 2 i j ∧ addr .ColMajor 2 i j < 4 := by simp only [addr]; omega
    simp only [Buf.alloc]
    rw [if_pos this]; simp

end RB
