import Verif.Spec.Sketch
import Verif.Lemmas.DenseEmpty
import Verif.Props.Spmm
import Mathlib.Algebra.BigOperators.Fin
import Mathlib.Algebra.BigOperators.Intervals

/-! # Lemmas about the sketching functions -/

namespace RB
open Spec
variable {N : Nat} {K W WS R T : Type}

theorem opIndex_eq (layout : Layout) (ld : Int) (op : Op) (i k : Int) :
    opIndex layout ld op i k = match op with | .NoTrans => addr layout ld i k | .Trans => addr layout ld k i := by
  cases op <;> simp only [opIndex, strides_at]

theorem blasGemm_spec [CommRing T] [DecidableEq T] {layout : Layout} {opA opB : Op} {m n k : Int} {alpha beta : T} {A B b : Buf T}
    {a0 lda b0 ldb ldc : Int} {Am Bm C : Int → Int → T} (hm : 0 ≤ m) (hn : 0 ≤ n) (hk : 0 ≤ k)
    (hlda : LdOk layout lda (rowsOf opA m k) (colsOf opA m k)) (hldb : LdOk layout ldb (rowsOf opB k n) (colsOf opB k n))
    (hldc : LdOk layout ldc m n)
    (hA : alpha ≠ 0 → ∀ i l, InR m k i l → A (a0 + opIndex layout lda opA i l) = .val (Am i l))
    (hB : alpha ≠ 0 → ∀ l j, InR k n l j → B (b0 + opIndex layout ldb opB l j) = .val (Bm l j))
    (hal : Alloc b layout ldc m n) (hC : beta ≠ 0 → Holds b layout ldc m n C) :
    M.wp (blasGemm layout opA opB m n k alpha A a0 lda B b0 ldb beta 0 ldc) b (fun _ b' =>
      MatSt b (addr layout ldc) m n (fun i j => .val (alpha * prodEntry k Am Bm i j + beta * C i j)) b') := by
  have hinj := adInj_addr hldc
  have hcheck : ∀ {c : Prop} [Decidable c] {s : Buf T} {Q : Unit → Buf T → Prop}, c → (M.wp (blasCheck c) s Q ↔ Q () s) := by
    intro c _ s Q hc
    unfold blasCheck; rw [if_pos hc, M.wp_pure]
  unfold blasGemm
  rw [M.wp_bind, hcheck hm, M.wp_bind, hcheck hn, M.wp_bind, hcheck hk]
  have e1 : (if layout = .ColMajor then (dimsBeforeOp m k opA).1 ≤ lda else (dimsBeforeOp m k opA).2 ≤ lda) := by
    cases layout <;> cases opA <;> simpa [dimsBeforeOp, LdOk, rowsOf, colsOf] using hlda
  have e2 : (if layout = .ColMajor then (dimsBeforeOp k n opB).1 ≤ ldb else (dimsBeforeOp k n opB).2 ≤ ldb) := by
    cases layout <;> cases opB <;> simpa [dimsBeforeOp, LdOk, rowsOf, colsOf] using hldb
  have e3 : (if layout = .ColMajor then m ≤ ldc else n ≤ ldc) := by
    cases layout <;> simpa [LdOk] using hldc
  rw [M.wp_bind, hcheck e1, M.wp_bind, hcheck e2, M.wp_bind, hcheck e3]
  let R : Int → Int → T := fun i j => alpha * prodEntry k Am Bm i j + beta * C i j
  refine M.wp_forI (fun i b' => MatSt b (addr layout ldc) m n (fun r c => if r < i then .val (R r c) else b (addr layout ldc r c)) b') hm
    ((MatSt.init b _ m n).congr fun r c hrc => by rw [if_neg (by have := hrc.1; omega)]) ?_
    (fun b' h => h.congr fun r c hrc => by rw [if_pos hrc.2.1])
  intro i b1 i0 i1 h1
  refine M.wp_forI (fun j b' => MatSt b (addr layout ldc) m n (fun r c => if r < i ∨ (r = i ∧ c < j) then .val (R r c) else b (addr layout ldc r c)) b') hn
    (h1.congr fun r c hrc => by
      have : (r < i ∨ r = i ∧ c < 0) ↔ r < i := by have := hrc.2.2.1; omega
      simp only [this]) ?_
    (fun b' h => h.congr fun r c hrc => by
      have : (r < i ∨ r = i ∧ c < n) ↔ r < i + 1 := by have := hrc.2.2.2; omega
      simp only [this])
  intro j b2 j0 j1 h2
  have hij : InR m n i j := ⟨i0, i1, j0, j1⟩
  rw [strides_at, zero_add]
  have hcell : b2 (addr layout ldc i j) = b (addr layout ldc i j) := by
    rw [h2.cells i j hij, if_neg (by omega)]
  have hfin : ∀ v, v = R i j → M.wp (M.wr (addr layout ldc i j) v) b2 (fun _ s' => MatSt b (addr layout ldc) m n
      (fun r c => if r < i ∨ (r = i ∧ c < j + 1) then .val (R r c) else b (addr layout ldc r c)) s') := by
    rintro v rfl
    refine h2.wp_wr hinj hij (by rw [if_neg (by omega)]; exact hal i j hij) ?_
    intro b'' h3
    refine h3.congr fun r c hrc => ?_
    by_cases he : r = i ∧ c = j
    · obtain ⟨rfl, rfl⟩ := he
      rw [if_pos ⟨rfl, rfl⟩, if_pos (by omega)]
    · rw [if_neg he]
      have : (r < i ∨ r = i ∧ c < j) ↔ (r < i ∨ r = i ∧ c < j + 1) := by
        constructor <;> rintro (h | h)
        · exact Or.inl h
        · exact Or.inr ⟨h.1, by omega⟩
        · exact Or.inl h
        · refine Or.inr ⟨h.1, ?_⟩
          have : c ≠ j := fun hc => he ⟨h.1, hc⟩
          omega
      simp only [this]
  have hjp : M.wp (if (beta == 0) = true then M.wr (addr layout ldc i j) (alpha * prodEntry k Am Bm i j) else do
        let c ← M.rd (addr layout ldc i j)
        M.wr (addr layout ldc i j) (alpha * prodEntry k Am Bm i j + beta * c)) b2 (fun _ s' => MatSt b (addr layout ldc) m n
      (fun r c => if r < i ∨ (r = i ∧ c < j + 1) then .val (R r c) else b (addr layout ldc r c)) s') := by
    by_cases hb : beta = 0
    · rw [if_pos (by simpa using hb)]
      exact hfin _ (by simp only [R, hb, zero_mul, add_zero])
    · rw [if_neg (by simpa using hb), M.wp_bind, M.wp_rd]
      exact ⟨_, by rw [hcell]; exact hC hb i j hij, hfin _ rfl⟩
  dsimp only
  by_cases ha : alpha = 0
  · rw [if_pos (by simpa using ha), M.wp_bind, M.wp_pure]
    rw [show alpha * prodEntry k Am Bm i j = 0 by rw [ha, zero_mul]] at hjp
    exact hjp
  · rw [if_neg (by simpa using ha), M.wp_bind]
    refine M.wp_foldI (fun l acc b' => acc = ∑ q ∈ Finset.range l.toNat, Am i q * Bm q j ∧ b' = b2) hk ⟨by simp, rfl⟩ ?_ ?_
    · rintro l acc b' l0 l1 ⟨rfl, rfl⟩
      rw [M.wp_bind, M.wp_lift]
      refine ⟨_, Buf.rd_val (hA ha i l ⟨i0, i1, l0, l1⟩), ?_⟩
      rw [M.wp_bind, M.wp_lift]
      refine ⟨_, Buf.rd_val (hB ha l j ⟨l0, l1, j0, j1⟩), ?_⟩
      rw [M.wp_pure]
      refine ⟨?_, rfl⟩
      have : (l + 1).toNat = l.toNat + 1 := by omega
      rw [this, Finset.sum_range_succ, Int.toNat_of_nonneg l0]
    · rintro acc b' ⟨rfl, rfl⟩
      rw [M.wp_bind, M.wp_pure]
      exact hjp

/-- Where the entries of `op(submat(S))` are in the buffer of `S`. -/
theorem opWindow_cells {S : BFO T} {sb : Buf T} {layout : Layout} {opS : Op} {d m ro co : Int} {Sm : Int → Int → T}
    (hS : Holds sb S.layout (tightLd S.layout S.nRows S.nCols) S.nRows S.nCols Sm)
    (hw : InOp S.nRows S.nCols (rowsOf opS d m) (colsOf opS d m) ro co) {i l : Int} (hil : InR d m i l) :
    sb ((offsetAndLdim S.layout S.nRows S.nCols ro co).1 + opIndex layout (offsetAndLdim S.layout S.nRows S.nCols ro co).2
      (opForLayout S.layout layout opS) i l) = .val (opMat opS (subMat ro co Sm) i l) := by
  obtain ⟨w1, w2, w3, w4⟩ := hw
  obtain ⟨i0, i1, l0, l1⟩ := hil
  have key : ∀ r c : Int, (offsetAndLdim S.layout S.nRows S.nCols ro co).1 + addr S.layout (offsetAndLdim S.layout S.nRows S.nCols ro co).2 r c =
      addr S.layout (tightLd S.layout S.nRows S.nCols) (ro + r) (co + c) := by
    intro r c
    cases S.layout <;> simp [offsetAndLdim, addr, tightLd] <;> ring
  have hop : opIndex layout (offsetAndLdim S.layout S.nRows S.nCols ro co).2 (opForLayout S.layout layout opS) i l =
      match opS with
      | .NoTrans => addr S.layout (offsetAndLdim S.layout S.nRows S.nCols ro co).2 i l
      | .Trans => addr S.layout (offsetAndLdim S.layout S.nRows S.nCols ro co).2 l i := by
    rw [opIndex_eq]
    by_cases h : S.layout = layout
    · rw [h]; cases opS <;> simp [opForLayout]
    · have hf : layout = S.layout.flip := by cases h1 : layout <;> cases h2 : S.layout <;> simp_all [Layout.flip]
      rw [hf]
      simp only [addr_flip]
      cases hl : S.layout <;> cases opS <;> simp [opForLayout, Op.flip, Layout.flip]
  rw [hop]
  cases opS with
  | NoTrans =>
    simp only [rowsOf, colsOf] at w3 w4
    simp only [key]
    rw [hS (ro + i) (co + l) ⟨by omega, by omega, by omega, by omega⟩]; rfl
  | Trans =>
    simp only [rowsOf, colsOf] at w3 w4
    simp only [key]
    rw [hS (ro + l) (co + i) ⟨by omega, by omega, by omega, by omega⟩]; rfl

/-- The leading dimension passed on is large enough. -/
theorem opWindow_ld {S : BFO T} {layout : Layout} {opS : Op} {d m ro co : Int}
    (hw : InOp S.nRows S.nCols (rowsOf opS d m) (colsOf opS d m) ro co) :
    LdOk layout (offsetAndLdim S.layout S.nRows S.nCols ro co).2 (rowsOf (opForLayout S.layout layout opS) d m)
      (colsOf (opForLayout S.layout layout opS) d m) := by
  obtain ⟨w1, w2, w3, w4⟩ := hw
  cases hl : S.layout <;> cases layout <;> cases opS <;>
    simp only [rowsOf, colsOf, opForLayout, offsetAndLdim, LdOk, Op.flip, ne_eq, reduceCtorEq, not_true_eq_false, not_false_eq_true, if_true, if_false] at * <;> omega

theorem dimsBeforeOp_eq (m n : Int) (op : Op) : dimsBeforeOp m n op = (rowsOf op m n, colsOf op m n) := by
  cases op <;> rfl

theorem ldOk_iff {layout : Layout} {ld r c : Int} : (ld ≥ if layout = .ColMajor then r else c) ↔ LdOk layout ld r c := by
  cases layout <;> simp [LdOk]

section
variable [CommRing T] [DecidableEq T]

theorem lskge3View_spec {layout : Layout} {opS opA : Op} {d n m : Int} {alpha beta : T} {S : BFO T} {sb : Buf T} {ro co : Int} {A b : Buf T}
    {lda ldb : Int} {Sm Am C : Int → Int → T} (hbuf : S.buff = some sb)
    (hS : alpha ≠ 0 → Holds sb S.layout (tightLd S.layout S.nRows S.nCols) S.nRows S.nCols Sm)
    (hw : InOp S.nRows S.nCols (rowsOf opS d m) (colsOf opS d m) ro co) (hd : 0 ≤ d) (hn : 0 ≤ n) (hm : 0 ≤ m)
    (hlda : LdOk layout lda (rowsOf opA m n) (colsOf opA m n)) (hldb : LdOk layout ldb d n)
    (hA : alpha ≠ 0 → Holds A layout lda (rowsOf opA m n) (colsOf opA m n) Am)
    (hal : Alloc b layout ldb d n) (hC : beta ≠ 0 → Holds b layout ldb d n C) :
    M.wp (lskge3View layout opS opA d n m alpha S ro co A lda beta ldb) b (fun _ b' =>
      MatSt b (addr layout ldb) d n (fun i j => .val (alpha * prodEntry m (opMat opS (subMat ro co Sm)) (opMat opA Am) i j + beta * C i j)) b') := by
  unfold lskge3View BFO.getBuff
  rw [hbuf]
  simp only [M.wp_bind, M.wp_pure, M.wp_require, dimsBeforeOp_eq, ldOk_iff]
  refine ⟨hw.2.2.1, hw.2.2.2, hlda, hldb, ?_⟩
  refine blasGemm_spec hd hn hm (opWindow_ld hw) hlda hldb (fun ha i l hil => opWindow_cells (hS ha) hw hil) (fun ha l j hlj => ?_) hal hC
  obtain ⟨l0, l1, j0, j1⟩ := hlj
  rw [zero_add, opIndex_eq]
  cases opA with
  | NoTrans => exact hA ha l j ⟨l0, l1, j0, j1⟩
  | Trans => exact hA ha j l ⟨j0, j1, l0, l1⟩

theorem rskge3View_spec {layout : Layout} {opA opS : Op} {m d n : Int} {alpha beta : T} {S : BFO T} {sb : Buf T} {ro co : Int} {A b : Buf T}
    {lda ldb : Int} {Sm Am C : Int → Int → T} (hbuf : S.buff = some sb)
    (hS : alpha ≠ 0 → Holds sb S.layout (tightLd S.layout S.nRows S.nCols) S.nRows S.nCols Sm)
    (hw : InOp S.nRows S.nCols (rowsOf opS n d) (colsOf opS n d) ro co) (hm : 0 ≤ m) (hd : 0 ≤ d) (hn : 0 ≤ n)
    (hlda : LdOk layout lda (rowsOf opA m n) (colsOf opA m n)) (hldb : LdOk layout ldb m d)
    (hA : alpha ≠ 0 → Holds A layout lda (rowsOf opA m n) (colsOf opA m n) Am)
    (hal : Alloc b layout ldb m d) (hC : beta ≠ 0 → Holds b layout ldb m d C) :
    M.wp (rskge3View layout opA opS m d n alpha A lda S ro co beta ldb) b (fun _ b' =>
      MatSt b (addr layout ldb) m d (fun i j => .val (alpha * prodEntry n (opMat opA Am) (opMat opS (subMat ro co Sm)) i j + beta * C i j)) b') := by
  unfold rskge3View BFO.getBuff
  rw [hbuf]
  simp only [M.wp_bind, M.wp_pure, M.wp_require, dimsBeforeOp_eq, ldOk_iff]
  refine ⟨hw.2.2.1, hw.2.2.2, hlda, hldb, ?_⟩
  refine blasGemm_spec hm hd hn hlda (opWindow_ld hw) hldb (fun ha i l hil => ?_) (fun ha i l hil => opWindow_cells (hS ha) hw hil) hal hC
  obtain ⟨i0, i1, l0, l1⟩ := hil
  rw [zero_add, opIndex_eq]
  cases opA with
  | NoTrans => exact hA ha i l ⟨i0, i1, l0, l1⟩
  | Trans => exact hA ha l i ⟨l0, l1, i0, i1⟩

end

/-- What `fill_dense` samples is `denseEntry`. -/
theorem samples_unique [Mul T] {G : Gen N K W T} {sqrt3 : T} {D : DenseDist} {seed : RNGState N K} {A : Int → Int → T} (hG : G.Ok)
    (hD : DenseDistOk D) (h : Samples G sqrt3 D seed A) {i j : Int} (hij : InR D.nRows D.nCols i j) : A i j = denseEntry G sqrt3 D seed i j := by
  obtain ⟨_, b, e, h1⟩ := h []
  obtain ⟨_, b', e', h2⟩ := samples_denseEntry (sqrt3 := sqrt3) (seed := seed) hG hD []
  rw [e] at e'
  cases e'
  have := h1 i j hij
  rw [h2 i j hij] at this
  exact (Cell.val.inj this).symm

/-- The submatrix an unfilled operator is replaced by. -/
theorem submatrixAsBlackbox_spec [Mul T] {sched : List Nat} {G : Gen N K W T} {sqrt3 : T} {S : DenseSkOp N K T} {r c ro co : Int}
    {A : Int → Int → T} (hG : G.Ok) (hD : DenseDistOk S.dist) (hr : S.nRows = S.dist.nRows) (hc : S.nCols = S.dist.nCols)
    (hS : Samples G sqrt3 S.dist S.seedState A) (hr0 : 0 ≤ r) (hc0 : 0 ≤ c) (hF : FillOk G.len S.dist r c ro co) (hw : InOp S.nRows S.nCols r c ro co) :
    ∃ b ld, submatrixAsBlackbox sched G sqrt3 S r c ro co = .ok ⟨S.layout, r, c, some b, ld⟩ ∧
      Holds b S.layout (tightLd S.layout r c) r c (subMat ro co A) := by
  obtain ⟨w1, w2, w3, w4⟩ := hw
  have hneg : ¬ r * c < 0 := by have := mul_nonneg hr0 hc0; omega
  by_cases hpos : 0 < r ∧ 0 < c
  swap
  · have h0 : r * c = 0 := by
      rcases (show r = 0 ∨ c = 0 by omega) with h | h <;> simp [h]
    obtain ⟨st, b, e, h⟩ := fillUnpacked_empty (sched := sched) (sqrt3 := sqrt3) (layout := S.layout) (seed := S.seedState) (b := Buf.alloc T (r * c)) hG hD hr0 hc0 h0 w1 w2
      (by omega) (by omega) hF
    refine ⟨b, S.dist.dimMajor, ?_, ?_⟩
    · unfold submatrixAsBlackbox
      rw [if_neg hneg, e]
      simp [Res.require, show ro + r ≤ S.nRows by omega, show co + c ≤ S.nCols by omega]
    · rintro i j ⟨h1, h2, h3, h4⟩
      omega
  obtain ⟨hr0, hc0⟩ := hpos
  obtain ⟨st, b, e, h⟩ := C01_entry_formula (sched := sched) (sqrt3 := sqrt3) (layout := S.layout) (seed := S.seedState) hG hD
    (show InWindow S.dist r c ro co from ⟨hr0, hc0, w1, w2, by omega, by omega⟩) (allocTo_alloc (T := T) (r * c))
  refine ⟨b, S.dist.dimMajor, ?_, ?_⟩
  · unfold submatrixAsBlackbox
    rw [if_neg hneg, e]
    simp [Res.require, show ro + r ≤ S.nRows by omega, show co + c ≤ S.nCols by omega]
  · intro i j hij
    rw [h i j hij]
    obtain ⟨h1, h2, h3, h4⟩ := hij
    have := samples_unique hG hD hS (i := ro + i) (j := co + j) ⟨by omega, by omega, by omega, by omega⟩
    simp only [subMat, this, add_comm]

theorem fillOk_pos {len : Int} {D : DenseDist} {r c ro co : Int} (hr : 0 < r) (hc : 0 < c) : FillOk len D r c ro co := Or.inl ⟨hr, hc⟩

/-- The windows that `FillOk` excludes are undefined. -/
theorem submatrixAsBlackbox_undef [Mul T] {sched : List Nat} {G : Gen N K W T} {sqrt3 : T} {S : DenseSkOp N K T} {r c ro co : Int}
    (hG : G.Ok) (hD : DenseDistOk S.dist) (hr : S.nRows = S.dist.nRows) (hc : S.nCols = S.dist.nCols) (hr0 : 0 ≤ r) (hc0 : 0 ≤ c)
    (hF : ¬ FillOk G.len S.dist r c ro co) (hw : InOp S.nRows S.nCols r c ro co) : submatrixAsBlackbox sched G sqrt3 S r c ro co = .ub := by
  obtain ⟨w1, w2, w3, w4⟩ := hw
  have h0 : r * c = 0 := by
    have : ¬ (0 < r ∧ 0 < c) := fun h => hF (Or.inl h)
    rcases (show r = 0 ∨ c = 0 by omega) with h | h <;> simp [h]
  have hu := fillUnpacked_undef (sched := sched) (sqrt3 := sqrt3) (layout := S.layout) (seed := S.seedState) (b := Buf.alloc T (r * c)) hG hD hr0 hc0 w1 w2
    (by omega) (by omega) hF (fun i => by rw [h0]; unfold Buf.alloc; exact if_neg (by omega))
  unfold M.Undef at hu
  unfold submatrixAsBlackbox
  rw [if_neg (by omega)]
  rcases hf : fillDenseUnpacked sched G sqrt3 S.layout S.dist r c ro co S.seedState (Buf.alloc T (r * c)) with ⟨x, b⟩
  rw [hf] at hu
  simp only at hu
  subst hu
  simp [Res.require, show ro + r ≤ S.nRows by omega, show co + c ≤ S.nCols by omega]

/-! ## Sparse operators -/

theorem cooViewOfSkop_run [Field R] [LinearOrder R] [FloorRing R] [Zero T] [One T] [Neg T] [Add T] [Mul T] {G : Gen N K WS R}
    {sqrt : T → T} {order : Int → List (Int × T) → List (Int × T)} {S : SparseSkOp N K T} {L : List (Entry T)} (hL : L ≠ []) (h : OpHolds S L) :
    ∃ s, cooViewOfSkop G sqrt order S = (.ok ⟨S.nRows, S.nCols, false, S.nnz, .Zero, S.vals, S.rows, S.cols, s⟩, S) ∧
      CooIs ⟨S.nRows, S.nCols, false, S.nnz, .Zero, S.vals, S.rows, S.cols, s⟩ L ∧ SortedBy s L := by
  obtain ⟨v, r, c, h1, h2, h3, h4, h5⟩ := h
  have hpos : 0 < L.length := List.length_pos_iff.mpr hL
  obtain ⟨s, e, g1, g2⟩ := cooSortType_spec h4
  refine ⟨s, ?_, ⟨h5, ?_⟩, ?_⟩
  · unfold cooViewOfSkop
    rw [M.bind_ok (show (M.get : M (SparseSkOp N K T) _) S = (.ok S, S) from rfl),
      M.bind_ok (show M.when (S.nnz ≤ 0) _ S = (.ok (), S) by unfold M.when; rw [if_neg (by omega)]; rfl),
      M.bind_ok (show (M.get : M (SparseSkOp N K T) _) S = (.ok S, S) from rfl)]
    unfold mkCooExpert
    rw [if_pos rfl, h2, h3, h5, show cooSortType (L.length : Int) (ptr (some r)) (ptr (some c)) = .ok s from e]
    rfl
  · simp only [h1, h2, h3, ptr]
    have : rebase IndexBase.Zero.val L = L := by
      unfold rebase IndexBase.val
      simp
    rw [this]; exact h4
  · cases s with
    | CSC => exact g1.mp rfl
    | CSR => exact (g2.mp rfl).2
    | None => trivial

section
variable [Field R] [LinearOrder R] [FloorRing R] [CommRing T] [DecidableEq T]

/-- The part of `WindowOk` for sparse operators: offsets are not compared with the dimensions. -/
theorem lskgesView_spec {E : SkEnv N K W WS R T} (hE : SkEnvOk E) {S : SparseSkOp N K T} {L : List (Entry T)} (hL : L ≠ []) (h : OpHolds S L)
    (hr : InRange S.nRows S.nCols L) {layout : Layout} {opS opA : Op} {d n m ro co : Int} {alpha beta : T} {A b : Buf T} {lda ldb : Int}
    {Am C : Int → Int → T}
    (hK : alpha ≠ 0 → CooOk L.length m (opEntries opS (window ro co (rowsOf opS d m) (colsOf opS d m) L)))
    (hw1 : rowsOf opS d m ≤ S.nRows) (hw2 : colsOf opS d m ≤ S.nCols) (hd : 0 ≤ d) (hn : 0 ≤ n) (hm : 0 ≤ m)
    (hlda : LdOk layout lda (rowsOf opA m n) (colsOf opA m n)) (hldb : LdOk layout ldb d n)
    (hA : alpha ≠ 0 → Holds A layout lda (rowsOf opA m n) (colsOf opA m n) Am)
    (hal : Alloc b layout ldb d n) (hC : beta ≠ 0 → Holds b layout ldb d n C) :
    M.wp (lskgesView E layout opS opA d n m alpha ro co A lda beta ldb) (S, b) (fun _ s' =>
      Holds s'.2 layout ldb d n (fun i j => alpha * prodEntry m (opMat opS (subMat ro co (toMat L))) (opMat opA Am) i j + beta * C i j) ∧
      SameOutside b s'.2 layout ldb d n ∧ ∃ L', L'.Perm L ∧ OpHolds s'.1 L' ∧
        s'.1 = { S with vals := s'.1.vals, rows := s'.1.rows, cols := s'.1.cols }) := by
  obtain ⟨s, e, h1, h2⟩ := cooViewOfSkop_run (G := E.GS) (sqrt := E.sqrt) (order := E.order) hL h
  unfold lskgesView
  simp only [M.wp_bind, onSp, M.wp_zoom]
  refine ⟨_, _, e, ?_⟩
  simp only [onSkArrays, M.wp_zoom]
  refine M.wp_mono (C31_left_spmm_partial hE.env (A := .coo ⟨S.nRows, S.nCols, false, S.nnz, .Zero, S.vals, S.rows, S.cols, s⟩) ⟨h1, h2⟩ rfl hr
    (layout := layout) (opA := opS) (opB := opA) (d := d) (n := n) (m := m) (ro := ro) (co := co) (alpha := alpha) (beta := beta)
    (fun ha => by show CooOk S.nnz m _; rw [show S.nnz = _ from h1.nnz]; exact hK ha) ⟨hw1, hw2⟩ hd hn hm hlda hldb hA hal hC) ?_
  rintro _ ⟨A', b'⟩ ⟨k1, k2, k3, E', k4, k5⟩
  cases A' with
  | csc A' => simp [SameObject] at k3
  | csr A' => simp [SameObject] at k3
  | coo A' =>
    refine ⟨k1, k2, E', k5, ?_, rfl⟩
    obtain ⟨l1, l2, l3, l4, l5, l6⟩ := k3
    obtain ⟨⟨m1, m2⟩, -⟩ := k4
    rw [l4] at m2
    have : rebase IndexBase.Zero.val E' = E' := by unfold rebase IndexBase.val; simp
    simp only [this] at m2
    have hne : E' ≠ [] := by rintro rfl; exact hL (List.Perm.eq_nil k5.symm)
    have hlen : 0 < E'.length := List.length_pos_iff.mpr hne
    obtain ⟨q1, q2, q3⟩ := m2 0 hlen
    have get : ∀ {X : Type} {o : Option (Buf X)} {x : X}, ptr o 0 = .val x → ∃ b, o = some b := by
      intro X o x ho
      cases o with
      | some b => exact ⟨b, rfl⟩
      | none => simp [ptr] at ho
    obtain ⟨v, hv⟩ := get q1
    obtain ⟨r, hr⟩ := get q2
    obtain ⟨c, hc⟩ := get q3
    refine ⟨v, r, c, hv, hr, hc, ?_, ?_⟩
    · rw [hv, hr, hc] at m2; exact m2
    · have : S.nnz = E'.length := by rw [← m1, l3]
      exact this

theorem rskgesView_spec {E : SkEnv N K W WS R T} (hE : SkEnvOk E) {S : SparseSkOp N K T} {L : List (Entry T)} (hL : L ≠ []) (h : OpHolds S L)
    (hr : InRange S.nRows S.nCols L) {layout : Layout} {opA opS : Op} {m d n ro co : Int} {alpha beta : T} {A b : Buf T} {lda ldb : Int}
    {Am C : Int → Int → T}
    (hK : alpha ≠ 0 → CooOk L.length n (opEntries opS.flip (window ro co (rowsOf opS n d) (colsOf opS n d) L)))
    (hw1 : rowsOf opS n d ≤ S.nRows) (hw2 : colsOf opS n d ≤ S.nCols) (hm : 0 ≤ m) (hd : 0 ≤ d) (hn : 0 ≤ n)
    (hlda : LdOk layout lda (rowsOf opA m n) (colsOf opA m n)) (hldb : LdOk layout ldb m d)
    (hA : alpha ≠ 0 → Holds A layout lda (rowsOf opA m n) (colsOf opA m n) Am)
    (hal : Alloc b layout ldb m d) (hC : beta ≠ 0 → Holds b layout ldb m d C) :
    M.wp (rskgesView E layout opA opS m d n alpha A lda ro co beta ldb) (S, b) (fun _ s' =>
      Holds s'.2 layout ldb m d (fun i j => alpha * prodEntry n (opMat opA Am) (opMat opS (subMat ro co (toMat L))) i j + beta * C i j) ∧
      SameOutside b s'.2 layout ldb m d ∧ ∃ L', L'.Perm L ∧ OpHolds s'.1 L' ∧
        s'.1 = { S with vals := s'.1.vals, rows := s'.1.rows, cols := s'.1.cols }) := by
  obtain ⟨s, e, h1, h2⟩ := cooViewOfSkop_run (G := E.GS) (sqrt := E.sqrt) (order := E.order) hL h
  unfold rskgesView
  simp only [M.wp_bind, onSp, M.wp_zoom]
  refine ⟨_, _, e, ?_⟩
  simp only [onSkArrays, M.wp_zoom]
  refine M.wp_mono (C32_right_spmm_partial hE.env (B := .coo ⟨S.nRows, S.nCols, false, S.nnz, .Zero, S.vals, S.rows, S.cols, s⟩) ⟨h1, h2⟩ rfl hr
    (layout := layout) (opA := opA) (opB := opS) (m := m) (d := d) (n := n) (iOff := ro) (jOff := co) (alpha := alpha) (beta := beta)
    (fun ha => by show CooOk S.nnz n _; rw [show S.nnz = _ from h1.nnz]; exact hK ha) ⟨hw1, hw2⟩ hm hd hn hlda hldb hA hal hC) ?_
  rintro _ ⟨A', b'⟩ ⟨k1, k2, k3, E', k4, k5⟩
  cases A' with
  | csc A' => simp [SameObject] at k3
  | csr A' => simp [SameObject] at k3
  | coo A' =>
    refine ⟨k1, k2, E', k5, ?_, rfl⟩
    obtain ⟨l1, l2, l3, l4, l5, l6⟩ := k3
    obtain ⟨⟨m1, m2⟩, -⟩ := k4
    rw [l4] at m2
    have : rebase IndexBase.Zero.val E' = E' := by unfold rebase IndexBase.val; simp
    simp only [this] at m2
    have hne : E' ≠ [] := by rintro rfl; exact hL (List.Perm.eq_nil k5.symm)
    have hlen : 0 < E'.length := List.length_pos_iff.mpr hne
    obtain ⟨q1, q2, q3⟩ := m2 0 hlen
    have get : ∀ {X : Type} {o : Option (Buf X)} {x : X}, ptr o 0 = .val x → ∃ b, o = some b := by
      intro X o x ho
      cases o with
      | some b => exact ⟨b, rfl⟩
      | none => simp [ptr] at ho
    obtain ⟨v, hv⟩ := get q1
    obtain ⟨r, hr⟩ := get q2
    obtain ⟨c, hc⟩ := get q3
    refine ⟨v, r, c, hv, hr, hc, ?_, ?_⟩
    · rw [hv, hr, hc] at m2; exact m2
    · have : S.nnz = E'.length := by rw [← m1, l3]
      exact this

end

theorem sparseRun_ne_nil [Field R] [LinearOrder R] [FloorRing R] [Ring T] {G : Gen N K WS R} {sqrt : T → T} {D : SparseDist} (hD : SparseDistOk D)
    {seed : RNGState N K} {E : List (Int × Int × T)} (h : SparseRun G sqrt D seed E) : E ≠ [] := by
  obtain ⟨hR, hC, hk, hkd, hfull, hfit, hax⟩ := sparseDist_facts hD
  have hmin : 0 < D.dimMinor := by rcases hax with ⟨-, -, h⟩ | ⟨-, -, h⟩ <;> omega
  rw [← List.length_pos_iff]
  rcases h with ⟨-, rfl⟩ | ⟨-, h⟩
  · simp only [sasoTriples, List.length_map, List.length_range]
    have := mul_pos hmin hk; omega
  · have := h.length_ge hk; omega

/-- What filling an operator gives. -/
theorem fill_run [Field R] [LinearOrder R] [FloorRing R] [Ring T] {E : SkEnv N K W WS R T} (hE : SkEnvOk E) {S : SparseSkOp N K T}
    (hS : SparseOpOk S) : ∃ L S', fillSparse E.GS E.sqrt E.order S = (.ok (), S') ∧ OpHolds S' (L.map (mkEntry S.dist)) ∧
      S' = { S with nnz := S'.nnz, vals := S'.vals, rows := S'.rows, cols := S'.cols } ∧ L.map (mkEntry S.dist) ≠ [] ∧
      SparseRun E.GS E.sqrt S.dist S.seedState L := by
  obtain ⟨_, S', e, L, v, r, c, h1, rfl, h3, -, -⟩ := fillSparse_spec hE.genS hE.sqrt hE.order hS
  refine ⟨L, _, e, ⟨v, r, c, rfl, rfl, rfl, h3, by simp⟩, rfl, ?_, h1⟩
  simpa using sparseRun_ne_nil hS.dist h1

/-- The entries of every operator that can be filled. -/
theorem sparseIs_of_dist [Field R] [LinearOrder R] [FloorRing R] [Ring T] {E : SkEnv N K W WS R T} (hE : SkEnvOk E) {S : SparseSkOp N K T}
    (hD : SparseDistOk S.dist) (h1 : S.nRows = S.dist.nRows) (h2 : S.nCols = S.dist.nCols) (hn : S.nnz < 0) :
    ∃ L, SparseIs E S L ∧ (∃ L0, L = L0.map (mkEntry S.dist) ∧ SparseRun E.GS E.sqrt S.dist S.seedState L0) := by
  obtain ⟨L0, S', e, g1, g2, g3, g4⟩ := fill_run hE (mkSparseSkOp_ok E.GS.len hD S.seedState : SparseOpOk (mkSparseSkOp E.GS.len S.dist S.seedState : SparseSkOp N K T))
  refine ⟨_, ⟨g3, ?_⟩, L0, rfl, g4⟩
  rw [if_pos hn]
  exact ⟨S', e, g1, by rw [g2, h1]; rfl, by rw [g2, h2]; rfl⟩

/-! ## Congruence of the dense product -/

theorem forN_congr {m : Type → Type} [Monad m] {n : Nat} {f g : Nat → m Unit} (h : ∀ k, k < n → f k = g k) : forN n f = forN n g := by
  induction n with
  | zero => rfl
  | succ n ih => unfold forN; rw [ih fun k hk => h k (by omega), h n (by omega)]

theorem forI_congr {m : Type → Type} [Monad m] {lo hi : Int} {f g : Int → m Unit} (h : ∀ i, lo ≤ i → i < hi → f i = g i) :
    forI lo hi f = forI lo hi g := by
  unfold forI
  exact forN_congr fun k hk => h _ (by omega) (by omega)

theorem foldN_congr {m : Type → Type} [Monad m] {α : Type} {n : Nat} {f g : Nat → α → m α} (h : ∀ k, k < n → f k = g k) (a : α) :
    foldN n f a = foldN n g a := by
  induction n with
  | zero => rfl
  | succ n ih => unfold foldN; rw [ih fun k hk => h k (by omega), h n (by omega)]

theorem foldI_congr {m : Type → Type} [Monad m] {α : Type} {lo hi : Int} {f g : Int → α → m α} (h : ∀ i, lo ≤ i → i < hi → f i = g i) (a : α) :
    foldI lo hi f a = foldI lo hi g a := by
  unfold foldI
  exact foldN_congr (fun k hk => h _ (by omega) (by omega)) a

/-- The reference product depends on the entries of its factors only. -/
theorem blasGemm_congr [Zero T] [Add T] [Mul T] [BEq T] {layout : Layout} {opA opA' opB opB' : Op} {m n k : Int} {alpha beta : T} {A A' B B' : Buf T}
    {a0 a0' lda lda' b0 b0' ldb ldb' c0 ldc : Int}
    (hlda : LdOk layout lda (rowsOf opA m k) (colsOf opA m k)) (hlda' : LdOk layout lda' (rowsOf opA' m k) (colsOf opA' m k))
    (hldb : LdOk layout ldb (rowsOf opB k n) (colsOf opB k n)) (hldb' : LdOk layout ldb' (rowsOf opB' k n) (colsOf opB' k n))
    (hA : ∀ i l, InR m k i l → A (a0 + opIndex layout lda opA i l) = A' (a0' + opIndex layout lda' opA' i l))
    (hB : ∀ l j, InR k n l j → B (b0 + opIndex layout ldb opB l j) = B' (b0' + opIndex layout ldb' opB' l j)) :
    blasGemm layout opA opB m n k alpha A a0 lda B b0 ldb beta c0 ldc = blasGemm layout opA' opB' m n k alpha A' a0' lda' B' b0' ldb' beta c0 ldc := by
  have hcheck : ∀ {c : Prop} [Decidable c], c → (blasCheck c : M (Buf T) Unit) = pure () := by
    intro c _ hc; unfold blasCheck; rw [if_pos hc]
  have e1 : (if layout = .ColMajor then (dimsBeforeOp m k opA).1 ≤ lda else (dimsBeforeOp m k opA).2 ≤ lda) := by
    cases layout <;> cases opA <;> simpa [dimsBeforeOp, LdOk, rowsOf, colsOf] using hlda
  have e2 : (if layout = .ColMajor then (dimsBeforeOp k n opB).1 ≤ ldb else (dimsBeforeOp k n opB).2 ≤ ldb) := by
    cases layout <;> cases opB <;> simpa [dimsBeforeOp, LdOk, rowsOf, colsOf] using hldb
  have e1' : (if layout = .ColMajor then (dimsBeforeOp m k opA').1 ≤ lda' else (dimsBeforeOp m k opA').2 ≤ lda') := by
    cases layout <;> cases opA' <;> simpa [dimsBeforeOp, LdOk, rowsOf, colsOf] using hlda'
  have e2' : (if layout = .ColMajor then (dimsBeforeOp k n opB').1 ≤ ldb' else (dimsBeforeOp k n opB').2 ≤ ldb') := by
    cases layout <;> cases opB' <;> simpa [dimsBeforeOp, LdOk, rowsOf, colsOf] using hldb'
  have hl : ∀ i j, InR m n i j → (foldI 0 k (fun l acc => do
          let a ← M.lift (A.rd (a0 + opIndex layout lda opA i l))
          let b ← M.lift (B.rd (b0 + opIndex layout ldb opB l j))
          pure (acc + a * b)) 0 : M (Buf T) T) = foldI 0 k (fun l acc => do
          let a ← M.lift (A'.rd (a0' + opIndex layout lda' opA' i l))
          let b ← M.lift (B'.rd (b0' + opIndex layout ldb' opB' l j))
          pure (acc + a * b)) 0 := by
    intro i j hij
    refine foldI_congr (fun l l0 l1 => ?_) 0
    have r1 : A.rd (a0 + opIndex layout lda opA i l) = A'.rd (a0' + opIndex layout lda' opA' i l) := by
      unfold Buf.rd; rw [hA i l ⟨hij.1, hij.2.1, l0, l1⟩]
    have r2 : B.rd (b0 + opIndex layout ldb opB l j) = B'.rd (b0' + opIndex layout ldb' opB' l j) := by
      unfold Buf.rd; rw [hB l j ⟨l0, l1, hij.2.2.1, hij.2.2.2⟩]
    rw [r1, r2]
  unfold blasGemm
  dsimp only
  rw [hcheck e1, hcheck e2, hcheck e1', hcheck e2']
  iterate 6 refine congrArg (bind _) (funext fun _ => ?_)
  refine forI_congr fun i i0 i1 => forI_congr fun j j0 j1 => ?_
  rw [hl i j ⟨i0, i1, j0, j1⟩]

end RB
