import Verif.Lemmas.SpmmCoo
import Verif.Lemmas.SpmmCsc
import Verif.Props.SparseData

/-! # Lemmas about the product dispatch -/

namespace RB
open Spec

variable {T : Type}

/-! ## COO: sorting and restoring -/

theorem window_perm {ro co d m : Int} {E E' : List (Entry T)} (h : E.Perm E') : (window ro co d m E).Perm (window ro co d m E') :=
  (h.filter _).map _

theorem RegularOk.perm {m : Int} {E E' : List (Entry T)} (h : RegularOk m E) (hp : E.Perm E') : RegularOk m E' := by
  refine ⟨h.1, fun h2 hne => ?_⟩
  obtain ⟨e, he, hc⟩ := h.2 h2 (by rintro rfl; exact hne (List.nil_perm.mp hp))
  exact ⟨e, hp.subset he, hc⟩

theorem CooOk.perm [Zero T] [Add T] [Mul T] {nnz m : Int} {E E' : List (Entry T)} (h : CooOk nnz m E) (hp : E.Perm E') : CooOk nnz m E' := by
  rcases h with h | h | ⟨h1, h2, h3⟩
  · exact Or.inl (RegularOk.perm h hp)
  · exact Or.inr (Or.inl h)
  · exact Or.inr (Or.inr ⟨h1, by rw [← hp.length_eq]; exact h2, h3⟩)

theorem CooOk.perm_of [Zero T] [Add T] [Mul T] {m : Int} {L L' E E' : List (Entry T)} (h : CooOk L.length m E) (hl : L'.Perm L) (hp : E.Perm E') :
    CooOk L'.length m E' := by
  rw [hl.length_eq]; exact CooOk.perm h hp

/-- The run of a program, as an equation. -/
theorem M.wp_run {σ α : Type} {m : M σ α} {s : σ} {Q : α → σ → Prop} (h : M.wp m s Q) : ∃ a s', m s = (.ok a, s') ∧ Q a s' := h

theorem cooLeftJki_spec [Zero T] [Add T] [Mul T] {E : List (Entry T)} {A : CooMat T}
    {srt : (Int × Int × T → Int × Int × T → Bool) → List (Int × Int × T) → List (Int × Int × T)} (hsrt : SortOk srt)
    (h : CooIs A E) (hb : A.indexBase = .Zero) (hs : SortedBy A.sort E) :
    ∃ E1 A', E1.Perm E ∧ SpHolds (.coo A') E1 ∧ SameObject (.coo A) (.coo A') ∧ ∃ E2 : List (Entry T), E2.Perm E ∧
    ∀ {alpha : T} {d n m ro co : Int} {B : Buf T}
    {layoutB layoutC : Layout} {ldb ldc : Int} {Bm C : Int → Int → T} {b0 b : Buf T} (_ : CooOk A.nnz m (window ro co d m E))
    (_ : Holds B layoutB ldb m n Bm) (_ : LdOk layoutC ldc d n)
    (_ : MatSt b0 (addr layoutC ldc) d n (fun i j => .val (C i j)) b) (sched : List Nat),
    M.wp (cooLeftJki srt sched alpha layoutB layoutC d n m ro co B ldb ldc) (A, b) (fun _ s' => s'.1 = A' ∧
      MatSt b0 (addr layoutC ldc) d n
      (fun i j => .val (acc (window ro co d m E2) (fun e => (alpha * e.val) * Bm e.col j) i (C i j))) s'.2) := by
  by_cases hc : A.sort = .CSC
  · refine ⟨E, A, .refl _, ⟨h, hs⟩, ⟨rfl, rfl, rfl, rfl, rfl, rfl⟩, E, .refl _, ?_⟩
    intro alpha d n m ro co B layoutB layoutC ldb ldc Bm C b0 b hE hB hld hC sched
    rw [hc] at hs
    unfold cooLeftJki
    rw [M.wp_bind, M.wp_get, M.wp_bind, M.wp_require]
    refine ⟨hb, ?_⟩
    rw [if_neg (by simpa using hc)]
    simp only [onC, M.wp_zoom]
    exact M.wp_mono (cooLeftCsc_spec h hb hs hE hB hld hC sched) fun _ b' hb' => ⟨trivial, hb'⟩
  · obtain ⟨a1, A1, hr1, E1, g1, g2, g3, g4, -⟩ := M.wp_run (sortCooData_spec hsrt (s := .CSC) h)
    have hb1 : A1.indexBase = .Zero := by rw [g4]; exact hb
    obtain ⟨a2, A2, hr2, E2, k1, k2, k3, k4, -⟩ := M.wp_run (sortCooData_spec hsrt (s := A.sort) g1)
    refine ⟨E2, A2, k2.trans g2, ⟨k1, ?_⟩, ?_, E1, g2, ?_⟩
    · rw [k4]; exact k3
    · simp only [SameObject]
      rw [k4, g4]
      exact ⟨rfl, rfl, rfl, rfl, rfl, rfl⟩
    intro alpha d n m ro co B layoutB layoutC ldb ldc Bm C b0 b hE hB hld hC sched
    unfold cooLeftJki
    rw [M.wp_bind, M.wp_get, M.wp_bind, M.wp_require]
    refine ⟨hb, ?_⟩
    rw [if_pos hc]
    simp only [onC, onSp, M.wp_bind, M.wp_zoom, M.wp_get]
    refine ⟨_, _, hr1, ?_⟩
    refine M.wp_mono (cooLeftCsc_spec g1 hb1 g3 (by have := CooOk.perm hE (window_perm (ro := ro) (co := co) (d := d) (m := m) g2.symm); rwa [h.nnz, ← g2.length_eq, ← g1.nnz] at this) hB hld hC sched) fun _ b' hb' => ?_
    exact ⟨_, _, hr2, rfl, hb'⟩

/-! ## Scaling -/

theorem safeScal_spec [Zero T] [Mul T] [BEq T] {n x incx : Int} {a : T} {b : Buf T} {v : Int → T}
    (hn : 0 ≤ n) (hinc : 0 < incx) (hal : ∀ i, 0 ≤ i → i < n → b (x + i * incx) ≠ .none)
    (hv : (a == 0) = false → ∀ i, 0 ≤ i → i < n → b (x + i * incx) = .val (v i)) :
    M.wp (safeScal n a x incx) b (fun _ b' =>
      (∀ i, 0 ≤ i → i < n → b' (x + i * incx) = .val (if a == 0 then 0 else a * v i)) ∧
      (∀ p, (∀ i, 0 ≤ i → i < n → p ≠ x + i * incx) → b' p = b p)) := by
  by_cases ha : (a == 0) = true
  · simp only [if_pos ha]
    exact safeScal_zero_spec hn hinc ha hal
  · have ha' : (a == 0) = false := by simpa using ha
    simp only [if_neg ha]
    exact safeScal_nonzero_spec hn hinc ha' (hv ha')

theorem spmmScale_spec [Zero T] [Mul T] [BEq T] {layout : Layout} {opB : Op} {d n m ldb ldc : Int} {beta : T} {b : Buf T} {C : Int → Int → T}
    (hd : 0 ≤ d) (hn : 0 ≤ n) (hldb : LdOk layout ldb (rowsOf opB m n) (colsOf opB m n)) (hldc : LdOk layout ldc d n)
    (hal : Alloc b layout ldc d n) (hC : (beta == 0) = false → Holds b layout ldc d n C) :
    M.wp (spmmScale layout opB d n m ldb beta ldc) b (fun _ b' =>
      MatSt b (addr layout ldc) d n (fun i j => .val (if beta == 0 then 0 else beta * C i j)) b') := by
  have hinj := adInj_addr hldc
  have hrow : (if opB = .NoTrans then m else n) = rowsOf opB m n := by cases opB <;> simp [rowsOf]
  have hcol : (if opB = .NoTrans then n else m) = colsOf opB m n := by cases opB <;> simp [colsOf]
  unfold spmmScale
  cases layout with
  | ColMajor =>
    rw [if_pos rfl]
    simp only [M.wp_bind, M.wp_require]
    refine ⟨by rw [hrow]; exact hldb, hldc, ?_⟩
    refine M.wp_forI (fun c b' => MatSt b (addr .ColMajor ldc) d n
      (fun i j => if j < c then .val (if beta == 0 then 0 else beta * C i j) else b (addr .ColMajor ldc i j)) b') hn
      ((MatSt.init b _ d n).congr fun i j hij => by rw [if_neg (by have := hij.2.2.1; omega)]) ?_ ?_
    · intro c b' c0 c1 hM
      have had : ∀ i, c * ldc + i * 1 = addr .ColMajor ldc i c := by intro i; simp only [addr]; ring
      have hcell : ∀ i, 0 ≤ i → i < d → b' (c * ldc + i * 1) = b (addr .ColMajor ldc i c) := by
        intro i i0 i1
        rw [had, hM.cells i c ⟨i0, i1, c0, c1⟩, if_neg (by omega)]
      refine M.wp_mono (safeScal_spec (v := fun i => C i c) hd one_pos ?_ ?_) ?_
      · intro i i0 i1; rw [hcell i i0 i1]; exact hal i c ⟨i0, i1, c0, c1⟩
      · intro hb i i0 i1; rw [hcell i i0 i1]; exact hC hb i c ⟨i0, i1, c0, c1⟩
      · rintro _ b'' ⟨g1, g2⟩
        constructor
        · intro i j hij
          by_cases hj : j = c
          · subst hj
            rw [← had, g1 i hij.1 hij.2.1, if_pos (show j < j + 1 by omega)]
          · rw [g2, hM.cells i j hij]
            · by_cases hjc : j < c
              · rw [if_pos hjc, if_pos (show j < c + 1 by omega)]
              · rw [if_neg hjc, if_neg (show ¬ j < c + 1 by omega)]
            · intro i' i0 i1 he
              rw [had] at he
              exact hj (hinj i j i' c hij ⟨i0, i1, c0, c1⟩ he).2
        · intro p hp
          rw [g2 p, hM.outside p hp]
          intro i i0 i1
          rw [had]; exact hp i c ⟨i0, i1, c0, c1⟩
    · intro b' hM
      exact hM.congr fun i j hij => by rw [if_pos hij.2.2.2]
  | RowMajor =>
    rw [if_neg (by simp)]
    simp only [M.wp_bind, M.wp_require]
    refine ⟨hldc, by rw [hcol]; exact hldb, ?_⟩
    refine M.wp_forI (fun r b' => MatSt b (addr .RowMajor ldc) d n
      (fun i j => if i < r then .val (if beta == 0 then 0 else beta * C i j) else b (addr .RowMajor ldc i j)) b') hd
      ((MatSt.init b _ d n).congr fun i j hij => by rw [if_neg (by have := hij.1; omega)]) ?_ ?_
    · intro r b' r0 r1 hM
      have had : ∀ j, r * ldc + j * 1 = addr .RowMajor ldc r j := by intro j; simp only [addr]; ring
      have hcell : ∀ j, 0 ≤ j → j < n → b' (r * ldc + j * 1) = b (addr .RowMajor ldc r j) := by
        intro j j0 j1
        rw [had, hM.cells r j ⟨r0, r1, j0, j1⟩, if_neg (by omega)]
      refine M.wp_mono (safeScal_spec (v := fun j => C r j) hn one_pos ?_ ?_) ?_
      · intro j j0 j1; rw [hcell j j0 j1]; exact hal r j ⟨r0, r1, j0, j1⟩
      · intro hb j j0 j1; rw [hcell j j0 j1]; exact hC hb r j ⟨r0, r1, j0, j1⟩
      · rintro _ b'' ⟨g1, g2⟩
        constructor
        · intro i j hij
          by_cases hi : i = r
          · subst hi
            rw [← had, g1 j hij.2.2.1 hij.2.2.2, if_pos (show i < i + 1 by omega)]
          · rw [g2, hM.cells i j hij]
            · by_cases hir : i < r
              · rw [if_pos hir, if_pos (show i < r + 1 by omega)]
              · rw [if_neg hir, if_neg (show ¬ i < r + 1 by omega)]
            · intro j' j0 j1 he
              rw [had] at he
              exact hi (hinj i j r j' hij ⟨r0, r1, j0, j1⟩ he).1
        · intro p hp
          rw [g2 p, hM.outside p hp]
          intro j j0 j1
          rw [had]; exact hp r j ⟨r0, r1, j0, j1⟩
    · intro b' hM
      exact hM.congr fun i j hij => by rw [if_pos hij.2.1]

/-! ## The three untransposed cases -/

theorem holds_op {B : Buf T} {layout : Layout} {ldb m n : Int} {opB : Op} {Bm : Int → Int → T}
    (h : Holds B layout ldb (rowsOf opB m n) (colsOf opB m n) Bm) : Holds B (layoutOp layout opB) ldb m n (opMat opB Bm) := by
  cases opB with
  | NoTrans => simpa [layoutOp, opMat, rowsOf, colsOf] using h
  | Trans =>
    intro i j hij
    simp only [layoutOp, opMat]
    rw [if_neg (by simp), addr_flip]
    exact h j i ⟨hij.2.2.1, hij.2.2.2, hij.1, hij.2.1⟩

theorem rowRow {layout : Layout} {opB : Op} : (layoutOp layout opB = .RowMajor ∧ layout = .RowMajor) ↔ (layout = .RowMajor ∧ opB = .NoTrans) := by
  cases layout <;> cases opB <;> simp [layoutOp, Layout.flip]

/-- The scalings the kernels use. -/
def KernScale [Zero T] [One T] [Add T] [Mul T] [BEq T] (alpha : T) (s : T → T) : Prop := s = scaleVal alpha ∨ s = fun v => alpha * v

/-- What a product leaves in C. -/
def prodVal [Zero T] [Add T] [Mul T] [BEq T] (alpha beta : T) (s : T → T) (W : List (Entry T)) (Bm C : Int → Int → T) (i j : Int) : T :=
  if alpha == 0 then (if beta == 0 then 0 else beta * C i j)
  else acc W (fun e => s e.val * Bm e.col j) i (if beta == 0 then 0 else beta * C i j)

section
variable [Zero T] [One T] [Add T] [Mul T] [BEq T]

theorem leftSpmmCscN_spec {E : List (Entry T)} {A : CscMat T} (h : CscIs A E) (hb : A.indexBase = .Zero) (hr : InRange A.nRows A.nCols E)
    (layout : Layout) (opB : Op) (alpha : T) : ∃ s, KernScale alpha s ∧
    ∀ {n : Int} {beta : T} {B : Buf T} {ldb ldc : Int} {Bm C : Int → Int → T} {b : Buf T}
    (_ : (alpha == 0) = false → if layout = .RowMajor ∧ opB = .NoTrans then A.nRows < 2 ^ 31 else RegularOk A.nCols E)
    (_ : 0 ≤ A.nRows) (_ : 0 ≤ n) (_ : 0 ≤ A.nCols) (_ : LdOk layout ldb (rowsOf opB A.nCols n) (colsOf opB A.nCols n)) (_ : LdOk layout ldc A.nRows n)
    (_ : (alpha == 0) = false → Holds B layout ldb (rowsOf opB A.nCols n) (colsOf opB A.nCols n) Bm)
    (_ : Alloc b layout ldc A.nRows n) (_ : (beta == 0) = false → Holds b layout ldc A.nRows n C)
    (sched : List Nat) (nt : Int) (_ : 1 ≤ nt ∧ nt ≤ 2 ^ 30),
    M.wp (leftSpmmCscN sched nt layout opB A.nRows n A.nCols alpha A 0 0 B ldb beta ldc) b (fun _ b' => MatSt b (addr layout ldc) A.nRows n
      (fun i j => .val (prodVal alpha beta s E (opMat opB Bm) C i j)) b') := by
  refine ⟨if layout = .RowMajor ∧ opB = .NoTrans then fun v => alpha * v else scaleVal alpha, ?_, ?_⟩
  · split_ifs
    · exact Or.inr rfl
    · exact Or.inl rfl
  intro n beta B ldb ldc Bm C b hK hd0 hn0 hm0 hldb hldc hB hal hC sched nt hnt
  unfold leftSpmmCscN
  simp only [M.wp_bind, M.wp_require]
  refine ⟨hb, trivial, trivial, trivial, trivial, M.wp_mono (spmmScale_spec hd0 hn0 hldb hldc hal hC) ?_⟩
  intro _ b' hM
  unfold prodVal
  by_cases ha : (alpha == 0) = true
  · simp only [if_pos ha]
    rw [M.wp_pure]; exact hM
  · have ha' : (alpha == 0) = false := by simpa using ha
    replace hK := hK ha'
    simp only [if_neg ha]
    have hB' := holds_op (hB ha')
    by_cases hk : layout = .RowMajor ∧ opB = .NoTrans
    · rw [if_pos (rowRow.mpr hk)]
      simp only [if_pos hk] at hK ⊢
      obtain ⟨rfl, rfl⟩ := hk
      exact cscLeftKib_spec hnt.1 hnt.2 h hb hn0 hm0 hd0 hK (fun e he => ⟨(hr e he).1, (hr e he).2.1⟩) hB' hldc hM sched
    · rw [if_neg (rowRow.not.mpr hk)]
      simp only [if_neg hk] at hK ⊢
      exact cscLeftJki_spec h hb hK (fun e he => ⟨(hr e he).1, (hr e he).2.1⟩) hB' hldc hM sched

theorem leftSpmmCsrN_spec {E : List (Entry T)} {A : CsrMat T} (h : CsrIs A E) (hb : A.indexBase = .Zero) (hr : InRange A.nRows A.nCols E)
    (layout : Layout) (opB : Op) (alpha : T) : ∃ s, KernScale alpha s ∧
    ∀ {n : Int} {beta : T} {B : Buf T} {ldb ldc : Int} {Bm C : Int → Int → T} {b : Buf T}
    (_ : (alpha == 0) = false → if layout = .RowMajor ∧ opB = .NoTrans then True else ∀ e ∈ E, e.col < 2 ^ 31)
    (_ : 0 ≤ A.nRows) (_ : 0 ≤ n) (_ : 0 ≤ A.nCols) (_ : LdOk layout ldb (rowsOf opB A.nCols n) (colsOf opB A.nCols n)) (_ : LdOk layout ldc A.nRows n)
    (_ : (alpha == 0) = false → Holds B layout ldb (rowsOf opB A.nCols n) (colsOf opB A.nCols n) Bm)
    (_ : Alloc b layout ldc A.nRows n) (_ : (beta == 0) = false → Holds b layout ldc A.nRows n C)
    (sched : List Nat),
    M.wp (leftSpmmCsrN sched layout opB A.nRows n A.nCols alpha A 0 0 B ldb beta ldc) b (fun _ b' => MatSt b (addr layout ldc) A.nRows n
      (fun i j => .val (prodVal alpha beta s E (opMat opB Bm) C i j)) b') := by
  refine ⟨if layout = .RowMajor ∧ opB = .NoTrans then fun v => alpha * v else scaleVal alpha, ?_, ?_⟩
  · split_ifs
    · exact Or.inr rfl
    · exact Or.inl rfl
  intro n beta B ldb ldc Bm C b hK hd0 hn0 hm0 hldb hldc hB hal hC sched
  unfold leftSpmmCsrN
  simp only [M.wp_bind, M.wp_require]
  refine ⟨hb, trivial, trivial, trivial, trivial, M.wp_mono (spmmScale_spec hd0 hn0 hldb hldc hal hC) ?_⟩
  intro _ b' hM
  unfold prodVal
  by_cases ha : (alpha == 0) = true
  · simp only [if_pos ha]
    rw [M.wp_pure]; exact hM
  · have ha' : (alpha == 0) = false := by simpa using ha
    replace hK := hK ha'
    simp only [if_neg ha]
    have hB' := holds_op (hB ha')
    by_cases hk : layout = .RowMajor ∧ opB = .NoTrans
    · rw [if_pos (rowRow.mpr hk)]
      simp only [if_pos hk] at hK ⊢
      obtain ⟨rfl, rfl⟩ := hk
      exact csrLeftIkb_spec h hb hn0 (fun e he => (hr e he).2.2) hB' hldc hM sched
    · rw [if_neg (rowRow.not.mpr hk)]
      simp only [if_neg hk] at hK ⊢
      exact csrLeftJik_spec h hb hd0 hK (fun e he => (hr e he).2.2) hB' hldc hM sched

omit [One T] in
theorem leftSpmmCooN_spec {E : List (Entry T)} {A : CooMat T} (h : CooIs A E) (hb : A.indexBase = .Zero) (hs : SortedBy A.sort E)
    {srt : (Int × Int × T → Int × Int × T → Bool) → List (Int × Int × T) → List (Int × Int × T)} (hsrt : SortOk srt) (alpha : T) :
    ∃ E1 A', E1.Perm E ∧ SpHolds (.coo A') E1 ∧ SameObject (.coo A) (.coo A') ∧ ∃ E2 : List (Entry T), E2.Perm E ∧
    ∀ {layout : Layout} {opB : Op} {d n m ro co : Int} {beta : T} {B : Buf T} {ldb ldc : Int} {Bm C : Int → Int → T} {b : Buf T}
    (_ : (alpha == 0) = false → CooOk A.nnz m (window ro co d m E))
    (_ : d ≤ A.nRows) (_ : m ≤ A.nCols)
    (_ : 0 ≤ d) (_ : 0 ≤ n) (_ : LdOk layout ldb (rowsOf opB m n) (colsOf opB m n)) (_ : LdOk layout ldc d n)
    (_ : (alpha == 0) = false → Holds B layout ldb (rowsOf opB m n) (colsOf opB m n) Bm)
    (_ : Alloc b layout ldc d n) (_ : (beta == 0) = false → Holds b layout ldc d n C)
    (sched : List Nat),
    M.wp (leftSpmmCooN srt sched layout opB d n m alpha ro co B ldb beta ldc) (A, b) (fun _ s' => s'.1 = A' ∧ MatSt b (addr layout ldc) d n
      (fun i j => .val (prodVal alpha beta (fun v => alpha * v) (window ro co d m E2) (opMat opB Bm) C i j)) s'.2) := by
  by_cases ha : (alpha == 0) = true
  · refine ⟨E, A, .refl _, ⟨h, hs⟩, ⟨rfl, rfl, rfl, rfl, rfl, rfl⟩, E, .refl _, ?_⟩
    intro layout opB d n m ro co beta B ldb ldc Bm C b hK hdr hmc hd0 hn0 hldb hldc hB hal hC sched
    unfold leftSpmmCooN
    rw [M.wp_bind, M.wp_get]
    simp only [M.wp_bind, M.wp_require, onC, M.wp_zoom]
    refine ⟨hb, hdr, hmc, M.wp_mono (spmmScale_spec hd0 hn0 hldb hldc hal hC) ?_⟩
    intro _ b' hM
    unfold prodVal
    simp only [if_pos ha]
    rw [M.wp_pure]; exact ⟨rfl, hM⟩
  · have ha' : (alpha == 0) = false := by simpa using ha
    obtain ⟨E1, A', h1, h2, h3, E2, h4, h5⟩ := cooLeftJki_spec hsrt h hb hs
    refine ⟨E1, A', h1, h2, h3, E2, h4, ?_⟩
    intro layout opB d n m ro co beta B ldb ldc Bm C b hK hdr hmc hd0 hn0 hldb hldc hB hal hC sched
    unfold leftSpmmCooN
    rw [M.wp_bind, M.wp_get]
    simp only [M.wp_bind, M.wp_require, onC, M.wp_zoom]
    refine ⟨hb, hdr, hmc, M.wp_mono (spmmScale_spec hd0 hn0 hldb hldc hal hC) ?_⟩
    intro _ b' hM
    unfold prodVal
    simp only [if_neg ha]
    exact h5 (hK ha') (holds_op (hB ha')) hldc hM sched

end

/-! ## The dispatch -/

theorem swap_swap' (E : List (Entry T)) : (E.map Entry.swap).map Entry.swap = E := by
  rw [List.map_map]; exact (List.map_congr_left fun _ _ => rfl).trans (List.map_id E)

/-- The sort order of the transpose. -/
def flipSort : NonzeroSort → NonzeroSort
  | .CSC => .CSR
  | .CSR => .CSC
  | .None => .None

theorem sortedBy_flip {s : NonzeroSort} {E : List (Entry T)} : SortedBy (flipSort s) E → SortedBy s (E.map Entry.swap) := by
  cases s <;> simp only [SortedBy, flipSort] <;> intro h
  · exact List.pairwise_map.mpr h
  · exact List.pairwise_map.mpr h
  · trivial

theorem inRange_swap {m n : Int} {E : List (Entry T)} (h : InRange m n E) : InRange n m (E.map Entry.swap) := by
  intro e he
  obtain ⟨e', he', rfl⟩ := List.mem_map.mp he
  have := h e' he'
  simp only [Entry.swap]; omega

theorem window_swap (ro co d m : Int) (E : List (Entry T)) : window co ro d m (E.map Entry.swap) = (window ro co m d E).map Entry.swap := by
  unfold window
  rw [List.filter_map, List.map_map, List.map_map]
  have : (E.filter ((fun e : Entry T => decide (co ≤ e.row ∧ e.row < co + d ∧ ro ≤ e.col ∧ e.col < ro + m)) ∘ Entry.swap)) =
      E.filter fun e => decide (ro ≤ e.row ∧ e.row < ro + m ∧ co ≤ e.col ∧ e.col < co + d) := by
    apply List.filter_congr
    intro e _
    simp only [Function.comp, Entry.swap]
    apply decide_eq_decide.mpr
    tauto
  rw [this]; rfl

theorem window_whole {d m : Int} {E : List (Entry T)} (h : InRange d m E) : window 0 0 d m E = E := by
  unfold window
  rw [List.filter_eq_self.mpr]
  · refine (List.map_congr_left fun e _ => ?_).trans (List.map_id E)
    cases e; simp
  · intro e he
    have := h e he
    simp; omega

theorem cooTranspose_sort {A At : CooMat T} (h : cooTranspose A = .ok At) : At.sort = flipSort A.sort := by
  obtain ⟨a, b, c, d, e, v, r, cl, s⟩ := A
  cases s <;>
  · simp only [cooTranspose, mkCooExpert] at h
    cases h
    rfl

theorem cooIs_swap {A : CooMat T} {E : List (Entry T)} (h : CooIs A E) (A' : CooMat T) (hn : A'.nnz = A.nnz) (hb : A'.indexBase = A.indexBase)
    (hv : A'.vals = A.vals) (hr : A'.rows = A.cols) (hc : A'.cols = A.rows) : CooIs A' (E.map Entry.swap) := by
  refine ⟨by rw [hn, h.nnz]; simp, ?_⟩
  rw [hv, hr, hc, hb]
  intro p hp
  have hp' : p < E.length := by simpa [rebase] using hp
  have := h.data p (by rwa [rebase_length])
  simp only [rebase, List.getElem_map] at this ⊢
  exact ⟨this.1, this.2.2, this.2.1⟩

section
variable [Zero T] [One T] [Add T] [Mul T] [BEq T]

/-- Everything about `left_spmm` that needs no algebra. -/
theorem leftSpmm_run {srt : (Int × Int × T → Int × Int × T → Bool) → List (Int × Int × T) → List (Int × Int × T)} (hsrt : SortOk srt)
    {A : SpMat T} {E : List (Entry T)} (h : SpHolds A E) (hb : spBase A = .Zero) (hr : InRange (spRows A) (spCols A) E)
    (layout : Layout) (opA opB : Op) (alpha : T) :
    ∃ s E1 A', KernScale alpha s ∧ E1.Perm E ∧ SpHolds A' E1 ∧ SameObject A A' ∧ ∃ E2 : List (Entry T), E2.Perm E ∧
    ∀ {d n m ro co : Int} {beta : T} {B : Buf T} {ldb ldc : Int} {Bm C : Int → Int → T} {b : Buf T}
    (_ : (alpha == 0) = false → Supported A opA layout opB d m (opEntries opA (window ro co (rowsOf opA d m) (colsOf opA d m) E)))
    (_ : WindowOk A (rowsOf opA d m) (colsOf opA d m) ro co)
    (_ : 0 ≤ d) (_ : 0 ≤ n) (_ : 0 ≤ m) (_ : LdOk layout ldb (rowsOf opB m n) (colsOf opB m n)) (_ : LdOk layout ldc d n)
    (_ : (alpha == 0) = false → Holds B layout ldb (rowsOf opB m n) (colsOf opB m n) Bm)
    (_ : Alloc b layout ldc d n) (_ : (beta == 0) = false → Holds b layout ldc d n C)
    (sched : List Nat) (nt : Int) (_ : 1 ≤ nt ∧ nt ≤ 2 ^ 30),
    M.wp (leftSpmm ⟨srt, sched, nt⟩ layout opA opB d n m alpha ro co B ldb beta ldc) (A, b) (fun _ s' => s'.1 = A' ∧
      MatSt b (addr layout ldc) d n (fun i j => .val (prodVal alpha beta s
        (opEntries opA (window ro co (rowsOf opA d m) (colsOf opA d m) E2)) (opMat opB Bm) C i j)) s'.2) := by
  cases A with
  | coo A =>
    obtain ⟨h, hs⟩ := h
    cases opA with
    | NoTrans =>
      obtain ⟨E1, A', h1, h2, h3, E2, h4, h5⟩ := leftSpmmCooN_spec h hb hs hsrt alpha
      refine ⟨_, E1, .coo A', Or.inr rfl, h1, h2, h3, E2, h4, ?_⟩
      intro d n m ro co beta B ldb ldc Bm C b hK hw hd0 hn0 hm0 hldb hldc hB hal hC sched nt hnt
      unfold leftSpmm
      rw [M.wp_bind, M.wp_get]
      simp only [asCoo, M.wp_zoom]
      refine M.wp_mono (h5 hK hw.1 hw.2 hd0 hn0 hldb hldc hB hal hC sched) ?_
      rintro _ s' ⟨g1, g2⟩
      exact ⟨by rw [g1], g2⟩
    | Trans =>
      obtain ⟨At, t1, t2, t3, t4, t5, t6, t7, t8, t9, t10, -⟩ := C29_coo h
      obtain ⟨E1, A', h1, h2, h3, E2, h4, h5⟩ := leftSpmmCooN_spec t2 (by rw [t6]; exact hb) (t10 hs) hsrt alpha
      obtain ⟨k1, k2, k3, k4, k5, k6⟩ := h3
      have hnn : At.nnz = A.nnz := by rw [t2.nnz, h.nnz]; simp
      refine ⟨_, E1.map Entry.swap, .coo { A with vals := A'.vals, rows := A'.cols, cols := A'.rows }, Or.inr rfl, ?_, ⟨?_, ?_⟩,
        ⟨rfl, rfl, rfl, rfl, rfl, rfl⟩, E2.map Entry.swap, ?_, ?_⟩
      · have := h1.map Entry.swap
        rwa [swap_swap'] at this
      · exact cooIs_swap h2.1 _ (by rw [k3, hnn]) (by rw [k4, t6]) rfl rfl rfl
      · have := h2.2
        rw [k5, cooTranspose_sort t1] at this
        exact sortedBy_flip this
      · have := h4.map Entry.swap
        rwa [swap_swap'] at this
      intro d n m ro co beta B ldb ldc Bm C b hK hw hd0 hn0 hm0 hldb hldc hB hal hC sched nt hnt
      unfold leftSpmm
      rw [M.wp_bind, M.wp_get]
      simp only [M.wp_bind, M.wp_lift, asCooT, M.wp_zoom]
      refine ⟨_, t1, M.wp_mono (h5 (ro := co) (co := ro) (d := d) (m := m) ?_ ?_ ?_ hd0 hn0 hldb hldc hB hal hC sched) ?_⟩
      · intro ha
        rw [window_swap, hnn]; exact hK ha
      · rw [t3]; exact hw.2
      · rw [t4]; exact hw.1
      rintro _ s' ⟨g1, g2⟩
      refine ⟨by rw [g1], ?_⟩
      simp only [opEntries, rowsOf, colsOf]
      rw [← window_swap, swap_swap']
      exact g2
  | csc A =>
    cases opA with
    | NoTrans =>
      obtain ⟨s, h1, h2⟩ := leftSpmmCscN_spec h hb hr layout opB alpha
      refine ⟨s, E, .csc A, h1, .refl _, h, rfl, E, .refl _, ?_⟩
      intro d n m ro co beta B ldb ldc Bm C b hK hw hd0 hn0 hm0 hldb hldc hB hal hC sched nt hnt
      obtain ⟨rfl, rfl, rfl, rfl⟩ := hw
      simp only [opEntries, rowsOf, colsOf] at hK ⊢
      rw [window_whole (d := A.nRows) (m := A.nCols) hr] at hK ⊢
      unfold leftSpmm
      rw [M.wp_bind, M.wp_get]
      simp only [onC, M.wp_zoom]
      exact M.wp_mono (h2 hK hd0 hn0 hm0 hldb hldc hB hal hC sched nt hnt) fun _ b' hb' => ⟨trivial, hb'⟩
    | Trans =>
      obtain ⟨s, h1, h2⟩ := leftSpmmCsrN_spec (A := mkCsrExpert A.nCols A.nRows A.nnz A.vals A.colptr A.rowidxs A.indexBase)
        (E := E.map Entry.swap) ⟨by simp only [mkCsrExpert]; rw [h.nnz]; simp, csIs_swap _ _ h.data⟩ hb (inRange_swap hr) layout opB alpha
      refine ⟨s, E, .csc A, h1, .refl _, h, rfl, E, .refl _, ?_⟩
      intro d n m ro co beta B ldb ldc Bm C b hK hw hd0 hn0 hm0 hldb hldc hB hal hC sched nt hnt
      obtain ⟨h3, h4, rfl, rfl⟩ := hw
      simp only [opEntries, rowsOf, colsOf] at hK h3 h4 ⊢
      subst h3 h4
      rw [window_whole (d := A.nRows) (m := A.nCols) hr] at hK ⊢
      unfold leftSpmm
      rw [M.wp_bind, M.wp_get]
      simp only [onC, M.wp_bind, M.wp_lift, M.wp_zoom]
      refine ⟨_, rfl, M.wp_mono (h2 hK hd0 hn0 hm0 hldb hldc hB hal hC sched) fun _ b' hb' => ⟨trivial, hb'⟩⟩
  | csr A =>
    cases opA with
    | NoTrans =>
      obtain ⟨s, h1, h2⟩ := leftSpmmCsrN_spec h hb hr layout opB alpha
      refine ⟨s, E, .csr A, h1, .refl _, h, rfl, E, .refl _, ?_⟩
      intro d n m ro co beta B ldb ldc Bm C b hK hw hd0 hn0 hm0 hldb hldc hB hal hC sched nt hnt
      obtain ⟨rfl, rfl, rfl, rfl⟩ := hw
      simp only [opEntries, rowsOf, colsOf] at hK ⊢
      rw [window_whole (d := A.nRows) (m := A.nCols) hr] at hK ⊢
      unfold leftSpmm
      rw [M.wp_bind, M.wp_get]
      simp only [onC, M.wp_zoom]
      exact M.wp_mono (h2 hK hd0 hn0 hm0 hldb hldc hB hal hC sched) fun _ b' hb' => ⟨trivial, hb'⟩
    | Trans =>
      obtain ⟨s, h1, h2⟩ := leftSpmmCscN_spec (A := mkCscExpert A.nCols A.nRows A.nnz A.vals A.colidxs A.rowptr A.indexBase)
        (E := E.map Entry.swap) ⟨by simp only [mkCscExpert]; rw [h.nnz]; simp, csIs_swap _ _ h.data⟩ hb (inRange_swap hr) layout opB alpha
      refine ⟨s, E, .csr A, h1, .refl _, h, rfl, E, .refl _, ?_⟩
      intro d n m ro co beta B ldb ldc Bm C b hK hw hd0 hn0 hm0 hldb hldc hB hal hC sched nt hnt
      obtain ⟨h3, h4, rfl, rfl⟩ := hw
      simp only [opEntries, rowsOf, colsOf] at hK h3 h4 ⊢
      subst h3 h4
      rw [window_whole (d := A.nRows) (m := A.nCols) hr] at hK ⊢
      unfold leftSpmm
      rw [M.wp_bind, M.wp_get]
      simp only [onC, M.wp_bind, M.wp_lift, M.wp_zoom]
      refine ⟨_, rfl, M.wp_mono (h2 hK hd0 hn0 hm0 hldb hldc hB hal hC sched nt hnt) fun _ b' hb' => ⟨trivial, hb'⟩⟩

end

/-! ## Algebra -/

theorem acc_eq_sum [CommRing T] (W : List (Entry T)) (w : Entry T → T) (i : Int) (x : T) :
    acc W w i x = x + ((W.filter fun e => e.row = i).map w).sum := by
  induction W generalizing x with
  | nil => simp [acc]
  | cons e W ih =>
    have : acc (e :: W) w i x = acc W w i (if e.row = i then x + w e else x) := rfl
    rw [this, ih]
    by_cases he : e.row = i
    · rw [if_pos he, List.filter_cons_of_pos (by simpa using he)]; simp [add_assoc]
    · rw [if_neg he, List.filter_cons_of_neg (by simpa using he)]

theorem sum_toMat [CommRing T] {m : Int} (W : List (Entry T)) (h : ∀ e ∈ W, 0 ≤ e.col ∧ e.col < m) (f : Int → T) (i : Int) :
    ∑ k ∈ Finset.range m.toNat, toMat W i k * f k = ((W.filter fun e => e.row = i).map fun e => e.val * f e.col).sum := by
  induction W with
  | nil => simp [toMat]
  | cons e W ih =>
    have ih := ih fun e he => h e (List.mem_cons_of_mem _ he)
    obtain ⟨c0, c1⟩ := h e (by simp)
    have hc : ∀ k : Int, toMat (e :: W) i k = (if e.row = i ∧ e.col = k then e.val else 0) + toMat W i k := by
      intro k
      rw [show e :: W = [e] ++ W from rfl, toMat_append]
      congr 1
      by_cases hk : e.row = i ∧ e.col = k
      · rw [if_pos hk]; simp [toMat, hk]
      · rw [if_neg hk]; exact toMat_none (by simpa using hk)
    simp only [hc, add_mul, Finset.sum_add_distrib]
    rw [ih]
    by_cases he : e.row = i
    · rw [List.filter_cons_of_pos (by simpa using he), List.map_cons, List.sum_cons]
      congr 1
      rw [Finset.sum_eq_single e.col.toNat]
      · have : ((e.col.toNat : Nat) : Int) = e.col := by omega
        rw [this, if_pos ⟨he, rfl⟩]
      · intro k _ hk
        rw [if_neg (by rintro ⟨-, h⟩; omega), zero_mul]
      · intro hk
        simp only [Finset.mem_range] at hk; omega
    · rw [List.filter_cons_of_neg (by simpa using he)]
      rw [Finset.sum_eq_zero]
      · simp
      · intro k _
        rw [if_neg (by rintro ⟨h, -⟩; exact he h), zero_mul]

theorem toMat_window [AddCommMonoid T] {ro co d m : Int} (E : List (Entry T)) {i j : Int} (h : InR d m i j) :
    toMat (window ro co d m E) i j = subMat ro co (toMat E) i j := by
  unfold subMat toMat window
  rw [List.filter_map, List.map_map, List.filter_filter]
  obtain ⟨h1, h2, h3, h4⟩ := h
  have : (E.filter fun a => ((fun e : Entry T => decide (e.row = i ∧ e.col = j)) ∘ fun e : Entry T => { e with row := e.row - ro, col := e.col - co }) a &&
      decide (ro ≤ a.row ∧ a.row < ro + d ∧ co ≤ a.col ∧ a.col < co + m)) = E.filter fun e => decide (e.row = ro + i ∧ e.col = co + j) := by
    apply List.filter_congr
    intro e _
    simp only [Function.comp]
    rw [← Bool.decide_and]
    apply decide_eq_decide.mpr
    omega
  rw [this]; rfl

theorem toMat_opEntries [AddCommMonoid T] (op : Op) (E : List (Entry T)) (i j : Int) : toMat (opEntries op E) i j = opMat op (toMat E) i j := by
  cases op with
  | NoTrans => rfl
  | Trans => exact C29_swap_is_transpose E i j

theorem opEntries_rng {opA : Op} {ro co d m : Int} {E : List (Entry T)} :
    ∀ e ∈ opEntries opA (window ro co (rowsOf opA d m) (colsOf opA d m) E), 0 ≤ e.col ∧ e.col < m := by
  intro e he
  cases opA with
  | NoTrans => exact (window_rng e he).2
  | Trans =>
    obtain ⟨e', he', rfl⟩ := List.mem_map.mp he
    exact (window_rng e' he').1

theorem prodVal_eq [CommRing T] [DecidableEq T] {alpha beta : T} {s : T → T} (hs : KernScale alpha s) {opA : Op} {ro co d m : Int} {E : List (Entry T)}
    {Bm C : Int → Int → T} {i j : Int} (hi : 0 ≤ i ∧ i < d) :
    prodVal alpha beta s (opEntries opA (window ro co (rowsOf opA d m) (colsOf opA d m) E)) Bm C i j =
      alpha * prodEntry m (opMat opA (subMat ro co (toMat E))) Bm i j + beta * C i j := by
  have hs' : ∀ v, s v = alpha * v := by
    intro v
    rcases hs with rfl | rfl
    · unfold scaleVal
      by_cases ha : alpha = 1
      · rw [if_pos (by simpa using ha), ha, one_mul]
      · rw [if_neg (by simpa using ha), zero_add]
    · rfl
  have hz : (if (beta == 0) = true then 0 else beta * C i j) = beta * C i j := by
    by_cases hb : beta = 0
    · rw [if_pos (by simpa using hb), hb, zero_mul]
    · rw [if_neg (by simpa using hb)]
  have hcell : ∀ k : Nat, k ∈ Finset.range m.toNat →
      opMat opA (subMat ro co (toMat E)) i k = toMat (opEntries opA (window ro co (rowsOf opA d m) (colsOf opA d m) E)) i k := by
    intro k hk
    simp only [Finset.mem_range] at hk
    rw [toMat_opEntries]
    cases opA with
    | NoTrans => exact (toMat_window E ⟨hi.1, hi.2, by omega, by simp only [colsOf]; omega⟩).symm
    | Trans => exact (toMat_window E ⟨by omega, by simp only [rowsOf]; omega, hi.1, hi.2⟩).symm
  unfold prodVal
  rw [hz]
  by_cases ha : alpha = 0
  · rw [if_pos (by simpa using ha), ha, zero_mul, zero_add]
  · rw [if_neg (by simpa using ha), acc_eq_sum]
    unfold prodEntry
    rw [Finset.sum_congr rfl (g := fun k : Nat => toMat (opEntries opA (window ro co (rowsOf opA d m) (colsOf opA d m) E)) i k * Bm k j)
      (fun k hk => by rw [hcell k hk])]
    rw [sum_toMat _ opEntries_rng (fun k => Bm k j) i, ← List.sum_map_mul_left, add_comm]
    congr 2
    apply List.map_congr_left
    intro e _
    rw [hs', mul_assoc]

theorem subMat_perm [AddCommMonoid T] {E E' : List (Entry T)} (h : E.Perm E') : toMat E = toMat E' := by
  funext i j; exact toMat_perm h i j

end RB
