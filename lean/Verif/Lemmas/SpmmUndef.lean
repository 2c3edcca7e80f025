import Verif.Core.Doom
import Verif.Lemmas.SpmmRun

/-! # When the column kernels are undefined -/

namespace RB
open Spec

variable {T : Type}

section
variable [Add T] [Mul T]

theorem addTo_all {i : Int} {x : T} : (addTo i x).All fun _ => True :=
  Prog.All.bind (P := fun _ => True) (Prog.All.load fun _ => trivial) fun _ _ => Prog.All.store trivial

theorem applyRegular_all {vals v : Buf T} {idxs : Buf Int} {k m v0 incv av0 incAv : Int} :
    (applyRegularCscVec vals idxs k m v v0 incv av0 incAv).All fun _ => True := by
  unfold applyRegularCscVec
  refine Prog.All.forI fun c _ _ => ?_
  refine Prog.All.bind (P := fun _ => True) (Prog.All.read fun _ _ => trivial) fun _ _ => Prog.All.forI fun j _ _ => ?_
  refine Prog.All.bind (P := fun _ => True) (Prog.All.read fun _ _ => trivial) fun _ _ => ?_
  exact Prog.All.bind (P := fun _ => True) (Prog.All.read fun _ _ => trivial) fun _ _ => addTo_all

/-- The regular kernel reads a row index that does not exist. -/
theorem applyRegular_bad {vals v : Buf T} {idxs : Buf Int} {k m v0 incv av0 incAv q : Int} (hk : 0 < k) (h0 : 0 ≤ q) (h1 : q < m * k)
    (hq : idxs q = .none) : (applyRegularCscVec vals idxs k m v v0 incv av0 incAv).All fun _ => False := by
  unfold applyRegularCscVec
  have e := Int.mul_ediv_add_emod q k
  have l := Int.emod_lt_of_pos q hk
  have g := Int.emod_nonneg q (by omega : k ≠ 0)
  have hc0 : 0 ≤ q / k := Int.ediv_nonneg h0 (by omega)
  have hc1 : q / k < m := Int.ediv_lt_of_lt_mul hk h1
  have e1 : q / k * k = k * (q / k) := mul_comm _ _
  have e2 : (q / k + 1) * k = k * (q / k) + k := by ring
  refine Prog.All.forI_bad (i := q / k) (fun c _ _ => ?_) hc0 hc1 ?_
  · refine Prog.All.bind (P := fun _ => True) (Prog.All.read fun _ _ => trivial) fun _ _ => Prog.All.forI fun j _ _ => ?_
    refine Prog.All.bind (P := fun _ => True) (Prog.All.read fun _ _ => trivial) fun _ _ => ?_
    exact Prog.All.bind (P := fun _ => True) (Prog.All.read fun _ _ => trivial) fun _ _ => addTo_all
  · refine Prog.All.bind (P := fun _ => True) (Prog.All.read fun _ _ => trivial) fun _ _ => ?_
    refine Prog.All.forI_bad (i := q) (fun j _ _ => ?_) (by omega) (by omega) ?_
    · refine Prog.All.bind (P := fun _ => True) (Prog.All.read fun _ _ => trivial) fun _ _ => ?_
      exact Prog.All.bind (P := fun _ => True) (Prog.All.read fun _ _ => trivial) fun _ _ => addTo_all
    · exact Prog.All.bind (P := fun _ => False) (Prog.All.bad fun v => by rw [hq]; simp) fun _ h => h.elim

/-- The loop over the columns is undefined if the regular kernel is chosen and the number of nonzeros per column, or one of the row indices
it then asks for, does not exist. -/
theorem cscColumns_undef {sched : List Nat} {layoutB layoutC : Layout} {n m : Int} {vals : Buf T} {idxs pt : Buf Int} {B b : Buf T} {ldb ldc : Int}
    (hn : 1 ≤ n) (h : pt 1 = .none ∨ ∃ k q, pt 1 = .val k ∧ 0 < k ∧ 0 ≤ q ∧ q < m * k ∧ idxs q = .none) :
    M.Undef (cscColumns sched layoutB layoutC n m vals idxs pt true B ldb ldc) b := by
  unfold cscColumns
  refine parForI_undef (j := 0) (fun j _ _ => ?_) le_rfl (by omega) ?_ sched b
  · rw [if_pos rfl]
    exact Prog.All.bind (P := fun _ => True) (Prog.All.read fun _ _ => trivial) fun _ _ => applyRegular_all
  · rw [if_pos rfl]
    rcases h with h | ⟨k, q, h, hk, q0, q1, hq⟩
    · exact Prog.All.bind (P := fun _ => False) (Prog.All.bad fun v => by rw [h]; simp) fun _ h => h.elim
    · refine Prog.All.bind (P := fun a => a = k) (Prog.All.read fun v hv => ?_) ?_
      · rw [h] at hv; cases hv; rfl
      · rintro _ rfl
        exact applyRegular_bad hk q0 q1 hq

end

/-- All nonzeros are in the first column: the flag is set. -/
theorem fixed_true {pt : Buf Int} {m k : Int} (h : ∀ j, 1 ≤ j → j ≤ m → pt j = .val k) : fixedNnzPerCol pt m = .ok true := by
  have : Res.sat (fixedNnzPerCol pt m) (fun r => r = true) := by
    unfold fixedNnzPerCol
    by_cases hm : m + 1 ≤ 2
    · unfold foldI
      rw [show (m + 1 - 2).toNat = 0 by omega]
      exact ⟨true, rfl, rfl⟩
    refine Res.sat_foldI (fun _ r => r = true) (by omega) rfl ?_ (fun _ h => h)
    rintro ell r h0 h1 rfl
    rw [if_pos rfl]
    simp only [Res.sat_bind]
    exact ⟨_, Buf.rd_val (h 1 le_rfl (by omega)), _, Buf.rd_val (h ell (by omega) (by omega)), _, rfl, by simp⟩
  obtain ⟨a, h1, h2⟩ := this
  rw [h1, h2]

/-- What the failure of `RegularOk` means. -/
theorem not_regularOk {m : Int} {W : List (Entry T)} (hm : 0 ≤ m) (h : ¬ RegularOk m W) : m = 0 ∨ (2 ≤ m ∧ W ≠ [] ∧ ∀ e ∈ W, e.col = 0) := by
  by_cases h0 : m = 0
  · exact Or.inl h0
  right
  by_cases hex : 2 ≤ m ∧ W ≠ [] ∧ ∀ e ∈ W, e.col = 0
  · exact hex
  · exfalso
    refine h ⟨by omega, fun h2 hne => ?_⟩
    by_contra hno
    push Not at hno
    exact hex ⟨h2, hne, hno⟩

theorem ptr_first {m : Int} {W : List (Entry T)} {pt idxs : Buf Int} {vals : Buf T} {base : Int} (h : CsIs Entry.col Entry.row m base pt idxs vals W)
    (hm : 1 ≤ m) (hc : ∀ e ∈ W, e.col = 0) (hW : W ≠ []) : ∀ j, 1 ≤ j → j ≤ m → pt j = .val W.length := by
  obtain ⟨p, hp, hp0, hpn, hmono, hsl⟩ := h.ptrs
  intro j j1 jm
  rw [hp j (by omega) jm]
  have hpos : 0 < W.length := List.length_pos_iff.mpr hW
  have a := hsl (W.length - 1) (by omega)
  rw [hc _ (List.getElem_mem _)] at a
  have b := CsIs.ptr_le hmono (show (0:Int) ≤ 0 + 1 by omega) (show 0 + 1 ≤ j by omega) jm
  have c := CsIs.ptr_le hmono (show (0:Int) ≤ j by omega) jm le_rfl
  congr 1; omega

theorem cscLeftJki_undef [Zero T] [One T] [Add T] [Mul T] [BEq T] {E : List (Entry T)} {A : CscMat T} (h : CscIs A E) (hb : A.indexBase = .Zero)
    {alpha : T} {layoutB layoutC : Layout} {n : Int} {B b : Buf T} {ldb ldc : Int} (hm : 0 ≤ A.nCols) (hn : 1 ≤ n) (hK : ¬ RegularOk A.nCols E)
    (hx : ExactArrays (.csc A)) (sched : List Nat) :
    M.Undef (cscLeftJki sched alpha layoutB layoutC A.nRows n A.nCols A B ldb ldc) b := by
  unfold cscLeftJki
  refine M.Undef.after ?_
  rw [M.wp_require]
  refine ⟨hb, M.Undef.after ?_⟩
  rw [h.nnz]
  refine M.wp_mono (scaledVals_spec (E := E) fun l hl => (h.data.data l hl).1) ?_
  rintro vals' _ ⟨rfl, -⟩
  refine M.Undef.after ?_
  rw [M.wp_require]
  refine ⟨rfl, M.Undef.after ?_⟩
  rw [M.wp_require]
  refine ⟨rfl, M.Undef.after ?_⟩
  rw [M.wp_lift]
  rcases not_regularOk hm hK with g | ⟨g1, g2, g3⟩
  · refine ⟨true, ?_, cscColumns_undef hn (Or.inl (hx.2 1 (by omega)))⟩
    exact fixed_true (k := 0) fun j j1 j2 => by omega
  · have hp := ptr_first h.data (by omega) g3 g2
    have hpos : 0 < E.length := List.length_pos_iff.mpr g2
    refine ⟨true, fixed_true hp, cscColumns_undef hn (Or.inr ⟨E.length, E.length, hp 1 le_rfl (by omega), by omega, by omega, ?_, ?_⟩)⟩
    · nlinarith
    · exact hx.1 _ (by rw [h.nnz])

theorem leftSpmmCscN_undef [Zero T] [One T] [Add T] [Mul T] [BEq T] {E : List (Entry T)} {A : CscMat T} (h : CscIs A E) (hb : A.indexBase = .Zero)
    {alpha beta : T} (ha : (alpha == 0) = false) {layout : Layout} {opB : Op} (hl : ¬ (layout = .RowMajor ∧ opB = .NoTrans)) {n : Int} {B b : Buf T}
    {ldb ldc : Int} {C : Int → Int → T} (hd : 0 ≤ A.nRows) (hm : 0 ≤ A.nCols) (hn : 1 ≤ n) (hK : ¬ RegularOk A.nCols E) (hx : ExactArrays (.csc A))
    (hldb : LdOk layout ldb (rowsOf opB A.nCols n) (colsOf opB A.nCols n)) (hldc : LdOk layout ldc A.nRows n)
    (hal : Alloc b layout ldc A.nRows n) (hC : (beta == 0) = false → Holds b layout ldc A.nRows n C) (sched : List Nat) (nt : Int) :
    M.Undef (leftSpmmCscN sched nt layout opB A.nRows n A.nCols alpha A 0 0 B ldb beta ldc) b := by
  unfold leftSpmmCscN
  refine M.Undef.after ?_
  rw [M.wp_require]
  refine ⟨hb, M.Undef.after ?_⟩
  rw [M.wp_require]
  refine ⟨rfl, M.Undef.after ?_⟩
  rw [M.wp_require]
  refine ⟨rfl, M.Undef.after ?_⟩
  rw [M.wp_require]
  refine ⟨rfl, M.Undef.after ?_⟩
  rw [M.wp_require]
  refine ⟨rfl, M.Undef.after ?_⟩
  refine M.wp_mono (spmmScale_spec hd (by omega) hldb hldc hal hC) fun _ b' _ => ?_
  rw [if_neg (by rw [ha]; simp), if_neg (rowRow.not.mpr hl)]
  exact cscLeftJki_undef h hb hm hn hK hx sched

theorem cooLeftCsc_undef [Zero T] [Add T] [Mul T] {E : List (Entry T)} {A : CooMat T} {alpha : T} {d n m ro co : Int} {B : Buf T}
    {layoutB layoutC : Layout} {ldb ldc : Int} {b : Buf T} (h : CooIs A E) (hb : A.indexBase = .Zero)
    (hs : E.Pairwise cscLe) (hm : 0 ≤ m) (hn : 1 ≤ n) (hK : ¬ RegularOk m (window ro co d m E)) (h0 : m = 0 → A.nnz < 2)
    (h2 : 2 ≤ m → A.nnz < m * (window ro co d m E).length) (sched : List Nat) :
    M.Undef (cooLeftCsc sched alpha layoutB layoutC d n m A ro co B ldb ldc) b := by
  have hd := h.data
  rw [hb] at hd
  have hre : rebase IndexBase.Zero.val E = E := by simp [rebase, IndexBase.val]
  rw [hre] at hd
  unfold cooLeftCsc
  rw [h.nnz] at h0 h2
  refine M.Undef.after ?_
  simp only [M.wp_when, h.nnz]
  refine ⟨fun g => by omega, fun _ => M.Undef.after ?_⟩
  rw [M.wp_onLocal]
  set W := window ro co d m E with hW
  have hWl : W.length ≤ E.length := window_length_le ro co d m E
  refine M.wp_mono (setFilteredCoo_spec (A := A.bufs) hd ?_ ro co d m) ?_
  · intro p p0 p1
    exact ⟨fill_alloc p0 p1, fill_alloc p0 p1, fill_alloc p0 (by omega)⟩
  rintro k r ⟨rfl, rfl⟩
  have hov := overE_holds W (⟨Buf.fill E.length 0, Buf.fill E.length 0, Buf.fill (max E.length (m + 1)) 0⟩ : CooBufs T)
  refine M.Undef.after ?_
  rw [M.wp_onLocal]
  refine M.wp_mono (blasScal_spec1 (E := W) (fun l hl => (hov l hl).1)) ?_
  rintro _ vals' -
  refine M.Undef.after ?_
  rw [M.wp_onLocal]
  refine M.wp_mono (sortedToPtr_spec (major := Entry.col) (E := W) (n := m) (fun l hl => (hov l hl).2.2) (by omega) ?_ ?_ (window_sorted hs)) ?_
  · intro p p0 p1
    exact Buf.overL_ne_none (fill_alloc p0 (by omega))
  · intro e he; exact (window_rng e he).2.1
  rintro _ pt ⟨hpt, hpo⟩
  refine M.Undef.after ?_
  rw [M.wp_lift]
  rcases not_regularOk hm hK with rfl | ⟨g1, g2, g3⟩
  · refine ⟨true, fixed_true (k := 0) fun j j1 j2 => by omega, cscColumns_undef hn (Or.inl ?_)⟩
    have hWn : W = [] := by
      rcases hWc : W with _ | ⟨e, W'⟩
      · rfl
      · have := window_rng (ro := ro) (co := co) (d := d) (m := 0) (E := E) e (by rw [← hW, hWc]; simp)
        simp only [Rng] at this; omega
    show pt 1 = _
    rw [hpo 1 (by omega), ← hW, hWn, CooBufs.overE_nil]
    simp only [Buf.fill]
    rw [if_neg (by have := h0 rfl; omega)]
  · have hp : ∀ j, 1 ≤ j → j ≤ m → pt j = .val W.length := by
      intro j j1 jm
      rw [hpt j (by omega) jm, below_all fun e he => by rw [g3 e he]; omega]
    refine ⟨true, fixed_true hp, cscColumns_undef hn (Or.inr ⟨W.length, E.length, hp 1 le_rfl (by omega), ?_, by omega, h2 g1, ?_⟩)⟩
    · have := List.length_pos_iff.mpr g2; omega
    · have o := overE_beyond W (⟨Buf.fill E.length 0, Buf.fill E.length 0, Buf.fill (max E.length (m + 1)) 0⟩ : CooBufs T) (q := E.length) (by omega)
      rw [o.2]
      simp only [Buf.fill]
      rw [if_neg (by omega)]

theorem cooLeftJki_undef [Zero T] [Add T] [Mul T] {E : List (Entry T)} {A : CooMat T}
    {srt : (Int × Int × T → Int × Int × T → Bool) → List (Int × Int × T) → List (Int × Int × T)} (hsrt : SortOk srt)
    (h : CooIs A E) (hb : A.indexBase = .Zero) (hs : SortedBy A.sort E) {alpha : T} {d n m ro co : Int} {B b : Buf T}
    {layoutB layoutC : Layout} {ldb ldc : Int} (hm : 0 ≤ m) (hn : 1 ≤ n) (hK : ¬ RegularOk m (window ro co d m E)) (h0 : m = 0 → A.nnz < 2)
    (h2 : 2 ≤ m → A.nnz < m * (window ro co d m E).length) (sched : List Nat) :
    M.Undef (cooLeftJki srt sched alpha layoutB layoutC d n m ro co B ldb ldc) (A, b) := by
  unfold cooLeftJki
  refine M.Undef.after ?_
  rw [M.wp_get]
  refine M.Undef.after ?_
  rw [M.wp_require]
  refine ⟨hb, ?_⟩
  by_cases hc : A.sort = .CSC
  · rw [if_neg (by simpa using hc)]
    rw [hc] at hs
    exact M.Undef.zoom (cooLeftCsc_undef h hb hs hm hn hK h0 h2 sched)
  · rw [if_pos hc]
    refine M.Undef.after ?_
    obtain ⟨a1, A1, hr1, E1, g1, g2, g3, g4, -⟩ := M.wp_run (sortCooData_spec hsrt (s := .CSC) h)
    have hb1 : A1.indexBase = .Zero := by rw [g4]; exact hb
    have hp := window_perm (ro := ro) (co := co) (d := d) (m := m) g2
    simp only [onSp, M.wp_zoom]
    refine ⟨_, _, hr1, M.Undef.after ?_⟩
    rw [M.wp_get]
    refine M.Undef.bind (M.Undef.zoom (cooLeftCsc_undef g1 hb1 g3 hm hn (fun g => hK (RegularOk.perm g hp)) ?_ ?_ sched))
    · intro g; rw [g1.nnz, g2.length_eq, ← h.nnz]; exact h0 g
    · intro g; rw [g1.nnz, g2.length_eq, ← h.nnz, hp.length_eq]; exact h2 g

theorem leftSpmmCooN_undef [Zero T] [Add T] [Mul T] [BEq T] {E : List (Entry T)} {A : CooMat T}
    {srt : (Int × Int × T → Int × Int × T → Bool) → List (Int × Int × T) → List (Int × Int × T)} (hsrt : SortOk srt)
    (h : CooIs A E) (hb : A.indexBase = .Zero) (hs : SortedBy A.sort E) {alpha beta : T} (ha : (alpha == 0) = false) {d n m ro co : Int} {B b : Buf T}
    {layout : Layout} {opB : Op} {ldb ldc : Int} {C : Int → Int → T} (hd1 : d ≤ A.nRows) (hm1 : m ≤ A.nCols) (hd : 0 ≤ d) (hm : 0 ≤ m) (hn : 1 ≤ n)
    (hK : ¬ RegularOk m (window ro co d m E)) (h0 : m = 0 → A.nnz < 2) (h2 : 2 ≤ m → A.nnz < m * (window ro co d m E).length)
    (hldb : LdOk layout ldb (rowsOf opB m n) (colsOf opB m n)) (hldc : LdOk layout ldc d n)
    (hal : Alloc b layout ldc d n) (hC : (beta == 0) = false → Holds b layout ldc d n C) (sched : List Nat) :
    M.Undef (leftSpmmCooN srt sched layout opB d n m alpha ro co B ldb beta ldc) (A, b) := by
  unfold leftSpmmCooN
  refine M.Undef.after ?_
  rw [M.wp_get]
  refine M.Undef.after ?_
  rw [M.wp_require]
  refine ⟨hb, M.Undef.after ?_⟩
  rw [M.wp_require]
  refine ⟨hd1, M.Undef.after ?_⟩
  rw [M.wp_require]
  refine ⟨hm1, M.Undef.after ?_⟩
  simp only [onC, M.wp_zoom]
  refine M.wp_mono (spmmScale_spec hd (by omega) hldb hldc hal hC) fun _ b' _ => ?_
  rw [if_neg (by rw [ha]; simp)]
  exact cooLeftJki_undef hsrt h hb hs hm hn hK h0 h2 sched

end RB
