import Verif.Lemmas.SparseData

/-! # Lemmas about reserving memory and converting between sparse formats -/

namespace RB
open Spec
variable {T X : Type}

/-! ## Reserving memory -/

theorem reserveCoo_spec {A : CooMat T} (h1 : A.ownMemory = true) (h2 : A.vals = none) (h3 : A.rows = none) (h4 : A.cols = none) (nnz : Int) :
    reserveCoo nnz A = (.ok (), { A with
      nnz := nnz, vals := if nnz > 0 then some (Buf.alloc T nnz) else none, rows := if nnz > 0 then some (Buf.alloc Int nnz) else none,
      cols := if nnz > 0 then some (Buf.alloc Int nnz) else none }) := by
  obtain ⟨a, b, c, d, e, v, r, cl, s⟩ := A
  simp only at h1 h2 h3 h4
  subst h1 h2 h3 h4
  by_cases h : nnz > 0 <;> simp [reserveCoo, M.bind_eq, M.bind, M.get, M.require, M.modify, M.when, M.lift, h, pure] <;> rfl

theorem newZero_ok {σ : Type} [Zero X] {n : Int} (h : 0 ≤ n) (s : σ) : (newZero n : M σ (Option (Buf X))) s = (.ok (some (Buf.fill n 0)), s) := by
  unfold newZero; rw [if_neg (by omega)]; rfl

theorem reserveCsc_spec [Zero T] {A : CscMat T} (h1 : A.ownMemory = true) (h2 : A.vals = none) (h3 : A.rowidxs = none)
    (h4 : 0 ≤ A.nCols + 1) (nnz : Int) :
    reserveCsc nnz A = (.ok (), { A with
      nnz := nnz, vals := if nnz > 0 then some (Buf.fill nnz 0) else none, rowidxs := if nnz > 0 then some (Buf.fill nnz 0) else none,
      colptr := some (A.colptr.getD (Buf.fill (A.nCols + 1) 0)) }) := by
  obtain ⟨a, b, c, d, e, v, r, cl⟩ := A
  simp only at h1 h2 h3 h4
  subst h1 h2 h3
  cases cl <;> by_cases h : nnz > 0 <;>
    simp [reserveCsc, M.bind_eq, M.bind, M.get, M.require, M.modify, M.when, M.lift, h, pure, newZero_ok h4] <;> rfl

theorem reserveCsr_spec [Zero T] {A : CsrMat T} (h1 : A.ownMemory = true) (h2 : A.vals = none) (h3 : A.colidxs = none)
    (h4 : 0 ≤ A.nRows + 1) (nnz : Int) :
    reserveCsr nnz A = (.ok (), { A with
      nnz := nnz, vals := if nnz > 0 then some (Buf.fill nnz 0) else none, colidxs := if nnz > 0 then some (Buf.fill nnz 0) else none,
      rowptr := some (A.rowptr.getD (Buf.fill (A.nRows + 1) 0)) }) := by
  obtain ⟨a, b, c, d, e, v, r, cl⟩ := A
  simp only at h1 h2 h3 h4
  subst h1 h2 h3
  cases r <;> by_cases h : nnz > 0 <;>
    simp [reserveCsr, M.bind_eq, M.bind, M.get, M.require, M.modify, M.when, M.lift, h, pure, newZero_ok h4] <;> rfl

theorem fill_alloc {n p : Int} {v : X} (h0 : 0 ≤ p) (h1 : p < n) : Buf.fill n v p ≠ .none := by
  simp [Buf.fill, h0, h1]

/-! ## Splitting a sorted list by its major index -/

/-- The number of entries whose major index is below `j`. -/
def below (major : Entry T → Int) (E : List (Entry T)) (j : Int) : Int := (E.countP fun e => major e < j : Nat)

theorem below_split {major : Entry T → Int} {E : List (Entry T)} {j : Int} {l : Nat} (hl : l ≤ E.length)
    (h1 : ∀ (q : Nat) (h : q < E.length), q < l → major E[q] < j) (h2 : ∀ (q : Nat) (h : q < E.length), l ≤ q → j ≤ major E[q]) :
    below major E j = l := by
  unfold below
  rw [← List.take_append_drop l E, List.countP_append]
  have e1 : (E.take l).countP (fun e => major e < j) = l := by
    rw [List.countP_eq_length.mpr]
    · simp [hl]
    · intro a ha
      obtain ⟨q, hq, rfl⟩ := List.getElem_of_mem ha
      rw [List.getElem_take]
      simp only [List.length_take] at hq
      simpa using h1 q (by omega) (by omega)
  have e2 : (E.drop l).countP (fun e => major e < j) = 0 := by
    rw [List.countP_eq_zero]
    intro a ha
    obtain ⟨q, hq, rfl⟩ := List.getElem_of_mem ha
    rw [List.getElem_drop]
    simp only [List.length_drop] at hq
    have := h2 (l + q) (by omega) (by omega)
    simpa using this
  rw [e1, e2]; simp

theorem below_mono (major : Entry T → Int) (E : List (Entry T)) {i j : Int} (h : i ≤ j) : below major E i ≤ below major E j := by
  unfold below
  have := List.countP_mono_left (l := E) (p := fun e => decide (major e < i)) (q := fun e => decide (major e < j))
    (by intro x _ hx; simp at hx ⊢; omega)
  exact_mod_cast this

theorem below_zero {major : Entry T → Int} {E : List (Entry T)} (h : ∀ e ∈ E, 0 ≤ major e) : below major E 0 = 0 := by
  unfold below
  rw [List.countP_eq_zero.mpr]
  · rfl
  · intro a ha; have := h a ha; simp; omega

theorem below_all {major : Entry T → Int} {E : List (Entry T)} {n : Int} (h : ∀ e ∈ E, major e < n) : below major E n = E.length := by
  unfold below
  rw [List.countP_eq_length.mpr]
  intro a ha; simpa using h a ha

/-- In a list sorted by major index, entry `l` lies in the slice of its major index. -/
theorem below_slice {major : Entry T → Int} {E : List (Entry T)} (hs : E.Pairwise fun a b => major a ≤ major b) {l : Nat} (h : l < E.length) :
    below major E (major E[l]) ≤ l ∧ (l : Int) < below major E (major E[l] + 1) := by
  have hp : ∀ a b : Nat, ∀ (ha : a < E.length) (hb : b < E.length), a < b → major E[a] ≤ major E[b] := List.pairwise_iff_getElem.mp hs
  have hp' : ∀ q, ∀ (hq : q < E.length), (l ≤ q → major E[l] ≤ major E[q]) ∧ (q ≤ l → major E[q] ≤ major E[l]) := by
    intro q hq
    rcases Nat.lt_trichotomy q l with g | g | g
    · exact ⟨fun _ => by omega, fun _ => hp q l hq h g⟩
    · subst g; exact ⟨fun _ => le_rfl, fun _ => le_rfl⟩
    · exact ⟨fun _ => hp l q h hq g, fun _ => by omega⟩
  generalize major E[l] = x at hp' ⊢
  constructor
  · unfold below
    have e2 : (E.drop l).countP (fun e => major e < x) = 0 := by
      rw [List.countP_eq_zero]
      intro a ha
      obtain ⟨q, hq, rfl⟩ := List.getElem_of_mem ha
      rw [List.getElem_drop]
      simp only [List.length_drop] at hq
      have := (hp' (l + q) (by omega)).1 (by omega)
      simpa using this
    have e1 := List.countP_le_length (l := E.take l) (p := fun e => decide (major e < x))
    have e3 : E.countP (fun e => major e < x) = (E.take l).countP (fun e => major e < x) + 0 := by
      conv_lhs => rw [← List.take_append_drop l E, List.countP_append, e2]
    rw [e3]
    simp only [List.length_take] at e1
    push_cast
    omega
  · unfold below
    have e1 : (E.take (l + 1)).countP (fun e => major e < x + 1) = l + 1 := by
      rw [List.countP_eq_length.mpr]
      · simp; omega
      · intro a ha
        obtain ⟨q, hq, rfl⟩ := List.getElem_of_mem ha
        rw [List.getElem_take]
        simp only [List.length_take] at hq
        have := (hp' q (by omega)).2 (by omega)
        simp; omega
    have e3 : E.countP (fun e => major e < x + 1) = l + 1 + (E.drop (l + 1)).countP (fun e => major e < x + 1) := by
      conv_lhs => rw [← List.take_append_drop (l + 1) E, List.countP_append, e1]
    rw [e3]; push_cast; omega

/-! ## Sorted coordinate data to compressed data -/

/-- Index and value arrays filled from the front. -/
def CsBufs.overC (minor : Entry T → Int) (E : List (Entry T)) (b : CsBufs T) : CsBufs T :=
  { b with idxs := Buf.overL (E.map minor) b.idxs, vals := Buf.overL (E.map Entry.val) b.vals }

/-- Cells `0 .. n-1` of the index and value arrays are allocated. -/
def CsBufs.Alloc (b : CsBufs T) (n : Int) : Prop := ∀ p, 0 ≤ p → p < n → b.idxs p ≠ .none ∧ b.vals p ≠ .none

theorem overC_push {minor : Entry T → Int} {E : List (Entry T)} {b : CsBufs T} {q : Nat} (h : q < E.length) :
    b.overC minor (E.take (q + 1)) =
      { b with idxs := (b.overC minor (E.take q)).idxs.set q (minor E[q]), vals := (b.overC minor (E.take q)).vals.set q E[q].val } := by
  have hl : (E.take q).length = q := by simp; omega
  simp only [CsBufs.overC]
  rw [map_take_succ minor h, map_take_succ Entry.val h, ← Buf.overL_push, ← Buf.overL_push]
  simp only [List.length_map, hl]

theorem compressWhile_spec {major minor : Entry T → Int} {E : List (Entry T)} {cmaj cmin : Buf Int} {cvals : Buf T} {j : Int} {b : CsBufs T}
    (h : ∀ (p : Nat) (h : p < E.length), cmaj p = .val (major E[p]) ∧ cmin p = .val (minor E[p]) ∧ cvals p = .val E[p].val)
    (hal : b.Alloc E.length) (fuel l : Nat) (hf : l + fuel = E.length) :
    M.wp (compressWhile E.length cmaj cmin cvals j fuel l) (b.overC minor (E.take l)) (fun l' b' => ∃ l'' : Nat, l' = l'' ∧ l ≤ l'' ∧
      l'' ≤ E.length ∧ b' = b.overC minor (E.take l'') ∧ (∀ (q : Nat) (h : q < E.length), l ≤ q → q < l'' → major E[q] = j) ∧
      ∀ (h : l'' < E.length), major E[l''] ≠ j) := by
  induction fuel generalizing l with
  | zero =>
    unfold compressWhile
    rw [M.wp_pure]
    exact ⟨l, rfl, le_rfl, by omega, rfl, fun q _ h1 h2 => by omega, fun h => by omega⟩
  | succ fuel ih =>
    unfold compressWhile
    obtain ⟨h1, h2, h3⟩ := h l (by omega)
    rw [M.wp_bind, M.wp_lift]
    refine ⟨_, Buf.rd_val h1, ?_⟩
    split_ifs with hj
    · simp only [M.wp_bind, M.wp_lift, onIdxs, onCsVals, M.wp_zoom, M.wp_wr]
      obtain ⟨a1, a2⟩ := hal l (by omega) (by omega)
      refine ⟨_, Buf.rd_val h2, Buf.overL_ne_none a1, _, Buf.rd_val h3, Buf.overL_ne_none a2, ?_⟩
      have := ih (l + 1) (by omega)
      rw [overC_push (by omega)] at this
      push_cast at this
      refine M.wp_mono this ?_
      rintro l' b' ⟨l'', r1, r2, r3, r4, r5, r6⟩
      refine ⟨l'', r1, by omega, r3, r4, fun q hq q1 q2 => ?_, r6⟩
      rcases Nat.eq_or_lt_of_le q1 with q3 | q3
      · subst q3; exact hj
      · exact r5 q hq q3 q2
    · rw [M.wp_pure]
      exact ⟨l, rfl, le_rfl, by omega, rfl, fun q _ h1 h2 => by omega, fun _ => hj⟩

theorem compressSweep_spec {major minor : Entry T → Int} {E : List (Entry T)} {cmaj cmin : Buf Int} {cvals : Buf T} {n : Int} {b : CsBufs T}
    (h : ∀ (p : Nat) (h : p < E.length), cmaj p = .val (major E[p]) ∧ cmin p = .val (minor E[p]) ∧ cvals p = .val E[p].val)
    (hal : b.Alloc E.length) (hptr : ∀ p, 0 ≤ p → p ≤ n → b.ptr p ≠ .none) (hn : 0 ≤ n)
    (hr : ∀ e ∈ E, 0 ≤ major e ∧ major e < n) (hs : E.Pairwise fun a b => major a ≤ major b) :
    M.wp (compressSweep n E.length cmaj cmin cvals) b (fun _ b' => CsIs major minor n 0 b'.ptr b'.idxs b'.vals E) := by
  have hp := List.pairwise_iff_getElem.mp hs
  unfold compressSweep
  simp only [M.wp_bind, onPtr, M.wp_zoom, M.wp_wr]
  refine ⟨hptr 0 le_rfl hn, ?_⟩
  refine M.wp_foldI (fun j l b' => ∃ l' : Nat, l = l' ∧ l' ≤ E.length ∧ b'.idxs = (b.overC minor (E.take l')).idxs ∧
    b'.vals = (b.overC minor (E.take l')).vals ∧ (∀ (q : Nat) (h : q < E.length), q < l' → major E[q] < j) ∧
    (∀ (q : Nat) (h : q < E.length), l' ≤ q → j ≤ major E[q]) ∧ (∀ p, 0 ≤ p → p ≤ j → b'.ptr p = .val (below major E p)) ∧
    (∀ p, 0 ≤ p → p ≤ n → b'.ptr p ≠ .none)) hn ?_ ?_ ?_
  · refine ⟨0, rfl, by omega, ?_, ?_, fun q _ h => by omega, fun q hq _ => (hr _ (List.getElem_mem hq)).1, ?_, ?_⟩
    · simp [CsBufs.overC, Buf.overL_nil]
    · simp [CsBufs.overC, Buf.overL_nil]
    · intro p h0 h1
      have : p = 0 := by omega
      subst this
      simp only
      rw [Buf.set_same, below_zero fun e he => (hr e he).1]
    · intro p h0 h1
      simp only
      rw [Buf.set_apply]; split_ifs
      · simp
      · exact hptr p h0 h1
  · rintro j l b' h0 h1 ⟨l', rfl, hl, hi, hv, hlt, hge, hpt, hpa⟩
    have hb' : b' = ({ b with ptr := b'.ptr } : CsBufs T).overC minor (E.take l') := by
      obtain ⟨x, y, z⟩ := b'
      simp only [CsBufs.overC] at hi hv ⊢
      rw [hi, hv]
    have := compressWhile_spec (j := j) (b := { b with ptr := b'.ptr }) h hal (E.length - l') l' (by omega)
    rw [← hb'] at this
    rw [show ((E.length : Int) - l').toNat = E.length - l' by omega]
    rw [M.wp_bind]
    refine M.wp_mono this ?_
    rintro _ b'' ⟨l'', rfl, r2, r3, rfl, r5, r6⟩
    simp only [M.wp_bind, M.wp_zoom, M.wp_wr, M.wp_pure]
    have hlt' : ∀ (q : Nat) (h : q < E.length), q < l'' → major E[q] < j + 1 := by
      intro q hq hq'
      rcases Nat.lt_or_ge q l' with g | g
      · have := hlt q hq g; omega
      · have := r5 q hq g hq'; omega
    have hge' : ∀ (q : Nat) (h : q < E.length), l'' ≤ q → j + 1 ≤ major E[q] := by
      intro q hq hq'
      have g1 := r6 (by omega)
      have g2 := hge l'' (by omega) (by omega)
      rcases Nat.eq_or_lt_of_le hq' with g3 | g3
      · subst g3; omega
      · have := hp l'' q (by omega) hq g3; omega
    refine ⟨hpa (j + 1) (by omega) (by omega), l'', rfl, r3, rfl, rfl, hlt', hge', ?_, ?_⟩
    · intro p p0 p1
      simp only [CsBufs.overC]
      rw [Buf.set_apply]
      split_ifs with hpj
      · rw [hpj, below_split r3 hlt' hge']
      · exact hpt p p0 (by omega)
    · intro p p0 p1
      simp only [CsBufs.overC]
      rw [Buf.set_apply]; split_ifs
      · simp
      · exact hpa p p0 p1
  · rintro l b' ⟨l', rfl, hl, hi, hv, hlt, hge, hpt, -⟩
    have hll : l' = E.length := by
      by_contra hne
      have := hge l' (by omega) le_rfl
      have := (hr _ (List.getElem_mem (show l' < E.length by omega))).2
      omega
    subst hll
    rw [M.wp_pure]
    refine ⟨⟨below major E, hpt, below_zero fun e he => (hr e he).1, below_all fun e he => (hr e he).2,
      fun j _ _ => below_mono major E (by omega), fun l hl => ?_⟩, fun l hl => ?_⟩
    · have := hr _ (List.getElem_mem hl)
      exact ⟨this.1, this.2, below_slice hs hl⟩
    · rw [hi, hv]
      simp only [CsBufs.overC, List.take_length]
      rw [Buf.overL_get (by simpa using hl), Buf.overL_get (by simpa using hl)]
      simp

/-- Reserving and filling the arrays of a CSC object. -/
theorem csc_after_reserve [Zero T] {A : CscMat T} {n : Int} (h0 : 0 ≤ n) (m : M (CsBufs T) Unit) (Q : CscMat T → Prop) (E : List (Entry T))
    (hown : A.ownMemory = true) (hv : A.vals = none) (hi : A.rowidxs = none) (hn : A.nCols = n)
    (hcp : ∀ b, A.colptr = some b → ∀ p, 0 ≤ p → p ≤ n → b p ≠ .none)
    (hm : ∀ b : CsBufs T, b.Alloc E.length → (∀ p, 0 ≤ p → p ≤ n → b.ptr p ≠ .none) →
      M.wp m b (fun _ b' => CsIs Entry.col Entry.row n 0 b'.ptr b'.idxs b'.vals E))
    (hb : A.indexBase = .Zero)
    (hQ : ∀ A', CscIs A' E → A'.nRows = A.nRows → A'.nCols = A.nCols → A'.indexBase = .Zero → A'.ownMemory = true → Q A') :
    ∃ A1, reserveCsc (E.length : Int) A = (.ok (), A1) ∧ M.wp (M.zoom CscMat.bufs CscMat.withBufs m) A1 (fun _ A' => Q A') := by
  refine ⟨_, reserveCsc_spec hown hv hi (by omega) _, ?_⟩
  rw [M.wp_zoom]
  have hptr : ∀ p, 0 ≤ p → p ≤ n → (A.colptr.getD (Buf.fill (A.nCols + 1) 0)) p ≠ .none := by
    intro p p0 p1
    cases hc : A.colptr with
    | none => exact fill_alloc p0 (by omega)
    | some b => exact hcp b hc p p0 p1
  refine M.wp_mono (hm _ ?_ hptr) ?_
  · intro p p0 p1
    have : (E.length : Int) > 0 := by omega
    simp only [CscMat.bufs, if_pos this, ptr, Option.getD_some]
    exact ⟨fill_alloc p0 p1, fill_alloc p0 p1⟩
  · rintro - b' hb'
    apply hQ
    · constructor
      · simp only [CscMat.withBufs]
      · simp only [CscMat.withBufs, hb, hn, IndexBase.val, Option.map_some]
        by_cases hE : (E.length : Int) > 0
        · simp only [if_pos hE, Option.map_some, ptr, Option.getD_some]; exact hb'
        · have : E = [] := List.eq_nil_of_length_eq_zero (by omega)
          subst this
          simp only [ptr, Option.getD_some]
          exact ⟨hb'.ptrs, fun l hl => by simp at hl⟩
    · rfl
    · rfl
    · exact hb
    · exact hown

/-- Reserving and filling the arrays of a CSR object. -/
theorem csr_after_reserve [Zero T] {A : CsrMat T} {n : Int} (h0 : 0 ≤ n) (m : M (CsBufs T) Unit) (Q : CsrMat T → Prop) (E : List (Entry T))
    (hown : A.ownMemory = true) (hv : A.vals = none) (hi : A.colidxs = none) (hn : A.nRows = n)
    (hcp : ∀ b, A.rowptr = some b → ∀ p, 0 ≤ p → p ≤ n → b p ≠ .none)
    (hm : ∀ b : CsBufs T, b.Alloc E.length → (∀ p, 0 ≤ p → p ≤ n → b.ptr p ≠ .none) →
      M.wp m b (fun _ b' => CsIs Entry.row Entry.col n 0 b'.ptr b'.idxs b'.vals E))
    (hb : A.indexBase = .Zero)
    (hQ : ∀ A', CsrIs A' E → A'.nRows = A.nRows → A'.nCols = A.nCols → A'.indexBase = .Zero → A'.ownMemory = true → Q A') :
    ∃ A1, reserveCsr (E.length : Int) A = (.ok (), A1) ∧ M.wp (M.zoom CsrMat.bufs CsrMat.withBufs m) A1 (fun _ A' => Q A') := by
  refine ⟨_, reserveCsr_spec hown hv hi (by omega) _, ?_⟩
  rw [M.wp_zoom]
  have hptr : ∀ p, 0 ≤ p → p ≤ n → (A.rowptr.getD (Buf.fill (A.nRows + 1) 0)) p ≠ .none := by
    intro p p0 p1
    cases hc : A.rowptr with
    | none => exact fill_alloc p0 (by omega)
    | some b => exact hcp b hc p p0 p1
  refine M.wp_mono (hm _ ?_ hptr) ?_
  · intro p p0 p1
    have : (E.length : Int) > 0 := by omega
    simp only [CsrMat.bufs, if_pos this, ptr, Option.getD_some]
    exact ⟨fill_alloc p0 p1, fill_alloc p0 p1⟩
  · rintro - b' hb'
    apply hQ
    · constructor
      · simp only [CsrMat.withBufs]
      · simp only [CsrMat.withBufs, hb, hn, IndexBase.val, Option.map_some]
        by_cases hE : (E.length : Int) > 0
        · simp only [if_pos hE, Option.map_some, ptr, Option.getD_some]; exact hb'
        · have : E = [] := List.eq_nil_of_length_eq_zero (by omega)
          subst this
          simp only [ptr, Option.getD_some]
          exact ⟨hb'.ptrs, fun l hl => by simp at hl⟩
    · rfl
    · rfl
    · exact hb
    · exact hown

/-! ## Slices of a compressed matrix -/

theorem CsIs.major_of_slice {major : Entry T → Int} {n : Int} {E : List (Entry T)} {p : Int → Int}
    (hmono : ∀ j, 0 ≤ j → j < n → p j ≤ p (j + 1))
    (hsl : ∀ (l : Nat) (h : l < E.length), 0 ≤ major E[l] ∧ major E[l] < n ∧ p (major E[l]) ≤ l ∧ l < p (major E[l] + 1))
    {j : Int} (h0 : 0 ≤ j) (hj : j < n) {l : Nat} (hl : l < E.length) (h1 : p j ≤ l) (h2 : (l : Int) < p (j + 1)) : major E[l] = j := by
  have hm : ∀ (d : Nat) (i : Int), 0 ≤ i → i + d ≤ n → p i ≤ p (i + d) := by
    intro d
    induction d with
    | zero => intro i _ _; simp
    | succ d ih =>
      intro i hi hd
      have a := ih i hi (by push_cast at hd; omega)
      have b := hmono (i + d) (by omega) (by push_cast at hd; omega)
      push_cast; rw [← add_assoc]; omega
  obtain ⟨a, b, c, d⟩ := hsl l hl
  rcases lt_trichotomy (major E[l]) j with g | g | g
  · have := hm (j - (major E[l] + 1)).toNat (major E[l] + 1) (by omega) (by omega)
    rw [show major E[l] + 1 + ((j - (major E[l] + 1)).toNat : Int) = j by omega] at this
    omega
  · exact g
  · have := hm (major E[l] - (j + 1)).toNat (j + 1) (by omega) (by omega)
    rw [show j + 1 + ((major E[l] - (j + 1)).toNat : Int) = major E[l] by omega] at this
    omega

theorem CsIs.ptr_le {n : Int} {p : Int → Int} (hmono : ∀ j, 0 ≤ j → j < n → p j ≤ p (j + 1)) {i j : Int} (h0 : 0 ≤ i) (hij : i ≤ j)
    (hj : j ≤ n) : p i ≤ p j := by
  obtain ⟨d, rfl⟩ : ∃ d : Nat, j = i + d := ⟨(j - i).toNat, by omega⟩
  clear hij
  induction d with
  | zero => simp
  | succ d ih =>
    have a := ih (by push_cast at hj; omega)
    have b := hmono (i + d) (by omega) (by push_cast at hj; omega)
    push_cast; rw [← add_assoc]; omega

end RB
