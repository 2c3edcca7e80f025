import Verif.Lemmas.Convert
import Verif.Lemmas.SparseRun

/-!
# C25, C26, C27, C29, C30, C44: sparse matrix objects

`CooIs A E`, `CscIs A E`, `CsrIs A E` say that a COO, CSC or CSR object stores exactly the list of entries `E` (zero-based, in storage
order, duplicates allowed). `toMat E` is the matrix they represent. `srt` is the result of `std::sort`; `SortOk srt` is what the C++ standard
guarantees about it.
-/

namespace RB
open Spec
variable {T : Type}

/-- The type of the function computing the result of `std::sort` on triples. -/
abbrev SortFn (T : Type) := (Int × Int × T → Int × Int × T → Bool) → List (Int × Int × T) → List (Int × Int × T)

/-! ## C25 -/

/-- C25. `sort_coo_data(s, A)` keeps the multiset of entries, puts them in the order `s`, records `s`, and changes no other member.
For `s = None` the entries stay as they are. -/
theorem C25_sort {srt : SortFn T} (hs : SortOk srt) (s : NonzeroSort) {A : CooMat T} {E : List (Entry T)} (h : CooIs A E) :
    M.wp (sortCooData srt s) A (fun _ A' => ∃ E', CooIs A' E' ∧ E'.Perm E ∧ SortedBy s E' ∧ (s = .None → E' = E) ∧ A'.sort = s ∧
      A'.nRows = A.nRows ∧ A'.nCols = A.nCols ∧ A'.nnz = A.nnz ∧ A'.indexBase = A.indexBase ∧ A'.ownMemory = A.ownMemory) := by
  refine M.wp_mono (sortCooData_spec hs h) ?_
  rintro - A' ⟨E', h1, h2, h3, rfl, h5⟩
  exact ⟨E', h1, h2, h3, h5, rfl, rfl, rfl, rfl, rfl, rfl⟩

/-- C25. The sort type computed by the expert constructor of `COOMatrix` is CSC (CSR) only if the data is sorted that way, and it is
`None` only if the data is sorted in neither way. -/
theorem C25_sort_type (nRows nCols : Int) (vals : Option (Buf T)) (rows cols : Option (Buf Int)) (base : IndexBase) (E : List (Entry T))
    (h : CooHolds (ptr vals) (ptr rows) (ptr cols) (rebase base.val E)) :
    ∃ A, mkCooExpert nRows nCols E.length vals rows cols true base = .ok A ∧ CooIs A E ∧ A.nRows = nRows ∧ A.nCols = nCols ∧
      A.ownMemory = false ∧ A.indexBase = base ∧ (A.sort = .CSC ↔ SortedBy .CSC E) ∧
      (A.sort = .CSR ↔ ¬ SortedBy .CSC E ∧ SortedBy .CSR E) := by
  obtain ⟨s, h1, h2, h3⟩ := cooSortType_spec h
  rw [rebase_length] at h1
  refine ⟨⟨nRows, nCols, false, E.length, base, vals, rows, cols, s⟩, ?_, ⟨rfl, h⟩, rfl, rfl, rfl, rfl, ?_, ?_⟩
  · unfold mkCooExpert; rw [if_pos rfl, h1]; rfl
  · rw [← sortedBy_rebase .CSC base.val]; exact h2
  · rw [← sortedBy_rebase .CSC base.val, ← sortedBy_rebase .CSR base.val]; exact h3

/-- Merge sort behaves as `std::sort` must. -/
theorem mergeSort_sortOk {X : Type} : SortOk (X := X) fun lt l => l.mergeSort fun a b => !lt b a := by
  intro lt l hw
  refine ⟨List.mergeSort_perm _ _, ?_⟩
  have := List.pairwise_mergeSort (le := fun a b => !lt b a) ?_ ?_ l
  · exact this.imp fun h => by simpa using h
  · intro a b c h1 h2
    simp only [Bool.not_eq_true'] at *
    by_contra hc
    have hc : lt c a = true := by simpa using hc
    by_cases h3 : lt a b = true
    · rw [hw.trans c a b hc h3] at h2; simp at h2
    · by_cases h4 : lt b c = true
      · rw [hw.trans b c a h4 hc] at h1; simp at h1
      · have := (hw.incomp a b c (by simpa using h3) h1 (by simpa using h4) h2).2
        rw [hc] at this; simp at this
  · intro a b
    by_contra hc
    simp only [Bool.or_eq_true, Bool.not_eq_true', not_or, Bool.not_eq_false] at hc
    have := hw.trans a b a hc.2 hc.1
    rw [hw.irrefl] at this; simp at this

/-- A COO object with given arrays. -/
def cooOf (m n : Int) (base : IndexBase) (E : List (Entry T)) : CooMat T :=
  ⟨m, n, true, E.length, base, some (Buf.ofList (E.map Entry.val)), some (Buf.ofList ((rebase base.val E).map Entry.row)),
    some (Buf.ofList ((rebase base.val E).map Entry.col)), .None⟩

theorem cooOf_is (m n : Int) (base : IndexBase) (E : List (Entry T)) : CooIs (cooOf m n base E) E := by
  refine ⟨rfl, fun p hp => ?_⟩
  simp only [cooOf, ptr, Option.getD_some]
  have hp' : p < E.length := by simpa [rebase] using hp
  rw [ofList_get (by simpa using hp'), ofList_get (by simpa [rebase] using hp'), ofList_get (by simpa [rebase] using hp')]
  simp [rebase]

/-- Sample entries: unsorted, with a duplicate position, in a 3 x 3 matrix with an empty row and an empty column. -/
def sampleE : List (Entry ℤ) := [⟨2, 2, 5⟩, ⟨0, 2, 7⟩, ⟨2, 0, 1⟩, ⟨0, 2, 4⟩]

example : ∃ srt : SortFn ℤ, SortOk srt ∧ CooIs (cooOf 3 3 .One sampleE) sampleE ∧ InRange 3 3 sampleE ∧ ¬ SortedBy .CSC sampleE :=
  ⟨_, mergeSort_sortOk, cooOf_is _ _ _ _, by simp [InRange, sampleE], by simp [SortedBy, sampleE, cscLe]⟩

/-! ## C26 -/

/-- The state of a CSC object that `coo_to_csc` and `dense_to_csc` may fill: it owns its memory, has no index or value arrays, and its
pointer array, if there is one, has `n_cols + 1` elements. -/
structure CscEmpty (A : CscMat T) : Prop where
  own : A.ownMemory = true
  vals : A.vals = none
  rowidxs : A.rowidxs = none
  colptr : ∀ b, A.colptr = some b → ∀ p, 0 ≤ p → p ≤ A.nCols → b p ≠ .none
  base : A.indexBase = .Zero
  nCols : 0 ≤ A.nCols

/-- The same for CSR objects. -/
structure CsrEmpty (A : CsrMat T) : Prop where
  own : A.ownMemory = true
  vals : A.vals = none
  colidxs : A.colidxs = none
  rowptr : ∀ b, A.rowptr = some b → ∀ p, 0 ≤ p → p ≤ A.nRows → b p ≠ .none
  base : A.indexBase = .Zero
  nRows : 0 ≤ A.nRows

theorem inRange_perm {m n : Int} {E E' : List (Entry T)} (h : InRange m n E) (hp : E'.Perm E) : InRange m n E' :=
  fun e he => h e (hp.mem_iff.mp he)

/-- C26 (CSC). The result of `coo_to_csc` is a well-formed CSC matrix with the entries of the COO matrix; afterwards the COO object has
the same entries in the same (column by column) order. -/
theorem C26_csc [Zero T] {srt : SortFn T} (hs : SortOk srt) {coo : CooMat T} {csc : CscMat T} {E : List (Entry T)}
    (h : CooIs coo E) (hr : InRange coo.nRows coo.nCols E) (hb : coo.indexBase = .Zero) (hc : CscEmpty csc)
    (hd : csc.nRows = coo.nRows ∧ csc.nCols = coo.nCols) :
    M.wp (cooToCsc srt) (coo, csc) (fun _ s => ∃ E', E'.Perm E ∧ SortedBy .CSC E' ∧ CscIs s.2 E' ∧ CooIs s.1 E' ∧
      s.2.nRows = coo.nRows ∧ s.2.nCols = coo.nCols ∧ s.2.indexBase = .Zero ∧ s.2.ownMemory = true ∧ s.1.sort = .CSC ∧
      s.1.nRows = coo.nRows ∧ s.1.nCols = coo.nCols ∧ s.1.indexBase = .Zero) := by
  unfold cooToCsc
  simp only [M.wp_bind, M.wp_get, M.wp_require, M.wp_zoom]
  refine ⟨hd.1, trivial, hc.base, hb, ?_⟩
  refine M.wp_mono (sortCooData_spec hs h) ?_
  rintro - A' ⟨E', h1, h2, h3, rfl, -⟩
  generalize hA : ({ coo.withBufs (coo.bufs.overE (rebase coo.indexBase.val E')) with sort := NonzeroSort.CSC } : CooMat T) = A' at h1 ⊢
  have hA1 : A'.nRows = coo.nRows := by rw [← hA]; rfl
  have hA2 : A'.nCols = coo.nCols := by rw [← hA]; rfl
  have hA3 : A'.indexBase = coo.indexBase := by rw [← hA]; rfl
  have hA4 : A'.sort = .CSC := by rw [← hA]
  have hr' := inRange_perm hr h2
  have hdat : ∀ (p : Nat) (h : p < E'.length), (ptr A'.cols) p = .val E'[p].col ∧ (ptr A'.rows) p = .val E'[p].row ∧
      (ptr A'.vals) p = .val E'[p].val := by
    intro p hp
    have := h1.data p (by rwa [rebase_length])
    rw [hA3, hb] at this
    simp only [IndexBase.val, rebase_zero] at this
    exact ⟨this.2.2, this.2.1, this.1⟩
  obtain ⟨A1, r1, r2⟩ := csc_after_reserve (A := csc) (n := csc.nCols) hc.nCols
    (compressSweep A'.nCols A'.nnz (ptr A'.cols) (ptr A'.rows) (ptr A'.vals))
    (fun B => CscIs B E' ∧ B.nRows = coo.nRows ∧ B.nCols = coo.nCols ∧ B.indexBase = .Zero ∧ B.ownMemory = true) E'
    hc.own hc.vals hc.rowidxs rfl hc.colptr
    (by
      intro b a1 a2
      rw [hA2, h1.nnz, ← hd.2]
      exact compressSweep_spec hdat a1 a2 hc.nCols
        (fun e he => ⟨(hr' e he).2.2.1, by have := (hr' e he).2.2.2; omega⟩)
        (h3.imp fun {a b} hab => by simp only [cscLe] at hab; omega))
    hc.base
    (fun B q1 q2 q3 q4 q5 => ⟨q1, by rw [q2, hd.1], by rw [q3, hd.2], q4, q5⟩)
  have hnnz : coo.nnz = E'.length := by rw [h.nnz, h2.length_eq]
  have w1 : M.wp (reserveCsc coo.nnz) csc (fun _ s => s = A1) := by
    rw [hnnz]; unfold M.wp; rw [r1]; exact ⟨_, _, rfl, rfl⟩
  refine M.wp_mono w1 ?_
  rintro - _ rfl
  rw [M.wp_zoom] at r2
  refine M.wp_mono r2 ?_
  rintro - b ⟨q1, q2, q3, q4, q5⟩
  exact ⟨E', h2, h3, q1, h1, q2, q3, q4, q5, hA4, hA1, hA2, by rw [hA3, hb]⟩

/-- C26 (CSR). The result of `coo_to_csr` is a well-formed CSR matrix with the entries of the COO matrix; afterwards the COO object has
the same entries in the same (row by row) order. -/
theorem C26_csr [Zero T] {srt : SortFn T} (hs : SortOk srt) {coo : CooMat T} {csr : CsrMat T} {E : List (Entry T)}
    (h : CooIs coo E) (hr : InRange coo.nRows coo.nCols E) (hb : coo.indexBase = .Zero) (hc : CsrEmpty csr)
    (hd : csr.nRows = coo.nRows ∧ csr.nCols = coo.nCols) :
    M.wp (cooToCsr srt) (coo, csr) (fun _ s => ∃ E', E'.Perm E ∧ SortedBy .CSR E' ∧ CsrIs s.2 E' ∧ CooIs s.1 E' ∧
      s.2.nRows = coo.nRows ∧ s.2.nCols = coo.nCols ∧ s.2.indexBase = .Zero ∧ s.2.ownMemory = true ∧ s.1.sort = .CSR ∧
      s.1.nRows = coo.nRows ∧ s.1.nCols = coo.nCols ∧ s.1.indexBase = .Zero) := by
  unfold cooToCsr
  simp only [M.wp_bind, M.wp_get, M.wp_require, M.wp_zoom]
  refine ⟨hd.1, hd.2, hc.base, hb, ?_⟩
  refine M.wp_mono (sortCooData_spec hs h) ?_
  rintro - A' ⟨E', h1, h2, h3, rfl, -⟩
  generalize hA : ({ coo.withBufs (coo.bufs.overE (rebase coo.indexBase.val E')) with sort := NonzeroSort.CSR } : CooMat T) = A' at h1 ⊢
  have hA1 : A'.nRows = coo.nRows := by rw [← hA]; rfl
  have hA2 : A'.nCols = coo.nCols := by rw [← hA]; rfl
  have hA3 : A'.indexBase = coo.indexBase := by rw [← hA]; rfl
  have hA4 : A'.sort = .CSR := by rw [← hA]
  have hr' := inRange_perm hr h2
  have hdat : ∀ (p : Nat) (h : p < E'.length), (ptr A'.rows) p = .val E'[p].row ∧ (ptr A'.cols) p = .val E'[p].col ∧
      (ptr A'.vals) p = .val E'[p].val := by
    intro p hp
    have := h1.data p (by rwa [rebase_length])
    rw [hA3, hb] at this
    simp only [IndexBase.val, rebase_zero] at this
    exact ⟨this.2.1, this.2.2, this.1⟩
  obtain ⟨A1, r1, r2⟩ := csr_after_reserve (A := csr) (n := csr.nRows) hc.nRows
    (compressSweep A'.nRows A'.nnz (ptr A'.rows) (ptr A'.cols) (ptr A'.vals))
    (fun B => CsrIs B E' ∧ B.nRows = coo.nRows ∧ B.nCols = coo.nCols ∧ B.indexBase = .Zero ∧ B.ownMemory = true) E'
    hc.own hc.vals hc.colidxs rfl hc.rowptr
    (by
      intro b a1 a2
      rw [hA1, h1.nnz, ← hd.1]
      exact compressSweep_spec hdat a1 a2 hc.nRows
        (fun e he => ⟨(hr' e he).1, by have := (hr' e he).2.1; omega⟩)
        (h3.imp fun {a b} hab => by simp only [csrLe] at hab; omega))
    hc.base
    (fun B q1 q2 q3 q4 q5 => ⟨q1, by rw [q2, hd.1], by rw [q3, hd.2], q4, q5⟩)
  have hnnz : coo.nnz = E'.length := by rw [h.nnz, h2.length_eq]
  have w1 : M.wp (reserveCsr coo.nnz) csr (fun _ s => s = A1) := by
    rw [hnnz]; unfold M.wp; rw [r1]; exact ⟨_, _, rfl, rfl⟩
  refine M.wp_mono w1 ?_
  rintro - _ rfl
  rw [M.wp_zoom] at r2
  refine M.wp_mono r2 ?_
  rintro - b ⟨q1, q2, q3, q4, q5⟩
  exact ⟨E', h2, h3, q1, h1, q2, q3, q4, q5, hA4, hA1, hA2, by rw [hA3, hb]⟩

/-- C26. Permuted entries represent the same matrix, so `C26_csc` and `C26_csr` say that the matrix is preserved. -/
theorem C26_same_matrix [AddCommMonoid T] {E E' : List (Entry T)} (h : E'.Perm E) (i j : Int) : toMat E' i j = toMat E i j :=
  toMat_perm h i j

example : CooIs (cooOf 3 3 .Zero sampleE) sampleE ∧ InRange (cooOf 3 3 .Zero sampleE).nRows (cooOf 3 3 .Zero sampleE).nCols sampleE ∧
    (cooOf 3 3 .Zero sampleE).indexBase = .Zero ∧ CscEmpty (mkCsc 3 3 : CscMat ℤ) ∧ CsrEmpty (mkCsr 3 3 : CsrMat ℤ) :=
  ⟨cooOf_is _ _ _ _, by simp [InRange, sampleE, cooOf], rfl, ⟨rfl, rfl, rfl, by simp [mkCsc], rfl, by simp [mkCsc]⟩,
    ⟨rfl, rfl, rfl, by simp [mkCsr], rfl, by simp [mkCsr]⟩⟩

/-- `coo_to_csc` does not detect that the two objects have different numbers of columns (its check compares a value with itself): for a
1 x 2 COO matrix and a 1 x 1 CSC matrix it writes outside the pointer array. `coo_to_csr` raises an error in the same situation. -/
theorem C26_csc_dims_counterexample :
    (cooToCsc (fun _ l => l) (cooOf 1 2 .Zero [⟨0, 1, (5 : ℤ)⟩], mkCsc 1 1)).1 = .ub ∧
    (cooToCsr (fun _ l => l) (cooOf 1 2 .Zero [⟨0, 1, (5 : ℤ)⟩], mkCsr 1 1)).1 = .throw .require := by
  constructor <;> rfl

/-! ## C27 -/

/-- The state of a COO object that `csc_to_coo`, `csr_to_coo` and `dense_to_coo` may fill: it owns its memory and has no arrays. -/
structure CooEmpty (A : CooMat T) : Prop where
  own : A.ownMemory = true
  vals : A.vals = none
  rows : A.rows = none
  cols : A.cols = none
  base : A.indexBase = .Zero

theorem overE_after_reserve {A : CooMat T} (hc : CooEmpty A) (E : List (Entry T)) (m : M (CooBufs T) Unit) (Q : CooMat T → Prop)
    (hm : ∀ b : CooBufs T, b.Alloc E.length → M.wp m b (fun _ b' => b' = b.overE E))
    (hQ : ∀ A', CooIs A' E → A'.nRows = A.nRows → A'.nCols = A.nCols → A'.indexBase = .Zero → A'.ownMemory = true → A'.sort = A.sort → Q A') :
    ∃ A1, reserveCoo (E.length : Int) A = (.ok (), A1) ∧ M.wp (M.zoom CooMat.bufs CooMat.withBufs m) A1 (fun _ A' => Q A') := by
  refine ⟨_, reserveCoo_spec hc.own hc.vals hc.rows hc.cols _, ?_⟩
  rw [M.wp_zoom]
  refine M.wp_mono (hm _ ?_) ?_
  · intro p p0 p1
    have : (E.length : Int) > 0 := by omega
    simp only [CooMat.bufs, if_pos this, ptr, Option.getD_some]
    simp [Buf.alloc, p0, p1]
  · rintro - b' rfl
    apply hQ
    · constructor
      · simp only [CooMat.withBufs]
      · simp only [CooMat.withBufs, hc.base, IndexBase.val, rebase_zero]
        by_cases hE : (E.length : Int) > 0
        · simp only [if_pos hE, Option.map_some, ptr, Option.getD_some]; exact overE_holds E _
        · have : E = [] := List.eq_nil_of_length_eq_zero (by omega)
          subst this
          intro p hp; simp at hp
    · rfl
    · rfl
    · exact hc.base
    · exact hc.own
    · rfl

/-- The sweep of `csc_to_coo` writes array positions as row indices. -/
theorem cscToCooSweep_spec {n : Int} {pt idxs : Buf Int} {vals : Buf T} {E : List (Entry T)} (hn : 0 ≤ n)
    (h : CsIs Entry.col Entry.row n 0 pt idxs vals E) {b : CooBufs T} (hal : b.Alloc E.length) :
    M.wp (cscToCooSweep n pt vals) b (fun _ b' => b' = b.overE (E.mapIdx fun l e => { e with row := (l : Int) })) := by
  obtain ⟨p, hp, hp0, hpn, hmono, hsl⟩ := h.ptrs
  unfold cscToCooSweep
  rw [M.wp_bind]
  generalize hE' : (E.mapIdx fun l e => ({ e with row := (l : Int) } : Entry T)) = E'
  have hlen : E'.length = E.length := by rw [← hE']; simp
  refine M.wp_foldI (fun j l b' => l = p j ∧ b' = b.overE (E'.take (p j).toNat)) hn ?_ ?_ ?_
  · rw [hp0]; simp [CooBufs.overE_nil]
  · rintro j l b' h0 h1 ⟨rfl, rfl⟩
    simp only [M.wp_bind, M.wp_lift]
    refine ⟨_, Buf.rd_val (hp j h0 (by omega)), _, Buf.rd_val (hp (j + 1) (by omega) (by omega)), ?_⟩
    have b0 := CsIs.ptr_le hmono le_rfl h0 (by omega)
    have b1 := CsIs.ptr_le hmono (show 0 ≤ j + 1 by omega) (show j + 1 ≤ n by omega) le_rfl
    refine M.wp_foldI (fun i l b' => l = i ∧ b' = b.overE (E'.take i.toNat)) (hmono j h0 h1) ⟨rfl, rfl⟩ ?_ ?_
    · rintro i l b' i0 i1 ⟨rfl, rfl⟩
      obtain ⟨q, rfl⟩ : ∃ q : Nat, l = q := ⟨l.toNat, by omega⟩
      have hq : q < E.length := by omega
      simp only [M.wp_bind, M.wp_lift]
      refine ⟨_, Buf.rd_val (h.data q hq).1, ?_⟩
      have hmaj := CsIs.major_of_slice hmono hsl h0 h1 hq i0 i1
      have hlt : (E'.take q).length = q := by simp; omega
      have hget : E'[q]'(by omega) = ⟨(q : Int), j, E[q].val⟩ := by
        subst hE'; simp [hmaj]
      have key := overE_push (E := E'.take q) (b := b) (e := E'[q]'(by omega)) (k := fun _ => (pure ((q : Int) + 1) : M (CooBufs T) Int))
        (Q := fun l b' => l = (q : Int) + 1 ∧ b' = b.overE (E'.take ((q : Int) + 1).toNat)) hal (by rw [hlt]; omega) (by
          rw [M.wp_pure, List.take_append_getElem (by omega)]
          refine ⟨rfl, ?_⟩
          rw [show ((q : Int) + 1).toNat = q + 1 by omega])
      rw [hlt, hget] at key
      simp only [M.wp_bind] at key
      exact key
    · rintro l b' ⟨rfl, rfl⟩
      exact ⟨rfl, rfl⟩
  · rintro l b' ⟨rfl, rfl⟩
    rw [M.wp_pure, hpn, ← hlen]
    simp

/-- The sweep of `csr_to_coo` writes array positions as column indices. -/
theorem csrToCooSweep_spec {n : Int} {pt idxs : Buf Int} {vals : Buf T} {E : List (Entry T)} (hn : 0 ≤ n)
    (h : CsIs Entry.row Entry.col n 0 pt idxs vals E) {b : CooBufs T} (hal : b.Alloc E.length) :
    M.wp (csrToCooSweep n pt vals) b (fun _ b' => b' = b.overE (E.mapIdx fun l e => { e with col := (l : Int) })) := by
  obtain ⟨p, hp, hp0, hpn, hmono, hsl⟩ := h.ptrs
  unfold csrToCooSweep
  rw [M.wp_bind]
  generalize hE' : (E.mapIdx fun l e => ({ e with col := (l : Int) } : Entry T)) = E'
  have hlen : E'.length = E.length := by rw [← hE']; simp
  refine M.wp_foldI (fun j l b' => l = p j ∧ b' = b.overE (E'.take (p j).toNat)) hn ?_ ?_ ?_
  · rw [hp0]; simp [CooBufs.overE_nil]
  · rintro j l b' h0 h1 ⟨rfl, rfl⟩
    simp only [M.wp_bind, M.wp_lift]
    refine ⟨_, Buf.rd_val (hp j h0 (by omega)), _, Buf.rd_val (hp (j + 1) (by omega) (by omega)), ?_⟩
    have b0 := CsIs.ptr_le hmono le_rfl h0 (by omega)
    have b1 := CsIs.ptr_le hmono (show 0 ≤ j + 1 by omega) (show j + 1 ≤ n by omega) le_rfl
    refine M.wp_foldI (fun i l b' => l = i ∧ b' = b.overE (E'.take i.toNat)) (hmono j h0 h1) ⟨rfl, rfl⟩ ?_ ?_
    · rintro i l b' i0 i1 ⟨rfl, rfl⟩
      obtain ⟨q, rfl⟩ : ∃ q : Nat, l = q := ⟨l.toNat, by omega⟩
      have hq : q < E.length := by omega
      simp only [M.wp_bind, M.wp_lift]
      refine ⟨_, Buf.rd_val (h.data q hq).1, ?_⟩
      have hmaj := CsIs.major_of_slice hmono hsl h0 h1 hq i0 i1
      have hlt : (E'.take q).length = q := by simp; omega
      have hget : E'[q]'(by omega) = ⟨j, (q : Int), E[q].val⟩ := by
        subst hE'; simp [hmaj]
      have key := overE_push (E := E'.take q) (b := b) (e := E'[q]'(by omega)) (k := fun _ => (pure ((q : Int) + 1) : M (CooBufs T) Int))
        (Q := fun l b' => l = (q : Int) + 1 ∧ b' = b.overE (E'.take ((q : Int) + 1).toNat)) hal (by rw [hlt]; omega) (by
          rw [M.wp_pure, List.take_append_getElem (by omega)]
          refine ⟨rfl, ?_⟩
          rw [show ((q : Int) + 1).toNat = q + 1 by omega])
      rw [hlt, hget] at key
      simp only [M.wp_bind] at key
      exact key
    · rintro l b' ⟨rfl, rfl⟩
      exact ⟨rfl, rfl⟩
  · rintro l b' ⟨rfl, rfl⟩
    rw [M.wp_pure, hpn, ← hlen]
    simp

/-- C27 (CSC), what the code achieves. The COO matrix produced by `csc_to_coo` has the values and the column indices of the CSC matrix, in
the same order. Its row indices are NOT those of the CSC matrix but the positions `0, 1, 2, ...` of the entries in the arrays (the code stores
the loop counter instead of `rowidxs[i]`). Missing for C27: the right row indices. -/
theorem C27_csc_partial {csc : CscMat T} {coo : CooMat T} {E : List (Entry T)} (h : CscIs csc E) (hb : csc.indexBase = .Zero)
    (hn : 0 ≤ csc.nCols) (hc : CooEmpty coo) (hd : csc.nRows = coo.nRows ∧ csc.nCols = coo.nCols) :
    M.wp (cscToCoo csc) coo (fun _ A => CooIs A (E.mapIdx fun l e => { e with row := (l : Int) }) ∧ A.nRows = csc.nRows ∧
      A.nCols = csc.nCols ∧ A.indexBase = .Zero ∧ A.ownMemory = true ∧ A.sort = .CSC) := by
  unfold cscToCoo
  simp only [M.wp_bind, M.wp_get, M.wp_require]
  refine ⟨hd.1, hd.2, hb, hc.base, ?_⟩
  have hdat := h.data
  rw [hb] at hdat
  obtain ⟨A1, r1, r2⟩ := overE_after_reserve hc (E.mapIdx fun l e => ({ e with row := (l : Int) } : Entry T))
    (cscToCooSweep csc.nCols (ptr csc.colptr) (ptr csc.vals))
    (fun A => CooIs A (E.mapIdx fun l e => { e with row := (l : Int) }) ∧ A.nRows = csc.nRows ∧ A.nCols = csc.nCols ∧ A.indexBase = .Zero ∧
      A.ownMemory = true)
    (fun b hal => cscToCooSweep_spec hn hdat (by simpa using hal))
    (fun A q1 q2 q3 q4 q5 _ => ⟨q1, by rw [q2, hd.1], by rw [q3, hd.2], q4, q5⟩)
  have w1 : M.wp (reserveCoo csc.nnz) coo (fun _ s => s = A1) := by
    have : csc.nnz = (E.mapIdx fun l e => ({ e with row := (l : Int) } : Entry T)).length := by rw [h.nnz]; simp
    rw [this]; unfold M.wp; rw [r1]; exact ⟨_, _, rfl, rfl⟩
  refine M.wp_mono w1 ?_
  rintro - _ rfl
  refine M.wp_mono r2 ?_
  rintro - A ⟨⟨q0, q1⟩, q2, q3, q4, q5⟩
  rw [M.wp_modify]
  exact ⟨⟨q0, q1⟩, q2, q3, q4, q5, rfl⟩

/-- C27 (CSR), what the code achieves. The COO matrix produced by `csr_to_coo` has the values and the row indices of the CSR matrix, but its
column indices are the positions of the entries in the arrays. Missing for C27: the right column indices. -/
theorem C27_csr_partial {csr : CsrMat T} {coo : CooMat T} {E : List (Entry T)} (h : CsrIs csr E) (hb : csr.indexBase = .Zero)
    (hn : 0 ≤ csr.nRows) (hc : CooEmpty coo) (hd : csr.nRows = coo.nRows ∧ csr.nCols = coo.nCols) :
    M.wp (csrToCoo csr) coo (fun _ A => CooIs A (E.mapIdx fun l e => { e with col := (l : Int) }) ∧ A.nRows = csr.nRows ∧
      A.nCols = csr.nCols ∧ A.indexBase = .Zero ∧ A.ownMemory = true ∧ A.sort = .CSR) := by
  unfold csrToCoo
  simp only [M.wp_bind, M.wp_get, M.wp_require]
  refine ⟨hd.1, hd.2, hb, hc.base, ?_⟩
  have hdat := h.data
  rw [hb] at hdat
  obtain ⟨A1, r1, r2⟩ := overE_after_reserve hc (E.mapIdx fun l e => ({ e with col := (l : Int) } : Entry T))
    (csrToCooSweep csr.nRows (ptr csr.rowptr) (ptr csr.vals))
    (fun A => CooIs A (E.mapIdx fun l e => { e with col := (l : Int) }) ∧ A.nRows = csr.nRows ∧ A.nCols = csr.nCols ∧ A.indexBase = .Zero ∧
      A.ownMemory = true)
    (fun b hal => csrToCooSweep_spec hn hdat (by simpa using hal))
    (fun A q1 q2 q3 q4 q5 _ => ⟨q1, by rw [q2, hd.1], by rw [q3, hd.2], q4, q5⟩)
  have w1 : M.wp (reserveCoo csr.nnz) coo (fun _ s => s = A1) := by
    have : csr.nnz = (E.mapIdx fun l e => ({ e with col := (l : Int) } : Entry T)).length := by rw [h.nnz]; simp
    rw [this]; unfold M.wp; rw [r1]; exact ⟨_, _, rfl, rfl⟩
  refine M.wp_mono w1 ?_
  rintro - _ rfl
  refine M.wp_mono r2 ?_
  rintro - A ⟨⟨q0, q1⟩, q2, q3, q4, q5⟩
  rw [M.wp_modify]
  exact ⟨⟨q0, q1⟩, q2, q3, q4, q5, rfl⟩

/-- C27. The entries produced by `csc_to_coo` are those of the CSC matrix exactly if the row index of each entry equals its position. -/
theorem C27_csc_correct_iff (E : List (Entry T)) :
    (E.mapIdx fun l e => ({ e with row := (l : Int) } : Entry T)) = E ↔ ∀ (l : Nat) (h : l < E.length), E[l].row = l := by
  constructor
  · intro h l hl
    have := congrArg (fun F => F[l]?) h
    simp [hl] at this
    have := congrArg Entry.row this
    simpa using this.symm
  · intro h
    apply List.ext_getElem (by simp)
    intro l h1 h2
    rw [List.getElem_mapIdx, ← h l h2]

/-- A CSC object with given pointer array and entries. -/
def cscOf (m n : Int) (pt : List Int) (E : List (Entry T)) : CscMat T :=
  ⟨m, n, true, E.length, .Zero, some (Buf.ofList (E.map Entry.val)), some (Buf.ofList (E.map Entry.row)), some (Buf.ofList pt)⟩
/-- A CSR object with given pointer array and entries. -/
def csrOf (m n : Int) (pt : List Int) (E : List (Entry T)) : CsrMat T :=
  ⟨m, n, true, E.length, .Zero, some (Buf.ofList (E.map Entry.val)), some (Buf.ofList pt), some (Buf.ofList (E.map Entry.col))⟩

theorem csIs_ofList {major minor : Entry T → Int} {n : Nat} {pt : List Int} {E : List (Entry T)} (hl : pt.length = n + 1)
    (h0 : pt[0]? = some 0) (hn : pt[n]? = some (E.length : Int))
    (hm : ∀ j : Nat, j < n → (pt[j]?).getD 0 ≤ (pt[j + 1]?).getD 0)
    (hs : ∀ (l : Nat) (h : l < E.length), 0 ≤ major E[l] ∧ major E[l] < n ∧ (pt[(major E[l]).toNat]?).getD 0 ≤ l ∧
      (l : Int) < (pt[(major E[l]).toNat + 1]?).getD 0) :
    CsIs major minor n 0 (Buf.ofList pt) (Buf.ofList (E.map minor)) (Buf.ofList (E.map Entry.val)) E := by
  refine ⟨⟨fun j => (pt[j.toNat]?).getD 0, ?_, by simp [h0], by simp [hn], ?_, ?_⟩, ?_⟩
  · intro j j0 j1
    obtain ⟨q, rfl⟩ : ∃ q : Nat, j = q := ⟨j.toNat, by omega⟩
    have : q < pt.length := by omega
    rw [ofList_get this]
    simp [this]
  · intro j j0 j1
    obtain ⟨q, rfl⟩ : ∃ q : Nat, j = q := ⟨j.toNat, by omega⟩
    have := hm q (by omega)
    simp only
    rw [show ((q : Int) + 1).toNat = q + 1 by omega]
    simpa using this
  · intro l hl
    obtain ⟨a, b, c, d⟩ := hs l hl
    refine ⟨a, b, c, ?_⟩
    simp only
    rw [show (major E[l] + 1).toNat = (major E[l]).toNat + 1 by omega]
    exact d
  · intro l hl
    rw [ofList_get (by simpa using hl), ofList_get (by simpa using hl)]
    simp

/-- Sample entries in column order, in a 3 x 3 matrix with an empty column. -/
def sampleC : List (Entry ℤ) := [⟨2, 0, 1⟩, ⟨0, 2, 7⟩, ⟨2, 2, 5⟩]

theorem sampleC_is : CscIs (cscOf 3 3 [0, 1, 1, 3] sampleC) sampleC := by
  refine ⟨rfl, csIs_ofList (n := 3) rfl rfl rfl ?_ ?_⟩
  · decide
  · decide

/-- Sample entries in row order. -/
def sampleR : List (Entry ℤ) := [⟨0, 2, 7⟩, ⟨2, 0, 1⟩, ⟨2, 2, 5⟩]

theorem sampleR_is : CsrIs (csrOf 3 3 [0, 1, 1, 3] sampleR) sampleR := by
  refine ⟨rfl, csIs_ofList (n := 3) rfl rfl rfl ?_ ?_⟩
  · decide
  · decide

example : CscIs (cscOf 3 3 [0, 1, 1, 3] sampleC) sampleC ∧ CsrIs (csrOf 3 3 [0, 1, 1, 3] sampleR) sampleR ∧ CooEmpty (mkCoo 3 3 : CooMat ℤ) :=
  ⟨sampleC_is, sampleR_is, ⟨rfl, rfl, rfl, rfl, rfl⟩⟩

/-- C27 is false: `csc_to_coo` turns a well-formed CSC matrix into a COO matrix representing a different matrix. -/
theorem C27_csc_counterexample : ∃ (csc : CscMat ℤ) (E : List (Entry ℤ)), CscIs csc E ∧ InRange 3 3 E ∧ csc.indexBase = .Zero ∧
    csc.nRows = 3 ∧ csc.nCols = 3 ∧
    M.wp (cscToCoo csc) (mkCoo 3 3) (fun _ A => ∃ E', CooIs A E' ∧ ¬ ∀ i j, toMat E' i j = toMat E i j) := by
  refine ⟨_, _, sampleC_is, by simp [InRange, sampleC], rfl, rfl, rfl, ?_⟩
  refine M.wp_mono (C27_csc_partial sampleC_is rfl (by simp [cscOf]) ⟨rfl, rfl, rfl, rfl, rfl⟩ ⟨rfl, rfl⟩) ?_
  rintro - A ⟨h, -⟩
  refine ⟨_, h, fun hc => ?_⟩
  have := hc 2 0
  revert this
  decide

/-- C27 is false: `csr_to_coo` turns a well-formed CSR matrix into a COO matrix representing a different matrix. -/
theorem C27_csr_counterexample : ∃ (csr : CsrMat ℤ) (E : List (Entry ℤ)), CsrIs csr E ∧ InRange 3 3 E ∧ csr.indexBase = .Zero ∧
    csr.nRows = 3 ∧ csr.nCols = 3 ∧
    M.wp (csrToCoo csr) (mkCoo 3 3) (fun _ A => ∃ E', CooIs A E' ∧ ¬ ∀ i j, toMat E' i j = toMat E i j) := by
  refine ⟨_, _, sampleR_is, by simp [InRange, sampleR], rfl, rfl, rfl, ?_⟩
  refine M.wp_mono (C27_csr_partial sampleR_is rfl (by simp [csrOf]) ⟨rfl, rfl, rfl, rfl, rfl⟩ ⟨rfl, rfl⟩) ?_
  rintro - A ⟨h, -⟩
  refine ⟨_, h, fun hc => ?_⟩
  have := hc 0 2
  revert this
  decide

/-! ## C29 -/

theorem swap_swap (E : List (Entry T)) : (E.map Entry.swap).map Entry.swap = E := by
  rw [List.map_map]; exact List.map_id'' (fun _ => rfl) E

/-- Exchanging rows and columns of the entries transposes the matrix. -/
theorem C29_swap_is_transpose [AddCommMonoid T] (E : List (Entry T)) (i j : Int) : toMat (E.map Entry.swap) i j = toMat E j i := by
  unfold toMat
  rw [List.filter_map, List.map_map]
  congr 2
  apply List.filter_congr
  intro e _
  simp only [Function.comp, Entry.swap]
  exact decide_eq_decide.mpr and_comm

/-- C29 (COO). `transpose` returns an object that stores the entries with rows and columns exchanged, in the same arrays (which it does not
own); its sort flag describes its order if that of the input did. -/
theorem C29_coo {S : CooMat T} {E : List (Entry T)} (h : CooIs S E) :
    ∃ St, cooTranspose S = .ok St ∧ CooIs St (E.map Entry.swap) ∧ St.nRows = S.nCols ∧ St.nCols = S.nRows ∧ St.ownMemory = false ∧
      St.indexBase = S.indexBase ∧ St.vals = S.vals ∧ St.rows = S.cols ∧ St.cols = S.rows ∧
      (SortedBy S.sort E → SortedBy St.sort (E.map Entry.swap)) ∧
      cooTranspose St = .ok { S with ownMemory := false } := by
  have hd : CooHolds (ptr S.vals) (ptr S.cols) (ptr S.rows) (rebase S.indexBase.val (E.map Entry.swap)) := by
    intro p hp
    have hp' : p < E.length := by simpa [rebase] using hp
    have := h.data p (by rwa [rebase_length])
    simp only [rebase, List.getElem_map] at this ⊢
    exact ⟨this.1, this.2.2, this.2.1⟩
  have hn : S.nnz = (E.map Entry.swap).length := by rw [h.nnz]; simp
  obtain ⟨a, b, c, d, e, v, r, cl, s⟩ := S
  cases s with
  | CSC =>
    refine ⟨⟨b, a, false, d, e, v, cl, r, .CSR⟩, rfl, ⟨hn, hd⟩, rfl, rfl, rfl, rfl, rfl, rfl, rfl, ?_, rfl⟩
    intro hs
    exact List.pairwise_map.mpr hs
  | CSR =>
    refine ⟨⟨b, a, false, d, e, v, cl, r, .CSC⟩, rfl, ⟨hn, hd⟩, rfl, rfl, rfl, rfl, rfl, rfl, rfl, ?_, rfl⟩
    intro hs
    exact List.pairwise_map.mpr hs
  | None =>
    exact ⟨⟨b, a, false, d, e, v, cl, r, .None⟩, rfl, ⟨hn, hd⟩, rfl, rfl, rfl, rfl, rfl, rfl, rfl, fun _ => trivial, rfl⟩

theorem csIs_swap {n base : Int} {pt idxs : Buf Int} {vals : Buf T} {E : List (Entry T)} (major minor : Entry T → Int)
    (h : CsIs major minor n base pt idxs vals E) :
    CsIs (major ∘ Entry.swap) (minor ∘ Entry.swap) n base pt idxs vals (E.map Entry.swap) := by
  obtain ⟨p, hp, hp0, hpn, hmono, hsl⟩ := h.ptrs
  refine ⟨⟨p, hp, hp0, by simpa using hpn, hmono, ?_⟩, ?_⟩
  · intro l hl
    simp only [List.getElem_map, Function.comp]
    exact hsl l (by simpa using hl)
  · intro l hl
    simp only [List.getElem_map, Function.comp]
    exact h.data l (by simpa using hl)

/-- Copying the arrays of a compressed matrix. -/
theorem copyCompressed_spec {major minor : Entry T → Int} {n base : Int} {pt idxs : Buf Int} {vals : Buf T} {E : List (Entry T)} (hn : 0 ≤ n)
    (h : CsIs major minor n base pt idxs vals E) {b : CsBufs T} (hal : b.Alloc E.length) (hptr : ∀ p, 0 ≤ p → p ≤ n → b.ptr p ≠ .none) :
    M.wp (copyCompressed E.length (n + 1) idxs vals pt) b (fun _ b' => CsIs major minor n base b'.ptr b'.idxs b'.vals E) := by
  obtain ⟨p, hp, hp0, hpn, hmono, hsl⟩ := h.ptrs
  unfold copyCompressed
  rw [M.wp_bind]
  refine M.wp_forI (fun i b' => b'.ptr = b.ptr ∧ b'.Alloc E.length ∧ ∀ q, 0 ≤ q → q < i → b'.idxs q = idxs q ∧ b'.vals q = vals q) (by omega)
    ⟨rfl, hal, fun q q0 q1 => by omega⟩ ?_ ?_
  · rintro i b' i0 i1 ⟨e1, e2, e3⟩
    obtain ⟨q, rfl⟩ : ∃ q : Nat, i = q := ⟨i.toNat, by omega⟩
    obtain ⟨d1, d2⟩ := h.data q (by omega)
    obtain ⟨a1, a2⟩ := e2 q i0 i1
    simp only [M.wp_bind, M.wp_lift, onIdxs, onCsVals, M.wp_zoom, M.wp_wr]
    refine ⟨_, Buf.rd_val d2, a1, _, Buf.rd_val d1, a2, e1, ?_, ?_⟩
    · intro r r0 r1
      obtain ⟨c1, c2⟩ := e2 r r0 r1
      simp only [Buf.set_apply]
      constructor <;> split_ifs <;> simp_all
    · intro r r0 r1
      simp only [Buf.set_apply]
      split_ifs with hr
      · subst hr; exact ⟨d2.symm, d1.symm⟩
      · exact e3 r r0 (by omega)
  · rintro b1 ⟨e1, -, e3⟩
    refine M.wp_forI (fun i b' => b'.idxs = b1.idxs ∧ b'.vals = b1.vals ∧ (∀ q, 0 ≤ q → q ≤ n → b'.ptr q ≠ .none) ∧
      ∀ q, 0 ≤ q → q < i → b'.ptr q = pt q) (by omega) ⟨rfl, rfl, by rw [e1]; exact hptr, fun q q0 q1 => by omega⟩ ?_ ?_
    · rintro i b' i0 i1 ⟨f1, f2, f3, f4⟩
      have d := hp i i0 (by omega)
      simp only [M.wp_bind, M.wp_lift, onPtr, M.wp_zoom, M.wp_wr]
      refine ⟨_, Buf.rd_val d, f3 i i0 (by omega), f1, f2, ?_, ?_⟩
      · intro r r0 r1
        rw [Buf.set_apply]; split_ifs
        · simp
        · exact f3 r r0 r1
      · intro r r0 r1
        rw [Buf.set_apply]
        split_ifs with hr
        · rw [hr, d]
        · exact f4 r r0 (by omega)
    · rintro b' ⟨f1, f2, -, f4⟩
      refine ⟨⟨p, fun j j0 j1 => by rw [f4 j j0 (by omega), hp j j0 j1], hp0, hpn, hmono, hsl⟩, fun l hl => ?_⟩
      rw [f1, f2, (e3 l (by omega) (by omega)).1, (e3 l (by omega) (by omega)).2]
      exact h.data l hl

/-- C29 (CSC). `transpose_as_csr` returns a well-formed CSR matrix storing the entries with rows and columns exchanged. With
`share_memory` it uses the arrays of `A` and does not own them, otherwise it owns its arrays. -/
theorem C29_csc [Zero T] {A : CscMat T} {E : List (Entry T)} (h : CscIs A E) (hn : 0 ≤ A.nCols) (share : Bool) :
    ∃ At, transposeAsCsr A share = .ok At ∧ CsrIs At (E.map Entry.swap) ∧ At.nRows = A.nCols ∧ At.nCols = A.nRows ∧
      At.indexBase = A.indexBase ∧ At.ownMemory = !share ∧
      (share = true → At.vals = A.vals ∧ At.rowptr = A.colptr ∧ At.colidxs = A.rowidxs) := by
  have hsw := csIs_swap _ _ h.data
  cases share with
  | true =>
    refine ⟨_, rfl, ⟨?_, hsw⟩, rfl, rfl, rfl, rfl, fun _ => ⟨rfl, rfl, rfl⟩⟩
    simp only [mkCsrExpert]; rw [h.nnz]; simp
  | false =>
    unfold transposeAsCsr
    rw [if_neg (by simp)]
    have hr := reserveCsr_spec (A := { (mkCsr A.nCols A.nRows : CsrMat T) with indexBase := A.indexBase }) rfl rfl rfl
      (by simp only [mkCsr]; omega) A.nnz
    have hcp : M.wp (M.bind (reserveCsr A.nnz) (fun _ => M.zoom CsrMat.bufs CsrMat.withBufs
        (copyCompressed A.nnz (A.nCols + 1) (ptr A.rowidxs) (ptr A.vals) (ptr A.colptr))))
        { (mkCsr A.nCols A.nRows : CsrMat T) with indexBase := A.indexBase } (fun _ At => CsrIs At (E.map Entry.swap) ∧ At.nRows = A.nCols ∧
          At.nCols = A.nRows ∧ At.indexBase = A.indexBase ∧ At.ownMemory = true) := by
      have : M.wp (reserveCsr A.nnz >>= (fun _ => M.zoom CsrMat.bufs CsrMat.withBufs
        (copyCompressed A.nnz (A.nCols + 1) (ptr A.rowidxs) (ptr A.vals) (ptr A.colptr))))
        { (mkCsr A.nCols A.nRows : CsrMat T) with indexBase := A.indexBase } (fun _ At => CsrIs At (E.map Entry.swap) ∧ At.nRows = A.nCols ∧
          At.nCols = A.nRows ∧ At.indexBase = A.indexBase ∧ At.ownMemory = true) := by
        rw [M.wp_bind]
        refine M.wp_mono (Q := fun _ s => s = _) (by unfold M.wp; rw [hr]; exact ⟨_, _, rfl, rfl⟩) ?_
        rintro - _ rfl
        rw [M.wp_zoom]
        have key := copyCompressed_spec (E := E.map Entry.swap) hn hsw (b := CsrMat.bufs { (mkCsr A.nCols A.nRows : CsrMat T) with
          nnz := A.nnz, indexBase := A.indexBase, vals := if A.nnz > 0 then some (Buf.fill A.nnz 0) else none,
          colidxs := if A.nnz > 0 then some (Buf.fill A.nnz 0) else none, rowptr := some (Buf.fill (A.nCols + 1) 0) }) ?_ ?_
        · rw [List.length_map, ← h.nnz] at key
          refine M.wp_mono key ?_
          rintro - b' hb'
          refine ⟨⟨?_, ?_⟩, rfl, rfl, rfl, rfl⟩
          · simp only [CsrMat.withBufs]; rw [h.nnz]; simp
          · simp only [CsrMat.withBufs, Option.map_some]
            by_cases hE : A.nnz > 0
            · simp only [if_pos hE, Option.map_some, ptr, Option.getD_some]; exact hb'
            · have : E = [] := List.eq_nil_of_length_eq_zero (by have := h.nnz; omega)
              subst this
              simp only [ptr, Option.getD_some]
              exact ⟨hb'.ptrs, fun l hl => by simp at hl⟩
        · intro q q0 q1
          rw [List.length_map, ← h.nnz] at q1
          have : A.nnz > 0 := by omega
          simp only [CsrMat.bufs, if_pos this, ptr, Option.getD_some]
          exact ⟨fill_alloc q0 q1, fill_alloc q0 q1⟩
        · intro q q0 q1
          simp only [CsrMat.bufs, ptr, Option.getD_some]
          exact fill_alloc q0 (by omega)
      exact this
    obtain ⟨_, At, e, q⟩ := hcp
    rw [e]
    exact ⟨At, rfl, q.1, q.2.1, q.2.2.1, q.2.2.2.1, q.2.2.2.2, fun hf => by simp at hf⟩

/-- C29 (CSR). `transpose_as_csc` returns a well-formed CSC matrix storing the entries with rows and columns exchanged. -/
theorem C29_csr [Zero T] {A : CsrMat T} {E : List (Entry T)} (h : CsrIs A E) (hn : 0 ≤ A.nRows) (share : Bool) :
    ∃ At, transposeAsCsc A share = .ok At ∧ CscIs At (E.map Entry.swap) ∧ At.nRows = A.nCols ∧ At.nCols = A.nRows ∧
      At.indexBase = A.indexBase ∧ At.ownMemory = !share ∧
      (share = true → At.vals = A.vals ∧ At.colptr = A.rowptr ∧ At.rowidxs = A.colidxs) := by
  have hsw := csIs_swap _ _ h.data
  cases share with
  | true =>
    refine ⟨_, rfl, ⟨?_, hsw⟩, rfl, rfl, rfl, rfl, fun _ => ⟨rfl, rfl, rfl⟩⟩
    simp only [mkCscExpert]; rw [h.nnz]; simp
  | false =>
    unfold transposeAsCsc
    rw [if_neg (by simp)]
    have hr := reserveCsc_spec (A := { (mkCsc A.nCols A.nRows : CscMat T) with indexBase := A.indexBase }) rfl rfl rfl
      (by simp only [mkCsc]; omega) A.nnz
    have hcp : M.wp (reserveCsc A.nnz >>= (fun _ => M.zoom CscMat.bufs CscMat.withBufs
        (copyCompressed A.nnz (A.nRows + 1) (ptr A.colidxs) (ptr A.vals) (ptr A.rowptr))))
        { (mkCsc A.nCols A.nRows : CscMat T) with indexBase := A.indexBase } (fun _ At => CscIs At (E.map Entry.swap) ∧ At.nRows = A.nCols ∧
          At.nCols = A.nRows ∧ At.indexBase = A.indexBase ∧ At.ownMemory = true) := by
      rw [M.wp_bind]
      refine M.wp_mono (Q := fun _ s => s = _) (by unfold M.wp; rw [hr]; exact ⟨_, _, rfl, rfl⟩) ?_
      rintro - _ rfl
      rw [M.wp_zoom]
      have key := copyCompressed_spec (E := E.map Entry.swap) hn hsw (b := CscMat.bufs { (mkCsc A.nCols A.nRows : CscMat T) with
        nnz := A.nnz, indexBase := A.indexBase, vals := if A.nnz > 0 then some (Buf.fill A.nnz 0) else none,
        rowidxs := if A.nnz > 0 then some (Buf.fill A.nnz 0) else none, colptr := some (Buf.fill (A.nRows + 1) 0) }) ?_ ?_
      · rw [List.length_map, ← h.nnz] at key
        refine M.wp_mono key ?_
        rintro - b' hb'
        refine ⟨⟨?_, ?_⟩, rfl, rfl, rfl, rfl⟩
        · simp only [CscMat.withBufs]; rw [h.nnz]; simp
        · simp only [CscMat.withBufs, Option.map_some]
          by_cases hE : A.nnz > 0
          · simp only [if_pos hE, Option.map_some, ptr, Option.getD_some]; exact hb'
          · have : E = [] := List.eq_nil_of_length_eq_zero (by have := h.nnz; omega)
            subst this
            simp only [ptr, Option.getD_some]
            exact ⟨hb'.ptrs, fun l hl => by simp at hl⟩
      · intro q q0 q1
        rw [List.length_map, ← h.nnz] at q1
        have : A.nnz > 0 := by omega
        simp only [CscMat.bufs, if_pos this, ptr, Option.getD_some]
        exact ⟨fill_alloc q0 q1, fill_alloc q0 q1⟩
      · intro q q0 q1
        simp only [CscMat.bufs, ptr, Option.getD_some]
        exact fill_alloc q0 (by omega)
    obtain ⟨_, At, e, q⟩ := hcp
    have e' : M.bind (reserveCsc A.nnz) (fun _ => M.zoom CscMat.bufs CscMat.withBufs
        (copyCompressed A.nnz (A.nRows + 1) (ptr A.colidxs) (ptr A.vals) (ptr A.rowptr)))
        { (mkCsc A.nCols A.nRows : CscMat T) with indexBase := A.indexBase } = (.ok (), At) := e
    rw [e']
    exact ⟨At, rfl, q.1, q.2.1, q.2.2.1, q.2.2.2.1, q.2.2.2.2, fun hf => by simp at hf⟩

/-- C29. Transposing a CSC matrix twice gives the original entries in the original order. -/
theorem C29_twice [Zero T] {A : CscMat T} {E : List (Entry T)} (h : CscIs A E) (hn : 0 ≤ A.nCols) (s1 s2 : Bool) :
    ∃ At Att, transposeAsCsr A s1 = .ok At ∧ transposeAsCsc At s2 = .ok Att ∧ CscIs Att E ∧ Att.nRows = A.nRows ∧ Att.nCols = A.nCols ∧
      Att.indexBase = A.indexBase := by
  obtain ⟨At, h1, h2, h3, h4, h5, -⟩ := C29_csc h hn s1
  obtain ⟨Att, g1, g2, g3, g4, g5, -⟩ := C29_csr h2 (by rw [h3]; exact hn) s2
  rw [swap_swap] at g2
  exact ⟨At, Att, h1, g1, g2, by rw [g3, h4], by rw [g4, h3], by rw [g5, h5]⟩

example : CscIs (cscOf 3 3 [0, 1, 1, 3] sampleC) sampleC ∧ 0 ≤ (cscOf 3 3 [0, 1, 1, 3] sampleC).nCols := ⟨sampleC_is, by simp [cscOf]⟩

/-! ## C30 -/

theorem shiftIdxs_spec {l : List Int} {b : Buf Int} {d : Int} (h : ∀ (p : Nat) (hp : p < l.length), b p = .val l[p]) :
    shiftIdxs l.length d b = (.ok (), Buf.overL (l.map (· + d)) b) := by
  have : M.wp (shiftIdxs l.length d) b (fun _ b' => b' = Buf.overL (l.map (· + d)) b) := by
    unfold shiftIdxs
    refine M.wp_forI (fun i b' => b' = Buf.overL ((l.take i.toNat).map (· + d)) b) (by omega) (by simp [Buf.overL_nil]) ?_ ?_
    · rintro i b' i0 i1 rfl
      obtain ⟨q, rfl⟩ : ∃ q : Nat, i = q := ⟨i.toNat, by omega⟩
      have hq : q < l.length := by omega
      have hlen : ((l.take q).map (· + d)).length = q := by simp; omega
      simp only [M.wp_bind, M.wp_rd, M.wp_wr, Int.toNat_natCast]
      refine ⟨l[q], ?_, ?_, ?_⟩
      · rw [Buf.overL_out (by omega), h q hq]
      · apply Buf.overL_ne_none; rw [h q hq]; simp
      · rw [show ((q : Int) + 1).toNat = q + 1 by omega, map_take_succ _ hq, ← Buf.overL_push, hlen]
    · rintro b' rfl
      simp
  obtain ⟨_, s, e1, e2⟩ := this
  rw [e1, e2]

theorem overL_overL {l l' : List Int} (h : l.length = l'.length) (b : Buf Int) : Buf.overL l (Buf.overL l' b) = Buf.overL l b := by
  funext p
  by_cases hp : 0 ≤ p ∧ p < l.length
  · obtain ⟨q, rfl⟩ : ∃ q : Nat, p = q := ⟨p.toNat, by omega⟩
    rw [Buf.overL_get (by omega), Buf.overL_get (by omega)]
  · rw [Buf.overL_out (by omega), Buf.overL_out (by omega), Buf.overL_out (by omega)]

theorem csc_rowidxs_some {A : CscMat T} {E : List (Entry T)} (h : CscIs A E) : E = [] ∨ ∃ b, A.rowidxs = some b := by
  match E, h with
  | [], _ => exact Or.inl rfl
  | e :: E, h =>
    right
    obtain ⟨a, b⟩ := h.data.data 0 (by simp)
    cases hv : A.rowidxs with
    | none => simp [hv, ptr] at b
    | some b => exact ⟨b, rfl⟩

theorem csr_colidxs_some {A : CsrMat T} {E : List (Entry T)} (h : CsrIs A E) : E = [] ∨ ∃ b, A.colidxs = some b := by
  match E, h with
  | [], _ => exact Or.inl rfl
  | e :: E, h =>
    right
    obtain ⟨a, b⟩ := h.data.data 0 (by simp)
    cases hv : A.colidxs with
    | none => simp [hv, ptr] at b
    | some b => exact ⟨b, rfl⟩

theorem reindexShift_eq {a b : IndexBase} (h : a ≠ b) : a.val + reindexShift a = b.val := by
  cases a <;> cases b <;> simp_all [reindexShift, IndexBase.val]

theorem map_shift (f : Entry T → Int) (E : List (Entry T)) (a d : Int) :
    (E.map fun e => f e + a).map (· + d) = E.map fun e => f e + (a + d) := by
  rw [List.map_map]; apply List.map_congr_left; intro e _; simp [add_assoc]

/-- The CSC object after `reindex_inplace`. -/
theorem reindexCsc_run {A : CscMat T} {E : List (Entry T)} (h : CscIs A E) (d : IndexBase) :
    reindexCsc d A = (.ok (), { A with indexBase := d, rowidxs := A.rowidxs.map fun _ => Buf.overL (E.map fun e => e.row + d.val) (ptr A.rowidxs) }) := by
  have hl : ∀ (p : Nat) (hp : p < (E.map fun e => e.row + A.indexBase.val).length), (ptr A.rowidxs) p =
      .val (E.map fun e => e.row + A.indexBase.val)[p] := by
    intro p hp
    rw [(h.data.data p (by simpa using hp)).2]; simp
  by_cases hd : A.indexBase = d
  · have e : reindexCsc d A = (.ok (), A) := by
      simp [reindexCsc, M.bind_eq, M.bind, M.get, M.when, hd, pure]
    rw [e]
    congr 1
    have : Buf.overL (E.map fun e => e.row + d.val) (ptr A.rowidxs) = ptr A.rowidxs := by
      apply overL_of_holds; rw [hd] at hl; exact hl
    rw [this]
    obtain ⟨a, b, c, dd, e, v, r, cl⟩ := A
    cases r <;> simp_all [ptr]
  · have hs := shiftIdxs_spec (d := reindexShift A.indexBase) hl
    rw [map_shift, reindexShift_eq hd, List.length_map, ← h.nnz] at hs
    simp only [reindexCsc, M.bind_eq, M.bind, M.get, M.when, ne_eq, hd, not_false_eq_true, if_true, M.zoom, hs, M.modify]

/-- The CSR object after `reindex_inplace`. -/
theorem reindexCsr_run {A : CsrMat T} {E : List (Entry T)} (h : CsrIs A E) (d : IndexBase) :
    reindexCsr d A = (.ok (), { A with indexBase := d, colidxs := A.colidxs.map fun _ => Buf.overL (E.map fun e => e.col + d.val) (ptr A.colidxs) }) := by
  have hl : ∀ (p : Nat) (hp : p < (E.map fun e => e.col + A.indexBase.val).length), (ptr A.colidxs) p =
      .val (E.map fun e => e.col + A.indexBase.val)[p] := by
    intro p hp
    rw [(h.data.data p (by simpa using hp)).2]; simp
  by_cases hd : A.indexBase = d
  · have e : reindexCsr d A = (.ok (), A) := by
      simp [reindexCsr, M.bind_eq, M.bind, M.get, M.when, hd, pure]
    rw [e]
    congr 1
    have : Buf.overL (E.map fun e => e.col + d.val) (ptr A.colidxs) = ptr A.colidxs := by
      apply overL_of_holds; rw [hd] at hl; exact hl
    rw [this]
    obtain ⟨a, b, c, dd, e, v, r, cl⟩ := A
    cases cl <;> simp_all [ptr]
  · have hs := shiftIdxs_spec (d := reindexShift A.indexBase) hl
    rw [map_shift, reindexShift_eq hd, List.length_map, ← h.nnz] at hs
    simp only [reindexCsr, M.bind_eq, M.bind, M.get, M.when, ne_eq, hd, not_false_eq_true, if_true, M.zoom, hs, M.modify]

/-- C30 (CSC). `reindex_inplace(A, desired)` changes the stored row indices so that `A` represents the same entries in the desired base and
changes nothing else (the pointer array in particular); re-indexing back restores the object exactly. -/
theorem C30_csc {A : CscMat T} {E : List (Entry T)} (h : CscIs A E) (d : IndexBase) :
    ∃ A', reindexCsc d A = (.ok (), A') ∧ CscIs A' E ∧ A'.indexBase = d ∧ A'.nRows = A.nRows ∧ A'.nCols = A.nCols ∧
      A'.ownMemory = A.ownMemory ∧ A'.vals = A.vals ∧ A'.colptr = A.colptr ∧ (d = A.indexBase → A' = A) ∧
      reindexCsc A.indexBase A' = (.ok (), A) := by
  have hnew : ∀ d, CscIs { A with indexBase := d, rowidxs := A.rowidxs.map fun _ => Buf.overL (E.map fun e => e.row + d.val) (ptr A.rowidxs) } E := by
    intro d
    refine ⟨h.nnz, ⟨h.data.ptrs, fun l hl => ⟨(h.data.data l hl).1, ?_⟩⟩⟩
    rcases csc_rowidxs_some h with he | ⟨b, hb⟩
    · subst he; simp at hl
    · simp only [hb, ptr, Option.map_some, Option.getD_some]
      rw [Buf.overL_get (by simpa using hl)]; simp
  have hself : ({ A with rowidxs := A.rowidxs.map fun _ => Buf.overL (E.map fun e => e.row + A.indexBase.val) (ptr A.rowidxs) } : CscMat T) = A := by
    have : Buf.overL (E.map fun e => e.row + A.indexBase.val) (ptr A.rowidxs) = ptr A.rowidxs := by
      apply overL_of_holds
      intro p hp
      rw [(h.data.data p (by simpa using hp)).2]; simp
    rw [this]
    obtain ⟨a, b, c, dd, e, v, r, cl⟩ := A
    cases r <;> simp [ptr]
  refine ⟨_, reindexCsc_run h d, hnew d, rfl, rfl, rfl, rfl, rfl, rfl, ?_, ?_⟩
  · rintro rfl; exact hself
  · rw [reindexCsc_run (hnew d) A.indexBase]
    congr 1
    simp only
    refine Eq.trans ?_ hself
    rcases csc_rowidxs_some h with he | ⟨b, hb⟩
    · subst he
      obtain ⟨a, b, c, dd, e, v, r, cl⟩ := A
      cases r <;> simp [ptr, Buf.overL_nil]
    · simp only [hb, ptr, Option.map_some, Option.getD_some]
      rw [overL_overL (by simp)]

/-- C30 (CSR). The same for CSR matrices and their column indices. -/
theorem C30_csr {A : CsrMat T} {E : List (Entry T)} (h : CsrIs A E) (d : IndexBase) :
    ∃ A', reindexCsr d A = (.ok (), A') ∧ CsrIs A' E ∧ A'.indexBase = d ∧ A'.nRows = A.nRows ∧ A'.nCols = A.nCols ∧
      A'.ownMemory = A.ownMemory ∧ A'.vals = A.vals ∧ A'.rowptr = A.rowptr ∧ (d = A.indexBase → A' = A) ∧
      reindexCsr A.indexBase A' = (.ok (), A) := by
  have hnew : ∀ d, CsrIs { A with indexBase := d, colidxs := A.colidxs.map fun _ => Buf.overL (E.map fun e => e.col + d.val) (ptr A.colidxs) } E := by
    intro d
    refine ⟨h.nnz, ⟨h.data.ptrs, fun l hl => ⟨(h.data.data l hl).1, ?_⟩⟩⟩
    rcases csr_colidxs_some h with he | ⟨b, hb⟩
    · subst he; simp at hl
    · simp only [hb, ptr, Option.map_some, Option.getD_some]
      rw [Buf.overL_get (by simpa using hl)]; simp
  have hself : ({ A with colidxs := A.colidxs.map fun _ => Buf.overL (E.map fun e => e.col + A.indexBase.val) (ptr A.colidxs) } : CsrMat T) = A := by
    have : Buf.overL (E.map fun e => e.col + A.indexBase.val) (ptr A.colidxs) = ptr A.colidxs := by
      apply overL_of_holds
      intro p hp
      rw [(h.data.data p (by simpa using hp)).2]; simp
    rw [this]
    obtain ⟨a, b, c, dd, e, v, r, cl⟩ := A
    cases cl <;> simp [ptr]
  refine ⟨_, reindexCsr_run h d, hnew d, rfl, rfl, rfl, rfl, rfl, rfl, ?_, ?_⟩
  · rintro rfl; exact hself
  · rw [reindexCsr_run (hnew d) A.indexBase]
    congr 1
    simp only
    refine Eq.trans ?_ hself
    rcases csr_colidxs_some h with he | ⟨b, hb⟩
    · subst he
      obtain ⟨a, b, c, dd, e, v, r, cl⟩ := A
      cases cl <;> simp [ptr, Buf.overL_nil]
    · simp only [hb, ptr, Option.map_some, Option.getD_some]
      rw [overL_overL (by simp)]

/-- The loop of `reindex_inplace(COOMatrix)`. -/
theorem reindexCoo_loop {E : List (Entry T)} {b : CooBufs T} (h : CooHolds b.vals b.rows b.cols E) (d : Int) :
    M.wp (forI 0 (E.length : Int) fun ell => do
      let r ← onCRows (M.rd ell)
      onCRows (M.wr ell (r + d))
      let c ← onCCols (M.rd ell)
      onCCols (M.wr ell (c + d))) b (fun _ b' => b' = b.overE (rebase d E)) := by
  have hv : Buf.overL (E.map Entry.val) b.vals = b.vals := overL_of_holds fun p hp => by rw [(h p (by simpa using hp)).1]; simp
  refine M.wp_forI (fun i b' => b' = ⟨b.vals, Buf.overL ((E.take i.toNat).map fun e => e.row + d) b.rows,
    Buf.overL ((E.take i.toNat).map fun e => e.col + d) b.cols⟩) (by omega) (by simp [Buf.overL_nil]) ?_ ?_
  · rintro i b' i0 i1 rfl
    obtain ⟨q, rfl⟩ : ∃ q : Nat, i = q := ⟨i.toNat, by omega⟩
    have hq : q < E.length := by omega
    obtain ⟨d1, d2, d3⟩ := h q hq
    have hlen : ((E.take q).map fun e => e.row + d).length = q := by simp; omega
    have hlen' : ((E.take q).map fun e => e.col + d).length = q := by simp; omega
    simp only [M.wp_bind, onCRows, onCCols, M.wp_zoom, M.wp_rd, M.wp_wr, Int.toNat_natCast]
    refine ⟨E[q].row, ?_, ?_, E[q].col, ?_, ?_, ?_⟩
    · rw [Buf.overL_out (by omega), d2]
    · apply Buf.overL_ne_none; rw [d2]; simp
    · rw [Buf.overL_out (by omega), d3]
    · apply Buf.overL_ne_none; rw [d3]; simp
    · rw [show ((q : Int) + 1).toNat = q + 1 by omega, map_take_succ _ hq, map_take_succ _ hq, ← Buf.overL_push, ← Buf.overL_push, hlen, hlen']
  · rintro b' rfl
    simp only [CooBufs.overE, rebase, List.map_map, Int.toNat_natCast, List.take_length]
    congr 1
    exact hv.symm

/-- The COO object after `reindex_inplace`. -/
theorem reindexCoo_run {A : CooMat T} {E : List (Entry T)} (h : CooIs A E) (d : IndexBase) :
    reindexCoo d A = (.ok (), { A.withBufs (A.bufs.overE (rebase d.val E)) with indexBase := d }) := by
  by_cases hd : A.indexBase = d
  · have e : reindexCoo d A = (.ok (), A) := by
      simp [reindexCoo, M.bind_eq, M.bind, M.get, M.when, hd, pure]
    rw [e]
    congr 1
    have := h.data
    rw [hd] at this
    rw [show A.bufs.overE (rebase d.val E) = A.bufs from overE_of_holds this]
    obtain ⟨a, b, c, dd, e, v, r, cl, s⟩ := A
    cases v <;> cases r <;> cases cl <;> simp_all [CooMat.bufs, CooMat.withBufs, ptr]
  · have hw : M.wp (reindexCoo d) A (fun _ A' => A' = { A.withBufs (A.bufs.overE (rebase d.val E)) with indexBase := d }) := by
      unfold reindexCoo
      rw [M.wp_bind, M.wp_get, M.wp_when]
      refine ⟨fun _ => ?_, fun hc => absurd hd hc⟩
      rw [M.wp_bind, M.wp_zoom]
      have := reindexCoo_loop (b := A.bufs) h.data (reindexShift A.indexBase)
      rw [rebase_length, ← h.nnz] at this
      refine M.wp_mono this ?_
      rintro - b' rfl
      rw [M.wp_modify]
      have e : rebase (reindexShift A.indexBase) (rebase A.indexBase.val E) = rebase d.val E := by
        unfold rebase
        rw [List.map_map]
        apply List.map_congr_left
        intro x _
        simp only [Function.comp, add_assoc, reindexShift_eq hd]
      rw [e]
    obtain ⟨_, s, e1, e2⟩ := hw
    rw [e1, e2]

/-- C30 (COO). The same for COO matrices and their row and column indices. -/
theorem C30_coo {A : CooMat T} {E : List (Entry T)} (h : CooIs A E) (d : IndexBase) :
    ∃ A', reindexCoo d A = (.ok (), A') ∧ CooIs A' E ∧ A'.indexBase = d ∧ A'.nRows = A.nRows ∧ A'.nCols = A.nCols ∧
      A'.ownMemory = A.ownMemory ∧ A'.vals = A.vals ∧ A'.sort = A.sort ∧ (d = A.indexBase → A' = A) ∧
      reindexCoo A.indexBase A' = (.ok (), A) := by
  have hnew : ∀ d : IndexBase, CooIs { A.withBufs (A.bufs.overE (rebase d.val E)) with indexBase := d } E := by
    intro d
    refine ⟨h.nnz, ?_⟩
    exact cooIs_overE (E' := rebase d.val E) h (rebase_length _ _)
  have hself : ({ A.withBufs (A.bufs.overE (rebase A.indexBase.val E)) with indexBase := A.indexBase } : CooMat T) = A := by
    rw [show A.bufs.overE (rebase A.indexBase.val E) = A.bufs from overE_of_holds h.data]
    obtain ⟨a, b, c, dd, e, v, r, cl, s⟩ := A
    cases v <;> cases r <;> cases cl <;> simp_all [CooMat.bufs, CooMat.withBufs, ptr]
  have hval : ∀ d : IndexBase, (A.withBufs (A.bufs.overE (rebase d.val E))).vals = A.vals := by
    intro d
    have : Buf.overL ((rebase d.val E).map Entry.val) (ptr A.vals) = ptr A.vals := overL_of_holds fun p hp => by
      rw [(h.data p (by simpa [rebase] using hp)).1]; simp [rebase]
    simp only [CooMat.withBufs, CooMat.bufs, CooBufs.overE, this]
    cases A.vals <;> simp [ptr]
  refine ⟨_, reindexCoo_run h d, hnew d, rfl, rfl, rfl, rfl, hval d, rfl, ?_, ?_⟩
  · rintro rfl; exact hself
  · rw [reindexCoo_run (hnew d) A.indexBase]
    congr 1
    refine Eq.trans ?_ hself
    rcases cooIs_some h with h0 | ⟨h1, h2, h3⟩
    · subst h0
      obtain ⟨a, b, c, dd, e, v, r, cl, s⟩ := A
      cases v <;> cases r <;> cases cl <;> simp [CooMat.bufs, CooMat.withBufs, ptr, rebase, CooBufs.overE_nil]
    · obtain ⟨x, hx⟩ := Option.isSome_iff_exists.mp h1
      obtain ⟨y, hy⟩ := Option.isSome_iff_exists.mp h2
      obtain ⟨z, hz⟩ := Option.isSome_iff_exists.mp h3
      have hv1 := hval d
      simp only [CooMat.withBufs, CooMat.bufs, ptr, CooBufs.overE, hx, Option.map_some, Option.getD_some, Option.some.injEq] at hv1
      simp only [CooMat.withBufs, CooMat.bufs, ptr, CooBufs.overE, hx, hy, hz, Option.map_some, Option.getD_some]
      rw [overL_overL (by simp [rebase]), overL_overL (by simp [rebase]), hv1]

example : CooIs (cooOf 3 3 .One sampleE) sampleE ∧ CscIs (cscOf 3 3 [0, 1, 1, 3] sampleC) sampleC := ⟨cooOf_is _ _ _ _, sampleC_is⟩

/-! ## C44 -/

/-- C44 (COO). `reserve_coo` raises an error and changes nothing if the object does not own its memory or has arrays. Otherwise it sets `nnz` and,
if `nnz > 0`, attaches three new arrays of `nnz` (uninitialised) elements. For `nnz <= 0` it attaches nothing. -/
theorem C44_coo (nnz : Int) (A : CooMat T) :
    (A.ownMemory = true ∧ A.vals = none ∧ A.rows = none ∧ A.cols = none → ∃ A', reserveCoo nnz A = (.ok (), A') ∧ A'.nnz = nnz ∧
      A'.nRows = A.nRows ∧ A'.nCols = A.nCols ∧ A'.ownMemory = true ∧ A'.indexBase = A.indexBase ∧
      (0 < nnz → ∃ v r c, A'.vals = some v ∧ A'.rows = some r ∧ A'.cols = some c ∧
        ∀ p, (v p ≠ .none ↔ 0 ≤ p ∧ p < nnz) ∧ (r p ≠ .none ↔ 0 ≤ p ∧ p < nnz) ∧ (c p ≠ .none ↔ 0 ≤ p ∧ p < nnz)) ∧
      (nnz ≤ 0 → A'.vals = none ∧ A'.rows = none ∧ A'.cols = none)) ∧
    (¬ (A.ownMemory = true ∧ A.vals = none ∧ A.rows = none ∧ A.cols = none) → reserveCoo nnz A = (.throw .require, A)) := by
  constructor
  · rintro ⟨h1, h2, h3, h4⟩
    refine ⟨_, reserveCoo_spec h1 h2 h3 h4 nnz, rfl, rfl, rfl, h1, rfl, fun h => ?_, fun h => ?_⟩
    · refine ⟨Buf.alloc T nnz, Buf.alloc Int nnz, Buf.alloc Int nnz, if_pos h, if_pos h, if_pos h, fun p => ?_⟩
      simp [Buf.alloc]
    · simp only [if_neg (show ¬ nnz > 0 by omega)]; simp
  · intro h
    obtain ⟨a, b, c, d, e, v, r, cl, s⟩ := A
    cases c <;> cases v <;> cases r <;> cases cl <;> first
      | (exfalso; simp at h; done)
      | rfl

/-- C44 (CSC). `reserve_csc` raises an error and changes nothing if the object does not own its memory or has an index or value array. Otherwise it
sets `nnz`, attaches a zero pointer array of `n_cols + 1` elements unless there is one, and, if `nnz > 0`, attaches index and value arrays of
`nnz` zeros. -/
theorem C44_csc [Zero T] (nnz : Int) (A : CscMat T) (hn : 0 ≤ A.nCols) :
    (A.ownMemory = true ∧ A.vals = none ∧ A.rowidxs = none → ∃ A', reserveCsc nnz A = (.ok (), A') ∧ A'.nnz = nnz ∧
      A'.nRows = A.nRows ∧ A'.nCols = A.nCols ∧ A'.ownMemory = true ∧ A'.indexBase = A.indexBase ∧
      (∀ p, A.colptr = some p → A'.colptr = some p) ∧
      (A.colptr = none → ∃ p, A'.colptr = some p ∧ ∀ q, p q = if 0 ≤ q ∧ q < A.nCols + 1 then .val 0 else .none) ∧
      (0 < nnz → ∃ v r, A'.vals = some v ∧ A'.rowidxs = some r ∧
        ∀ p, (v p = if 0 ≤ p ∧ p < nnz then .val 0 else .none) ∧ (r p = if 0 ≤ p ∧ p < nnz then .val 0 else .none)) ∧
      (nnz ≤ 0 → A'.vals = none ∧ A'.rowidxs = none)) ∧
    (¬ (A.ownMemory = true ∧ A.vals = none ∧ A.rowidxs = none) → reserveCsc nnz A = (.throw .require, A)) := by
  constructor
  · rintro ⟨h1, h2, h3⟩
    refine ⟨_, reserveCsc_spec h1 h2 h3 (by omega) nnz, rfl, rfl, rfl, h1, rfl, fun p hp => ?_, fun hp => ?_, fun h => ?_, fun h => ?_⟩
    · simp only [hp, Option.getD_some]
    · exact ⟨_, by simp only [hp, Option.getD_none]; rfl, fun q => rfl⟩
    · exact ⟨Buf.fill nnz 0, Buf.fill nnz 0, if_pos h, if_pos h, fun p => ⟨rfl, rfl⟩⟩
    · simp only [if_neg (show ¬ nnz > 0 by omega)]; simp
  · intro h
    obtain ⟨a, b, c, d, e, v, r, cl⟩ := A
    cases c <;> cases v <;> cases r <;> first
      | (exfalso; simp at h; done)
      | rfl

/-- C44 (CSR). The same for `reserve_csr`. -/
theorem C44_csr [Zero T] (nnz : Int) (A : CsrMat T) (hn : 0 ≤ A.nRows) :
    (A.ownMemory = true ∧ A.vals = none ∧ A.colidxs = none → ∃ A', reserveCsr nnz A = (.ok (), A') ∧ A'.nnz = nnz ∧
      A'.nRows = A.nRows ∧ A'.nCols = A.nCols ∧ A'.ownMemory = true ∧ A'.indexBase = A.indexBase ∧
      (∀ p, A.rowptr = some p → A'.rowptr = some p) ∧
      (A.rowptr = none → ∃ p, A'.rowptr = some p ∧ ∀ q, p q = if 0 ≤ q ∧ q < A.nRows + 1 then .val 0 else .none) ∧
      (0 < nnz → ∃ v r, A'.vals = some v ∧ A'.colidxs = some r ∧
        ∀ p, (v p = if 0 ≤ p ∧ p < nnz then .val 0 else .none) ∧ (r p = if 0 ≤ p ∧ p < nnz then .val 0 else .none)) ∧
      (nnz ≤ 0 → A'.vals = none ∧ A'.colidxs = none)) ∧
    (¬ (A.ownMemory = true ∧ A.vals = none ∧ A.colidxs = none) → reserveCsr nnz A = (.throw .require, A)) := by
  constructor
  · rintro ⟨h1, h2, h3⟩
    refine ⟨_, reserveCsr_spec h1 h2 h3 (by omega) nnz, rfl, rfl, rfl, h1, rfl, fun p hp => ?_, fun hp => ?_, fun h => ?_, fun h => ?_⟩
    · simp only [hp, Option.getD_some]
    · exact ⟨_, by simp only [hp, Option.getD_none]; rfl, fun q => rfl⟩
    · exact ⟨Buf.fill nnz 0, Buf.fill nnz 0, if_pos h, if_pos h, fun p => ⟨rfl, rfl⟩⟩
    · simp only [if_neg (show ¬ nnz > 0 by omega)]; simp
  · intro h
    obtain ⟨a, b, c, d, e, v, r, cl⟩ := A
    cases c <;> cases v <;> cases cl <;> first
      | (exfalso; simp at h; done)
      | rfl

example : 0 ≤ (mkCsc 3 4 : CscMat ℤ).nCols ∧ (mkCsc 3 4 : CscMat ℤ).ownMemory = true ∧ (mkCsc 3 4 : CscMat ℤ).vals = none :=
  ⟨by simp [mkCsc], rfl, rfl⟩

end RB
