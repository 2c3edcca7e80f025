import Verif.Spec.SparseData
import Verif.Lemmas.Mat
import Verif.Lemmas.SparseRun
import Mathlib.Data.List.Chain

/-! # Lemmas about sparse matrix data structures -/

namespace RB
open Spec
variable {T X : Type}

/-! ## Arrays filled from the front -/

/-- The buffer `b` with its first cells replaced by the elements of `l`. -/
def Buf.overL (l : List X) (b : Buf X) : Buf X := fun p =>
  if 0 ≤ p then (match l[p.toNat]? with | some v => .val v | none => b p) else b p

theorem Buf.overL_nil (b : Buf X) : Buf.overL [] b = b := by
  funext p; simp [Buf.overL]

theorem Buf.overL_get {l : List X} {b : Buf X} {p : Nat} (h : p < l.length) : Buf.overL l b p = .val l[p] := by
  simp [Buf.overL, h]

theorem Buf.overL_out {l : List X} {b : Buf X} {p : Int} (h : p < 0 ∨ (l.length : Int) ≤ p) : Buf.overL l b p = b p := by
  unfold Buf.overL
  split_ifs with h0
  · rw [List.getElem?_eq_none (by omega)]
  · rfl

theorem Buf.overL_push (l : List X) (b : Buf X) (v : X) : (Buf.overL l b).set l.length v = Buf.overL (l ++ [v]) b := by
  funext p
  rw [Buf.set_apply]
  by_cases hp : p = (l.length : Int)
  · rw [if_pos hp, hp, Buf.overL_get (by simp)]
    simp
  · rw [if_neg hp]
    by_cases h0 : 0 ≤ p ∧ p < l.length
    · obtain ⟨q, rfl⟩ := Int.eq_ofNat_of_zero_le h0.1
      rw [Buf.overL_get (by omega), Buf.overL_get (by simp; omega), List.getElem_append_left]
    · rw [Buf.overL_out (by omega), Buf.overL_out (by simp; omega)]

theorem Buf.overL_ne_none {l : List X} {b : Buf X} {p : Int} (h : b p ≠ .none) : Buf.overL l b p ≠ .none := by
  unfold Buf.overL
  split_ifs
  · split <;> simp [h]
  · exact h

theorem overL_of_holds {l : List X} {b : Buf X} (h : ∀ (p : Nat) (hp : p < l.length), b p = .val l[p]) : Buf.overL l b = b := by
  funext p
  by_cases h0 : 0 ≤ p ∧ p < l.length
  · obtain ⟨q, rfl⟩ := Int.eq_ofNat_of_zero_le h0.1
    rw [Buf.overL_get (by omega), h q (by omega)]
  · rw [Buf.overL_out (by omega)]

/-- Three arrays filled from the front with entries. -/
def CooBufs.overE (E : List (Entry T)) (b : CooBufs T) : CooBufs T :=
  { vals := Buf.overL (E.map Entry.val) b.vals, rows := Buf.overL (E.map Entry.row) b.rows, cols := Buf.overL (E.map Entry.col) b.cols }

theorem CooBufs.overE_nil (b : CooBufs T) : CooBufs.overE [] b = b := by
  simp [CooBufs.overE, Buf.overL_nil]

theorem overE_holds (E : List (Entry T)) (b : CooBufs T) :
    CooHolds (CooBufs.overE E b).vals (CooBufs.overE E b).rows (CooBufs.overE E b).cols E := by
  intro p h
  refine ⟨?_, ?_, ?_⟩ <;> (simp only [CooBufs.overE]; rw [Buf.overL_get (by simpa using h)]; simp)

/-- Cells `0 .. n-1` of the three arrays are allocated. -/
def CooBufs.Alloc (b : CooBufs T) (n : Int) : Prop :=
  ∀ p, 0 ≤ p → p < n → b.vals p ≠ .none ∧ b.rows p ≠ .none ∧ b.cols p ≠ .none

/-- Storing one more entry. -/
theorem overE_push {E : List (Entry T)} {b : CooBufs T} {e : Entry T} {α : Type} {k : Unit → M (CooBufs T) α} {Q : α → CooBufs T → Prop}
    {n : Int} (hal : b.Alloc n) (hn : (E.length : Int) < n) (hQ : M.wp (k ()) (b.overE (E ++ [e])) Q) :
    M.wp (do onCVals (M.wr E.length e.val); onCRows (M.wr E.length e.row); onCCols (M.wr E.length e.col); k ()) (b.overE E) Q := by
  obtain ⟨h1, h2, h3⟩ := hal E.length (by omega) hn
  simp only [M.wp_bind, onCVals, onCRows, onCCols, M.wp_zoom, M.wp_wr]
  refine ⟨Buf.overL_ne_none h1, Buf.overL_ne_none h2, Buf.overL_ne_none h3, ?_⟩
  have : b.overE (E ++ [e]) = ⟨(b.overE E).vals.set E.length e.val, (b.overE E).rows.set E.length e.row,
      (b.overE E).cols.set E.length e.col⟩ := by
    simp only [CooBufs.overE, List.map_append, List.map_cons, List.map_nil]
    congr 1
    · rw [← Buf.overL_push]; simp
    · rw [← Buf.overL_push]; simp
    · rw [← Buf.overL_push]; simp
  rw [this] at hQ
  exact hQ

theorem map_take_succ {Y : Type} (f : X → Y) {l : List X} {q : Nat} (h : q < l.length) :
    (l.take (q + 1)).map f = (l.take q).map f ++ [f l[q]] := by
  rw [← List.take_append_getElem h, List.map_append]; rfl

/-! ## Sort order -/

theorem cscLe_trans {a b c : Entry T} (h1 : cscLe a b) (h2 : cscLe b c) : cscLe a c := by
  unfold cscLe at *; omega

theorem csrLe_trans {a b c : Entry T} (h1 : csrLe a b) (h2 : csrLe b c) : csrLe a c := by
  unfold csrLe at *; omega

theorem increasingByCsc_iff (a b : Entry T) : increasingByCsc a.row a.col b.row b.col = true ↔ cscLe a b := by
  unfold increasingByCsc cscLe
  split_ifs <;> simp <;> omega

theorem increasingByCsr_iff (a b : Entry T) : increasingByCsr a.row a.col b.row b.col = true ↔ csrLe a b := by
  unfold increasingByCsr csrLe
  split_ifs <;> simp <;> omega

theorem pairwise_of_adjacent {R : X → X → Prop} (htr : ∀ a b c, R a b → R b c → R a c) {l : List X}
    (h : ∀ (q : Nat) (h : q + 1 < l.length), R (l[q]'(by omega)) l[q + 1]) : l.Pairwise R := by
  haveI : IsTrans X R := ⟨htr⟩
  rw [← List.isChain_iff_pairwise, List.isChain_iff_getElem]
  intro i hi
  exact h i hi

theorem adjacent_of_pairwise {R : X → X → Prop} {l : List X} (h : l.Pairwise R) (q : Nat) (hq : q + 1 < l.length) :
    R (l[q]'(by omega)) l[q + 1] := List.pairwise_iff_getElem.mp h q (q + 1) (by omega) hq (by omega)

/-- The sort type of a list of entries, as `coo_sort_type` reports it. -/
theorem cooSortType_spec {v : Buf T} {rows cols : Buf Int} {E : List (Entry T)} (h : CooHolds v rows cols E) :
    ∃ s, cooSortType E.length rows cols = .ok s ∧ (s = .CSC ↔ E.Pairwise cscLe) ∧
      (s = .CSR ↔ ¬ E.Pairwise cscLe ∧ E.Pairwise csrLe) := by
  have key : Res.sat (cooSortType E.length rows cols) (fun s => (s = .CSC ↔ E.Pairwise cscLe) ∧
      (s = .CSR ↔ ¬ E.Pairwise cscLe ∧ E.Pairwise csrLe)) := by
    unfold cooSortType
    rw [Res.sat_bind]
    -- invariant on the flags
    have hfin : ∀ a b : Bool, (a = true ↔ E.Pairwise cscLe) → (b = true ↔ E.Pairwise csrLe) →
        Res.sat (pure (if a then .CSC else if b then .CSR else .None) : Res NonzeroSort)
          (fun s => (s = .CSC ↔ E.Pairwise cscLe) ∧ (s = .CSR ↔ ¬ E.Pairwise cscLe ∧ E.Pairwise csrLe)) := by
      intro a b h1 h2
      cases a <;> cases b <;> simp at h1 h2 <;> simp [h1, h2]
    by_cases hl : E.length ≤ 1
    · have hp : E.Pairwise cscLe ∧ E.Pairwise csrLe := by
        match E, hl with
        | [], _ => exact ⟨List.Pairwise.nil, List.Pairwise.nil⟩
        | [a], _ => exact ⟨List.pairwise_singleton _ _, List.pairwise_singleton _ _⟩
      have h0 : ((E.length : Int) - 1).toNat = 0 := by omega
      have : foldI 1 (E.length : Int) (fun ell (st : Bool × Bool) =>
          if st.1 = false ∧ st.2 = false then (pure st : Res (Bool × Bool))
          else do
            let i0 ← rows.rd (ell - 1)
            let j0 ← cols.rd (ell - 1)
            let i1 ← rows.rd ell
            let j1 ← cols.rd ell
            pure (if st.1 then increasingByCsc i0 j0 i1 j1 else st.1, if st.2 then increasingByCsr i0 j0 i1 j1 else st.2)) (true, true)
          = .ok (true, true) := by
        unfold foldI; rw [h0]; rfl
      rw [this]
      exact ⟨_, rfl, hfin _ _ (iff_of_true rfl hp.1) (iff_of_true rfl hp.2)⟩
    · refine Res.sat_foldI (fun ell st =>
        (st.1 = true ↔ ∀ (q : Nat) (h : q + 1 < E.length), (q : Int) + 1 < ell → cscLe (E[q]'(by omega)) E[q + 1]) ∧
        (st.2 = true ↔ ∀ (q : Nat) (h : q + 1 < E.length), (q : Int) + 1 < ell → csrLe (E[q]'(by omega)) E[q + 1]))
        (by omega) ?_ ?_ ?_
      · constructor <;> (simp only [true_iff]; intros; omega)
      · rintro ell ⟨a, b⟩ h1 h2 ⟨ha, hb⟩
        obtain ⟨q, hq⟩ : ∃ q : Nat, ell = q + 1 := ⟨(ell - 1).toNat, by omega⟩
        subst hq
        have hql : q + 1 < E.length := by omega
        have ext : ∀ (R : Entry T → Entry T → Prop),
            (∀ (q' : Nat) (h : q' + 1 < E.length), (q' : Int) + 1 < (q : Int) + 1 + 1 → R (E[q']'(by omega)) E[q' + 1]) ↔
            (∀ (q' : Nat) (h : q' + 1 < E.length), (q' : Int) + 1 < (q : Int) + 1 → R (E[q']'(by omega)) E[q' + 1]) ∧ R (E[q]'(by omega)) E[q + 1] := by
          intro R
          constructor
          · intro h; exact ⟨fun q' h1 h2 => h q' h1 (by omega), h q hql (by omega)⟩
          · rintro ⟨h1, h2⟩ q' h3 h4
            by_cases h5 : q' = q
            · subst h5; exact h2
            · exact h1 q' h3 (by omega)
        simp only at ha hb ⊢
        simp only [ext, ← ha, ← hb]
        by_cases hab : a = false ∧ b = false
        · rw [if_pos hab, Res.pure_eq, Res.sat_ok]; simp [hab.1, hab.2]
        · rw [if_neg hab]
          obtain ⟨-, r0, c0⟩ := h q (by omega)
          obtain ⟨-, r1, c1⟩ := h (q + 1) hql
          push_cast at r1 c1
          rw [show (q : Int) + 1 - 1 = q by ring, Buf.rd_val r0, Buf.rd_val c0, Buf.rd_val r1, Buf.rd_val c1]
          simp only [Res.ok_bind, Res.pure_eq, Res.sat_ok]
          rw [← increasingByCsc_iff, ← increasingByCsr_iff]
          cases a <;> cases b <;> simp at hab ⊢
      · rintro ⟨a, b⟩ ⟨ha, hb⟩
        apply hfin
        · rw [ha]
          constructor
          · intro h; exact pairwise_of_adjacent (R := cscLe) (fun _ _ _ => cscLe_trans) fun q hq => h q hq (by omega)
          · intro h q hq _; exact adjacent_of_pairwise h q hq
        · rw [hb]
          constructor
          · intro h; exact pairwise_of_adjacent (R := csrLe) (fun _ _ _ => csrLe_trans) fun q hq => h q hq (by omega)
          · intro h q hq _; exact adjacent_of_pairwise h q hq
  exact key

/-! ## Sorting -/

/-- An entry as a tuple. -/
def tup (e : Entry T) : Int × Int × T := (e.row, e.col, e.val)
/-- A tuple as an entry. -/
def untup (t : Int × Int × T) : Entry T := ⟨t.1, t.2.1, t.2.2⟩

theorem untup_tup (e : Entry T) : untup (tup e) = e := rfl

theorem sortLt_csr_iff (a b : Int × Int × T) : sortLt .CSR a b = true ↔ a.1 < b.1 ∨ (a.1 = b.1 ∧ a.2.1 < b.2.1) := by
  unfold sortLt
  rw [if_pos rfl]
  by_cases h1 : a.1 < b.1
  · simp [h1]
  · by_cases h2 : a.1 > b.1
    · simp [h1, h2]; omega
    · by_cases h3 : a.2.1 < b.2.1
      · simp [h1, h2, h3]; omega
      · simp [h1, h2, h3]

theorem sortLt_csc_iff {s : NonzeroSort} (hs : s ≠ .CSR) (a b : Int × Int × T) :
    sortLt s a b = true ↔ a.2.1 < b.2.1 ∨ (a.2.1 = b.2.1 ∧ a.1 < b.1) := by
  unfold sortLt
  rw [if_neg hs]
  by_cases h1 : a.2.1 < b.2.1
  · simp [h1]
  · by_cases h2 : a.2.1 > b.2.1
    · simp [h1, h2]; omega
    · by_cases h3 : a.1 < b.1
      · simp [h1, h2, h3]; omega
      · simp [h1, h2, h3]

theorem sortLt_strictWeak (s : NonzeroSort) : StrictWeak (sortLt (T := T) s) := by
  by_cases hs : s = .CSR
  · subst hs
    constructor
    · intro a; rw [← Bool.not_eq_true, sortLt_csr_iff]; omega
    · intro a b c; rw [sortLt_csr_iff, sortLt_csr_iff, sortLt_csr_iff]; omega
    · intro a b c; simp only [← Bool.not_eq_true, sortLt_csr_iff]; omega
  · constructor
    · intro a; rw [← Bool.not_eq_true, sortLt_csc_iff hs]; omega
    · intro a b c; rw [sortLt_csc_iff hs, sortLt_csc_iff hs, sortLt_csc_iff hs]; omega
    · intro a b c; simp only [← Bool.not_eq_true, sortLt_csc_iff hs]; omega

theorem sortLt_csc (a b : Int × Int × T) : sortLt .CSC b a = false ↔ cscLe (untup a) (untup b) := by
  rw [← Bool.not_eq_true, sortLt_csc_iff (by decide)]
  unfold cscLe untup
  simp only
  omega

theorem sortLt_csr (a b : Int × Int × T) : sortLt .CSR b a = false ↔ csrLe (untup a) (untup b) := by
  rw [← Bool.not_eq_true, sortLt_csr_iff]
  unfold csrLe untup
  simp only
  omega

theorem ofList_get {l : List X} {p : Nat} (h : p < l.length) : Buf.ofList l p = .val l[p] := by
  simp [Buf.ofList, h]

theorem coo_alloc {b : CooBufs T} {E : List (Entry T)} (h : CooHolds b.vals b.rows b.cols E) : b.Alloc E.length := by
  intro p h0 h1
  obtain ⟨q, rfl⟩ := Int.eq_ofNat_of_zero_le h0
  obtain ⟨a, c, d⟩ := h q (by omega)
  rw [a, c, d]; simp

theorem sortCooWork_spec {srt : (Int × Int × T → Int × Int × T → Bool) → List (Int × Int × T) → List (Int × Int × T)} (hs : SortOk srt)
    {s : NonzeroSort} (hsn : s ≠ .None) {b : CooBufs T} {E : List (Entry T)} (h : CooHolds b.vals b.rows b.cols E) :
    M.wp (sortCooWork srt s E.length) b (fun _ b' => ∃ E', E'.Perm E ∧ SortedBy s E' ∧ b' = b.overE E') := by
  unfold sortCooWork
  rw [M.wp_bind, M.wp_when]
  refine ⟨fun h => absurd h (by omega), fun _ => ?_⟩
  rw [M.wp_bind]
  refine M.wp_foldI (fun ell l b' => l = (E.take ell.toNat).map tup ∧ b' = b) (by omega) ⟨by simp, rfl⟩ ?_ ?_
  · rintro ell l b' h0 h1 ⟨rfl, rfl⟩
    obtain ⟨q, rfl⟩ := Int.eq_ofNat_of_zero_le h0
    obtain ⟨a, c, d⟩ := h q (by omega)
    simp only [M.wp_bind, onCVals, onCRows, onCCols, M.wp_zoom, M.wp_rd, M.wp_pure]
    refine ⟨_, c, _, d, _, a, ?_, trivial⟩
    rw [show ((q : Int) + 1).toNat = q + 1 by omega, Int.toNat_natCast, map_take_succ tup (by omega)]
    rfl
  rintro l b' ⟨rfl, rfl⟩
  obtain ⟨hperm, hsort⟩ := hs (sortLt s) ((E.take (E.length : Int).toNat).map tup) (sortLt_strictWeak s)
  rw [Int.toNat_natCast, List.take_length] at *
  generalize srt (sortLt s) (E.map tup) = L at *
  have hlen : L.length = E.length := by rw [hperm.length_eq]; simp
  refine M.wp_forI (fun ell b'' => b'' = b'.overE ((L.take ell.toNat).map untup)) (by omega) ?_ ?_ ?_
  · simp [CooBufs.overE_nil]
  · rintro ell b'' h0 h1 rfl
    obtain ⟨q, rfl⟩ := Int.eq_ofNat_of_zero_le h0
    rw [M.wp_bind, M.wp_lift]
    refine ⟨L[q]'(by omega), Buf.rd_val (ofList_get (by omega)), ?_⟩
    have := overE_push (E := (L.take q).map untup) (e := untup (L[q]'(by omega))) (k := pure)
      (Q := fun _ b'' => b'' = b'.overE ((L.take (q + 1)).map untup)) (coo_alloc h) (by simp; omega)
      (by rw [M.wp_pure, map_take_succ untup (by omega)])
    rw [show (((L.take q).map untup).length : Int) = q by simp; omega] at this
    rw [Int.toNat_natCast, show ((q : Int) + 1).toNat = q + 1 by omega]
    simpa [untup] using this
  · rintro b'' rfl
    refine ⟨L.map untup, ?_, ?_, ?_⟩
    · have := hperm.map untup
      rwa [List.map_map, show untup ∘ tup = (id : Entry T → Entry T) from rfl, List.map_id] at this
    · cases s with
      | None => exact absurd rfl hsn
      | CSC => exact List.pairwise_map.mpr (hsort.imp fun {a b} h => (sortLt_csc a b).mp h)
      | CSR => exact List.pairwise_map.mpr (hsort.imp fun {a b} h => (sortLt_csr a b).mp h)
    · rw [Int.toNat_natCast, ← hlen, List.take_length]

theorem overE_of_holds {b : CooBufs T} {E : List (Entry T)} (h : CooHolds b.vals b.rows b.cols E) : b.overE E = b := by
  unfold CooBufs.overE
  rw [overL_of_holds, overL_of_holds, overL_of_holds] <;> (intro p hp; have := h p (by simpa using hp); simp [this])

theorem sortCooRaw_spec {srt : (Int × Int × T → Int × Int × T → Bool) → List (Int × Int × T) → List (Int × Int × T)} (hs : SortOk srt)
    {s : NonzeroSort} {b : CooBufs T} {E : List (Entry T)} (h : CooHolds b.vals b.rows b.cols E) :
    M.wp (sortCooRaw srt s E.length) b (fun _ b' => ∃ E', E'.Perm E ∧ SortedBy s E' ∧ b' = b.overE E' ∧ (s = .None → b' = b)) := by
  unfold sortCooRaw
  split_ifs with hsn
  · rw [M.wp_pure]
    exact ⟨E, List.Perm.refl _, by rw [hsn]; trivial, (overE_of_holds h).symm, fun _ => rfl⟩
  · rw [M.wp_bind, M.wp_get, M.wp_bind, M.wp_lift]
    obtain ⟨c, hc, c1, c2⟩ := cooSortType_spec h
    refine ⟨c, hc, ?_⟩
    rw [M.wp_when]
    refine ⟨fun _ => M.wp_mono (sortCooWork_spec hs hsn h) ?_, fun hcs => ?_⟩
    · rintro - b' ⟨E', h1, h2, h3⟩; exact ⟨E', h1, h2, h3, fun h => absurd h hsn⟩
    · rw [not_not] at hcs
      refine ⟨E, List.Perm.refl _, ?_, (overE_of_holds h).symm, fun _ => rfl⟩
      subst hcs
      cases c with
      | None => exact absurd rfl hsn
      | CSC => exact c1.mp rfl
      | CSR => exact (c2.mp rfl).2

/-! ## COO objects -/

theorem rebase_length (k : Int) (E : List (Entry T)) : (rebase k E).length = E.length := by simp [rebase]

theorem rebase_neg (k : Int) (E : List (Entry T)) : rebase (-k) (rebase k E) = E := by
  unfold rebase
  rw [List.map_map]
  conv_rhs => rw [← List.map_id E]
  apply List.map_congr_left
  rintro ⟨r, c, v⟩ _
  simp

theorem rebase_neg' (k : Int) (E : List (Entry T)) : rebase k (rebase (-k) E) = E := by
  have := rebase_neg (-k) E
  rwa [neg_neg] at this

theorem rebase_zero (E : List (Entry T)) : rebase 0 E = E := by
  have := rebase_neg 0 E
  unfold rebase at *
  simp

theorem sortedBy_rebase (s : NonzeroSort) (k : Int) (E : List (Entry T)) : SortedBy s (rebase k E) ↔ SortedBy s E := by
  unfold rebase
  cases s with
  | None => exact Iff.rfl
  | CSC =>
    simp only [SortedBy, List.pairwise_map]
    constructor <;> (intro h; refine h.imp ?_; intro a b hab; simp only [cscLe] at *; omega)
  | CSR =>
    simp only [SortedBy, List.pairwise_map]
    constructor <;> (intro h; refine h.imp ?_; intro a b hab; simp only [csrLe] at *; omega)

theorem withBufs_bufs {A : CooMat T} {b : CooBufs T} (h : A.nnz = 0 ∨ (A.vals.isSome ∧ A.rows.isSome ∧ A.cols.isSome)) :
    A.nnz = 0 ∨ (A.withBufs b).bufs = b := by
  rcases h with h | ⟨h1, h2, h3⟩
  · exact Or.inl h
  · right
    obtain ⟨x, hx⟩ := Option.isSome_iff_exists.mp h1
    obtain ⟨y, hy⟩ := Option.isSome_iff_exists.mp h2
    obtain ⟨z, hz⟩ := Option.isSome_iff_exists.mp h3
    simp [CooMat.withBufs, CooMat.bufs, ptr, hx, hy, hz]

theorem cooIs_some {A : CooMat T} {E : List (Entry T)} (h : CooIs A E) :
    E = [] ∨ (A.vals.isSome ∧ A.rows.isSome ∧ A.cols.isSome) := by
  match E, h with
  | [], _ => exact Or.inl rfl
  | e :: E, h =>
    right
    obtain ⟨a, b, c⟩ := h.data 0 (by simp [rebase])
    refine ⟨?_, ?_, ?_⟩
    · cases hv : A.vals <;> simp_all [ptr]
    · cases hv : A.rows <;> simp_all [ptr]
    · cases hv : A.cols <;> simp_all [ptr]

/-- An object whose arrays were overwritten with entries. -/
theorem cooIs_overE {A : CooMat T} {E E' : List (Entry T)} (h : CooIs A E) (hl : E'.length = E.length) :
    CooHolds (ptr (A.withBufs (A.bufs.overE E')).vals) (ptr (A.withBufs (A.bufs.overE E')).rows) (ptr (A.withBufs (A.bufs.overE E')).cols) E' := by
  rcases cooIs_some h with h0 | ⟨h1, h2, h3⟩
  · subst h0
    have : E' = [] := List.eq_nil_of_length_eq_zero (by simpa using hl)
    subst this
    intro p hp; simp at hp
  · obtain ⟨x, hx⟩ := Option.isSome_iff_exists.mp h1
    obtain ⟨y, hy⟩ := Option.isSome_iff_exists.mp h2
    obtain ⟨z, hz⟩ := Option.isSome_iff_exists.mp h3
    have := overE_holds E' A.bufs
    simpa [CooMat.withBufs, ptr, hx, hy, hz, CooMat.bufs] using this

theorem sortCooData_spec {srt : (Int × Int × T → Int × Int × T → Bool) → List (Int × Int × T) → List (Int × Int × T)} (hs : SortOk srt)
    {s : NonzeroSort} {A : CooMat T} {E : List (Entry T)} (h : CooIs A E) :
    M.wp (sortCooData srt s) A (fun _ A' => ∃ E', CooIs A' E' ∧ E'.Perm E ∧ SortedBy s E' ∧
      A' = { A.withBufs (A.bufs.overE (rebase A.indexBase.val E')) with sort := s } ∧ (s = .None → E' = E)) := by
  unfold sortCooData
  rw [M.wp_bind, M.wp_get, M.wp_bind, M.wp_zoom, h.nnz]
  have := sortCooRaw_spec hs (s := s) (b := A.bufs) h.data
  rw [rebase_length] at this
  refine M.wp_mono this ?_
  rintro - b' ⟨E', h1, h2, rfl, h4⟩
  rw [M.wp_modify]
  have hl : E'.length = E.length := by rw [h1.length_eq, rebase_length]
  refine ⟨rebase (-A.indexBase.val) E', ⟨?_, ?_⟩, ?_, ?_, ?_, ?_⟩
  · simp only [CooMat.withBufs]; rw [h.nnz, rebase_length, hl]
  · have := cooIs_overE (E' := E') h hl
    have e : rebase (A.indexBase.val) (rebase (-A.indexBase.val) E') = E' := rebase_neg' _ _
    simp only [CooMat.withBufs] at this ⊢
    rw [e]; exact this
  · have := h1.map (fun e : Entry T => { e with row := e.row + (-A.indexBase.val), col := e.col + (-A.indexBase.val) })
    have e : rebase (-A.indexBase.val) (rebase A.indexBase.val E) = E := rebase_neg _ _
    unfold rebase at *
    rw [e] at this; exact this
  · rw [sortedBy_rebase]; exact h2
  · rw [rebase_neg']
  · intro hn
    have h4 := h4 hn
    have hb := overE_holds E' A.bufs
    rw [h4] at hb
    rw [cooHolds_unique hb h.data (by rw [rebase_length, hl]), rebase_neg]

end RB
