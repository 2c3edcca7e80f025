import Verif.Model.ExLowRank
import Verif.Lemmas.Convert
import Verif.Lemmas.SparseRun
import Verif.Props.SparseData
import Verif.Core.Doom

/-! # C70: the sum of two sparse matrices -/

namespace RB
open Spec

variable {T : Type}

/-! ## The map -/

section
variable [AddCommMonoid T]

/-- The entries stored for the pairs of the map. -/
def coordEntries (l : List (Coord × T)) : List (Entry T) := l.map fun e => ⟨e.1.1, e.1.2, e.2⟩

theorem coordEntries_pos (l : List (Coord × T)) : (coordEntries l).map Entry.pos = l.map Prod.fst := by
  simp [coordEntries, Entry.pos, Function.comp_def]

theorem toMat_cons (e : Entry T) (E : List (Entry T)) (i j : Int) :
    toMat (e :: E) i j = (if e.pos = (i, j) then e.val else 0) + toMat E i j := by
  unfold toMat
  rw [List.filter_cons]
  by_cases h : e.row = i ∧ e.col = j
  · rw [if_pos (by simpa using h), if_pos (by simp [Entry.pos, h]), List.map_cons, List.sum_cons]
  · rw [if_neg (by simpa using h), if_neg (by simpa [Entry.pos] using h), zero_add]

/-- For distinct keys the represented matrix is the map. -/
theorem toMat_coord {l : List (Coord × T)} (h : (l.map Prod.fst).Nodup) (i j : Int) : toMat (coordEntries l) i j = (mapGet l (i, j)).getD 0 := by
  induction l with
  | nil => rfl
  | cons e l ih =>
    rw [List.map_cons, List.nodup_cons] at h
    show toMat (⟨e.1.1, e.1.2, e.2⟩ :: coordEntries l) i j = _
    rw [toMat_cons, ih h.2]
    simp only [mapGet]
    by_cases he : e.1 = (i, j)
    · rw [if_pos (show (⟨e.1.1, e.1.2, e.2⟩ : Entry T).pos = (i, j) from he), if_pos he]
      have : mapGet l (i, j) = none := mapGet_none.2 (he ▸ h.1)
      rw [this]; simp
    · rw [if_neg he, if_neg (show ¬ (⟨e.1.1, e.1.2, e.2⟩ : Entry T).pos = (i, j) from he), zero_add]

theorem take_succ_toMat {E : List (Entry T)} {k : Nat} (hk : k < E.length) (i j : Int) :
    toMat (E.take (k + 1)) i j = toMat (E.take k) i j + (if E[k].pos = (i, j) then E[k].val else 0) := by
  rw [List.take_succ_eq_append_getElem hk, toMat_append]
  congr 1
  rw [toMat_cons]
  show _ + toMat [] i j = _
  simp [toMat]

theorem cooDictSet_spec {A : CooMat T} {E : List (Entry T)} {t : CooMat T} (hn : A.nnz = E.length)
    (hA : CooHolds (ptr A.vals) (ptr A.rows) (ptr A.cols) E) (hd : (E.map Entry.pos).Nodup) :
    M.wp (cooDictSet A []) t (fun d t' => t' = t ∧ (d.map Prod.fst).Nodup ∧ (∀ p, p ∈ d.map Prod.fst ↔ p ∈ E.map Entry.pos) ∧
      ∀ i j, (mapGet d (i, j)).getD 0 = toMat E i j) := by
  unfold cooDictSet
  rw [hn]
  refine M.wp_foldI (fun k d t' => t' = t ∧ (d.map Prod.fst).Nodup ∧ (∀ p, p ∈ d.map Prod.fst ↔ p ∈ (E.take k.toNat).map Entry.pos) ∧
    ∀ i j, (mapGet d (i, j)).getD 0 = toMat (E.take k.toNat) i j) (by omega) ⟨rfl, by simp, by simp, fun i j => rfl⟩ ?_ ?_
  · rintro k d _ h0 h1 ⟨rfl, h2, h3, h4⟩
    lift k to Nat using h0
    have hk : k < E.length := by omega
    obtain ⟨g1, g2, g3⟩ := hA k hk
    simp only [M.wp_bind, M.wp_lift, M.wp_pure]
    refine ⟨_, Buf.rd_val g2, _, Buf.rd_val g3, _, Buf.rd_val g1, trivial, ?_, ?_, ?_⟩
    · rw [keys_set]
      split_ifs with h
      · exact h2
      · rw [List.nodup_append]
        refine ⟨h2, by simp, fun a ha b hb => ?_⟩
        rw [List.mem_singleton] at hb
        rintro rfl
        exact h (hb ▸ ha)
    · intro p
      rw [keys_set, show ((k : Int) + 1).toNat = k + 1 by omega, List.take_succ_eq_append_getElem hk, List.map_append, List.mem_append]
      rw [Int.toNat_natCast] at h3
      split_ifs with h
      · rw [h3]
        refine ⟨Or.inl, fun hp => hp.elim id fun hp => ?_⟩
        rw [List.map_singleton, List.mem_singleton] at hp
        rw [hp]; exact (h3 _).1 h
      · rw [List.mem_append, h3]; rfl
    · intro i j
      rw [show ((k : Int) + 1).toNat = k + 1 by omega, take_succ_toMat hk, mapGet_set]
      rw [Int.toNat_natCast] at h4 h3
      by_cases he : (i, j) = (E[k].row, E[k].col)
      · rw [if_pos he, if_pos (show E[k].pos = (i, j) from he.symm), Option.getD_some, toMat_none, zero_add]
        intro e he' hc
        have hpos : e.pos = E[k].pos := by rw [show E[k].pos = (E[k].row, E[k].col) from rfl, ← he, Entry.pos, hc.1, hc.2]
        obtain ⟨q, hq, rfl⟩ := List.getElem_of_mem he'
        rw [List.length_take] at hq
        rw [List.getElem_take] at hpos
        have hq' : q < k := by omega
        have := (List.Nodup.getElem_inj_iff hd (i := q) (j := k) (hi := by simpa using (by omega)) (hj := by simpa using hk)).1
          (by simpa using hpos)
        omega
      · rw [if_neg he, if_neg (fun h => he h.symm), add_zero, h4]
  · rintro d _ ⟨rfl, h2, h3, h4⟩
    rw [show ((E.length : Int)).toNat = E.length by omega, List.take_length] at h3 h4
    exact ⟨rfl, h2, h3, h4⟩

theorem cooDictAdd_spec {B : CooMat T} {E : List (Entry T)} {t : CooMat T} {d0 : List (Coord × T)} (hn : B.nnz = E.length)
    (hB : CooHolds (ptr B.vals) (ptr B.rows) (ptr B.cols) E) (hd : (d0.map Prod.fst).Nodup) :
    M.wp (cooDictAdd B d0) t (fun d t' => t' = t ∧ (d.map Prod.fst).Nodup ∧
      (∀ p, p ∈ d.map Prod.fst ↔ p ∈ d0.map Prod.fst ∨ p ∈ E.map Entry.pos) ∧
      ∀ i j, (mapGet d (i, j)).getD 0 = (mapGet d0 (i, j)).getD 0 + toMat E i j) := by
  unfold cooDictAdd
  rw [hn]
  refine M.wp_foldI (fun k d t' => t' = t ∧ (d.map Prod.fst).Nodup ∧
    (∀ p, p ∈ d.map Prod.fst ↔ p ∈ d0.map Prod.fst ∨ p ∈ (E.take k.toNat).map Entry.pos) ∧
    ∀ i j, (mapGet d (i, j)).getD 0 = (mapGet d0 (i, j)).getD 0 + toMat (E.take k.toNat) i j) (by omega)
    ⟨rfl, hd, by simp, fun i j => by simp [toMat]⟩ ?_ ?_
  · rintro k d _ h0 h1 ⟨rfl, h2, h3, h4⟩
    lift k to Nat using h0
    have hk : k < E.length := by omega
    obtain ⟨g1, g2, g3⟩ := hB k hk
    simp only [M.wp_bind, M.wp_lift, M.wp_pure]
    refine ⟨_, Buf.rd_val g2, _, Buf.rd_val g3, _, Buf.rd_val g1, trivial, ?_, ?_, ?_⟩
    · rw [keys_set]
      split_ifs with h
      · exact h2
      · rw [List.nodup_append]
        refine ⟨h2, by simp, fun a ha b hb => ?_⟩
        rw [List.mem_singleton] at hb
        rintro rfl
        exact h (hb ▸ ha)
    · intro p
      rw [keys_set, show ((k : Int) + 1).toNat = k + 1 by omega, List.take_succ_eq_append_getElem hk, List.map_append, List.mem_append]
      rw [Int.toNat_natCast] at h3
      split_ifs with h
      · rw [h3]
        refine ⟨fun hp => hp.imp id Or.inl, fun hp => ?_⟩
        rcases hp with hp | hp | hp
        · exact Or.inl hp
        · exact Or.inr hp
        · rw [List.map_singleton, List.mem_singleton] at hp
          rw [hp]; exact (h3 _).1 h
      · rw [List.mem_append, h3, or_assoc]; rfl
    · intro i j
      rw [show ((k : Int) + 1).toNat = k + 1 by omega, take_succ_toMat hk, mapGet_set]
      rw [Int.toNat_natCast] at h4
      by_cases he : (i, j) = (E[k].row, E[k].col)
      · rw [if_pos he, if_pos (show E[k].pos = (i, j) from he.symm), Option.getD_some, ← he, h4, add_comm, add_assoc]
      · rw [if_neg he, if_neg (fun h => he h.symm), add_zero, h4]
  · rintro d _ ⟨rfl, h2, h3, h4⟩
    rw [show ((E.length : Int)).toNat = E.length by omega, List.take_length] at h3 h4
    exact ⟨rfl, h2, h3, h4⟩

theorem cooDictWrite_spec (l : List (Coord × T)) (k : Nat) {b : CooBufs T}
    (hv : ∀ p, (k : Int) ≤ p → p < k + l.length → b.vals p ≠ .none) (hr : ∀ p, (k : Int) ≤ p → p < k + l.length → b.rows p ≠ .none)
    (hc : ∀ p, (k : Int) ≤ p → p < k + l.length → b.cols p ≠ .none) :
    M.wp (cooDictWrite l k) b (fun _ b' =>
      (∀ (q : Nat) (h : q < l.length), b'.vals (k + q : Nat) = .val l[q].2 ∧ b'.rows (k + q : Nat) = .val l[q].1.1 ∧ b'.cols (k + q : Nat) = .val l[q].1.2) ∧
      ∀ p, p < (k : Int) → b'.vals p = b.vals p ∧ b'.rows p = b.rows p ∧ b'.cols p = b.cols p) := by
  induction l generalizing k b with
  | nil => simp [cooDictWrite]
  | cons e l ih =>
    obtain ⟨c, v⟩ := e
    simp only [List.length_cons, Nat.cast_add, Nat.cast_one] at hv hr hc
    simp only [cooDictWrite, M.wp_bind, onCRows, onCCols, onCVals, M.wp_zoom, M.wp_wr]
    refine ⟨hr _ le_rfl (by omega), hc _ le_rfl (by omega), hv _ le_rfl (by omega), ?_⟩
    have := ih (k + 1) (b := { vals := b.vals.set k v, rows := b.rows.set k c.1, cols := b.cols.set k c.2 })
      (fun p h0 h1 => by dsimp only; rw [Buf.set_ne (by omega)]; exact hv p (by omega) (by omega))
      (fun p h0 h1 => by dsimp only; rw [Buf.set_ne (by omega)]; exact hr p (by omega) (by omega))
      (fun p h0 h1 => by dsimp only; rw [Buf.set_ne (by omega)]; exact hc p (by omega) (by omega))
    rw [Nat.cast_add, Nat.cast_one] at this
    refine M.wp_mono this ?_
    rintro - b' ⟨h1, h2⟩
    refine ⟨fun q hq => ?_, fun p hp => ?_⟩
    · cases q with
      | zero =>
        obtain ⟨g1, g2, g3⟩ := h2 k (by omega)
        rw [Nat.add_zero]
        exact ⟨g1.trans (by simp), g2.trans (by simp), g3.trans (by simp)⟩
      | succ q =>
        rw [List.length_cons] at hq
        have := h1 q (by omega)
        rw [show k + 1 + q = k + (q + 1) by omega] at this
        simpa using this
    · obtain ⟨g1, g2, g3⟩ := h2 p (by omega)
      exact ⟨g1.trans (by simp [Buf.set_ne (show p ≠ k by omega)]), g2.trans (by simp [Buf.set_ne (show p ≠ k by omega)]),
        g3.trans (by simp [Buf.set_ne (show p ≠ k by omega)])⟩

/-! ## C70 -/

/-- C70. The sum of two zero-based coordinate matrices of which the first has no duplicates: the result is a coordinate matrix of the same size,
without duplicates, that represents the sum and whose positions are those of A and B, for every iteration order of the hash map.

Missing: duplicates in A, one-based matrices, and 2^31 or more entries, for which the code fails (below). -/
theorem C70_sum_partial {order : List (Coord × T) → List (Coord × T)} (ho : ∀ l, (order l).Perm l) {A B : CooMat T} {EA EB : List (Entry T)}
    {t : CooMat T} (hA : CooIs A EA) (hB : CooIs B EB) (hbA : A.indexBase = .Zero) (hbB : B.indexBase = .Zero) (hr : A.nRows = B.nRows)
    (hc : A.nCols = B.nCols) (hd : (EA.map Entry.pos).Nodup) (hnA : EA.length < 2147483648) (hnB : EB.length < 2147483648) :
    M.wp (sumOfCoo order A B) t (fun _ C => ∃ EC, CooIs C EC ∧ C.nRows = A.nRows ∧ C.nCols = A.nCols ∧ C.indexBase = .Zero ∧ C.sort = .None ∧
      (EC.map Entry.pos).Nodup ∧ (∀ p, p ∈ EC.map Entry.pos ↔ p ∈ EA.map Entry.pos ∨ p ∈ EB.map Entry.pos) ∧
      ∀ i j, toMat EC i j = toMat EA i j + toMat EB i j) := by
  have hA' := hA.data
  have hB' := hB.data
  rw [hbA, show IndexBase.Zero.val = 0 from rfl, rebase_zero] at hA'
  rw [hbB, show IndexBase.Zero.val = 0 from rfl, rebase_zero] at hB'
  unfold sumOfCoo
  simp only [M.wp_bind, M.wp_require]
  refine ⟨hr, hc, ?_⟩
  refine M.wp_mono (cooDictSet_spec hA.nnz hA' hd) ?_
  rintro d1 _ ⟨rfl, h1, h2, h3⟩
  rw [M.wp_ubIf]
  refine ⟨by rw [hA.nnz]; omega, ?_⟩
  refine M.wp_mono (cooDictAdd_spec hB.nnz hB' h1) ?_
  rintro d _ ⟨rfl, g1, g2, g3⟩
  rw [M.wp_ubIf]
  refine ⟨by rw [hB.nnz]; omega, ?_⟩
  rw [M.wp_set]
  refine ⟨(), _, reserveCoo_spec rfl rfl rfl rfl _, ?_⟩
  dsimp only
  rw [M.wp_zoom]
  have hp := ho d
  have hlen : (order d).length = d.length := hp.length_eq
  have hnd : ((order d).map Prod.fst).Nodup := ((hp.map Prod.fst).nodup_iff).2 g1
  have hmem : ∀ p, p ∈ (coordEntries (order d)).map Entry.pos ↔ p ∈ EA.map Entry.pos ∨ p ∈ EB.map Entry.pos := fun p => by
    rw [coordEntries_pos, (hp.map Prod.fst).mem_iff, g2, h2]
  have hmat : ∀ i j, toMat (coordEntries (order d)) i j = toMat EA i j + toMat EB i j := fun i j => by
    rw [toMat_perm (E := coordEntries (order d)) (E' := coordEntries d) (hp.map _ : (coordEntries (order d)).Perm (coordEntries d)) i j, toMat_coord g1, g3, h3]
  by_cases h0 : d.length = 0
  · have hnil : order d = [] := List.eq_nil_of_length_eq_zero (by omega)
    rw [hnil] at hmem hmat hnd ⊢
    rw [show ((0 : Int)) = ((0 : Nat) : Int) from rfl]
    refine M.wp_mono (cooDictWrite_spec _ 0 (fun p h0 h1 => by simp at h1; omega) (fun p h0 h1 => by simp at h1; omega)
      (fun p h0 h1 => by simp at h1; omega)) ?_
    intro _ b' _
    refine ⟨[], ⟨?_, fun p hp => by simp [rebase] at hp⟩, rfl, rfl, rfl, rfl, by simp, hmem, hmat⟩
    simp [CooMat.withBufs, h0]
  · have hpos : (d.length : Int) > 0 := by omega
    simp only [if_pos hpos]
    rw [show ((0 : Int)) = ((0 : Nat) : Int) from rfl]
    refine M.wp_mono (cooDictWrite_spec _ 0 ?_ ?_ ?_) ?_
    · intro p h0 h1
      show Buf.alloc T _ p ≠ _
      rw [Buf.alloc, if_pos ⟨by omega, by omega⟩]; simp
    · intro p h0 h1
      show Buf.alloc Int _ p ≠ _
      rw [Buf.alloc, if_pos ⟨by omega, by omega⟩]; simp
    · intro p h0 h1
      show Buf.alloc Int _ p ≠ _
      rw [Buf.alloc, if_pos ⟨by omega, by omega⟩]; simp
    rintro - b' ⟨k1, -⟩
    refine ⟨coordEntries (order d), ⟨?_, ?_⟩, rfl, rfl, rfl, rfl, by rw [coordEntries_pos]; exact hnd, hmem, hmat⟩
    · simp [CooMat.withBufs, coordEntries, hlen, mkCoo]
    · show CooHolds b'.vals b'.rows b'.cols (rebase 0 _)
      rw [rebase_zero]
      intro q hq
      have hq' : q < (order d).length := by simpa [coordEntries] using hq
      have := k1 q hq'
      rw [Nat.zero_add] at this
      simpa [coordEntries] using this

end

/-- Two matrices that meet the hypotheses of C70 and overlap in a position. -/
example : CooIs (cooOf 2 3 .Zero [⟨1, 2, 5⟩, ⟨0, 0, 1⟩]) ([⟨1, 2, 5⟩, ⟨0, 0, 1⟩] : List (Entry ℤ)) ∧
    CooIs (cooOf 2 3 .Zero [⟨1, 2, 3⟩, ⟨1, 2, 4⟩]) ([⟨1, 2, 3⟩, ⟨1, 2, 4⟩] : List (Entry ℤ)) ∧
    (([⟨1, 2, 5⟩, ⟨0, 0, 1⟩] : List (Entry ℤ)).map Entry.pos).Nodup :=
  ⟨cooOf_is _ _ _ _, cooOf_is _ _ _ _, by decide⟩

/-- C70. Duplicates in the first matrix are not added: the sum of A = (1 + 2) and B = 0 is stored as 2. -/
theorem C70_duplicates_counterexample :
    M.wp (sumOfCoo id (cooOf 1 1 .Zero [⟨0, 0, 1⟩, ⟨0, 0, 2⟩] : CooMat ℤ) (mkCoo 1 1)) (mkCoo 1 1) (fun _ C => CooIs C [⟨0, 0, 2⟩]) := by
  refine ⟨(), _, rfl, rfl, fun p hp => ?_⟩
  obtain rfl : p = 0 := by simpa [rebase] using hp
  exact ⟨rfl, rfl, rfl⟩

/-- C70. One-based matrices: the sum is marked as zero-based but keeps the one-based indices, so that the entry at (0, 0) moves to (1, 1), outside
of the 1 x 1 matrix. -/
theorem C70_one_based_counterexample :
    M.wp (sumOfCoo id (cooOf 1 1 .One [⟨0, 0, 1⟩] : CooMat ℤ) (mkCoo 1 1)) (mkCoo 1 1) (fun _ C => C.indexBase = .Zero ∧ CooIs C [⟨1, 1, 1⟩]) := by
  refine ⟨(), _, rfl, rfl, rfl, fun p hp => ?_⟩
  obtain rfl : p = 0 := by simpa [rebase] using hp
  exact ⟨rfl, rfl, rfl⟩

/-- C70. With 2^31 or more entries the loop counter overflows. -/
theorem C70_int_undefined [AddCommMonoid T] {order : List (Coord × T) → List (Coord × T)} {A B : CooMat T} {EA : List (Entry T)} {t : CooMat T}
    (hA : CooIs A EA) (hr : A.nRows = B.nRows) (hc : A.nCols = B.nCols) (hn : 2147483648 ≤ EA.length) : M.Undef (sumOfCoo order A B) t := by
  unfold sumOfCoo
  refine M.Undef.after ((M.wp_require).2 ⟨hr, M.Undef.after ((M.wp_require).2 ⟨hc, M.Undef.after (?_ : M.wp _ _ _)⟩)⟩)
  unfold cooDictSet
  rw [hA.nnz]
  refine M.wp_foldI (fun _ _ _ => True) (by omega) trivial ?_ ?_
  · intro k d t' h0 h1 _
    lift k to Nat using h0
    obtain ⟨g1, g2, g3⟩ := hA.data k (by simpa [rebase] using h1)
    simp only [M.wp_bind, M.wp_lift, M.wp_pure]
    exact ⟨_, Buf.rd_val g2, _, Buf.rd_val g3, _, Buf.rd_val g1, trivial⟩
  · intro d t' _
    refine M.Undef.bind ?_
    unfold M.ubIf
    rw [if_pos (by omega)]
    rfl

end RB
