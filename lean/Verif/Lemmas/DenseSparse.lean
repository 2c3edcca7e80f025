import Verif.Lemmas.Convert
import Verif.Lemmas.SparseRun
import Verif.Lemmas.Mat
import Mathlib.Algebra.BigOperators.Intervals

/-! # Lemmas about conversions between dense and sparse matrices -/

namespace RB
open Spec
variable {T X : Type}

/-! ## Nested traversals -/

/-- What a traversal of one row keeps. -/
def rowL (g : Nat → Option X) (m : Nat) : List X := (List.range m).filterMap g
/-- What a traversal of `n` rows of length `m` keeps. -/
def listL (g : Nat → Nat → Option X) (n m : Nat) : List X := (List.range n).flatMap fun i => rowL (g i) m

theorem rowL_zero (g : Nat → Option X) : rowL g 0 = [] := rfl
theorem rowL_succ (g : Nat → Option X) (m : Nat) : rowL g (m + 1) = rowL g m ++ (g m).toList := by
  unfold rowL
  rw [List.range_succ, List.filterMap_append]
  cases h : g m <;> simp [h]

theorem listL_zero (g : Nat → Nat → Option X) (m : Nat) : listL g 0 m = [] := rfl
theorem listL_succ (g : Nat → Nat → Option X) (n m : Nat) : listL g (n + 1) m = listL g n m ++ rowL (g n) m := by
  unfold listL
  rw [List.range_succ, List.flatMap_append]; simp

theorem rowL_length (g : Nat → Option X) (m : Nat) : (rowL g m).length = ∑ j ∈ Finset.range m, (g j).toList.length := by
  induction m with
  | zero => simp [rowL_zero]
  | succ m ih => rw [rowL_succ, List.length_append, ih, Finset.sum_range_succ]

theorem listL_length (g : Nat → Nat → Option X) (n m : Nat) :
    (listL g n m).length = ∑ i ∈ Finset.range n, ∑ j ∈ Finset.range m, (g i j).toList.length := by
  induction n with
  | zero => simp [listL_zero]
  | succ n ih => rw [listL_succ, List.length_append, ih, Finset.sum_range_succ, rowL_length]

theorem listL_split (g : Nat → Nat → Option X) {n m j : Nat} (h : j ≤ n) :
    listL g n m = listL g j m ++ listL (fun i => g (j + i)) (n - j) m := by
  unfold listL
  conv_lhs => rw [show n = j + (n - j) by omega, List.range_add, List.flatMap_append, List.flatMap_map]

theorem rowL_split (g : Nat → Option X) {m j : Nat} (h : j ≤ m) : rowL g m = rowL g j ++ rowL (fun i => g (j + i)) (m - j) := by
  unfold rowL
  conv_lhs => rw [show m = j + (m - j) by omega, List.range_add, List.filterMap_append, List.filterMap_map]
  rfl

theorem prefix_length_le (g : Nat → Nat → Option X) {n m i j : Nat} (hi : i < n) (hj : j ≤ m) :
    (listL g i m ++ rowL (g i) j).length ≤ (listL g n m).length := by
  rw [listL_split g (show i + 1 ≤ n by omega), listL_succ, rowL_split (g i) hj]
  simp only [List.length_append]; omega

theorem mem_listL {g : Nat → Nat → Option X} {n m : Nat} {x : X} : x ∈ listL g n m ↔ ∃ i j, i < n ∧ j < m ∧ g i j = some x := by
  simp only [listL, rowL, List.mem_flatMap, List.mem_range, List.mem_filterMap]
  constructor
  · rintro ⟨i, hi, j, hj, h⟩; exact ⟨i, j, hi, hj, h⟩
  · rintro ⟨i, j, hi, hj, h⟩; exact ⟨i, hi, j, hj, h⟩

theorem listL_pairwise {g : Nat → Nat → Option X} {R : X → X → Prop} {n m : Nat}
    (h1 : ∀ i j j' x y, j < j' → g i j = some x → g i j' = some y → R x y)
    (h2 : ∀ i i' j j' x y, i < i' → g i j = some x → g i' j' = some y → R x y) : (listL g n m).Pairwise R := by
  unfold listL
  rw [List.pairwise_flatMap]
  constructor
  · intro i _
    unfold rowL
    rw [List.pairwise_filterMap]
    refine List.pairwise_lt_range.imp ?_
    intro j j' hj x hx y hy
    exact h1 i j j' x y hj hx hy
  · refine List.pairwise_lt_range.imp ?_
    intro i i' hi x hx y hy
    simp only [rowL, List.mem_filterMap] at hx hy
    obtain ⟨j, -, hx⟩ := hx
    obtain ⟨j', -, hy⟩ := hy
    exact h2 i i' j j' x y hi hx hy

/-! ## Dense to sparse -/

section
variable [Field T] [LinearOrder T]

/-- The entry at (i, j) if it is kept. -/
def keepE (tol : T) (F : Int → Int → T) (i j : Int) : Option (Entry T) := if |F i j| > tol then some ⟨i, j, F i j⟩ else none

theorem keepE_some {tol : T} {F : Int → Int → T} {i j : Int} {e : Entry T} (h : keepE tol F i j = some e) :
    e = ⟨i, j, F i j⟩ ∧ tol < |F i j| := by
  unfold keepE at h
  split_ifs at h with hc
  exact ⟨(Option.some.inj h).symm, hc⟩

/-- Entries kept by a row by row traversal. -/
def keptR (tol : T) (F : Int → Int → T) (m n : Nat) : List (Entry T) := listL (fun i j => keepE tol F i j) m n
/-- Entries kept by a column by column traversal. -/
def keptC (tol : T) (F : Int → Int → T) (m n : Nat) : List (Entry T) := listL (fun j i => keepE tol F i j) n m

theorem kept_length (tol : T) (F : Int → Int → T) (m n : Nat) : (keptC tol F m n).length = (keptR tol F m n).length := by
  unfold keptC keptR
  rw [listL_length, listL_length, Finset.sum_comm]

theorem keptR_kept (tol : T) (F : Int → Int → T) (m n : Nat) : Kept m n F tol (keptR tol F m n) := by
  constructor
  · intro e
    unfold keptR
    rw [mem_listL]
    constructor
    · rintro ⟨i, j, hi, hj, h⟩
      obtain ⟨rfl, h2⟩ := keepE_some h
      exact ⟨⟨by simp, by simpa using hi, by simp, by simpa using hj⟩, rfl, h2⟩
    · rintro ⟨⟨h1, h2, h3, h4⟩, h5, h6⟩
      obtain ⟨r, c, v⟩ := e
      simp only at *
      refine ⟨r.toNat, c.toNat, by omega, by omega, ?_⟩
      rw [show ((r.toNat : Nat) : Int) = r by omega, show ((c.toNat : Nat) : Int) = c by omega]
      unfold keepE
      rw [← h5, if_pos h6]
  · rw [List.nodup_iff_pairwise_ne, List.pairwise_map]
    apply listL_pairwise
    · intro i j j' x y hj hx hy
      rw [(keepE_some hx).1, (keepE_some hy).1]
      simp [Entry.pos]; omega
    · intro i i' j j' x y hj hx hy
      rw [(keepE_some hx).1, (keepE_some hy).1]
      simp [Entry.pos]; omega

theorem keptC_kept (tol : T) (F : Int → Int → T) (m n : Nat) : Kept m n F tol (keptC tol F m n) := by
  constructor
  · intro e
    unfold keptC
    rw [mem_listL]
    constructor
    · rintro ⟨i, j, hi, hj, h⟩
      obtain ⟨rfl, h2⟩ := keepE_some h
      exact ⟨⟨by simp, by simpa using hj, by simp, by simpa using hi⟩, rfl, h2⟩
    · rintro ⟨⟨h1, h2, h3, h4⟩, h5, h6⟩
      obtain ⟨r, c, v⟩ := e
      simp only at *
      refine ⟨c.toNat, r.toNat, by omega, by omega, ?_⟩
      rw [show ((r.toNat : Nat) : Int) = r by omega, show ((c.toNat : Nat) : Int) = c by omega]
      unfold keepE
      rw [← h5, if_pos h6]
  · rw [List.nodup_iff_pairwise_ne, List.pairwise_map]
    apply listL_pairwise
    · intro i j j' x y hj hx hy
      rw [(keepE_some hx).1, (keepE_some hy).1]
      simp [Entry.pos]; omega
    · intro i i' j j' x y hj hx hy
      rw [(keepE_some hx).1, (keepE_some hy).1]
      simp [Entry.pos]; omega

theorem keptR_sorted (tol : T) (F : Int → Int → T) (m n : Nat) : SortedBy .CSR (keptR tol F m n) := by
  apply listL_pairwise
  · intro i j j' x y hj hx hy
    rw [(keepE_some hx).1, (keepE_some hy).1]
    exact Or.inr ⟨rfl, by simp only; omega⟩
  · intro i i' j j' x y hj hx hy
    rw [(keepE_some hx).1, (keepE_some hy).1]
    simp only [csrLe]; omega

theorem keptC_sorted (tol : T) (F : Int → Int → T) (m n : Nat) : SortedBy .CSC (keptC tol F m n) := by
  apply listL_pairwise
  · intro i j j' x y hj hx hy
    rw [(keepE_some hx).1, (keepE_some hy).1]
    exact Or.inr ⟨rfl, by simp only; omega⟩
  · intro i i' j j' x y hj hx hy
    rw [(keepE_some hx).1, (keepE_some hy).1]
    simp only [cscLe]; omega

theorem nnzInDense_spec {sr sc : Int} {m n : Nat} {mat : Buf T} {tol : T} {F : Int → Int → T} (h : StrHolds mat sr sc m n F) :
    nnzInDense m n sr sc mat tol = .ok ((keptR tol F m n).length : Int) := by
  have key : Res.sat (nnzInDense m n sr sc mat tol) (fun c => c = ((keptR tol F m n).length : Int)) := by
    unfold nnzInDense
    refine Res.sat_foldI (fun i c => c = ((listL (fun i j : Nat => keepE tol F i j) i.toNat n).length : Int)) (by omega) (by simp [listL_zero]) ?_ ?_
    · rintro i c i0 i1 rfl
      obtain ⟨q, rfl⟩ : ∃ q : Nat, i = q := ⟨i.toNat, by omega⟩
      refine Res.sat_foldI (fun j c => c = ((listL (fun i j : Nat => keepE tol F i j) q n ++ rowL (fun j : Nat => keepE tol F q j) j.toNat).length : Int))
        (by omega) (by simp [rowL_zero]) ?_ ?_
      · rintro j c j0 j1 rfl
        obtain ⟨r, rfl⟩ : ∃ r : Nat, j = r := ⟨j.toNat, by omega⟩
        rw [Res.sat_bind, Buf.rd_val (h q r ⟨by omega, by omega, by omega, by omega⟩)]
        simp only [Res.sat]
        refine ⟨_, rfl, _, rfl, ?_⟩
        rw [show ((r : Int) + 1).toNat = r + 1 by omega, rowL_succ, Int.toNat_natCast]
        unfold keepE
        split_ifs with hc <;> simp <;> ring
      · rintro c rfl
        rw [show ((q : Int) + 1).toNat = q + 1 by omega, listL_succ]; simp
    · rintro c rfl
      simp [keptR]
  obtain ⟨c, h1, h2⟩ := key
  rw [h1, h2]

theorem denseToCooLoop_spec {sr sc : Int} {m n : Nat} {mat : Buf T} {tol : T} {F : Int → Int → T} (h : StrHolds mat sr sc m n F)
    {b : CooBufs T} (hal : b.Alloc (keptR tol F m n).length) :
    M.wp (do
      let _ ← foldI 0 (m : Int) (fun i nnz => foldI 0 (n : Int) (fun j nnz => denseToCooStep sr sc mat tol i j nnz) nnz) 0) b
      (fun _ b' => b' = b.overE (keptR tol F m n)) := by
  rw [M.wp_bind]
  refine M.wp_foldI (fun i c b' => c = ((listL (fun i j : Nat => keepE tol F i j) i.toNat n).length : Int) ∧
    b' = b.overE (listL (fun i j : Nat => keepE tol F i j) i.toNat n)) (by omega) (by simp [listL_zero, CooBufs.overE_nil]) ?_ ?_
  · rintro i c b' i0 i1 ⟨rfl, rfl⟩
    obtain ⟨q, rfl⟩ : ∃ q : Nat, i = q := ⟨i.toNat, by omega⟩
    refine M.wp_foldI (fun j c b' => c = ((listL (fun i j : Nat => keepE tol F i j) q n ++ rowL (fun j : Nat => keepE tol F q j) j.toNat).length : Int) ∧
      b' = b.overE (listL (fun i j : Nat => keepE tol F i j) q n ++ rowL (fun j : Nat => keepE tol F q j) j.toNat))
        (by omega) (by simp [rowL_zero]) ?_ ?_
    · rintro j c b' j0 j1 ⟨rfl, rfl⟩
      obtain ⟨r, rfl⟩ : ∃ r : Nat, j = r := ⟨j.toNat, by omega⟩
      unfold denseToCooStep
      rw [M.wp_bind, M.wp_lift]
      refine ⟨_, Buf.rd_val (h q r ⟨by omega, by omega, by omega, by omega⟩), ?_⟩
      rw [show ((r : Int) + 1).toNat = r + 1 by omega, rowL_succ, Int.toNat_natCast]
      have hpl := prefix_length_le (fun i j : Nat => keepE tol F i j) (show q < m by omega) (show r + 1 ≤ n by omega)
      rw [rowL_succ] at hpl
      by_cases hc : |F q r| > tol
      · rw [if_pos hc]
        have hk : keepE tol F q r = some ⟨q, r, F q r⟩ := by unfold keepE; rw [if_pos hc]
        rw [hk] at hpl ⊢
        simp only [Option.toList_some] at hpl ⊢
        refine overE_push (e := ⟨(q : Int), (r : Int), F q r⟩) (k := fun _ => pure _) hal ?_ ?_
        · simp only [keptR]; simp only [List.length_append, List.length_cons, List.length_nil] at hpl ⊢; omega
        · rw [M.wp_pure]
          refine ⟨?_, by rw [List.append_assoc]⟩
          simp only [List.length_append, List.length_cons, List.length_nil]; push_cast; ring
      · rw [if_neg hc, M.wp_pure]
        have hk : keepE tol F q r = none := by unfold keepE; rw [if_neg hc]
        rw [hk]; simp
    · rintro c b' ⟨rfl, rfl⟩
      rw [show ((q : Int) + 1).toNat = q + 1 by omega, listL_succ]; simp
  · rintro c b' ⟨rfl, rfl⟩
    rw [M.wp_pure]; simp [keptR]

/-- The sweep filling a compressed matrix: entries `g major minor`, already known to be kept in that order. -/
theorem denseToCsSweep_spec {sM sm : Int} {nM nm : Nat} {mat : Buf T} {tol : T} {F : Int → Int → T} (mk : Int → Int → Entry T)
    (major minor : Entry T → Int) (hmk : ∀ j i, major (mk j i) = j ∧ minor (mk j i) = i ∧ (mk j i).val = F j i)
    (h : ∀ j i, 0 ≤ j → j < nM → 0 ≤ i → i < nm → mat (i * sm + j * sM) = .val (F j i)) (E : List (Entry T))
    (hE : E = listL (fun j i : Nat => if |F j i| > tol then some (mk j i) else none) nM nm) {b : CsBufs T} (hal : b.Alloc E.length)
    (hptr : ∀ p, 0 ≤ p → p ≤ (nM : Int) → b.ptr p ≠ .none) :
    M.wp (denseToCsSweep nM nm sM sm mat tol) b (fun _ b' => CsIs major minor nM 0 b'.ptr b'.idxs b'.vals E) := by
  set g : Nat → Nat → Option (Entry T) := fun j i => if |F j i| > tol then some (mk j i) else none with hg
  have hgs : ∀ j i e, g j i = some e → e = mk j i := by
    intro j i e he
    simp only [hg] at he
    split_ifs at he
    exact (Option.some.inj he).symm
  have hmaj : ∀ {j n : Nat} {e : Entry T}, e ∈ listL (fun i => g (j + i)) n nm → (j : Int) ≤ major e ∧ major e < j + n := by
    intro j n e he
    obtain ⟨a, c, ha, -, hs⟩ := mem_listL.mp he
    rw [hgs _ _ _ hs, (hmk _ _).1]
    push_cast; omega
  have hmaj0 : ∀ {n : Nat} {e : Entry T}, e ∈ listL g n nm → (0 : Int) ≤ major e ∧ major e < n := by
    intro n e he
    obtain ⟨a, c, ha, -, hs⟩ := mem_listL.mp he
    rw [hgs _ _ _ hs, (hmk _ _).1]
    omega
  have hbelow : ∀ j : Nat, j ≤ nM → below major E j = (listL g j nm).length := by
    intro j hj
    have hsp := listL_split g (m := nm) hj
    rw [← hE] at hsp
    rw [below_split (l := (listL g j nm).length)]
    · rw [hsp]; simp
    · intro q hq hql
      have : E[q] = (listL g j nm)[q] := by simp only [hsp]; rw [List.getElem_append_left hql]
      rw [this]; exact (hmaj0 (List.getElem_mem hql)).2
    · intro q hq hql
      have hq2 : q - (listL g j nm).length < (listL (fun i => g (j + i)) (nM - j) nm).length := by
        rw [hsp, List.length_append] at hq; omega
      have : E[q] = (listL (fun i => g (j + i)) (nM - j) nm)[q - (listL g j nm).length] := by
        simp only [hsp]; rw [List.getElem_append_right hql]
      rw [this]; exact (hmaj (List.getElem_mem hq2)).1
  have hsorted : E.Pairwise fun a b => major a ≤ major b := by
    rw [hE]
    apply listL_pairwise
    · intro i j j' x y hj hx hy
      rw [hgs _ _ _ hx, hgs _ _ _ hy, (hmk _ _).1, (hmk _ _).1]
    · intro i i' j j' x y hj hx hy
      rw [hgs _ _ _ hx, hgs _ _ _ hy, (hmk _ _).1, (hmk _ _).1]; omega
  unfold denseToCsSweep
  simp only [M.wp_bind, onPtr, M.wp_zoom, M.wp_wr]
  refine ⟨hptr 0 le_rfl (by omega), ?_⟩
  refine M.wp_foldI (fun j c b' => c = ((listL g j.toNat nm).length : Int) ∧ b'.idxs = (b.overC minor (listL g j.toNat nm)).idxs ∧
    b'.vals = (b.overC minor (listL g j.toNat nm)).vals ∧ (∀ p, 0 ≤ p → p ≤ j → b'.ptr p = .val (below major E p)) ∧
    (∀ p, 0 ≤ p → p ≤ (nM : Int) → b'.ptr p ≠ .none)) (by omega) ?_ ?_ ?_
  · refine ⟨by simp [listL_zero], by simp [listL_zero, CsBufs.overC, Buf.overL_nil], by simp [listL_zero, CsBufs.overC, Buf.overL_nil], ?_, ?_⟩
    · intro p p0 p1
      have : p = 0 := by omega
      subst this
      simp only
      rw [Buf.set_same, show (0 : Int) = ((0 : Nat) : Int) from rfl, hbelow 0 (by omega)]; simp [listL_zero]
    · intro p p0 p1
      simp only
      rw [Buf.set_apply]; split_ifs
      · simp
      · exact hptr p p0 p1
  · rintro j c b' j0 j1 ⟨rfl, hi, hv, hpt, hpa⟩
    obtain ⟨q, rfl⟩ : ∃ q : Nat, j = q := ⟨j.toNat, by omega⟩
    rw [M.wp_bind]
    refine M.wp_foldI (fun i c b'' => c = ((listL g q nm ++ rowL (g q) i.toNat).length : Int) ∧
      b''.ptr = b'.ptr ∧ b''.idxs = (b.overC minor (listL g q nm ++ rowL (g q) i.toNat)).idxs ∧
      b''.vals = (b.overC minor (listL g q nm ++ rowL (g q) i.toNat)).vals) (by omega) ?_ ?_ ?_
    · simp only [Int.toNat_natCast] at hi hv ⊢
      simp only [Int.toNat_zero, rowL_zero, List.append_nil]
      exact ⟨trivial, trivial, hi, hv⟩
    · rintro i c b'' i0 i1 ⟨rfl, e1, e2, e3⟩
      obtain ⟨r, rfl⟩ : ∃ r : Nat, i = r := ⟨i.toNat, by omega⟩
      rw [M.wp_bind, M.wp_lift]
      refine ⟨_, Buf.rd_val (h q r (by omega) (by omega) (by omega) (by omega)), ?_⟩
      unfold denseToCsStep
      rw [show ((r : Int) + 1).toNat = r + 1 by omega, rowL_succ]
      rw [Int.toNat_natCast] at e2 e3 ⊢
      have hpl := prefix_length_le g (show q < nM by omega) (show r + 1 ≤ nm by omega)
      rw [rowL_succ, ← hE] at hpl
      by_cases hc : |F q r| > tol
      · rw [if_pos hc]
        have hk : g q r = some (mk q r) := by simp only [hg]; rw [if_pos hc]
        rw [hk] at hpl ⊢
        simp only [Option.toList_some] at hpl ⊢
        have hlt : ((listL g q nm ++ rowL (g q) r).length : Int) < E.length := by
          simp only [List.length_append, List.length_cons, List.length_nil] at hpl ⊢; omega
        obtain ⟨a1, a2⟩ := hal _ (by omega) hlt
        simp only [M.wp_bind, onIdxs, onCsVals, M.wp_zoom, M.wp_wr, M.wp_pure]
        rw [← List.append_assoc]
        refine ⟨?_, ?_, ?_, e1, ?_, ?_⟩
        · rw [e3]; exact Buf.overL_ne_none a2
        · rw [e2]; exact Buf.overL_ne_none a1
        · simp only [List.length_append, List.length_cons, List.length_nil]; push_cast; ring
        · rw [e2]
          simp only [CsBufs.overC]
          rw [List.map_append (l₂ := [mk q r])]
          simp only [List.map_cons, List.map_nil]
          rw [← Buf.overL_push, (hmk _ _).2.1]; simp
        · rw [e3]
          simp only [CsBufs.overC]
          rw [List.map_append (l₂ := [mk q r])]
          simp only [List.map_cons, List.map_nil]
          rw [← Buf.overL_push, (hmk _ _).2.2]; simp
      · rw [if_neg hc, M.wp_pure]
        have hk : g q r = none := by simp only [hg]; rw [if_neg hc]
        rw [hk]
        simp only [Option.toList_none, List.append_nil]
        exact ⟨trivial, e1, e2, e3⟩
    · rintro c b'' ⟨rfl, e1, e2, e3⟩
      simp only [M.wp_bind, M.wp_zoom, M.wp_wr, M.wp_pure]
      rw [Int.toNat_natCast, ← listL_succ] at e2 e3 ⊢
      rw [show ((q : Int) + 1).toNat = q + 1 by omega]
      refine ⟨by rw [e1]; exact hpa _ (by omega) (by omega), rfl, e2, e3, ?_, ?_⟩
      · intro p p0 p1
        rw [Buf.set_apply]
        split_ifs with hpq
        · rw [hpq, show ((q : Int) + 1) = ((q + 1 : Nat) : Int) by push_cast; rfl, hbelow (q + 1) (by omega)]
        · rw [e1]; exact hpt p p0 (by omega)
      · intro p p0 p1
        rw [Buf.set_apply]; split_ifs
        · simp
        · rw [e1]; exact hpa p p0 p1
  · rintro c b' ⟨rfl, hi, hv, hpt, -⟩
    rw [Int.toNat_natCast, ← hE] at hi hv
    rw [M.wp_pure]
    have hr : ∀ e ∈ E, (0 : Int) ≤ major e ∧ major e < nM := fun e he => by rw [hE] at he; exact hmaj0 he
    refine ⟨⟨below major E, hpt, below_zero fun e he => (hr e he).1, below_all fun e he => (hr e he).2,
      fun j _ _ => below_mono major E (by omega), fun l hl => ?_⟩, fun l hl => ?_⟩
    · have := hr _ (List.getElem_mem hl)
      exact ⟨this.1, this.2, below_slice hsorted hl⟩
    · rw [hi, hv]
      simp only [CsBufs.overC]
      rw [Buf.overL_get (by simpa using hl), Buf.overL_get (by simpa using hl)]
      simp

end

/-! ## Sparse to dense -/

section
variable [Zero T]

theorem overwrite_nil (i j : Int) : overwrite ([] : List (Entry T)) i j = 0 := rfl

theorem overwrite_push (E : List (Entry T)) (e : Entry T) (i j : Int) :
    overwrite (E ++ [e]) i j = if i = e.row ∧ j = e.col then e.val else overwrite E i j := by
  unfold overwrite
  rw [List.foldl_append]
  simp only [List.foldl_cons, List.foldl_nil]
  by_cases h : e.row = i ∧ e.col = j
  · rw [if_pos h, if_pos ⟨h.1.symm, h.2.symm⟩]
  · rw [if_neg h, if_neg (fun h' => h ⟨h'.1.symm, h'.2.symm⟩)]

/-- The state of the dense matrix after storing the entries `E`. -/
abbrev Over (b0 : Buf T) (sr sc m n : Int) (E : List (Entry T)) (b : Buf T) : Prop :=
  MatSt b0 (fun i j => i * sr + j * sc) m n (fun i j => .val (overwrite E i j)) b

theorem zeroDense_spec {sr sc m n : Int} {b : Buf T} (hm : 0 ≤ m) (hn : 0 ≤ n) (hinj : StrInj sr sc m n) (hal : StrAlloc b sr sc m n) :
    M.wp (zeroDense m n sr sc) b (fun _ b' => Over b sr sc m n [] b') := by
  unfold zeroDense
  refine M.wp_forI (fun i b' => MatSt b (fun i j => i * sr + j * sc) m n (fun r c => if r < i then .val 0 else b (r * sr + c * sc)) b') hm
    ((MatSt.init b _ m n).congr fun i j hij => by rw [if_neg (by have := hij.1; omega)]) ?_ ?_
  · intro i b' i0 i1 hb'
    refine M.wp_forI (fun j b' => MatSt b (fun i j => i * sr + j * sc) m n
      (fun r c => if r < i ∨ (r = i ∧ c < j) then .val 0 else b (r * sr + c * sc)) b') hn
      (hb'.congr fun r c hrc => by
        have := hrc.2.2.1
        by_cases h : r < i
        · rw [if_pos h, if_pos (Or.inl h)]
        · rw [if_neg h, if_neg (by omega)]) ?_ ?_
    · intro j b'' j0 j1 hb''
      refine MatSt.wp_wr hb'' hinj (i := i) (j := j) ⟨i0, i1, j0, j1⟩ ?_ ?_
      · rw [if_neg (by omega)]; exact hal i j ⟨i0, i1, j0, j1⟩
      · intro b3 hb3
        refine hb3.congr fun r c _ => ?_
        by_cases h1 : r = i ∧ c = j
        · rw [if_pos h1, if_pos (by omega)]
        · rw [if_neg h1]
          by_cases h2 : r < i ∨ (r = i ∧ c < j)
          · rw [if_pos h2, if_pos (by omega)]
          · rw [if_neg h2, if_neg (by omega)]
    · intro b'' hb''
      refine hb''.congr fun r c hrc => ?_
      have := hrc.2.2.2
      by_cases h : r < i + 1
      · rw [if_pos h, if_pos (by omega)]
      · rw [if_neg h, if_neg (by omega)]
  · intro b' hb'
    exact hb'.congr fun r c hrc => by rw [if_pos hrc.2.1, overwrite_nil]

theorem over_push {sr sc m n : Int} {b0 b : Buf T} {E : List (Entry T)} {e : Entry T} (hinj : StrInj sr sc m n)
    (h : Over b0 sr sc m n E b) (he : InR m n e.row e.col) {Q : Unit → Buf T → Prop} (hQ : ∀ b', Over b0 sr sc m n (E ++ [e]) b' → Q () b') :
    M.wp (M.wr (e.row * sr + e.col * sc) e.val) b Q := by
  refine MatSt.wp_wr h hinj he (by simp) fun b' hb' => hQ b' (hb'.congr fun i j _ => ?_)
  rw [overwrite_push]
  split_ifs <;> rfl

theorem unbase (x : IndexBase) (r : Int) : (if x = .One then r + x.val - 1 else r + x.val) = r := by
  cases x <;> simp [IndexBase.val]

theorem cooToDenseStr_spec {A : CooMat T} {E : List (Entry T)} (h : CooIs A E) (hr : InRange A.nRows A.nCols E) {sr sc : Int} {b : Buf T}
    (hm : 0 ≤ A.nRows) (hn : 0 ≤ A.nCols) (hinj : StrInj sr sc A.nRows A.nCols) (hal : StrAlloc b sr sc A.nRows A.nCols) :
    M.wp (cooToDenseStr A sr sc) b (fun _ b' => Over b sr sc A.nRows A.nCols E b') := by
  unfold cooToDenseStr
  rw [M.wp_bind]
  refine M.wp_mono (zeroDense_spec hm hn hinj hal) ?_
  intro _ b1 hb1
  rw [h.nnz]
  refine M.wp_forI (fun l b' => Over b sr sc A.nRows A.nCols (E.take l.toNat) b') (by omega) hb1 ?_ ?_
  · intro l b' l0 l1 hb'
    obtain ⟨q, rfl⟩ : ∃ q : Nat, l = q := ⟨l.toNat, by omega⟩
    have hq : q < E.length := by omega
    have hq' : q < (rebase A.indexBase.val E).length := by rwa [rebase_length]
    obtain ⟨d1, d2, d3⟩ := h.data q hq'
    simp only [M.wp_bind, M.wp_lift]
    refine ⟨_, Buf.rd_val d2, _, Buf.rd_val d3, _, Buf.rd_val d1, ?_⟩
    have e1 : (if A.indexBase = .One then (rebase A.indexBase.val E)[q].row - 1 else (rebase A.indexBase.val E)[q].row) = E[q].row := by
      simp only [rebase, List.getElem_map]; exact unbase _ _
    have e2 : (if A.indexBase = .One then (rebase A.indexBase.val E)[q].col - 1 else (rebase A.indexBase.val E)[q].col) = E[q].col := by
      simp only [rebase, List.getElem_map]; exact unbase _ _
    have e3 : (rebase A.indexBase.val E)[q].val = E[q].val := by simp [rebase]
    rw [e1, e2, e3]
    have hin := hr _ (List.getElem_mem hq)
    refine over_push hinj hb' ⟨hin.1, hin.2.1, hin.2.2.1, hin.2.2.2⟩ fun b'' hb'' => ?_
    rw [show ((q : Int) + 1).toNat = q + 1 by omega, ← List.take_append_getElem hq]
    simpa using hb''
  · intro b' hb'
    simpa using hb'

/-- The traversal of a compressed matrix visits its entries in order. -/
theorem cs_traverse {major minor : Entry T → Int} {n base : Int} {pt idxs : Buf Int} {vals : Buf T} {E : List (Entry T)} (hn : 0 ≤ n)
    (h : CsIs major minor n base pt idxs vals E) {σ : Type} {body : Int → Int → Int → T → M σ Unit} {s0 : σ} (Inv : Nat → σ → Prop)
    (h0 : Inv 0 s0) (step : ∀ (l : Nat) (hl : l < E.length) s, Inv l s →
      M.wp (body l (major E[l]) (minor E[l] + base) E[l].val) s (fun _ s' => Inv (l + 1) s')) {Q : Unit → σ → Prop}
    (hQ : ∀ s, Inv E.length s → Q () s) :
    M.wp (forI 0 n fun j => do
      let lo ← M.lift (pt.rd j)
      let hi ← M.lift (pt.rd (j + 1))
      forI lo hi fun ell => do
        let i ← M.lift (idxs.rd ell)
        let v ← M.lift (vals.rd ell)
        body ell j i v) s0 Q := by
  obtain ⟨p, hp, hp0, hpn, hmono, hsl⟩ := h.ptrs
  refine M.wp_forI (fun j s => Inv (p j).toNat s) hn (by rw [hp0]; exact h0) ?_ (fun s hs => hQ s (by rw [hpn] at hs; simpa using hs))
  intro j s j0 j1 hs
  simp only [M.wp_bind, M.wp_lift]
  refine ⟨_, Buf.rd_val (hp j j0 (by omega)), _, Buf.rd_val (hp (j + 1) (by omega) (by omega)), ?_⟩
  have b0 := CsIs.ptr_le hmono le_rfl j0 (by omega)
  have b1 := CsIs.ptr_le hmono (show 0 ≤ j + 1 by omega) (show j + 1 ≤ n by omega) le_rfl
  refine M.wp_forI (fun l s => Inv l.toNat s) (hmono j j0 j1) hs ?_ (fun s hs => hs)
  intro l s l0 l1 hs
  obtain ⟨q, rfl⟩ : ∃ q : Nat, l = q := ⟨l.toNat, by omega⟩
  have hq : q < E.length := by omega
  obtain ⟨d1, d2⟩ := h.data q hq
  have hmaj := CsIs.major_of_slice hmono hsl j0 j1 hq l0 l1
  simp only [M.wp_bind, M.wp_lift]
  refine ⟨_, Buf.rd_val d2, _, Buf.rd_val d1, ?_⟩
  have := step q hq s (by simpa using hs)
  rw [hmaj] at this
  rw [show ((q : Int) + 1).toNat = q + 1 by omega]
  exact this

theorem cscToDenseStr_spec {A : CscMat T} {E : List (Entry T)} (h : CscIs A E) (hb : A.indexBase = .Zero)
    (hr : ∀ e ∈ E, 0 ≤ e.row ∧ e.row < A.nRows) {sr sc : Int} {b : Buf T}
    (hm : 0 ≤ A.nRows) (hn : 0 ≤ A.nCols) (hinj : StrInj sr sc A.nRows A.nCols) (hal : StrAlloc b sr sc A.nRows A.nCols) :
    M.wp (cscToDenseStr A sr sc) b (fun _ b' => Over b sr sc A.nRows A.nCols E b') := by
  unfold cscToDenseStr
  rw [M.wp_bind, M.wp_require, M.wp_bind]
  refine ⟨hb, M.wp_mono (zeroDense_spec hm hn hinj hal) ?_⟩
  intro _ b1 hb1
  have hd := h.data
  rw [hb] at hd
  obtain ⟨p, hp, hp0, hpn, hmono, hsl⟩ := hd.ptrs
  refine cs_traverse hn hd (body := fun ell j i v => M.wr ((if A.indexBase = .One then i - 1 else i) * sr + j * sc) v)
    (fun l b' => Over b sr sc A.nRows A.nCols (E.take l) b') hb1 ?_ (fun s hs => by simpa using hs)
  intro l hl b' hb'
  have h1 := hr _ (List.getElem_mem hl)
  have h2 := hsl l hl
  rw [hb, if_neg (by simp)]
  simp only [IndexBase.val, add_zero]
  refine over_push hinj hb' ⟨h1.1, h1.2, h2.1, h2.2.1⟩ fun b'' hb'' => ?_
  rw [← List.take_append_getElem hl]; exact hb''

theorem csrToDenseStr_spec {A : CsrMat T} {E : List (Entry T)} (h : CsrIs A E) (hb : A.indexBase = .Zero)
    (hr : ∀ e ∈ E, 0 ≤ e.col ∧ e.col < A.nCols) (h32 : ∀ e ∈ E, e.col < 2 ^ 31) {sr sc : Int} {b : Buf T}
    (hm : 0 ≤ A.nRows) (hn : 0 ≤ A.nCols) (hinj : StrInj sr sc A.nRows A.nCols) (hal : StrAlloc b sr sc A.nRows A.nCols) :
    M.wp (csrToDenseStr A sr sc) b (fun _ b' => Over b sr sc A.nRows A.nCols E b') := by
  unfold csrToDenseStr
  rw [M.wp_bind, M.wp_require, M.wp_bind]
  refine ⟨hb, M.wp_mono (zeroDense_spec hm hn hinj hal) ?_⟩
  intro _ b1 hb1
  have hd := h.data
  rw [hb] at hd
  obtain ⟨p, hp, hp0, hpn, hmono, hsl⟩ := hd.ptrs
  refine cs_traverse hm hd (body := fun ell i j v => M.wr (i * sr + (if A.indexBase = .One then wrapInt 32 j - 1 else wrapInt 32 j) * sc) v)
    (fun l b' => Over b sr sc A.nRows A.nCols (E.take l) b') hb1 ?_ (fun s hs => by simpa using hs)
  intro l hl b' hb'
  have h1 := hr _ (List.getElem_mem hl)
  have h2 := hsl l hl
  rw [hb, if_neg (by simp)]
  have hw : wrapInt 32 (E[l].col + IndexBase.Zero.val) = E[l].col := by
    have := h32 _ (List.getElem_mem hl)
    simp only [IndexBase.val, add_zero]; unfold wrapInt; omega
  rw [hw]
  refine over_push hinj hb' ⟨h2.1, h2.2.1, h1.1, h1.2⟩ fun b'' hb'' => ?_
  rw [← List.take_append_getElem hl]; exact hb''

end

/-- Without repeated positions, storing and adding give the same matrix. -/
theorem overwrite_eq_toMat [AddCommMonoid T] {E : List (Entry T)} (h : (E.map Entry.pos).Nodup) (i j : Int) : overwrite E i j = toMat E i j := by
  induction E using List.reverseRecOn with
  | nil => rfl
  | append_singleton E e ih =>
    rw [List.map_append, List.nodup_append] at h
    rw [overwrite_push, toMat_append, ih h.1]
    by_cases hp : i = e.row ∧ j = e.col
    · rw [if_pos hp, toMat_none]
      · obtain ⟨rfl, rfl⟩ := hp
        simp [toMat]
      · intro x hx hc
        refine h.2.2 x.pos (List.mem_map_of_mem hx) e.pos (by simp) ?_
        simp only [Entry.pos]; rw [hc.1, hc.2, hp.1, hp.2]
    · rw [if_neg hp, toMat_none (E := [e]), add_zero]
      intro x hx hc
      simp only [List.mem_singleton] at hx
      subst hx
      exact hp ⟨hc.1.symm, hc.2.symm⟩

end RB
