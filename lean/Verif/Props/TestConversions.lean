import Verif.Model.TestConversions
import Verif.Props.TestSpmats

/-!
# C128: the library passes the transposition tests for all sizes
-/

namespace RB
open Spec
variable {N : Nat} {K W T : Type}

section
variable [Field T] [LinearOrder T] [IsStrictOrderedRing T]

omit [LinearOrder T] [IsStrictOrderedRing T] in
/-- Setting a filled vector to zero with `blas::scal` succeeds. -/
theorem scalZero_spec {b : Buf T} {n : Int} (hn : 0 ≤ n) (h : ∀ p, 0 ≤ p → p < n → ∃ x, b p = .val x) :
    M.wp (blasScal n 0 0 1) b (fun _ b' => ∀ p, 0 ≤ p → p < n → b' p = .val 0) := by
  choose! x hx using h
  refine M.wp_mono (blasScal_spec (v := x) hn (by norm_num) (fun i h0 hi => by rw [zero_add, mul_one]; exact hx i h0 hi)) ?_
  rintro _ b' ⟨h1, -⟩ i h0 hi
  have := h1 i h0 hi
  rwa [zero_add, mul_one, zero_mul] at this

omit [Field T] [LinearOrder T] [IsStrictOrderedRing T] in
theorem swap_inRange {m n : Int} {E : List (Entry T)} (h : InRange m n E) : InRange n m (E.map Entry.swap) := fun e he => by
  obtain ⟨d, hd, rfl⟩ := List.mem_map.mp he
  obtain ⟨h0, h1, h2, h3⟩ := h d hd
  exact ⟨h2, h3, h0, h1⟩

omit [LinearOrder T] [IsStrictOrderedRing T] in
theorem overwrite_swap {E : List (Entry T)} (h : (E.map Entry.pos).Nodup) (i j : Int) : overwrite (E.map Entry.swap) i j = overwrite E j i := by
  rw [overwrite_eq_toMat h, overwrite_eq_toMat, C29_swap_is_transpose]
  have e : (E.map Entry.swap).map Entry.pos = (E.map Entry.pos).map Prod.swap := by
    rw [List.map_map, List.map_map]; rfl
  rw [e]
  exact h.map Prod.swap_injective

omit [IsStrictOrderedRing T] in
/-- The comparison with the transpose accepts it. -/
theorem transposed_accepts {a b : Buf T} {m n : Int} {F : Int → Int → T} {atol rtol : T} (ha : 0 ≤ atol) (hm : 0 < m) (hn : 0 < n)
    (h : Holds a .ColMajor m m n F) (h' : Holds b .ColMajor n n m (fun i j => F j i)) :
    matricesApproxEqual1 .ColMajor .Trans m n (fltBuf a) m (fltBuf b) n (.fin atol) (.fin rtol) = .ok none := by
  refine (C118_matrices_one_layout_partial (op := .Trans) (Am := F) (Bm := fun i j => F j i) hm.le hn.le (fltBuf_holds h) (fltBuf_holds h') atol rtol).mpr fun i j _ => ?_
  exact close_self ha rtol _

/-- C128 (CSR). `test_transposed_csr_as_csc` accepts `transpose_as_csc`, as a view and as a copy, for every size, probability and seed. -/
theorem C128_transposed_csr_test {s1 s2 : List Nat} {G : Gen N K W T} {sqrt3 p atol rtol : T} {n m : Int} {seed : RNGState N K} (hG : G.Ok)
    (h3 : sqrt3 * sqrt3 = 3) (hp : 0 < sqrt3) (hm : 0 < m) (hn : 0 < n) (hmn : m * n ≤ intMax 64) (ha : 0 ≤ atol) :
    M.wp (testTransposedCsrAsCsc s1 s2 G sqrt3 atol rtol n m p seed) () (fun r _ => r = (none, none)) := by
  unfold testTransposedCsrAsCsc
  simp only [M.wp_bind, M.wp_onLocal]
  refine M.wp_mono (C126_sparsify_layout hG h3 hp hm hn hmn (ofFn_alloc .ColMajor _)) ?_
  intro _ dn hd
  have w := C28_dense_to_csr (A := mkCsr m n) (sr := 1) (sc := m) (mat := dn) (mkCsr_empty hm.le) hn.le (0 : T)
    (F := sparsifiedTest G sqrt3 p m n seed) (fun i j hij => by rw [mul_one]; exact hd i j hij)
  refine M.wp_mono w ?_
  rintro _ A ⟨E, hk, he, -, d1, d2, hb0, -⟩
  replace d1 : A.nRows = m := d1
  replace d2 : A.nCols = n := d2
  have hir : InRange n m (E.map Entry.swap) := swap_inRange (kept_inRange hk)
  have main : ∀ (share : Bool), ∃ At, transposeAsCsc A share = .ok At ∧ ∀ b : Buf T, StrAlloc b 1 n n m →
      M.wp (cscToDense At .ColMajor) b (fun _ b' => Holds b' .ColMajor n n m (fun i j => sparsifiedTest G sqrt3 p m n seed j i)) := by
    intro share
    obtain ⟨At, e, hi, q1, q2, q3, -⟩ := C29_csr he (by omega) share
    have r1 : At.nRows = n := by rw [q1, d2]
    have r2 : At.nCols = m := by rw [q2, d1]
    refine ⟨At, e, fun b hal => ?_⟩
    have v := C28_csc_to_dense (A := At) (sr := 1) (sc := n) (b := b) hi (by rw [q3]; exact hb0) (by rw [r1, r2]; exact hir) (by omega) (by omega)
      (by rw [r1, r2]; exact strInj_col) (by rw [r1, r2]; exact hal)
    have e2 : cscToDense At .ColMajor = cscToDenseStr At 1 n := by
      unfold cscToDense
      rw [r1]
      rfl
    rw [e2]
    refine M.wp_mono v fun _ b' h i j hij => ?_
    have := h.1 i j (by rw [r1, r2]; exact hij)
    rw [mul_one, overwrite_swap hk.nodup, C28_kept_matrix hk ⟨hij.2.2.1, hij.2.2.2, hij.1, hij.2.1⟩, keep_zero] at this
    exact this
  obtain ⟨At1, e1, m1⟩ := main true
  obtain ⟨At2, e2, m2⟩ := main false
  rw [M.wp_lift]
  refine ⟨_, e1, ?_⟩
  refine M.wp_mono (m1 _ strAlloc_zeroVec) fun _ at1 h1 => ?_
  rw [M.wp_lift]
  refine ⟨_, transposed_accepts ha hm hn hd h1, ?_⟩
  rw [M.wp_lift]
  refine ⟨_, e2, ?_⟩
  have hall : ∀ q, 0 ≤ q → q < m * n → ∃ x, at1 q = .val x := fun q q0 q1 => by
    obtain ⟨i, j, hij, rfl⟩ := tight_pos (layout := .ColMajor) hn hm q0 (by rw [mul_comm]; exact q1)
    exact ⟨_, h1 i j hij⟩
  refine M.wp_mono (scalZero_spec (mul_pos hm hn).le hall) fun _ at0 h0 => ?_
  have hv : ∀ q, 0 ≤ q → q < A.nnz → ∃ x, ptr A.vals q = .val x := fun q q0 q1 => by
    rw [he.nnz] at q1
    obtain ⟨l, rfl⟩ : ∃ l : Nat, q = l := ⟨q.toNat, by omega⟩
    exact ⟨_, (he.data.data l (by omega)).1⟩
  refine M.wp_mono (scalZero_spec (by rw [he.nnz]; omega) hv) fun _ _ _ => ?_
  refine M.wp_mono (m2 at0 fun i j hij => ?_) fun _ at2 h2 => ?_
  · obtain ⟨q0, q1⟩ := flat_bounds hij
    rw [mul_one, h0 _ q0 (by rw [mul_comm m n]; exact q1)]
    simp
  · rw [M.wp_lift]
    refine ⟨_, transposed_accepts ha hm hn hd h2, ?_⟩
    rw [M.wp_pure]

/-- C128 (CSC). `test_transposed_csc_as_csr` accepts `transpose_as_csr`, as a view and as a copy, for every size, probability and seed, if there are at most 2^31 rows. Missing: more rows (C28). -/
theorem C128_transposed_csc_test_partial {s1 s2 : List Nat} {G : Gen N K W T} {sqrt3 p atol rtol : T} {n m : Int} {seed : RNGState N K} (hG : G.Ok)
    (h3 : sqrt3 * sqrt3 = 3) (hp : 0 < sqrt3) (hm : 0 < m) (hn : 0 < n) (hmn : m * n ≤ intMax 64) (ha : 0 ≤ atol) (hr : m ≤ 2 ^ 31) :
    M.wp (testTransposedCscAsCsr s1 s2 G sqrt3 atol rtol n m p seed) () (fun r _ => r = (none, none)) := by
  unfold testTransposedCscAsCsr
  simp only [M.wp_bind, M.wp_onLocal]
  refine M.wp_mono (C126_sparsify_layout hG h3 hp hm hn hmn (ofFn_alloc .ColMajor _)) ?_
  intro _ dn hd
  have w := C28_dense_to_csc (A := mkCsc m n) (sr := 1) (sc := m) (mat := dn) (mkCsc_empty hn.le) hm.le (0 : T)
    (F := sparsifiedTest G sqrt3 p m n seed) (fun i j hij => by rw [mul_one]; exact hd i j hij)
  refine M.wp_mono w ?_
  rintro _ A ⟨E, hk, he, -, d1, d2, hb0, -⟩
  replace d1 : A.nRows = m := d1
  replace d2 : A.nCols = n := d2
  have hir : InRange n m (E.map Entry.swap) := swap_inRange (kept_inRange hk)
  have main : ∀ (share : Bool), ∃ At, transposeAsCsr A share = .ok At ∧ ∀ b : Buf T, StrAlloc b 1 n n m →
      M.wp (csrToDense At .ColMajor) b (fun _ b' => Holds b' .ColMajor n n m (fun i j => sparsifiedTest G sqrt3 p m n seed j i)) := by
    intro share
    obtain ⟨At, e, hi, q1, q2, q3, -⟩ := C29_csc he (by omega) share
    have r1 : At.nRows = n := by rw [q1, d2]
    have r2 : At.nCols = m := by rw [q2, d1]
    refine ⟨At, e, fun b hal => ?_⟩
    have v := C28_csr_to_dense_partial (A := At) (sr := 1) (sc := n) (b := b) hi (by rw [q3]; exact hb0) (by rw [r1, r2]; exact hir) (fun e he => by have := (hir e he).2.2.2; omega) (by omega) (by omega)
      (by rw [r1, r2]; exact strInj_col) (by rw [r1, r2]; exact hal)
    have e2 : csrToDense At .ColMajor = csrToDenseStr At 1 n := by
      unfold csrToDense
      rw [r1]
      rfl
    rw [e2]
    refine M.wp_mono v fun _ b' h i j hij => ?_
    have := h.1 i j (by rw [r1, r2]; exact hij)
    rw [mul_one, overwrite_swap hk.nodup, C28_kept_matrix hk ⟨hij.2.2.1, hij.2.2.2, hij.1, hij.2.1⟩, keep_zero] at this
    exact this
  obtain ⟨At1, e1, m1⟩ := main true
  obtain ⟨At2, e2, m2⟩ := main false
  rw [M.wp_lift]
  refine ⟨_, e1, ?_⟩
  refine M.wp_mono (m1 _ strAlloc_zeroVec) fun _ at1 h1 => ?_
  rw [M.wp_lift]
  refine ⟨_, transposed_accepts ha hm hn hd h1, ?_⟩
  rw [M.wp_lift]
  refine ⟨_, e2, ?_⟩
  have hall : ∀ q, 0 ≤ q → q < m * n → ∃ x, at1 q = .val x := fun q q0 q1 => by
    obtain ⟨i, j, hij, rfl⟩ := tight_pos (layout := .ColMajor) hn hm q0 (by rw [mul_comm]; exact q1)
    exact ⟨_, h1 i j hij⟩
  refine M.wp_mono (scalZero_spec (mul_pos hm hn).le hall) fun _ at0 h0 => ?_
  have hv : ∀ q, 0 ≤ q → q < A.nnz → ∃ x, ptr A.vals q = .val x := fun q q0 q1 => by
    rw [he.nnz] at q1
    obtain ⟨l, rfl⟩ : ∃ l : Nat, q = l := ⟨q.toNat, by omega⟩
    exact ⟨_, (he.data.data l (by omega)).1⟩
  refine M.wp_mono (scalZero_spec (by rw [he.nnz]; omega) hv) fun _ _ _ => ?_
  refine M.wp_mono (m2 at0 fun i j hij => ?_) fun _ at2 h2 => ?_
  · obtain ⟨q0, q1⟩ := flat_bounds hij
    rw [mul_one, h0 _ q0 (by rw [mul_comm m n]; exact q1)]
    simp
  · rw [M.wp_lift]
    refine ⟨_, transposed_accepts ha hm hn hd h2, ?_⟩
    rw [M.wp_pure]

end


/-! ## The sort order -/

section

/-- Some entry is above and to the right of another one. -/
def Spec.Crossing (E : List (Entry T)) : Prop := ∃ a ∈ E, ∃ b ∈ E, a.row < b.row ∧ b.col < a.col

/-- Entries in CSR order are in CSC order as well exactly if none crosses another one. -/
theorem csr_also_csc {E : List (Entry T)} (h : SortedBy .CSR E) : SortedBy .CSC E ↔ ¬ Crossing E := by
  constructor
  · rintro hc ⟨a, ha, b, hb, h1, h2⟩
    have hp : E.Pairwise fun x y => csrLe x y ∧ cscLe x y := List.pairwise_and_iff.mpr ⟨h, hc⟩
    obtain ⟨p, hp', rfl⟩ := List.getElem_of_mem ha
    obtain ⟨q, hq', rfl⟩ := List.getElem_of_mem hb
    rw [List.pairwise_iff_getElem] at hp
    rcases lt_trichotomy p q with g | g | g
    · have := hp p q hp' hq' g
      unfold csrLe cscLe at this
      omega
    · subst g
      omega
    · have := hp q p hq' hp' g
      unfold csrLe cscLe at this
      omega
  · intro hc
    refine List.Pairwise.imp_of_mem (fun {a b} ha hb hab => ?_) h
    have : ¬ (a.row < b.row ∧ b.col < a.col) := fun q => hc ⟨a, ha, b, hb, q⟩
    unfold csrLe at hab
    unfold cscLe
    omega

theorem crossing_perm {E E' : List (Entry T)} (h : E'.Perm E) : Crossing E' ↔ Crossing E := by
  unfold Crossing
  simp only [h.mem_iff]

theorem sortAndDetect_spec {srt : SortFn T} (hs : SortOk srt) {s : NonzeroSort} {A : CooMat T} {E : List (Entry T)} (h : CooIs A E) :
    M.wp (sortAndDetect srt s) A (fun r A' => ∃ E', CooIs A' E' ∧ E'.Perm E ∧ SortedBy s E' ∧ r.1 = s ∧ (r.2 = .CSC ↔ SortedBy .CSC E') ∧
      (r.2 = .CSR ↔ ¬ SortedBy .CSC E' ∧ SortedBy .CSR E')) := by
  unfold sortAndDetect
  rw [M.wp_bind]
  refine M.wp_mono (C25_sort hs s h) ?_
  rintro _ A' ⟨E', h1, h2, h3, -, h4, -⟩
  rw [M.wp_bind, M.wp_get, M.wp_bind, M.wp_lift]
  obtain ⟨c, c0, c1, c2⟩ := cooSortType_spec h1.data
  rw [rebase_length] at c0
  refine ⟨c, by rw [h1.nnz]; exact c0, ?_⟩
  rw [M.wp_pure]
  refine ⟨E', h1, h2, h3, h4, ?_, ?_⟩
  · rw [← sortedBy_rebase .CSC A'.indexBase.val]; exact c1
  · rw [← sortedBy_rebase .CSC A'.indexBase.val, ← sortedBy_rebase .CSR A'.indexBase.val]; exact c2

open Classical in
/-- C128 (sorting). What the three parts of `test_sort_order` observe for any COO matrix: the recorded order is always the requested one; the computed one is CSC after sorting in CSC order; after
sorting in CSR order it is CSR if some entry is above and to the right of another one, and otherwise CSC. -/
theorem C128_sort_thrice {srt : SortFn T} (hs : SortOk srt) {A : CooMat T} {E : List (Entry T)} (h : CooIs A E) :
    M.wp (sortThrice srt) A (fun r _ => r = [(.CSC, .CSC), (.CSR, if Crossing E then .CSR else .CSC), (.CSC, .CSC)]) := by
  unfold sortThrice
  rw [M.wp_bind]
  refine M.wp_mono (sortAndDetect_spec hs h) ?_
  rintro ⟨a, a'⟩ A1 ⟨E1, h1, p1, s1, rfl, a1, -⟩
  rw [M.wp_bind]
  refine M.wp_mono (sortAndDetect_spec hs h1) ?_
  rintro ⟨b, b'⟩ A2 ⟨E2, h2, p2, s2, rfl, b1, b2⟩
  rw [M.wp_bind]
  refine M.wp_mono (sortAndDetect_spec hs h2) ?_
  rintro ⟨c, c'⟩ A3 ⟨E3, h3, p3, s3, rfl, c1, -⟩
  rw [M.wp_pure]
  have ea : a' = .CSC := a1.mpr s1
  have ec : c' = .CSC := c1.mpr s3
  have eb : b' = if Crossing E then .CSR else .CSC := by
    rw [← crossing_perm (p2.trans p1)]
    by_cases hc : Crossing E2
    · rw [if_pos hc]; exact b2.mpr ⟨fun q => (csr_also_csc s2).mp q hc, s2⟩
    · rw [if_neg hc]; exact b1.mpr ((csr_also_csc s2).mpr hc)
  rw [ea, ec, eb]

variable [Field T] [LinearOrder T] [IsStrictOrderedRing T]

/-- C128 (`test_sort_order`). For every size, probability and seed the test passes exactly if the random matrix has a nonzero above and to the right of another one. If it has none (which always
holds for n = 1) the test fails although the sorting is right. -/
theorem C128_sort_order_test {srt : SortFn T} (hs : SortOk srt) {s1 s2 : List Nat} {G : Gen N K W T} {sqrt3 p : T} {n : Int} {seed : RNGState N K} (hG : G.Ok)
    (h3 : sqrt3 * sqrt3 = 3) (hp : 0 < sqrt3) (hn : 0 < n) (hmn : n * n ≤ intMax 64) :
    M.wp (testSortOrder srt s1 s2 G sqrt3 n p seed) () (fun r _ => (r = [(.CSC, .CSC), (.CSR, .CSR), (.CSC, .CSC)] ↔
      ∃ i j i' j', InR n n i j ∧ InR n n i' j' ∧ sparsifiedTest G sqrt3 p n n seed i j ≠ 0 ∧ sparsifiedTest G sqrt3 p n n seed i' j' ≠ 0 ∧ i < i' ∧ j' < j)) := by
  unfold testSortOrder
  simp only [M.wp_bind, M.wp_onLocal]
  refine M.wp_mono (C126_sparsify_layout hG h3 hp hn hn hmn (ofFn_alloc .ColMajor _)) ?_
  intro _ dn hd
  have w := C28_dense_to_coo (A := mkCoo n n) (sr := 1) (sc := n) (mat := dn) mkCoo_empty hn.le hn.le (0 : T)
    (F := sparsifiedTest G sqrt3 p n n seed) (fun i j hij => by rw [mul_one]; exact hd i j hij)
  refine M.wp_mono w ?_
  rintro _ A ⟨E, hk, he, -⟩
  refine M.wp_mono (C128_sort_thrice hs he) ?_
  rintro r _ rfl
  rw [M.wp_pure]
  have hm : ∀ e, e ∈ E ↔ InR n n e.row e.col ∧ e.val = sparsifiedTest G sqrt3 p n n seed e.row e.col ∧ e.val ≠ 0 := fun e => by rw [hk.mem e, abs_pos]; rfl
  have hc : Crossing E ↔ ∃ i j i' j', InR n n i j ∧ InR n n i' j' ∧ sparsifiedTest G sqrt3 p n n seed i j ≠ 0 ∧ sparsifiedTest G sqrt3 p n n seed i' j' ≠ 0 ∧ i < i' ∧ j' < j := by
    constructor
    · rintro ⟨a, ha, b, hb, h1, h2⟩
      obtain ⟨a1, a2, a3⟩ := (hm a).mp ha
      obtain ⟨b1, b2, b3⟩ := (hm b).mp hb
      exact ⟨_, _, _, _, a1, b1, by rw [← a2]; exact a3, by rw [← b2]; exact b3, h1, h2⟩
    · rintro ⟨i, j, i', j', h1, h2, n1, n2, l1, l2⟩
      exact ⟨⟨i, j, _⟩, (hm _).mpr ⟨h1, rfl, n1⟩, ⟨i', j', _⟩, (hm _).mpr ⟨h2, rfl, n2⟩, l1, l2⟩
  rw [← hc]
  by_cases h : Crossing E <;> simp [h]

/-- C128 (counterexample). For n = 1 `test_sort_order` fails for every generator, seed and probability. -/
theorem C128_sort_order_counterexample {srt : SortFn T} (hs : SortOk srt) {s1 s2 : List Nat} {G : Gen N K W T} {sqrt3 p : T} {seed : RNGState N K} (hG : G.Ok)
    (h3 : sqrt3 * sqrt3 = 3) (hp : 0 < sqrt3) :
    M.wp (testSortOrder srt s1 s2 G sqrt3 1 p seed) () (fun r _ => r ≠ [(.CSC, .CSC), (.CSR, .CSR), (.CSC, .CSC)]) := by
  refine M.wp_mono (C128_sort_order_test hs hG h3 hp (by norm_num) (by decide)) ?_
  rintro r _ h e
  obtain ⟨i, j, i', j', h1, h2, -, -, h4, -⟩ := h.mp e
  have := h1.1
  have := h2.2.1
  omega

/-- Entries with and without a crossing. -/
example : Crossing ([⟨0, 2, 5⟩, ⟨1, 0, 6⟩] : List (Entry ℚ)) ∧ ¬ Crossing ([⟨0, 0, 5⟩, ⟨1, 2, 6⟩] : List (Entry ℚ)) :=
  ⟨⟨⟨0, 2, 5⟩, by simp, ⟨1, 0, 6⟩, by simp, by norm_num, by norm_num⟩, by rintro ⟨a, ha, b, hb, h1, h2⟩; simp at ha hb; rcases ha with rfl | rfl <;> rcases hb with rfl | rfl <;> simp at h1 h2⟩

end

/-! ## The diagonal matrix -/

section
variable [Field T]

/-- The entries of the diagonal matrix. -/
def unitDiag (T : Type) [Field T] (n : Nat) : List (Entry T) := (List.range n).map fun i : Nat => ⟨i, i, 1 + ((i : Int) : T)⟩

theorem unitDiag_length (n : Nat) : (unitDiag T n).length = n := by simp [unitDiag]

theorem unitDiag_get {n l : Nat} (h : l < (unitDiag T n).length) : (unitDiag T n)[l] = ⟨l, l, 1 + ((l : Int) : T)⟩ := by simp [unitDiag]

theorem diagCsr_spec {n : Int} (hn : 0 < n) (h32 : n ≤ intMax 32) :
    M.wp (diagCsr n) (mkCsr n n : CsrMat T) (fun _ A => CsrIs A (unitDiag T n.toNat) ∧ A.nRows = n ∧ A.nCols = n ∧ A.indexBase = .Zero) := by
  unfold diagCsr
  rw [M.wp_bind]
  have hr := reserveCsr_spec (A := (mkCsr n n : CsrMat T)) rfl rfl rfl (by show 0 ≤ n + 1; omega) n
  refine ⟨_, _, hr, ?_⟩
  beta_reduce
  rw [M.wp_zoom, if_pos hn, if_pos hn, M.wp_bind]
  refine M.wp_forI (fun k s => (∀ p, 0 ≤ p → p < n → s.vals p ≠ .none ∧ s.idxs p ≠ .none) ∧ (∀ p, 0 ≤ p → p ≤ n → s.ptr p ≠ .none) ∧
    ∀ p, 0 ≤ p → p < k → s.vals p = .val (1 + (p : T)) ∧ s.ptr p = .val p ∧ s.idxs p = .val p) hn.le ?_ ?_ ?_
  · refine ⟨fun p p0 p1 => ?_, fun p p0 p1 => ?_, fun p p0 p1 => by omega⟩
    · simp [CsrMat.bufs, ptr, Buf.fill, p0, p1]
    · simp [CsrMat.bufs, ptr, Buf.fill, mkCsr, p0, show p < n + 1 by omega]
  · rintro k s k0 k1 ⟨h1, h2, h3⟩
    unfold diagCsrStep onCsVals onPtr onIdxs
    simp only [M.wp_bind, M.wp_zoom, M.wp_wr]
    refine ⟨(h1 k k0 k1).1, h2 k k0 k1.le, (h1 k k0 k1).2, fun p p0 p1 => ?_, fun p p0 p1 => ?_, fun p p0 p1 => ?_⟩
    · rcases eq_or_ne p k with rfl | hne
      · simp [Buf.set]
      · simp only [Buf.set, Function.update_of_ne hne]; exact h1 p p0 p1
    · rcases eq_or_ne p k with rfl | hne
      · simp [Buf.set]
      · simp only [Buf.set, Function.update_of_ne hne]; exact h2 p p0 p1
    · rcases eq_or_ne p k with rfl | hne
      · simp [Buf.set]
      · simp only [Buf.set, Function.update_of_ne hne]; exact h3 p p0 (by omega)
  · rintro s ⟨h1, h2, h3⟩
    rw [if_neg (by omega)]
    unfold onPtr
    simp only [M.wp_zoom, M.wp_wr]
    refine ⟨h2 n hn.le le_rfl, ⟨?_, ⟨fun p => p, ?_, rfl, ?_, fun j _ _ => by beta_reduce; omega, ?_⟩, ?_⟩, rfl, rfl, rfl⟩
    · show n = _
      rw [unitDiag_length]; omega
    · intro j j0 j1
      show (s.ptr.set n n) j = _
      rcases eq_or_ne j n with rfl | hne
      · simp [Buf.set]
      · simp only [Buf.set, Function.update_of_ne hne]; exact (h3 j j0 (by replace j1 : j ≤ n := j1; omega)).2.1
    · show n = _
      rw [unitDiag_length]; omega
    · intro l hl
      rw [unitDiag_length] at hl
      rw [unitDiag_get]
      show 0 ≤ (l : Int) ∧ (l : Int) < n ∧ (l : Int) ≤ l ∧ (l : Int) < l + 1
      omega
    · intro l hl
      rw [unitDiag_length] at hl
      rw [unitDiag_get]
      obtain ⟨g1, -, g3⟩ := h3 l (by omega) (by omega)
      exact ⟨g1, by show s.idxs l = .val ((l : Int) + 0); rw [add_zero]; exact g3⟩

variable [LinearOrder T]

/-- C128 (diagonal). `test_csr_to_dense_diagonal` accepts `csr_to_dense` for every size up to the largest `int`. Missing: larger sizes, for which the loop counter of the test
overflows. -/
theorem C128_diagonal_csr_test_partial {atol rtol : T} {n : Int} (hn : 0 < n) (h32 : n ≤ intMax 32) (ha : 0 ≤ atol) :
    M.wp (testCsrToDenseDiagonal atol rtol n) () (fun r _ => r = none) := by
  unfold testCsrToDenseDiagonal
  simp only [M.wp_bind, M.wp_onLocal]
  refine M.wp_mono (diagCsr_spec hn h32) ?_
  rintro _ A ⟨hA, d1, d2, hb⟩
  have hir : InRange n n (unitDiag T n.toNat) := fun e he => by
    obtain ⟨l, hl, rfl⟩ := List.getElem_of_mem he
    rw [unitDiag_length] at hl
    rw [unitDiag_get]
    show 0 ≤ (l : Int) ∧ (l : Int) < n ∧ 0 ≤ (l : Int) ∧ (l : Int) < n
    omega
  have hal : StrAlloc (Buf.alloc T (n * n)) 1 n n n := fun i j hij => by
    rw [mul_one]; exact alloc_alloc (T := T) .ColMajor n n i j hij
  have v := C28_csr_to_dense_partial (A := A) (sr := 1) (sc := n) hA hb (by rw [d1, d2]; exact hir) (fun e he => by have := (hir e he).2.2.2; unfold intMax at h32; norm_num at h32; omega)
    (by omega) (by omega) (by rw [d1, d2]; exact strInj_col) (by rw [d1, d2]; exact hal)
  refine M.wp_mono v ?_
  rintro _ mat ⟨h1, -⟩
  rw [d1, d2] at h1
  refine M.wp_forI (fun k b => Over (zeroVec (n * n)) 1 n n n ((unitDiag T n.toNat).take k.toNat) b) hn.le ?_ ?_ ?_
  · have hz : Holds (zeroVec (n * n) : Buf T) .ColMajor n n n (fun _ _ => 0) := ofFn_holds (m := n) (n := n) .ColMajor (fun _ => (0 : T))
    refine ⟨fun i j hij => ?_, fun _ _ => rfl⟩
    rw [mul_one]
    exact hz i j hij
  · intro k b k0 k1 h
    obtain ⟨l, rfl⟩ : ∃ l : Nat, k = l := ⟨k.toNat, by omega⟩
    have hl : l < (unitDiag T n.toNat).length := by rw [unitDiag_length]; omega
    have hin := hir _ (List.getElem_mem hl)
    have w := over_push (Q := fun _ b' => Over (zeroVec (n * n)) 1 n n n ((unitDiag T n.toNat).take ((l : Int) + 1).toNat) b') strInj_col h
      (e := (unitDiag T n.toNat)[l]) ⟨hin.1, hin.2.1, hin.2.2.1, hin.2.2.2⟩ (fun b'' hb'' => by
        rw [show ((l : Int) + 1).toNat = l + 1 by omega, ← List.take_append_getElem hl]
        simpa using hb'')
    rw [unitDiag_get] at w
    simp only [mul_one] at w
    rw [mul_comm n (l : Int)]
    exact w
  · intro eye h
    rw [List.take_of_length_le (by rw [unitDiag_length])] at h
    rw [M.wp_lift]
    refine ⟨_, flat_accepts (layout := .ColMajor) ha hn hn (F := overwrite (unitDiag T n.toNat)) (fun i j hij => ?_) (fun i j hij => ?_), rfl⟩
    · have := h1 i j hij
      rw [mul_one] at this
      exact this
    · have := h.cells i j hij
      rw [mul_one] at this
      exact this

end

/-! ## Sparse operators -/

section
variable {R : Type} [Field R] [LinearOrder R] [FloorRing R] [Field T] [LinearOrder T] [IsStrictOrderedRing T]

omit [LinearOrder T] [IsStrictOrderedRing T] in
theorem sparseskopToDense_spec {S : SparseSkOp N K T} {E : List (Entry T)} (h : OpHolds S E) (hr : InRange S.dist.nRows S.dist.nCols E) (h1 : 0 < S.dist.nRows) (h2 : 0 < S.dist.nCols) :
    M.wp (sparseskopToDense S .ColMajor) (zeroVec (S.dist.nRows * S.dist.nCols)) (fun _ b => Holds b .ColMajor S.dist.nRows S.dist.nRows S.dist.nCols (overwrite E)) := by
  obtain ⟨v, r, c, e1, e2, e3, hd, hn⟩ := h
  unfold sparseskopToDense
  rw [M.wp_bind]
  have hz : Holds (zeroVec (S.dist.nRows * S.dist.nCols) : Buf T) .ColMajor S.dist.nRows S.dist.nRows S.dist.nCols (fun _ _ => 0) := ofFn_holds .ColMajor (fun _ => (0 : T))
  refine M.wp_forI (fun _ b => b = zeroVec (S.dist.nRows * S.dist.nCols)) (mul_pos h1 h2).le rfl ?_ ?_
  · rintro p b p0 p1 rfl
    have hv : (zeroVec (S.dist.nRows * S.dist.nCols) : Buf T) p = .val 0 := by
      obtain ⟨i, j, hij, rfl⟩ := tight_pos (layout := .ColMajor) h1 h2 p0 p1
      exact hz i j hij
    rw [M.wp_wr]
    refine ⟨by rw [hv]; simp, ?_⟩
    unfold Buf.set
    rw [← hv, Function.update_eq_self]
  · rintro _ rfl
    rw [hn]
    refine M.wp_forI (fun l b' => Over (zeroVec (S.dist.nRows * S.dist.nCols)) 1 S.dist.nRows S.dist.nRows S.dist.nCols (E.take l.toNat) b') (by omega) ?_ ?_ ?_
    · refine ⟨fun i j hij => ?_, fun _ _ => rfl⟩
      rw [mul_one]
      exact hz i j hij
    · intro l b' l0 l1 hb'
      obtain ⟨q, rfl⟩ : ∃ q : Nat, l = q := ⟨l.toNat, by omega⟩
      have hq : q < E.length := by omega
      obtain ⟨d1, d2, d3⟩ := hd q hq
      simp only [M.wp_bind, M.wp_lift, if_true]
      rw [e1, e2, e3]
      refine ⟨_, Buf.rd_val d2, _, Buf.rd_val d3, _, Buf.rd_val d1, ?_⟩
      have hin := hr _ (List.getElem_mem hq)
      have w := over_push (Q := fun _ b' => Over (zeroVec (S.dist.nRows * S.dist.nCols)) 1 S.dist.nRows S.dist.nRows S.dist.nCols (E.take ((q : Int) + 1).toNat) b')
        strInj_col hb' ⟨hin.1, hin.2.1, hin.2.2.1, hin.2.2.2⟩ (fun b'' hb'' => by
          rw [show ((q : Int) + 1).toNat = q + 1 by omega, ← List.take_append_getElem hq]
          simpa using hb'')
      rwa [mul_one] at w
    · intro b h
      rw [List.take_of_length_le (by simp)] at h
      intro i j hij
      have := h.cells i j hij
      rwa [mul_one] at this

omit [IsStrictOrderedRing T] in
/-- C128 (operators). `sparse_skop_to_coo` accepts `coo_view_of_skop` of a new operator for all valid dimensions, numbers of nonzeros, axes, seeds and generators: the
members agree and both dense matrices are the same. For a long axis the uniform values must be in [0, 1) (C12, C99). -/
theorem C128_skop_to_coo_test [IsStrictOrderedRing R] {G : Gen N K W R} {sqrt : T → T} {order : Int → List (Int × T) → List (Int × T)} {atol rtol : T} {d m vecNnz : Int} {axis : Axis} {seed : RNGState N K} {D : SparseDist}
    (hG : G.Ok) (hsqrt : sqrt 1 = 1) (hsq : axis = .Long → ∀ n : Nat, sqrt n * sqrt n = n) (hord : ∀ i l, (order i l).Perm l) (hD : mkSparseDist d m vecNnz axis = .ok D)
    (hfit : 2 * D.fullNnz ≤ intMax 64)
    (hu : axis = .Long → ∀ c t, 0 ≤ unif01 G (advance seed c) t ∧ unif01 G (advance seed c) t < 1) (ha : 0 ≤ atol) :
    M.wp (testSkopToCoo G sqrt order atol rtol d m vecNnz axis seed) () (fun r _ => r = (true, none)) := by
  have hf : D.nRows = d ∧ D.nCols = m ∧ D.majorAxis = axis ∧ D.vecNnz = vecNnz := by
    unfold mkSparseDist at hD
    have h1 : d > 0 := by by_contra hc; simp [hc] at hD
    have h2 : m > 0 := by by_contra hc; simp [h1, hc] at hD
    have h3 : vecNnz > 0 := by by_contra hc; simp [h1, h2, hc] at hD
    have h4 : vecNnz ≤ (if axis = .Short then min d m else max d m) := by by_contra hc; simp [h1, h2, h3, hc] at hD
    simp [h1, h2, h3, h4] at hD
    subst hD
    exact ⟨rfl, rfl, rfl, rfl⟩
  obtain ⟨f1, f2, f3, f4⟩ := hf
  have hDo : SparseDistOk D := ⟨by rw [f1, f2, f3, f4]; exact hD, hfit⟩
  obtain ⟨hR, hC, hk, hkd, hfull, -, hax'⟩ := sparseDist_facts hDo
  have hS := mkSparseSkOp_ok (T := T) G.len hDo seed
  have key : ∃ S' E, fillSparse G sqrt order (mkSparseSkOp G.len D seed : SparseSkOp N K T) = (.ok (), S') ∧ OpHolds S' E ∧ S'.dist = D ∧ S'.nRows = D.nRows ∧ S'.nCols = D.nCols ∧
      InRange D.nRows D.nCols E ∧ 0 < S'.nnz ∧ S'.nnz ≤ D.fullNnz ∧ (axis = .Short → S'.nnz = D.fullNnz) := by
    obtain ⟨_, S', hrun, E0, v, r, c, -, hS', hh, hle, -⟩ := fillSparse_spec hG hsqrt hord hS
    have hdist : S'.dist = D ∧ S'.nRows = D.nRows ∧ S'.nCols = D.nCols ∧ S'.nnz ≤ D.fullNnz := by subst hS'; exact ⟨rfl, rfl, rfl, hle⟩
    obtain ⟨g1, g2, g3, g4⟩ := hdist
    rcases hax' with ⟨a, b, c'⟩ | ⟨a, b, c'⟩
    · obtain ⟨_, S2, hrun2, E, h1, h2, h3, -⟩ := C11_short_axis hG hsqrt hord hS a
      rw [hrun] at hrun2
      cases hrun2
      have e : S'.nnz = D.fullNnz := by rw [hfull, c']; exact h2
      refine ⟨S', E, hrun, h1, g1, g2, g3, h3, ?_, g4, fun _ => e⟩
      rw [e, hfull]
      exact mul_pos hk (by omega)
    · obtain ⟨_, S2, hrun2, E, h1, h2, -, h3, -⟩ := C12_long_axis hG hsqrt (hsq (by rw [← f3]; exact a)) hord hS a (hu (by rw [← f3]; exact a))
      rw [hrun] at hrun2
      cases hrun2
      refine ⟨S', E, hrun, h1, g1, g2, g3, h3, ?_, g4, fun q => by rw [← f3, a] at q; cases q⟩
      replace h2 : min D.nRows D.nCols ≤ S'.nnz := h2
      omega
  obtain ⟨S', E, hrun, hO, g1, g2, g3, hir, hpos, hle, hsh⟩ := key
  have hne : E ≠ [] := by
    rintro rfl
    obtain ⟨_, _, _, -, -, -, -, hn⟩ := hO
    rw [hn] at hpos
    simp at hpos
  obtain ⟨s, hview, hcoo, -⟩ := cooViewOfSkop_run (G := G) (sqrt := sqrt) (order := order) hne hO
  have hview0 : cooViewOfSkop G sqrt order (mkSparseSkOp G.len D seed : SparseSkOp N K T) = cooViewOfSkop G sqrt order S' := by
    unfold cooViewOfSkop
    rw [M.bind_ok (show (M.get : M (SparseSkOp N K T) _) S' = (.ok S', S') from rfl),
      M.bind_ok (show M.when (S'.nnz ≤ 0) _ S' = (.ok (), S') by unfold M.when; rw [if_neg (by omega)]; rfl),
      M.bind_ok (show (M.get : M (SparseSkOp N K T) _) _ = (.ok (mkSparseSkOp G.len D seed), mkSparseSkOp G.len D seed) from rfl),
      M.bind_ok (show M.when ((mkSparseSkOp G.len D seed : SparseSkOp N K T).nnz ≤ 0) (fillSparse G sqrt order) (mkSparseSkOp G.len D seed) = (.ok (), S') by
        unfold M.when; rw [if_pos (by show (-1 : Int) ≤ 0; omega)]; exact hrun)]
  unfold testSkopToCoo
  rw [M.wp_bind, M.wp_lift]
  refine ⟨_, hD, ?_⟩
  rw [M.wp_bind, M.wp_onLocal]
  refine ⟨_, _, hview0.trans hview, ?_⟩
  beta_reduce
  dsimp only
  rw [M.wp_bind, M.wp_onLocal]
  have w := sparseskopToDense_spec hO (by rw [g1]; exact hir) (by rw [g1]; exact hR) (by rw [g1]; exact hC)
  rw [g1, f1, f2] at w
  refine M.wp_mono w fun _ Sd hSd => ?_
  rw [M.wp_bind, M.wp_onLocal]
  have e2 : cooToDense (⟨S'.nRows, S'.nCols, false, S'.nnz, .Zero, S'.vals, S'.rows, S'.cols, s⟩ : CooMat T) .ColMajor = cooToDenseStr ⟨S'.nRows, S'.nCols, false, S'.nnz, .Zero, S'.vals, S'.rows, S'.cols, s⟩ 1 d := by
    unfold cooToDense
    rw [if_pos rfl, show (⟨S'.nRows, S'.nCols, false, S'.nnz, .Zero, S'.vals, S'.rows, S'.cols, s⟩ : CooMat T).nRows = d from g2.trans f1]
  rw [e2]
  have k1 : S'.nRows = d := g2.trans f1
  have k2 : S'.nCols = m := g3.trans f2
  have v := C28_coo_to_dense (sr := 1) (sc := d) (b := zeroVec (d * m)) hcoo (by show InRange S'.nRows S'.nCols E; rw [g2, g3]; exact hir) (by show 0 ≤ S'.nRows; omega)
    (by show 0 ≤ S'.nCols; omega) (by show StrInj 1 d S'.nRows S'.nCols; rw [k1, k2]; exact strInj_col) (by show StrAlloc _ 1 d S'.nRows S'.nCols; rw [k1, k2]; exact strAlloc_zeroVec)
  refine M.wp_mono v fun _ Ad hAd => ?_
  have hAd' : Holds Ad .ColMajor d d m (overwrite E) := fun i j hij => by
    have := hAd.1 i j (by show InR S'.nRows S'.nCols i j; rw [k1, k2]; exact hij)
    rwa [mul_one] at this
  rw [M.wp_bind, M.wp_lift]
  refine ⟨_, flat_accepts (layout := .ColMajor) ha (by omega) (by omega) hSd hAd', ?_⟩
  rw [M.wp_pure]
  refine Prod.ext ?_ rfl
  simp only [decide_eq_true_eq]
  rw [g1]
  exact ⟨g2.symm, g3.symm, fun q => (hsh q).symm, hle, trivial⟩

end

/-! ## The tests of the suite -/

example (seed : RNGState (2 ^ 128) Nat) : M.wp (testTransposedCsrAsCsc [] [] midGenR (Real.sqrt 3) 0 0 7 20 (9 / 10) seed) () (fun r _ => r = (none, none)) ∧
    M.wp (testTransposedCscAsCsr [] [] midGenR (Real.sqrt 3) 0 0 13 5 (1 / 20) seed) () (fun r _ => r = (none, none)) := by
  have h3 : Real.sqrt 3 * Real.sqrt 3 = 3 := Real.mul_self_sqrt (by norm_num)
  have hp : 0 < Real.sqrt 3 := by positivity
  exact ⟨C128_transposed_csr_test (Or.inr rfl) h3 hp (by norm_num) (by norm_num) (by decide) le_rfl,
    C128_transposed_csc_test_partial (Or.inr rfl) h3 hp (by norm_num) (by norm_num) (by decide) le_rfl (by norm_num)⟩

example : M.wp (testCsrToDenseDiagonal (0 : ℚ) 0 5) () (fun r _ => r = none) := C128_diagonal_csr_test_partial (by norm_num) (by decide) le_rfl

example (seed : RNGState (2 ^ 128) Nat) : M.wp (testSkopToCoo exGenQ Real.sqrt (fun _ l => l) 0 0 3 8 4 .Long seed) () (fun r _ => r = (true, none)) ∧
    M.wp (testSkopToCoo exGenQ Real.sqrt (fun _ l => l) 0 0 3 8 2 .Short seed) () (fun r _ => r = (true, none)) :=
  ⟨C128_skop_to_coo_test (D := exLaso) (Or.inr rfl) Real.sqrt_one (fun _ n => Real.mul_self_sqrt (Nat.cast_nonneg n)) (fun _ _ => List.Perm.refl _) rfl (by decide)
      (fun _ c t => ⟨(exGenQ_unif _ t).1.le, (exGenQ_unif _ t).2⟩) le_rfl,
    C128_skop_to_coo_test (D := exSaso) (Or.inr rfl) Real.sqrt_one (fun h => by cases h) (fun _ _ => List.Perm.refl _) rfl (by decide) (fun h => by cases h) le_rfl⟩

end RB
