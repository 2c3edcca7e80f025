import Verif.Lemmas.DenseSparse
import Verif.Props.SparseData

/-!
# C28: conversions between dense and sparse matrices

A dense matrix is addressed by two strides (`StrHolds`, `StrAlloc`, `StrSame`, `StrInj`) or by a layout (`Holds`, `Alloc`, `SameOutside`; the leading
dimension is then `n_rows` or `n_cols`). `Kept m n F tol E` says that `E` consists of exactly the entries of `F` with absolute value above
`tol`. `overwrite E` is the matrix obtained by storing the entries one after the other.
-/

namespace RB
open Spec
variable {T : Type}

/-! ## Counting -/

/-- C28. `nnz_in_dense` returns the number of entries with absolute value above the tolerance. -/
theorem C28_nnz [Field T] [LinearOrder T] {sr sc m n : Int} (hm : 0 ≤ m) (hn : 0 ≤ n) {mat : Buf T} (tol : T) {F : Int → Int → T}
    (h : StrHolds mat sr sc m n F) : ∃ E, Kept m n F tol E ∧ nnzInDense m n sr sc mat tol = .ok (E.length : Int) := by
  obtain ⟨a, rfl⟩ := Int.eq_ofNat_of_zero_le hm
  obtain ⟨b, rfl⟩ := Int.eq_ofNat_of_zero_le hn
  exact ⟨_, keptR_kept tol F a b, nnzInDense_spec h⟩

/-! ## Dense to sparse -/

/-- C28 (COO). `dense_to_coo` stores exactly the entries with absolute value above the tolerance, row by row. -/
theorem C28_dense_to_coo [Field T] [LinearOrder T] {A : CooMat T} (hc : CooEmpty A) (hm : 0 ≤ A.nRows) (hn : 0 ≤ A.nCols) {sr sc : Int}
    {mat : Buf T} (tol : T) {F : Int → Int → T} (h : StrHolds mat sr sc A.nRows A.nCols F) :
    M.wp (denseToCooStr sr sc mat tol) A (fun _ A' => ∃ E, Kept A.nRows A.nCols F tol E ∧ CooIs A' E ∧ SortedBy .CSR E ∧
      A'.nRows = A.nRows ∧ A'.nCols = A.nCols ∧ A'.indexBase = .Zero ∧ A'.ownMemory = true) := by
  obtain ⟨a, ha⟩ := Int.eq_ofNat_of_zero_le hm
  obtain ⟨b, hb⟩ := Int.eq_ofNat_of_zero_le hn
  unfold denseToCooStr
  simp only [M.wp_bind, M.wp_get, M.wp_lift]
  rw [ha, hb] at h ⊢
  refine ⟨_, nnzInDense_spec h, ?_⟩
  obtain ⟨A1, r1, r2⟩ := overE_after_reserve hc (keptR tol F a b) _
    (fun A' => ∃ E, Kept a b F tol E ∧ CooIs A' E ∧ SortedBy .CSR E ∧ A'.nRows = a ∧ A'.nCols = b ∧ A'.indexBase = .Zero ∧ A'.ownMemory = true)
    (fun bf hal => denseToCooLoop_spec h hal)
    (fun A' q1 q2 q3 q4 q5 _ => ⟨_, keptR_kept tol F a b, q1, keptR_sorted tol F a b, by rw [q2, ha], by rw [q3, hb], q4, q5⟩)
  have w1 : M.wp (reserveCoo ((keptR tol F a b).length : Int)) A (fun _ s => s = A1) := by
    unfold M.wp; rw [r1]; exact ⟨_, _, rfl, rfl⟩
  refine M.wp_mono w1 ?_
  rintro - _ rfl
  exact r2

/-- C28 (CSC). `dense_to_csc` stores exactly the entries with absolute value above the tolerance, column by column, in well-formed CSC format. -/
theorem C28_dense_to_csc [Field T] [LinearOrder T] {A : CscMat T} (hc : CscEmpty A) (hm : 0 ≤ A.nRows) {sr sc : Int} {mat : Buf T} (tol : T)
    {F : Int → Int → T} (h : StrHolds mat sr sc A.nRows A.nCols F) :
    M.wp (denseToCscStr sr sc mat tol) A (fun _ A' => ∃ E, Kept A.nRows A.nCols F tol E ∧ CscIs A' E ∧ SortedBy .CSC E ∧
      A'.nRows = A.nRows ∧ A'.nCols = A.nCols ∧ A'.indexBase = .Zero ∧ A'.ownMemory = true) := by
  obtain ⟨a, ha⟩ := Int.eq_ofNat_of_zero_le hm
  obtain ⟨b, hb⟩ := Int.eq_ofNat_of_zero_le hc.nCols
  unfold denseToCscStr
  simp only [M.wp_bind, M.wp_get, M.wp_lift]
  rw [ha, hb] at h ⊢
  refine ⟨_, nnzInDense_spec h, ?_⟩
  obtain ⟨A1, r1, r2⟩ := csc_after_reserve (A := A) (n := b) (by omega) (denseToCsSweep b a sc sr mat tol)
    (fun A' => ∃ E, Kept a b F tol E ∧ CscIs A' E ∧ SortedBy .CSC E ∧ A'.nRows = a ∧ A'.nCols = b ∧ A'.indexBase = .Zero ∧ A'.ownMemory = true)
    (keptC tol F a b) hc.own hc.vals hc.rowidxs hb (by rw [← hb]; exact hc.colptr)
    (fun bf hal hptr => denseToCsSweep_spec (F := fun j i => F i j) (fun j i => ⟨i, j, F i j⟩) Entry.col Entry.row
      (fun j i => ⟨rfl, rfl, rfl⟩) (fun j i j0 j1 i0 i1 => h i j ⟨by omega, by omega, by omega, by omega⟩) _ rfl hal hptr)
    hc.base
    (fun A' q1 q2 q3 q4 q5 => ⟨_, keptC_kept tol F a b, q1, keptC_sorted tol F a b, by rw [q2, ha], by rw [q3, hb], q4, q5⟩)
  have w1 : M.wp (reserveCsc ((keptR tol F a b).length : Int)) A (fun _ s => s = A1) := by
    rw [← kept_length]; unfold M.wp; rw [r1]; exact ⟨_, _, rfl, rfl⟩
  refine M.wp_mono w1 ?_
  rintro - _ rfl
  exact r2

/-- C28 (CSR). `dense_to_csr` stores exactly the entries with absolute value above the tolerance, row by row, in well-formed CSR format. -/
theorem C28_dense_to_csr [Field T] [LinearOrder T] {A : CsrMat T} (hc : CsrEmpty A) (hn : 0 ≤ A.nCols) {sr sc : Int} {mat : Buf T} (tol : T)
    {F : Int → Int → T} (h : StrHolds mat sr sc A.nRows A.nCols F) :
    M.wp (denseToCsrStr sr sc mat tol) A (fun _ A' => ∃ E, Kept A.nRows A.nCols F tol E ∧ CsrIs A' E ∧ SortedBy .CSR E ∧
      A'.nRows = A.nRows ∧ A'.nCols = A.nCols ∧ A'.indexBase = .Zero ∧ A'.ownMemory = true) := by
  obtain ⟨a, ha⟩ := Int.eq_ofNat_of_zero_le hc.nRows
  obtain ⟨b, hb⟩ := Int.eq_ofNat_of_zero_le hn
  unfold denseToCsrStr
  simp only [M.wp_bind, M.wp_get, M.wp_lift]
  rw [ha, hb] at h ⊢
  refine ⟨_, nnzInDense_spec h, ?_⟩
  obtain ⟨A1, r1, r2⟩ := csr_after_reserve (A := A) (n := a) (by omega) (denseToCsSweep a b sr sc mat tol)
    (fun A' => ∃ E, Kept a b F tol E ∧ CsrIs A' E ∧ SortedBy .CSR E ∧ A'.nRows = a ∧ A'.nCols = b ∧ A'.indexBase = .Zero ∧ A'.ownMemory = true)
    (keptR tol F a b) hc.own hc.vals hc.colidxs ha (by rw [← ha]; exact hc.rowptr)
    (fun bf hal hptr => denseToCsSweep_spec (F := F) (fun i j => ⟨i, j, F i j⟩) Entry.row Entry.col
      (fun j i => ⟨rfl, rfl, rfl⟩) (fun i j i0 i1 j0 j1 => by rw [add_comm]; exact h i j ⟨by omega, by omega, by omega, by omega⟩) _ rfl hal hptr)
    hc.base
    (fun A' q1 q2 q3 q4 q5 => ⟨_, keptR_kept tol F a b, q1, keptR_sorted tol F a b, by rw [q2, ha], by rw [q3, hb], q4, q5⟩)
  have w1 : M.wp (reserveCsr ((keptR tol F a b).length : Int)) A (fun _ s => s = A1) := by
    unfold M.wp; rw [r1]; exact ⟨_, _, rfl, rfl⟩
  refine M.wp_mono w1 ?_
  rintro - _ rfl
  exact r2

/-! ## Sparse to dense -/

/-- C28 (COO). `coo_to_dense` writes the matrix obtained by storing the entries one after the other in a zero matrix and touches nothing else. -/
theorem C28_coo_to_dense [Zero T] {A : CooMat T} {E : List (Entry T)} (h : CooIs A E) (hr : InRange A.nRows A.nCols E) {sr sc : Int} {b : Buf T}
    (hm : 0 ≤ A.nRows) (hn : 0 ≤ A.nCols) (hinj : StrInj sr sc A.nRows A.nCols) (hal : StrAlloc b sr sc A.nRows A.nCols) :
    M.wp (cooToDenseStr A sr sc) b (fun _ b' => StrHolds b' sr sc A.nRows A.nCols (overwrite E) ∧ StrSame b b' sr sc A.nRows A.nCols) :=
  M.wp_mono (cooToDenseStr_spec h hr hm hn hinj hal) fun _ _ hb => ⟨hb.cells, hb.outside⟩

/-- C28 (CSC). The same for `csc_to_dense`. -/
theorem C28_csc_to_dense [Zero T] {A : CscMat T} {E : List (Entry T)} (h : CscIs A E) (hb : A.indexBase = .Zero)
    (hr : InRange A.nRows A.nCols E) {sr sc : Int} {b : Buf T}
    (hm : 0 ≤ A.nRows) (hn : 0 ≤ A.nCols) (hinj : StrInj sr sc A.nRows A.nCols) (hal : StrAlloc b sr sc A.nRows A.nCols) :
    M.wp (cscToDenseStr A sr sc) b (fun _ b' => StrHolds b' sr sc A.nRows A.nCols (overwrite E) ∧ StrSame b b' sr sc A.nRows A.nCols) :=
  M.wp_mono (cscToDenseStr_spec h hb (fun e he => ⟨(hr e he).1, (hr e he).2.1⟩) hm hn hinj hal) fun _ _ hb => ⟨hb.cells, hb.outside⟩

/-- C28 (CSR). The same for `csr_to_dense`, if no entry is in a column beyond the first 2^31: the code stores column indices in an
`int`. Missing: matrices with such entries, for which the claim is false (`C28_csr_int_counterexample`). -/
theorem C28_csr_to_dense_partial [Zero T] {A : CsrMat T} {E : List (Entry T)} (h : CsrIs A E) (hb : A.indexBase = .Zero)
    (hr : InRange A.nRows A.nCols E) (h32 : ∀ e ∈ E, e.col < 2 ^ 31) {sr sc : Int} {b : Buf T}
    (hm : 0 ≤ A.nRows) (hn : 0 ≤ A.nCols) (hinj : StrInj sr sc A.nRows A.nCols) (hal : StrAlloc b sr sc A.nRows A.nCols) :
    M.wp (csrToDenseStr A sr sc) b (fun _ b' => StrHolds b' sr sc A.nRows A.nCols (overwrite E) ∧ StrSame b b' sr sc A.nRows A.nCols) :=
  M.wp_mono (csrToDenseStr_spec h hb (fun e he => ⟨(hr e he).2.2.1, (hr e he).2.2.2⟩) h32 hm hn hinj hal) fun _ _ hb => ⟨hb.cells, hb.outside⟩

/-- A CSR matrix with more than 2^31 columns and one entry in column 2^31. -/
def wideCsr : CsrMat ℤ := csrOf 1 (2 ^ 31 + 1) [0, 1] [⟨0, 2 ^ 31, 1⟩]

theorem wideCsr_is : CsrIs wideCsr [⟨0, 2 ^ 31, 1⟩] := by
  refine ⟨rfl, csIs_ofList (n := 1) rfl rfl rfl ?_ ?_⟩
  · decide
  · decide

/-- For a well-formed CSR matrix with more than 2^31 columns `csr_to_dense` writes outside the dense matrix. -/
theorem C28_csr_int_counterexample : CsrIs wideCsr [⟨0, 2 ^ 31, 1⟩] ∧ InRange wideCsr.nRows wideCsr.nCols [(⟨0, 2 ^ 31, 1⟩ : Entry ℤ)] ∧
    (csrToDenseStr wideCsr (2 ^ 31 + 1) 1 (Buf.alloc ℤ (2 ^ 31 + 1))).1 = .ub := by
  refine ⟨wideCsr_is, by simp [InRange, wideCsr, csrOf], ?_⟩
  have hz := zeroDense_spec (T := ℤ) (m := 1) (n := 2 ^ 31 + 1) (sr := 2 ^ 31 + 1) (sc := 1) (b := Buf.alloc ℤ (2 ^ 31 + 1)) (by norm_num)
    (by norm_num) (by intro i j i' j' h h' he; simp only [InR] at h h'; omega) (by
      intro i j h
      simp only [InR] at h
      have hi : i = 0 := by omega
      subst hi
      simp only [Buf.alloc]
      rw [if_pos (by omega)]; simp)
  obtain ⟨u, b1, e1, h1⟩ := hz
  have hout : b1 (0 * (2 ^ 31 + 1) + -2 ^ 31 * 1) = .none := by
    rw [h1.outside _ (by intro i j h; simp only [InR] at h; have hi : i = 0 := by omega
                         subst hi; omega)]
    simp [Buf.alloc]
  have hwr : (M.wr (0 * (2 ^ 31 + 1) + -2 ^ 31 * 1) 1 : M (Buf ℤ) Unit) b1 = (.ub, b1) := by
    unfold M.wr; rw [hout]
  have e1' : zeroDense wideCsr.nRows wideCsr.nCols (2 ^ 31 + 1) 1 (Buf.alloc ℤ (2 ^ 31 + 1)) = (.ok u, b1) := e1
  have hr : (M.require (wideCsr.indexBase = .Zero) : M (Buf ℤ) Unit) (Buf.alloc ℤ (2 ^ 31 + 1)) = (.ok (), Buf.alloc ℤ (2 ^ 31 + 1)) := rfl
  unfold csrToDenseStr
  rw [M.bind_ok hr, M.bind_ok e1']
  have hb : (forI 0 1 (fun ell => do
      let j ← M.lift ((ptr wideCsr.colidxs).rd ell)
      let v ← M.lift ((ptr wideCsr.vals).rd ell)
      M.wr (0 * (2 ^ 31 + 1) + (if wideCsr.indexBase = .One then wrapInt 32 j - 1 else wrapInt 32 j) * 1) v) : M (Buf ℤ) Unit) b1 = (.ub, b1) := by
    refine Eq.trans ?_ hwr
    rfl
  have hrow : (forI 0 1 (fun i => do
              let lo ← M.lift ((ptr wideCsr.rowptr).rd i)
              let hi ← M.lift ((ptr wideCsr.rowptr).rd (i + 1))
              forI lo hi fun ell => do
                  let j ← M.lift ((ptr wideCsr.colidxs).rd ell)
                  let v ← M.lift ((ptr wideCsr.vals).rd ell)
                  M.wr (i * (2 ^ 31 + 1) + (if wideCsr.indexBase = IndexBase.One then wrapInt 32 j - 1 else wrapInt 32 j) * 1) v) : M (Buf ℤ) Unit) b1
      = (.ub, b1) := by
    refine Eq.trans ?_ hb
    rfl
  exact congrArg Prod.fst hrow

/-- C28. If no position occurs twice, the matrix written is the one the sparse object represents. -/
theorem C28_no_duplicates [AddCommMonoid T] {E : List (Entry T)} (h : (E.map Entry.pos).Nodup) (i j : Int) : overwrite E i j = toMat E i j :=
  overwrite_eq_toMat h i j

/-- If a position occurs twice, `coo_to_dense` writes the last value, whereas the products with the matrix use the sum. -/
theorem C28_duplicates_counterexample : ∃ E : List (Entry ℤ), InRange 1 1 E ∧
    M.wp (cooToDenseStr (cooOf 1 1 .Zero E) 1 1) (Buf.alloc ℤ 1) (fun _ b' => ¬ StrHolds b' 1 1 1 1 (toMat E)) := by
  refine ⟨[⟨0, 0, 1⟩, ⟨0, 0, 2⟩], by simp [InRange], ?_⟩
  refine M.wp_mono (C28_coo_to_dense (cooOf_is 1 1 .Zero _) (by simp [InRange, cooOf]) (by simp [cooOf]) (by simp [cooOf]) ?_ ?_) ?_
  · intro i j i' j' h h' _
    simp only [InR, cooOf] at h h'; omega
  · intro i j h
    simp only [InR, cooOf] at h
    have h1 : i = 0 := by omega
    have h2 : j = 0 := by omega
    subst h1 h2
    simp [Buf.alloc]
  · rintro - b' ⟨h, -⟩ hc
    have e1 := h 0 0 ⟨by simp, by simp [cooOf], by simp, by simp [cooOf]⟩
    have e2 := hc 0 0 ⟨by simp, by simp, by simp, by simp⟩
    rw [e1] at e2
    revert e2
    decide

/-! ## Round trip -/

/-- C28. Storing the kept entries gives the matrix with the small entries replaced by zero. -/
theorem C28_kept_matrix [Field T] [LinearOrder T] {m n : Int} {F : Int → Int → T} {tol : T} {E : List (Entry T)} (h : Kept m n F tol E)
    {i j : Int} (hij : InR m n i j) : overwrite E i j = if tol < |F i j| then F i j else 0 := by
  rw [overwrite_eq_toMat h.nodup]
  unfold toMat
  by_cases hk : tol < |F i j|
  · rw [if_pos hk]
    have hmem : (⟨i, j, F i j⟩ : Entry T) ∈ E := (h.mem _).mpr ⟨hij, rfl, hk⟩
    have hf : (E.filter fun e => e.row = i ∧ e.col = j) = [⟨i, j, F i j⟩] := by
      have hall : ∀ e ∈ E.filter (fun e => e.row = i ∧ e.col = j), e = ⟨i, j, F i j⟩ := by
        intro e he
        rw [List.mem_filter] at he
        have h1 : e.row = i ∧ e.col = j := by simpa using he.2
        obtain ⟨-, h2, -⟩ := (h.mem e).mp he.1
        obtain ⟨r, c, v⟩ := e
        simp only at *
        obtain ⟨rfl, rfl⟩ := h1
        rw [h2]
      have hnd : (E.filter (fun e => e.row = i ∧ e.col = j)).Nodup := (List.Nodup.of_map _ h.nodup).filter _
      have hin : (⟨i, j, F i j⟩ : Entry T) ∈ E.filter (fun e => e.row = i ∧ e.col = j) := by
        rw [List.mem_filter]; exact ⟨hmem, by simp⟩
      rw [List.eq_replicate_of_mem hall] at hnd hin ⊢
      generalize (E.filter (fun e => e.row = i ∧ e.col = j)).length = k at *
      match k, hnd, hin with
      | 0, _, hin => simp at hin
      | 1, _, _ => rfl
      | k + 2, hnd, _ => simp [List.replicate_succ] at hnd
    rw [hf]; simp
  · rw [if_neg hk]
    have hf : (E.filter fun e => e.row = i ∧ e.col = j) = [] := by
      rw [List.filter_eq_nil_iff]
      intro e he hc
      have h1 : e.row = i ∧ e.col = j := by simpa using hc
      obtain ⟨-, h2, h3⟩ := (h.mem e).mp he
      rw [h2, h1.1, h1.2] at h3
      exact hk h3
    rw [hf]; simp

theorem kept_inRange [Field T] [LinearOrder T] {m n : Int} {F : Int → Int → T} {tol : T} {E : List (Entry T)} (h : Kept m n F tol E) :
    InRange m n E := fun e he => ((h.mem e).mp he).1

/-- C28 (COO, round trip). `dense_to_coo` followed by `coo_to_dense`, with any strides for the second matrix. -/
theorem C28_coo_roundtrip [Field T] [LinearOrder T] {A : CooMat T} (hc : CooEmpty A) (hm : 0 ≤ A.nRows) (hn : 0 ≤ A.nCols) {sr sc : Int}
    {mat : Buf T} (tol : T) {F : Int → Int → T} (h : StrHolds mat sr sc A.nRows A.nCols F) {sr' sc' : Int} {b : Buf T}
    (hinj : StrInj sr' sc' A.nRows A.nCols) (hal : StrAlloc b sr' sc' A.nRows A.nCols) :
    M.wp (denseToCooStr sr sc mat tol) A (fun _ A' => M.wp (cooToDenseStr A' sr' sc') b (fun _ b' =>
      StrHolds b' sr' sc' A.nRows A.nCols (fun i j => if tol < |F i j| then F i j else 0) ∧ StrSame b b' sr' sc' A.nRows A.nCols)) := by
  refine M.wp_mono (C28_dense_to_coo hc hm hn tol h) ?_
  rintro - A' ⟨E, hk, he, -, h1, h2, -⟩
  have := C28_coo_to_dense (A := A') (sr := sr') (sc := sc') (b := b) he (by rw [h1, h2]; exact kept_inRange hk) (by omega) (by omega)
    (by rw [h1, h2]; exact hinj) (by rw [h1, h2]; exact hal)
  rw [h1, h2] at this
  refine M.wp_mono this ?_
  rintro - b' ⟨g1, g2⟩
  exact ⟨fun i j hij => by rw [g1 i j hij, C28_kept_matrix hk hij], g2⟩

/-- C28 (CSC, round trip). -/
theorem C28_csc_roundtrip [Field T] [LinearOrder T] {A : CscMat T} (hc : CscEmpty A) (hm : 0 ≤ A.nRows) {sr sc : Int}
    {mat : Buf T} (tol : T) {F : Int → Int → T} (h : StrHolds mat sr sc A.nRows A.nCols F) {sr' sc' : Int} {b : Buf T}
    (hinj : StrInj sr' sc' A.nRows A.nCols) (hal : StrAlloc b sr' sc' A.nRows A.nCols) :
    M.wp (denseToCscStr sr sc mat tol) A (fun _ A' => M.wp (cscToDenseStr A' sr' sc') b (fun _ b' =>
      StrHolds b' sr' sc' A.nRows A.nCols (fun i j => if tol < |F i j| then F i j else 0) ∧ StrSame b b' sr' sc' A.nRows A.nCols)) := by
  refine M.wp_mono (C28_dense_to_csc hc hm tol h) ?_
  rintro - A' ⟨E, hk, he, -, h1, h2, h3, -⟩
  have := C28_csc_to_dense (A := A') (sr := sr') (sc := sc') (b := b) he h3 (by rw [h1, h2]; exact kept_inRange hk) (by omega)
    (by have := hc.nCols; omega) (by rw [h1, h2]; exact hinj) (by rw [h1, h2]; exact hal)
  rw [h1, h2] at this
  refine M.wp_mono this ?_
  rintro - b' ⟨g1, g2⟩
  exact ⟨fun i j hij => by rw [g1 i j hij, C28_kept_matrix hk hij], g2⟩

/-- C28 (CSR, round trip), for at most 2^31 columns. -/
theorem C28_csr_roundtrip_partial [Field T] [LinearOrder T] {A : CsrMat T} (hc : CsrEmpty A) (hn : 0 ≤ A.nCols) (h32 : A.nCols ≤ 2 ^ 31) {sr sc : Int}
    {mat : Buf T} (tol : T) {F : Int → Int → T} (h : StrHolds mat sr sc A.nRows A.nCols F) {sr' sc' : Int} {b : Buf T}
    (hinj : StrInj sr' sc' A.nRows A.nCols) (hal : StrAlloc b sr' sc' A.nRows A.nCols) :
    M.wp (denseToCsrStr sr sc mat tol) A (fun _ A' => M.wp (csrToDenseStr A' sr' sc') b (fun _ b' =>
      StrHolds b' sr' sc' A.nRows A.nCols (fun i j => if tol < |F i j| then F i j else 0) ∧ StrSame b b' sr' sc' A.nRows A.nCols)) := by
  refine M.wp_mono (C28_dense_to_csr hc hn tol h) ?_
  rintro - A' ⟨E, hk, he, -, h1, h2, h3, -⟩
  have := C28_csr_to_dense_partial (A := A') (sr := sr') (sc := sc') (b := b) he h3 (by rw [h1, h2]; exact kept_inRange hk)
    (fun e he => by have := (kept_inRange hk e he).2.2.2; omega) (by have := hc.nRows; omega) (by omega) (by rw [h1, h2]; exact hinj) (by rw [h1, h2]; exact hal)
  rw [h1, h2] at this
  refine M.wp_mono this ?_
  rintro - b' ⟨g1, g2⟩
  exact ⟨fun i j hij => by rw [g1 i j hij, C28_kept_matrix hk hij], g2⟩

/-- C28. With tolerance zero nothing is dropped: the round trip is the identity. -/
theorem C28_tolerance_zero [Field T] [LinearOrder T] [IsStrictOrderedRing T] (F : Int → Int → T) :
    (fun i j => if 0 < |F i j| then F i j else 0) = F := by
  funext i j
  split_ifs with h
  · rfl
  · by_contra hne
    exact h (abs_pos.mpr (Ne.symm hne))

/-! ## Layouts -/

/-- The overloads with a `layout` argument use the strides of that layout with leading dimension `n_rows` or `n_cols`. -/
theorem C28_layouts [Field T] [LinearOrder T] (layout : Layout) (mat : Buf T) (tol : T) :
    (∀ A : CooMat T, ∃ sr sc, (∀ i j, i * sr + j * sc = addr layout (if layout = .ColMajor then A.nRows else A.nCols) i j) ∧
      denseToCoo layout mat tol A = denseToCooStr sr sc mat tol A ∧ cooToDense A layout = cooToDenseStr A sr sc) ∧
    (∀ A : CscMat T, ∃ sr sc, (∀ i j, i * sr + j * sc = addr layout (if layout = .ColMajor then A.nRows else A.nCols) i j) ∧
      denseToCsc layout mat tol A = denseToCscStr sr sc mat tol A ∧ cscToDense A layout = cscToDenseStr A sr sc) ∧
    (∀ A : CsrMat T, ∃ sr sc, (∀ i j, i * sr + j * sc = addr layout (if layout = .ColMajor then A.nRows else A.nCols) i j) ∧
      denseToCsr layout mat tol A = denseToCsrStr sr sc mat tol A ∧ csrToDense A layout = csrToDenseStr A sr sc) := by
  cases layout
  · exact ⟨fun A => ⟨1, A.nRows, fun i j => by simp [addr], rfl, rfl⟩, fun A => ⟨1, A.nRows, fun i j => by simp [addr], rfl, rfl⟩,
      fun A => ⟨1, A.nRows, fun i j => by simp [addr], rfl, rfl⟩⟩
  · exact ⟨fun A => ⟨A.nCols, 1, fun i j => by simp [addr], rfl, rfl⟩, fun A => ⟨A.nCols, 1, fun i j => by simp [addr], rfl, rfl⟩,
      fun A => ⟨A.nCols, 1, fun i j => by simp [addr], rfl, rfl⟩⟩

/-- The strides of a layout separate entries. -/
theorem strInj_layout {layout : Layout} {sr sc m n ld : Int} (h : ∀ i j, i * sr + j * sc = addr layout ld i j) (hld : LdOk layout ld m n) :
    StrInj sr sc m n := by
  intro i j i' j' h1 h2 he
  rw [h, h] at he
  exact addr_inj hld h1 h2 he

/-- A 2 x 3 matrix with a zero, a small and a negative entry. -/
def sampleF (i j : Int) : ℚ := if i = 0 then (if j = 0 then 0 else if j = 1 then 1 / 10 else -3) else 5

/-- Row-major storage of `sampleF`. -/
def sampleMat : Buf ℚ := Buf.ofList [0, 1 / 10, -3, 5, 5, 5]

theorem sampleMat_holds : StrHolds sampleMat 3 1 2 3 sampleF := by
  intro i j h
  obtain ⟨h1, h2, h3, h4⟩ := h
  have hi : i = 0 ∨ i = 1 := by omega
  have hj : j = 0 ∨ j = 1 ∨ j = 2 := by omega
  rcases hi with rfl | rfl <;> rcases hj with rfl | rfl | rfl <;> rfl

example : StrHolds sampleMat 3 1 (mkCoo 2 3 : CooMat ℚ).nRows (mkCoo 2 3 : CooMat ℚ).nCols sampleF ∧ CooEmpty (mkCoo 2 3 : CooMat ℚ) ∧
    CscEmpty (mkCsc 2 3 : CscMat ℚ) ∧ CsrEmpty (mkCsr 2 3 : CsrMat ℚ) ∧ StrInj 1 2 2 3 ∧ StrAlloc (Buf.alloc ℚ 6) 1 2 2 3 := by
  refine ⟨sampleMat_holds, ⟨rfl, rfl, rfl, rfl, rfl⟩, ⟨rfl, rfl, rfl, by simp [mkCsc], rfl, by simp [mkCsc]⟩,
    ⟨rfl, rfl, rfl, by simp [mkCsr], rfl, by simp [mkCsr]⟩, ?_, ?_⟩
  · intro i j i' j' h h' he
    simp only [InR] at h h'; omega
  · intro i j h
    simp only [InR] at h
    simp only [Buf.alloc]
    rw [if_pos (by omega)]; simp

example : CscIs (cscOf 3 3 [0, 1, 1, 3] sampleC) sampleC ∧ InRange 3 3 sampleC ∧ (sampleC.map Entry.pos).Nodup :=
  ⟨sampleC_is, by simp [InRange, sampleC], by decide⟩

end RB
