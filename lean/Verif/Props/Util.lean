import Verif.Lemmas.Util
import Mathlib.Algebra.Order.Ring.Rat
import Mathlib.Algebra.Field.Rat
import Mathlib.Tactic.IntervalCases

/-!
# C17 - C21: the dense matrix utilities of RandBLAS/util.hh

`M.wp m s Q` reads: run from state `s`, `m` returns normally (no exception, no undefined behaviour such as
an out-of-bounds access) and `Q` holds of the result and the final state.
-/

namespace RB
open Spec
variable {T : Type}

/-! ## C17 -/

/-- C17 (omatcopy). If the source strides give `a` on the m x n index range, and the destination strides send
different entries to different allocated cells, `omatcopy` returns normally, every destination entry holds the
source entry, and no other cell changes. -/
theorem C17_omatcopy {m n : Int} {A : Buf T} {irsA icsA b0 irsB icsB : Int} {B : Buf T} {a : Int → Int → T}
    (hA : ∀ i j, InR m n i j → A (i * irsA + j * icsA) = .val (a i j))
    (hinj : ∀ i j i' j', InR m n i j → InR m n i' j' →
      b0 + (i * irsB + j * icsB) = b0 + (i' * irsB + j' * icsB) → i = i' ∧ j = j')
    (hB : ∀ i j, InR m n i j → B (b0 + (i * irsB + j * icsB)) ≠ .none) :
    M.wp (omatcopy m n A irsA icsA b0 irsB icsB) B (fun _ B' =>
      (∀ i j, InR m n i j → B' (b0 + (i * irsB + j * icsB)) = .val (a i j)) ∧
      (∀ p, (∀ i j, InR m n i j → p ≠ b0 + (i * irsB + j * icsB)) → B' p = B p)) := by
  by_cases hm : 0 ≤ m
  · by_cases hn : 0 ≤ n
    · exact M.wp_mono (omatcopy_spec hm hn hA hinj hB) (fun _ B' h => ⟨h.cells, h.outside⟩)
    · have hnil : ∀ i j, ¬ InR m n i j := fun i j h => by have := h.2.2.1; have := h.2.2.2; omega
      unfold omatcopy
      apply M.wp_forI (fun _ b => b = B) hm rfl
      · rintro i s - - rfl
        rw [M.forI_empty (by omega), M.wp_pure]
      · rintro s rfl
        exact ⟨fun i j h => absurd h (hnil i j), fun _ _ => rfl⟩
  · have hnil : ∀ i j, ¬ InR m n i j := fun i j h => by have := h.1; have := h.2.1; omega
    unfold omatcopy
    rw [M.forI_empty (by omega), M.wp_pure]
    exact ⟨fun i j h => absurd h (hnil i j), fun _ _ => rfl⟩

/-- The hypotheses of `C17_omatcopy` hold for a 2 x 2 transposing copy into a padded buffer. -/
example : (∀ i j, InR 2 2 i j → (Buf.ofList [1, 2, 3, 4] : Buf Int) (i * 1 + j * 2) = .val (1 + i + 2 * j)) ∧
    (∀ i j i' j', InR 2 2 i j → InR 2 2 i' j' → (1 : Int) + (i * 3 + j * 1) = 1 + (i' * 3 + j' * 1) → i = i' ∧ j = j') ∧
    (∀ i j, InR 2 2 i j → (Buf.alloc Int 6) (1 + (i * 3 + j * 1)) ≠ .none) := by
  refine ⟨?_, ?_, ?_⟩
  · rintro i j ⟨h1, h2, h3, h4⟩; interval_cases i <;> interval_cases j <;> rfl
  · rintro i j i' j' ⟨h1, h2, h3, h4⟩ ⟨h5, h6, h7, h8⟩ h; omega
  · rintro i j ⟨h1, h2, h3, h4⟩; interval_cases i <;> interval_cases j <;> decide

/-- C17 (flip_layout). A vector holding the m x n matrix `a` in `layout` order (leading dimension `ldaIn`)
becomes a vector of exactly the length of the other layout with leading dimension `ldaOut`, holding the same
matrix. -/
theorem C17_flip_layout [Zero T] {layout : Layout} {m n ldaIn ldaOut : Int} {v : Vec T} {a : Int → Int → T}
    (hm : 0 ≤ m) (hn : 0 ≤ n) (hwf : v.WF) (hin : LdOk layout ldaIn m n) (hout : LdOk layout.flip ldaOut m n)
    (hA : Holds v.buf layout ldaIn m n a) :
    M.wp (flipLayout layout m n ldaIn ldaOut) v (fun _ v' =>
      v'.size = bufLen layout.flip ldaOut m n ∧ v'.WF ∧ Holds v'.buf layout.flip ldaOut m n a) :=
  flipLayout_spec hm hn hwf hin hout hA

/-- C17 (flip_layout, errors). If a leading dimension is too small, an error is raised and the vector is unchanged. -/
theorem C17_flip_layout_error [Zero T] {layout : Layout} {m n ldaIn ldaOut : Int} {v : Vec T}
    (h : ¬ (LdOk layout ldaIn m n ∧ LdOk layout.flip ldaOut m n)) :
    flipLayout layout m n ldaIn ldaOut v = (.throw .require, v) := by
  cases layout
  · have h' : ¬ (m ≤ ldaIn ∧ n ≤ ldaOut) := h
    unfold flipLayout
    rw [if_pos rfl]
    by_cases h1 : ldaIn ≥ m
    · rw [M.bind_ok (a := ()) (s' := v) (by simp [M.require, M.lift, h1])]
      rw [M.bind_throw (s' := v) (e := .require) (by simp [M.require, M.lift, Res.require]; omega)]
    · rw [M.bind_throw (s' := v) (e := .require) (by simp [M.require, M.lift, Res.require, h1])]
  · have h' : ¬ (n ≤ ldaIn ∧ m ≤ ldaOut) := h
    unfold flipLayout
    rw [if_neg (by simp)]
    by_cases h1 : ldaIn ≥ n
    · rw [M.bind_ok (a := ()) (s' := v) (by simp [M.require, M.lift, h1])]
      rw [M.bind_throw (s' := v) (e := .require) (by simp [M.require, M.lift, Res.require]; omega)]
    · rw [M.bind_throw (s' := v) (e := .require) (by simp [M.require, M.lift, Res.require, h1])]

/-- C17 (round trip). Flipping to the other layout and back gives a vector of the tight length holding
the original matrix. -/
theorem C17_flip_roundtrip [Zero T] {layout : Layout} {m n lda ldb lda' : Int} {v : Vec T} {a : Int → Int → T}
    (hm : 0 ≤ m) (hn : 0 ≤ n) (hwf : v.WF) (h1 : LdOk layout lda m n) (h2 : LdOk layout.flip ldb m n)
    (h3 : LdOk layout lda' m n) (hA : Holds v.buf layout lda m n a) :
    M.wp (do flipLayout layout m n lda ldb; flipLayout layout.flip m n ldb lda') v (fun _ v' =>
      v'.size = bufLen layout lda' m n ∧ Holds v'.buf layout lda' m n a) := by
  have e : layout.flip.flip = layout := by cases layout <;> rfl
  rw [M.wp_bind]
  refine M.wp_mono (flipLayout_spec hm hn hwf h1 h2 hA) ?_
  rintro - v1 ⟨-, hw, hh⟩
  refine M.wp_mono (flipLayout_spec hm hn hw h2 (by rw [e]; exact h3) hh) ?_
  rintro - v2 ⟨h4, -, h5⟩
  rw [e] at h4 h5
  exact ⟨h4, h5⟩

/-- A 2 x 3 ColMajor vector with `lda = 2` and a RowMajor target with `lda = 4` meet the hypotheses. -/
example : ((⟨6, Buf.ofList [1, 2, 3, 4, 5, 6]⟩ : Vec Int)).WF ∧ LdOk .ColMajor 2 2 3 ∧ LdOk Layout.ColMajor.flip 4 2 3 ∧
    Holds (Buf.ofList [1, 2, 3, 4, 5, 6]) .ColMajor 2 2 3 (fun i j => (1 : Int) + i + 2 * j) := by
  refine ⟨⟨by decide, fun p => ?_⟩, by decide, by decide, ?_⟩
  · by_cases h : 0 ≤ p ∧ p < 6
    · rw [if_pos h]; obtain ⟨h1, h2⟩ := h
      interval_cases p <;> exact ⟨_, rfl⟩
    · rw [if_neg h]
      simp only [Buf.ofList]
      by_cases hp : 0 ≤ p
      · rw [if_pos hp, List.getElem?_eq_none (by simp; omega)]
      · rw [if_neg hp]
  · rintro i j ⟨h1, h2, h3, h4⟩; interval_cases i <;> interval_cases j <;> rfl

/-! ## C18 -/

/-- The triangle named by `uplo`, diagonal included. -/
def Spec.InTri (uplo : Uplo) (i j : Int) : Prop :=
  match uplo with
  | .Upper => i ≤ j
  | .Lower => j ≤ i
  | .General => True

/-- C18. `symmetrize` with `uplo` Upper or Lower: the result is symmetric, agrees with the input on the `uplo`
triangle and its diagonal, and nothing outside the n x n matrix changes. -/
theorem C18_symmetrize {layout : Layout} {uplo : Uplo} {n lda : Int} {b : Buf T} {A : Int → Int → T} (hn : 0 ≤ n)
    (hup : uplo ≠ .General) (hld : LdOk layout lda n n) (h : Holds b layout lda n n A) :
    M.wp (symmetrize layout uplo n lda) b (fun _ b' => ∃ S : Int → Int → T,
      Holds b' layout lda n n S ∧ (∀ i j, S i j = S j i) ∧ (∀ i j, InTri uplo i j → S i j = A i j) ∧
      SameOutside b b' layout lda n n) := by
  cases uplo with
  | Upper =>
    refine M.wp_mono (symmetrize_upper_spec hn hld (MatSt.of_holds h)) fun _ b' hb => ⟨_, hb.holds, ?_, ?_, hb.sameOutside⟩
    · intro i j
      rcases lt_trichotomy i j with h | h | h
      · simp [h, not_lt.mpr h.le]
      · simp [h]
      · simp [h, not_lt.mpr h.le]
    · intro i j (hij : i ≤ j)
      simp [not_lt.mpr hij]
  | Lower =>
    refine M.wp_mono (symmetrize_lower_spec hn hld (MatSt.of_holds h)) fun _ b' hb => ⟨_, hb.holds, ?_, ?_, hb.sameOutside⟩
    · intro i j
      rcases lt_trichotomy i j with h | h | h
      · simp [h, not_lt.mpr h.le]
      · simp [h]
      · simp [h, not_lt.mpr h.le]
    · intro i j (hij : j ≤ i)
      simp [not_lt.mpr hij]
  | General => exact absurd rfl hup

/-- C18 (idempotence). A second call of `symmetrize` changes no cell at all. -/
theorem C18_idempotent {layout : Layout} {uplo : Uplo} {n lda : Int} {b b' : Buf T} {A : Int → Int → T} (hn : 0 ≤ n)
    (hld : LdOk layout lda n n) (h : Holds b layout lda n n A)
    (hrun : symmetrize layout uplo n lda b = (.ok (), b')) :
    symmetrize layout uplo n lda b' = (.ok (), b') := by
  cases uplo with
  | Upper =>
    obtain ⟨_, c, hc, hm⟩ := symmetrize_upper_spec hn hld (MatSt.of_holds h)
    rw [hrun] at hc; cases hc
    obtain ⟨_, c2, hc2, hm2⟩ := symmetrize_upper_spec hn hld (MatSt.of_holds hm.holds)
    rw [hc2]
    congr 1
    refine MatSt.unique (hm2.congr ?_) (MatSt.of_holds hm.holds)
    intro i j _
    by_cases h1 : j < i <;> simp [h1, not_lt.mpr (le_of_lt _)]
  | Lower =>
    obtain ⟨_, c, hc, hm⟩ := symmetrize_lower_spec hn hld (MatSt.of_holds h)
    rw [hrun] at hc; cases hc
    obtain ⟨_, c2, hc2, hm2⟩ := symmetrize_lower_spec hn hld (MatSt.of_holds hm.holds)
    rw [hc2]
    congr 1
    refine MatSt.unique (hm2.congr ?_) (MatSt.of_holds hm.holds)
    intro i j _
    by_cases h1 : i < j <;> simp [h1, not_lt.mpr (le_of_lt _)]
  | General => rfl

/-- A 2 x 2 matrix in a padded ColMajor buffer meets the hypotheses of the C18 - C21 theorems. -/
theorem util_example : LdOk .ColMajor 3 2 2 ∧
    Holds (Buf.ofList [1, 2, 0, 5, 4]) .ColMajor 3 2 2 (fun i j => (1 : Int) + i + 4 * j - 2 * i * j) := by
  refine ⟨by decide, ?_⟩
  rintro i j ⟨h1, h2, h3, h4⟩; interval_cases i <;> interval_cases j <;> rfl

/-! ## C19 -/

/-- The part of the matrix on or beyond the k-th diagonal on the side named by `uplo`. -/
def Spec.BeyondDiag (uplo : Uplo) (k i j : Int) : Prop :=
  match uplo with
  | .Upper => i + k ≤ j
  | .Lower => j + k ≤ i
  | .General => False

/-- C19 (for `k ≥ 0`). `overwrite_triangle` zeroes exactly the entries on or beyond the k-th diagonal on the
requested side. Every other cell of the buffer, in the matrix or in its padding, is unchanged. The matrix only has
to be allocated; overwritten entries need not be initialised. Partial: the documentation also promises an error
for negative `k`, which the code does not give (see `C19_negative_k_counterexample`). -/
theorem C19_overwrite_triangle_partial [Zero T] {layout : Layout} {uplo : Uplo} {n k lda : Int} {b : Buf T} (hn : 0 ≤ n)
    (hk : 0 ≤ k) (hup : uplo ≠ .General) (hld : LdOk layout lda n n) (h : Alloc b layout lda n n) :
    M.wp (overwriteTriangle layout uplo n k lda) b (fun _ b' =>
      (∀ i j, InR n n i j → BeyondDiag uplo k i j → b' (addr layout lda i j) = .val 0) ∧
      (∀ i j, InR n n i j → ¬ BeyondDiag uplo k i j → b' (addr layout lda i j) = b (addr layout lda i j)) ∧
      SameOutside b b' layout lda n n) := by
  cases uplo with
  | Upper =>
    refine M.wp_mono (overwrite_upper_spec hn hk hld (MatSt.init b _ n n) h) fun _ b' hb => ⟨?_, ?_, hb.sameOutside⟩
    · intro i j hij (hd : i + k ≤ j); rw [hb.cells i j hij, if_pos hd]
    · intro i j hij (hd : ¬ (i + k ≤ j)); rw [hb.cells i j hij, if_neg hd]
  | Lower =>
    refine M.wp_mono (overwrite_lower_spec hn hk hld (MatSt.init b _ n n) h) fun _ b' hb => ⟨?_, ?_, hb.sameOutside⟩
    · intro i j hij (hd : j + k ≤ i); rw [hb.cells i j hij, if_pos hd]
    · intro i j hij (hd : ¬ (j + k ≤ i)); rw [hb.cells i j hij, if_neg hd]
  | General => exact absurd rfl hup

example : Alloc (Buf.alloc Int 5) .ColMajor 3 2 2 := by
  rintro i j ⟨h1, h2, h3, h4⟩; interval_cases i <;> interval_cases j <;> decide

/-- C19 (invalid selector). A `to_overwrite` that is neither Upper nor Lower raises an error and changes nothing. -/
theorem C19_invalid_uplo [Zero T] (layout : Layout) (n k lda : Int) (b : Buf T) :
    overwriteTriangle layout .General n k lda b = (.throw .runtime, b) := rfl

/-- C19 (defect). The documentation (RandBLAS/util.hh:340-350) says an error is raised for `k < 0`. It is not: on a 2 x 2 ColMajor
matrix with `lda = 2` stored at offset 2 of a larger buffer, `k = -1` makes the call write to the cell
before the matrix, and it returns normally. -/
theorem C19_negative_k_counterexample :
    ∃ (b : Buf Int), Holds b .ColMajor 2 2 2 (fun i j => 1 + i + 2 * j) ∧ b (-2) = .val 7 ∧
      (overwriteTriangle .ColMajor .Upper 2 (-1) 2 b).1 = .ok () ∧
      (overwriteTriangle .ColMajor .Upper 2 (-1) 2 b).2 (-2) = .val 0 := by
  refine ⟨(Buf.ofList [7, 8, 1, 2, 3, 4]).shift 2, ?_, rfl, rfl, rfl⟩
  rintro i j ⟨h1, h2, h3, h4⟩; interval_cases i <;> interval_cases j <;> rfl

/-! ## C20 -/

/-- C20. `transpose_square` replaces the ColMajor n x n matrix by its transpose; nothing else changes. -/
theorem C20_transpose_square {n lda : Int} {b : Buf T} {A : Int → Int → T} (hn : 0 ≤ n) (hld : n ≤ lda)
    (h : Holds b .ColMajor lda n n A) :
    M.wp (transposeSquare n lda) b (fun _ b' =>
      Holds b' .ColMajor lda n n (fun i j => A j i) ∧ SameOutside b b' .ColMajor lda n n) :=
  M.wp_mono (transposeSquare_spec hn hld (MatSt.of_holds h)) fun _ _ hb => ⟨hb.holds, hb.sameOutside⟩

/-- C20 (involution). Running `transpose_square` twice restores every cell. -/
theorem C20_involution {n lda : Int} {b : Buf T} {A : Int → Int → T} (hn : 0 ≤ n) (hld : n ≤ lda)
    (h : Holds b .ColMajor lda n n A) :
    (do transposeSquare n lda; transposeSquare n lda : M (Buf T) Unit) b = (.ok (), b) := by
  obtain ⟨_, c, hc, hm⟩ := transposeSquare_spec hn hld (MatSt.of_holds h)
  rw [M.bind_ok hc]
  obtain ⟨_, c2, hc2, hm2⟩ := transposeSquare_spec hn hld hm
  rw [hc2]
  exact congrArg _ (MatSt.unique hm2 (MatSt.of_holds h))

/-! ## C21 -/

/-- C21. For `tol ≥ 0` the check returns normally iff every pair of mirrored entries agrees up to the
stated mixed tolerance, and otherwise raises an error. -/
theorem C21_require_symmetric [Field T] [LinearOrder T] [IsStrictOrderedRing T] {layout : Layout} {A : Buf T}
    {n lda : Int} {tol : T} {a : Int → Int → T} (htol : 0 ≤ tol) (hA : Holds A layout lda n n a) :
    (requireSymmetric layout A n lda tol = .ok () ↔
      ∀ i j, InR n n i j → |a i j - a j i| ≤ (|a i j| + |a j i| + 1) * tol) ∧
    (requireSymmetric layout A n lda tol = .ok () ∨ requireSymmetric layout A n lda tol = .throw .errorIf) := by
  rcases requireSymmetric_decides htol hA with ⟨h1, h2⟩ | ⟨h1, i, j, hij, h2⟩
  · exact ⟨⟨fun _ => h2, fun _ => h1⟩, Or.inl h1⟩
  · refine ⟨⟨fun h => ?_, fun h => absurd (h i j hij) h2⟩, Or.inr h1⟩
    rw [h1] at h; cases h

/-- C21 (exact test). With `tol = 0` the check passes iff the matrix is symmetric. -/
theorem C21_exact_symmetry [Field T] [LinearOrder T] [IsStrictOrderedRing T] {layout : Layout} {A : Buf T}
    {n lda : Int} {a : Int → Int → T} (hA : Holds A layout lda n n a) :
    requireSymmetric layout A n lda 0 = .ok () ↔ ∀ i j, InR n n i j → a i j = a j i := by
  rw [(C21_require_symmetric (le_refl 0) hA).1]
  constructor
  · intro h i j hij
    have := h i j hij
    rw [mul_zero] at this
    exact sub_eq_zero.mp (abs_nonpos_iff.mp this)
  · intro h i j hij
    rw [h i j hij]; simp

/-- C21 (disabled). With `tol < 0` the check passes for every buffer, even an unallocated one: nothing is read. -/
theorem C21_negative_tol [Field T] [LinearOrder T] {layout : Layout} {A : Buf T} {n lda : Int} {tol : T} (h : tol < 0) :
    requireSymmetric layout A n lda tol = .ok () := by
  unfold requireSymmetric; rw [if_pos h]

example : (0 : ℚ) ≤ 1 / 2 ∧ Holds (Buf.ofList [1, 2, 0, 5, 4]) .ColMajor 3 2 2
    (fun i j => if i = 0 then (if j = 0 then (1 : ℚ) else 5) else (if j = 0 then 2 else 4)) := by
  refine ⟨by norm_num, ?_⟩
  rintro i j ⟨h1, h2, h3, h4⟩; interval_cases i <;> interval_cases j <;> rfl

end RB
