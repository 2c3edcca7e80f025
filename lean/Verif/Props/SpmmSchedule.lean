import Verif.Props.Spmm
import Verif.Lemmas.SpmmOutcome

/-!
# C33: the effect of sparse products does not depend on the schedule

`SameEffect x y`: both runs are undefined, or they have the same outcome and the same final state. Here nothing is assumed of the contents of
`B`, `C` and most arrays of A, so the theorem covers the cases in which products are undefined or C is wrong.
-/

namespace RB
open Spec
variable {T : Type}

/-- The elements of the array with the row indices of `op(A)` (d rows) are row indices. Nothing is required of COO matrices, and of matrices
that the kernels treat as CSR. -/
def RowIndicesOk (A : SpMat T) (opA : Op) (d : Int) : Prop :=
  match A, opA with
  | .csc A, .NoTrans => ∀ p v, ptr A.rowidxs p = .val v → 0 ≤ v ∧ v < d
  | .csr A, .Trans => ∀ p v, ptr A.colidxs p = .val v → 0 ≤ v ∧ v < d
  | _, _ => True

/-- The dispatch of `left_spmm`, given the effects of the calls for CSC matrices. -/
theorem leftSpmm_same [Zero T] [One T] [Add T] [Mul T] [BEq T]
    {srt : (Int × Int × T → Int × Int × T → Bool) → List (Int × Int × T) → List (Int × Int × T)} {sched sched' : List Nat} {nt nt' : Int}
    {A : SpMat T} {layout : Layout} {opA opB : Op} {d n m : Int} {ro co : Int} {alpha beta : T} {B b : Buf T} {ldb : Int} {ldc : Int}
    (hI : RowIndicesOk A opA d) (hn : 0 ≤ n) (hldc : 0 < ldc)
    (hcsc : (∀ C : CooMat T, A ≠ .coo C) → ∀ (A : CscMat T) ro co, ValsIn (ptr A.rowidxs) d → SameEffect (leftSpmmCscN sched nt layout opB d n m alpha A ro co B ldb beta ldc b)
      (leftSpmmCscN sched' nt' layout opB d n m alpha A ro co B ldb beta ldc b)) :
    SameEffect (leftSpmm ⟨srt, sched, nt⟩ layout opA opB d n m alpha ro co B ldb beta ldc (A, b))
      (leftSpmm ⟨srt, sched', nt'⟩ layout opA opB d n m alpha ro co B ldb beta ldc (A, b)) := by
  unfold leftSpmm
  refine SameEffect.bind_left fun s s' hs => ?_
  have hs0 : s = (A, b) ∧ s' = (A, b) := by
    have : (M.get : M (SpMat T × Buf T) _) (A, b) = (.ok (A, b), (A, b)) := rfl
    rw [this] at hs
    cases hs; exact ⟨rfl, rfl⟩
  obtain ⟨rfl, rfl⟩ := hs0
  cases A with
  | coo A =>
    cases opA with
    | NoTrans => exact SameEffect.zoom (leftSpmmCooN_same hldc)
    | Trans => exact SameEffect.bind_left fun At _ _ => SameEffect.zoom (leftSpmmCooN_same hldc)
  | csc A =>
    cases opA with
    | NoTrans => exact SameEffect.zoom (hcsc (fun _ h => by cases h) A _ _ hI)
    | Trans => exact SameEffect.bind_left fun At _ _ => SameEffect.zoom (leftSpmmCsrN_same hn)
  | csr A =>
    cases opA with
    | NoTrans => exact SameEffect.zoom (leftSpmmCsrN_same hn)
    | Trans =>
      refine SameEffect.bind_left fun At s' hAt => ?_
      have h : (M.lift (transposeAsCsc A true) : M (SpMat T × Buf T) _) (.csr A, b) =
        (.ok (mkCscExpert A.nCols A.nRows A.nnz A.vals A.colidxs A.rowptr A.indexBase), (.csr A, b)) := rfl
      rw [h] at hAt
      cases hAt
      exact SameEffect.zoom (hcsc (fun _ h => by cases h) _ _ _ hI)

/-- C33. `left_spmm` under two schedules (interleavings of the memory accesses of the parallel loops): both are undefined, or both have the
same outcome, the same C and the same A. No law is assumed of the operations on `T`; the arrays may hold anything (uninitialised elements,
wrong indices, too short), except that row indices which a CSC kernel uses as positions in C are in range. -/
theorem C33_schedule_irrelevant [Zero T] [One T] [Add T] [Mul T] [BEq T]
    (srt : (Int × Int × T → Int × Int × T → Bool) → List (Int × Int × T) → List (Int × Int × T)) (sched sched' : List Nat) (nt : Int)
    (A : SpMat T) (layout : Layout) (opA opB : Op) {d n m : Int} (ro co : Int) (alpha beta : T) (B b : Buf T) (ldb : Int) {ldc : Int}
    (hI : RowIndicesOk A opA d) (hn : 0 ≤ n) (hldc : 0 < ldc) :
    SameEffect (leftSpmm ⟨srt, sched, nt⟩ layout opA opB d n m alpha ro co B ldb beta ldc (A, b))
      (leftSpmm ⟨srt, sched', nt⟩ layout opA opB d n m alpha ro co B ldb beta ldc (A, b)) :=
  leftSpmm_same hI hn hldc fun _ _ _ _ h => leftSpmmCscN_same h hn

theorem ofList_val_mem {X : Type} {l : List X} {p : Int} {v : X} (h : Buf.ofList l p = .val v) : v ∈ l := by
  unfold Buf.ofList at h
  split at h
  · split at h
    · rename_i hv
      cases h
      exact List.mem_of_getElem? hv
    · cases h
  · cases h

/-- The hypothesis on row indices is met by a 3 x 3 CSC matrix, and by every COO matrix. -/
example : RowIndicesOk (.csc (cscOf 3 3 [0, 1, 1, 3] sampleC)) .NoTrans 3 ∧ ∀ (A : CooMat ℤ) (op : Op), RowIndicesOk (.coo A) op 3 := by
  refine ⟨?_, fun A op => by cases op <;> trivial⟩
  intro p v hv
  have h : Buf.ofList (sampleC.map Entry.row) p = .val v := hv
  have := ofList_val_mem h
  simp [sampleC] at this
  omega

/-- C33, with different numbers of threads as well: for a well-formed matrix, two schedules and two thread counts, both calls are undefined
or both have the same outcome, the same C and the same A. The row-major CSC kernel requires less than 2^31 rows (see
`C33_thread_count_counterexample`); otherwise the cases in which the product is undefined are included. -/
theorem C33_threads_irrelevant [Zero T] [One T] [Add T] [Mul T] [BEq T]
    {srt : (Int × Int × T → Int × Int × T → Bool) → List (Int × Int × T) → List (Int × Int × T)} (hsrt : SortOk srt)
    {sched sched' : List Nat} {nt nt' : Int} (hnt : 1 ≤ nt ∧ nt ≤ 2 ^ 30) (hnt' : 1 ≤ nt' ∧ nt' ≤ 2 ^ 30) {A : SpMat T} {E : List (Entry T)}
    (h : SpHolds A E) (hb : spBase A = .Zero) (hr : InRange (spRows A) (spCols A) E) {layout : Layout} {opA opB : Op} {d n m ro co : Int}
    {alpha beta : T} {B b : Buf T} {ldb ldc : Int} {Bm C : Int → Int → T} (hI : RowIndicesOk A opA d)
    (hK : layout = .RowMajor → opB = .NoTrans → d < 2 ^ 31)
    (hw : WindowOk A (rowsOf opA d m) (colsOf opA d m) ro co) (hd : 0 ≤ d) (hn : 0 ≤ n) (hm : 0 ≤ m)
    (hldb : LdOk layout ldb (rowsOf opB m n) (colsOf opB m n)) (hldc : LdOk layout ldc d n) (hpos : 0 < ldc)
    (hB : (alpha == 0) = false → Holds B layout ldb (rowsOf opB m n) (colsOf opB m n) Bm)
    (hal : Alloc b layout ldc d n) (hC : (beta == 0) = false → Holds b layout ldc d n C) :
    SameEffect (leftSpmm ⟨srt, sched, nt⟩ layout opA opB d n m alpha ro co B ldb beta ldc (A, b))
      (leftSpmm ⟨srt, sched', nt'⟩ layout opA opB d n m alpha ro co B ldb beta ldc (A, b)) := by
  by_cases hl : layout = .RowMajor ∧ opB = .NoTrans
  · obtain ⟨rfl, rfl⟩ := hl
    have hpart : (∀ C : CooMat T, A ≠ .coo C) → SameEffect (leftSpmm ⟨srt, sched, nt⟩ .RowMajor opA .NoTrans d n m alpha ro co B ldb beta ldc (A, b))
      (leftSpmm ⟨srt, sched', nt'⟩ .RowMajor opA .NoTrans d n m alpha ro co B ldb beta ldc (A, b)) := by
      intro hcoo
      obtain ⟨s', h1, h2⟩ := C33_schedule_irrelevant_partial hsrt (sched := sched) (sched' := sched') hnt hnt' h hb hr (layout := .RowMajor)
        (opA := opA) (opB := .NoTrans) (alpha := alpha) (beta := beta) (by
          intro _
          cases A with
          | coo A => exact absurd rfl (hcoo A)
          | csc A => cases opA <;> (simp [Supported]; try exact hK rfl rfl)
          | csr A => cases opA <;> (simp [Supported]; try exact hK rfl rfl)) hw hd hn hm hldb hldc hB hal hC
      exact .inr (h1.trans h2.symm)
    cases A with
    | coo A => exact leftSpmm_same hI hn hpos fun hA => absurd rfl (hA A)
    | csc A => exact hpart fun _ h => by cases h
    | csr A => exact hpart fun _ h => by cases h
  · have hl' : ¬ (layoutOp layout opB = .RowMajor ∧ layout = .RowMajor) := by
      rintro ⟨h1, rfl⟩
      cases opB with
      | NoTrans => exact hl ⟨rfl, rfl⟩
      | Trans => simp [layoutOp, Layout.flip] at h1
    refine leftSpmm_same hI hn hpos fun _ A ro co h => ?_
    rw [leftSpmmCscN_nt (nt := nt') (nt' := nt) hl']
    exact leftSpmmCscN_same h hn

/-- The hypotheses are met by the column-major product of the CSC matrix [5 0] with a 2 x 1 matrix, which is undefined
(`C31_first_column_counterexample`). -/
example : SpHolds (.csc (cscOf 1 2 [0, 1, 1] [⟨0, 0, (5 : ℤ)⟩])) [⟨0, 0, 5⟩] ∧ InRange 1 2 [(⟨0, 0, 5⟩ : Entry ℤ)] ∧
    RowIndicesOk (.csc (cscOf 1 2 [0, 1, 1] [⟨0, 0, (5 : ℤ)⟩])) .NoTrans 1 ∧
    WindowOk (.csc (cscOf 1 2 [0, 1, 1] [⟨0, 0, (5 : ℤ)⟩])) 1 2 0 0 ∧ Holds (Buf.ofList [1, (1 : ℤ)]) .ColMajor 2 2 1 (fun _ _ => 1) := by
  refine ⟨⟨rfl, csIs_ofList (n := 2) rfl rfl rfl (by decide) (by decide)⟩, by simp [InRange], ?_, by simp [WindowOk, cscOf], ?_⟩
  · intro p v hv
    have h : Buf.ofList ([0] : List Int) p = .val v := hv
    have := ofList_val_mem h
    simp at this
    omega
  · intro i j hij
    obtain ⟨h1, h2, h3, h4⟩ := hij
    obtain rfl : j = 0 := by omega
    obtain rfl | rfl : i = 0 ∨ i = 1 := by omega
    all_goals rfl

/-- The number of threads matters for the row-major CSC kernel with 2^31 rows: the product of `tallCsc` with the 1 x 1 matrix [1] returns
with one thread (having left C as it was, `C31_csc_int_counterexample`), and is undefined with two. -/
theorem C33_thread_count_counterexample :
    M.wp (leftSpmm ⟨exSrt, [], 1⟩ .RowMajor .NoTrans .NoTrans (2 ^ 31) 1 1 1 0 0 (Buf.ofList [1]) 1 1 1) (.csc tallCsc, Buf.fill (2 ^ 31) 0)
      (fun _ s' => s'.2 0 = .val 0) ∧
    M.Undef (leftSpmm ⟨exSrt, [], 2⟩ .RowMajor .NoTrans .NoTrans (2 ^ 31) 1 1 1 0 0 (Buf.ofList [1]) 1 1 1) (.csc tallCsc, Buf.fill (2 ^ 31) 0) := by
  refine ⟨C31_csc_int_counterexample.2.2, ?_⟩
  have hC : Holds (Buf.fill (2 ^ 31) (0 : ℤ)) .RowMajor 1 (2 ^ 31) 1 (fun _ _ => 0) := by
    intro i j hij
    simp only [InR] at hij
    have : 0 ≤ addr .RowMajor 1 i j ∧ addr .RowMajor 1 i j < 2 ^ 31 := by simp only [addr]; omega
    simp only [Buf.fill]
    rw [if_pos this]
  unfold leftSpmm
  refine M.Undef.after (M.wp_get.mpr ?_)
  refine M.Undef.zoom ?_
  unfold leftSpmmCscN
  refine M.Undef.after (M.wp_require.mpr ⟨rfl, M.Undef.after (M.wp_require.mpr ⟨rfl, M.Undef.after (M.wp_require.mpr ⟨rfl,
    M.Undef.after (M.wp_require.mpr ⟨rfl, M.Undef.after (M.wp_require.mpr ⟨rfl, ?_⟩)⟩)⟩)⟩)⟩)
  refine M.Undef.after (M.wp_mono (spmmScale_spec (C := fun _ _ => 0) (by norm_num) (by norm_num) (by simp [LdOk, rowsOf, colsOf])
    (by simp [LdOk]) (fun i j hij => by show Buf.fill (2 ^ 31) 0 _ ≠ _; rw [hC i j hij]; simp) (fun _ => hC)) ?_)
  intro _ b' hM
  have hk : (cscLeftKib [] 2 (1 : ℤ) (2 ^ 31) 1 1 tallCsc (Buf.ofList [1]) 1 1 b').1 = .ub := rfl
  exact hk

end RB
