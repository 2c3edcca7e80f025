import Verif.Lemmas.SpmmRun
import Verif.Core.Wlp
import Verif.Props.DenseSparse

/-!
# Sparse-dense products (C31-C35, C42 for left_spmm, C48, C51)
-/

namespace RB
open Spec

variable {T : Type}

/-! ## C31 -/

/-- C31. `left_spmm` sets every entry of C to `alpha * (op(submat(A)) * op(B)) + beta * C`, changes nothing outside C, and leaves an object
that stores the same entries as before (a COO object possibly in another order, but ordered as its flag says).

Missing: the cases excluded by `Supported`, in which the code does something else (see the counterexamples below; for COO matrices and the column
kernels of compressed matrices, SpmmExact.lean shows that all excluded cases with `n ≥ 1` are undefined). B is not read if
`alpha = 0`; C need not be initialised if `beta = 0`. -/
theorem C31_left_spmm_partial [CommRing T] [DecidableEq T] {env : Env T} (henv : EnvOk env) {A : SpMat T} {E : List (Entry T)}
    (h : SpHolds A E) (hb : spBase A = .Zero) (hr : InRange (spRows A) (spCols A) E) {layout : Layout} {opA opB : Op} {d n m ro co : Int}
    {alpha beta : T} {B b : Buf T} {ldb ldc : Int} {Bm C : Int → Int → T}
    (hK : alpha ≠ 0 → Supported A opA layout opB d m (opEntries opA (window ro co (rowsOf opA d m) (colsOf opA d m) E)))
    (hw : WindowOk A (rowsOf opA d m) (colsOf opA d m) ro co) (hd : 0 ≤ d) (hn : 0 ≤ n) (hm : 0 ≤ m)
    (hldb : LdOk layout ldb (rowsOf opB m n) (colsOf opB m n)) (hldc : LdOk layout ldc d n)
    (hB : alpha ≠ 0 → Holds B layout ldb (rowsOf opB m n) (colsOf opB m n) Bm)
    (hal : Alloc b layout ldc d n) (hC : beta ≠ 0 → Holds b layout ldc d n C) :
    M.wp (leftSpmm env layout opA opB d n m alpha ro co B ldb beta ldc) (A, b) (fun _ s' =>
      Holds s'.2 layout ldc d n (fun i j => alpha * prodEntry m (opMat opA (subMat ro co (toMat E))) (opMat opB Bm) i j + beta * C i j) ∧
      SameOutside b s'.2 layout ldc d n ∧ SameObject A s'.1 ∧ ∃ E', SpHolds s'.1 E' ∧ E'.Perm E) := by
  obtain ⟨s, E1, A', h1, h2, h3, h4, E2, h5, h6⟩ := leftSpmm_run henv.srt h hb hr layout opA opB alpha
  refine M.wp_mono (h6 (fun ha => hK (by simpa using ha)) hw hd hn hm hldb hldc (fun ha => hB (by simpa using ha)) hal
    (fun hb => hC (by simpa using hb)) env.sched env.nt henv.nt) ?_
  rintro _ s' ⟨rfl, hM⟩
  refine ⟨fun i j hij => ?_, hM.sameOutside, h4, E1, h3, h2⟩
  rw [hM.cells i j hij, prodVal_eq h1 ⟨hij.1, hij.2.1⟩, subMat_perm h5]

/-- A sort function. -/
def exSrt : (Int × Int × ℤ → Int × Int × ℤ → Bool) → List (Int × Int × ℤ) → List (Int × Int × ℤ) := fun lt l => l.mergeSort fun a b => !lt b a

/-- An environment with four threads and some interleaving. -/
def exEnv : Env ℤ := ⟨exSrt, [2, 0, 0, 1, 2, 1], 4⟩

theorem exEnv_ok : EnvOk exEnv := ⟨mergeSort_sortOk, by decide⟩

/-- The hypotheses of C31 are met by the product of the transpose of a window of an unsorted COO matrix with duplicates and a
2 x 2 matrix (`op(submat(A))` is 3 x 2). -/
example : EnvOk exEnv ∧ SpHolds (.coo (cooOf 3 3 .Zero sampleE)) sampleE ∧ InRange 3 3 sampleE ∧
    Supported (.coo (cooOf 3 3 .Zero sampleE)) .Trans .ColMajor .NoTrans 3 2 (opEntries .Trans (window 1 0 2 3 sampleE)) ∧
    WindowOk (.coo (cooOf 3 3 .Zero sampleE)) 2 3 1 0 ∧ Holds (Buf.ofList [1, 2, 3, 4]) .ColMajor 2 2 2 (fun i j => 1 + i + 2 * j) ∧
    Alloc (Buf.alloc ℤ 6) .ColMajor 3 3 2 := by
  refine ⟨exEnv_ok, ⟨cooOf_is _ _ _ _, trivial⟩, by simp [InRange, sampleE], Or.inl ⟨by decide, fun _ _ => ?_⟩, by simp [WindowOk, cooOf], ?_, ?_⟩
  · exact ⟨⟨2, 1, 5⟩, by decide, by decide⟩
  · intro i j hij
    obtain ⟨h1, h2, h3, h4⟩ := hij
    obtain rfl | rfl : i = 0 ∨ i = 1 := by omega
    all_goals obtain rfl | rfl : j = 0 ∨ j = 1 := by omega
    all_goals rfl
  · intro i j hij
    simp only [InR] at hij
    have : 0 ≤ addr .ColMajor 3 i j ∧ addr .ColMajor 3 i j < 6 := by simp only [addr]; omega
    simp only [Buf.alloc]
    rw [if_pos this]; simp

example : SpHolds (.csc (cscOf 3 3 [0, 1, 1, 3] sampleC)) sampleC ∧
    Supported (.csc (cscOf 3 3 [0, 1, 1, 3] sampleC)) .NoTrans .ColMajor .NoTrans 3 3 sampleC ∧
    Supported (.csc (cscOf 3 3 [0, 1, 1, 3] sampleC)) .NoTrans .RowMajor .NoTrans 3 3 sampleC ∧
    WindowOk (.csc (cscOf 3 3 [0, 1, 1, 3] sampleC)) 3 3 0 0 :=
  ⟨sampleC_is, ⟨by decide, fun _ _ => ⟨⟨0, 2, 7⟩, by decide, by decide⟩⟩, by norm_num [Supported], by simp [WindowOk, cscOf]⟩

/-- C31 is false without the restriction on the columns: for the well-formed CSC matrix [5 0], the column-major product with a 2 x 1
matrix accesses memory out of bounds. -/
theorem C31_first_column_counterexample :
    CscIs (cscOf 1 2 [0, 1, 1] [⟨0, 0, (5 : ℤ)⟩]) [⟨0, 0, 5⟩] ∧ InRange 1 2 [(⟨0, 0, 5⟩ : Entry ℤ)] ∧
    (leftSpmm exEnv .ColMajor .NoTrans .NoTrans 1 1 2 1 0 0 (Buf.ofList [1, 1]) 2 0 1
      (.csc (cscOf 1 2 [0, 1, 1] [⟨0, 0, (5 : ℤ)⟩]), Buf.ofList [0])).1 = .ub := by
  refine ⟨⟨rfl, csIs_ofList (n := 2) rfl rfl rfl (by decide) (by decide)⟩, by simp [InRange], rfl⟩

/-- The same for a COO matrix. -/
theorem C31_first_column_coo_counterexample :
    (leftSpmm exEnv .ColMajor .NoTrans .NoTrans 1 1 2 1 0 0 (Buf.ofList [1, 1]) 2 0 1
      (.coo { cooOf 1 2 .Zero [⟨0, 0, (5 : ℤ)⟩] with sort := .CSC }, Buf.ofList [0])).1 = .ub := rfl

/-- A product with inner dimension 0 accesses memory out of bounds for CSC matrices. (The result should be `beta * C`.) -/
theorem C31_empty_inner_counterexample :
    CscIs (cscOf 1 0 [0] ([] : List (Entry ℤ))) [] ∧
    (leftSpmm exEnv .ColMajor .NoTrans .NoTrans 1 1 0 1 0 0 (Buf.ofList []) 1 0 1
      (.csc (cscOf 1 0 [0] ([] : List (Entry ℤ))), Buf.ofList [0])).1 = .ub := by
  refine ⟨⟨rfl, csIs_ofList (n := 0) (pt := [0]) (E := []) rfl rfl rfl (by simp) (by simp)⟩, rfl⟩

/-- The CSR column kernel stores column indices in an `int`: a matrix with more than 2^31 columns makes it read out of bounds. -/
theorem C31_csr_int_counterexample : CsrIs wideCsr [⟨0, 2 ^ 31, 1⟩] ∧
    (leftSpmm exEnv .ColMajor .NoTrans .NoTrans 1 1 (2 ^ 31 + 1) 1 0 0 (Buf.fill (2 ^ 31 + 1) 1) (2 ^ 31 + 1) 0 1
      (.csr wideCsr, Buf.ofList [0])).1 = .ub :=
  ⟨wideCsr_is, rfl⟩

/-- A CSC matrix with 2^31 rows and the single entry 1 in its first row. -/
def tallCsc : CscMat ℤ := cscOf (2 ^ 31) 1 [0, 1] [⟨0, 0, 1⟩]

/-- The row-major CSC kernel computes its row blocks in `int`: with 2^31 rows and one thread, the product of `tallCsc` with the 1 x 1
matrix [1], added to zero, leaves 0 in the first entry of C, where 1 is the correct value. -/
theorem C31_csc_int_counterexample : CscIs tallCsc [⟨0, 0, 1⟩] ∧ InRange tallCsc.nRows tallCsc.nCols [(⟨0, 0, 1⟩ : Entry ℤ)] ∧
    M.wp (leftSpmm ⟨exSrt, [], 1⟩ .RowMajor .NoTrans .NoTrans (2 ^ 31) 1 1 1 0 0 (Buf.ofList [1]) 1 1 1) (.csc tallCsc, Buf.fill (2 ^ 31) 0)
      (fun _ s' => s'.2 0 = .val 0) := by
  refine ⟨⟨rfl, csIs_ofList (n := 1) (pt := [0, 1]) (E := [⟨0, 0, 1⟩]) rfl rfl rfl (by decide) (by decide)⟩, by simp [InRange, tallCsc, cscOf], ?_⟩
  have hC : Holds (Buf.fill (2 ^ 31) (0 : ℤ)) .RowMajor 1 (2 ^ 31) 1 (fun _ _ => 0) := by
    intro i j hij
    simp only [InR] at hij
    have : 0 ≤ addr .RowMajor 1 i j ∧ addr .RowMajor 1 i j < 2 ^ 31 := by simp only [addr]; omega
    simp only [Buf.fill]
    rw [if_pos this]
  unfold leftSpmm
  rw [M.wp_bind, M.wp_get]
  simp only [onC, M.wp_zoom]
  unfold leftSpmmCscN
  simp only [M.wp_bind, M.wp_require]
  refine ⟨rfl, rfl, rfl, trivial, trivial, M.wp_mono (spmmScale_spec (C := fun _ _ => 0) (by norm_num) (by norm_num) (by simp [LdOk, rowsOf, colsOf])
    (by simp [LdOk]) (fun i j hij => by rw [hC i j hij]; simp) (fun _ => hC)) ?_⟩
  intro _ b' hM
  have hk : cscLeftKib [] 1 (1 : ℤ) (2 ^ 31) 1 1 tallCsc (Buf.ofList [1]) 1 1 b' = (.ok (), b') := rfl
  have h0 : b' 0 = .val 0 := by
    have := hM.cells 0 0 ⟨le_rfl, by norm_num, le_rfl, by norm_num⟩
    simpa [addr] using this
  exact ⟨_, _, hk, h0⟩

/-! ## C32 -/

theorem opEntries_flip_window {opB : Op} {iOff jOff d n : Int} {E : List (Entry T)} :
    window iOff jOff (rowsOf opB.flip d n) (colsOf opB.flip d n) E = window iOff jOff (rowsOf opB n d) (colsOf opB n d) E := by
  cases opB <;> rfl

/-- C32. `right_spmm` sets every entry of the m x d matrix C to `alpha * (op(A) * op(submat(B))) + beta * C`, where B is sparse, changes
nothing outside C and leaves an object that stores the same entries.

Missing: the cases excluded by `Supported` for the product of the transposes. -/
theorem C32_right_spmm_partial [CommRing T] [DecidableEq T] {env : Env T} (henv : EnvOk env) {B : SpMat T} {E : List (Entry T)}
    (h : SpHolds B E) (hb : spBase B = .Zero) (hr : InRange (spRows B) (spCols B) E) {layout : Layout} {opA opB : Op} {m d n iOff jOff : Int}
    {alpha beta : T} {A b : Buf T} {lda ldc : Int} {Am C : Int → Int → T}
    (hK : alpha ≠ 0 → Supported B opB.flip layout.flip opA d n (opEntries opB.flip (window iOff jOff (rowsOf opB n d) (colsOf opB n d) E)))
    (hw : WindowOk B (rowsOf opB n d) (colsOf opB n d) iOff jOff) (hm : 0 ≤ m) (hd : 0 ≤ d) (hn : 0 ≤ n)
    (hlda : LdOk layout lda (rowsOf opA m n) (colsOf opA m n)) (hldc : LdOk layout ldc m d)
    (hA : alpha ≠ 0 → Holds A layout lda (rowsOf opA m n) (colsOf opA m n) Am)
    (hal : Alloc b layout ldc m d) (hC : beta ≠ 0 → Holds b layout ldc m d C) :
    M.wp (rightSpmm env layout opA opB m d n alpha A lda iOff jOff beta ldc) (B, b) (fun _ s' =>
      Holds s'.2 layout ldc m d (fun i j => alpha * prodEntry n (opMat opA Am) (opMat opB (subMat iOff jOff (toMat E))) i j + beta * C i j) ∧
      SameOutside b s'.2 layout ldc m d ∧ SameObject B s'.1 ∧ ∃ E', SpHolds s'.1 E' ∧ E'.Perm E) := by
  have hfl : ∀ {b : Buf T} {ld m n : Int} {A : Int → Int → T}, Holds b layout.flip ld m n A ↔ Holds b layout ld n m (fun i j => A j i) := by
    intro b ld m n A
    constructor
    · intro h i j hij
      rw [← addr_flip]; exact h j i ⟨hij.2.2.1, hij.2.2.2, hij.1, hij.2.1⟩
    · intro h i j hij
      rw [addr_flip]; exact h j i ⟨hij.2.2.1, hij.2.2.2, hij.1, hij.2.1⟩
  have hro : rowsOf opA n m = colsOf opA m n := by cases opA <;> rfl
  have hco : colsOf opA n m = rowsOf opA m n := by cases opA <;> rfl
  have hldf : ∀ {ld r c : Int}, LdOk layout ld r c → LdOk layout.flip ld c r := by intro ld r c h; cases layout <;> exact h
  have hl := C31_left_spmm_partial henv h hb hr (layout := layout.flip) (opA := opB.flip) (opB := opA) (d := d) (n := m) (m := n) (ro := iOff)
    (co := jOff) (alpha := alpha) (beta := beta) (B := A) (b := b) (ldb := lda) (ldc := ldc) (Bm := fun i j => Am j i) (C := fun i j => C j i)
    (by rw [opEntries_flip_window]; exact hK) (by cases opB <;> exact hw) hd hm hn (by rw [hro, hco]; exact hldf hlda) (hldf hldc)
    (fun ha => by rw [hro, hco, hfl]; exact hA ha)
    (fun i j hij => by rw [addr_flip]; exact hal j i ⟨hij.2.2.1, hij.2.2.2, hij.1, hij.2.1⟩)
    (fun hb => by rw [hfl]; exact hC hb)
  unfold rightSpmm
  refine M.wp_mono hl ?_
  rintro _ s' ⟨h1, h2, h3, h4⟩
  refine ⟨?_, ?_, h3, h4⟩
  · rw [hfl] at h1
    intro i j hij
    rw [h1 i j hij]
    have : prodEntry n (opMat opB.flip (subMat iOff jOff (toMat E))) (opMat opA fun i j => Am j i) j i =
        prodEntry n (opMat opA Am) (opMat opB (subMat iOff jOff (toMat E))) i j := by
      unfold prodEntry
      refine Finset.sum_congr rfl fun k _ => ?_
      rw [mul_comm]
      cases opA <;> cases opB <;> rfl
    beta_reduce
    rw [this]
  · intro p hp
    refine h2 p fun i j hij => ?_
    rw [addr_flip]; exact hp j i ⟨hij.2.2.1, hij.2.2.2, hij.1, hij.2.1⟩

/-- The hypotheses of C32 are met by the row-major product of a 2 x 3 matrix with a 3 x 3 CSC matrix. -/
example : Supported (.csc (cscOf 3 3 [0, 1, 1, 3] sampleC)) Op.NoTrans.flip Layout.RowMajor.flip .NoTrans 3 3
      (opEntries .Trans (window 0 0 3 3 sampleC)) ∧ WindowOk (.csc (cscOf 3 3 [0, 1, 1, 3] sampleC)) 3 3 0 0 ∧
    Holds (Buf.ofList ([1, 2, 3, 4, 5, 6] : List ℤ)) .RowMajor 3 2 3 (fun i j => 1 + 3 * i + j) := by
  refine ⟨by norm_num [Supported, Op.flip, Layout.flip, opEntries, sampleC, window, Entry.swap], by simp [WindowOk, cscOf], ?_⟩
  intro i j hij
  obtain ⟨h1, h2, h3, h4⟩ := hij
  obtain rfl | rfl : i = 0 ∨ i = 1 := by omega
  all_goals obtain rfl | rfl | rfl : j = 0 ∨ j = 1 ∨ j = 2 := by omega
  all_goals rfl

/-! ## C33 -/

/-- C33. For every two schedules (interleavings of the memory accesses of the parallel loops) and thread counts, `left_spmm` ends in the same
state: no entry of C and no array of A differs. No law is assumed of the operations on `T`, so this holds for floating-point numbers. -/
theorem C33_schedule_irrelevant_partial [Zero T] [One T] [Add T] [Mul T] [BEq T]
    {srt : (Int × Int × T → Int × Int × T → Bool) → List (Int × Int × T) → List (Int × Int × T)} (hsrt : SortOk srt)
    {sched sched' : List Nat} {nt nt' : Int} (hnt : 1 ≤ nt ∧ nt ≤ 2 ^ 30) (hnt' : 1 ≤ nt' ∧ nt' ≤ 2 ^ 30) {A : SpMat T} {E : List (Entry T)}
    (h : SpHolds A E) (hb : spBase A = .Zero) (hr : InRange (spRows A) (spCols A) E) {layout : Layout} {opA opB : Op} {d n m ro co : Int}
    {alpha beta : T} {B b : Buf T} {ldb ldc : Int} {Bm C : Int → Int → T}
    (hK : (alpha == 0) = false → Supported A opA layout opB d m (opEntries opA (window ro co (rowsOf opA d m) (colsOf opA d m) E)))
    (hw : WindowOk A (rowsOf opA d m) (colsOf opA d m) ro co) (hd : 0 ≤ d) (hn : 0 ≤ n) (hm : 0 ≤ m)
    (hldb : LdOk layout ldb (rowsOf opB m n) (colsOf opB m n)) (hldc : LdOk layout ldc d n)
    (hB : (alpha == 0) = false → Holds B layout ldb (rowsOf opB m n) (colsOf opB m n) Bm)
    (hal : Alloc b layout ldc d n) (hC : (beta == 0) = false → Holds b layout ldc d n C) :
    ∃ s', leftSpmm ⟨srt, sched, nt⟩ layout opA opB d n m alpha ro co B ldb beta ldc (A, b) = (.ok (), s') ∧
      leftSpmm ⟨srt, sched', nt'⟩ layout opA opB d n m alpha ro co B ldb beta ldc (A, b) = (.ok (), s') := by
  obtain ⟨s, E1, A', h1, h2, h3, h4, E2, h5, h6⟩ := leftSpmm_run hsrt h hb hr layout opA opB alpha
  obtain ⟨_, s1, e1, g1, k1⟩ := h6 hK hw hd hn hm hldb hldc hB hal hC sched nt hnt
  obtain ⟨_, s2, e2, g2, k2⟩ := h6 hK hw hd hn hm hldb hldc hB hal hC sched' nt' hnt'
  have : s1 = s2 := Prod.ext (by rw [g1, g2]) (k1.unique k2)
  subst this
  exact ⟨s1, e1, e2⟩

/-! ## C34 -/

/-- C34. With `beta = 0` the result does not depend on what C contained, which may be uninitialised: there is one result for all initial
buffers. -/
theorem C34_beta_zero_partial [Zero T] [One T] [Add T] [Mul T] [BEq T] {env : Env T} (henv : EnvOk env) {A : SpMat T} {E : List (Entry T)}
    (h : SpHolds A E) (hb : spBase A = .Zero) (hr : InRange (spRows A) (spCols A) E) {layout : Layout} {opA opB : Op} {d n m ro co : Int}
    {alpha beta : T} (hbeta : (beta == 0) = true) {B : Buf T} {ldb ldc : Int} {Bm : Int → Int → T}
    (hK : (alpha == 0) = false → Supported A opA layout opB d m (opEntries opA (window ro co (rowsOf opA d m) (colsOf opA d m) E)))
    (hw : WindowOk A (rowsOf opA d m) (colsOf opA d m) ro co) (hd : 0 ≤ d) (hn : 0 ≤ n) (hm : 0 ≤ m)
    (hldb : LdOk layout ldb (rowsOf opB m n) (colsOf opB m n)) (hldc : LdOk layout ldc d n)
    (hB : (alpha == 0) = false → Holds B layout ldb (rowsOf opB m n) (colsOf opB m n) Bm) :
    ∃ R : Int → Int → T, ∀ b : Buf T, Alloc b layout ldc d n →
      M.wp (leftSpmm env layout opA opB d n m alpha ro co B ldb beta ldc) (A, b) (fun _ s' => Holds s'.2 layout ldc d n R) := by
  obtain ⟨s, E1, A', h1, h2, h3, h4, E2, h5, h6⟩ := leftSpmm_run henv.srt h hb hr layout opA opB alpha
  refine ⟨fun i j => prodVal alpha beta s (opEntries opA (window ro co (rowsOf opA d m) (colsOf opA d m) E2)) (opMat opB Bm) (fun _ _ => 0) i j, ?_⟩
  intro b hal
  refine M.wp_mono (h6 hK hw hd hn hm hldb hldc hB hal (C := fun _ _ => 0) (fun hf => by rw [hbeta] at hf; cases hf) env.sched env.nt henv.nt) ?_
  rintro _ s' ⟨-, hM⟩
  exact fun i j hij => hM.cells i j hij

/-- C34. With `alpha = 0` the result is `beta * C` (0 if `beta = 0`), whatever B is and whatever the arrays of A contain: nothing is assumed
about them (they need not exist), and A is unchanged. -/
theorem C34_alpha_zero [Zero T] [One T] [Add T] [Mul T] [BEq T] (env : Env T) {A : SpMat T} (hb : spBase A = .Zero)
    {layout : Layout} {opA opB : Op} {d n m ro co : Int} {alpha beta : T} (halpha : (alpha == 0) = true) (B : Buf T) {b : Buf T} {ldb ldc : Int}
    {C : Int → Int → T} (hw : WindowOk A (rowsOf opA d m) (colsOf opA d m) ro co) (hd : 0 ≤ d) (hn : 0 ≤ n)
    (hldb : LdOk layout ldb (rowsOf opB m n) (colsOf opB m n)) (hldc : LdOk layout ldc d n)
    (hal : Alloc b layout ldc d n) (hC : (beta == 0) = false → Holds b layout ldc d n C) :
    M.wp (leftSpmm env layout opA opB d n m alpha ro co B ldb beta ldc) (A, b) (fun _ s' => s'.1 = A ∧
      Holds s'.2 layout ldc d n (fun i j => if beta == 0 then 0 else beta * C i j) ∧ SameOutside b s'.2 layout ldc d n) := by
  have hsc := spmmScale_spec (opB := opB) hd hn hldb hldc hal hC
  unfold leftSpmm
  rw [M.wp_bind, M.wp_get]
  cases A with
  | coo A =>
    cases opA with
    | NoTrans =>
      simp only [asCoo, leftSpmmCooN, M.wp_zoom, M.wp_bind, M.wp_get, M.wp_require, onC]
      refine ⟨hb, hw.1, hw.2, M.wp_mono hsc ?_⟩
      intro _ b' hM
      rw [if_pos halpha, M.wp_pure]
      exact ⟨rfl, hM.holds, hM.sameOutside⟩
    | Trans =>
      have ht : ∃ At, cooTranspose A = .ok At ∧ At.indexBase = A.indexBase ∧ At.nRows = A.nCols ∧ At.nCols = A.nRows ∧ At.vals = A.vals ∧
          At.rows = A.cols ∧ At.cols = A.rows := by
        obtain ⟨a, b, c, d, e, v, r, cl, s⟩ := A
        cases s <;> exact ⟨_, rfl, rfl, rfl, rfl, rfl, rfl, rfl⟩
      obtain ⟨At, h1, h2, h3, h4, h5, h6, h7⟩ := ht
      simp only [asCooT, leftSpmmCooN, M.wp_zoom, M.wp_bind, M.wp_lift, M.wp_get, M.wp_require, onC]
      refine ⟨At, h1, by rw [h2]; exact hb, by rw [h3]; exact hw.2, by rw [h4]; exact hw.1, M.wp_mono hsc ?_⟩
      intro _ b' hM
      rw [if_pos halpha, M.wp_pure]
      refine ⟨?_, hM.holds, hM.sameOutside⟩
      simp only [h5, h6, h7]
  | csc A =>
    cases opA with
    | NoTrans =>
      obtain ⟨h1, h2, h3, h4⟩ := hw
      simp only [leftSpmmCscN, M.wp_zoom, M.wp_bind, M.wp_require, onC]
      refine ⟨hb, h1, h2, h3, h4, M.wp_mono hsc ?_⟩
      intro _ b' hM
      rw [if_pos halpha, M.wp_pure]
      exact ⟨trivial, hM.holds, hM.sameOutside⟩
    | Trans =>
      obtain ⟨h1, h2, h3, h4⟩ := hw
      simp only [leftSpmmCsrN, M.wp_zoom, M.wp_bind, M.wp_require, onC, M.wp_lift]
      refine ⟨_, rfl, hb, h2, h1, h4, h3, M.wp_mono hsc ?_⟩
      intro _ b' hM
      rw [if_pos halpha, M.wp_pure]
      exact ⟨trivial, hM.holds, hM.sameOutside⟩
  | csr A =>
    cases opA with
    | NoTrans =>
      obtain ⟨h1, h2, h3, h4⟩ := hw
      simp only [leftSpmmCsrN, M.wp_zoom, M.wp_bind, M.wp_require, onC]
      refine ⟨hb, h1, h2, h3, h4, M.wp_mono hsc ?_⟩
      intro _ b' hM
      rw [if_pos halpha, M.wp_pure]
      exact ⟨trivial, hM.holds, hM.sameOutside⟩
    | Trans =>
      obtain ⟨h1, h2, h3, h4⟩ := hw
      simp only [leftSpmmCscN, M.wp_zoom, M.wp_bind, M.wp_require, onC, M.wp_lift]
      refine ⟨_, rfl, hb, h2, h1, h4, h3, M.wp_mono hsc ?_⟩
      intro _ b' hM
      rw [if_pos halpha, M.wp_pure]
      exact ⟨trivial, hM.holds, hM.sameOutside⟩

/-- The hypotheses of C34 (`alpha = 0`) are met by an object without arrays and an uninitialised C. -/
example : WindowOk (.csc (mkCsc 2 3 : CscMat ℤ)) 2 3 0 0 ∧ spBase (.csc (mkCsc 2 3 : CscMat ℤ)) = .Zero ∧ Alloc (Buf.alloc ℤ 4) .RowMajor 2 2 2 := by
  refine ⟨by simp [WindowOk, mkCsc], rfl, ?_⟩
  intro i j hij
  simp only [InR] at hij
  have : 0 ≤ addr .RowMajor 2 i j ∧ addr .RowMajor 2 i j < 4 := by simp only [addr]; omega
  simp only [Buf.alloc]
  rw [if_pos this]; simp

/-! ## C35 -/

/-- C35. The row blocks `[q t, q (t + 1))` computed for the threads `0 .. nt - 1` contain every row exactly once.

Missing: 2^31 rows or more, for which the blocks are computed in a type that is too small (see `C31_csc_int_counterexample`). -/
theorem C35_blocks_partial {nt d : Int} (h1 : 1 ≤ nt) (h2 : nt ≤ 2 ^ 30) (h3 : 0 ≤ d) (h4 : d < 2 ^ 31) :
    M.wp (blockBounds nt d) (Buf.fill (nt + 1) 0) (fun _ bb => ∃ q : Int → Int, (∀ t, 0 ≤ t → t ≤ nt → bb t = .val (q t)) ∧
      (∀ t, 0 ≤ t → t < nt → 0 ≤ q t ∧ q t ≤ q (t + 1)) ∧
      ∀ i, 0 ≤ i → i < d → ∃! t, (0 ≤ t ∧ t < nt) ∧ q t ≤ i ∧ i < q (t + 1)) := by
  refine M.wp_mono (blockBounds_spec h1 h2 h3 h4) ?_
  rintro _ bb ⟨q, hq, hbb⟩
  refine ⟨q, hbb, fun t t0 t1 => ⟨?_, hq.mono t t0 t1⟩, fun i i0 i1 => hq.unique h1 i0 i1⟩
  have := hq.le le_rfl t0 (by omega)
  rw [hq.zero] at this; exact this

/-- With more threads than rows some blocks are empty or end beyond the last row; with 2^31 rows and one thread no row is in the block. -/
theorem C35_int_counterexample : (blockBounds 1 (2 ^ 31) (Buf.fill 2 0)).1 = .ok () ∧ (blockBounds 1 (2 ^ 31) (Buf.fill 2 0)).2 0 = .val 0 ∧
    (blockBounds 1 (2 ^ 31) (Buf.fill 2 0)).2 1 = .val (-2 ^ 31) := ⟨rfl, rfl, rfl⟩

/-! ## C42 for `left_spmm` -/

/-- C42 (products). If the index base, the dimensions, the offsets or a leading dimension are not acceptable, `left_spmm` raises an error and
changes nothing. -/
theorem C42_left_spmm [Zero T] [One T] [Add T] [Mul T] [BEq T] (env : Env T) (A : SpMat T) (layout : Layout) (opA opB : Op)
    (d n m ro co : Int) (alpha beta : T) (B b : Buf T) (ldb ldc : Int)
    (h : ¬ (spBase A = .Zero ∧ WindowOk A (rowsOf opA d m) (colsOf opA d m) ro co ∧ LdOk layout ldb (rowsOf opB m n) (colsOf opB m n) ∧
      LdOk layout ldc d n)) :
    leftSpmm env layout opA opB d n m alpha ro co B ldb beta ldc (A, b) = (.throw .require, (A, b)) := by
  have hrow : (if opB = .NoTrans then m else n) = rowsOf opB m n := by cases opB <;> simp [rowsOf]
  have hcol : (if opB = .NoTrans then n else m) = colsOf opB m n := by cases opB <;> simp [colsOf]
  have hsc : ∀ Q, ¬ (LdOk layout ldb (rowsOf opB m n) (colsOf opB m n) ∧ LdOk layout ldc d n) →
      M.wpx (spmmScale layout opB d n m ldb beta ldc) b Q (fun e b' => e = .require ∧ b' = b) := by
    intro Q hn
    unfold spmmScale
    rw [hrow, hcol]
    cases layout with
    | ColMajor =>
      rw [if_pos rfl]
      simp only [M.wpx_bind, M.wpx_require]
      exact ⟨fun h1 => ⟨fun h2 => absurd ⟨h1, h2⟩ hn, fun _ => (by simp)⟩, fun _ => (by simp)⟩
    | RowMajor =>
      rw [if_neg (by simp)]
      simp only [M.wpx_bind, M.wpx_require]
      exact ⟨fun h1 => ⟨fun h2 => absurd ⟨h2, h1⟩ hn, fun _ => (by simp)⟩, fun _ => (by simp)⟩
  apply M.eq_throw_of_wpx
  unfold leftSpmm
  rw [M.wpx_bind, M.wpx_get]
  cases A with
  | coo A =>
    cases opA with
    | NoTrans =>
      simp only [asCoo, leftSpmmCooN, M.wpx_zoom, M.wpx_bind, M.wpx_get, M.wpx_require, onC]
      refine ⟨fun h1 => ⟨fun h2 => ⟨fun h3 => ?_, fun _ => (by simp)⟩, fun _ => (by simp)⟩, fun _ => (by simp)⟩
      exact M.wpx_mono (hsc _ fun h4 => h ⟨h1, ⟨h2, h3⟩, h4⟩) (fun _ _ h => h) (by rintro _ _ ⟨rfl, rfl⟩; exact ⟨rfl, rfl⟩)
    | Trans =>
      have ht : ∃ At, cooTranspose A = .ok At ∧ At.indexBase = A.indexBase ∧ At.nRows = A.nCols ∧ At.nCols = A.nRows ∧ At.vals = A.vals ∧
          At.rows = A.cols ∧ At.cols = A.rows := by
        obtain ⟨a, b, c, d, e, v, r, cl, s⟩ := A
        cases s <;> exact ⟨_, rfl, rfl, rfl, rfl, rfl, rfl, rfl⟩
      obtain ⟨At, h1, h2, h3, h4, h5, h6, h7⟩ := ht
      simp only [asCooT, leftSpmmCooN, M.wpx_zoom, M.wpx_bind, M.wpx_get, M.wpx_require, onC, M.wpx_lift, h1, h2, h3, h4, h5, h6, h7]
      refine ⟨fun h1 => ⟨fun h2 => ⟨fun h3 => ?_, fun _ => (by simp)⟩, fun _ => (by simp)⟩, fun _ => (by simp)⟩
      exact M.wpx_mono (hsc _ fun h4 => h ⟨h1, ⟨h3, h2⟩, h4⟩) (fun _ _ h => h) (by rintro _ _ ⟨rfl, rfl⟩; exact ⟨rfl, rfl⟩)
  | csc A =>
    cases opA with
    | NoTrans =>
      simp only [leftSpmmCscN, M.wpx_zoom, M.wpx_bind, M.wpx_require, onC]
      refine ⟨fun h1 => ⟨fun h2 => ⟨fun h3 => ⟨fun h4 => ⟨fun h5 => ?_, fun _ => (by simp)⟩, fun _ => (by simp)⟩, fun _ => (by simp)⟩,
        fun _ => (by simp)⟩, fun _ => (by simp)⟩
      exact M.wpx_mono (hsc _ fun h6 => h ⟨h1, ⟨h2, h3, h4, h5⟩, h6⟩) (fun _ _ h => h) (by rintro _ _ ⟨rfl, rfl⟩; exact ⟨rfl, rfl⟩)
    | Trans =>
      simp only [leftSpmmCsrN, M.wpx_zoom, M.wpx_bind, M.wpx_require, onC, M.wpx_lift, transposeAsCsr, if_true, mkCsrExpert]
      refine ⟨fun h1 => ⟨fun h2 => ⟨fun h3 => ⟨fun h4 => ⟨fun h5 => ?_, fun _ => (by simp)⟩, fun _ => (by simp)⟩, fun _ => (by simp)⟩,
        fun _ => (by simp)⟩, fun _ => (by simp)⟩
      exact M.wpx_mono (hsc _ fun h6 => h ⟨h1, ⟨h3, h2, h5, h4⟩, h6⟩) (fun _ _ h => h) (by rintro _ _ ⟨rfl, rfl⟩; exact ⟨rfl, rfl⟩)
  | csr A =>
    cases opA with
    | NoTrans =>
      simp only [leftSpmmCsrN, M.wpx_zoom, M.wpx_bind, M.wpx_require, onC]
      refine ⟨fun h1 => ⟨fun h2 => ⟨fun h3 => ⟨fun h4 => ⟨fun h5 => ?_, fun _ => (by simp)⟩, fun _ => (by simp)⟩, fun _ => (by simp)⟩,
        fun _ => (by simp)⟩, fun _ => (by simp)⟩
      exact M.wpx_mono (hsc _ fun h6 => h ⟨h1, ⟨h2, h3, h4, h5⟩, h6⟩) (fun _ _ h => h) (by rintro _ _ ⟨rfl, rfl⟩; exact ⟨rfl, rfl⟩)
    | Trans =>
      simp only [leftSpmmCscN, M.wpx_zoom, M.wpx_bind, M.wpx_require, onC, M.wpx_lift, transposeAsCsc, if_true, mkCscExpert]
      refine ⟨fun h1 => ⟨fun h2 => ⟨fun h3 => ⟨fun h4 => ⟨fun h5 => ?_, fun _ => (by simp)⟩, fun _ => (by simp)⟩, fun _ => (by simp)⟩,
        fun _ => (by simp)⟩, fun _ => (by simp)⟩
      exact M.wpx_mono (hsc _ fun h6 => h ⟨h1, ⟨h3, h2, h5, h4⟩, h6⟩) (fun _ _ h => h) (by rintro _ _ ⟨rfl, rfl⟩; exact ⟨rfl, rfl⟩)

example : ¬ LdOk .ColMajor 1 2 3 ∧ ¬ WindowOk (.csc (mkCsc 2 3 : CscMat ℤ)) 2 3 0 1 := by simp [LdOk, WindowOk]

/-! ## C48 -/

theorem cooLeftJki_keeps [Zero T] [Add T] [Mul T] {E : List (Entry T)} {A : CooMat T}
    {srt : (Int × Int × T → Int × Int × T → Bool) → List (Int × Int × T) → List (Int × Int × T)} (hsrt : SortOk srt)
    (h : CooIs A E) (hs : SortedBy A.sort E) (sched : List Nat) (alpha : T) (layoutB layoutC : Layout) (d n m ro co : Int) (B b : Buf T)
    (ldb ldc : Int) :
    M.wlp (cooLeftJki srt sched alpha layoutB layoutC d n m ro co B ldb ldc) (A, b)
      (fun _ s' => SameObject (.coo A) (.coo s'.1) ∧ ∃ E', SpHolds (.coo s'.1) E' ∧ E'.Perm E)
      (fun _ s' => ∃ E', SpHolds (.coo s'.1) E' ∧ E'.Perm E) := by
  have hself : SameObject (.coo A) (.coo A) ∧ ∃ E', SpHolds (.coo A) E' ∧ E'.Perm E := ⟨⟨rfl, rfl, rfl, rfl, rfl, rfl⟩, E, ⟨h, hs⟩, .refl _⟩
  unfold cooLeftJki
  rw [M.wlp_bind, M.wlp_get, M.wlp_bind, M.wlp_require]
  refine ⟨fun _ => ?_, fun _ => hself.2⟩
  by_cases hc : A.sort = .CSC
  · rw [if_neg (by simpa using hc)]
    simp only [onC, M.wlp_zoom]
    exact M.wlp_mono M.wlp_trivial (fun _ _ _ => hself) (fun _ _ _ => hself.2)
  · rw [if_pos hc]
    simp only [onC, onSp, M.wlp_zoom, M.wlp_bind, M.wlp_get]
    refine M.wlp_of_wp (M.wp_mono (sortCooData_spec hsrt (s := .CSC) h) ?_)
    rintro _ A1 ⟨E1, g1, g2, g3, g4, -⟩
    refine M.wlp_mono M.wlp_trivial (fun _ _ _ => ?_) (fun _ _ _ => ⟨E1, ⟨g1, by rw [g4]; exact g3⟩, g2⟩)
    refine M.wlp_of_wp (M.wp_mono (sortCooData_spec hsrt (s := A.sort) g1) ?_)
    rintro _ A2 ⟨E2, k1, k2, k3, k4, -⟩
    refine ⟨?_, E2, ⟨k1, by rw [k4]; exact k3⟩, k2.trans g2⟩
    rw [k4, g4]
    exact ⟨rfl, rfl, rfl, rfl, rfl, rfl⟩

theorem leftSpmmCooN_keeps [Zero T] [Add T] [Mul T] [BEq T] {E : List (Entry T)} {A : CooMat T}
    {srt : (Int × Int × T → Int × Int × T → Bool) → List (Int × Int × T) → List (Int × Int × T)} (hsrt : SortOk srt)
    (h : CooIs A E) (hs : SortedBy A.sort E) (sched : List Nat) (layout : Layout) (opB : Op) (d n m : Int) (alpha : T) (ro co : Int) (B b : Buf T)
    (ldb : Int) (beta : T) (ldc : Int) :
    M.wlp (leftSpmmCooN srt sched layout opB d n m alpha ro co B ldb beta ldc) (A, b)
      (fun _ s' => SameObject (.coo A) (.coo s'.1) ∧ ∃ E', SpHolds (.coo s'.1) E' ∧ E'.Perm E)
      (fun _ s' => ∃ E', SpHolds (.coo s'.1) E' ∧ E'.Perm E) := by
  have hself : SameObject (.coo A) (.coo A) ∧ ∃ E', SpHolds (.coo A) E' ∧ E'.Perm E := ⟨⟨rfl, rfl, rfl, rfl, rfl, rfl⟩, E, ⟨h, hs⟩, .refl _⟩
  unfold leftSpmmCooN
  simp only [M.wlp_bind, M.wlp_get, M.wlp_require, onC, M.wlp_zoom]
  refine ⟨fun _ => ⟨fun _ => ⟨fun _ => ?_, fun _ => hself.2⟩, fun _ => hself.2⟩, fun _ => hself.2⟩
  refine M.wlp_mono M.wlp_trivial (fun _ b' _ => ?_) (fun _ _ _ => hself.2)
  by_cases ha : (alpha == 0) = true
  · rw [if_pos ha, M.wlp_pure]; exact hself
  · rw [if_neg ha]
    exact cooLeftJki_keeps hsrt h hs _ _ _ _ _ _ _ _ _ _ _ _ _

/-- C48. Whatever the other arguments are: if `left_spmm` with a COO matrix returns, the object stores the same entries as before in some
order, with the same dimensions, sort flag and index base, and it is sorted as its flag says. -/
theorem C48_coo_preserved [Zero T] [One T] [Add T] [Mul T] [BEq T] {env : Env T} (hsrt : SortOk env.srt) {A : CooMat T} {E : List (Entry T)}
    (h : CooIs A E) (hs : SortedBy A.sort E) (layout : Layout) (opA opB : Op) (d n m ro co : Int) (alpha beta : T) (B b : Buf T) (ldb ldc : Int)
    (s' : SpMat T × Buf T) (hrun : leftSpmm env layout opA opB d n m alpha ro co B ldb beta ldc (.coo A, b) = (.ok (), s')) :
    SameObject (.coo A) s'.1 ∧ ∃ E', SpHolds s'.1 E' ∧ E'.Perm E := by
  refine M.wlp_ok (Q := fun _ s' => SameObject (.coo A) s'.1 ∧ ∃ E', SpHolds s'.1 E' ∧ E'.Perm E) (E := fun _ _ => True) ?_ hrun
  unfold leftSpmm
  rw [M.wlp_bind, M.wlp_get]
  cases opA with
  | NoTrans =>
    simp only [asCoo, M.wlp_zoom]
    exact M.wlp_mono (leftSpmmCooN_keeps hsrt h hs _ _ _ _ _ _ _ _ _ _ _ _ _ _) (fun _ _ h => h) (fun _ _ _ => trivial)
  | Trans =>
    obtain ⟨At, t1, t2, t3, t4, t5, t6, t7, t8, t9, t10, -⟩ := C29_coo h
    have hnn : At.nnz = A.nnz := by rw [t2.nnz, h.nnz]; simp
    simp only [asCooT, M.wlp_zoom, M.wlp_bind, M.wlp_lift, t1]
    refine ⟨?_, fun e he => by cases he⟩
    intro At' he
    cases he
    refine M.wlp_mono (leftSpmmCooN_keeps hsrt t2 (t10 hs) _ _ _ _ _ _ _ _ _ _ _ _ _ _) ?_ (fun _ _ _ => trivial)
    rintro _ s'' ⟨⟨k1, k2, k3, k4, k5, k6⟩, E', g1, g2⟩
    refine ⟨⟨rfl, rfl, rfl, rfl, rfl, rfl⟩, E'.map Entry.swap, ⟨?_, ?_⟩, ?_⟩
    · exact cooIs_swap g1.1 _ (by rw [k3, hnn]) (by rw [k4, t6]) rfl rfl rfl
    · have := g1.2
      rw [k5, cooTranspose_sort t1] at this
      exact sortedBy_flip this
    · have := g2.map Entry.swap
      rwa [swap_swap'] at this

/-- An unsorted COO matrix with which `left_spmm` returns. -/
example : CooIs (cooOf 3 3 .Zero sampleE) sampleE ∧ SortedBy (cooOf 3 3 .Zero sampleE).sort sampleE ∧
    ∃ s', leftSpmm exEnv .ColMajor .NoTrans .NoTrans 3 1 3 1 0 0 (Buf.fill 3 1) 3 1 3 (.coo (cooOf 3 3 .Zero sampleE), Buf.fill 3 0) = (.ok (), s') := by
  have hf : ∀ v : ℤ, Holds (Buf.fill 3 v) .ColMajor 3 3 1 (fun _ _ => v) := by
    intro v i j hij
    simp only [InR] at hij
    have : 0 ≤ addr .ColMajor 3 i j ∧ addr .ColMajor 3 i j < 3 := by simp only [addr]; omega
    simp only [Buf.fill]
    rw [if_pos this]
  obtain ⟨_, s', h, -⟩ := C31_left_spmm_partial (Bm := fun _ _ => 1) (C := fun _ _ => 0) exEnv_ok (A := .coo (cooOf 3 3 .Zero sampleE))
    (E := sampleE) ⟨cooOf_is _ _ _ _, trivial⟩ rfl (by simp [InRange, sampleE, spRows, spCols, cooOf]) (layout := .ColMajor) (opA := .NoTrans)
    (opB := .NoTrans) (d := 3) (n := 1) (m := 3) (ro := 0) (co := 0) (alpha := 1) (beta := 1) (B := Buf.fill 3 1) (b := Buf.fill 3 0) (ldb := 3)
    (ldc := 3) (fun _ => Or.inl ⟨by decide, fun _ _ => ⟨⟨2, 2, 5⟩, by decide, by decide⟩⟩) (by simp [WindowOk, rowsOf, colsOf, cooOf])
    (by decide) (by decide) (by decide) (by simp [LdOk, rowsOf]) (by simp [LdOk]) (fun _ => hf 1) (fun i j hij => by rw [hf 0 i j hij]; simp)
    (fun _ => hf 0)
  exact ⟨cooOf_is _ _ _ _, trivial, s', h⟩

/-! ## C51 -/

/-- C51. `sorted_nonzero_locations_to_pointer_array` replaces a nondecreasing list of slice indices (row or column indices of nonzeros) by the
pointer array of compressed storage: element `p` becomes the number of indices smaller than `p`, for `0 <= p <= n`. Nothing else changes. -/
theorem C51_pointers {L : List Int} {n : Int} {b : Buf Int} (h : ∀ (p : Nat) (h : p < L.length), b p = .val L[p]) (hn : 0 ≤ n)
    (hal : ∀ p, 0 ≤ p → p ≤ n → b p ≠ .none) (h0 : ∀ c ∈ L, 0 ≤ c) (hs : L.Pairwise (· ≤ ·)) :
    M.wp (sortedToPtr L.length n) b (fun _ b' => (∀ p, 0 ≤ p → p ≤ n → b' p = .val ((L.filter (· < p)).length : Int)) ∧
      ∀ p, (p < 0 ∨ n < p) → b' p = b p) := by
  let E : List (Entry Unit) := L.map fun c => ⟨0, c, ()⟩
  have hl : E.length = L.length := by simp [E]
  have := sortedToPtr_spec (major := Entry.col) (E := E) (n := n) (b := b) (fun p hp => by
      simp only [E, List.getElem_map]; exact h p (by omega)) hn hal (by simpa [E] using h0) (List.pairwise_map.mpr hs)
  rw [hl] at this
  refine M.wp_mono this ?_
  rintro _ b' ⟨h1, h2⟩
  refine ⟨fun p p0 p1 => ?_, h2⟩
  rw [h1 p p0 p1]
  congr 1
  simp only [below, E, List.countP_eq_length_filter, List.filter_map, List.length_map]
  rfl

/-- C51. If the list is not nondecreasing, an error is raised and nothing is changed. -/
theorem C51_unsorted {L : List Int} {n : Int} {b : Buf Int} (h : ∀ (p : Nat) (h : p < L.length), b p = .val L[p]) (hs : ¬ L.Pairwise (· ≤ ·)) :
    sortedToPtr L.length n b = (.throw .require, b) := by
  have hex : M.wpx (forI 1 (L.length : Int) (fun i => do
      let a ← M.rd (i - 1)
      let b ← M.rd i
      M.require (a ≤ b))) b (fun _ b' => b' = b ∧ ∀ (q : Nat) (h : q + 1 < L.length), L[q] ≤ L[q + 1]) (fun e b' => e = .require ∧ b' = b) := by
    have hl : 2 ≤ L.length := by
      by_contra hl
      apply hs
      match L, hl with
      | [], _ => exact .nil
      | [a], _ => simp
      | a :: b :: l, hl => simp at hl
    refine M.wpx_forI (fun i b' => b' = b ∧ ∀ (q : Nat) (h : q + 1 < L.length), (q : Int) + 1 < i → L[q] ≤ L[q + 1]) (by omega) ⟨rfl, fun q _ hq => by omega⟩ ?_
      (fun b' hb' => ⟨hb'.1, fun q hq => hb'.2 q hq (by omega)⟩)
    rintro i _ i0 i1 ⟨rfl, hq⟩
    obtain ⟨q, rfl⟩ : ∃ q : Nat, i = q + 1 := ⟨(i - 1).toNat, by omega⟩
    have h2 := h (q + 1) (by omega)
    push_cast at h2
    simp only [M.wpx_bind, M.wpx_rd, M.wpx_require, add_sub_cancel_right]
    refine ⟨_, h q (by omega), _, h2, fun hle => ⟨trivial, ?_⟩, fun _ => ⟨trivial, trivial⟩⟩
    intro r hr hr'
    by_cases hrq : r = q
    · subst hrq; exact hle
    · exact hq r hr (by omega)
  apply M.eq_throw_of_wpx
  unfold sortedToPtr
  rw [M.wpx_bind]
  refine M.wpx_mono hex ?_ (fun _ _ h => h)
  rintro _ b' ⟨-, hq⟩
  refine absurd ?_ hs
  rw [← List.isChain_iff_pairwise, List.isChain_iff_getElem]
  exact fun q hq' => hq q (by omega)

example : (∀ (p : Nat) (h : p < [0, 2, 2].length), Buf.ofList [0, 2, 2, (7 : Int)] p = .val ([0, 2, 2] : List Int)[p]) ∧
    ([0, 2, 2] : List Int).Pairwise (· ≤ ·) ∧ ¬ ([2, 0] : List Int).Pairwise (· ≤ ·) := by
  refine ⟨?_, by decide, by decide⟩
  decide

end RB
