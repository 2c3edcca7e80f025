import Verif.Props.Spmm
import Verif.Lemmas.Spmm64

/-!
# C103: index arithmetic of sparse products

`leftSpmm64 w` and `rightSpmm64 w` compute with `int64_t` and with stored indices of `w` bits; the functions without suffix compute with integers.
-/

namespace RB
open Spec
variable {T : Type}

/-- Number of nonzeros an object announces. -/
def Spec.spNnz : SpMat T → Int | .coo A => A.nnz | .csc A => A.nnz | .csr A => A.nnz

/-- The sizes in a product of `op(submat(A))` (d x m) with `op(B)` (m x n) that have to be representable: positions in B and C, the sizes of
pointer arrays, the number of nonzeros, and for a COO matrix the corners of the window (as `int64_t`), the indices relative to the window and
the number of nonzeros (as stored indices, which have `w` bits). -/
structure Spec.ProductFits (w : Nat) (A : SpMat T) (opA : Op) (layout : Layout) (opB : Op) (d n m ro co ldb ldc : Int) : Prop where
  posB : PositionsFit layout ldb (rowsOf opB m n) (colsOf opB m n)
  posC : PositionsFit layout ldc d n
  dims : d + 1 < 2 ^ 63 ∧ m + 1 < 2 ^ 63
  nnz : spNnz A < 2 ^ 63
  coo : (∃ A', A = .coo A') → CooFits w (spNnz A) (rowsOf opA d m) (colsOf opA d m) ro co

/-- Positions fit if a nonempty matrix is stored in an array with less than 2^63 elements. -/
theorem positionsFit_of_alloc {b : Buf T} {layout : Layout} {ld r c : Int} (hr : 0 < r) (hc : 0 < c) (h : Alloc b layout ld r c)
    (hb : ∀ p, b p ≠ .none → p < 2 ^ 63) (hld : LdOk layout ld r c) : PositionsFit layout ld r c := by
  have h1 := hb _ (h (r - 1) (c - 1) ⟨by omega, by omega, by omega, by omega⟩)
  cases layout with
  | ColMajor =>
    simp only [LdOk] at hld
    simp only [addr] at h1
    have : 0 ≤ (c - 1) * ld := mul_nonneg (by omega) (by omega)
    exact ⟨by nlinarith, by nlinarith⟩
  | RowMajor =>
    simp only [LdOk] at hld
    simp only [addr] at h1
    have : 0 ≤ (r - 1) * ld := mul_nonneg (by omega) (by omega)
    exact ⟨by nlinarith, by nlinarith⟩

/-- C103. If the sizes are representable, a product behaves as if its integers were unbounded. -/
theorem C103_left_same [Zero T] [One T] [Add T] [Mul T] [BEq T] {w : Nat} {env : Env T} (henv : EnvOk env) {A : SpMat T} {E : List (Entry T)}
    (h : SpHolds A E) (hb : spBase A = .Zero) (hr : InRange (spRows A) (spCols A) E) {layout : Layout} {opA opB : Op} {d n m ro co : Int}
    {alpha beta : T} {B b : Buf T} {ldb ldc : Int}
    (hK : (alpha == 0) = false → Supported A opA layout opB d m (opEntries opA (window ro co (rowsOf opA d m) (colsOf opA d m) E)))
    (hw : WindowOk A (rowsOf opA d m) (colsOf opA d m) ro co) (hd : 0 ≤ d) (hn : 0 ≤ n) (hm : 0 ≤ m)
    (hldb : LdOk layout ldb (rowsOf opB m n) (colsOf opB m n)) (hldc : LdOk layout ldc d n)
    (hF : ProductFits w A opA layout opB d n m ro co ldb ldc) :
    leftSpmm64 w env layout opA opB d n m alpha ro co B ldb beta ldc (A, b) = leftSpmm env layout opA opB d n m alpha ro co B ldb beta ldc (A, b) := by
  obtain ⟨hpB, hpC, ⟨hd1, hm1⟩, hnnz, hcoo⟩ := hF
  have lb : 0 ≤ ldb := ld_nonneg (by cases opB <;> simp only [rowsOf] <;> omega) (by cases opB <;> simp only [colsOf] <;> omega) hldb
  have lc : 0 ≤ ldc := ld_nonneg hd hn hldc
  unfold leftSpmm64 leftSpmm
  refine M.bind_congr_ok fun s s1 hs1 => ?_
  cases hs1
  cases A with
  | coo A =>
    obtain ⟨h, hs⟩ := h
    replace hcoo := hcoo ⟨A, rfl⟩
    cases opA with
    | NoTrans =>
      simp only [asCoo, M.zoom]
      rw [leftSpmmCooN64_eq (w := w) (d := d) (m := m) h hb hs henv.srt hK hcoo hd lb lc hm1 (by omega) hpB hpC]
    | Trans =>
      obtain ⟨At, t1, t2, t3, t4, t5, t6, t7, t8, t9, t10, -⟩ := C29_coo h
      have hnn : At.nnz = A.nnz := by rw [t2.nnz, h.nnz]; simp
      simp only
      refine M.bind_congr_ok fun At' s2 hs2 => ?_
      have e1 : At' = At := by
        have := congrArg Prod.fst hs2
        have h2 : cooTranspose A = .ok At' := this
        rw [t1] at h2; cases h2; rfl
      have e2 : s2 = (SpMat.coo A, b) := (congrArg Prod.snd hs2).symm
      subst e1 e2
      simp only [asCooT, M.zoom]
      rw [leftSpmmCooN64_eq (w := w) (ro := co) (co := ro) t2 (by rw [t6]; exact hb) (t10 hs) henv.srt ?_ ?_ hd lb lc hm1 (by omega) hpB hpC]
      · intro ha
        rw [window_swap, hnn]; exact hK ha
      · rw [hnn]
        obtain ⟨c1, c2, c3, c4, c5, c6⟩ := hcoo
        exact ⟨c1, c2, c4, c3, c6, c5⟩
  | csc A =>
    cases opA with
    | NoTrans =>
      obtain ⟨rfl, rfl, rfl, rfl⟩ := hw
      simp only [opEntries, rowsOf, colsOf] at hK
      rw [window_whole (d := A.nRows) (m := A.nCols) hr] at hK
      simp only
      rw [leftSpmmCscN64_eq h hb hr hK hm lb lc hnnz hm1 hpB hpC]
    | Trans =>
      obtain ⟨h3, h4, rfl, rfl⟩ := hw
      simp only [opEntries, rowsOf, colsOf] at hK h3 h4
      subst h3 h4
      rw [window_whole (d := A.nRows) (m := A.nCols) hr] at hK
      refine M.bind_congr_ok fun At s2 hs2 => ?_
      have e1 : At = mkCsrExpert A.nCols A.nRows A.nnz A.vals A.colptr A.rowidxs A.indexBase := by
        have h2 : (Res.ok (mkCsrExpert A.nCols A.nRows A.nnz A.vals A.colptr A.rowidxs A.indexBase) : Res (CsrMat T)) = .ok At := congrArg Prod.fst hs2
        cases h2; rfl
      subst e1
      have := leftSpmmCsrN64_eq (A := mkCsrExpert A.nCols A.nRows A.nnz A.vals A.colptr A.rowidxs A.indexBase) (beta := beta) (B := B)
        (E := E.map Entry.swap) ⟨by simp only [mkCsrExpert]; rw [h.nnz]; simp, csIs_swap _ _ h.data⟩ hb (inRange_swap hr) hK lb lc hd1 hpB hpC (sched := env.sched)
        (ro := 0) (co := 0)
      exact congrFun (congrArg onC this) s2
  | csr A =>
    cases opA with
    | NoTrans =>
      obtain ⟨rfl, rfl, rfl, rfl⟩ := hw
      simp only [opEntries, rowsOf, colsOf] at hK
      rw [window_whole (d := A.nRows) (m := A.nCols) hr] at hK
      simp only
      rw [leftSpmmCsrN64_eq h hb hr hK lb lc hd1 hpB hpC]
    | Trans =>
      obtain ⟨h3, h4, rfl, rfl⟩ := hw
      simp only [opEntries, rowsOf, colsOf] at hK h3 h4
      subst h3 h4
      rw [window_whole (d := A.nRows) (m := A.nCols) hr] at hK
      refine M.bind_congr_ok fun At s2 hs2 => ?_
      have e1 : At = mkCscExpert A.nCols A.nRows A.nnz A.vals A.colidxs A.rowptr A.indexBase := by
        have h2 : (Res.ok (mkCscExpert A.nCols A.nRows A.nnz A.vals A.colidxs A.rowptr A.indexBase) : Res (CscMat T)) = .ok At := congrArg Prod.fst hs2
        cases h2; rfl
      subst e1
      have := leftSpmmCscN64_eq (A := mkCscExpert A.nCols A.nRows A.nnz A.vals A.colidxs A.rowptr A.indexBase) (beta := beta) (B := B)
        (E := E.map Entry.swap) ⟨by simp only [mkCscExpert]; rw [h.nnz]; simp, csIs_swap _ _ h.data⟩ hb (inRange_swap hr) hK hm lb lc hnnz hm1 hpB hpC
        (sched := env.sched) (nt := env.nt) (ro := 0) (co := 0)
      exact congrFun (congrArg onC this) s2

/-- C103, left product: C31 with machine integers.

Missing: the cases that are missing in C31, and a COO matrix with more nonzeros than the index type can count (`C103_product_lost`). -/
theorem C103_left_spmm_partial [CommRing T] [DecidableEq T] {w : Nat} {env : Env T} (henv : EnvOk env) {A : SpMat T} {E : List (Entry T)}
    (h : SpHolds A E) (hb : spBase A = .Zero) (hr : InRange (spRows A) (spCols A) E) {layout : Layout} {opA opB : Op} {d n m ro co : Int}
    {alpha beta : T} {B b : Buf T} {ldb ldc : Int} {Bm C : Int → Int → T}
    (hK : alpha ≠ 0 → Supported A opA layout opB d m (opEntries opA (window ro co (rowsOf opA d m) (colsOf opA d m) E)))
    (hw : WindowOk A (rowsOf opA d m) (colsOf opA d m) ro co) (hd : 0 ≤ d) (hn : 0 ≤ n) (hm : 0 ≤ m)
    (hldb : LdOk layout ldb (rowsOf opB m n) (colsOf opB m n)) (hldc : LdOk layout ldc d n)
    (hB : alpha ≠ 0 → Holds B layout ldb (rowsOf opB m n) (colsOf opB m n) Bm)
    (hal : Alloc b layout ldc d n) (hC : beta ≠ 0 → Holds b layout ldc d n C) (hF : ProductFits w A opA layout opB d n m ro co ldb ldc) :
    M.wp (leftSpmm64 w env layout opA opB d n m alpha ro co B ldb beta ldc) (A, b) (fun _ s' =>
      Holds s'.2 layout ldc d n (fun i j => alpha * prodEntry m (opMat opA (subMat ro co (toMat E))) (opMat opB Bm) i j + beta * C i j) ∧
      SameOutside b s'.2 layout ldc d n ∧ SameObject A s'.1 ∧ ∃ E', SpHolds s'.1 E' ∧ E'.Perm E) := by
  have hK' : (alpha == 0) = false → Supported A opA layout opB d m (opEntries opA (window ro co (rowsOf opA d m) (colsOf opA d m) E)) :=
    fun ha => hK (by simpa using ha)
  unfold M.wp
  rw [C103_left_same henv h hb hr hK' hw hd hn hm hldb hldc hF]
  exact C31_left_spmm_partial henv h hb hr hK hw hd hn hm hldb hldc hB hal hC

/-- C103, right product: C32 with machine integers. -/
theorem C103_right_spmm_partial [CommRing T] [DecidableEq T] {w : Nat} {env : Env T} (henv : EnvOk env) {B : SpMat T} {E : List (Entry T)}
    (h : SpHolds B E) (hb : spBase B = .Zero) (hr : InRange (spRows B) (spCols B) E) {layout : Layout} {opA opB : Op} {m d n iOff jOff : Int}
    {alpha beta : T} {A b : Buf T} {lda ldc : Int} {Am C : Int → Int → T}
    (hK : alpha ≠ 0 → Supported B opB.flip layout.flip opA d n (opEntries opB.flip (window iOff jOff (rowsOf opB n d) (colsOf opB n d) E)))
    (hw : WindowOk B (rowsOf opB n d) (colsOf opB n d) iOff jOff) (hm : 0 ≤ m) (hd : 0 ≤ d) (hn : 0 ≤ n)
    (hlda : LdOk layout lda (rowsOf opA m n) (colsOf opA m n)) (hldc : LdOk layout ldc m d)
    (hA : alpha ≠ 0 → Holds A layout lda (rowsOf opA m n) (colsOf opA m n) Am)
    (hal : Alloc b layout ldc m d) (hC : beta ≠ 0 → Holds b layout ldc m d C)
    (hF : ProductFits w B opB.flip layout.flip opA d m n iOff jOff lda ldc) :
    M.wp (rightSpmm64 w env layout opA opB m d n alpha A lda iOff jOff beta ldc) (B, b) (fun _ s' =>
      Holds s'.2 layout ldc m d (fun i j => alpha * prodEntry n (opMat opA Am) (opMat opB (subMat iOff jOff (toMat E))) i j + beta * C i j) ∧
      SameOutside b s'.2 layout ldc m d ∧ SameObject B s'.1 ∧ ∃ E', SpHolds s'.1 E' ∧ E'.Perm E) := by
  have h2 := C32_right_spmm_partial henv h hb hr hK hw hm hd hn hlda hldc hA hal hC
  unfold rightSpmm at h2
  unfold M.wp rightSpmm64
  rw [C103_left_same henv h hb hr ?_ ?_ hd hm hn ?_ ?_ hF]
  · exact h2
  · intro ha
    have := hK (by simpa using ha)
    cases opB <;> exact this
  · cases opB <;> exact hw
  · cases layout <;> cases opA <;> exact hlda
  · cases layout <;> exact hldc

theorem wrap_neg {x : Int} (h0 : 2 ^ 31 ≤ x) (h1 : x < 2 ^ 32) : wrapInt 32 x < 0 := by
  unfold wrapInt
  omega

theorem wrap_low (x : Int) : -2 ^ 63 ≤ wrapInt 32 x := by
  unfold wrapInt
  omega

/-- The column loop with a negative number of nonzeros per column, for a single column, reads the entries of B and does nothing else. -/
theorem cscColumns64_lost [Add T] [Mul T] {layoutB layoutC : Layout} {d n : Int} {vals : Buf T} {rowidxs colptr : Buf Int}
    {B : Buf T} {ldb ldc k : Int} {Bm C : Int → Int → T} {b0 b : Buf T} (hk : colptr 1 = .val k) (h0 : k < 0) (hk1 : -2 ^ 63 ≤ k)
    (hB : Holds B layoutB ldb 1 n Bm) (hld : LdOk layoutC ldc d n) (hSB : StridesFit (layoutToStrides layoutB ldb) 1 n)
    (hSC : StridesFit (layoutToStrides layoutC ldc) d n)
    (hC : MatSt b0 (addr layoutC ldc) d n (fun i j => .val (C i j)) b) (sched : List Nat) :
    M.wp (cscColumns64 sched layoutB layoutC n 1 vals rowidxs colptr true B ldb ldc) b (fun _ b' =>
      MatSt b0 (addr layoutC ldc) d n (fun i j => .val (C i j)) b') := by
  unfold cscColumns64
  refine columns_par hld hC ?_ sched
  intro j j0 j1
  rw [lift_n64 (hSB.col j j0 j1), lift_n64 (hSC.col j j0 j1)]
  have hcell : CellSt (Rng d) (fun i => addr layoutC ldc i j) (fun i => C i j) b := fun i hi => hC.cells i j ⟨hi.1, hi.2, j0, j1⟩
  have hb0 : B ((layoutToStrides layoutB ldb).ics * j + 0) = .val (Bm 0 j) := by
    have := hB 0 j ⟨le_rfl, by omega, j0, j1⟩
    rw [← addr_col] at this
    simpa using this
  simp only [if_true]
  rw [Prog.wpF_bind, Prog.wpF_lift]
  refine ⟨_, Buf.rd_val hk, ?_⟩
  unfold applyRegularCscVec64
  refine Prog.wpF_forI (fun _ b' => b' = b) (by omega) rfl ?_ (by rintro b' rfl; exact hcell)
  rintro c b' c0 c1 rfl
  have hc : c = 0 := by omega
  subst hc
  rw [lift_n64 ⟨by omega, by omega⟩]
  rw [Prog.wpF_bind, Prog.wpF_lift]
  refine ⟨_, Buf.rd_val (by simpa using hb0), ?_⟩
  rw [lift_n64 ⟨by omega, by omega⟩, lift_n64 ⟨by omega, by omega⟩, lift_i64 (by omega) (by omega)]
  exact Prog.wpF_forI_empty (by omega) rfl

/-- C103 fails for COO matrices with `int` indices and 2^31 or more nonzeros: if the window has one column, and between 2^31 and 2^32 - 1
nonzeros, the product is lost. The call ends normally and leaves `beta * C`. -/
theorem C103_product_lost [CommRing T] [DecidableEq T] {env : Env T} {A : CooMat T} {E : List (Entry T)} (h : CooIs A E) (hb : A.indexBase = .Zero)
    (hsort : A.sort = .CSC) (hs : E.Pairwise cscLe) {layout : Layout} {opB : Op} {d n ro co : Int} {alpha beta : T} {B b : Buf T} {ldb ldc : Int}
    {Bm C : Int → Int → T} (hcount : 2 ^ 31 ≤ ((window ro co d 1 E).length : Int) ∧ ((window ro co d 1 E).length : Int) < 2 ^ 32)
    (hdr : d ≤ A.nRows) (hmc : 1 ≤ A.nCols) (hd : 0 ≤ d) (hn : 0 ≤ n) (hd31 : d ≤ 2 ^ 31) (hro : FitsInt 64 (ro + d)) (hco : FitsInt 64 (co + 1))
    (hldb : LdOk layout ldb (rowsOf opB 1 n) (colsOf opB 1 n)) (hldc : LdOk layout ldc d n)
    (hpB : PositionsFit layout ldb (rowsOf opB 1 n) (colsOf opB 1 n)) (hpC : PositionsFit layout ldc d n)
    (hB : Holds B layout ldb (rowsOf opB 1 n) (colsOf opB 1 n) Bm) (hC : Holds b layout ldc d n C) :
    M.wp (leftSpmm64 32 env layout .NoTrans opB d n 1 alpha ro co B ldb beta ldc) (.coo A, b) (fun _ s' =>
      Holds s'.2 layout ldc d n (fun i j => beta * C i j)) := by
  have lb : 0 ≤ ldb := ld_nonneg (by cases opB <;> simp only [rowsOf] <;> omega) (by cases opB <;> simp only [colsOf] <;> omega) hldb
  have lc : 0 ≤ ldc := ld_nonneg hd hn hldc
  have hSC := stridesFit lc hpC
  have hSB := stridesFit_op lb hpB
  have hal : Alloc b layout ldc d n := fun i j hij => by rw [hC i j hij]; simp
  have hbC : ∀ {b' : Buf T}, MatSt b (addr layout ldc) d n (fun i j => .val (if beta == 0 then 0 else beta * C i j)) b' →
      Holds b' layout ldc d n (fun i j => beta * C i j) := by
    intro b' hM i j hij
    rw [hM.cells i j hij]
    by_cases hbe : beta = 0
    · simp [hbe]
    · simp [hbe]
  unfold leftSpmm64
  rw [M.wp_bind, M.wp_get]
  simp only [asCoo, M.wp_zoom]
  unfold leftSpmmCooN64
  rw [M.wp_bind, M.wp_get]
  simp only [M.wp_bind, M.wp_require, onC, M.wp_zoom]
  rw [spmmScale64_eq lc hpC]
  refine ⟨hb, hdr, hmc, M.wp_mono (spmmScale_spec hd hn hldb hldc hal (fun _ => hC)) ?_⟩
  intro _ b1 hM
  by_cases ha : (alpha == 0) = true
  · rw [if_pos ha, M.wp_pure]; exact hbC hM
  rw [if_neg ha]
  unfold cooLeftJki64
  rw [M.wp_bind, M.wp_get]
  simp only [M.wp_bind, M.wp_require]
  refine ⟨hb, ?_⟩
  rw [if_neg (by simpa using hsort)]
  simp only [onC, M.wp_zoom]
  have hdat := h.data
  rw [hb] at hdat
  have hre : rebase IndexBase.Zero.val E = E := by simp [rebase, IndexBase.val]
  rw [hre] at hdat
  have h32 : intMax 32 = 2 ^ 31 - 1 := rfl
  unfold cooLeftCsc64
  rw [mlift_n64 ⟨by omega, by omega⟩, M.wp_bind, M.wp_when]
  refine ⟨fun g => by rw [h.nnz] at g; omega, fun _ => ?_⟩
  rw [mlift_i64 (fits64 hco).1 (fits64 hco).2, mlift_i64 (fits64 hro).1 (fits64 hro).2,
    setFilteredCoo64_eq (by norm_num) (by omega) (by omega) (by omega) (by omega)]
  rw [h.nnz]
  simp only [M.wp_bind, M.wp_onLocal]
  set W := window ro co d 1 E with hW
  have hWl : W.length ≤ E.length := window_length_le ro co d 1 E
  refine M.wp_mono (setFilteredCoo_spec (A := A.bufs) hdat ?_ ro co d 1) ?_
  · intro p p0 p1
    exact ⟨fill_alloc p0 p1, fill_alloc p0 p1, fill_alloc p0 (by omega)⟩
  rintro k r ⟨rfl, rfl⟩
  have hov := overE_holds W (⟨Buf.fill E.length 0, Buf.fill E.length 0, Buf.fill (max E.length (1 + 1)) 0⟩ : CooBufs T)
  refine M.wp_mono (blasScal_spec1 (E := W) (fun l hl => (hov l hl).1)) ?_
  rintro _ vals' ⟨hv, hvz⟩
  refine M.wp_mono (sortedToPtr64_spec (w := 32) (by norm_num) (major := Entry.col) (E := W) (n := 1) (fun l hl => (hov l hl).2.2) (by omega) (by omega) ?_ ?_
    (window_sorted hs)) ?_
  · intro p p0 p1
    exact Buf.overL_ne_none (fill_alloc p0 (by omega))
  · intro e he; exact (window_rng e he).2.1
  rintro _ pt ⟨hpt, hpo⟩
  have hfx : ∀ q : Buf Int, fixedNnzPerCol q 1 = .ok true := fun q => by simp [fixedNnzPerCol, foldI, foldN]
  rw [M.wp_lift, fixedNnzPerCol64_eq (by omega) (by omega), hfx]
  refine ⟨true, rfl, ?_⟩
  have hbel : below Entry.col W 1 = W.length := below_all fun e he => (window_rng e he).2.2
  have h1 := hpt 1 (by omega) le_rfl
  rw [hbel] at h1
  have hneg := wrap_neg hcount.1 hcount.2
  have hlow := wrap_low (W.length : Int)
  generalize hkk : wrapInt 32 (W.length : Int) = kk at h1 hneg hlow
  have hB' := holds_op hB
  refine M.wp_mono (cscColumns64_lost h1 hneg hlow hB' hldc hSB hSC hM env.sched) fun _ b' hb' => ?_
  exact hbC hb'

/-- A 1 x 1 matrix stored as `k` entries equal to 1. -/
def onesE (k : Nat) : List (Entry ℤ) := List.replicate k ⟨0, 0, 1⟩
def onesCoo (k : Nat) : CooMat ℤ := { cooOf 1 1 .Zero (onesE k) with sort := .CSC }

theorem onesCoo_is (k : Nat) : CooIs (onesCoo k) (onesE k) := by
  have := cooOf_is 1 1 .Zero (onesE k)
  exact ⟨this.nnz, this.data⟩

theorem onesE_sorted (k : Nat) : (onesE k).Pairwise cscLe := List.pairwise_replicate.mpr (Or.inr (Or.inr ⟨rfl, le_rfl⟩))

theorem onesE_window (k : Nat) : (window 0 0 1 1 (onesE k)).length = k := by
  unfold window onesE
  rw [List.length_map, List.filter_eq_self.mpr, List.length_replicate]
  intro e he
  rw [List.eq_of_mem_replicate he]
  simp

theorem onesE_mat (k : Nat) : toMat (onesE k) 0 0 = k := by
  unfold toMat onesE
  rw [List.filter_eq_self.mpr, List.map_replicate, List.sum_replicate]
  · simp
  · intro e he
    rw [List.eq_of_mem_replicate he]
    simp

/-- Counterexample to C103: the 1 x 1 matrix given by `k` entries equal to 1, with `2^31 ≤ k < 2^32`, times the matrix (1). The result should be
`k`; the code leaves 0. The matrix meets the assumptions of C31 and is sorted. -/
theorem C103_counterexample {k : Nat} (h0 : 2 ^ 31 ≤ (k : Int)) (h1 : (k : Int) < 2 ^ 32) :
    SpHolds (.coo (onesCoo k)) (onesE k) ∧ prodEntry 1 (toMat (onesE k)) (fun _ _ => 1) 0 0 = (k : ℤ) ∧
    M.wp (leftSpmm64 32 exEnv .ColMajor .NoTrans .NoTrans 1 1 1 1 0 0 (Buf.fill 1 1) 1 0 1) (.coo (onesCoo k), Buf.fill 1 0) (fun _ s' =>
      s'.2 0 = .val 0) := by
  refine ⟨⟨onesCoo_is k, onesE_sorted k⟩, ?_, ?_⟩
  · simp [prodEntry, onesE_mat]
  · have hf : ∀ v : ℤ, Holds (Buf.fill 1 v) .ColMajor 1 1 1 (fun _ _ => v) := by
      rintro v i j ⟨i0, i1, j0, j1⟩
      obtain rfl : i = 0 := by omega
      obtain rfl : j = 0 := by omega
      simp [addr, Buf.fill]
    have hp : PositionsFit .ColMajor 1 1 1 := ⟨by norm_num, by norm_num⟩
    refine M.wp_mono (C103_product_lost (onesCoo_is k) rfl rfl (onesE_sorted k) (opB := .NoTrans) (Bm := fun _ _ => 1) (C := fun _ _ => 0)
      ⟨by rw [onesE_window]; exact h0, by rw [onesE_window]; exact h1⟩ le_rfl le_rfl (by norm_num) (by norm_num) (by norm_num)
      (by norm_num [FitsInt, intMin, intMax]) (by norm_num [FitsInt, intMin, intMax]) (by simp [LdOk, rowsOf]) (by simp [LdOk]) hp hp (hf 1) (hf 0)) ?_
    intro _ s' hs
    have := hs 0 0 ⟨le_rfl, by norm_num, le_rfl, by norm_num⟩
    simpa [addr] using this

example : ∃ k : Nat, 2 ^ 31 ≤ (k : Int) ∧ (k : Int) < 2 ^ 32 := ⟨2 ^ 31, by norm_num, by norm_num⟩

/-- The sizes of the products in the examples of C31 are representable, for `int` indices. -/
example : ProductFits 32 (.coo (cooOf 3 3 .Zero sampleE)) .Trans .ColMajor .NoTrans 3 2 2 1 0 2 3 :=
  ⟨⟨by norm_num [rowsOf, colsOf], by norm_num [rowsOf, colsOf]⟩, ⟨by norm_num, by norm_num⟩, by norm_num, by norm_num [spNnz, cooOf, sampleE],
    fun _ => ⟨by norm_num, by norm_num [spNnz, cooOf, sampleE, intMax], by norm_num [rowsOf, intMax], by norm_num [colsOf, intMax],
      by norm_num [FitsInt, intMin, intMax, rowsOf], by norm_num [FitsInt, intMin, intMax, colsOf]⟩⟩

example : ProductFits 32 (.csc (cscOf 3 3 [0, 1, 1, 3] sampleC)) .NoTrans .RowMajor .NoTrans 3 2 3 0 0 2 2 :=
  ⟨⟨by norm_num [rowsOf, colsOf], by norm_num [rowsOf, colsOf]⟩, ⟨by norm_num, by norm_num⟩, by norm_num, by norm_num [spNnz, cscOf, sampleC],
    fun ⟨_, h⟩ => by cases h⟩

end RB
