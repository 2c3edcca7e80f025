import Verif.Props.ExNoise
import Verif.Props.TestEye
import Verif.Model.TestSpmats

/-!
# The sparse test data and the conversion tests (C126)
-/

namespace RB
open Spec Finset
variable {N : Nat} {K W T : Type}

/-! ## Specification -/

/-- The entries of the diagonal with the given offset, from the top left. -/
def Spec.diagEntries (d : Int → T) (offset : Int) (n : Nat) : List (Entry T) :=
  (List.range n).map fun l : Nat => if 0 ≤ offset then ⟨(l : Int), l + offset, d l⟩ else ⟨(l : Int) - offset, l, d l⟩

/-- The matrix with the values `d 0, ..., d (nnz - 1)` on the diagonal with the given offset and zeros elsewhere. -/
def Spec.diagMat [Zero T] (d : Int → T) (offset nnz i j : Int) : T := if j - i = offset ∧ min i j < nnz then d (min i j) else 0

/-! ## Diagonals -/

theorem diagEntries_length (d : Int → T) (offset : Int) (n : Nat) : (diagEntries d offset n).length = n := by simp [diagEntries]

theorem diagEntries_succ (d : Int → T) (offset : Int) (n : Nat) :
    diagEntries d offset (n + 1) = diagEntries d offset n ++ [if 0 ≤ offset then ⟨(n : Int), n + offset, d n⟩ else ⟨(n : Int) - offset, n, d n⟩] := by
  unfold diagEntries
  rw [List.range_succ, List.map_append]
  rfl

theorem diagEntries_mem {d : Int → T} {offset : Int} {n : Nat} {e : Entry T} (h : e ∈ diagEntries d offset n) :
    ∃ l : Nat, l < n ∧ e = if 0 ≤ offset then ⟨(l : Int), l + offset, d l⟩ else ⟨(l : Int) - offset, l, d l⟩ := by
  unfold diagEntries at h
  rw [List.mem_map] at h
  obtain ⟨l, h1, h2⟩ := h
  exact ⟨l, List.mem_range.mp h1, h2.symm⟩

theorem diagEntries_nodup (d : Int → T) (offset : Int) (n : Nat) : ((diagEntries d offset n).map Entry.pos).Nodup := by
  unfold diagEntries
  rw [List.map_map]
  refine List.Nodup.map ?_ List.nodup_range
  intro a b h
  simp only [Function.comp] at h
  split_ifs at h <;> simp only [Entry.pos, Prod.mk.injEq] at h <;> omega

/-- All entries are within an m x n matrix exactly if the diagonal is not longer than that of the matrix. -/
theorem diagEntries_inRange (d : Int → T) (offset : Int) {m n : Int} {k : Nat} : InRange m n (diagEntries d offset k) ↔ k = 0 ∨ (k : Int) ≤ diagLen m n offset := by
  unfold diagLen
  constructor
  · intro h
    rcases Nat.eq_zero_or_pos k with h0 | h0
    · exact Or.inl h0
    · right
      have h1 := h (if 0 ≤ offset then ⟨((k - 1 : Nat) : Int), ((k - 1 : Nat) : Int) + offset, d ((k - 1 : Nat) : Int)⟩
        else ⟨((k - 1 : Nat) : Int) - offset, ((k - 1 : Nat) : Int), d ((k - 1 : Nat) : Int)⟩) (by
          unfold diagEntries
          exact List.mem_map.mpr ⟨k - 1, List.mem_range.mpr (by omega), rfl⟩)
      split_ifs at h1 ⊢ <;> simp only at h1 <;> omega
  · rintro h e he
    obtain ⟨l, h1, rfl⟩ := diagEntries_mem he
    rcases h with h | h
    · omega
    · split_ifs at h ⊢ <;> simp only <;> omega

theorem diagEntries_toMat [AddCommMonoid T] (d : Int → T) (offset : Int) (k : Nat) {i j : Int} (hi : 0 ≤ i) (hj : 0 ≤ j) :
    toMat (diagEntries d offset k) i j = diagMat d offset k i j := by
  rw [← overwrite_eq_toMat (diagEntries_nodup d offset k)]
  induction k with
  | zero =>
    unfold diagMat
    rw [if_neg (by omega)]
    rfl
  | succ k ih =>
    rw [diagEntries_succ, overwrite_push, ih]
    unfold diagMat
    by_cases h0 : 0 ≤ offset
    · simp only [if_pos h0]
      by_cases h : i = k ∧ j = k + offset
      · rw [if_pos h, if_pos (by push_cast; omega), show min i j = k by omega]
      · rw [if_neg h]
        exact if_congr (by push_cast; omega) rfl rfl
    · simp only [if_neg h0]
      by_cases h : i = k - offset ∧ j = k
      · rw [if_pos h, if_pos (by push_cast; omega), show min i j = k by omega]
      · rw [if_neg h]
        exact if_congr (by push_cast; omega) rfl rfl

theorem diagLoop_spec {vals : Buf T} {d : Int → T} {offset r c : Int} {k : Nat} (hrc : if 0 ≤ offset then r = 0 ∧ c = offset else r = -offset ∧ c = 0)
    (hv : ∀ p : Int, 0 ≤ p → p < k → vals p = .val (d p)) {b : CooBufs T} (hal : b.Alloc k) :
    M.wp (forI 0 (k : Int) (diagStep vals r c)) b (fun _ b' => b' = b.overE (diagEntries d offset k)) := by
  refine M.wp_forI (fun l b' => b' = b.overE (diagEntries d offset l.toNat)) (by omega) (by simp [diagEntries, CooBufs.overE_nil]) ?_
    (fun b' h => by rw [h, Int.toNat_natCast])
  rintro l b' l0 l1 rfl
  obtain ⟨q, rfl⟩ : ∃ q : Nat, l = q := ⟨l.toNat, by omega⟩
  obtain ⟨h1, h2, h3⟩ := hal q (by omega) (by omega)
  rw [show ((q : Int) + 1).toNat = q + 1 by omega, diagEntries_succ, Int.toNat_natCast]
  have hlen := diagEntries_length d offset q
  generalize diagEntries d offset q = E at hlen
  unfold diagStep
  simp only [M.wp_bind, onCVals, onCRows, onCCols, M.wp_zoom, M.wp_wr, M.wp_lift]
  refine ⟨Buf.overL_ne_none h2, Buf.overL_ne_none h3, _, Buf.rd_val (hv q l0 l1), Buf.overL_ne_none h1, ?_⟩
  have key : ∀ e : Entry T, b.overE (E ++ [e]) = ⟨(b.overE E).vals.set q e.val, (b.overE E).rows.set q e.row, (b.overE E).cols.set q e.col⟩ := by
    intro e
    subst hlen
    simp only [CooBufs.overE, List.map_append, List.map_cons, List.map_nil]
    congr 1
    · rw [← Buf.overL_push]; simp
    · rw [← Buf.overL_push]; simp
    · rw [← Buf.overL_push]; simp
  rw [key]
  split_ifs at hrc ⊢ with h0
  · obtain ⟨rfl, rfl⟩ := hrc
    simp
  · obtain ⟨rfl, rfl⟩ := hrc
    simp [sub_eq_add_neg]

/-- C126. `coo_from_diag` stores the values on the diagonal with the given offset, in order, each once; the matrix is zero elsewhere. Missing: the entries are within the matrix
(`C126_diagonal_out_of_range`). -/
theorem C126_diagonal_partial [AddCommMonoid T] {A : CooMat T} (hc : CooEmpty A) {vals : Buf T} {d : Int → T} {nnz offset : Int} (h0 : 0 ≤ nnz) (hv : ∀ p, 0 ≤ p → p < nnz → vals p = .val (d p))
    (hr : 0 ≤ offset → nnz ≤ A.nRows) :
    M.wp (cooFromDiag vals nnz offset) A (fun _ A' => ∃ E, CooIs A' E ∧ E = diagEntries d offset nnz.toNat ∧ (E.map Entry.pos).Nodup ∧
      (∀ i j, 0 ≤ i → 0 ≤ j → toMat E i j = diagMat d offset nnz i j) ∧
      (InRange A.nRows A.nCols E ↔ nnz = 0 ∨ nnz ≤ diagLen A.nRows A.nCols offset) ∧
      A'.nRows = A.nRows ∧ A'.nCols = A.nCols ∧ A'.indexBase = .Zero ∧ A'.ownMemory = true) := by
  obtain ⟨k, rfl⟩ := Int.eq_ofNat_of_zero_le h0
  unfold cooFromDiag
  have main : ∀ r c : Int, (if 0 ≤ offset then r = 0 ∧ c = offset else r = -offset ∧ c = 0) → ∃ A1 : CooMat T, reserveCoo (k : Int) A = (.ok (), A1) ∧ A1.nRows = A.nRows ∧
      M.wp (M.zoom CooMat.bufs CooMat.withBufs (forI 0 (k : Int) (diagStep vals r c))) A1 (fun _ A' => ∃ E, CooIs A' E ∧ E = diagEntries d offset (k : Int).toNat ∧ (E.map Entry.pos).Nodup ∧
      (∀ i j, 0 ≤ i → 0 ≤ j → toMat E i j = diagMat d offset k i j) ∧
      (InRange A.nRows A.nCols E ↔ (k : Int) = 0 ∨ (k : Int) ≤ diagLen A.nRows A.nCols offset) ∧
      A'.nRows = A.nRows ∧ A'.nCols = A.nCols ∧ A'.indexBase = .Zero ∧ A'.ownMemory = true) := by
    intro r c hrc
    obtain ⟨A1, e1, e2⟩ := overE_after_reserve hc (diagEntries d offset k) (forI 0 (k : Int) (diagStep vals r c))
      (fun A' => ∃ E, CooIs A' E ∧ E = diagEntries d offset (k : Int).toNat ∧ (E.map Entry.pos).Nodup ∧
      (∀ i j, 0 ≤ i → 0 ≤ j → toMat E i j = diagMat d offset k i j) ∧
      (InRange A.nRows A.nCols E ↔ (k : Int) = 0 ∨ (k : Int) ≤ diagLen A.nRows A.nCols offset) ∧
      A'.nRows = A.nRows ∧ A'.nCols = A.nCols ∧ A'.indexBase = .Zero ∧ A'.ownMemory = true)
      (fun b hal => diagLoop_spec hrc hv (by rwa [diagEntries_length] at hal))
      (fun A' q1 q2 q3 q4 q5 _ => ⟨_, q1, by rw [Int.toNat_natCast], diagEntries_nodup d offset k, fun i j hi hj => diagEntries_toMat d offset k hi hj, by
        rw [diagEntries_inRange]; norm_cast, q2, q3, q4, q5⟩)
    rw [diagEntries_length] at e1
    refine ⟨A1, e1, ?_, e2⟩
    rw [reserveCoo_spec hc.own hc.vals hc.rows hc.cols] at e1
    obtain ⟨-, rfl⟩ := Prod.mk.inj e1
    rfl
  rw [M.wp_bind]
  by_cases ho : 0 ≤ offset
  · obtain ⟨A1, e1, e2, e3⟩ := main 0 offset (by rw [if_pos ho]; exact ⟨rfl, rfl⟩)
    refine M.wp_mono (show M.wp (reserveCoo (k : Int)) A (fun _ s => s = A1) from ⟨_, _, e1, rfl⟩) ?_
    rintro - _ rfl
    rw [if_pos ho]
    simp only [M.wp_bind, M.wp_get, M.wp_require]
    exact ⟨by rw [e2]; exact hr ho, e3⟩
  · obtain ⟨A1, e1, e2, e3⟩ := main (-offset) 0 (by rw [if_neg ho]; exact ⟨rfl, rfl⟩)
    refine M.wp_mono (show M.wp (reserveCoo (k : Int)) A (fun _ s => s = A1) from ⟨_, _, e1, rfl⟩) ?_
    rintro - _ rfl
    rw [if_neg ho]
    exact e3

/-- C126 (error). A diagonal with a nonnegative offset that has more entries than the matrix has rows is refused. The arrays were reserved before: the object then has `nnz` entries with
values that were never written. -/
theorem C126_diagonal_error {A : CooMat T} (hc : CooEmpty A) {vals : Buf T} {nnz offset : Int} (h0 : 0 < nnz) (ho : 0 ≤ offset) (hr : A.nRows < nnz) :
    ∃ e A', cooFromDiag vals nnz offset A = (.throw e, A') ∧ A'.nnz = nnz ∧ ∀ p, 0 ≤ p → p < nnz → (ptr A'.vals) p = .uninit ∧ (ptr A'.rows) p = .uninit ∧ (ptr A'.cols) p = .uninit := by
  refine ⟨.require, { A with nnz := nnz, vals := some (Buf.alloc T nnz), rows := some (Buf.alloc Int nnz), cols := some (Buf.alloc Int nnz) }, ?_, rfl, ?_⟩
  · unfold cooFromDiag
    rw [M.bind_ok (reserveCoo_spec hc.own hc.vals hc.rows hc.cols _)]
    rw [show (if offset ≥ 0 then _ else _ : M (CooMat T) Unit) = _ from if_pos ho]
    rw [M.bind_ok (show M.get _ = (.ok _, _) from rfl)]
    exact M.bind_throw (by simp [M.require, M.lift, Res.require, not_le.mpr hr, h0])
  · intro p p0 p1
    simp [ptr, Buf.alloc, p0, p1]

/-- C126 (counterexample, for all sizes). Nothing else is checked: a diagonal with a nonnegative offset that goes beyond the last column, or one with a negative offset that goes beyond the
last row or column, gives a matrix with entries out of range. -/
theorem C126_diagonal_out_of_range [AddCommMonoid T] {A : CooMat T} (hc : CooEmpty A) {vals : Buf T} {d : Int → T} {nnz offset : Int} (h0 : 0 < nnz)
    (hv : ∀ p, 0 ≤ p → p < nnz → vals p = .val (d p))
    (h : (0 ≤ offset ∧ nnz ≤ A.nRows ∧ A.nCols < nnz + offset) ∨ (offset < 0 ∧ (A.nRows < nnz - offset ∨ A.nCols < nnz))) :
    M.wp (cooFromDiag vals nnz offset) A (fun _ A' => ∃ E, CooIs A' E ∧ ¬ InRange A'.nRows A'.nCols E) := by
  refine M.wp_mono (C126_diagonal_partial hc h0.le hv (fun ho => by omega)) ?_
  rintro - A' ⟨E, h1, -, -, -, h2, h3, h4, -⟩
  refine ⟨E, h1, ?_⟩
  rw [h3, h4, h2]
  unfold diagLen
  split_ifs <;> omega

/-! ## The diagonal tests -/

section
variable [Field T]

theorem diagValues_spec {len : Int} (h0 : 0 ≤ len) (h1 : len < intMax 32) :
    M.wp (diagValues (T := T) len) (zeroVec len) (fun _ b => ∀ p, 0 ≤ p → p < len → b p = .val (((p + 1 : Int) : T) / 2)) := by
  unfold diagValues
  rw [M.wp_bind]
  refine M.wp_forI (fun i b => ∀ p, 0 ≤ p → p < len → b p = .val (if p < i - 1 then ((p + 1 : Int) : T) / 2 else 0)) (by omega) ?_ ?_ ?_
  · intro p p0 p1
    unfold zeroVec Buf.ofFn
    rw [if_pos ⟨p0, p1⟩, if_neg (by omega)]
  · intro i b i0 i1 h
    rw [M.wp_wr]
    refine ⟨by rw [h _ (by omega) (by omega)]; simp, fun p p0 p1 => ?_⟩
    by_cases e : p = i - 1
    · subst e
      rw [Buf.set_same, if_pos (by omega), sub_add_cancel]
      congr 1
      ring
    · rw [Buf.set_ne e, h p p0 p1]
      congr 1
      exact if_congr (by omega) rfl rfl
  · intro b h
    rw [if_neg (by omega), M.wp_pure]
    intro p p0 p1
    rw [h p p0 p1, if_pos (by omega)]

/-- The length of the diagonal is positive exactly if ... -/
theorem diagLen_pos {m n offset : Int} (h : 0 < diagLen m n offset) : 0 < m ∧ 0 < n ∧ -m < offset ∧ offset < n := by
  unfold diagLen at h
  split_ifs at h <;> omega

theorem diagExpect_spec {diag : Buf T} {d : Int → T} {m n offset : Int} (hl : 0 < diagLen m n offset) (hv : ∀ p, 0 ≤ p → p < diagLen m n offset → diag p = .val (d p)) :
    M.wp (diagExpect diag m (diagLen m n offset) offset) (zeroVec (m * n)) (fun _ b => Holds b .ColMajor m m n (diagMat d offset (diagLen m n offset))) := by
  obtain ⟨hm, hn, -⟩ := diagLen_pos hl
  have hz : Holds (zeroVec (m * n) : Buf T) .ColMajor m m n (fun _ _ => 0) := by
    have := ofFn_holds (m := m) (n := n) .ColMajor (fun _ => (0 : T))
    exact this
  have hld : LdOk .ColMajor m m n := ldOk_tight .ColMajor m n
  have st := MatSt.of_holds hz
  have step : ∀ (k : Int) (b : Buf T), 0 ≤ k → k < diagLen m n offset → MatSt (zeroVec (m * n)) (addr .ColMajor m) m n (fun i j => .val (diagMat d offset k i j)) b →
      M.wp (do let v ← M.lift (diag.rd k); M.wr (addr .ColMajor m (if 0 ≤ offset then k else k - offset) (if 0 ≤ offset then k + offset else k)) v) b
        (fun _ b' => MatSt (zeroVec (m * n)) (addr .ColMajor m) m n (fun i j => .val (diagMat d offset (k + 1) i j)) b') := by
    intro k b k0 k1 h
    rw [M.wp_bind, M.wp_lift]
    refine ⟨_, Buf.rd_val (hv k k0 k1), ?_⟩
    refine h.wp_wr (adInj_addr hld) (by unfold diagLen at k1; unfold InR; split_ifs at k1 ⊢ <;> omega) (by simp) fun b' h' => h'.congr fun i j hij => ?_
    obtain ⟨i0, -, j0, -⟩ := hij
    unfold diagMat
    by_cases ho : 0 ≤ offset
    · simp only [if_pos ho]
      by_cases e : j - i = offset ∧ min i j = k
      · have e2 := e.2
        rw [if_pos (by omega), if_pos (by omega), e2]
      · rw [if_neg (by omega)]
        congr 1
        exact if_congr (by omega) rfl rfl
    · simp only [if_neg ho]
      by_cases e : j - i = offset ∧ min i j = k
      · have e2 := e.2
        rw [if_pos (by omega), if_pos (by omega), e2]
      · rw [if_neg (by omega)]
        congr 1
        exact if_congr (by omega) rfl rfl
  have s0 : MatSt (zeroVec (m * n)) (addr .ColMajor m) m n (fun i j => .val (diagMat d offset 0 i j)) (zeroVec (m * n) : Buf T) :=
    st.congr fun i j hij => by
      unfold diagMat
      rw [if_neg (by have := hij.1; have := hij.2.2.1; omega)]
  unfold diagExpect
  by_cases ho : 0 ≤ offset
  · rw [if_pos ho]
    refine M.wp_forI (fun k b => MatSt (zeroVec (m * n)) (addr .ColMajor m) m n (fun i j => .val (diagMat d offset k i j)) b) hl.le s0 ?_ fun b h => MatSt.holds h
    intro k b k0 k1 h
    have := step k b k0 k1 h
    rw [if_pos ho, if_pos ho] at this
    simpa only [addr, mul_comm] using this
  · rw [if_neg ho]
    refine M.wp_forI (fun k b => MatSt (zeroVec (m * n)) (addr .ColMajor m) m n (fun i j => .val (diagMat d offset k i j)) b) hl.le s0 ?_ fun b h => MatSt.holds h
    intro k b k0 k1 h
    have := step k b k0 k1 h
    rw [if_neg ho, if_neg ho] at this
    simpa only [addr, mul_comm] using this

omit [Field T] in
theorem mkCoo_empty {m n : Int} : CooEmpty (mkCoo m n : CooMat T) := ⟨rfl, rfl, rfl, rfl, rfl⟩
omit [Field T] in
theorem mkCsc_empty {m n : Int} (hn : 0 ≤ n) : CscEmpty (mkCsc m n : CscMat T) := ⟨rfl, rfl, rfl, (fun b h => absurd h (by simp [mkCsc])), rfl, hn⟩
omit [Field T] in
theorem mkCsr_empty {m n : Int} (hm : 0 ≤ m) : CsrEmpty (mkCsr m n : CsrMat T) := ⟨rfl, rfl, rfl, (fun b h => absurd h (by simp [mkCsr])), rfl, hm⟩

/-- The data of the diagonal tests. -/
theorem diagData_spec {m n offset : Int} (hl : 0 < diagLen m n offset) (h32 : diagLen m n offset < intMax 32) :
    M.wp (diagData (T := T) m n offset) () (fun r _ => ∃ E d, Holds r.1 .ColMajor m m n (diagMat d offset (diagLen m n offset)) ∧ (∀ p : Int, d p = ((p + 1 : Int) : T) / 2) ∧ CooIs r.2 E ∧
      InRange m n E ∧ (E.map Entry.pos).Nodup ∧ (∀ i j, 0 ≤ i → 0 ≤ j → toMat E i j = diagMat d offset (diagLen m n offset) i j) ∧
      r.2.nRows = m ∧ r.2.nCols = n ∧ r.2.indexBase = .Zero) := by
  obtain ⟨hm, hn, -⟩ := diagLen_pos hl
  unfold diagData
  simp only [M.wp_bind, M.wp_require, M.wp_onLocal]
  refine ⟨hl, M.wp_mono (diagValues_spec hl.le h32) ?_⟩
  intro _ diag hd
  refine M.wp_mono (diagExpect_spec hl hd) ?_
  intro _ ex hx
  refine M.wp_mono (C126_diagonal_partial (A := mkCoo m n) mkCoo_empty hl.le hd (fun ho => by unfold diagLen; show _ ≤ m; rw [if_pos ho]; omega)) ?_
  rintro _ A' ⟨E, g1, -, g2, g3, g4, g5, g6, g7, -⟩
  rw [M.wp_pure]
  exact ⟨E, _, hx, fun _ => rfl, g1, g4.mpr (Or.inr le_rfl), g2, g3, g5, g6, g7⟩

theorem strAlloc_zeroVec {m n : Int} : StrAlloc (zeroVec (m * n) : Buf T) 1 m m n := fun i j h => by
  obtain ⟨q0, q1⟩ := flat_bounds h
  rw [mul_one]
  unfold zeroVec Buf.ofFn
  rw [if_pos ⟨q0, q1⟩]
  simp

variable [LinearOrder T]

theorem close_self {atol : T} (h : 0 ≤ atol) (rtol a : T) : Close atol rtol a a := Or.inl (by simpa [abs] using h)

/-- C126 (CSC). `test_csc_from_diag_coo` accepts `coo_to_csc` and `csc_to_dense` for every size and offset for which the diagonal is not empty. -/
theorem C126_csc_diagonal_test {srt : SortFn T} (hs : SortOk srt) {atol rtol : T} (ha : 0 ≤ atol) {m n offset : Int} (hl : 0 < diagLen m n offset) (h32 : diagLen m n offset < intMax 32) :
    M.wp (testCscFromDiag srt atol rtol m n offset) () (fun r _ => r = none) := by
  obtain ⟨hm, hn, -⟩ := diagLen_pos hl
  unfold testCscFromDiag
  simp only [M.wp_bind, M.wp_onLocal]
  refine M.wp_mono (diagData_spec hl h32) ?_
  rintro ⟨ex, coo⟩ _ ⟨E, d, h1, -, h2, h3, h4, h5, h6, h7, h8⟩
  dsimp only at h1 h2 h6 h7 h8 ⊢
  refine M.wp_mono (C26_csc (csc := mkCsc m n) hs h2 (by rw [h6, h7]; exact h3) h8 (mkCsc_empty hn.le) ⟨h6.symm, h7.symm⟩) ?_
  rintro _ ⟨coo', csc⟩ ⟨E', g1, -, g2, -, g3, g4, g5, -⟩
  dsimp only at g2 g3 g4 g5 ⊢
  rw [h6] at g3
  rw [h7] at g4
  have := C28_csc_to_dense (A := csc) (sr := 1) (sc := m) (b := zeroVec (m * n)) g2 g5 (by rw [g3, g4]; exact inRange_perm h3 g1) (by omega) (by omega)
    (by rw [g3, g4]; exact strInj_col) (by rw [g3, g4]; exact strAlloc_zeroVec)
  rw [g3, g4] at this
  unfold cscToDense
  rw [if_pos rfl, g3]
  refine M.wp_mono this ?_
  rintro _ b ⟨f1, -⟩
  rw [M.wp_lift]
  have hb : Holds b .ColMajor m m n (diagMat d offset (diagLen m n offset)) := fun i j hij => by
    rw [show addr .ColMajor m i j = i * 1 + j * m by rw [mul_one]; rfl, f1 i j hij,
      overwrite_eq_toMat ((g1.map Entry.pos).nodup_iff.mpr h4), toMat_perm g1, h5 i j hij.1 hij.2.2.1]
  rcases C118_matrices_partial (op := .NoTrans) hm.le hn.le (fltBuf_holds h1) (fltBuf_holds hb) atol rtol with ⟨e, -⟩ | ⟨i, j, -, -, e⟩
  · exact ⟨_, e, rfl⟩
  · exact absurd (close_self ha rtol _) e

/-- C126 (CSR). `test_csr_from_diag_coo` accepts `coo_to_csr` and `csr_to_dense` for every size and offset for which the diagonal is not empty, if there are at most 2^31 columns.
Missing: more columns (C28: `csr_to_dense` keeps column indices in an `int`). -/
theorem C126_csr_diagonal_test_partial {srt : SortFn T} (hs : SortOk srt) {atol rtol : T} (ha : 0 ≤ atol) {m n offset : Int} (hl : 0 < diagLen m n offset)
    (h32 : diagLen m n offset < intMax 32) (hc : n ≤ 2 ^ 31) : M.wp (testCsrFromDiag srt atol rtol m n offset) () (fun r _ => r = none) := by
  obtain ⟨hm, hn, -⟩ := diagLen_pos hl
  unfold testCsrFromDiag
  simp only [M.wp_bind, M.wp_onLocal]
  refine M.wp_mono (diagData_spec hl h32) ?_
  rintro ⟨ex, coo⟩ _ ⟨E, d, h1, -, h2, h3, h4, h5, h6, h7, h8⟩
  dsimp only at h1 h2 h6 h7 h8 ⊢
  refine M.wp_mono (C26_csr (csr := mkCsr m n) hs h2 (by rw [h6, h7]; exact h3) h8 (mkCsr_empty hm.le) ⟨h6.symm, h7.symm⟩) ?_
  rintro _ ⟨coo', csr⟩ ⟨E', g1, -, g2, -, g3, g4, g5, -⟩
  dsimp only at g2 g3 g4 g5 ⊢
  rw [h6] at g3
  rw [h7] at g4
  have := C28_csr_to_dense_partial (A := csr) (sr := 1) (sc := m) (b := zeroVec (m * n)) g2 g5 (by rw [g3, g4]; exact inRange_perm h3 g1)
    (fun e he => by have := (inRange_perm h3 g1 e he).2.2.2; omega) (by omega) (by omega)
    (by rw [g3, g4]; exact strInj_col) (by rw [g3, g4]; exact strAlloc_zeroVec)
  rw [g3, g4] at this
  unfold csrToDense
  rw [if_pos rfl, g3]
  refine M.wp_mono this ?_
  rintro _ b ⟨f1, -⟩
  rw [M.wp_lift]
  have hb : Holds b .ColMajor m m n (diagMat d offset (diagLen m n offset)) := fun i j hij => by
    rw [show addr .ColMajor m i j = i * 1 + j * m by rw [mul_one]; rfl, f1 i j hij,
      overwrite_eq_toMat ((g1.map Entry.pos).nodup_iff.mpr h4), toMat_perm g1, h5 i j hij.1 hij.2.2.1]
  rcases C118_matrices_partial (op := .NoTrans) hm.le hn.le (fltBuf_holds h1) (fltBuf_holds hb) atol rtol with ⟨e, -⟩ | ⟨i, j, -, -, e⟩
  · exact ⟨_, e, rfl⟩
  · exact absurd (close_self ha rtol _) e

/-! ## Random data -/

/-- The matrix that `iid_sparsify_random_dense` of the tests makes. -/
def Spec.sparsifiedTest (G : Gen N K W T) (sqrt3 p : T) (m n : Int) (seed : RNGState N K) (i j : Int) : T :=
  if (sqrt3 * flatUnif G m n seed (i + j * m) + 1) / 2 < p then 0 else sqrt3 * flatUnif G m n (afterDense G m n seed) (i + j * m)

variable [IsStrictOrderedRing T]

theorem test_threshold {sqrt3 p s : T} (h3 : sqrt3 * sqrt3 = 3) (hp : 0 < sqrt3) : (s + 1) / 2 < p ↔ (s + sqrt3) / 2 * sqrt3 < (sqrt3 * (2 * p - 1) + 3) / 2 := by
  have e : (s + sqrt3) / 2 * sqrt3 = (sqrt3 * s + 3) / 2 := by rw [← h3]; ring
  rw [e, div_lt_iff₀ two_pos, div_lt_div_iff_of_pos_right two_pos, add_lt_add_iff_right, mul_lt_mul_iff_right₀ hp]
  constructor <;> intro h <;> linarith

/-- The version of the tests is the version of the examples with another threshold. -/
theorem iidSparsifyTest_eq {s1 s2 : List Nat} {G : Gen N K W T} {sqrt3 p : T} (h3 : sqrt3 * sqrt3 = 3) (hp : 0 < sqrt3) (m n sr sc : Int) (seed : RNGState N K) :
    iidSparsifyTest s1 s2 G sqrt3 m n sr sc p seed = iidSparsify s1 s2 G sqrt3 m n sr sc ((sqrt3 * (2 * p - 1) + 3) / 2) seed := by
  unfold iidSparsifyTest iidSparsify sparsifyEntryTest sparsifyEntry
  simp only [test_threshold (p := p) h3 hp]

theorem sparsifiedTest_eq {G : Gen N K W T} {sqrt3 p : T} (h3 : sqrt3 * sqrt3 = 3) (hp : 0 < sqrt3) (m n : Int) (seed : RNGState N K) :
    sparsified G sqrt3 ((sqrt3 * (2 * p - 1) + 3) / 2) m n seed = sparsifiedTest G sqrt3 p m n seed := by
  funext i j
  unfold sparsified sparsifiedTest
  refine if_congr ?_ rfl rfl
  rw [test_threshold h3 hp, show ∀ x : T, (sqrt3 * x + sqrt3) / 2 * sqrt3 = 3 * ((x + 1) / 2) from fun x => by rw [← h3]; ring]

/-- C126. `iid_sparsify_random_dense` of the tests samples two uniform operators, one after the other. Entry (i, j) is zero if `(s + 1) / 2 < prob_of_zero` for the entry `s` of the first, and otherwise
it is the entry of the second. Nothing outside the matrix changes. -/
theorem C126_sparsify {s1 s2 : List Nat} {G : Gen N K W T} {sqrt3 p : T} {m n sr sc : Int} {seed : RNGState N K} {b : Buf T} (hG : G.Ok)
    (h3 : sqrt3 * sqrt3 = 3) (hp : 0 < sqrt3) (hm : 0 < m) (hn : 0 < n) (hmn : m * n ≤ intMax 64) (hi : StrInj sr sc m n) (hal : StrAlloc b sr sc m n) :
    M.wp (iidSparsifyTest s1 s2 G sqrt3 m n sr sc p seed) b (fun _ b' => StrHolds b' sr sc m n (sparsifiedTest G sqrt3 p m n seed) ∧ StrSame b b' sr sc m n) := by
  rw [iidSparsifyTest_eq h3 hp, ← sparsifiedTest_eq h3 hp]
  exact C107_entries_partial hG h3 hm hn hmn hi hal

/-- The strides of a layout. -/
theorem str_addr (layout : Layout) (m n i j : Int) :
    addr layout (tightLd layout m n) i j = i * (if layout = .ColMajor then 1 else n) + j * (if layout = .ColMajor then m else 1) := by
  cases layout <;> simp [addr, tightLd, mul_comm, add_comm]

theorem strInj_tight (layout : Layout) {m n : Int} : StrInj (if layout = .ColMajor then 1 else n) (if layout = .ColMajor then m else 1) m n := by
  intro i j i' j' h h' e
  rw [← str_addr, ← str_addr] at e
  exact adInj_addr (ldOk_tight layout m n) _ _ _ _ h h' e

/-- C126 (with a layout). -/
theorem C126_sparsify_layout {s1 s2 : List Nat} {G : Gen N K W T} {sqrt3 p : T} {m n : Int} {layout : Layout} {seed : RNGState N K} {b : Buf T} (hG : G.Ok)
    (h3 : sqrt3 * sqrt3 = 3) (hp : 0 < sqrt3) (hm : 0 < m) (hn : 0 < n) (hmn : m * n ≤ intMax 64) (hal : Alloc b layout (tightLd layout m n) m n) :
    M.wp (iidSparsifyLayout s1 s2 G sqrt3 m n layout p seed) b (fun _ b' => Holds b' layout (tightLd layout m n) m n (sparsifiedTest G sqrt3 p m n seed)) := by
  have := C126_sparsify (s1 := s1) (s2 := s2) (p := p) (seed := seed) (b := b) hG h3 hp hm hn hmn (strInj_tight layout) (fun i j h => by rw [← str_addr]; exact hal i j h)
  have e : iidSparsifyLayout s1 s2 G sqrt3 m n layout p seed =
      iidSparsifyTest s1 s2 G sqrt3 m n (if layout = .ColMajor then 1 else n) (if layout = .ColMajor then m else 1) p seed := by
    cases layout <;> rfl
  rw [e]
  refine M.wp_mono this fun _ b' h i j hij => ?_
  rw [str_addr]
  exact h.1 i j hij

theorem keep_zero (x : T) : (if 0 < |x| then x else 0) = x := by
  split_ifs with h
  · rfl
  · exact (abs_nonpos_iff.mp (not_lt.mp h)).symm

omit [IsStrictOrderedRing T] in
/-- The comparison at the end of the random tests. -/
theorem flat_accepts {b b' : Buf T} {layout : Layout} {m n : Int} {F : Int → Int → T} {atol rtol : T} (ha : 0 ≤ atol) (hm : 0 < m) (hn : 0 < n)
    (h : Holds b layout (tightLd layout m n) m n F) (h' : Holds b' layout (tightLd layout m n) m n F) :
    buffsApproxEqual (fltBuf b) (fltBuf b') (m * n) (.fin atol) (.fin rtol) = .ok none := by
  have hv : ∀ p, 0 ≤ p → p < m * n → ∃ x, b p = .val x ∧ b' p = .val x := fun p p0 p1 => by
    obtain ⟨i, j, hij, rfl⟩ := tight_pos (layout := layout) hm hn p0 p1
    exact ⟨_, h i j hij, h' i j hij⟩
  choose! x hx using hv
  rcases C118_buffs_partial (mul_pos hm hn).le (fun i h0 h1 => fltBuf_val (hx i h0 h1).1) (fun i h0 h1 => fltBuf_val (hx i h0 h1).2) atol rtol with ⟨e, -⟩ | ⟨i, -, -, -, e, -⟩
  · exact e
  · exact absurd (close_self ha rtol _) e

/-- C126 (CSC). `test_csc_from_random_sparsified` accepts `dense_to_csc` and `csc_to_dense` for every size, layout, probability and seed. -/
theorem C126_csc_random_test {s1 s2 : List Nat} {G : Gen N K W T} {sqrt3 p atol rtol : T} {m n : Int} {layout : Layout} {seed : RNGState N K} (hG : G.Ok)
    (h3 : sqrt3 * sqrt3 = 3) (hp : 0 < sqrt3) (hm : 0 < m) (hn : 0 < n) (hmn : m * n ≤ intMax 64) (ha : 0 ≤ atol) :
    M.wp (testCscFromRandom s1 s2 G sqrt3 atol rtol layout m n p seed) () (fun r _ => r = none) := by
  unfold testCscFromRandom
  simp only [M.wp_bind, M.wp_onLocal]
  refine M.wp_mono (C126_sparsify_layout hG h3 hp hm hn hmn (alloc_alloc layout m n)) ?_
  intro _ dn hd
  have hal := alloc_alloc (T := T) layout m n
  have w := C28_dense_to_csc (A := mkCsc m n) (sr := if layout = .ColMajor then 1 else n) (sc := if layout = .ColMajor then m else 1) (mat := dn) (mkCsc_empty hn.le) hm.le (0 : T)
    (F := sparsifiedTest G sqrt3 p m n seed) (fun i j hij => by rw [← str_addr]; exact hd i j hij)
  have w1 : ∀ Q, M.wp (denseToCscStr (if layout = .ColMajor then 1 else n) (if layout = .ColMajor then m else 1) dn (0 : T)) (mkCsc m n) Q → M.wp (denseToCsc layout dn 0) (mkCsc m n) Q := by
    intro Q h
    have e1 : denseToCsc layout dn (0 : T) (mkCsc m n) = denseToCscStr (if layout = .ColMajor then 1 else n) (if layout = .ColMajor then m else 1) dn 0 (mkCsc m n) := by
      cases layout <;> rfl
    unfold M.wp; rw [e1]; exact h
  refine w1 _ (M.wp_mono w ?_)
  rintro _ A ⟨E, hk, he, -, d1, d2, hb0, -⟩
  replace d1 : A.nRows = m := d1
  replace d2 : A.nCols = n := d2
  have hir : InRange m n E := kept_inRange hk
  have e2 : cscToDense A layout = cscToDenseStr A (if layout = .ColMajor then 1 else n) (if layout = .ColMajor then m else 1) := by
    unfold cscToDense
    rw [d1, d2]
    cases layout <;> rfl
  have v := C28_csc_to_dense (A := A) (sr := if layout = .ColMajor then 1 else n) (sc := if layout = .ColMajor then m else 1) (b := Buf.alloc T (m * n)) he hb0 (by rw [d1, d2]; exact hir) (by omega)
    (by omega) (by rw [d1, d2]; exact strInj_tight layout) (by rw [d1, d2]; exact fun i j hij => by rw [← str_addr]; exact hal i j hij)
  rw [e2]
  refine M.wp_mono v fun _ b h => ?_
  rw [M.wp_lift]
  refine ⟨_, flat_accepts ha hm hn hd (fun i j hij => ?_), rfl⟩
  rw [str_addr, h.1 i j (by rw [d1, d2]; exact hij), C28_kept_matrix hk hij, keep_zero]

/-- C126 (CSR). `test_csr_from_random_sparsified` accepts `dense_to_csr` and `csr_to_dense` for every size, layout, probability and seed, if there are at most 2^31 columns. Missing: more columns (C28). -/
theorem C126_csr_random_test_partial {s1 s2 : List Nat} {G : Gen N K W T} {sqrt3 p atol rtol : T} {m n : Int} {layout : Layout} {seed : RNGState N K} (hG : G.Ok)
    (h3 : sqrt3 * sqrt3 = 3) (hp : 0 < sqrt3) (hm : 0 < m) (hn : 0 < n) (hmn : m * n ≤ intMax 64) (ha : 0 ≤ atol) (hc : n ≤ 2 ^ 31) :
    M.wp (testCsrFromRandom s1 s2 G sqrt3 atol rtol layout m n p seed) () (fun r _ => r = none) := by
  unfold testCsrFromRandom
  simp only [M.wp_bind, M.wp_onLocal]
  refine M.wp_mono (C126_sparsify_layout hG h3 hp hm hn hmn (alloc_alloc layout m n)) ?_
  intro _ dn hd
  have hal := alloc_alloc (T := T) layout m n
  have w := C28_dense_to_csr (A := mkCsr m n) (sr := if layout = .ColMajor then 1 else n) (sc := if layout = .ColMajor then m else 1) (mat := dn) (mkCsr_empty hm.le) hn.le (0 : T)
    (F := sparsifiedTest G sqrt3 p m n seed) (fun i j hij => by rw [← str_addr]; exact hd i j hij)
  have w1 : ∀ Q, M.wp (denseToCsrStr (if layout = .ColMajor then 1 else n) (if layout = .ColMajor then m else 1) dn (0 : T)) (mkCsr m n) Q → M.wp (denseToCsr layout dn 0) (mkCsr m n) Q := by
    intro Q h
    have e1 : denseToCsr layout dn (0 : T) (mkCsr m n) = denseToCsrStr (if layout = .ColMajor then 1 else n) (if layout = .ColMajor then m else 1) dn 0 (mkCsr m n) := by
      cases layout <;> rfl
    unfold M.wp; rw [e1]; exact h
  refine w1 _ (M.wp_mono w ?_)
  rintro _ A ⟨E, hk, he, -, d1, d2, hb0, -⟩
  replace d1 : A.nRows = m := d1
  replace d2 : A.nCols = n := d2
  have hir : InRange m n E := kept_inRange hk
  have e2 : csrToDense A layout = csrToDenseStr A (if layout = .ColMajor then 1 else n) (if layout = .ColMajor then m else 1) := by
    unfold csrToDense
    rw [d1, d2]
    cases layout <;> rfl
  have v := C28_csr_to_dense_partial (A := A) (sr := if layout = .ColMajor then 1 else n) (sc := if layout = .ColMajor then m else 1) (b := Buf.alloc T (m * n)) he hb0 (by rw [d1, d2]; exact hir) (fun e he => by have := (hir e he).2.2.2; omega) (by omega)
    (by omega) (by rw [d1, d2]; exact strInj_tight layout) (by rw [d1, d2]; exact fun i j hij => by rw [← str_addr]; exact hal i j hij)
  rw [e2]
  refine M.wp_mono v fun _ b h => ?_
  rw [M.wp_lift]
  refine ⟨_, flat_accepts ha hm hn hd (fun i j hij => ?_), rfl⟩
  rw [str_addr, h.1 i j (by rw [d1, d2]; exact hij), C28_kept_matrix hk hij, keep_zero]

/-- C126 (COO). `test_to_from_dense` accepts `dense_to_coo` and `coo_to_dense` for every size, probability and seed; the number of entries that it checks is the number of nonzeros of
the matrix. -/
theorem C126_coo_random_test {s1 s2 : List Nat} {G : Gen N K W T} {sqrt3 p atol rtol : T} {n : Int} {seed : RNGState N K} (hG : G.Ok)
    (h3 : sqrt3 * sqrt3 = 3) (hp : 0 < sqrt3) (hn : 0 < n) (hmn : n * n ≤ intMax 64) (ha : 0 ≤ atol) :
    M.wp (testCooToFromDense s1 s2 G sqrt3 atol rtol n p seed) () (fun r _ => r.1 = none ∧ ∃ E, r.2 = (E.length : Int) ∧ Kept n n (sparsifiedTest G sqrt3 p n n seed) 0 E) := by
  unfold testCooToFromDense
  simp only [M.wp_bind, M.wp_onLocal]
  refine M.wp_mono (C126_sparsify_layout hG h3 hp hn hn hmn (ofFn_alloc .ColMajor _)) ?_
  intro _ dn hd
  have w := C28_dense_to_coo (A := mkCoo n n) (sr := 1) (sc := n) (mat := dn) mkCoo_empty hn.le hn.le (0 : T)
    (F := sparsifiedTest G sqrt3 p n n seed) (fun i j hij => by rw [mul_one]; exact hd i j hij)
  refine M.wp_mono w ?_
  rintro _ A ⟨E, hk, he, -, d1, d2, hb0, -⟩
  replace d1 : A.nRows = n := d1
  replace d2 : A.nCols = n := d2
  have hir : InRange n n E := kept_inRange hk
  have v := C28_coo_to_dense (A := A) (sr := 1) (sc := n) (b := zeroVec (n * n)) he (by rw [d1, d2]; exact hir) (by omega)
    (by omega) (by rw [d1, d2]; exact strInj_col) (by rw [d1, d2]; exact strAlloc_zeroVec)
  refine M.wp_mono v fun _ b h => ?_
  rw [M.wp_lift]
  refine ⟨_, flat_accepts (layout := .ColMajor) ha hn hn hd (fun i j hij => ?_), ?_⟩
  · have := h.1 i j (by rw [d1, d2]; exact hij)
    rw [mul_one, C28_kept_matrix hk hij, keep_zero] at this
    exact this
  · rw [M.wp_pure]
    exact ⟨rfl, E, he.nnz, hk⟩

end

/-! ## The probability of a zero -/

section
variable [NeZero N] {L : Nat} [NeZero L] [Fintype W] [Nonempty W]

/-- C126 (counterexample, for all sizes and all strides). If all words of the generator are independent and uniform and give the midpoints of `B` intervals of [-1, 1], then every entry is zero with
a probability within 1 / (2 B) of `1/2 + (prob_of_zero - 1/2) / sqrt(3)`. This is more than `prob_of_zero` if that is below one half, and less if it is above. -/
theorem C126_probability_counterexample {s1 s2 : List Nat} {G : Gen N K W ℝ} {p : ℝ} {m n sr sc : Int}
    {seed : RNGState N K} {b : Buf ℝ} (hG : G.Ok) (hl : G.len = L) (hm : 0 < m) (hn : 0 < n) (hmn : m * n ≤ intMax 64) (hi : StrInj sr sc m n)
    (hal : StrAlloc b sr sc m n) (hnz : ∀ w, G.uneg11 w ≠ 0) (hN : min m n * countersPerVector L (max m n) ≤ N) {B : Nat} (hB : 0 < B) (e : W ≃ Fin B)
    (hw : ∀ w, (G.uneg11 w + 1) / 2 = ((e w : ℕ) + 1 / 2 : ℝ) / B) (h0 : 0 ≤ p) (h1 : p ≤ 1) :
    ∃ A : (ZMod N × ZMod L → W) → Int → Int → ℝ,
      (∀ ω, M.wp (iidSparsifyTest s1 s2 (fromWords G ω) (Real.sqrt 3) m n sr sc p seed) b (fun _ b' => StrHolds b' sr sc m n (A ω))) ∧
      ∀ i j, InR m n i j → |Pr (fun ω => A ω i j = 0) - (1 / 2 + (p - 1 / 2) / Real.sqrt 3)| ≤ 1 / (2 * B) ∧
        (2 / B < 1 / 2 - p → p < Pr (fun ω => A ω i j = 0)) ∧ (2 / B < p - 1 / 2 → Pr (fun ω => A ω i j = 0) < p) := by
  have h3 : Real.sqrt 3 * Real.sqrt 3 = 3 := Real.mul_self_sqrt (by norm_num)
  have hp : 0 < Real.sqrt 3 := by positivity
  have hlt : Real.sqrt 3 ≤ 2 := by nlinarith
  obtain ⟨A, hA, hP⟩ := C107_zero_events (s1 := s1) (s2 := s2) (p := (Real.sqrt 3 * (2 * p - 1) + 3) / 2) (seed := seed) hG hl hm hn hmn hi hal hnz hN
  refine ⟨A, fun ω => by rw [iidSparsifyTest_eq h3 hp]; exact hA ω, fun i j hij => ?_⟩
  have h := hP {(i, j)} (fun z hz => by rw [mem_singleton] at hz; subst hz; exact hij)
  simp only [mem_singleton, forall_eq, prod_singleton] at h
  have hn := zeroProb_near hB e hw (p := (Real.sqrt 3 * (2 * p - 1) + 3) / 2) (by nlinarith) (by nlinarith)
  have hc : (Real.sqrt 3 * (2 * p - 1) + 3) / 2 / 3 = 1 / 2 + (p - 1 / 2) / Real.sqrt 3 := by
    have : (p - 1 / 2) / Real.sqrt 3 = Real.sqrt 3 * (p - 1 / 2) / 3 := by
      rw [div_eq_div_iff hp.ne' (by norm_num)]; linear_combination (-(p - 1 / 2)) * h3
    rw [this]; ring
  rw [h]
  rw [hc] at hn
  have hBr : (0 : ℝ) < B := by exact_mod_cast hB
  have hi3 : 1 / Real.sqrt 3 ≤ 3 / 5 := by
    rw [div_le_div_iff₀ hp (by norm_num)]
    nlinarith [Real.sqrt_nonneg 3]
  have hi3' : 0 < 1 / Real.sqrt 3 := by positivity
  have e1 : 1 / (2 * (B : ℝ)) = (2 / B) / 4 := by field_simp; norm_num
  have e2 : (p - 1 / 2) / Real.sqrt 3 = (p - 1 / 2) * (1 / Real.sqrt 3) := by ring
  have hB2 : (0 : ℝ) < 2 / B := by positivity
  refine ⟨hn, fun hq => ?_, fun hq => ?_⟩
  · have := (abs_le.mp hn).1
    rw [e1, e2] at this
    nlinarith
  · have := (abs_le.mp hn).2
    rw [e1, e2] at this
    nlinarith

end

/-! ## Examples -/

/-- A diagonal above the main diagonal of a 3 x 5 matrix. -/
example : M.wp (cooFromDiag (Buf.ofFn 3 fun p => ((p : ℚ) + 1)) 3 2) (mkCoo 3 5) (fun _ A' => ∃ E, CooIs A' E ∧ InRange 3 5 E ∧ toMat E 1 3 = 2 ∧ toMat E 1 2 = 0) := by
  refine M.wp_mono (C126_diagonal_partial (d := fun p => (p : ℚ) + 1) mkCoo_empty (by norm_num) (fun p p0 p1 => by simp [Buf.ofFn, p0, p1]) (fun _ => by simp [mkCoo])) ?_
  rintro - A' ⟨E, h1, -, -, h2, h3, -⟩
  refine ⟨E, h1, h3.mpr (Or.inr (by simp [diagLen, mkCoo])), ?_, ?_⟩
  · rw [h2 1 3 (by norm_num) (by norm_num)]; norm_num [diagMat]
  · rw [h2 1 2 (by norm_num) (by norm_num)]; norm_num [diagMat]

/-- A diagonal that does not fit. -/
example : M.wp (cooFromDiag (Buf.ofFn 3 fun p => ((p : ℚ) + 1)) 3 1) (mkCoo 3 3) (fun _ A' => ∃ E, CooIs A' E ∧ ¬ InRange A'.nRows A'.nCols E) :=
  C126_diagonal_out_of_range (d := fun p => (p : ℚ) + 1) mkCoo_empty (by norm_num) (fun p p0 p1 => by simp [Buf.ofFn, p0, p1]) (Or.inl ⟨by norm_num, by simp [mkCoo], by simp [mkCoo]⟩)

/-- A refused diagonal. -/
example : ∃ e A', cooFromDiag (Buf.ofFn 4 fun p => (p : ℚ)) 4 0 (mkCoo 3 5) = (.throw e, A') ∧ A'.nnz = 4 := by
  obtain ⟨e, A', h1, h2, -⟩ := C126_diagonal_error (T := ℚ) (A := mkCoo 3 5) (vals := Buf.ofFn 4 fun p => (p : ℚ)) (nnz := 4) (offset := 0) mkCoo_empty (by norm_num) (by norm_num) (by simp [mkCoo])
  exact ⟨e, A', h1, h2⟩

/-- The diagonal tests of the suite on 10 x 5 matrices. -/
example {srt : SortFn ℚ} (hs : SortOk srt) : M.wp (testCscFromDiag srt (1 / 1000) 0 10 5 (-4)) () (fun r _ => r = none) ∧ M.wp (testCsrFromDiag srt (1 / 1000) 0 10 5 (-4)) () (fun r _ => r = none) :=
  ⟨C126_csc_diagonal_test hs (by norm_num) (by decide) (by decide), C126_csr_diagonal_test_partial hs (by norm_num) (by decide) (by decide) (by norm_num)⟩

/-- The random tests of the suite. -/
example (seed : RNGState (2 ^ 128) Nat) : M.wp (testCscFromRandom [] [] midGenR (Real.sqrt 3) 0 0 .RowMajor 10 5 (7 / 10) seed) () (fun r _ => r = none) ∧
    M.wp (testCsrFromRandom [] [] midGenR (Real.sqrt 3) 0 0 .RowMajor 10 5 (7 / 10) seed) () (fun r _ => r = none) ∧
    M.wp (testCooToFromDense [] [] midGenR (Real.sqrt 3) 0 0 10 (8 / 10) seed) () (fun r _ => r.1 = none) := by
  have h3 : Real.sqrt 3 * Real.sqrt 3 = 3 := Real.mul_self_sqrt (by norm_num)
  have hp : 0 < Real.sqrt 3 := by positivity
  exact ⟨C126_csc_random_test (Or.inr rfl) h3 hp (by norm_num) (by norm_num) (by decide) le_rfl,
    C126_csr_random_test_partial (Or.inr rfl) h3 hp (by norm_num) (by norm_num) (by decide) le_rfl (by norm_num),
    M.wp_mono (C126_coo_random_test (Or.inr rfl) h3 hp (by norm_num) (by decide) le_rfl) fun _ _ h => h.1⟩

end RB
