import Verif.Lemmas.Dense
import Mathlib.Tactic.IntervalCases

/-!
# C01 - C07, C16, C47: dense sketching operators

`sched` is a schedule of the parallel loop (see `Core/Par.lean`). `G` is an arbitrary generator (with 2 or 4 words per counter).
Throughout, `DenseDistOk D` says that `D` is a value its constructor returns and that `n_rows * n_cols` is a
64-bit integer. A window is given by its size m x n and its offset (ro, co).
-/

namespace RB
open Spec
variable {N : Nat} {K W T : Type}

/-- The window lies inside the operator and is not empty. -/
def Spec.InWindow (D : DenseDist) (m n ro co : Int) : Prop :=
  0 < m ∧ 0 < n ∧ 0 ≤ ro ∧ 0 ≤ co ∧ ro + m ≤ D.nRows ∧ co + n ≤ D.nCols

/-- The first `len` cells are allocated (their content is arbitrary, possibly uninitialised). -/
def Spec.AllocTo (b : Buf T) (len : Int) : Prop := ∀ p, 0 ≤ p → p < len → b p ≠ .none

theorem Spec.allocTo_alloc (len : Int) : AllocTo (Buf.alloc T len) len := by
  intro p h0 h1; simp [Buf.alloc, h0, h1]

/-- A distribution, a window and a generator that satisfy all hypotheses used below: a 3 x 7 wide operator whose long axis (7)
is not a multiple of the number of words per counter (4), and a 2 x 3 window at offset (1, 2). -/
def exDist : DenseDist :=
  { nRows := 3, nCols := 7, majorAxis := .Long, dimMajor := 7, dimMinor := 3, family := .Uniform, naturalLayout := .RowMajor }

/-- An example generator. -/
def exGen : Gen (2 ^ 128) Nat Int Int :=
  { len := 4, word := fun c k i => c.val + k + i, boxmuller := fun a b => (a + b, a - b), uneg11 := fun a => a, nat := fun a => a.toNat }

example : exGen.Ok ∧ DenseDistOk exDist ∧ InWindow exDist 2 3 1 2 ∧ AllocTo (Buf.alloc Int 6) (2 * 3) :=
  ⟨Or.inr rfl, ⟨by decide, by decide⟩, by unfold InWindow; decide, allocTo_alloc 6⟩

/-! ## C01 -/

/-- C01 (formula). Entry (i, j) of the window is entry (i + ro, j + co) of the operator, which is a fixed formula in
(D, seed): it mentions neither the window, nor the layout, nor the schedule, nor the buffer. -/
theorem C01_entry_formula [Mul T] {sched : List Nat} {G : Gen N K W T} {sqrt3 : T} {layout : Layout} {D : DenseDist}
    {m n ro co : Int} {seed : RNGState N K} {b : Buf T} (hG : G.Ok) (hD : DenseDistOk D) (hw : InWindow D m n ro co)
    (hal : AllocTo b (m * n)) :
    M.wp (fillDenseUnpacked sched G sqrt3 layout D m n ro co seed) b (fun _ b' =>
      Holds b' layout (tightLd layout m n) m n (fun i j => denseEntry G sqrt3 D seed (i + ro) (j + co))) := by
  obtain ⟨h1, h2, h3, h4, h5, h6⟩ := hw
  exact M.wp_mono (fillUnpacked_spec hG hD h1 h2 h3 h4 h5 h6 hal) fun _ _ h => h.1

/-- C01. Filling any window writes exactly the corresponding entries of the one matrix that `fill_dense(D, buff, seed)` writes. -/
theorem C01_window [Mul T] {s1 s2 : List Nat} {G : Gen N K W T} {sqrt3 : T} {layout : Layout} {D : DenseDist}
    {m n ro co : Int} {seed : RNGState N K} {bFull bWin : Buf T} (hG : G.Ok) (hD : DenseDistOk D)
    (hw : InWindow D m n ro co) (hFull : AllocTo bFull (D.nRows * D.nCols)) (hWin : AllocTo bWin (m * n)) :
    M.wp (fillDense s1 G sqrt3 D seed) bFull (fun _ full =>
      M.wp (fillDenseUnpacked s2 G sqrt3 layout D m n ro co seed) bWin (fun _ win =>
        ∀ i j, InR m n i j → ∃ x, win (addr layout (tightLd layout m n) i j) = .val x ∧
          full (addr D.naturalLayout D.dimMajor (i + ro) (j + co)) = .val x)) := by
  obtain ⟨hR, hC, hfit, hlay⟩ := denseDist_facts hD
  have hld : tightLd D.naturalLayout D.nRows D.nCols = D.dimMajor := by
    rcases hlay with ⟨a, b, _⟩ | ⟨a, b, _⟩ <;> rw [a, b] <;> rfl
  unfold fillDense
  refine M.wp_mono (fillUnpacked_spec hG hD hR hC (le_refl 0) (le_refl 0) (by omega) (by omega) hFull) ?_
  rintro - full ⟨hf, -⟩
  obtain ⟨h1, h2, h3, h4, h5, h6⟩ := hw
  refine M.wp_mono (fillUnpacked_spec hG hD h1 h2 h3 h4 h5 h6 hWin) ?_
  rintro - win ⟨hwin, -⟩ i j hij
  refine ⟨_, hwin i j hij, ?_⟩
  have := hf (i + ro) (j + co) ⟨by have := hij.1; omega, by have := hij.2.1; omega, by have := hij.2.2.1; omega,
    by have := hij.2.2.2; omega⟩
  rw [hld] at this
  rw [this]; simp

/-! ## C02 -/

/-- C02. The final buffer and the returned state are the same under every schedule. -/
theorem C02_schedule_independent [Mul T] (s1 s2 : List Nat) {G : Gen N K W T} {sqrt3 : T} {layout : Layout}
    {D : DenseDist} {m n ro co : Int} {seed : RNGState N K} {b : Buf T} (hG : G.Ok) (hD : DenseDistOk D)
    (hw : InWindow D m n ro co) (hal : AllocTo b (m * n)) :
    fillDenseUnpacked s1 G sqrt3 layout D m n ro co seed b = fillDenseUnpacked s2 G sqrt3 layout D m n ro co seed b := by
  obtain ⟨h1, h2, h3, h4, h5, h6⟩ := hw
  obtain ⟨x, b1, e1, p1, q1, r1, t1⟩ := fillUnpacked_spec (sqrt3 := sqrt3) (layout := layout) (seed := seed)
    (sched := s1) hG hD h1 h2 h3 h4 h5 h6 hal
  obtain ⟨y, b2, e2, p2, q2, r2, t2⟩ := fillUnpacked_spec (sqrt3 := sqrt3) (layout := layout) (seed := seed)
    (sched := s2) hG hD h1 h2 h3 h4 h5 h6 hal
  rw [e1, e2]
  have hxy : x = y := by
    cases x; cases y; simp only at r1 r2 t1 t2; rw [r1, r2, t1, t2]
  have hb : b1 = b2 := by
    funext p
    by_cases hp : 0 ≤ p ∧ p < m * n
    · cases layout with
      | RowMajor =>
        have a1 := (holds_rowMajor_tight h2).mp p1 p hp.1 hp.2
        have a2 := (holds_rowMajor_tight h2).mp p2 p hp.1 hp.2
        rw [a1, a2]
      | ColMajor =>
        have f1 := (holds_flip (layout := .RowMajor) (b := b1)).mp p1
        have f2 := (holds_flip (layout := .RowMajor) (b := b2)).mp p2
        have a1 := (holds_rowMajor_tight h1).mp f1 p hp.1 (by rw [mul_comm]; exact hp.2)
        have a2 := (holds_rowMajor_tight h1).mp f2 p hp.1 (by rw [mul_comm]; exact hp.2)
        rw [a1, a2]
    · rw [q1 p hp, q2 p hp]
  rw [hxy, hb]

/-- C02 (no sharing). In the parallel loop of the fill, two different iterations never access a common cell: all accesses of
iteration `r`, whatever its loads return, lie in row `r` of the packed output. `pp` is the padded start
position; the other arguments are those `fill_dense_submat_impl` computes from it. -/
theorem C02_no_shared_cells {gen : ZMod N → K → Res (Buf T)} {L : Int} {c : ZMod N} {k : K}
    {lda stride pp nScols : Int} (hL : 0 < L) (hn : 0 < nScols) (hlda : nScols ≤ lda) :
    ∃ F : Int → Int → Prop,
      (∀ r, (fillRow gen L c k lda stride (pp % L)
        ((if pp / L = (pp + nScols - 1) / L then (pp + nScols - 1) % L + 1 else L) - pp % L)
        (pp / L) ((pp + nScols - 1) / L) ((pp + nScols - 1) % L + 1) (pp / L = (pp + nScols - 1) / L) r).Foot (F r)) ∧
      (∀ r r', r ≠ r' → ∀ p, F r p → ¬ F r' p) := by
  refine ⟨fun r p => r * lda ≤ p ∧ p < r * lda + nScols, fun r => fillRow_foot hL hn, ?_⟩
  intro i j hij p hp hq
  apply hij
  rcases lt_trichotomy i j with h | h | h
  · nlinarith
  · exact h
  · nlinarith

/-! ## C03 -/

theorem denseNextState_eq {L : Int} {D : DenseDist} {seed : RNGState N K} (hL : 0 < L) (hD : DenseDistOk D) :
    denseNextState L D seed =
      .ok { seed with counter := seed.counter + ((D.dimMinor * countersPerVector L D.dimMajor : Int) : ZMod N) } := by
  obtain ⟨hR, hC, hfit, hlay⟩ := denseDist_facts hD
  have hM : 0 < D.dimMajor ∧ 0 < D.dimMinor ∧ D.dimMajor * D.dimMinor ≤ intMax 64 := by
    rcases hlay with ⟨_, a, b⟩ | ⟨_, a, b⟩ <;> rw [a, b]
    · exact ⟨hR, hC, hfit⟩
    · exact ⟨hC, hR, by rw [mul_comm]; exact hfit⟩
  have hc0 := countersPerVector_nonneg (n := D.dimMajor) hL (by omega)
  have hc1 := countersPerVector_le (n := D.dimMajor) hL (by omega)
  have hmul : countersPerVector L D.dimMajor * D.dimMinor ≤ intMax 64 := by nlinarith
  have hstride : (D.dimMajor + (if D.dimMajor % L ≠ 0 then L - D.dimMajor % L else 0)).tdiv L
      = countersPerVector L D.dimMajor := by
    rw [pad_div hL, Int.tdiv_eq_ediv_of_nonneg (mul_nonneg (by omega) hc0), Int.mul_ediv_cancel_left _ (by omega)]
  have hmax : intMax 64 < 2 ^ 64 := by decide
  unfold denseNextState
  simp only
  rw [Int.tmod_eq_emod_of_nonneg (show 0 ≤ D.dimMajor by omega), hstride, safeIntProduct_ok hc0 (by omega) hmul]
  simp only [Res.ok_bind, Res.pure_eq, RNGState.incr]
  rw [ctrIncr_eq (mul_nonneg hc0 (by omega)) (by omega), mul_comm]

/-- C03. Filling the whole operator returns exactly the state the `DenseSkOp` constructor stores in `next_state`, for both
layouts; the key is that of the seed. -/
theorem C03_returns_next_state [Mul T] {sched : List Nat} {G : Gen N K W T} {sqrt3 : T} {layout : Layout}
    {D : DenseDist} {seed : RNGState N K} {b : Buf T} (hG : G.Ok) (hD : DenseDistOk D)
    (hal : AllocTo b (D.nRows * D.nCols)) :
    ∃ S : DenseSkOp N K T, mkDenseSkOp G.len D seed = .ok S ∧ S.nextState.key = seed.key ∧
      M.wp (fillDenseUnpacked sched G sqrt3 layout D D.nRows D.nCols 0 0 seed) b (fun s _ => s = S.nextState) := by
  have hlen : 0 < G.len := by rcases hG with h | h <;> rw [h] <;> decide
  obtain ⟨hR, hC, hfit, hlay⟩ := denseDist_facts hD
  refine ⟨_, by unfold mkDenseSkOp; rw [denseNextState_eq hlen hD]; rfl, rfl, ?_⟩
  refine M.wp_mono (fillUnpacked_spec hG hD hR hC (le_refl 0) (le_refl 0) (by omega) (by omega) hal) ?_
  rintro ⟨sc, sk⟩ b' ⟨-, -, hk, hc⟩
  simp only at hk hc
  rw [hk, hc]
  rcases hlay with ⟨a, b, c⟩ | ⟨a, b, c⟩ <;> simp [a, c]

/-! ## C04 (dense part) -/

/-- Two generators with the same transformations whose words agree at the counters in `P`. -/
structure Spec.AgreeOn (G G' : Gen N K W T) (P : ZMod N → Prop) : Prop where
  len : G'.len = G.len
  boxmuller : G'.boxmuller = G.boxmuller
  uneg11 : G'.uneg11 = G.uneg11
  nat : G'.nat = G.nat
  word : ∀ c k i, P c → G'.word c k i = G.word c k i

/-- The counters `start, start+1, ..., start+count-1` (with wrap-around). -/
def Spec.CtrRange (start : ZMod N) (count : Int) (c : ZMod N) : Prop := ∃ t : Int, 0 ≤ t ∧ t < count ∧ c = start + (t : ZMod N)

theorem genValue_agree {G G' : Gen N K W T} {P : ZMod N → Prop} (h : AgreeOn G G' P) {fam : ScalarDist} {c : ZMod N} {k : K}
    {i : Int} (hc : P c) : genValue G' fam c k i = genValue G fam c k i := by
  cases fam
  · simp only [genValue, h.boxmuller, h.word c k _ hc]
  · simp only [genValue, h.uneg11, h.word c k _ hc]

theorem div_lt_countersPerVector {L n p : Int} (hL : 0 < L) (h1 : p < n) : p / L < countersPerVector L n := by
  unfold countersPerVector
  have : p / L + 1 ≤ (n + L - 1) / L := by
    rw [show p / L + 1 = (p + L) / L by rw [Int.add_ediv_of_dvd_right (dvd_refl L), Int.ediv_self (by omega)]]
    exact Int.ediv_le_ediv hL (by omega)
  omega

/-- C04 (dense). The data of a dense operator, and of every window of it, depends on the generator only through its
values at the counters from the seed counter (inclusive) to the `next_state` counter (exclusive): two generators that agree
there produce the same buffer and the same state. -/
theorem C04_dense_range [Mul T] {sched : List Nat} {G G' : Gen N K W T} {sqrt3 : T} {layout : Layout}
    {D : DenseDist} {m n ro co : Int} {seed : RNGState N K} {b : Buf T} (hG : G.Ok) (hD : DenseDistOk D)
    (hw : InWindow D m n ro co) (hal : AllocTo b (m * n)) :
    ∃ (count : Int) (S : DenseSkOp N K T), 0 ≤ count ∧ mkDenseSkOp G.len D seed = .ok S ∧
      S.nextState.counter = seed.counter + (count : ZMod N) ∧
      (AgreeOn G G' (CtrRange seed.counter count) →
        fillDenseUnpacked sched G' sqrt3 layout D m n ro co seed b =
        fillDenseUnpacked sched G sqrt3 layout D m n ro co seed b) := by
  have hlen : 0 < G.len := by rcases hG with h | h <;> rw [h] <;> decide
  obtain ⟨hR, hC, hfit, hlay⟩ := denseDist_facts hD
  have hM : 0 < D.dimMajor ∧ 0 < D.dimMinor := by
    rcases hlay with ⟨_, a, b⟩ | ⟨_, a, b⟩ <;> rw [a, b]
    · exact ⟨hR, hC⟩
    · exact ⟨hC, hR⟩
  have hcv0 := countersPerVector_nonneg (n := D.dimMajor) hlen (by omega)
  refine ⟨D.dimMinor * countersPerVector G.len D.dimMajor, _, mul_nonneg (by omega) hcv0,
    by unfold mkDenseSkOp; rw [denseNextState_eq hlen hD]; rfl, rfl, ?_⟩
  intro hag
  have hG' : G'.Ok := by unfold Gen.Ok; rw [hag.len]; exact hG
  obtain ⟨h1, h2, h3, h4, h5, h6⟩ := hw
  obtain ⟨x, b1, e1, p1, q1, r1, t1⟩ := fillUnpacked_spec (sqrt3 := sqrt3) (layout := layout) (seed := seed)
    (sched := sched) hG hD h1 h2 h3 h4 h5 h6 hal
  obtain ⟨y, b2, e2, p2, q2, r2, t2⟩ := fillUnpacked_spec (sqrt3 := sqrt3) (layout := layout) (seed := seed)
    (sched := sched) hG' hD h1 h2 h3 h4 h5 h6 hal
  rw [e1, e2]
  have hxy : y = x := by
    cases x; cases y; simp only at r1 r2 t1 t2; rw [r1, r2, t1, t2, hag.len]
  have hraw : ∀ q p, 0 ≤ q → q < D.dimMinor → 0 ≤ p → p < D.dimMajor →
      denseRaw G' D.family D.dimMajor seed q p = denseRaw G D.family D.dimMajor seed q p := by
    intro q p hq0 hq1 hp0 hp1
    unfold denseRaw
    rw [hag.len]
    apply genValue_agree hag
    have hd := div_lt_countersPerVector hlen hp1
    have hd0 : 0 ≤ p / G.len := Int.ediv_nonneg hp0 (by omega)
    refine ⟨_, ?_, ?_, rfl⟩
    · have := mul_nonneg hq0 hcv0; omega
    · nlinarith
  have hent : ∀ i j, InR m n i j → denseEntry G' sqrt3 D seed (i + ro) (j + co) = denseEntry G sqrt3 D seed (i + ro) (j + co) := by
    rintro i j ⟨g1, g2, g3, g4⟩
    unfold denseEntry
    rcases hlay with ⟨a, b, c⟩ | ⟨a, b, c⟩
    · simp only [a]; rw [hraw _ _ (by omega) (by omega) (by omega) (by omega)]
    · simp only [a]; rw [hraw _ _ (by omega) (by omega) (by omega) (by omega)]
  have hb : b2 = b1 := by
    have p2' : Holds b2 layout (tightLd layout m n) m n (fun i j => denseEntry G sqrt3 D seed (i + ro) (j + co)) :=
      fun i j hij => (p2 i j hij).trans (by simp only; rw [hent i j hij])
    funext p
    by_cases hp : 0 ≤ p ∧ p < m * n
    · cases layout with
      | RowMajor =>
        rw [(holds_rowMajor_tight h2).mp p1 p hp.1 hp.2, (holds_rowMajor_tight h2).mp p2' p hp.1 hp.2]
      | ColMajor =>
        have f1 := (holds_flip (layout := .RowMajor) (b := b1)).mp p1
        have f2 := (holds_flip (layout := .RowMajor) (b := b2)).mp p2'
        rw [(holds_rowMajor_tight h1).mp f1 p hp.1 (by rw [mul_comm]; exact hp.2),
          (holds_rowMajor_tight h1).mp f2 p hp.1 (by rw [mul_comm]; exact hp.2)]
    · rw [q1 p hp, q2 p hp]
  rw [hxy, hb]

/-- C04 (disjointness). Consecutive counter ranges whose total length does not exceed the period have no common counter. -/
theorem C04_ranges_disjoint {start : ZMod N} {c1 c2 : Int} (h : c1 + c2 ≤ N) (c : ZMod N) :
    CtrRange start c1 c → ¬ CtrRange (start + (c1 : ZMod N)) c2 c := by
  rintro ⟨t, ht0, ht1, rfl⟩ ⟨u, hu0, hu1, he⟩
  rw [add_assoc, add_right_inj, ← Int.cast_add] at he
  rw [ZMod.intCast_eq_intCast_iff] at he
  have := (Int.emod_emod_of_dvd t (dvd_refl (N : Int)))
  have hd : (N : Int) ∣ (c1 + u - t) := Int.ModEq.dvd he
  have hpos : 0 < c1 + u - t := by omega
  have := Int.le_of_dvd hpos hd
  omega

example : (12 : Int) + 30 ≤ ((2 ^ 128 : Nat) : Int) := by norm_num

/-! ## C05 -/

/-- C05. Whatever the buffer contained before, filling a nonempty window returns normally (no out-of-bounds access, no read
of an uninitialised element), initialises each of the `m * n` elements, and changes nothing else. Only the
`m * n` elements need to be allocated. -/
theorem C05_writes_exactly_the_window [Mul T] {sched : List Nat} {G : Gen N K W T} {sqrt3 : T} {layout : Layout}
    {D : DenseDist} {m n ro co : Int} {seed : RNGState N K} {b : Buf T} (hG : G.Ok) (hD : DenseDistOk D)
    (hw : InWindow D m n ro co) (hal : AllocTo b (m * n)) :
    M.wp (fillDenseUnpacked sched G sqrt3 layout D m n ro co seed) b (fun _ b' =>
      (∀ p, 0 ≤ p → p < m * n → ∃ x, b' p = .val x) ∧ (∀ p, ¬ (0 ≤ p ∧ p < m * n) → b' p = b p)) := by
  obtain ⟨h1, h2, h3, h4, h5, h6⟩ := hw
  refine M.wp_mono (fillUnpacked_spec hG hD h1 h2 h3 h4 h5 h6 hal) ?_
  rintro s b' ⟨hh, ho, -⟩
  refine ⟨fun p h0 hlt => ?_, ho⟩
  cases layout with
  | RowMajor => exact ⟨_, (holds_rowMajor_tight h2).mp hh p h0 hlt⟩
  | ColMajor =>
    exact ⟨_, (holds_rowMajor_tight h1).mp ((holds_flip (layout := .RowMajor)).mp hh) p h0 (by rw [mul_comm]; exact hlt)⟩

/-- C05 (empty windows are outside the claim). The documentation asks for positive sizes, but the code does not check: for a
2 x 8 row-major operator, the 1 x 0 window at column 4 passes all checks and writes outside the (empty) buffer. -/
theorem C05_empty_window_counterexample :
    ∃ D : DenseDist, DenseDistOk D ∧ D.nRows ≥ 1 + 0 ∧ D.nCols ≥ 0 + 4 ∧
      (fillDenseUnpacked [] exGen 1 .RowMajor D 1 0 0 4 ⟨0, 0⟩ (Buf.alloc Int 0)).1 = .ub := by
  refine ⟨DenseDist.mk 2 8 .Long 8 2 .Uniform .RowMajor, ⟨by decide, by decide⟩, by decide, by decide, rfl⟩

/-! ## C06 -/

/-- C06. RowMajor and ColMajor outputs represent the same matrix. -/
theorem C06_layout_independent [Mul T] {s1 s2 : List Nat} {G : Gen N K W T} {sqrt3 : T} {D : DenseDist}
    {m n ro co : Int} {seed : RNGState N K} {b1 b2 : Buf T} (hG : G.Ok) (hD : DenseDistOk D)
    (hw : InWindow D m n ro co) (hal1 : AllocTo b1 (m * n)) (hal2 : AllocTo b2 (m * n)) :
    ∃ A : Int → Int → T,
      M.wp (fillDenseUnpacked s1 G sqrt3 .RowMajor D m n ro co seed) b1 (fun _ b' => Holds b' .RowMajor n m n A) ∧
      M.wp (fillDenseUnpacked s2 G sqrt3 .ColMajor D m n ro co seed) b2 (fun _ b' => Holds b' .ColMajor m m n A) :=
  ⟨_, C01_entry_formula hG hD hw hal1, C01_entry_formula hG hD hw hal2⟩

/-! ## C07 -/

/-- `fill_dense(D, ., seed)` on a fresh buffer produces the matrix `A`. -/
def Spec.Samples [Mul T] (G : Gen N K W T) (sqrt3 : T) (D : DenseDist) (seed : RNGState N K) (A : Int → Int → T) : Prop :=
  ∀ sched, M.wp (fillDense sched G sqrt3 D seed) (Buf.alloc T (D.nRows * D.nCols)) (fun _ b =>
    Holds b D.naturalLayout D.dimMajor D.nRows D.nCols A)

theorem samples_denseEntry [Mul T] {G : Gen N K W T} {sqrt3 : T} {D : DenseDist} {seed : RNGState N K} (hG : G.Ok)
    (hD : DenseDistOk D) : Samples G sqrt3 D seed (denseEntry G sqrt3 D seed) := by
  intro sched
  obtain ⟨hR, hC, hfit, hlay⟩ := denseDist_facts hD
  have hld : tightLd D.naturalLayout D.nRows D.nCols = D.dimMajor := by
    rcases hlay with ⟨a, b, _⟩ | ⟨a, b, _⟩ <;> rw [a, b] <;> rfl
  unfold fillDense
  refine M.wp_mono (fillUnpacked_spec hG hD hR hC (le_refl 0) (le_refl 0) (by omega) (by omega) (allocTo_alloc _)) ?_
  rintro - b ⟨h, -⟩
  rw [hld] at h
  simpa using h

theorem mkDenseDist_eq {r c : Int} {fam : ScalarDist} {ax : Axis} (hr : 0 < r) (hc : 0 < c) :
    mkDenseDist r c fam ax = .ok
      { nRows := r, nCols := c, majorAxis := ax, dimMajor := if ax = .Long then max r c else min r c
        dimMinor := if ax = .Long then min r c else max r c, family := fam, naturalLayout := naturalLayout ax r c } := by
  unfold mkDenseDist
  simp [hr, hc]

theorem denseDistOk_of_mk {r c : Int} {fam : ScalarDist} {ax : Axis} {D : DenseDist} (h : mkDenseDist r c fam ax = .ok D)
    (hfit : r * c ≤ intMax 64) : DenseDistOk D := by
  have hr : 0 < r := by
    by_contra h0; unfold mkDenseDist at h; simp [Res.require, h0] at h
  have hc : 0 < c := by
    by_contra h0; unfold mkDenseDist at h; simp [Res.require, h0, hr] at h
  have := mkDenseDist_eq (fam := fam) (ax := ax) hr hc
  rw [this] at h; cases h
  exact ⟨this, hfit⟩

theorem denseEntry_rowMajor [Mul T] {G : Gen N K W T} {sqrt3 : T} {r c : Int} {fam : ScalarDist} {ax : Axis} {D : DenseDist}
    {seed : RNGState N K} {i j : Int} (hr : 0 < r) (hc : 0 < c) (h : mkDenseDist r c fam ax = .ok D)
    (hl : naturalLayout ax r c = .RowMajor) :
    denseEntry G sqrt3 D seed i j = famScale fam sqrt3 (denseRaw G fam c seed i j) ∧ D.dimMajor = c ∧ D.dimMinor = r := by
  rw [mkDenseDist_eq hr hc] at h; cases h
  have hd : (if ax = .Long then max r c else min r c) = c ∧ (if ax = .Long then min r c else max r c) = r := by
    unfold naturalLayout at hl
    cases ax
    · by_cases h : r < c
      · simp [h] at hl
      · simp; omega
    · by_cases h : r < c
      · simp; omega
      · simp [h] at hl
  refine ⟨?_, hd.1, hd.2⟩
  simp only [denseEntry, hl, hd.1]

theorem denseEntry_colMajor [Mul T] {G : Gen N K W T} {sqrt3 : T} {r c : Int} {fam : ScalarDist} {ax : Axis} {D : DenseDist}
    {seed : RNGState N K} {i j : Int} (hr : 0 < r) (hc : 0 < c) (h : mkDenseDist r c fam ax = .ok D)
    (hl : naturalLayout ax r c = .ColMajor) :
    denseEntry G sqrt3 D seed i j = famScale fam sqrt3 (denseRaw G fam r seed j i) ∧ D.dimMajor = r ∧ D.dimMinor = c := by
  rw [mkDenseDist_eq hr hc] at h; cases h
  have hd : (if ax = .Long then max r c else min r c) = r ∧ (if ax = .Long then min r c else max r c) = c := by
    unfold naturalLayout at hl
    cases ax
    · by_cases h : r < c
      · simp; omega
      · simp [h] at hl
    · by_cases h : r < c
      · simp [h] at hl
      · simp; omega
  refine ⟨?_, hd.1, hd.2⟩
  simp only [denseEntry, hl, hd.1]

theorem mkDenseSkOp_next {L : Int} {D : DenseDist} {seed : RNGState N K} {S : DenseSkOp N K T} (hL : 0 < L)
    (hD : DenseDistOk D) (h : mkDenseSkOp L D seed = .ok S) :
    S.nextState = { seed with counter := seed.counter + ((D.dimMinor * countersPerVector L D.dimMajor : Int) : ZMod N) } := by
  unfold mkDenseSkOp at h
  rw [denseNextState_eq hL hD] at h
  simp only [Res.ok_bind, Res.pure_eq, Res.ok.injEq] at h
  rw [← h]

theorem mkDenseDist_pos {r c : Int} {fam : ScalarDist} {ax : Axis} {D : DenseDist} (h : mkDenseDist r c fam ax = .ok D) :
    0 < r ∧ 0 < c := by
  have hr : 0 < r := by
    by_contra h0; unfold mkDenseDist at h; simp [Res.require, h0] at h
  refine ⟨hr, ?_⟩
  by_contra h0; unfold mkDenseDist at h; simp [Res.require, h0, hr] at h

/-- C07 (long axis, wide). If `D1 = DenseDist(d1, m)`, `D2 = DenseDist(d2, m)`, `D = DenseDist(d1 + d2, m)` with major axis
Long and `d1 + d2 < m`, then the operator sampled from `D` with seed `s` is the operator sampled from `D1` with seed `s`
stacked on top of the operator sampled from `D2` with the first operator's `next_state`. -/
theorem C07_long_wide [Mul T] {G : Gen N K W T} {sqrt3 : T} {d1 d2 m : Int} {fam : ScalarDist} {s : RNGState N K}
    {D D1 D2 : DenseDist} {S1 : DenseSkOp N K T} (hG : G.Ok) (h1 : mkDenseDist d1 m fam .Long = .ok D1)
    (h2 : mkDenseDist d2 m fam .Long = .ok D2) (h : mkDenseDist (d1 + d2) m fam .Long = .ok D)
    (hS1 : mkDenseSkOp G.len D1 s = .ok S1) (hlt : d1 + d2 < m) (hfit : (d1 + d2) * m ≤ intMax 64) :
    ∃ A A1 A2, Samples G sqrt3 D s A ∧ Samples G sqrt3 D1 s A1 ∧ Samples G sqrt3 D2 S1.nextState A2 ∧
      (∀ i j, InR d1 m i j → A i j = A1 i j) ∧ (∀ i j, InR d2 m i j → A (d1 + i) j = A2 i j) := by
  have hlen : 0 < G.len := by rcases hG with h | h <;> rw [h] <;> decide
  obtain ⟨hd1, hm⟩ := mkDenseDist_pos h1
  obtain ⟨hd2, -⟩ := mkDenseDist_pos h2
  have hD1 := denseDistOk_of_mk h1 (by nlinarith)
  have hD2 := denseDistOk_of_mk h2 (by nlinarith)
  have hD := denseDistOk_of_mk h hfit
  have e := fun i j => denseEntry_rowMajor (G := G) (sqrt3 := sqrt3) (seed := s) (i := i) (j := j) (by omega) hm h
    (by simp [naturalLayout, hlt])
  have e1 := fun i j => denseEntry_rowMajor (G := G) (sqrt3 := sqrt3) (seed := s) (i := i) (j := j) hd1 hm h1
    (by simp [naturalLayout, show d1 < m by omega])
  have e2 := fun i j => denseEntry_rowMajor (G := G) (sqrt3 := sqrt3) (seed := S1.nextState) (i := i) (j := j) hd2 hm h2
    (by simp [naturalLayout, show d2 < m by omega])
  refine ⟨_, _, _, samples_denseEntry hG hD, samples_denseEntry hG hD1, samples_denseEntry hG hD2, ?_, ?_⟩
  · intro i j hij
    rw [(e i j).1, (e1 i j).1]
  · intro i j hij
    rw [(e _ j).1, (e2 i j).1, mkDenseSkOp_next hlen hD1 hS1, (e1 0 0).2.1, (e1 0 0).2.2]
    unfold denseRaw
    congr 2
    push_cast; ring

/-- C07 (long axis, tall): the transposed statement; the second operator is placed to the right. -/
theorem C07_long_tall [Mul T] {G : Gen N K W T} {sqrt3 : T} {d1 d2 m : Int} {fam : ScalarDist} {s : RNGState N K}
    {D D1 D2 : DenseDist} {S1 : DenseSkOp N K T} (hG : G.Ok) (h1 : mkDenseDist m d1 fam .Long = .ok D1)
    (h2 : mkDenseDist m d2 fam .Long = .ok D2) (h : mkDenseDist m (d1 + d2) fam .Long = .ok D)
    (hS1 : mkDenseSkOp G.len D1 s = .ok S1) (hlt : d1 + d2 < m) (hfit : m * (d1 + d2) ≤ intMax 64) :
    ∃ A A1 A2, Samples G sqrt3 D s A ∧ Samples G sqrt3 D1 s A1 ∧ Samples G sqrt3 D2 S1.nextState A2 ∧
      (∀ i j, InR m d1 i j → A i j = A1 i j) ∧ (∀ i j, InR m d2 i j → A i (d1 + j) = A2 i j) := by
  have hlen : 0 < G.len := by rcases hG with h | h <;> rw [h] <;> decide
  obtain ⟨hm, hd1⟩ := mkDenseDist_pos h1
  obtain ⟨-, hd2⟩ := mkDenseDist_pos h2
  have hD1 := denseDistOk_of_mk h1 (by nlinarith)
  have hD2 := denseDistOk_of_mk h2 (by nlinarith)
  have hD := denseDistOk_of_mk h hfit
  have e := fun i j => denseEntry_colMajor (G := G) (sqrt3 := sqrt3) (seed := s) (i := i) (j := j) hm (by omega) h
    (by simp [naturalLayout, show ¬ m < d1 + d2 by omega])
  have e1 := fun i j => denseEntry_colMajor (G := G) (sqrt3 := sqrt3) (seed := s) (i := i) (j := j) hm hd1 h1
    (by simp [naturalLayout, show ¬ m < d1 by omega])
  have e2 := fun i j => denseEntry_colMajor (G := G) (sqrt3 := sqrt3) (seed := S1.nextState) (i := i) (j := j) hm hd2 h2
    (by simp [naturalLayout, show ¬ m < d2 by omega])
  refine ⟨_, _, _, samples_denseEntry hG hD, samples_denseEntry hG hD1, samples_denseEntry hG hD2, ?_, ?_⟩
  · intro i j hij
    rw [(e i j).1, (e1 i j).1]
  · intro i j hij
    rw [(e i _).1, (e2 i j).1, mkDenseSkOp_next hlen hD1 hS1, (e1 0 0).2.1, (e1 0 0).2.2]
    unfold denseRaw
    congr 2
    push_cast; ring

/-- C07 (short axis, wide). With major axis Short and `d < m`, the operator sampled from `DenseDist(d, m)` consists of the first
`m` columns of the operator sampled from `DenseDist(d, m + k)` with the same seed. -/
theorem C07_short_wide [Mul T] {G : Gen N K W T} {sqrt3 : T} {d m k : Int} {fam : ScalarDist} {s : RNGState N K}
    {D D1 : DenseDist} (hG : G.Ok) (h1 : mkDenseDist d m fam .Short = .ok D1)
    (h : mkDenseDist d (m + k) fam .Short = .ok D) (hk : 0 ≤ k) (hlt : d < m) (hfit : d * (m + k) ≤ intMax 64) :
    ∃ A A1, Samples G sqrt3 D s A ∧ Samples G sqrt3 D1 s A1 ∧ (∀ i j, InR d m i j → A i j = A1 i j) := by
  obtain ⟨hd, hm⟩ := mkDenseDist_pos h1
  have hD1 := denseDistOk_of_mk h1 (by nlinarith)
  have hD := denseDistOk_of_mk h hfit
  refine ⟨_, _, samples_denseEntry hG hD, samples_denseEntry hG hD1, ?_⟩
  intro i j hij
  rw [(denseEntry_colMajor hd (by omega) h (by simp [naturalLayout, show d < m + k by omega])).1,
    (denseEntry_colMajor hd hm h1 (by simp [naturalLayout, hlt])).1]

/-- C07 (short axis, tall): the transposed statement. -/
theorem C07_short_tall [Mul T] {G : Gen N K W T} {sqrt3 : T} {d m k : Int} {fam : ScalarDist} {s : RNGState N K}
    {D D1 : DenseDist} (hG : G.Ok) (h1 : mkDenseDist m d fam .Short = .ok D1)
    (h : mkDenseDist (m + k) d fam .Short = .ok D) (hk : 0 ≤ k) (hlt : d < m) (hfit : (m + k) * d ≤ intMax 64) :
    ∃ A A1, Samples G sqrt3 D s A ∧ Samples G sqrt3 D1 s A1 ∧ (∀ i j, InR m d i j → A i j = A1 i j) := by
  obtain ⟨hm, hd⟩ := mkDenseDist_pos h1
  have hD1 := denseDistOk_of_mk h1 (by nlinarith)
  have hD := denseDistOk_of_mk h hfit
  refine ⟨_, _, samples_denseEntry hG hD, samples_denseEntry hG hD1, ?_⟩
  intro i j hij
  rw [(denseEntry_rowMajor (by omega) hd h (by simp [naturalLayout, show ¬ m + k < d by omega])).1,
    (denseEntry_rowMajor hm hd h1 (by simp [naturalLayout, show ¬ m < d by omega])).1]

/-- The hypotheses of C07 hold for a 2 x 7 and a 1 x 7 operator. -/
example : (∃ D1 D2 D : DenseDist, ∃ S1 : DenseSkOp (2 ^ 128) Nat Int,
    mkDenseDist 2 7 .Gaussian .Long = .ok D1 ∧ mkDenseDist 1 7 .Gaussian .Long = .ok D2 ∧
    mkDenseDist (2 + 1) 7 .Gaussian .Long = .ok D ∧ mkDenseSkOp 4 D1 ⟨0, 0⟩ = .ok S1 ∧ (2 + 1 : Int) * 7 ≤ intMax 64) :=
  ⟨_, _, _, _, rfl, rfl, rfl, rfl, by decide⟩

/-! ## C16 (dense part) -/

/-- C16 (DenseDist). Construction succeeds iff both dimensions are positive (otherwise it raises an error), and then the
derived members are consistent: `dim_major` is the larger dimension for Long and the smaller for Short, `dim_minor` is the
other one, and the leading dimension of the natural layout is `dim_major`. -/
theorem C16_dense_dist (r c : Int) (fam : ScalarDist) (ax : Axis) :
    (0 < r ∧ 0 < c → ∃ D, mkDenseDist r c fam ax = .ok D ∧ D.nRows = r ∧ D.nCols = c ∧ D.family = fam ∧
      D.majorAxis = ax ∧ D.dimMajor = getDimMajor ax r c ∧
      (D.dimMajor = r ∧ D.dimMinor = c ∨ D.dimMajor = c ∧ D.dimMinor = r) ∧
      (ax = .Long → D.dimMinor ≤ D.dimMajor) ∧ (ax = .Short → D.dimMajor ≤ D.dimMinor) ∧
      tightLd D.naturalLayout r c = D.dimMajor) ∧
    (¬ (0 < r ∧ 0 < c) → mkDenseDist r c fam ax = .throw .require) := by
  constructor
  · rintro ⟨hr, hc⟩
    refine ⟨_, mkDenseDist_eq hr hc, rfl, rfl, rfl, rfl, rfl, ?_, ?_, ?_, ?_⟩
    · cases ax
      · simp only [reduceCtorEq, if_false]; rcases le_total r c with h | h <;> simp [h]
      · simp only [if_true]; rcases le_total r c with h | h <;> simp [h]
    · rintro rfl; simp only [if_true]; omega
    · rintro rfl; simp only [reduceCtorEq, if_false]; omega
    · simp only [naturalLayout]
      cases ax
      · simp only [reduceCtorEq, and_false, if_false]
        by_cases h : r < c
        · rw [if_pos h, min_eq_left h.le]; rfl
        · rw [if_neg h, min_eq_right (by omega)]; rfl
      · simp only [and_true, if_true]
        by_cases h : r < c
        · rw [if_pos h, max_eq_right h.le]; rfl
        · rw [if_neg h, if_neg h, max_eq_left (by omega)]; rfl
  · intro h
    unfold mkDenseDist
    by_cases hr : r > 0
    · have hc : ¬ c > 0 := fun hc => h ⟨hr, hc⟩
      simp [Res.require, hr, hc]
    · simp [Res.require, hr]

example : ∃ D, mkDenseDist 3 7 .Uniform .Long = .ok D ∧ D = exDist := ⟨_, rfl, rfl⟩

/-! ## C47 (dense part) -/

/-- An operator as its constructor leaves it, except that `fill_dense` may have attached a buffer. -/
structure Spec.DenseOpOk (L : Int) (S : DenseSkOp N K T) : Prop where
  dist : DenseDistOk S.dist
  rows : S.nRows = S.dist.nRows
  cols : S.nCols = S.dist.nCols
  layout : S.layout = S.dist.naturalLayout
  next : denseNextState L S.dist S.seedState = .ok S.nextState
  buffer : ∀ b, S.buff = some b → AllocTo b (S.nRows * S.nCols)

theorem mkDenseSkOp_ok {L : Int} {D : DenseDist} {seed : RNGState N K} {S : DenseSkOp N K T} (hD : DenseDistOk D)
    (h : mkDenseSkOp L D seed = .ok S) : DenseOpOk L S ∧ S.dist = D ∧ S.seedState = seed ∧ S.buff = none ∧ S.ownMemory = true := by
  unfold mkDenseSkOp at h
  cases hn : denseNextState L D seed with
  | ok s =>
    rw [hn] at h; simp only [Res.ok_bind, Res.pure_eq, Res.ok.injEq] at h
    subst h
    exact ⟨⟨hD, rfl, rfl, rfl, hn, fun b h => by cases h⟩, rfl, rfl, rfl, rfl⟩
  | throw e => rw [hn] at h; simp at h
  | ub => rw [hn] at h; simp at h

/-- C47 (dense, `fill_dense(S)`). If the operator has a buffer or may allocate one, `fill_dense` attaches data that is a
function of `(dist, seed_state)` only (entry (i, j) is `denseEntry`), whatever the previous content of the
buffer and the schedule; all other members, in particular the seed, are unchanged. -/
theorem C47_fill_dense [Mul T] {sched : List Nat} {G : Gen N K W T} {sqrt3 : T} {S : DenseSkOp N K T} (hG : G.Ok)
    (hS : DenseOpOk G.len S) (hmem : S.ownMemory = true ∨ S.buff.isSome) :
    M.wp (fillDenseOp sched G sqrt3) S (fun _ S' => ∃ b', S' = { S with buff := some b' } ∧ DenseOpOk G.len S' ∧
      Holds b' S.layout S.dist.dimMajor S.nRows S.nCols (denseEntry G sqrt3 S.dist S.seedState)) := by
  obtain ⟨hD, hr, hc, hl, hnx, hbuf⟩ := hS
  obtain ⟨hR, hC, hfit, hlay⟩ := denseDist_facts hD
  have hld : tightLd S.layout S.nRows S.nCols = S.dist.dimMajor := by
    rw [hl, hr, hc]; rcases hlay with ⟨a, b, _⟩ | ⟨a, b, _⟩ <;> rw [a, b] <;> rfl
  have main : ∀ b, AllocTo b (S.nRows * S.nCols) →
      M.wp (fillDenseUnpacked sched G sqrt3 S.layout S.dist S.nRows S.nCols 0 0 S.seedState) b (fun _ b' =>
        Holds b' S.layout S.dist.dimMajor S.nRows S.nCols (denseEntry G sqrt3 S.dist S.seedState) ∧
        AllocTo b' (S.nRows * S.nCols)) := by
    intro b hb
    refine M.wp_mono (fillUnpacked_spec hG hD (by omega) (by omega) (le_refl 0) (le_refl 0) (by omega) (by omega) hb) ?_
    rintro - b' ⟨h1, -⟩
    have h5 := h1
    rw [hld] at h1
    refine ⟨by simpa using h1, fun p hp0 hp1 => ?_⟩
    have hn' : 0 < S.nCols := by omega
    have hm' : 0 < S.nRows := by omega
    cases hL : S.layout with
    | RowMajor =>
      rw [hL] at h5
      rw [(holds_rowMajor_tight hn').mp h5 p hp0 hp1]; simp
    | ColMajor =>
      rw [hL] at h5
      rw [(holds_rowMajor_tight hm').mp ((holds_flip (layout := .RowMajor)).mp h5) p hp0 (by rw [mul_comm]; exact hp1)]; simp
  unfold fillDenseOp
  rw [M.wp_bind, M.wp_get, M.wp_bind, M.wp_when]
  constructor
  · rintro ⟨hown, hnone⟩
    simp only [M.wp_modify, M.wp_bind, M.wp_get, M.wp_onLocal]
    refine M.wp_mono (main _ (allocTo_alloc _)) ?_
    rintro - b' ⟨h1, h2⟩
    exact ⟨b', rfl, ⟨hD, hr, hc, hl, hnx, fun b hb => by cases hb; exact h2⟩, h1⟩
  · intro hno
    rw [M.wp_bind, M.wp_get]
    cases hb : S.buff with
    | none => rw [hb] at hno hmem; simp at hno hmem; rw [hno] at hmem; cases hmem
    | some b =>
      simp only [M.wp_bind, M.wp_onLocal]
      refine M.wp_mono (main b (hbuf b hb)) ?_
      rintro - b' ⟨h1, h2⟩
      rw [M.wp_modify]
      exact ⟨b', rfl, ⟨hD, hr, hc, hl, hnx, fun b hb => by cases hb; exact h2⟩, h1⟩

/-- C47 (dense, no memory). Without a buffer and without permission to allocate, `fill_dense` raises an error and changes nothing. -/
theorem C47_fill_dense_error [Mul T] {sched : List Nat} {G : Gen N K W T} {sqrt3 : T} {S : DenseSkOp N K T}
    (h1 : S.ownMemory = false) (h2 : S.buff = none) : fillDenseOp sched G sqrt3 S = (.throw .require, S) := by
  unfold fillDenseOp
  rw [M.bind_ok (show (M.get : M (DenseSkOp N K T) _) S = (.ok S, S) from rfl),
    M.bind_ok (show M.when (S.ownMemory = true ∧ S.buff.isNone = true) _ S = (.ok (), S) by simp [M.when, h1]; rfl),
    M.bind_ok (show (M.get : M (DenseSkOp N K T) _) S = (.ok S, S) from rfl), h2]
  rfl

/-- C47 (dense, buffers). Two fills of the same window into buffers with different previous contents, under different schedules,
give the same data and state. -/
theorem C47_dense_deterministic [Mul T] {s1 s2 : List Nat} {G : Gen N K W T} {sqrt3 : T} {layout : Layout} {D : DenseDist}
    {m n ro co : Int} {seed : RNGState N K} {b1 b2 : Buf T} (hG : G.Ok) (hD : DenseDistOk D) (hw : InWindow D m n ro co)
    (h1 : AllocTo b1 (m * n)) (h2 : AllocTo b2 (m * n)) :
    M.wp (fillDenseUnpacked s1 G sqrt3 layout D m n ro co seed) b1 (fun st1 c1 =>
      M.wp (fillDenseUnpacked s2 G sqrt3 layout D m n ro co seed) b2 (fun st2 c2 =>
        st1 = st2 ∧ ∀ i j, InR m n i j → c1 (addr layout (tightLd layout m n) i j) = c2 (addr layout (tightLd layout m n) i j))) := by
  obtain ⟨g1, g2, g3, g4, g5, g6⟩ := hw
  refine M.wp_mono (fillUnpacked_spec hG hD g1 g2 g3 g4 g5 g6 h1) ?_
  rintro ⟨x1, x2⟩ c1 ⟨p1, -, k1, t1⟩
  refine M.wp_mono (fillUnpacked_spec hG hD g1 g2 g3 g4 g5 g6 h2) ?_
  rintro ⟨y1, y2⟩ c2 ⟨p2, -, k2, t2⟩
  simp only at k1 k2 t1 t2
  refine ⟨by rw [k1, k2, t1, t2], fun i j hij => by rw [p1 i j hij, p2 i j hij]⟩

end RB
