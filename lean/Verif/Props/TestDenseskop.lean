import Verif.Lemmas.TestDense
import Verif.Props.Dense
import Verif.Props.Sampling
import Verif.Props.TestSpmats

/-!
# C131: the tests of dense sketching operators accept the library

`gen` is `G.generate fam`: the arrays of numbers that either family takes from a generator. `sched`, `s1`, ... are schedules of the parallel loop. A result `none` of a test means that it
found no difference. `denseRaw G fam n seed r q` is number `q` of vector `r` of an operator whose vectors have length `n`, as a formula (`Spec/Dense.lean`).
-/

namespace RB
open Spec
variable {N : Nat} {K W T : Type}

theorem len_facts {G : Gen N K W T} (hG : G.Ok) : 0 < G.len ∧ G.len < 2 ^ 63 := by rcases hG with h | h <;> rw [h] <;> decide

theorem refVal_eq {G : Gen N K W T} {fam : ScalarDist} {nCols r q : Int} {seed : RNGState N K} :
    refVal (fun c => genValue G fam c seed.key) G.len nCols seed.counter r q = denseRaw G fam nCols seed r q := rfl

/-- C131 (reference matrix). `fill_dense_rmat_trunc` writes the numbers of the formula, row by row, and nothing else. -/
theorem C131_reference {G : Gen N K W T} {fam : ScalarDist} {nRows nCols : Int} {seed : RNGState N K} {b : Buf T} (hG : G.Ok) (hr : 0 ≤ nRows) (hc : 0 < nCols)
    (hal : AllocTo b (nRows * nCols)) :
    M.wp (fillRmatTrunc (G.generate fam) G.len nRows nCols seed) b (fun _ b' => Holds b' .RowMajor nCols nRows nCols (denseRaw G fam nCols seed) ∧
      ∀ p, ¬ (0 ≤ p ∧ p < nRows * nCols) → b' p = b p) := by
  refine M.wp_mono (fillRmatTrunc_spec (len_facts hG).1 (fun c => generate_spec hG fam c seed.key) hr hc hal) ?_
  rintro _ b' ⟨h1, h2⟩
  exact ⟨fun r q hrq => h1 r q hrq, h2⟩

section
variable [DecidableEq T] {sched : List Nat} {G : Gen N K W T} {fam : ScalarDist} {nCols nRows nScols nSrows p0 : Int} {seed : RNGState N K}

/-- C131 (windows further and further down). The test accepts if the matrix has at least 50 columns and the windows do not cross the end of a row, or crossing it does not matter because the
length of the rows is a multiple of the number of words per counter. The two bounds are those of the type `int`.

Missing: matrices with less than 50 columns (`C131_colwise_endless`). -/
theorem C131_colwise_partial (hG : G.Ok) (h50 : 50 ≤ nCols) (hr : 0 ≤ nSrows) (hn : 0 < nScols) (hle : nScols ≤ nCols) (hp : 0 ≤ p0)
    (hin : p0 % nCols + nScols ≤ nCols ∨ nCols % G.len = 0) (hfit : nRows * nCols ≤ intMax 32) (hfit2 : nCols * (nRows - nSrows - 1) + nCols / 50 * nCols ≤ intMax 32) (hR : 0 ≤ nRows) :
    M.wp (testColwise sched (G.generate fam) G.len nCols nRows nScols nSrows p0 seed) () (fun r _ => r = none) := by
  have hc : 0 < nCols := by omega
  obtain ⟨hL, hL2⟩ := len_facts hG
  have hmax : intMax 32 ≤ intMax 64 := by decide
  unfold testColwise
  simp only [M.wp_bind, M.wp_onLocal, Int.tdiv_eq_ediv_of_nonneg hc.le]
  refine M.wp_mono (fillRmatTrunc_spec hL (fun c => generate_spec hG fam c seed.key) hR hc (allocTo_alloc _)) ?_
  rintro _ mat ⟨hmat, -⟩
  have hst : 1 ≤ nCols / 50 := by omega
  have hstep : 0 < nCols / 50 * nCols := mul_pos (by omega) hc
  have main := windowLoop_none (check := windowCheck sched (G.generate fam) G.len nCols nSrows nScols seed mat) (bound := nCols * (nRows - nSrows - 1)) (step := nCols / 50 * nCols)
    (Inv := fun s => AllocTo s (nSrows * nScols)) hstep hfit2 p0 (fun t ht s hs => ?_) _ 0 le_rfl (Buf.alloc T (nSrows * nScols)) (allocTo_alloc _)
  · simp only [Nat.cast_zero, zero_mul, add_zero] at main
    refine M.wp_mono main ?_
    rintro r s' rfl
    rw [M.wp_pure]
  · have ht0 : 0 ≤ (t : Int) * (nCols / 50 * nCols) := mul_nonneg (by omega) hstep.le
    have hmod : (p0 + t * (nCols / 50 * nCols)) % nCols = p0 % nCols := by
      rw [show p0 + t * (nCols / 50 * nCols) = p0 + nCols * (t * (nCols / 50)) by ring, Int.add_mul_emod_self_left]
    have hdm := Int.mul_ediv_add_emod (p0 + t * (nCols / 50 * nCols)) nCols
    have hm0 := Int.emod_nonneg (p0 + t * (nCols / 50 * nCols)) (show nCols ≠ 0 by omega)
    have hrow : (p0 + t * (nCols / 50 * nCols)) / nCols < nRows - nSrows - 1 := Int.ediv_lt_of_lt_mul hc (by rw [mul_comm (nRows - nSrows - 1) nCols]; exact ht)
    refine M.wp_mono (windowCheck_none (nRows := nRows) hL hL2 (fun c => generate_spec hG fam c seed.key) (by omega) (by omega) hn hr hle
      (by rw [hmod]; exact hin.imp id fun h => ⟨h, by omega⟩) (by omega) hfit hmat hs) ?_
    rintro r s' ⟨h1, h2⟩
    exact ⟨h1, fun q q0 q1 => h2 q (hs q q0 q1)⟩

/-- C131: with less than 50 columns the step is zero and the test does not end. -/
theorem C131_colwise_endless (hG : G.Ok) (hc : 0 < nCols) (h50 : nCols < 50) (hr : 0 ≤ nSrows) (hn : 0 < nScols) (hle : nScols ≤ nCols) (hp : 0 ≤ p0)
    (hin : p0 % nCols + nScols ≤ nCols ∨ nCols % G.len = 0) (hfit : nRows * nCols ≤ intMax 32) (hR : 0 ≤ nRows) (hb : p0 < nCols * (nRows - nSrows - 1)) :
    M.Undef (testColwise sched (G.generate fam) G.len nCols nRows nScols nSrows p0 seed) () := by
  obtain ⟨hL, hL2⟩ := len_facts hG
  have hmax : intMax 32 ≤ intMax 64 := by decide
  unfold testColwise
  simp only [Int.tdiv_eq_ediv_of_nonneg hc.le]
  refine M.Undef.after (M.wp_onLocal.mpr (M.wp_mono (fillRmatTrunc_spec hL (fun c => generate_spec hG fam c seed.key) hR hc (allocTo_alloc _)) ?_))
  rintro _ mat ⟨hmat, -⟩
  refine M.Undef.bind ?_
  have hrow : p0 / nCols < nRows - nSrows - 1 := Int.ediv_lt_of_lt_mul hc (by rw [mul_comm]; exact hb)
  have hbd : p0 < intMax 32 := by
    have : nCols * (nRows - nSrows - 1) ≤ nCols * nRows := Int.mul_le_mul_of_nonneg_left (by omega) hc.le
    rw [mul_comm nCols nRows] at this; omega
  have hu : M.Undef (windowLoop (windowCheck sched (G.generate fam) G.len nCols nSrows nScols seed mat) (nCols * (nRows - nSrows - 1)) (nCols / 50 * nCols) p0) (Buf.alloc T (nSrows * nScols)) := by
    unfold windowLoop
    rw [dif_pos hb]
    refine M.Undef.after (M.wp_mono (windowCheck_none (nRows := nRows) hL hL2 (fun c => generate_spec hG fam c seed.key) hp (by omega) hn hr hle
      (hin.imp id fun h => ⟨h, by omega⟩) (by omega) hfit hmat (allocTo_alloc _)) ?_)
    rintro r s' ⟨rfl, -⟩
    dsimp only
    rw [dif_pos (Or.inl (by rw [Int.ediv_eq_zero_of_lt (by omega) h50, zero_mul]))]
    exact M.Undef.lift
  unfold M.Undef M.onLocal at *
  rcases h : windowLoop (windowCheck sched (G.generate fam) G.len nCols nSrows nScols seed mat) (nCols * (nRows - nSrows - 1)) (nCols / 50 * nCols) p0 (Buf.alloc T (nSrows * nScols)) with ⟨x, y⟩
  rw [h] at hu
  simp only at hu
  rw [hu]

/-- C131 (windows further and further to the right).

Missing: matrices with less than 50 columns (`C131_rowwise_endless`). -/
theorem C131_rowwise_partial (hG : G.Ok) (h50 : 50 ≤ nCols) (hr : 0 ≤ nSrows) (hn : 0 < nScols) (hrows : nSrows ≤ nRows) (hp : 0 ≤ p0)
    (hfit : nRows * nCols ≤ intMax 32) (hfit2 : nCols - nScols - 1 + nCols / 50 ≤ intMax 32) :
    M.wp (testRowwise sched (G.generate fam) G.len nCols nRows nScols nSrows p0 seed) () (fun r _ => r = none) := by
  have hc : 0 < nCols := by omega
  obtain ⟨hL, hL2⟩ := len_facts hG
  have hmax : intMax 32 ≤ intMax 64 := by decide
  unfold testRowwise
  simp only [M.wp_bind, M.wp_onLocal, Int.tdiv_eq_ediv_of_nonneg hc.le]
  refine M.wp_mono (fillRmatTrunc_spec hL (fun c => generate_spec hG fam c seed.key) (by omega) hc (allocTo_alloc _)) ?_
  rintro _ mat ⟨hmat, -⟩
  have hst : 0 < nCols / 50 := by omega
  have main := windowLoop_none (check := windowCheck sched (G.generate fam) G.len nCols nSrows nScols seed mat) (bound := nCols - nScols - 1) (step := nCols / 50)
    (Inv := fun s => AllocTo s (nSrows * nScols)) hst hfit2 p0 (fun t ht s hs => ?_) _ 0 le_rfl (Buf.alloc T (nSrows * nScols)) (allocTo_alloc _)
  · simp only [Nat.cast_zero, zero_mul, add_zero] at main
    refine M.wp_mono main ?_
    rintro r s' rfl
    rw [M.wp_pure]
  · have ht0 : 0 ≤ (t : Int) * (nCols / 50) := mul_nonneg (by omega) hst.le
    have hd : (p0 + t * (nCols / 50)) / nCols = 0 := Int.ediv_eq_zero_of_lt (by omega) (by omega)
    have hm : (p0 + t * (nCols / 50)) % nCols = p0 + t * (nCols / 50) := Int.emod_eq_of_lt (by omega) (by omega)
    refine M.wp_mono (windowCheck_none (nRows := nRows) hL hL2 (fun c => generate_spec hG fam c seed.key) (by omega) (by omega) hn hr (by omega)
      (by rw [hm]; left; omega) (by omega) hfit hmat hs) ?_
    rintro r s' ⟨h1, h2⟩
    exact ⟨h1, fun q q0 q1 => h2 q (hs q q0 q1)⟩

/-- C131: with less than 50 columns the step is zero and the test does not end. -/
theorem C131_rowwise_endless (hG : G.Ok) (h50 : nCols < 50) (hr : 0 ≤ nSrows) (hn : 0 < nScols) (hrows : nSrows ≤ nRows) (hp : 0 ≤ p0)
    (hfit : nRows * nCols ≤ intMax 32) (hb : p0 < nCols - nScols - 1) :
    M.Undef (testRowwise sched (G.generate fam) G.len nCols nRows nScols nSrows p0 seed) () := by
  have hc : 0 < nCols := by omega
  obtain ⟨hL, hL2⟩ := len_facts hG
  have hmax : (50 : Int) ≤ intMax 64 := by decide
  unfold testRowwise
  simp only [Int.tdiv_eq_ediv_of_nonneg hc.le]
  refine M.Undef.after (M.wp_onLocal.mpr (M.wp_mono (fillRmatTrunc_spec hL (fun c => generate_spec hG fam c seed.key) (by omega) hc (allocTo_alloc _)) ?_))
  rintro _ mat ⟨hmat, -⟩
  refine M.Undef.bind ?_
  have hd : p0 / nCols = 0 := Int.ediv_eq_zero_of_lt (by omega) (by omega)
  have hm : p0 % nCols = p0 := Int.emod_eq_of_lt (by omega) (by omega)
  have hu : M.Undef (windowLoop (windowCheck sched (G.generate fam) G.len nCols nSrows nScols seed mat) (nCols - nScols - 1) (nCols / 50) p0) (Buf.alloc T (nSrows * nScols)) := by
    unfold windowLoop
    rw [dif_pos hb]
    refine M.Undef.after (M.wp_mono (windowCheck_none (nRows := nRows) hL hL2 (fun c => generate_spec hG fam c seed.key) hp (by omega) hn hr (by omega)
      (by rw [hm]; left; omega) (by omega) hfit hmat (allocTo_alloc _)) ?_)
    rintro r s' ⟨rfl, -⟩
    dsimp only
    rw [dif_pos (Or.inl (by rw [Int.ediv_eq_zero_of_lt (by omega) h50]))]
    exact M.Undef.lift
  unfold M.Undef M.onLocal at *
  rcases h : windowLoop (windowCheck sched (G.generate fam) G.len nCols nSrows nScols seed mat) (nCols - nScols - 1) (nCols / 50) p0 (Buf.alloc T (nSrows * nScols)) with ⟨x, y⟩
  rw [h] at hu
  simp only at hu
  rw [hu]

/-- C131 (windows along the diagonal). The test accepts if the matrix is square, or the length of the rows is a multiple of the number of words per counter.

Missing: other matrices (`C131_diag_wrap`). -/
theorem C131_diag_partial [Zero T] [Mul T] (hG : G.Ok) (hR : 0 < nRows) (hc : 0 < nCols) (hin : nRows = nCols ∨ nCols % G.len = 0) (hfit : nRows * nCols + (nRows + 1) ≤ intMax 32) :
    M.wp (testDiag sched (G.generate fam) G.len nCols nRows seed) () (fun r _ => r = none) := by
  obtain ⟨hL, hL2⟩ := len_facts hG
  have hmax : intMax 32 ≤ intMax 64 := by decide
  unfold testDiag
  simp only [M.wp_bind, M.wp_onLocal]
  refine M.wp_mono (fillRmatTrunc_spec hL (fun c => generate_spec hG fam c seed.key) hR.le hc (allocTo_alloc _)) ?_
  rintro _ mat ⟨hmat, -⟩
  have main : ∀ (fuel k : Nat), (nCols * nRows - k * (nRows + 1)).toNat ≤ fuel → ∀ s, AllocTo s (nRows * nCols) →
      M.wp (diagLoop sched (G.generate fam) G.len nCols nRows seed mat (k * (nRows + 1)) (k + 1)) s (fun r _ => r = none) := by
    intro fuel
    induction fuel with
    | zero =>
      intro k hk s _
      unfold diagLoop
      have h0 : 0 ≤ nCols * ((k : Int) + 1) := mul_nonneg hc.le (by omega)
      rw [dif_neg (by omega), M.wp_pure]
    | succ fuel ih =>
      intro k hk s hs
      unfold diagLoop
      by_cases hb : (k : Int) * (nRows + 1) + (k + 1) + nCols * (k + 1) < nCols * nRows
      · have hk0 : 0 ≤ (k : Int) := by omega
        have hp0 : 0 ≤ (k : Int) * (nRows + 1) := mul_nonneg hk0 (by omega)
        have hkc : (k : Int) + 1 ≤ nCols := by
          by_contra h
          have : nCols * (nRows + 1) ≤ (k : Int) * (nRows + 1) := Int.mul_le_mul_of_nonneg_right (by omega) (by omega)
          have h2 : 0 ≤ nCols * ((k : Int) + 1) := mul_nonneg hc.le (by omega)
          rw [mul_add nCols nRows 1] at this
          omega
        have hdm := Int.mul_ediv_add_emod ((k : Int) * (nRows + 1)) nCols
        have hm0 := Int.emod_nonneg ((k : Int) * (nRows + 1)) (show nCols ≠ 0 by omega)
        have hrow : (k : Int) * (nRows + 1) / nCols + (k + 1) < nRows := by
          have h1 : nCols * ((k : Int) * (nRows + 1) / nCols + (k + 1)) < nCols * nRows := by rw [mul_add]; omega
          exact lt_of_mul_lt_mul_left h1 hc.le
        have hd0 : 0 ≤ (k : Int) * (nRows + 1) / nCols := Int.ediv_nonneg hp0 hc.le
        have hsq : ((k : Int) + 1) * (k + 1) ≤ nRows * nCols := by
          have : ((k : Int) + 1) * (k + 1) ≤ nRows * (k + 1) := Int.mul_le_mul_of_nonneg_right (by omega) (by omega)
          have h2 : nRows * ((k : Int) + 1) ≤ nRows * nCols := Int.mul_le_mul_of_nonneg_left hkc hR.le
          omega
        have hcomm : nCols * nRows = nRows * nCols := mul_comm _ _
        have hpos : 0 ≤ nCols * ((k : Int) + 1) := mul_nonneg hc.le (by omega)
        rw [dif_pos hb, M.wp_bind]
        refine M.wp_mono (safeScal_zero_spec (a := (0 : T)) (mul_nonneg (by omega) (by omega)) (by omega) (by simp) (fun i i0 i1 => hs _ (by omega) (by omega))) ?_
        rintro _ s1 ⟨g1, g2⟩
        have hs1 : AllocTo s1 (nRows * nCols) := by
          intro q q0 q1
          by_cases hq : q < ((k : Int) + 1) * (k + 1)
          · have := g1 q q0 hq
            rw [zero_add, mul_one] at this
            rw [this]; simp
          · rw [g2 q (fun i i0 i1 => by omega)]; exact hs q q0 q1
        rw [M.wp_bind]
        refine M.wp_mono (windowCheck_none (nRows := nRows) hL hL2 (fun c => generate_spec hG fam c seed.key) hp0 (by omega) (by omega) (by omega) hkc
          ?_ (by omega) (by omega) hmat (fun q q0 q1 => hs1 q q0 (by omega))) ?_
        · rcases hin with h | h
          · left
            subst h
            rw [show (k : Int) * (nRows + 1) = k + nRows * k by ring, Int.add_mul_emod_self_left, Int.emod_eq_of_lt hk0 (by omega)]
            by_contra hcon
            nlinarith
          · exact Or.inr ⟨h, hrow⟩
        rintro r s2 ⟨rfl, h2⟩
        dsimp only
        rw [dif_neg (by omega), show (k : Int) * (nRows + 1) + (nRows + 1) = ((k + 1 : Nat) : Int) * (nRows + 1) by push_cast; ring,
          show (k : Int) + 1 + 1 = ((k + 1 : Nat) : Int) + 1 by push_cast; ring]
        exact ih (k + 1) (by push_cast; rw [add_mul]; omega) s2 (fun q q0 q1 => h2 q (hs1 q q0 q1))
      · rw [dif_neg hb, M.wp_pure]
  have hz : AllocTo (zeroVec (nRows * nCols) : Buf T) (nRows * nCols) := by
    intro q q0 q1; simp [zeroVec, Buf.ofFn, q0, q1]
  have := main _ 0 le_rfl _ hz
  simp only [Nat.cast_zero, zero_mul, zero_add] at this
  refine M.wp_mono this ?_
  rintro r s' rfl
  rw [M.wp_pure]

/-- C131: on an 8 x 5 matrix with four words per counter the second window, of size 2 x 2 at position 9, crosses the end of a row. The test then compares the word that follows in the padding of row 1
with the first word of row 2 and reports a difference, though the library is right about every entry that exists. -/
theorem C131_diag_wrap [Zero T] [Mul T] (hlen : G.len = 4) (hne : genValue G fam (seed.counter + 3) seed.key 1 ≠ genValue G fam (seed.counter + 4) seed.key 0) :
    M.wp (testDiag sched (G.generate fam) G.len 5 8 seed) () (fun r _ => r = some (9, 0, 1)) := by
  have hG : G.Ok := Or.inr hlen
  obtain ⟨hL, hL2⟩ := len_facts hG
  unfold testDiag
  simp only [M.wp_bind, M.wp_onLocal]
  refine M.wp_mono (fillRmatTrunc_spec hL (fun c => generate_spec hG fam c seed.key) (by omega) (by omega) (allocTo_alloc _)) ?_
  rintro _ mat ⟨hmat, -⟩
  have hz : AllocTo (zeroVec (8 * 5) : Buf T) 40 := by
    intro q q0 q1; simp [zeroVec, Buf.ofFn, q0, q1]
  have scal : ∀ (n : Int) (s : Buf T), 0 ≤ n → n ≤ 40 → AllocTo s 40 → M.wp (safeScal n (0 : T) 0 1) s (fun _ s' => AllocTo s' 40) := by
    intro n s h0 h1 hs
    refine M.wp_mono (safeScal_zero_spec (a := (0 : T)) h0 (by omega) (by simp) (fun i i0 i1 => hs _ (by omega) (by omega))) ?_
    rintro _ s1 ⟨g1, g2⟩ q q0 q1
    by_cases hq : q < n
    · have := g1 q q0 hq
      rw [zero_add, mul_one] at this
      rw [this]; simp
    · rw [g2 q (fun i i0 i1 => by omega)]; exact hs q q0 q1
  unfold diagLoop
  rw [dif_pos (by norm_num), M.wp_bind]
  refine M.wp_mono (scal _ _ (by norm_num) (by norm_num) hz) ?_
  intro _ s1 hs1
  rw [M.wp_bind]
  refine M.wp_mono (windowCheck_none (nRows := 8) hL hL2 (fun c => generate_spec hG fam c seed.key) le_rfl (by decide) (by omega) (by omega) (by omega)
    (Or.inl (by norm_num)) (by norm_num) (by decide) hmat (fun q q0 q1 => hs1 q q0 (by omega))) ?_
  rintro r s2 ⟨rfl, h2⟩
  dsimp only
  rw [dif_neg (by decide)]
  norm_num only
  unfold diagLoop
  rw [dif_pos (by norm_num), M.wp_bind]
  refine M.wp_mono (scal _ _ (by norm_num) (by norm_num) (fun q q0 q1 => h2 q (hs1 q q0 q1))) ?_
  intro _ s3 hs3
  rw [M.wp_bind]
  unfold windowCheck
  rw [M.wp_bind]
  have hspec := fillSubmat_wide (sched := sched) (seed := seed) (b := s3) (nCols := 5) (nSrows := 2) (nScols := 2) (ro := 1) (co := 4) hL hL2
    (fun c => generate_spec hG fam c seed.key) (by omega) (by omega) (by omega) (by omega) (by omega) (by omega) (by rw [hlen]; decide) (by decide) (fun q q0 q1 => hs3 q q0 (by omega))
  norm_num only at hspec
  refine M.wp_mono hspec ?_
  rintro st s4 ⟨h1, -, -, -⟩
  have a00 := h1 0 0 ⟨by omega, by omega, by omega, by omega⟩
  have a01 := h1 0 1 ⟨by omega, by omega, by omega, by omega⟩
  have b00 := hmat 1 4 ⟨by omega, by omega, by omega, by omega⟩
  have b01 := hmat 2 0 ⟨by omega, by omega, by omega, by omega⟩
  simp only [refVal, hlen, countersPerVector] at a00 a01 b00 b01
  norm_num at a00 a01 b00 b01
  simp only [M.wp_bind, M.wp_get, M.wp_lift]
  refine ⟨some (0, 1), ?_, by rw [M.wp_pure, M.wp_pure]⟩
  unfold firstDiff
  simp only [findI, show ((2 : Int) - 0).toNat = 2 from rfl, findN]
  norm_num [Buf.rd_val a00, Buf.rd_val a01, Buf.rd_val b00, Buf.rd_val b01, hne]

/-- C131 (threads). Filling under any schedules gives the same array. -/
theorem C131_threads [Zero T] (hG : G.Ok) (s1 : List Nat) (scheds : List (List Nat)) {m n : Int} (hm : 0 ≤ m) (hn : 0 < n) (hfit : m * n ≤ intMax 64) :
    M.wp (testThreads s1 scheds (G.generate fam) G.len m n seed) () (fun r _ => r = true) := by
  obtain ⟨hL, hL2⟩ := len_facts hG
  have hz : AllocTo (zeroVec (m * n) : Buf T) (m * n) := by
    intro q q0 q1; simp [zeroVec, Buf.ofFn, q0, q1]
  have fill : ∀ s, M.wp (fillDenseSubmatImpl s (G.generate fam) G.len n m n 0 seed 0) (zeroVec (m * n) : Buf T) (fun _ b => Holds b .RowMajor n m n (denseRaw G fam n seed)) := by
    intro s
    have := fillSubmat_spec (sched := s) (seed := seed) (b := (zeroVec (m * n) : Buf T)) (nCols := n) (nSrows := m) (nScols := n) (ro := 0) (co := 0) hL hL2
      (fun c => generate_spec hG fam c seed.key) le_rfl le_rfl hn hm (by omega)
      (by
        have h1 := countersPerVector_le (n := n) hL hn.le
        rw [zero_add]
        have h2 : countersPerVector G.len n * m ≤ n * m := Int.mul_le_mul_of_nonneg_right h1 hm
        rw [mul_comm n m] at h2; omega) (by rw [zero_mul]; decide) hz
    rw [zero_mul, zero_add] at this
    refine M.wp_mono this ?_
    rintro _ b ⟨h1, -⟩ r j hrj
    rw [show addr .RowMajor n r j = r * n + j from rfl, h1 r j hrj]
    simp only [zero_add]; rfl
  unfold testThreads
  rw [M.wp_bind, M.wp_onLocal]
  refine M.wp_mono (fill s1) ?_
  rintro _ base hbase
  rw [holds_rowMajor_tight hn] at hbase
  induction scheds with
  | nil => unfold threadRounds; rw [M.wp_pure]
  | cons s ss ih =>
    unfold threadRounds
    rw [M.wp_bind]
    unfold threadRound
    rw [M.wp_bind, M.wp_onLocal]
    refine M.wp_mono (fill s) ?_
    rintro _ test htest
    rw [holds_rowMajor_tight hn] at htest
    rw [M.wp_lift]
    have hfold : Res.sat (foldI 0 (m * n) (fun i (ok : Bool) => (do
        let a ← base.rd i
        let b ← test.rd i
        pure (ok && decide (a = b)) : Res Bool)) true) (fun ok => ok = true) := by
      refine Res.sat_foldI (fun _ ok => ok = true) (mul_nonneg hm hn.le) rfl ?_ (fun _ h => h)
      rintro i ok i0 i1 rfl
      rw [Buf.rd_val (hbase i i0 i1), Buf.rd_val (htest i i0 i1)]
      simp
    obtain ⟨ok, e, rfl⟩ := hfold
    refine ⟨true, e, ?_⟩
    rw [M.wp_bind]
    refine M.wp_mono ih ?_
    rintro b s' rfl
    rw [M.wp_pure]; rfl

end

/-! ## Operators -/

theorem filled_op [Mul T] {G : Gen N K W T} {sqrt3 : T} {D : DenseDist} {S : DenseSkOp N K T} {seed : RNGState N K} (hG : G.Ok) (hD : DenseDistOk D)
    (hS : mkDenseSkOp G.len D seed = .ok S) (sched : List Nat) :
    M.wp (fillDenseOp sched G sqrt3) S (fun _ S' => ∃ b, S' = { S with buff := some b } ∧ Holds b D.naturalLayout D.dimMajor D.nRows D.nCols (denseEntry G sqrt3 D seed)) := by
  obtain ⟨h1, h2, h3, h4, h5⟩ := mkDenseSkOp_ok hD hS
  refine M.wp_mono (C47_fill_dense hG h1 (Or.inl h5)) ?_
  rintro _ S' ⟨b, e, -, h⟩
  refine ⟨b, e, ?_⟩
  rw [h1.layout, h1.rows, h1.cols, h2, h3] at h
  exact h

theorem mkDenseSkOp_exists {L : Int} {D : DenseDist} (hL : 0 < L) (hD : DenseDistOk D) (seed : RNGState N K) :
    ∃ S : DenseSkOp N K T, mkDenseSkOp L D seed = .ok S ∧ S.layout = D.naturalLayout ∧
      S.nextState = { seed with counter := seed.counter + ((D.dimMinor * countersPerVector L D.dimMajor : Int) : ZMod N) } := by
  refine ⟨_, by unfold mkDenseSkOp; rw [denseNextState_eq hL hD]; rfl, rfl, rfl⟩

/-- C131 (transposes). An operator and the one with exchanged dimensions from the same seed are transposes of each other, in opposite layouts: the test accepts.

Missing: equal dimensions (`C131_auto_transpose_square`). -/
theorem C131_auto_transpose_partial [Field T] [LinearOrder T] {s1 s2 : List Nat} {G : Gen N K W T} {sqrt3 atol rtol : T} {a b : Int} {ax : Axis} {seed : RNGState N K} (hG : G.Ok)
    (ha : 0 < a) (hb : 0 < b) (hne : a ≠ b) (hfit : a * b ≤ intMax 64) (ht : 0 ≤ atol) :
    M.wp (testAutoTranspose s1 s2 G sqrt3 atol rtol a b ax seed) () (fun r _ => r = (true, none)) := by
  have hL := (len_facts hG).1
  have hDw := mkDenseDist_eq (fam := .Uniform) (ax := ax) ha hb
  have hDt := mkDenseDist_eq (fam := .Uniform) (ax := ax) hb ha
  generalize hdw : ({ nRows := a, nCols := b, majorAxis := ax, dimMajor := if ax = .Long then max a b else min a b, dimMinor := if ax = .Long then min a b else max a b, family := .Uniform, naturalLayout := naturalLayout ax a b } : DenseDist) = Dw at hDw
  generalize hdt : ({ nRows := b, nCols := a, majorAxis := ax, dimMajor := if ax = .Long then max b a else min b a, dimMinor := if ax = .Long then min b a else max b a, family := .Uniform, naturalLayout := naturalLayout ax b a } : DenseDist) = Dt at hDt
  have okw := denseDistOk_of_mk hDw hfit
  have okt := denseDistOk_of_mk hDt (by rw [mul_comm]; exact hfit)
  obtain ⟨Sw, hSw, lw, -⟩ := mkDenseSkOp_exists (T := T) hL okw seed
  obtain ⟨St, hSt, lt, -⟩ := mkDenseSkOp_exists (T := T) hL okt seed
  unfold testAutoTranspose
  rw [M.wp_bind, M.wp_lift]
  refine ⟨Dw, hDw, ?_⟩
  rw [M.wp_bind, M.wp_lift]
  refine ⟨Sw, hSw, ?_⟩
  rw [M.wp_bind, M.wp_onLocal]
  refine M.wp_mono (filled_op hG okw hSw s1) ?_
  rintro _ _ ⟨bw, rfl, hbw⟩
  rw [M.wp_bind, M.wp_lift]
  refine ⟨Dt, hDt, ?_⟩
  rw [M.wp_bind, M.wp_lift]
  refine ⟨St, hSt, ?_⟩
  rw [M.wp_bind, M.wp_onLocal]
  refine M.wp_mono (filled_op hG okt hSt s2) ?_
  rintro _ _ ⟨bt, rfl, hbt⟩
  dsimp only
  rw [lw, lt]
  have hrw : Dw.nRows = a ∧ Dw.nCols = b ∧ Dw.naturalLayout = naturalLayout ax a b := by rw [← hdw]; exact ⟨rfl, rfl, rfl⟩
  have hrt : Dt.nRows = b ∧ Dt.nCols = a ∧ Dt.naturalLayout = naturalLayout ax b a := by rw [← hdt]; exact ⟨rfl, rfl, rfl⟩
  rw [hrw.1, hrw.2.1, hrw.2.2] at hbw
  rw [hrt.1, hrt.2.1, hrt.2.2] at hbt
  rw [hrw.2.2, hrt.2.2]
  have key : (naturalLayout ax a b = .RowMajor ∧ naturalLayout ax b a = .ColMajor) ∨ (naturalLayout ax a b = .ColMajor ∧ naturalLayout ax b a = .RowMajor) := by
    unfold naturalLayout
    rcases lt_or_gt_of_ne hne with h | h <;> cases ax <;> simp [h, not_lt.mpr h.le]
  rcases key with ⟨e1, e2⟩ | ⟨e1, e2⟩
  · rw [e1] at hbw ⊢
    rw [e2] at hbt ⊢
    have f1 := fun i j => denseEntry_rowMajor (G := G) (sqrt3 := sqrt3) (seed := seed) (i := i) (j := j) ha hb hDw e1
    have f2 := fun i j => denseEntry_colMajor (G := G) (sqrt3 := sqrt3) (seed := seed) (i := i) (j := j) hb ha hDt e2
    rw [(f1 0 0).2.1] at hbw
    rw [(f2 0 0).2.1] at hbt
    rw [if_neg (by simp), M.wp_bind, M.wp_lift]
    refine ⟨none, ?_, by rw [M.wp_pure]⟩
    rcases C118_matrices_partial (op := .Trans) ha.le hb.le (fltBuf_holds hbw) (fltBuf_holds hbt) atol rtol with ⟨e, -⟩ | ⟨i, j, -, -, hn⟩
    · exact e
    · refine absurd ?_ hn
      show Close atol rtol _ (denseEntry G sqrt3 Dt seed j i)
      rw [(f1 i j).1, (f2 j i).1]
      exact close_self ht _ _
  · rw [e1] at hbw ⊢
    rw [e2] at hbt ⊢
    have f1 := fun i j => denseEntry_colMajor (G := G) (sqrt3 := sqrt3) (seed := seed) (i := i) (j := j) ha hb hDw e1
    have f2 := fun i j => denseEntry_rowMajor (G := G) (sqrt3 := sqrt3) (seed := seed) (i := i) (j := j) hb ha hDt e2
    rw [(f1 0 0).2.1] at hbw
    rw [(f2 0 0).2.1] at hbt
    rw [if_neg (by simp), M.wp_bind, M.wp_lift]
    refine ⟨none, ?_, by rw [M.wp_pure]⟩
    rcases C118_matrices_partial (op := .Trans) ha.le hb.le (fltBuf_holds hbw) (fltBuf_holds hbt) atol rtol with ⟨e, -⟩ | ⟨i, j, -, -, hn⟩
    · exact e
    · refine absurd ?_ hn
      show Close atol rtol _ (denseEntry G sqrt3 Dt seed j i)
      rw [(f1 i j).1, (f2 j i).1]
      exact close_self ht _ _

/-- C131: for a square operator the layouts are the same, and the test fails. -/
theorem C131_auto_transpose_square [Field T] [LinearOrder T] {s1 s2 : List Nat} {G : Gen N K W T} {sqrt3 atol rtol : T} {a : Int} {ax : Axis} {seed : RNGState N K} (hG : G.Ok)
    (ha : 0 < a) (hfit : a * a ≤ intMax 64) : M.wp (testAutoTranspose s1 s2 G sqrt3 atol rtol a a ax seed) () (fun r _ => r = (false, none)) := by
  have hL := (len_facts hG).1
  have hD := mkDenseDist_eq (fam := .Uniform) (ax := ax) ha ha
  have ok := denseDistOk_of_mk hD hfit
  obtain ⟨S, hS, l, -⟩ := mkDenseSkOp_exists (T := T) hL ok seed
  unfold testAutoTranspose
  rw [M.wp_bind, M.wp_lift]
  refine ⟨_, hD, ?_⟩
  rw [M.wp_bind, M.wp_lift]
  refine ⟨S, hS, ?_⟩
  rw [M.wp_bind, M.wp_onLocal]
  refine M.wp_mono (filled_op hG ok hS s1) ?_
  rintro _ _ ⟨bw, rfl, hbw⟩
  rw [M.wp_bind, M.wp_lift]
  refine ⟨_, hD, ?_⟩
  rw [M.wp_bind, M.wp_lift]
  refine ⟨S, hS, ?_⟩
  rw [M.wp_bind, M.wp_onLocal]
  refine M.wp_mono (filled_op hG ok hS s2) ?_
  rintro _ _ ⟨bt, rfl, hbt⟩
  rw [if_pos rfl, M.wp_pure]

theorem blasCopy_rowSt {n d : Int} {src b : Buf T} {v : Int → T} (hn : 0 ≤ n) (hsrc : ∀ p, 0 ≤ p → p < n → src p = .val (v p)) (hal : ∀ p, 0 ≤ p → p < n → b (d + p) ≠ .none) :
    M.wp (blasCopy n src 0 1 d 1) b (fun _ b' => RowSt b d n v b') := by
  unfold blasCopy blasCheck
  rw [if_pos hn]
  simp only [pure_bind]
  refine M.wp_forI (fun i c => RowSt b d i v c) hn (RowSt.init b d v) ?_ (fun _ h => h)
  intro i c i0 i1 hc
  simp only [M.wp_bind, M.wp_lift, zero_add, mul_one, M.wp_wr]
  exact ⟨_, Buf.rd_val (hsrc i i0 i1), hc.alloc (hal i i0 i1), hc.step i0⟩

theorem colMajor_flat {b : Buf T} {m n : Int} {A : Int → Int → T} (hm : 0 < m) (h : Holds b .ColMajor m m n A) : ∀ p, 0 ≤ p → p < m * n → b p = .val (A (p % m) (p / m)) := by
  intro p p0 p1
  exact (holds_rowMajor_tight hm).mp ((holds_flip (layout := .RowMajor)).mp h) p p0 (by rw [mul_comm]; exact p1)

/-- C131 (concatenation). A tall operator with major axis Long is the operator with the first half of the columns followed by one that starts from its next state: the test accepts. -/
theorem C131_concat [Zero T] [Mul T] [DecidableEq T] {s1 s2 s3 : List Nat} {G : Gen N K W T} {sqrt3 : T} {nRows nCols : Int} {sd : ScalarDist} {seed : RNGState N K} (hG : G.Ok)
    (hc : 2 ≤ nCols) (hr : nCols < nRows) (hfit : nRows * nCols ≤ intMax 64) : M.wp (testConcat s1 s2 s3 G sqrt3 nRows nCols sd seed) () (fun r _ => r = none) := by
  have hL := (len_facts hG).1
  have hdiv : nCols.tdiv 2 = nCols / 2 := Int.tdiv_eq_ediv_of_nonneg (by omega)
  have c1 : 0 < nCols / 2 := by omega
  have c2 : 0 < nCols - nCols / 2 := by omega
  have hR : 0 < nRows := by omega
  have f1 : nRows * (nCols / 2) ≤ nRows * nCols := Int.mul_le_mul_of_nonneg_left (by omega) hR.le
  have f2 : nRows * (nCols - nCols / 2) ≤ nRows * nCols := Int.mul_le_mul_of_nonneg_left (by omega) hR.le
  have nat : ∀ c, c < nRows → naturalLayout .Long nRows c = .ColMajor := fun c h => by simp [naturalLayout, show ¬ nRows < c by omega]
  obtain ⟨D1, hD1⟩ : ∃ D, mkDenseDist nRows (nCols / 2) sd .Long = .ok D := ⟨_, mkDenseDist_eq hR c1⟩
  obtain ⟨D2, hD2⟩ : ∃ D, mkDenseDist nRows (nCols - nCols / 2) sd .Long = .ok D := ⟨_, mkDenseDist_eq hR c2⟩
  obtain ⟨D, hD⟩ : ∃ D, mkDenseDist nRows nCols sd .Long = .ok D := ⟨_, mkDenseDist_eq hR (by omega)⟩
  have dims : ∀ {c : Int} {E : DenseDist}, 0 < c → c < nRows → mkDenseDist nRows c sd .Long = .ok E → E.nRows = nRows ∧ E.nCols = c ∧ E.naturalLayout = .ColMajor := by
    intro c E h0 h1 h
    rw [mkDenseDist_eq hR h0] at h; cases h
    exact ⟨rfl, rfl, nat c h1⟩
  have ok1 := denseDistOk_of_mk hD1 (by omega)
  have ok2 := denseDistOk_of_mk hD2 (by omega)
  have ok := denseDistOk_of_mk hD hfit
  have e1 := fun (s : RNGState N K) i j => denseEntry_colMajor (G := G) (sqrt3 := sqrt3) (seed := s) (i := i) (j := j) hR c1 hD1 (nat _ (by omega))
  have e2 := fun (s : RNGState N K) i j => denseEntry_colMajor (G := G) (sqrt3 := sqrt3) (seed := s) (i := i) (j := j) hR c2 hD2 (nat _ (by omega))
  have e := fun (s : RNGState N K) i j => denseEntry_colMajor (G := G) (sqrt3 := sqrt3) (seed := s) (i := i) (j := j) hR (show 0 < nCols by omega) hD (nat _ hr)
  obtain ⟨d11, d12, d13⟩ := dims c1 (by omega) hD1
  obtain ⟨d21, d22, d23⟩ := dims c2 (by omega) hD2
  obtain ⟨d1, d2, d3⟩ := dims (show 0 < nCols by omega) hr hD
  obtain ⟨S1, hS1, -, n1⟩ := mkDenseSkOp_exists (T := T) hL ok1 seed
  obtain ⟨S2, hS2, -, -⟩ := mkDenseSkOp_exists (T := T) hL ok2 S1.nextState
  obtain ⟨S, hS, -, -⟩ := mkDenseSkOp_exists (T := T) hL ok seed
  unfold testConcat
  simp only [hdiv]
  rw [M.wp_bind, M.wp_require]
  refine ⟨hr, ?_⟩
  rw [M.wp_bind, M.wp_lift]
  refine ⟨D1, hD1, ?_⟩
  rw [M.wp_bind, M.wp_lift]
  refine ⟨D2, hD2, ?_⟩
  rw [M.wp_bind, M.wp_lift]
  refine ⟨D, hD, ?_⟩
  rw [M.wp_bind, M.wp_lift]
  refine ⟨S1, hS1, ?_⟩
  rw [M.wp_bind, M.wp_lift]
  refine ⟨S2, hS2, ?_⟩
  rw [M.wp_bind, M.wp_onLocal]
  refine M.wp_mono (filled_op hG ok1 hS1 s1) ?_
  rintro _ _ ⟨b1, rfl, hb1⟩
  rw [M.wp_bind, M.wp_onLocal]
  refine M.wp_mono (filled_op hG ok2 hS2 s2) ?_
  rintro _ _ ⟨b2, rfl, hb2⟩
  rw [d11, d12, d13, (e1 seed 0 0).2.1] at hb1
  rw [d21, d22, d23, (e2 seed 0 0).2.1] at hb2
  have g1 := colMajor_flat hR hb1
  have g2 := colMajor_flat hR hb2
  have hsum : nRows * (nCols / 2) + nRows * (nCols - nCols / 2) = nRows * nCols := by ring
  have hp1 : 0 < nRows * (nCols / 2) := mul_pos hR c1
  have hp2 : 0 < nRows * (nCols - nCols / 2) := mul_pos hR c2
  dsimp only
  rw [d12, d22, M.wp_bind, M.wp_onLocal]
  refine M.wp_mono (blasCopy_rowSt (src := ptr (some b1)) hp1.le g1 (fun p p0 p1 => by rw [zero_add]; simp [zeroVec, Buf.ofFn, p0, show p < nRows * nCols by omega])) ?_
  intro _ A1 hA1
  dsimp only
  rw [M.wp_bind, M.wp_onLocal]
  refine M.wp_mono (blasCopy_rowSt (src := ptr (some b2)) hp2.le g2 (fun p p0 p1 => hA1.alloc (by
    simp [zeroVec, Buf.ofFn, show 0 ≤ nRows * (nCols / 2) + p by omega, show nRows * (nCols / 2) + p < nRows * nCols by omega]))) ?_
  intro _ A hA
  rw [M.wp_bind, M.wp_lift]
  refine ⟨S, hS, ?_⟩
  rw [M.wp_bind, M.wp_onLocal]
  refine M.wp_mono (filled_op hG ok hS s3) ?_
  rintro _ _ ⟨b, rfl, hb⟩
  rw [d1, d2, d3, (e seed 0 0).2.1] at hb
  have g := colMajor_flat hR hb
  dsimp only
  rw [M.wp_lift]
  refine ⟨none, findI_none fun p p0 p1 => ?_, rfl⟩
  have hval : A p = b p := by
    rw [g p p0 p1, hA p]
    by_cases h : p < nRows * (nCols / 2)
    · rw [if_neg (by omega), hA1 p, if_pos (by omega), sub_zero]; dsimp only; rw [(e1 seed _ _).1, (e seed _ _).1]
    · rw [if_pos (by omega)]; dsimp only
      rw [show p - nRows * (nCols / 2) = p + nRows * (-(nCols / 2)) by ring, Int.add_mul_emod_self_left, Int.add_mul_ediv_left _ _ (by omega), (e2 _ _ _).1, (e seed _ _).1, n1,
        (e1 seed 0 0).2.1, (e1 seed 0 0).2.2]
      unfold denseRaw
      congr 3
      push_cast; ring
  obtain ⟨x, hx⟩ : ∃ x, b p = .val x := ⟨_, g p p0 p1⟩
  simp [Buf.rd_val (show A p = .val x by rw [hval, hx]), Buf.rd_val (show (ptr (some b)) p = .val x from hx)]

/-- C131: other shapes are refused. -/
theorem C131_concat_error [Zero T] [Mul T] [DecidableEq T] {s1 s2 s3 : List Nat} {G : Gen N K W T} {sqrt3 : T} {nRows nCols : Int} {sd : ScalarDist} {seed : RNGState N K}
    (h : nRows ≤ nCols ∨ nCols < 2) : (testConcat s1 s2 s3 G sqrt3 nRows nCols sd seed ()).1 = .throw .require := by
  unfold testConcat
  by_cases hr : nRows > nCols
  · have hc : nCols < 2 := by omega
    have h0 : ¬ nCols.tdiv 2 > 0 := by
      by_cases hp : 0 ≤ nCols
      · rw [Int.tdiv_eq_ediv_of_nonneg hp]; omega
      · have e : nCols = -(-nCols) := by ring
        rw [e, Int.neg_tdiv, Int.tdiv_eq_ediv_of_nonneg (show 0 ≤ -nCols by omega)]; omega
    rw [M.bind_ok (show (M.require (nRows > nCols) : M Unit Unit) () = (.ok (), ()) by simp [M.require, Res.require, hr]; rfl)]
    refine congrArg Prod.fst (M.bind_throw (e := .require) (s' := ()) ?_)
    have : mkDenseDist nRows (nCols.tdiv 2) sd .Long = .throw .require := by
      unfold mkDenseDist
      by_cases hR : nRows > 0 <;> simp [Res.require, hR, h0]
    rw [this]; rfl
  · rw [M.bind_throw (show (M.require (nRows > nCols) : M Unit Unit) () = (.throw .require, ()) by simp [M.require, Res.require, hr]; rfl)]

/-- C131 (next state). The state returned by filling is the one computed beforehand. -/
theorem C131_next_state [Mul T] {sched : List Nat} {G : Gen N K W T} {sqrt3 : T} {nRows nCols : Int} {sd : ScalarDist} {seed : RNGState N K} (hG : G.Ok)
    (hr : 0 < nRows) (hc : 0 < nCols) (hfit : nRows * nCols ≤ intMax 64) : M.wp (testNextState sched G sqrt3 nRows nCols sd seed) () (fun r _ => r = true) := by
  have hL := (len_facts hG).1
  have hD := mkDenseDist_eq (fam := sd) (ax := .Long) hr hc
  have ok := denseDistOk_of_mk hD hfit
  unfold testNextState
  rw [M.wp_bind, M.wp_lift]
  refine ⟨_, hD, ?_⟩
  rw [M.wp_bind, M.wp_onLocal]
  obtain ⟨S, hS, -, h⟩ := C03_returns_next_state (sched := sched) (sqrt3 := sqrt3) (layout := naturalLayout .Long nRows nCols) (seed := seed) hG ok (allocTo_alloc _)
  refine M.wp_mono h ?_
  rintro st b rfl
  rw [M.wp_bind, M.wp_lift]
  refine ⟨_, denseNextState_eq hL ok, ?_⟩
  rw [M.wp_pure]
  unfold mkDenseSkOp at hS; rw [denseNextState_eq hL ok] at hS; cases hS
  simp

/-- C131 (comparison). The comparison of a window names the first entry, row by row, in which it differs from the reference matrix; it finds none exactly if the window agrees with it. -/
theorem C131_comparison [DecidableEq T] {smat mat : Buf T} {nptr nCols nSrows nScols : Int} {a b : Int → Int → T}
    (hs : ∀ i j, InR nSrows nScols i j → smat (i * nScols + j) = .val (a i j)) (hm : ∀ i j, InR nSrows nScols i j → mat (nptr + i * nCols + j) = .val (b i j)) :
    ∃ r, firstDiff smat mat nptr nCols nSrows nScols = .ok r ∧ (r = none ↔ ∀ i j, InR nSrows nScols i j → a i j = b i j) ∧
      ∀ i j, r = some (i, j) → InR nSrows nScols i j ∧ a i j ≠ b i j ∧ ∀ i' j', InR nSrows nScols i' j' → i' < i ∨ (i' = i ∧ j' < j) → a i' j' = b i' j' := by
  unfold firstDiff
  rcases findI_search (lo := 0) (hi := nSrows) (P := fun i (e : Int × Int) => e.1 = i ∧ 0 ≤ e.2 ∧ e.2 < nScols ∧ a i e.2 ≠ b i e.2 ∧ ∀ j, 0 ≤ j → j < e.2 → a i j = b i j)
      (Q := fun i => ∀ j, 0 ≤ j → j < nScols → a i j = b i j) (fun i i0 i1 => by
        rcases findI_search (lo := 0) (hi := nScols) (P := fun j (e : Int × Int) => e = (i, j) ∧ a i j ≠ b i j) (Q := fun j => a i j = b i j) (body := fun j => do
            let x ← smat.rd (i * nScols + j)
            let y ← mat.rd (nptr + i * nCols + j)
            if x ≠ y then pure (some (i, j)) else pure none) (fun j j0 j1 => by
          simp only [Buf.rd_val (hs i j ⟨i0, i1, j0, j1⟩), Buf.rd_val (hm i j ⟨i0, i1, j0, j1⟩), Res.ok_bind]
          by_cases h : a i j = b i j
          · exact Or.inr ⟨by simp [h], h⟩
          · exact Or.inl ⟨(i, j), by simp [h], rfl, h⟩) with ⟨j, e, j0, j1, ⟨rfl, hne⟩, hl, hf⟩ | ⟨hq, hf⟩
        · exact Or.inl ⟨_, hf, rfl, j0, j1, hne, hl⟩
        · exact Or.inr ⟨hf, hq⟩) with ⟨i, ⟨e1, e2⟩, i0, i1, ⟨rfl, j0, j1, hne, hl⟩, hq, hf⟩ | ⟨hq, hf⟩
  · refine ⟨_, hf, ⟨fun h => (by cases h), fun h => absurd (h _ _ ⟨i0, i1, j0, j1⟩) hne⟩, ?_⟩
    rintro i j h
    cases h
    refine ⟨⟨i0, i1, j0, j1⟩, hne, ?_⟩
    rintro i' j' ⟨a0, a1, a2, a3⟩ (h | ⟨rfl, h⟩)
    · exact hq i' a0 h j' a2 a3
    · exact hl j' a2 h
  · exact ⟨_, hf, ⟨fun _ i j ⟨a0, a1, a2, a3⟩ => hq i a0 a1 j a2 a3, fun _ => rfl⟩, fun i j h => by cases h⟩

/-- C131 (positions). The loop over windows visits the positions p, p + step, p + 2 step, ... below the bound and reports the first at which the check fails. -/
theorem C131_positions {check : Int → M (Buf T) (Option (Int × Int))} {f : Int → Option (Int × Int)} {bound step : Int} (hstep : 0 < step) (hfit : bound - 1 + step ≤ intMax 32)
    (hcheck : ∀ p s, M.wp (check p) s (fun r _ => r = f p)) (p0 : Int) (s : Buf T) :
    M.wp (windowLoop check bound step p0) s (fun r _ => (r = none ∧ ∀ k : Nat, p0 + k * step < bound → f (p0 + k * step) = none) ∨
      ∃ (k : Nat) (e : Int × Int), r = some (p0 + k * step, e) ∧ p0 + k * step < bound ∧ f (p0 + k * step) = some e ∧ ∀ l : Nat, l < k → f (p0 + l * step) = none) := by
  have main : ∀ (fuel : Nat) (p0 : Int) (s : Buf T), (bound - p0).toNat ≤ fuel → M.wp (windowLoop check bound step p0) s (fun r _ =>
      (r = none ∧ ∀ k : Nat, p0 + k * step < bound → f (p0 + k * step) = none) ∨
      ∃ (k : Nat) (e : Int × Int), r = some (p0 + k * step, e) ∧ p0 + k * step < bound ∧ f (p0 + k * step) = some e ∧ ∀ l : Nat, l < k → f (p0 + l * step) = none) := by
    intro fuel
    induction fuel with
    | zero =>
      intro p0 s hf
      rw [windowLoop, dif_neg (by omega), M.wp_pure]
      refine Or.inl ⟨rfl, fun k hk => ?_⟩
      have : 0 ≤ (k : Int) * step := by positivity
      omega
    | succ n ih =>
      intro p0 s hf
      rw [windowLoop]
      by_cases hb : p0 < bound
      · rw [dif_pos hb, M.wp_bind]
        refine M.wp_mono (hcheck p0 s) ?_
        rintro _ s' rfl
        cases hfp : f p0 with
        | some e =>
          dsimp only
          rw [M.wp_pure]
          exact Or.inr ⟨0, e, by simp, by simpa using hb, by simpa using hfp, fun l hl => absurd hl (by omega)⟩
        | none =>
          dsimp only
          rw [dif_neg (by omega)]
          refine M.wp_mono (ih (p0 + step) s' (by omega)) ?_
          have sh : ∀ k : Nat, p0 + step + (k : Int) * step = p0 + ((k + 1 : Nat) : Int) * step := fun k => by push_cast; ring
          rintro r - (⟨rfl, h⟩ | ⟨k, e, rfl, h1, h2, h3⟩)
          · refine Or.inl ⟨rfl, fun k hk => ?_⟩
            cases k with
            | zero => simpa using hfp
            | succ k => rw [← sh] at hk ⊢; exact h k hk
          · rw [sh] at h1 h2
            refine Or.inr ⟨k + 1, e, by rw [sh], h1, h2, fun l hl => ?_⟩
            cases l with
            | zero => simpa using hfp
            | succ l => rw [← sh]; exact h3 l (by omega)
      · rw [dif_neg hb, M.wp_pure]
        refine Or.inl ⟨rfl, fun k hk => ?_⟩
        have : 0 ≤ (k : Int) * step := by positivity
        omega
  exact main _ p0 s le_rfl

/-- A comparison that finds a difference, and a loop that reports the third position. -/
example : ∃ r, firstDiff (Buf.ofFn 4 fun i => i) (Buf.ofFn 9 fun i => if i = 5 then 7 else 2 * (i / 3) + i % 3) 1 3 2 2 = .ok r ∧ r ≠ none :=
  ⟨some (0, 0), by decide, by decide⟩

example : M.wp (windowLoop (fun p => pure (if p = 10 then some (1, 2) else none)) 12 4 2) (Buf.alloc Int 1) (fun r _ => r = some (10, 1, 2)) := by
  refine M.wp_mono (C131_positions (f := fun p => if p = 10 then some (1, 2) else none) (by decide) (by decide) (fun p s => by rw [M.wp_pure]) 2 _) ?_
  rintro r - (⟨-, h⟩ | ⟨k, e, rfl, h1, h2, h3⟩)
  · have := h 2 (by decide); simp at this
  · have hk : k = 2 := by
      by_contra hk
      rcases Nat.lt_or_gt_of_ne hk with h | h
      · rw [if_neg (by omega)] at h2; cases h2
      · have := h3 2 h; simp at this
    subst hk; simp at h2; simp [← h2]

/-- The sizes of the repository's tests. -/
example (key : Nat) : M.wp (testColwise [] (exGen.generate .Uniform) exGen.len 2000 100 97 41 102 ⟨0, key⟩) () (fun r _ => r = none) :=
  C131_colwise_partial (Or.inr rfl) (by decide) (by decide) (by decide) (by decide) (by decide) (Or.inl (by decide)) (by decide) (by decide) (by decide)

example (key : Nat) : M.wp (testRowwise [] (exGen.generate .Uniform) exGen.len 2000 100 100 40 102 ⟨0, key⟩) () (fun r _ => r = none) :=
  C131_rowwise_partial (Or.inr rfl) (by decide) (by decide) (by decide) (by decide) (by decide) (by decide) (by decide)

example (key : Nat) : M.wp (testDiag [] (exGen.generate .Uniform) exGen.len 2000 100 ⟨0, key⟩) () (fun r _ => r = none) :=
  C131_diag_partial (Or.inr rfl) (by decide) (by decide) (Or.inr (by decide)) (by decide)

/-- Sizes for which the loops of the tests do not end. -/
example : M.Undef (testColwise [] (exGen.generate .Uniform) exGen.len 40 30 7 5 3 ⟨0, 0⟩) () :=
  C131_colwise_endless (Or.inr rfl) (by decide) (by decide) (by decide) (by decide) (by decide) (by decide) (Or.inl (by decide)) (by decide) (by decide) (by decide)

example : M.Undef (testRowwise [] (exGen.generate .Uniform) exGen.len 40 30 7 5 3 ⟨0, 0⟩) () :=
  C131_rowwise_endless (Or.inr rfl) (by decide) (by decide) (by decide) (by decide) (by decide) (by decide) (by decide)

/-- A generator for which the diagonal test reports a difference. -/
example : M.wp (testDiag [] (({ exGen with word := fun c _ i => 10 * c.val + i } : Gen (2 ^ 128) Nat Int Int).generate .Uniform) 4 5 8 ⟨0, 0⟩) () (fun r _ => r = some (9, 0, 1)) :=
  C131_diag_wrap (G := { exGen with word := fun c _ i => 10 * c.val + i }) rfl (by decide +kernel)

example : M.wp (testThreads [3, 1] [[2], [0, 0, 5]] (exGen.generate .Gaussian) exGen.len 32 8 ⟨0, 0⟩) () (fun r _ => r = true) :=
  C131_threads (Or.inr rfl) _ _ (by decide) (by decide) (by decide)

example : M.wp (testAutoTranspose [] [1] exGenQ 2 0 0 3 5 .Short ⟨0, 0⟩) () (fun r _ => r = (true, none)) :=
  C131_auto_transpose_partial (Or.inr rfl) (by decide) (by decide) (by decide) (by decide) le_rfl

example : M.wp (testConcat [] [] [4] exGen 2 13 7 .Gaussian ⟨0, 1⟩) () (fun r _ => r = none) := C131_concat (Or.inr rfl) (by decide) (by decide) (by decide)

example : M.wp (testNextState [] exGen 2 13 7 .Gaussian ⟨0, 1⟩) () (fun r _ => r = true) := C131_next_state (Or.inr rfl) (by decide) (by decide) (by decide)

end RB
