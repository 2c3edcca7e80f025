import Verif.Spec.TestMoments
import Verif.Lemmas.FourthLong
import Verif.Props.DistortionDense
import Verif.Props.TestDenseskop
import Verif.Props.TestHrLapack

/-!
# C139: the test of the mean and of the standard deviation of dense operators
-/

namespace RB
open Spec Finset
variable {N : Nat} {K W : Type}

/-- Adding up a function of the elements of an array. -/
theorem foldI_sum {b : Buf ℝ} {x : Int → ℝ} (g : ℝ → ℝ) {n : Nat} (hb : ∀ p : Int, 0 ≤ p → p < n → b p = .val (x p)) :
    foldI (m := Res) 0 n (fun i s => do let a ← b.rd i; pure (s + g a)) 0 = .ok (∑ p ∈ range n, g (x p)) := by
  unfold foldI
  rw [show ((n : Int) - 0).toNat = n by omega]
  induction n with
  | zero => rfl
  | succ n ih =>
    show (foldN n _ 0 >>= fun s => _) = _
    rw [ih fun p h0 h1 => hb p h0 (by omega), Res.ok_bind]
    simp only [Buf.rd, zero_add, hb n (by omega) (by omega), Res.ok_bind, Res.pure_eq, sum_range_succ]

/-- A tightly packed matrix as a vector: a sum over the elements is a sum over the entries. -/
theorem sum_tight {layout : Layout} {m n : Nat} {b : Buf ℝ} {A : Int → Int → ℝ} (hm : 0 < m) (hn : 0 < n) (hb : Holds b layout (tightLd layout m n) m n A) :
    ∃ x : Int → ℝ, (∀ p : Int, 0 ≤ p → p < (m * n : Nat) → b p = .val (x p)) ∧ ∀ g : ℝ → ℝ, ∑ p ∈ range (m * n), g (x p) = ∑ i ∈ range m, ∑ j ∈ range n, g (A i j) := by
  have hm' : (0 : Int) < m := by omega
  have hn' : (0 : Int) < n := by omega
  cases layout with
  | ColMajor =>
    refine ⟨fun p => A (p % m) (p / m), fun p h0 h1 => ?_, fun g => ?_⟩
    · have e := Int.mul_ediv_add_emod p m
      have := hb (p % m) (p / m) ⟨Int.emod_nonneg _ (by omega), Int.emod_lt_of_pos _ hm', Int.ediv_nonneg h0 (by omega), ?_⟩
      · simp only [addr, tightLd] at this
        rw [← this]; congr 1; rw [mul_comm] at e; omega
      · rw [Int.ediv_lt_iff_lt_mul hm']; push_cast at h1; rw [mul_comm]; exact h1
    · rw [sum_comm, sum_flat hm (fun j i => g (A i j)), Nat.mul_comm n m]
      refine sum_congr rfl fun p _ => ?_
      norm_cast
  | RowMajor =>
    refine ⟨fun p => A (p / n) (p % n), fun p h0 h1 => ?_, fun g => ?_⟩
    · have e := Int.mul_ediv_add_emod p n
      have := hb (p / n) (p % n) ⟨Int.ediv_nonneg h0 (by omega), ?_, Int.emod_nonneg _ (by omega), Int.emod_lt_of_pos _ hn'⟩
      · simp only [addr, tightLd] at this
        rw [← this]; congr 1; rw [mul_comm] at e; omega
      · rw [Int.ediv_lt_iff_lt_mul hn']; push_cast at h1; exact h1
    · rw [sum_flat hn (fun i j => g (A i j))]
      refine sum_congr rfl fun p _ => ?_
      norm_cast

/-- C139. The test runs without undefined behaviour. If `A` is the matrix that `fill_dense` writes, the first check holds exactly if the mean of the entries of `A` is at most the tolerance away
from zero, and the second exactly if the operator has more than one entry and the square root of their sample variance is at most the tolerance away from the expected value. -/
theorem C139_decides {sched : List Nat} {G : Gen N K W ℝ} {sqrt3 tol expect : ℝ} {nRows nCols : Int} {sd : ScalarDist} {seed : RNGState N K} {D : DenseDist} {A : Int → Int → ℝ}
    (hfit : nRows * nCols ≤ intMax 64) (hD : mkDenseDist nRows nCols sd .Long = .ok D)
    (hA : ∀ b, AllocTo b (nRows * nCols) → M.wp (fillDense sched G sqrt3 D seed) b (fun _ b' => Holds b' D.naturalLayout D.dimMajor nRows nCols A)) :
    M.wp (testMeanStddev Real.sqrt sched G sqrt3 tol expect nRows nCols sd seed) () (fun r _ =>
      (r.1 = true ↔ |sampleMean nRows nCols A| ≤ tol) ∧
      (r.2 = true ↔ 1 < nRows * nCols ∧ |Real.sqrt (sampleVariance nRows nCols A) - expect| ≤ tol)) := by
  have ok := denseDistOk_of_mk hD hfit
  obtain ⟨hR0, hC0, -, hlay⟩ := denseDist_facts ok
  have hdim : D.nRows = nRows ∧ D.nCols = nCols := by
    unfold mkDenseDist at hD
    by_cases hr : nRows > 0
    · by_cases hc : nCols > 0
      · simp only [Res.require_eq_ok hr, Res.require_eq_ok hc, Res.ok_bind, Res.pure_eq, Res.ok.injEq] at hD
        rw [← hD]; exact ⟨rfl, rfl⟩
      · simp [Res.require, hr, hc] at hD
    · simp [Res.require, hr] at hD
  rw [hdim.1] at hR0 hlay; rw [hdim.2] at hC0 hlay
  have hld : D.dimMajor = tightLd D.naturalLayout nRows nCols := by
    rcases hlay with ⟨a, b, _⟩ | ⟨a, b, _⟩ <;> rw [a, b] <;> rfl
  obtain ⟨m, rfl⟩ : ∃ m : Nat, nRows = m := ⟨nRows.toNat, by omega⟩
  obtain ⟨n, rfl⟩ : ∃ n : Nat, nCols = n := ⟨nCols.toNat, by omega⟩
  have hsz : ((m : Int) * n) = ((m * n : Nat) : Int) := by push_cast; rfl
  unfold testMeanStddev
  rw [M.wp_bind, M.wp_lift]
  refine ⟨_, hD, ?_⟩
  rw [M.wp_bind, M.wp_onLocal]
  refine M.wp_mono (hA _ fun p h0 h1 => by rw [zeroVec_val h0 h1]; simp) fun _ b hb => ?_
  rw [hld] at hb
  obtain ⟨x, hx, hsum⟩ := sum_tight (by omega) (by omega) hb
  have h1 := foldI_sum (fun a => a) hx
  have hmean : empiricalMean b ((m : Int) * n) = .ok (sampleMean m n A) := by
    unfold empiricalMean
    rw [hsz, h1, Res.ok_bind, hsum fun a => a]
    simp only [Res.pure_eq, sampleMean, Int.toNat_natCast]
    push_cast; rfl
  have h2 := foldI_sum (fun a => (a - sampleMean m n A) * (a - sampleMean m n A)) hx
  have hdev : squaredDeviations b ((m : Int) * n) (sampleMean m n A) = .ok (∑ i ∈ range m, ∑ j ∈ range n, (A i j - sampleMean m n A) ^ 2) := by
    unfold squaredDeviations
    rw [hsz, h2, hsum fun a => (a - sampleMean m n A) * (a - sampleMean m n A)]
    simp only [sq]
  rw [M.wp_bind, M.wp_lift]
  refine ⟨_, hmean, ?_⟩
  rw [M.wp_bind, M.wp_lift]
  refine ⟨_, hdev, ?_⟩
  rw [M.wp_pure]
  refine ⟨by simp [expectNear], ?_⟩
  have hpos : 0 < (m : Int) * n := Int.mul_pos hR0 hC0
  by_cases h : (m : Int) * n = 1
  · simp [h]
  · simp only [h, if_false, expectNear, decide_eq_true_eq, show 1 < (m : Int) * n by omega, true_and, sampleVariance, Int.toNat_natCast]
    push_cast
    rfl

/-- C139. An operator with a single entry never passes: its sample variance is 0/0. -/
theorem C139_single_entry {sched : List Nat} {G : Gen N K W ℝ} {sqrt3 tol expect : ℝ} {sd : ScalarDist} {seed : RNGState N K} (hG : G.Ok) :
    M.wp (testMeanStddev Real.sqrt sched G sqrt3 tol expect 1 1 sd seed) () (fun r _ => r.2 = false) := by
  let D : DenseDist := ⟨1, 1, .Long, 1, 1, sd, .ColMajor⟩
  have hD : mkDenseDist 1 1 sd .Long = .ok D := by cases sd <;> decide
  refine M.wp_mono (C139_decides (A := fun i j => denseEntry G sqrt3 D seed (i + 0) (j + 0)) (by decide) hD fun b hb =>
    C01_entry_formula (D := D) hG (denseDistOk_of_mk hD (by decide)) ⟨Int.one_pos, Int.one_pos, le_refl 0, le_refl 0, le_of_eq (by simp), le_of_eq (by simp)⟩ hb) fun r _ h => ?_
  cases hr : r.2 with
  | false => rfl
  | true => exact absurd (h.2.mp hr).1 (by decide)

/-- C139. A matrix without rows or without columns is refused. -/
theorem C139_empty_error {sched : List Nat} {G : Gen N K W ℝ} {sqrt3 tol expect : ℝ} {nRows nCols : Int} {sd : ScalarDist} {seed : RNGState N K} (h : nRows ≤ 0 ∨ nCols ≤ 0) :
    (testMeanStddev Real.sqrt sched G sqrt3 tol expect nRows nCols sd seed ()).1 = .throw .require := by
  have : mkDenseDist nRows nCols sd .Long = .throw .require := by
    unfold mkDenseDist
    by_cases hR : nRows > 0
    · simp [Res.require, hR, show ¬ nCols > 0 by omega]
    · simp [Res.require, hR]
  unfold testMeanStddev
  exact congrArg Prod.fst (M.bind_throw (e := .require) (s' := ()) (by rw [this]; rfl))

/-! ## Ideal words -/

/-- The second moments of the sum and of the entries of uncorrelated variables of mean zero. -/
theorem sum_of_flips {Ω : Type} [Fintype Ω] (e : Ω → ℝ) (Φ : Ω → Ω) (hinv : Function.Involutive Φ) (hneg : ∀ ω, e (Φ ω) = -e ω) : ∑ ω, e ω = 0 := by
  have h := Equiv.sum_comp (hinv.toPerm Φ) e
  have : ∑ ω, e (hinv.toPerm Φ ω) = -∑ ω, e ω := by rw [← sum_neg_distrib]; exact sum_congr rfl fun ω _ => hneg ω
  rw [this] at h; linarith

theorem sq_dev (m n : Nat) (A : Int → Int → ℝ) (hm : 0 < m) (hn : 0 < n) :
    ∑ i ∈ range m, ∑ j ∈ range n, (A i j - sampleMean m n A) ^ 2 = ∑ i ∈ range m, ∑ j ∈ range n, A i j ^ 2 - (m * n) * sampleMean m n A ^ 2 := by
  have hm' : (0 : ℝ) < m := by exact_mod_cast hm
  have hn' : (0 : ℝ) < n := by exact_mod_cast hn
  have hs : ∑ i ∈ range m, ∑ j ∈ range n, A i j = (m * n) * sampleMean m n A := by
    unfold sampleMean; simp only [Int.toNat_natCast]; push_cast; field_simp
  have : ∀ i j : Nat, (A i j - sampleMean m n A) ^ 2 = A i j ^ 2 - 2 * sampleMean m n A * A i j + sampleMean m n A ^ 2 := fun i j => by ring
  simp only [this, sum_add_distrib, sum_sub_distrib, ← mul_sum, hs, sum_const, card_range, nsmul_eq_mul]
  ring

/-- The moments of the entries of an operator: the matrix that is written, the sums over all words of the sum of the entries, of its square, of the sum of their squares, and a bound for that of
the square of the sum of their squares. -/
theorem entry_moments [NeZero N] [Fintype W] [Nonempty W] {L : Nat} [NeZero L] {G : Gen N K W ℝ} {τ0 τ1 : W → W} {D : DenseDist} {seed : RNGState N K} {v : ℝ}
    (hG : G.Ok) (hL : G.len = L) (hD : DenseDistOk D) (hN : D.nRows * D.nCols ≤ N) (hsym : SymmetricWords G τ0 τ1 D.family) (hv : MeanSquare G D.family v)
    {m n : Nat} (hm : D.nRows = m) (hn : D.nCols = n) :
    ∃ A : (ZMod N × ZMod L → W) → Int → Int → ℝ,
    (∀ ω sched b, AllocTo b (D.nRows * D.nCols) → M.wp (fillDense sched (fromWords G ω) (Real.sqrt 3) D seed) b (fun _ b' =>
      Holds b' D.naturalLayout D.dimMajor D.nRows D.nCols (A ω))) ∧
    ∑ ω, ∑ i ∈ range m, ∑ j ∈ range n, A ω i j = 0 ∧
    ∑ ω, (∑ i ∈ range m, ∑ j ∈ range n, A ω i j) ^ 2 = (Fintype.card (ZMod N × ZMod L → W) * v) * (m * n) ∧
    ∑ ω, ∑ i ∈ range m, ∑ j ∈ range n, A ω i j ^ 2 = (Fintype.card (ZMod N × ZMod L → W) * v) * (m * n) ∧
    ∀ w, FourthMoments G D.family w → v ^ 2 ≤ w →
      ∑ ω, (∑ i ∈ range m, ∑ j ∈ range n, A ω i j ^ 2) ^ 2 ≤ (Fintype.card (ZMod N × ZMod L → W) * w) * ((m * n) ^ 2 + 2 * (m * n)) := by
  have hL' : L = 2 ∨ L = 4 := by rcases hG with h | h <;> omega
  have hcnt := counters_le hL' hD hN
  obtain ⟨hR, hC, hfit, hlay⟩ := denseDist_facts hD
  have hld : tightLd D.naturalLayout D.nRows D.nCols = D.dimMajor := by
    rcases hlay with ⟨a, b, _⟩ | ⟨a, b, _⟩ <;> rw [a, b] <;> rfl
  have hCard : (0 : ℝ) < Fintype.card (ZMod N × ZMod L → W) := by exact_mod_cast Fintype.card_pos
  let vec : Int → Int → Int := fun i j => match D.naturalLayout with | .ColMajor => j | .RowMajor => i
  let off : Int → Int → Int := fun i j => match D.naturalLayout with | .ColMajor => i | .RowMajor => j
  let A : (ZMod N × ZMod L → W) → Int → Int → ℝ := fun ω i j => rawE G D.family D.dimMajor seed ω (vec i j) (off i j)
  have hA : ∀ ω i j, denseEntry (fromWords G ω) (Real.sqrt 3) D seed i j = A ω i j := by
    intro ω i j
    simp only [A, vec, off, rawE, denseEntry]
    cases D.naturalLayout <;> rfl
  have hin : ∀ i j, 0 ≤ i → i < D.nRows → 0 ≤ j → j < D.nCols → (0 ≤ vec i j ∧ vec i j < D.dimMinor) ∧ (0 ≤ off i j ∧ off i j < D.dimMajor) := by
    intro i j h1 h2 h3 h4
    simp only [vec, off]
    rcases hlay with ⟨a, b, c⟩ | ⟨a, b, c⟩ <;> rw [a, b, c]
    · exact ⟨⟨h3, h4⟩, h1, h2⟩
    · exact ⟨⟨h1, h2⟩, h3, h4⟩
  have hinj : ∀ i j i' j', (vec i' j', off i' j') = (vec i j, off i j) → i' = i ∧ j' = j := by
    intro i j i' j' h
    simp only [vec, off] at h
    rcases hlay with ⟨a, -, -⟩ | ⟨a, -, -⟩ <;> rw [a] at h <;> simp only [Prod.mk.injEq] at h
    · exact ⟨h.2, h.1⟩
    · exact h
  have hm0 : 0 < m := by omega
  have hn0 : 0 < n := by omega
  have hmR : (0 : ℝ) < m := by exact_mod_cast hm0
  have hnR : (0 : ℝ) < n := by exact_mod_cast hn0
  -- the sum of the entries, one index
  have hflat : ∀ ω, ∑ i ∈ range m, ∑ j ∈ range n, A ω i j = ∑ p ∈ range (m * n), A ω (p / n : Nat) (p % n : Nat) * 1 := by
    intro ω; rw [sum_flat hn0 (fun i j => A ω i j)]; simp only [mul_one]
  have hlt : ∀ p, p < m * n → p / n < m ∧ p % n < n := fun p hp => ⟨(Nat.div_lt_iff_lt_mul hn0).mpr hp, Nat.mod_lt _ hn0⟩
  have hpp : ∀ p, p < m * n → _ := fun p hp => hin (p / n : Nat) (p % n : Nat) (Int.natCast_nonneg _) (by rw [hm]; exact_mod_cast (hlt p hp).1) (Int.natCast_nonneg _)
    (by rw [hn]; exact_mod_cast (hlt p hp).2)
  have hpne : ∀ p l, l ≠ p → ((vec (l / n : Nat) (l % n : Nat), off (l / n : Nat) (l % n : Nat)) : Int × Int) ≠ (vec (p / n : Nat) (p % n : Nat), off (p / n : Nat) (p % n : Nat)) := by
    intro p l hlp hc
    obtain ⟨c1, c2⟩ := hinj _ _ _ _ hc
    have c1' : l / n = p / n := by exact_mod_cast c1
    have c2' : l % n = p % n := by exact_mod_cast c2
    exact hlp (by rw [← Nat.div_add_mod l n, ← Nat.div_add_mod p n, c1', c2'])
  have hsq : ∑ ω, (∑ i ∈ range m, ∑ j ∈ range n, A ω i j) ^ 2 = (Fintype.card (ZMod N × ZMod L → W) * v) * (m * n) := by
    simp only [hflat]
    rw [sum_sq_of_flips (fun p ω => A ω (p / n : Nat) (p % n : Nat)) (fun p => flipE G τ0 τ1 D.family D.dimMajor seed (vec (p / n : Nat) (p % n : Nat)) (off (p / n : Nat) (p % n : Nat)))
      (fun p _ => flipE_inv hsym _ _) (fun p _ ω => flipE_neg hL' hL hsym _ _ ω) (fun p hp l hl hlp ω => ?_) (fun p _ => rawE_square hL' hL hv _ _) fun _ => 1]
    · simp
    · exact flipE_keep hL' hL hsym hcnt (hpp p hp).1 (hpp p hp).2 (hpp l hl).1 (hpp l hl).2 (hpne p l hlp) ω
  have hzero : ∑ ω, ∑ i ∈ range m, ∑ j ∈ range n, A ω i j = 0 := by
    rw [sum_comm]
    refine sum_eq_zero fun i _ => ?_
    rw [sum_comm]
    exact sum_eq_zero fun j _ => sum_of_flips _ _ (flipE_inv hsym _ _) fun ω => flipE_neg hL' hL hsym _ _ ω
  have hsec : ∑ ω, ∑ i ∈ range m, ∑ j ∈ range n, A ω i j ^ 2 = (Fintype.card (ZMod N × ZMod L → W) * v) * (m * n) := by
    rw [sum_comm]
    have : ∀ i ∈ range m, ∑ ω, ∑ j ∈ range n, A ω i j ^ 2 = n * (Fintype.card (ZMod N × ZMod L → W) * v) := by
      intro i _
      rw [sum_comm, sum_congr rfl fun j _ => rawE_square hL' hL hv _ _]
      simp
    rw [sum_congr rfl this]
    simp; ring
  refine ⟨A, fun ω sched b hb => ?_, hzero, hsq, hsec, fun w hw hvw => ?_⟩
  · unfold fillDense
    refine M.wp_mono (C01_entry_formula (G := fromWords G ω) hG hD ⟨hR, hC, le_refl 0, le_refl 0, by omega, by omega⟩ hb) fun _ b' h => ?_
    rw [hld] at h
    simp only [add_zero, hA] at h
    exact h
  · have hflat2 : ∀ ω, (∑ i ∈ range m, ∑ j ∈ range n, A ω i j ^ 2) ^ 2 =
        ∑ p ∈ range (m * n), ∑ l ∈ range (m * n), A ω (p / n : Nat) (p % n : Nat) ^ 2 * A ω (l / n : Nat) (l % n : Nat) ^ 2 := by
      intro ω; rw [sum_flat hn0 (fun i j => A ω i j ^ 2), sq, sum_mul_sum]
    simp only [hflat2]
    rw [sum_comm]
    have hone : ∀ p ∈ range (m * n), ∑ ω, ∑ l ∈ range (m * n), A ω (p / n : Nat) (p % n : Nat) ^ 2 * A ω (l / n : Nat) (l % n : Nat) ^ 2 ≤
        (Fintype.card (ZMod N × ZMod L → W) * w) * (m * n + 2) := by
      intro p hp
      rw [mem_range] at hp
      rw [sum_comm]
      have hterm : ∀ l ∈ range (m * n), ∑ ω, A ω (p / n : Nat) (p % n : Nat) ^ 2 * A ω (l / n : Nat) (l % n : Nat) ^ 2 ≤
          Fintype.card (ZMod N × ZMod L → W) * w + if l = p then 2 * (Fintype.card (ZMod N × ZMod L → W) * w) else 0 := by
        intro l hl
        rw [mem_range] at hl
        by_cases h : l = p
        · subst h
          have := rawE_four (M := D.dimMajor) (seed := seed) hL' hL hw (vec (l / n : Nat) (l % n : Nat)) (off (l / n : Nat) (l % n : Nat))
          rw [if_pos rfl]
          refine le_trans (le_of_eq (sum_congr rfl fun ω _ => ?_)) (le_trans this (le_of_eq (by ring)))
          simp only [A]; ring
        · rw [if_neg h, add_zero]
          exact rawE_pair hL' hL hv hw hvw hcnt (hpp p hp).1 (hpp p hp).2 (hpp l hl).1 (hpp l hl).2 (hpne p l h)
      refine le_trans (sum_le_sum hterm) (le_of_eq ?_)
      rw [sum_add_distrib, sum_const, card_range, nsmul_eq_mul, sum_ite_eq', if_pos (mem_range.mpr hp)]
      push_cast; ring
    refine le_trans (sum_le_sum hone) (le_of_eq ?_)
    rw [sum_const, card_range, nsmul_eq_mul]
    push_cast; ring

/-- C139. Average over all words that a generator may yield: the sample mean is zero on average, its square is the mean square `v` of an entry divided by the number of entries, and the sample
variance is `v`. -/
theorem C139_average [NeZero N] [Fintype W] [Nonempty W] {L : Nat} [NeZero L] {G : Gen N K W ℝ} {τ0 τ1 : W → W} {D : DenseDist} {seed : RNGState N K} {v : ℝ}
    (hG : G.Ok) (hL : G.len = L) (hD : DenseDistOk D) (hN : D.nRows * D.nCols ≤ N) (hsym : SymmetricWords G τ0 τ1 D.family) (hv : MeanSquare G D.family v) :
    ∃ A : (ZMod N × ZMod L → W) → Int → Int → ℝ,
    (∀ ω sched b, AllocTo b (D.nRows * D.nCols) → M.wp (fillDense sched (fromWords G ω) (Real.sqrt 3) D seed) b (fun _ b' =>
      Holds b' D.naturalLayout D.dimMajor D.nRows D.nCols (A ω))) ∧
    (∑ ω, sampleMean D.nRows D.nCols (A ω)) / Fintype.card (ZMod N × ZMod L → W) = 0 ∧
    (∑ ω, sampleMean D.nRows D.nCols (A ω) ^ 2) / Fintype.card (ZMod N × ZMod L → W) = v / (D.nRows * D.nCols) ∧
    (1 < D.nRows * D.nCols → (∑ ω, sampleVariance D.nRows D.nCols (A ω)) / Fintype.card (ZMod N × ZMod L → W) = v) := by
  obtain ⟨hR, hC, hfit, hlay⟩ := denseDist_facts hD
  have hCard : (0 : ℝ) < Fintype.card (ZMod N × ZMod L → W) := by exact_mod_cast Fintype.card_pos
  obtain ⟨m, hm⟩ : ∃ m : Nat, D.nRows = m := ⟨D.nRows.toNat, by omega⟩
  obtain ⟨n, hn⟩ : ∃ n : Nat, D.nCols = n := ⟨D.nCols.toNat, by omega⟩
  have hm0 : 0 < m := by omega
  have hn0 : 0 < n := by omega
  have hmR : (0 : ℝ) < m := by exact_mod_cast hm0
  have hnR : (0 : ℝ) < n := by exact_mod_cast hn0
  obtain ⟨A, hA, hzero, hsq, hsec, -⟩ := entry_moments (seed := seed) hG hL hD hN hsym hv hm hn
  have hmean2 : ∑ ω, sampleMean m n (A ω) ^ 2 = Fintype.card (ZMod N × ZMod L → W) * v / (m * n) := by
    simp only [sampleMean, Int.toNat_natCast, div_pow]
    rw [← sum_div, hsq]; push_cast; field_simp
  refine ⟨A, hA, ?_, ?_, fun h1 => ?_⟩
  · rw [hm, hn]
    simp only [sampleMean, Int.toNat_natCast]
    rw [← sum_div, hzero]; simp
  · rw [hm, hn, hmean2]; push_cast; field_simp
  · rw [hm, hn] at h1 ⊢
    have h1' : (1 : ℝ) < m * n := by exact_mod_cast h1
    have : ∀ ω, sampleVariance m n (A ω) = (∑ i ∈ range m, ∑ j ∈ range n, A ω i j ^ 2 - (m * n) * sampleMean m n (A ω) ^ 2) / (m * n - 1) := by
      intro ω
      unfold sampleVariance
      simp only [Int.toNat_natCast, sq_dev m n (A ω) hm0 hn0]
      push_cast; rfl
    simp only [this]
    rw [← sum_div, sum_sub_distrib, ← mul_sum, hsec, hmean2]
    have : (m * n : ℝ) - 1 ≠ 0 := by linarith
    field_simp

/-- C139. For ideal words the check of the mean fails for at most the share `v / (n_rows * n_cols * tol²)` of all choices of the words, where `v` is the mean square of an entry. -/
theorem C139_mean_fails_rarely [NeZero N] [Fintype W] [Nonempty W] {L : Nat} [NeZero L] {G : Gen N K W ℝ} {τ0 τ1 : W → W} {sched : List Nat} {tol expect : ℝ} {nRows nCols : Int}
    {sd : ScalarDist} {seed : RNGState N K} {v : ℝ} (hG : G.Ok) (hL : G.len = L) (hr : 0 < nRows) (hc : 0 < nCols) (hfit : nRows * nCols ≤ intMax 64) (hN : nRows * nCols ≤ N)
    (hsym : SymmetricWords G τ0 τ1 sd) (hv : MeanSquare G sd v) (ht : 0 < tol) :
    ((univ.filter fun ω : ZMod N × ZMod L → W => ∀ s : Bool,
        (testMeanStddev Real.sqrt sched (fromWords G ω) (Real.sqrt 3) tol expect nRows nCols sd seed ()).1 ≠ .ok (true, s)).card : ℝ) / Fintype.card (ZMod N × ZMod L → W)
      ≤ v / (nRows * nCols * tol ^ 2) := by
  obtain ⟨D, hD⟩ : ∃ D, mkDenseDist nRows nCols sd .Long = .ok D := ⟨_, mkDenseDist_eq hr hc⟩
  have hdim : D.nRows = nRows ∧ D.nCols = nCols ∧ D.family = sd := by rw [mkDenseDist_eq hr hc] at hD; cases hD; exact ⟨rfl, rfl, rfl⟩
  have ok := denseDistOk_of_mk hD hfit
  obtain ⟨d1, d2, d3⟩ := hdim
  obtain ⟨A, hA, -, hsq, -⟩ := C139_average (seed := seed) (v := v) (τ0 := τ0) (τ1 := τ1) hG hL ok (by rw [d1, d2]; exact hN) (by rw [d3]; exact hsym) (by rw [d3]; exact hv)
  rw [d1, d2] at hsq
  simp only [d1, d2] at hA
  have hCard : (0 : ℝ) < Fintype.card (ZMod N × ZMod L → W) := by exact_mod_cast Fintype.card_pos
  have hsub : (univ.filter fun ω : ZMod N × ZMod L → W => ∀ s : Bool,
        (testMeanStddev Real.sqrt sched (fromWords G ω) (Real.sqrt 3) tol expect nRows nCols sd seed ()).1 ≠ .ok (true, s)) ⊆
      univ.filter fun ω => tol ^ 2 ≤ sampleMean nRows nCols (A ω) ^ 2 := by
    intro ω hω
    rw [mem_filter] at hω ⊢
    refine ⟨mem_univ _, ?_⟩
    by_contra hlt
    have habs : |sampleMean nRows nCols (A ω)| ≤ tol := by
      rw [not_le] at hlt
      exact (abs_lt_of_sq_lt_sq hlt ht.le).le
    have h := C139_decides (sched := sched) (G := fromWords G ω) (sqrt3 := Real.sqrt 3) (tol := tol) (expect := expect) (seed := seed) hfit hD (hA ω sched)
    obtain ⟨⟨a, s⟩, st, e1, e2, -⟩ := h
    have ha : a = true := e2.mpr habs
    exact hω.2 s (by rw [e1, ha])
  have hmark : ((univ.filter fun ω => tol ^ 2 ≤ sampleMean nRows nCols (A ω) ^ 2).card : ℝ) * tol ^ 2 ≤ ∑ ω, sampleMean nRows nCols (A ω) ^ 2 := by
    rw [← nsmul_eq_mul]
    refine le_trans (card_nsmul_le_sum _ _ _ fun ω hω => (mem_filter.mp hω).2) ?_
    exact sum_le_sum_of_subset_of_nonneg (subset_univ _) fun ω _ _ => sq_nonneg _
  have hcard : ((univ.filter fun ω : ZMod N × ZMod L → W => ∀ s : Bool,
        (testMeanStddev Real.sqrt sched (fromWords G ω) (Real.sqrt 3) tol expect nRows nCols sd seed ()).1 ≠ .ok (true, s)).card : ℝ) ≤
      (univ.filter fun ω => tol ^ 2 ≤ sampleMean nRows nCols (A ω) ^ 2).card := by exact_mod_cast card_le_card hsub
  have ht2 : 0 < tol ^ 2 := by positivity
  rw [div_eq_iff hCard.ne'] at hsq
  rw [hsq] at hmark
  rw [div_le_iff₀ hCard, ← div_div, div_mul_eq_mul_div, le_div_iff₀ ht2]
  exact le_trans (mul_le_mul_of_nonneg_right hcard ht2.le) hmark

/-- C139. For ideal words the check of the standard deviation fails for at most the share `(S² (w - v²) + 2 S w) / α² + v / β` of all choices of the words. `S > 1` is the number of entries, `v` the
mean square of an entry, `w` a bound for the fourth moments; `α` and `β ≥ v` are any positive numbers with `α + β + (S - 1) |v - expect²| ≤ (S - 1) tol expect`. -/
theorem C139_stddev_fails_rarely [NeZero N] [Fintype W] [Nonempty W] {L : Nat} [NeZero L] {G : Gen N K W ℝ} {τ0 τ1 : W → W} {sched : List Nat} {tol expect : ℝ} {nRows nCols : Int}
    {sd : ScalarDist} {seed : RNGState N K} {v w α β S : ℝ} (hG : G.Ok) (hL : G.len = L) (hr : 0 < nRows) (hc : 0 < nCols) (hfit : nRows * nCols ≤ intMax 64) (hN : nRows * nCols ≤ N)
    (hsym : SymmetricWords G τ0 τ1 sd) (hv : MeanSquare G sd v) (hw : FourthMoments G sd w) (hvw : v ^ 2 ≤ w) (hS : S = nRows * nCols) (hS1 : 1 < S) (he : 0 < expect)
    (hα : 0 < α) (hβ : 0 < β) (hvβ : v ≤ β) (hαβ : α + β + (S - 1) * |v - expect ^ 2| ≤ (S - 1) * (tol * expect)) :
    ((univ.filter fun ω : ZMod N × ZMod L → W => ∀ s : Bool,
        (testMeanStddev Real.sqrt sched (fromWords G ω) (Real.sqrt 3) tol expect nRows nCols sd seed ()).1 ≠ .ok (s, true)).card : ℝ) / Fintype.card (ZMod N × ZMod L → W)
      ≤ (S ^ 2 * (w - v ^ 2) + 2 * S * w) / α ^ 2 + v / β := by
  classical
  obtain ⟨D, hD⟩ : ∃ D, mkDenseDist nRows nCols sd .Long = .ok D := ⟨_, mkDenseDist_eq hr hc⟩
  have hdim : D.nRows = nRows ∧ D.nCols = nCols ∧ D.family = sd := by rw [mkDenseDist_eq hr hc] at hD; cases hD; exact ⟨rfl, rfl, rfl⟩
  have ok := denseDistOk_of_mk hD hfit
  obtain ⟨d1, d2, d3⟩ := hdim
  obtain ⟨m, rfl⟩ : ∃ m : Nat, nRows = m := ⟨nRows.toNat, by omega⟩
  obtain ⟨n, rfl⟩ : ∃ n : Nat, nCols = n := ⟨nCols.toNat, by omega⟩
  have hm0 : 0 < m := by omega
  have hn0 : 0 < n := by omega
  obtain ⟨A, hA, -, hsq, hsec, hfour⟩ := entry_moments (seed := seed) (v := v) (τ0 := τ0) (τ1 := τ1) hG hL ok (by rw [d1, d2]; exact hN) (by rw [d3]; exact hsym) (by rw [d3]; exact hv) d1 d2
  have hfour := hfour w (by rw [d3]; exact hw) hvw
  simp only [d1, d2] at hA
  push_cast at hS
  rw [← hS] at hsq hsec hfour
  have hCard : (0 : ℝ) < Fintype.card (ZMod N × ZMod L → W) := by exact_mod_cast Fintype.card_pos
  let q : (ZMod N × ZMod L → W) → ℝ := fun ω => ∑ i ∈ range m, ∑ j ∈ range n, A ω i j ^ 2
  let t : (ZMod N × ZMod L → W) → ℝ := fun ω => ∑ i ∈ range m, ∑ j ∈ range n, A ω i j
  have hS0 : 0 < S := by linarith
  have hsub : (univ.filter fun ω : ZMod N × ZMod L → W => ∀ s : Bool,
        (testMeanStddev Real.sqrt sched (fromWords G ω) (Real.sqrt 3) tol expect m n sd seed ()).1 ≠ .ok (s, true)) ⊆
      (univ.filter fun ω => α ^ 2 ≤ (q ω - S * v) ^ 2) ∪ univ.filter fun ω => β ≤ t ω ^ 2 / S := by
    intro ω hω
    by_contra hno
    simp only [mem_union, mem_filter, mem_univ, true_and, not_or, not_le] at hno hω
    obtain ⟨hq, ht⟩ := hno
    have hq' := abs_lt_of_sq_lt_sq hq hα.le
    have h := C139_decides (sched := sched) (G := fromWords G ω) (sqrt3 := Real.sqrt 3) (tol := tol) (expect := expect) (seed := seed) hfit hD (hA ω sched)
    obtain ⟨⟨a, s⟩, st, e1, -, e2⟩ := h
    have hone : (1 : Int) < m * n := by
      have : (1 : ℝ) < m * n := by rw [← hS]; exact hS1
      exact_mod_cast this
    have hvar : sampleVariance m n (A ω) * (S - 1) = q ω - t ω ^ 2 / S := by
      have hS1' : S - 1 ≠ 0 := by linarith
      unfold sampleVariance
      simp only [Int.toNat_natCast, sq_dev m n (A ω) hm0 hn0]
      push_cast
      rw [← hS, div_mul_cancel₀ _ hS1']
      simp only [sampleMean, Int.toNat_natCast, q, t]
      push_cast
      rw [← hS]; field_simp
    have hvar0 : 0 ≤ sampleVariance m n (A ω) := by
      unfold sampleVariance
      push_cast
      rw [← hS]
      exact div_nonneg (sum_nonneg fun i _ => sum_nonneg fun j _ => sq_nonneg _) (by linarith)
    have hclose : |Real.sqrt (sampleVariance m n (A ω)) - expect| ≤ tol := by
      have hs0 := Real.sqrt_nonneg (sampleVariance m n (A ω))
      have hs2 := Real.sq_sqrt hvar0
      set y := Real.sqrt (sampleVariance m n (A ω)) with hy
      have ht0 : 0 ≤ t ω ^ 2 / S := by positivity
      have hdiff : (S - 1) * |y ^ 2 - expect ^ 2| ≤ (S - 1) * (tol * expect) := by
        refine le_trans ?_ hαβ
        rw [hs2, ← abs_of_pos (show 0 < S - 1 by linarith), ← abs_mul, ← abs_mul]
        have : (S - 1) * (sampleVariance m n (A ω) - expect ^ 2) = (q ω - S * v) + (v - t ω ^ 2 / S) + (S - 1) * (v - expect ^ 2) := by linear_combination hvar
        rw [this]
        refine le_trans (abs_add_le _ _) (add_le_add_left (le_trans (abs_add_le _ _) (add_le_add hq'.le ?_)) _)
        have hv0 : 0 ≤ v := by
          have : 0 ≤ ∑ ω, t ω ^ 2 := sum_nonneg fun _ _ => sq_nonneg _
          have h3 : (Fintype.card (ZMod N × ZMod L → W) * v) * S = ∑ ω, t ω ^ 2 := hsq.symm
          by_contra hneg
          rw [not_le] at hneg
          have := mul_neg_of_neg_of_pos (mul_neg_of_pos_of_neg hCard hneg) hS0
          linarith
        rw [abs_le]; constructor <;> linarith
      have hd := le_of_mul_le_mul_left hdiff (show 0 < S - 1 by linarith)
      have hfac : |y ^ 2 - expect ^ 2| = |y - expect| * (y + expect) := by
        rw [show y ^ 2 - expect ^ 2 = (y - expect) * (y + expect) by ring, abs_mul, abs_of_pos (show 0 < y + expect by linarith)]
      rw [hfac] at hd
      have : |y - expect| * expect ≤ tol * expect := le_trans (mul_le_mul_of_nonneg_left (by linarith) (abs_nonneg _)) hd
      exact le_of_mul_le_mul_right this he
    exact hω a (by rw [e1, show s = true from e2.mpr ⟨hone, hclose⟩])
  have hm1 : ((univ.filter fun ω => α ^ 2 ≤ (q ω - S * v) ^ 2).card : ℝ) * α ^ 2 ≤ Fintype.card (ZMod N × ZMod L → W) * (S ^ 2 * (w - v ^ 2) + 2 * S * w) := by
    rw [← nsmul_eq_mul]
    refine le_trans (card_nsmul_le_sum _ _ _ fun ω hω => (mem_filter.mp hω).2) ?_
    refine le_trans (sum_le_sum_of_subset_of_nonneg (subset_univ _) fun ω _ _ => sq_nonneg _) ?_
    have : ∀ ω, (q ω - S * v) ^ 2 = q ω ^ 2 - 2 * (S * v) * q ω + (S * v) ^ 2 := fun ω => by ring
    simp only [this, sum_add_distrib, sum_sub_distrib, ← mul_sum, sum_const, card_univ, nsmul_eq_mul]
    have h3 : ∑ ω, q ω = (Fintype.card (ZMod N × ZMod L → W) * v) * S := hsec
    have h4 : ∑ ω, q ω ^ 2 ≤ (Fintype.card (ZMod N × ZMod L → W) * w) * (S ^ 2 + 2 * S) := hfour
    rw [h3]
    linarith
  have hm2 : ((univ.filter fun ω => β ≤ t ω ^ 2 / S).card : ℝ) * β ≤ Fintype.card (ZMod N × ZMod L → W) * v := by
    rw [← nsmul_eq_mul]
    refine le_trans (card_nsmul_le_sum _ _ _ fun ω hω => (mem_filter.mp hω).2) ?_
    refine le_trans (sum_le_sum_of_subset_of_nonneg (subset_univ _) fun ω _ _ => by positivity) ?_
    rw [← sum_div, show ∑ ω, t ω ^ 2 = (Fintype.card (ZMod N × ZMod L → W) * v) * S from hsq, mul_div_cancel_right₀ _ hS0.ne']
  have hcard := le_trans (card_le_card hsub) (card_union_le _ _)
  have hcard' : ((univ.filter fun ω : ZMod N × ZMod L → W => ∀ s : Bool,
        (testMeanStddev Real.sqrt sched (fromWords G ω) (Real.sqrt 3) tol expect m n sd seed ()).1 ≠ .ok (s, true)).card : ℝ) ≤
      (univ.filter fun ω => α ^ 2 ≤ (q ω - S * v) ^ 2).card + (univ.filter fun ω => β ≤ t ω ^ 2 / S).card := by exact_mod_cast hcard
  rw [div_le_iff₀ hCard, add_mul, div_mul_eq_mul_div, div_mul_eq_mul_div]
  refine le_trans hcard' (add_le_add ?_ ?_)
  · rw [le_div_iff₀ (by positivity)]; linarith
  · rw [le_div_iff₀ hβ]; linarith

/-- C139. For ideal words with mean square of an entry between `1 - 1e-8` and 1 and fourth moments as of a standard normal variable or smaller: the share of all choices of the words for which
the test, as the fixtures use it, does not pass. -/
theorem C139_fails_rarely [NeZero N] [Fintype W] [Nonempty W] {L : Nat} [NeZero L] {G : Gen N K W ℝ} {τ0 τ1 : W → W} {sched : List Nat} {nRows nCols : Int}
    {sd : ScalarDist} {seed : RNGState N K} {v w α β S : ℝ} (hG : G.Ok) (hL : G.len = L) (hr : 0 < nRows) (hc : 0 < nCols) (hfit : nRows * nCols ≤ intMax 64) (hN : nRows * nCols ≤ N)
    (hsym : SymmetricWords G τ0 τ1 sd) (hv : MeanSquare G sd v) (hw : FourthMoments G sd w) (hvw : v ^ 2 ≤ w) (hv0 : 1 - 1 / 10 ^ 8 ≤ v) (hv1 : v ≤ 1) (hw1 : w ≤ 1)
    (hS : S = nRows * nCols) (hS1 : 1 < S) (hα : 0 < α) (hβ : 1 ≤ β) (hαβ : α + β + (S - 1) / 10 ^ 8 ≤ (S - 1) / 100) :
    ((univ.filter fun ω : ZMod N × ZMod L → W =>
        (testMeanStddev Real.sqrt sched (fromWords G ω) (Real.sqrt 3) (1 / 100) 1 nRows nCols sd seed ()).1 ≠ .ok (true, true)).card : ℝ) / Fintype.card (ZMod N × ZMod L → W)
      ≤ 10 ^ 4 / S + ((S ^ 2 * (2 / 10 ^ 8) + 2 * S) / α ^ 2 + 1 / β) := by
  classical
  have hCard : (0 : ℝ) < Fintype.card (ZMod N × ZMod L → W) := by exact_mod_cast Fintype.card_pos
  have hS0 : 0 < S := by linarith
  have h1 := C139_mean_fails_rarely (sched := sched) (tol := 1 / 100) (expect := 1) (seed := seed) hG hL hr hc hfit hN hsym hv (by norm_num)
  have habs : |v - (1 : ℝ) ^ 2| ≤ 1 / 10 ^ 8 := by rw [abs_le]; constructor <;> norm_num at * <;> linarith
  have h2 := C139_stddev_fails_rarely (sched := sched) (tol := 1 / 100) (expect := 1) (seed := seed) (α := α) (β := β) hG hL hr hc hfit hN hsym hv hw hvw hS hS1 one_pos hα (by linarith)
    (by linarith) (by
      have := mul_le_mul_of_nonneg_left habs (show 0 ≤ S - 1 by linarith)
      linarith)
  have hsub : (univ.filter fun ω : ZMod N × ZMod L → W =>
        (testMeanStddev Real.sqrt sched (fromWords G ω) (Real.sqrt 3) (1 / 100) 1 nRows nCols sd seed ()).1 ≠ .ok (true, true)) ⊆
      (univ.filter fun ω : ZMod N × ZMod L → W => ∀ s : Bool,
        (testMeanStddev Real.sqrt sched (fromWords G ω) (Real.sqrt 3) (1 / 100) 1 nRows nCols sd seed ()).1 ≠ .ok (true, s)) ∪
      (univ.filter fun ω : ZMod N × ZMod L → W => ∀ s : Bool,
        (testMeanStddev Real.sqrt sched (fromWords G ω) (Real.sqrt 3) (1 / 100) 1 nRows nCols sd seed ()).1 ≠ .ok (s, true)) := by
    intro ω hω
    simp only [mem_union, mem_filter, mem_univ, true_and] at hω ⊢
    by_contra hno
    push Not at hno
    obtain ⟨⟨s, e1⟩, s', e2⟩ := hno
    rw [e1] at e2
    cases e2
    exact hω e1
  have hcard := le_trans (card_le_card hsub) (card_union_le _ _)
  have hcard' : (_ : ℝ) ≤ _ := Nat.cast_le (α := ℝ).mpr hcard
  rw [Nat.cast_add] at hcard'
  refine le_trans (div_le_div_of_nonneg_right hcard' hCard.le) ?_
  rw [add_div]
  refine add_le_add (le_trans h1 ?_) (le_trans h2 (add_le_add ?_ ?_))
  · rw [← hS, div_le_div_iff₀ (by positivity) hS0]
    have := mul_le_mul_of_nonneg_right hv1 hS0.le
    linarith
  · refine div_le_div_of_nonneg_right (add_le_add ?_ ?_) (by positivity)
    · refine mul_le_mul_of_nonneg_left ?_ (by positivity)
      have : (1 - 1 / 10 ^ 8 : ℝ) ^ 2 ≤ v ^ 2 := pow_le_pow_left₀ (by norm_num) hv0 2
      norm_num at this ⊢
      linarith
    · have := mul_le_mul_of_nonneg_left hw1 (show 0 ≤ 2 * S by linarith)
      linarith
  · exact div_le_div_of_nonneg_right hv1 (by linarith)

/-- The three sizes of the fixtures. -/
theorem fixture_shares [NeZero N] [Fintype W] [Nonempty W] {L : Nat} [NeZero L] {G : Gen N K W ℝ} {τ0 τ1 : W → W} {sched : List Nat} {sd : ScalarDist} {seed : RNGState N K} {v w : ℝ}
    (hG : G.Ok) (hL : G.len = L) (hN : 250000 ≤ N) (hsym : SymmetricWords G τ0 τ1 sd) (hv : MeanSquare G sd v) (hw : FourthMoments G sd w) (hvw : v ^ 2 ≤ w)
    (hv0 : 1 - 1 / 10 ^ 8 ≤ v) (hv1 : v ≤ 1) (hw1 : w ≤ 1) :
    (∀ r c : Int, ∀ share : ℝ, (r, c, share) ∈ [((500, 500, 0.14) : Int × Int × ℝ), (203, 503, 0.34), (203, 203, 0.83)] →
      ((univ.filter fun ω : ZMod N × ZMod L → W =>
        (testMeanStddev Real.sqrt sched (fromWords G ω) (Real.sqrt 3) (1 / 100) 1 r c sd seed ()).1 ≠ .ok (true, true)).card : ℝ) / Fintype.card (ZMod N × ZMod L → W) ≤ share) := by
  intro r c share h
  simp only [List.mem_cons, Prod.mk.injEq, List.not_mem_nil, or_false] at h
  have hfit : (250000 : Int) ≤ intMax 64 := by decide
  rcases h with ⟨rfl, rfl, rfl⟩ | ⟨rfl, rfl, rfl⟩ | ⟨rfl, rfl, rfl⟩
  · refine le_trans (C139_fails_rarely (α := 2400) (β := 99) (S := 250000) hG hL (by norm_num) (by norm_num) (by omega) (by omega) hsym hv hw hvw hv0 hv1 hw1 ?_ ?_ ?_ ?_ ?_) ?_ <;> norm_num
  · refine le_trans (C139_fails_rarely (α := 980) (β := 41) (S := 102109) hG hL (by norm_num) (by norm_num) (by omega) (by omega) hsym hv hw hvw hv0 hv1 hw1 ?_ ?_ ?_ ?_ ?_) ?_ <;> norm_num
  · refine le_trans (C139_fails_rarely (α := 392) (β := 20) (S := 41209) hG hL (by norm_num) (by norm_num) (by omega) (by omega) hsym hv hw hvw hv0 hv1 hw1 ?_ ?_ ?_ ?_ ?_) ?_ <;> norm_num

/-- C139. The fixture `Uniform`, with ideal 32-bit words and exact conversions: the test does not pass for at most 14 % of all choices of the words for 500 x 500, at most 34 % for 203 x 503 and at
most 83 % for 203 x 203 operators. -/
theorem C139_uniform_fixture [NeZero N] [Fintype W] [Nonempty W] {L : Nat} [NeZero L] {G : Gen N K W ℝ} {sched : List Nat} {seed : RNGState N K}
    (hG : G.Ok) (hL : G.len = L) (hN : 250000 ≤ N) (e : W ≃ Fin (2 ^ 32)) (hmid : ∀ w, (G.uneg11 w + 1) / 2 = (((e w : Nat) : ℝ) + 1 / 2) / (2 ^ 32 : Nat)) :
    (∀ r c : Int, ∀ share : ℝ, (r, c, share) ∈ [((500, 500, 0.14) : Int × Int × ℝ), (203, 503, 0.34), (203, 203, 0.83)] →
      ((univ.filter fun ω : ZMod N × ZMod L → W =>
        (testMeanStddev Real.sqrt sched (fromWords G ω) (Real.sqrt 3) (1 / 100) 1 r c .Uniform seed ()).1 ≠ .ok (true, true)).card : ℝ) / Fintype.card (ZMod N × ZMod L → W) ≤ share) := by
  have hτ : Function.Involutive fun w => e.symm (Fin.rev (e w)) := fun w => by simp
  have hneg : ∀ w, G.uneg11 (e.symm (Fin.rev (e w))) = -G.uneg11 w := by
    intro w
    have h1 := hmid w
    have h2 := hmid (e.symm (Fin.rev (e w)))
    simp only [Equiv.apply_symm_apply, Fin.val_rev] at h2
    rw [Nat.cast_sub (by have := (e w).2; omega)] at h2
    push_cast at h1 h2
    field_simp at h1 h2
    linarith
  refine fixture_shares hG hL hN (τ0 := fun w => e.symm (Fin.rev (e w))) (τ1 := fun w => e.symm (Fin.rev (e w))) ⟨hτ, hτ, fun _ w => ⟨hneg w, hneg w⟩, fun h => by cases h⟩
    (C61_uniform_mean_square (by norm_num) e hmid) (C82_uniform_words (by norm_num) e hmid) le_rfl ?_ ?_ ?_ <;> norm_num

/-- C139. The fixture `Gaussian`, with ideal 32-bit words, exact conversions and an exact Box-Muller transform: the same shares. -/
theorem C139_gaussian_fixture [NeZero N] [Fintype W] [Nonempty W] {L : Nat} [NeZero L] {G : Gen N K W ℝ} {sched : List Nat} {seed : RNGState N K} {u r : W → ℝ}
    (hG : G.Ok) (hL : G.len = L) (hN : 250000 ≤ N) (e e' : W ≃ Fin (4 * (2 * 2 ^ 29))) (hbm : IsBoxMuller G u r)
    (hmid : ∀ w, (u w + 1) / 2 = (((e w : Nat) : ℝ) + 1 / 2) / (4 * (2 * 2 ^ 29) : Nat))
    (hr : ∀ w, r w = Real.sqrt (-2 * Real.log ((((e' w : Nat) : ℝ) + 1 / 2) / (4 * (2 * 2 ^ 29) : Nat)))) :
    (∀ r c : Int, ∀ share : ℝ, (r, c, share) ∈ [((500, 500, 0.14) : Int × Int × ℝ), (203, 503, 0.34), (203, 203, 0.83)] →
      ((univ.filter fun ω : ZMod N × ZMod L → W =>
        (testMeanStddev Real.sqrt sched (fromWords G ω) (Real.sqrt 3) (1 / 100) 1 r c .Gaussian seed ()).1 ≠ .ok (true, true)).card : ℝ) / Fintype.card (ZMod N × ZMod L → W) ≤ share) := by
  obtain ⟨⟨τ0, τ1, hsym⟩, -⟩ := C61_gaussian_words (G := G) (m := 2 * 2 ^ 29) (by norm_num) e hbm hmid
  obtain ⟨v, hv, hw, hv1, hv0⟩ := C82_gaussian_words (by norm_num) e e' hbm hmid hr
  have hlog : Real.log (2 * ((4 * (2 * 2 ^ 29) : Nat) : ℝ)) ≤ 23 := by
    have : (2 * ((4 * (2 * 2 ^ 29) : Nat) : ℝ)) = 2 ^ 33 := by norm_num
    rw [this, Real.log_pow]
    have := Real.log_two_lt_d9
    norm_num at this ⊢
    linarith
  have hv0' : (1 : ℝ) - 1 / 10 ^ 8 ≤ v := by
    refine le_trans ?_ hv0
    have : (2 + Real.log (2 * ((4 * (2 * 2 ^ 29) : Nat) : ℝ))) / (2 * ((4 * (2 * 2 ^ 29) : Nat) : ℝ)) ≤ 25 / (2 * ((4 * (2 * 2 ^ 29) : Nat) : ℝ)) :=
      div_le_div_of_nonneg_right (by linarith) (by positivity)
    norm_num at this ⊢
    linarith
  have hvnn : 0 ≤ v := by norm_num at hv0'; linarith
  exact fixture_shares hG hL hN hsym hv hw (by nlinarith) hv0' hv1 le_rfl

/-- The hypotheses are met: the 2 x 5 uniform operator of the generator `midGenR` of 32-bit words is filled by its own matrix. -/
example : M.wp (testMeanStddev Real.sqrt [0, 1] midGenR (Real.sqrt 3) (1 / 100) 1 2 5 .Uniform ⟨0, 7⟩) () (fun r _ =>
    (r.1 = true ↔ |sampleMean 2 5 (denseEntry midGenR (Real.sqrt 3) exUnif ⟨0, 7⟩)| ≤ 1 / 100) ∧
    (r.2 = true ↔ (1 : Int) < 2 * 5 ∧ |Real.sqrt (sampleVariance 2 5 (denseEntry midGenR (Real.sqrt 3) exUnif ⟨0, 7⟩)) - 1| ≤ 1 / 100)) :=
  C139_decides (D := exUnif) (by decide) (by decide) fun b hb => by
    have h := C01_entry_formula (sched := [0, 1]) (G := midGenR) (sqrt3 := Real.sqrt 3) (layout := .RowMajor) (D := exUnif) (seed := ⟨0, 7⟩) (Or.inr rfl) ⟨by decide, by decide⟩
      (⟨by decide, by decide, le_refl 0, le_refl 0, by decide, by decide⟩ : InWindow exUnif 2 5 0 0) hb
    simp only [add_zero] at h
    exact h

/-- The fixtures with this generator. -/
example : ((univ.filter fun ω : ZMod (2 ^ 128) × ZMod 4 → Fin (4 * 2 ^ 30) =>
    (testMeanStddev Real.sqrt [0] (fromWords midGenR ω) (Real.sqrt 3) (1 / 100) 1 500 500 .Gaussian ⟨0, 2⟩ ()).1 ≠ .ok (true, true)).card : ℝ) /
      Fintype.card (ZMod (2 ^ 128) × ZMod 4 → Fin (4 * 2 ^ 30)) ≤ 0.14 :=
  C139_gaussian_fixture (L := 4) (Or.inr rfl) rfl (by norm_num) (finCongr (by norm_num)) (finCongr (by norm_num)) (u := midGenR.uneg11)
    (r := fun w => Real.sqrt (-2 * Real.log ((((w : Nat) : ℝ) + 1 / 2) / (4 * 2 ^ 30 : Nat)))) (fun _ _ => rfl)
    (fun w => by simp only [midGenR, finCongr_apply, Fin.val_cast]; norm_num) (fun w => by simp only [finCongr_apply, Fin.val_cast]; norm_num) 500 500 0.14 (by simp)

/-- See above. -/
example : ((univ.filter fun ω : ZMod (2 ^ 128) × ZMod 4 → Fin (4 * 2 ^ 30) =>
    (testMeanStddev Real.sqrt [0] (fromWords midGenR ω) (Real.sqrt 3) (1 / 100) 1 203 503 .Uniform ⟨0, 2⟩ ()).1 ≠ .ok (true, true)).card : ℝ) /
      Fintype.card (ZMod (2 ^ 128) × ZMod 4 → Fin (4 * 2 ^ 30)) ≤ 0.34 :=
  C139_uniform_fixture (L := 4) (Or.inr rfl) rfl (by norm_num) (finCongr (by norm_num)) (fun w => by simp only [midGenR, finCongr_apply, Fin.val_cast]; norm_num) 203 503 0.34 (by simp)

end RB
