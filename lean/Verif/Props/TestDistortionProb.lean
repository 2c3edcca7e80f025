import Verif.Props.TestDistortion
import Verif.Props.ObliviousApps

/-! # C125: probability of a false alarm of the distortion test -/

namespace RB
open Spec Finset
variable {N : Nat} {K W : Type}

theorem start_nz {T : Type} [Zero T] {G : Gen N K W T} (hnz : ∀ a b, (G.boxmuller a b).1 ≠ 0) {n : Int} (hn : 1 ≤ n) (seed : RNGState N K) :
    ∃ i, 0 ≤ i ∧ i < n ∧ denseRaw G .Gaussian n seed 0 i ≠ 0 := by
  refine ⟨0, le_rfl, by omega, ?_⟩
  unfold denseRaw genValue
  rw [Int.zero_emod]
  exact hnz _ _

/-- C125. The probability, over the words of the generator, that the test rejects. -/
theorem C125_false_alarm_probability [NeZero N] [Fintype W] [Nonempty W] {L : Nat} [NeZero L] {G : Gen N K W ℝ} {seed : RNGState N K} {v w dv : ℝ} {family : ScalarDist}
    (hG : G.Ok) (hL : G.len = L) {d n iters : Int} (hn : 1 ≤ n) (hnd : n ≤ d) (hfit : d * n ≤ intMax 64) (hN : d * n ≤ N) (hit : 1 ≤ iters)
    (hwd : WordsOk G family v w) (hw1 : w ≤ 1) (hdv : 0 ≤ dv) (hv1 : 1 - dv ≤ v) (hsub : SubGaussianWords G family) (hnz : ∀ a b, (G.boxmuller a b).1 ≠ 0)
    {sched : List Nat} {delta : ℝ} (hd0 : 0 < delta) (hd1 : delta < 1) :
    Pr (fun ω : ZMod N × ZMod L → W => ¬ M.wp (runGeneral Real.sqrt sched (fromWords G ω) (Real.sqrt 3) family delta d n iters seed) () (fun r _ => r = true)) ≤
      2 * 9 ^ n.toNat * Real.exp (-(d * ((2 * delta - delta ^ 2) * (2 * delta - delta ^ 2 - 4 * dv)) / 32)) := by
  obtain ⟨D, hD⟩ : ∃ D, mkDenseDist d n family .Long = .ok D := ⟨_, mkDenseDist_eq (by omega) (by omega)⟩
  obtain ⟨Dx, hDx⟩ : ∃ D, mkDenseDist n 1 .Gaussian .Long = .ok D := ⟨_, mkDenseDist_eq (by omega) (by omega)⟩
  have hDok := denseDistOk_of_mk hD hfit
  have hDxok := denseDistOk_of_mk hDx (by nlinarith)
  have hlen : 0 < G.len := by rcases hG with h | h <;> rw [h] <;> decide
  obtain ⟨next, hnext⟩ : ∃ s, denseNextState G.len Dx seed = .ok s := ⟨_, denseNextState_eq hlen hDxok⟩
  obtain ⟨hR, hC, hfam⟩ : D.nRows = d ∧ D.nCols = n ∧ D.family = family := by
    have hmk := mkDenseDist_eq (r := d) (c := n) (fam := family) (ax := .Long) (by omega) (by omega)
    rw [hD] at hmk
    cases hmk
    exact ⟨rfl, rfl, rfl⟩
  have hdR : (0 : ℝ) < d := by exact_mod_cast (show (0 : Int) < d by omega)
  have hsam : ∀ ω : ZMod N × ZMod L → W, Samples (fromWords G ω) (Real.sqrt 3) D seed (denseEntry (fromWords G ω) (Real.sqrt 3) D seed) :=
    fun ω => samples_denseEntry (G := fromWords G ω) hG hDok
  set ε : ℝ := 2 * delta - delta ^ 2 with hε
  have hε0 : 0 < ε := by rw [hε]; nlinarith
  have hε1 : ε ≤ 1 := by rw [hε]; nlinarith [sq_nonneg (1 - delta)]
  have halpha : 1 / Real.sqrt d * (1 / Real.sqrt d) = 1 / (d : ℝ) := by
    rw [div_mul_div_comm, Real.mul_self_sqrt hdR.le, one_mul]
  have key := fun x => C94_distortion (op := .NoTrans) (ro := 0) (co := 0) hG hL hDok (by rw [hR, hC]; exact hN) (by rw [hfam]; exact hwd) hw1 hdv hv1 (by rw [hfam]; exact hsub) hsam
    (d := d) (m := n) (by omega) (by omega) (by rw [hR, hC]; exact inOp_zero d n) halpha x (ε := ε / 2) (by linarith) (by linarith)
  have h1 := embeds_of_tails (P := fun ω i l => 1 / Real.sqrt d * denseEntry (fromWords G ω) (Real.sqrt 3) D seed i l) (d := d) (m := n) (n := n) (r := n) (ε := ε)
    (c := 2 * Real.exp (-(d * (ε / 2 * (ε / 2 - 2 * dv)) / 8))) hε0.le (by positivity) (fun x => by
      have := key x
      simp only [opMat, subMat, zero_add, mul_sum, ← mul_assoc] at this ⊢
      exact this) (rankLe_cols n n (fun i j => if i = j then 1 else 0))
  have e : (9 : ℝ) ^ n.toNat * (2 * Real.exp (-(d * (ε / 2 * (ε / 2 - 2 * dv)) / 8))) = 2 * 9 ^ n.toNat * Real.exp (-(d * (ε * (ε - 4 * dv)) / 32)) := by
    ring_nf
  rw [e] at h1
  refine le_trans (pr_mono fun ω hω => ?_) h1
  intro hemb
  refine hω (C125_no_false_alarm sqrtOk_real (G := fromWords G ω) hG hn hnd hfit hit hD (hsam ω) hDx hnext hd0.le hd1 (start_nz (G := fromWords G ω) hnz hn seed)
    (start_nz (G := fromWords G ω) hnz hn next) fun x => ?_)
  have hz := hemb x
  have eA : sqNorm n n (fun i j => if i = j then 1 else 0) x = ∑ j ∈ range n.toNat, x j ^ 2 := by
    unfold sqNorm
    beta_reduce
    refine sum_congr rfl fun i hi => ?_
    rw [sum_eq_single_of_mem i hi fun j _ hj => by rw [if_neg (by exact_mod_cast hj.symm), zero_mul], if_pos rfl, one_mul]
  have eB : sqNorm d n (fun i j => ∑ l ∈ range n.toNat, 1 / Real.sqrt d * denseEntry (fromWords G ω) (Real.sqrt 3) D seed i l * (if (l : Int) = j then 1 else 0)) x =
      meanSq d n (denseEntry (fromWords G ω) (Real.sqrt 3) D seed) x := by
    unfold sqNorm meanSq
    rw [sum_div]
    refine sum_congr rfl fun i _ => ?_
    have : ∀ j ∈ range n.toNat, (∑ l ∈ range n.toNat, 1 / Real.sqrt d * denseEntry (fromWords G ω) (Real.sqrt 3) D seed i l * (if (l : Int) = j then 1 else 0)) * x j =
        1 / Real.sqrt d * (denseEntry (fromWords G ω) (Real.sqrt 3) D seed i j * x j) := fun j hj => by
      rw [sum_eq_single_of_mem j hj fun l _ hl => by rw [if_neg (by exact_mod_cast hl), mul_zero], if_pos rfl]
      ring
    rw [sum_congr rfl this, ← mul_sum, mul_pow, sq (1 / Real.sqrt (d : ℝ)), halpha]
    ring
  rw [eA, eB, abs_le] at hz
  have hx0 : 0 ≤ ∑ j ∈ range n.toNat, x j ^ 2 := sum_nonneg fun _ _ => sq_nonneg _
  have hmul : 0 ≤ delta ^ 2 * ∑ j ∈ range n.toNat, x j ^ 2 := mul_nonneg (sq_nonneg _) hx0
  constructor <;> rw [hε] at hz <;> nlinarith [hz.1, hz.2]

end RB
