import Verif.Model.TestDistortionSizes
import Verif.Props.TestDistortionProb

/-! # C125: the sizes and the number of iterations of the distortion test -/

namespace RB
open Spec Finset
variable {N : Nat} {K W : Type}

/-- C125. The claim of the comment of `run_gaussian`: N is the smallest integer such that `n (tau - 1/sqrt n)^2 >= 2 log(1/p)` from N on. -/
theorem C125_gaussian_size {tau p : ℝ} (ht : 0 < tau) (hp : 0 < p) (hp1 : p ≤ Real.exp (-(1 / 2))) {n : Int} (hn : 1 ≤ n) :
    gaussN tau p ≤ n ↔ 2 * Real.log (1 / p) ≤ n * (tau - 1 / Real.sqrt n) ^ 2 := by
  have hnR : (0 : ℝ) < n := by exact_mod_cast (show (0 : Int) < n by omega)
  have hl : 1 ≤ -2 * Real.log p := by
    have := Real.log_le_log hp hp1
    rw [Real.log_exp] at this
    linarith
  set s := Real.sqrt (-2 * Real.log p) with hs
  have hs1 : 1 ≤ s := by rw [hs]; exact Real.one_le_sqrt.2 hl
  have hss : s ^ 2 = 2 * Real.log (1 / p) := by rw [hs, Real.sq_sqrt (by linarith), one_div, Real.log_inv]; ring
  set q := Real.sqrt (n : ℝ) with hq
  have hq0 : 0 < q := Real.sqrt_pos.2 hnR
  have hqq : q ^ 2 = n := Real.sq_sqrt hnR.le
  have e : (n : ℝ) * (tau - 1 / q) ^ 2 = (tau * q - 1) ^ 2 := by
    rw [← hqq]
    field_simp
  rw [e, ← hss]
  have h1 : gaussN tau p ≤ n ↔ (s + 1) / tau ≤ q := by
    unfold gaussN
    rw [Int.ceil_le, ← hs, ← hqq, ← sq]
    exact sq_le_sq₀ (by positivity) hq0.le
  rw [h1, div_le_iff₀ ht]
  constructor
  · intro h
    exact pow_le_pow_left₀ (by linarith) (by linarith) 2
  · intro h
    by_contra hc
    have : 0 < tau * q := by positivity
    nlinarith

/-- C125. With the sizes of `run_gaussian`, the matrix has at least as many rows as columns. -/
theorem C125_gaussian_rows {distortion tau p : ℝ} (ht : 0 < tau) (hd : 0 < distortion) (hd1 : distortion ≤ 1 + tau) : 1 ≤ gaussN tau p ∧ gaussN tau p ≤ gaussD distortion tau p := by
  have h1 : 1 ≤ gaussN tau p := by
    unfold gaussN
    exact Int.one_le_ceil_iff.2 (by have := Real.sqrt_nonneg (-2 * Real.log p); positivity)
  refine ⟨h1, ?_⟩
  unfold gaussD
  have h2 : (1 : ℝ) ≤ (1 + tau) / distortion := by rw [le_div_iff₀ hd]; linarith
  have h3 : ((gaussN tau p : Int) : ℝ) ≤ ((1 + tau) / distortion) ^ 2 * gaussN tau p :=
    le_mul_of_one_le_left (by exact_mod_cast (by omega : (0 : Int) ≤ gaussN tau p)) (one_le_pow₀ h2)
  exact_mod_cast h3.trans (Int.le_ceil _)

/-- C125. With the number of iterations that the test computes, the start vector may have a squared cosine as small as `exp(tol - 2) / (pi n)`. -/
theorem C125_iterations {n : Int} {p tol : ℝ} (hn : 1 ≤ n) (ht0 : 0 < tol) (ht1 : tol < 1) :
    1 ≤ powerIters n p tol ∧ (1 - tol) ^ (2 * powerIters n p tol - 1).toNat ≤ Real.exp (tol - 2) / (Real.pi * n) := by
  have hnR : (1 : ℝ) ≤ n := by exact_mod_cast hn
  have hpi := Real.pi_gt_three
  have hpn : 1 ≤ Real.pi * n := by nlinarith
  have hlog : 0 ≤ Real.log (Real.sqrt (Real.pi * n)) := Real.log_nonneg (Real.one_le_sqrt.2 hpn)
  have hk : (1 + Real.log (Real.sqrt (Real.pi * n))) / tol ≤ powerIters n p tol := by
    refine (Int.le_ceil _).trans ?_
    exact_mod_cast le_max_left _ _
  have hk1 : 1 ≤ powerIters n p tol := by
    have h0 : (0 : ℝ) < (1 + Real.log (Real.sqrt (Real.pi * n))) / tol := by positivity
    have : (0 : ℝ) < powerIters n p tol := h0.trans_le hk
    have : (0 : Int) < powerIters n p tol := by exact_mod_cast this
    omega
  refine ⟨hk1, ?_⟩
  set k := powerIters n p tol
  rw [div_le_iff₀ ht0] at hk
  have h1 : (1 - tol) ^ (2 * k - 1).toNat ≤ Real.exp (-tol) ^ (2 * k - 1).toNat :=
    pow_le_pow_left₀ (by linarith) (by have := Real.add_one_le_exp (-tol); linarith) _
  refine h1.trans ?_
  rw [← Real.exp_nat_mul]
  have e : (((2 * k - 1).toNat : ℕ) : ℝ) = 2 * k - 1 := by
    have : (((2 * k - 1).toNat : ℕ) : Int) = 2 * k - 1 := Int.toNat_of_nonneg (by omega)
    exact_mod_cast this
  rw [e, ← Real.exp_log (show 0 < Real.pi * n by linarith), ← Real.exp_sub]
  refine Real.exp_le_exp.2 ?_
  rw [Real.log_sqrt (by linarith)] at hk
  nlinarith

/-- C125. Because the logarithms are truncated before the division, the number of iterations can be smaller than each of the two bounds for the given probability of failure. -/
theorem C125_iterations_truncated : ∃ (n : Int) (p tol : ℝ), 1 ≤ n ∧ 0 < p ∧ p < 1 ∧ 0 < tol ∧ tol < 1 ∧
    (powerIters n p tol : ℝ) + 80 < Real.log (Real.sqrt n / p) / Real.log (1 / (1 - tol)) ∧
    (powerIters n p tol : ℝ) + 80 < Real.log (Real.exp 1 + 0.27 * (1 - tol) * Real.log (1 / (1 - tol)) / (tol * p * p)) / Real.log (1 / (1 - tol)) := by
  have hL : Real.log (1 / (1 - (1 - Real.exp (-(1 / 100))))) = 1 / 100 := by
    rw [sub_sub_cancel, one_div, Real.log_inv, Real.log_exp]; ring
  have hB : Real.log (Real.sqrt ((1 : Int) : ℝ) / Real.exp (-(39 / 10))) = 39 / 10 := by
    rw [Int.cast_one, Real.sqrt_one, one_div, Real.log_inv, Real.log_exp]; ring
  have he1 : Real.exp (-(1 / 100)) ≤ 1 - 9 / 1000 := by
    have := Real.quadratic_le_exp_of_nonneg (show (0 : ℝ) ≤ 1 / 100 by norm_num)
    rw [Real.exp_neg, inv_le_comm₀ (Real.exp_pos _) (by norm_num)]
    refine le_trans (by norm_num) this
  have he0 : 99 / 100 ≤ Real.exp (-(1 / 100)) := by have := Real.add_one_le_exp (-(1 / 100 : ℝ)); linarith
  have hk : powerIters 1 (Real.exp (-(39 / 10))) (1 - Real.exp (-(1 / 100))) ≤ 300 := by
    unfold powerIters
    refine max_le ?_ (min_le_of_right_le ?_)
    · rw [Int.ceil_le, div_le_iff₀ (by linarith)]
      have h1 : Real.sqrt (Real.pi * ((1 : Int) : ℝ)) ≤ 2 := by
        rw [Int.cast_one, mul_one]
        exact Real.sqrt_le_iff.2 ⟨by norm_num, by have := Real.pi_lt_four; linarith⟩
      have h2 := Real.log_le_sub_one_of_pos (show 0 < Real.sqrt (Real.pi * ((1 : Int) : ℝ)) by have := Real.pi_pos; rw [Int.cast_one, mul_one]; exact Real.sqrt_pos.2 this)
      push_cast at h1 h2 ⊢
      linarith
    · rw [hL, hB]
      have h3 : truncZ (39 / 10) = 3 := by
        unfold truncZ
        rw [if_pos (by norm_num), Int.floor_eq_iff]
        norm_num
      rw [h3]
      unfold truncZ
      rw [if_pos (by norm_num)]
      norm_num
  have hkR : (powerIters 1 (Real.exp (-(39 / 10))) (1 - Real.exp (-(1 / 100))) : ℝ) ≤ 300 := by exact_mod_cast hk
  refine ⟨1, Real.exp (-(39 / 10)), 1 - Real.exp (-(1 / 100)), le_rfl, Real.exp_pos _, Real.exp_lt_one_iff.2 (by norm_num), by linarith, by have := Real.exp_pos (-(1 / 100)); linarith, ?_, ?_⟩
  · rw [hL, hB]
    linarith
  · rw [hL, sub_sub_cancel]
    set t := 1 - Real.exp (-(1 / 100)) with ht
    set q := Real.exp (-(39 / 10)) with hq
    have ht0 : 0 < t := by rw [ht]; linarith
    have ht1 : t ≤ 1 / 100 := by rw [ht]; linarith
    have hq0 : 0 < q := Real.exp_pos _
    have hq1 : q * 4.9 ≤ 1 := by
      have := Real.add_one_le_exp (39 / 10 : ℝ)
      rw [hq, Real.exp_neg, inv_mul_le_iff₀ (Real.exp_pos _)]
      linarith
    have hmain : Real.exp (39 / 10) < Real.exp 1 + 0.27 * Real.exp (-(1 / 100)) * (1 / 100) / (t * q * q) := by
      have : Real.exp (39 / 10) = 1 / q := by rw [hq, Real.exp_neg, one_div, inv_inv]
      have h5 : 1 / q ≤ 0.27 * Real.exp (-(1 / 100)) * (1 / 100) / (t * q * q) := by
        rw [div_le_div_iff₀ hq0 (by positivity)]
        have h6 : t * q ≤ 1 / 100 * q := mul_le_mul_of_nonneg_right ht1 hq0.le
        nlinarith
      have := Real.exp_pos 1
      linarith
    have := Real.log_lt_log (Real.exp_pos _) hmain
    rw [Real.log_exp] at this
    rw [lt_div_iff₀ (by norm_num)]
    linarith

/-- C125. The power method starts from the seed of the matrix, so its first start vector is not independent of the Gaussian matrix: it is the top of its first column. -/
theorem C125_start_reused {T : Type} [Mul T] {G : Gen N K W T} {sqrt3 : T} {d n : Int} {seed : RNGState N K} {D : DenseDist} (hn : 1 ≤ n) (hnd : n ≤ d)
    (hD : mkDenseDist d n .Gaussian .Long = .ok D) (i : Int) : denseRaw G .Gaussian n seed 0 i = denseEntry G sqrt3 D seed i 0 := by
  rw [mkDenseDist_eq (by omega) (by omega)] at hD
  cases hD
  have hnat : naturalLayout .Long d n = .ColMajor := by unfold naturalLayout; simp; omega
  simp only [denseEntry, hnat, famScale, denseRaw, zero_mul]

/-- C125. `C125_detects` with the number of iterations of the code: an accepted matrix has its singular values within the bounds up to the tolerance, if the squared cosines of the angles
between the start vectors and the extremal singular vectors are at least `exp(tol - 2) / (pi n)`. -/
theorem C125_detects_iterations {sched : List Nat} {G : Gen N K W ℝ} {sqrt3 : ℝ} {family : ScalarDist} {delta tol p : ℝ} {d n : Int}
    {seed : RNGState N K} {D Dx : DenseDist} {F : Int → Int → ℝ} {next : RNGState N K}
    (hG : G.Ok) (hn : 1 ≤ n) (hnd : n ≤ d) (hfit : d * n ≤ intMax 64) (hD : mkDenseDist d n family .Long = .ok D) (hF : Samples G sqrt3 D seed F)
    (hDx : mkDenseDist n 1 .Gaussian .Long = .ok Dx) (hnext : denseNextState G.len Dx seed = .ok next) (hd1 : delta ≤ 1) (ht0 : 0 < tol) (ht1 : tol < 1)
    {l1 l2 : ℝ} {u1 u2 : Int → ℝ} (hl2 : 0 < l2) (hu1 : IsSingularPair d n F l1 u1) (hu2 : IsSingularPair d n F l2 u2)
    (hmax : ∀ x : Int → ℝ, meanSq d n F x ≤ l1 * ∑ j ∈ Finset.range n.toNat, x j ^ 2) (hmin : ∀ x : Int → ℝ, l2 * ∑ j ∈ Finset.range n.toNat, x j ^ 2 ≤ meanSq d n F x)
    (hc1 : Cos2Ge (Real.exp (tol - 2) / (Real.pi * n)) n (fun i => denseRaw G .Gaussian n seed 0 i) u1)
    (hc2 : Cos2Ge (Real.exp (tol - 2) / (Real.pi * n)) n (fun i => denseRaw G .Gaussian n next 0 i) u2)
    (hx1 : ∃ i, 0 ≤ i ∧ i < n ∧ denseRaw G .Gaussian n seed 0 i ≠ 0) (hx2 : ∃ i, 0 ≤ i ∧ i < n ∧ denseRaw G .Gaussian n next 0 i ≠ 0) :
    M.wp (runGeneral Real.sqrt sched G sqrt3 family delta d n (powerIters n p tol) seed) () (fun r _ => r = true →
      ∀ x : Int → ℝ, (1 - tol) * (1 - delta) ^ 2 * ∑ j ∈ Finset.range n.toNat, x j ^ 2 ≤ meanSq d n F x ∧
        (1 - tol) * meanSq d n F x ≤ (1 + delta) ^ 2 * ∑ j ∈ Finset.range n.toNat, x j ^ 2) := by
  obtain ⟨h1, h2⟩ := C125_iterations (p := p) hn ht0 ht1
  have hle : ∀ x u : Int → ℝ, Cos2Ge (Real.exp (tol - 2) / (Real.pi * n)) n x u → Cos2Ge ((1 - tol) ^ (2 * powerIters n p tol - 1).toNat) n x u := fun x u h =>
    (mul_le_mul_of_nonneg_right h2 (mul_nonneg (sum_nonneg fun _ _ => sq_nonneg _) (sum_nonneg fun _ _ => sq_nonneg _))).trans h
  exact C125_detects sqrtOk_real hG hn hnd hfit h1 hD hF hDx hnext hd1 ht1 hl2 hu1 hu2 hmax hmin (hle _ _ hc1) (hle _ _ hc2) hx1 hx2

/-- A generator whose first block gives the numbers 1, 1/2, and whose other blocks give 1/2, 1. -/
noncomputable def exGenPair : Gen (2 ^ 128) Nat (ZMod (2 ^ 128)) ℝ :=
  { len := 4, word := fun c _ _ => c, boxmuller := fun a _ => if a = 0 then (1, 1 / 2) else (1 / 2, 1), uneg11 := fun _ => 0, nat := fun _ => 0 }

/-- The hypotheses of `C125_detects` and `C125_detects_iterations` are met by the matrix S = [1, 1/2; 1/2, 1], of singular values sqrt(9/8) and sqrt(1/8) after the division by sqrt(d);
the squared cosines are 9/10 and 1/10. -/
example : M.wp (runGeneral Real.sqrt [3, 1] exGenPair (Real.sqrt 3) .Gaussian (3 / 4) 2 2 (powerIters 2 (1 / 10) (1 / 2)) ⟨0, 7⟩) () (fun r _ => r = true →
      ∀ x : Int → ℝ, (1 - 1 / 2) * (1 - 3 / 4) ^ 2 * ∑ j ∈ Finset.range 2, x j ^ 2 ≤ ((x 0 + x 1 / 2) ^ 2 + (x 0 / 2 + x 1) ^ 2) / 2 ∧
        (1 - 1 / 2) * (((x 0 + x 1 / 2) ^ 2 + (x 0 / 2 + x 1) ^ 2) / 2) ≤ (1 + 3 / 4) ^ 2 * ∑ j ∈ Finset.range 2, x j ^ 2) := by
  have hG : exGenPair.Ok := Or.inr rfl
  have hD : mkDenseDist 2 2 .Gaussian .Long = .ok ⟨2, 2, .Long, 2, 2, .Gaussian, .ColMajor⟩ := by decide
  have hDx : mkDenseDist 2 1 .Gaussian .Long = .ok ⟨2, 1, .Long, 2, 1, .Gaussian, .ColMajor⟩ := by decide
  have hDok := denseDistOk_of_mk hD (by decide)
  have hDxok := denseDistOk_of_mk hDx (by decide)
  have hnext := denseNextState_eq (N := 2 ^ 128) (L := 4) (seed := (⟨0, 7⟩ : RNGState (2 ^ 128) Nat)) (by decide) hDxok
  have one_nz : (1 : ZMod (2 ^ 128)) ≠ 0 := by
    have : Fact (1 < 2 ^ 128) := ⟨by norm_num⟩
    exact one_ne_zero
  generalize hF : denseEntry exGenPair (Real.sqrt 3) ⟨2, 2, .Long, 2, 2, .Gaussian, .ColMajor⟩ ⟨0, 7⟩ = F
  have hE : F 0 0 = 1 ∧ F 1 0 = 1 / 2 ∧ F 0 1 = 1 / 2 ∧ F 1 1 = 1 := by
    subst hF
    refine ⟨?_, ?_, ?_, ?_⟩ <;> simp [denseEntry, famScale, denseRaw, genValue, exGenPair, countersPerVector, one_nz]
  obtain ⟨h00, h10, h01, h11⟩ := hE
  have hm : ∀ x : Int → ℝ, meanSq 2 2 F x = ((x 0 + x 1 / 2) ^ 2 + (x 0 / 2 + x 1) ^ 2) / 2 := by
    intro x
    simp [meanSq, sum_range_succ, h00, h01, h10, h11]
    ring
  have hx1 : denseRaw exGenPair .Gaussian 2 ⟨0, 7⟩ 0 0 = 1 ∧ denseRaw exGenPair .Gaussian 2 ⟨0, 7⟩ 0 1 = 1 / 2 := by
    constructor <;> simp [denseRaw, genValue, exGenPair, countersPerVector]
  have hx2 : denseRaw exGenPair .Gaussian 2 ⟨1, 7⟩ 0 0 = 1 / 2 ∧ denseRaw exGenPair .Gaussian 2 ⟨1, 7⟩ 0 1 = 1 := by
    constructor <;> simp [denseRaw, genValue, exGenPair, countersPerVector, one_nz]
  have hnext' : denseNextState exGenPair.len ⟨2, 1, .Long, 2, 1, .Gaussian, .ColMajor⟩ (⟨0, 7⟩ : RNGState (2 ^ 128) Nat) = .ok ⟨1, 7⟩ := by
    refine hnext.trans ?_
    simp [countersPerVector]
  have hc : Real.exp (1 / 2 - 2) / (Real.pi * ((2 : Int) : ℝ)) ≤ 1 / 10 := by
    have h1 : Real.exp (1 / 2 - 2) ≤ 1 / 2 := by
      have := Real.add_one_le_exp (3 / 2 : ℝ)
      rw [show (1 / 2 - 2 : ℝ) = -(3 / 2) by norm_num, Real.exp_neg, one_div]
      exact inv_anti₀ (by norm_num) (by linarith)
    have := Real.pi_gt_three
    rw [div_le_iff₀ (by positivity)]
    push_cast
    linarith
  have hc0 : 0 ≤ Real.exp (1 / 2 - 2) / (Real.pi * ((2 : Int) : ℝ)) := by have := Real.pi_pos; positivity
  have h := C125_detects_iterations (sched := [3, 1]) (delta := 3 / 4) (tol := 1 / 2) (p := 1 / 10) (l1 := 9 / 8) (l2 := 1 / 8) (u1 := fun _ => 1) (u2 := fun j => if j = 0 then 1 else -1)
    hG (d := 2) (n := 2) (by decide) (by decide) (by decide) hD (hF ▸ samples_denseEntry (sqrt3 := Real.sqrt 3) (seed := ⟨0, 7⟩) hG hDok) hDx hnext' (by norm_num) (by norm_num) (by norm_num) (by norm_num)
    ⟨⟨0, by decide, by decide, one_ne_zero⟩, fun j h0 h1 => by
      obtain rfl | rfl : j = 0 ∨ j = 1 := by omega
      all_goals simp [sum_range_succ, h00, h01, h10, h11]; norm_num⟩
    ⟨⟨0, by decide, by decide, by simp⟩, fun j h0 h1 => by
      obtain rfl | rfl : j = 0 ∨ j = 1 := by omega
      all_goals simp [sum_range_succ, h00, h01, h10, h11]; norm_num⟩
    (fun x => by rw [hm]; simp [sum_range_succ]; nlinarith [sq_nonneg (x 0 - x 1)]) (fun x => by rw [hm]; simp [sum_range_succ]; nlinarith [sq_nonneg (x 0 + x 1)])
    (by simp only [Cos2Ge, sum_range_succ, sum_range_zero, show (2 : Int).toNat = 2 from rfl, Nat.cast_zero, Nat.cast_one, hx1.1, hx1.2]; norm_num at hc ⊢; linarith)
    (by simp only [Cos2Ge, sum_range_succ, sum_range_zero, show (2 : Int).toNat = 2 from rfl, Nat.cast_zero, Nat.cast_one, hx2.1, hx2.2]; norm_num at hc ⊢; linarith)
    ⟨0, by decide, by decide, by rw [hx1.1]; exact one_ne_zero⟩ ⟨1, by decide, by decide, by rw [hx2.2]; exact one_ne_zero⟩
  simp only [hm] at h
  exact h

/-- The numbers of `midGenR` are not 0. -/
theorem midGenR_nz (a b : Fin (4 * 2 ^ 30)) : (midGenR.boxmuller a b).1 ≠ 0 := by
  have ha : ((a : Nat) : ℝ) < 4 * 2 ^ 30 := by exact_mod_cast a.2
  have hb : ((b : Nat) : ℝ) < 4 * 2 ^ 30 := by exact_mod_cast b.2
  have hane : 2 * ((a : Nat) : ℝ) + 1 ≠ 4 * 2 ^ 30 := by
    intro h
    have : 2 * (a : Nat) + 1 = 4 * 2 ^ 30 := by exact_mod_cast h
    omega
  have ha0 : (0 : ℝ) ≤ ((a : Nat) : ℝ) := Nat.cast_nonneg _
  have hb0 : (0 : ℝ) ≤ ((b : Nat) : ℝ) := Nat.cast_nonneg _
  have hM : ((4 * 2 ^ 30 : Nat) : ℝ) = 4 * 2 ^ 30 := by norm_num
  unfold midGenR
  refine mul_ne_zero ?_ ?_
  · refine (Real.sqrt_pos.2 ?_).ne'
    have : Real.log ((((b : Nat) : ℝ) + 1 / 2) / (4 * 2 ^ 30 : Nat)) < 0 := by
      refine Real.log_neg (by positivity) ?_
      rw [hM, div_lt_one (by norm_num)]
      have : (b : Nat) + 1 ≤ 4 * 2 ^ 30 := b.2
      have : ((b : Nat) : ℝ) + 1 ≤ 4 * 2 ^ 30 := by exact_mod_cast this
      linarith
    linarith
  · have hy : 2 * ((((a : Nat) : ℝ) + 1 / 2) / (4 * 2 ^ 30 : Nat)) - 1 ≠ 0 := by
      rw [hM]
      intro h
      apply hane
      field_simp at h
      linarith
    have hy1 : -1 < 2 * ((((a : Nat) : ℝ) + 1 / 2) / (4 * 2 ^ 30 : Nat)) - 1 := by
      have : 0 < (((a : Nat) : ℝ) + 1 / 2) / (4 * 2 ^ 30 : Nat) := by positivity
      linarith
    have hy2 : 2 * ((((a : Nat) : ℝ) + 1 / 2) / (4 * 2 ^ 30 : Nat)) - 1 < 1 := by
      have : (((a : Nat) : ℝ) + 1 / 2) / (4 * 2 ^ 30 : Nat) < 1 := by
        rw [hM, div_lt_one (by norm_num)]
        have : (a : Nat) + 1 ≤ 4 * 2 ^ 30 := a.2
        have : ((a : Nat) : ℝ) + 1 ≤ 4 * 2 ^ 30 := by exact_mod_cast this
        linarith
      linarith
    have hpi := Real.pi_pos
    rw [Ne, Real.sin_eq_zero_iff_of_lt_of_lt (by nlinarith) (by nlinarith)]
    exact mul_ne_zero hpi.ne' hy

/-- The hypotheses of `C125_false_alarm_probability` are met: Gaussian 1000 x 2 matrices, distortion 1/2. -/
example : Pr (fun ω : ZMod (2 ^ 128) × ZMod 4 → Fin (4 * 2 ^ 30) => ¬ M.wp (runGeneral Real.sqrt [3, 1] (fromWords midGenR ω) (Real.sqrt 3) .Gaussian (1 / 2) 1000 2
      (powerIters 2 (1 / 1000000) (1 / 100)) ⟨0, 7⟩) () (fun r _ => r = true)) ≤ 162 / 600 := by
  obtain ⟨v, hw, hv⟩ := midGenR_words
  have h := C125_false_alarm_probability (N := 2 ^ 128) (L := 4) (G := midGenR) (seed := ⟨0, 7⟩) (Or.inr rfl) rfl (d := 1000) (n := 2) (by decide) (by decide) (by decide) (by decide)
    (C125_iterations (n := 2) (p := 1 / 1000000) (tol := 1 / 100) (by decide) (by norm_num) (by norm_num)).1 hw le_rfl (by norm_num) hv midGenR_sub midGenR_nz (sched := [3, 1])
    (delta := 1 / 2) (by norm_num) (by norm_num)
  refine h.trans ?_
  have := exp_neg_seven (x := (1000 : Int) * ((2 * (1 / 2) - (1 / 2) ^ 2) * (2 * (1 / 2) - (1 / 2) ^ 2 - 4 * (1 / 2 ^ 25))) / 32) (by norm_num)
  refine (mul_le_mul_of_nonneg_left this (by norm_num)).trans ?_
  rw [show Int.toNat 2 = 2 from rfl]
  norm_num

end RB
