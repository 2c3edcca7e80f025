import Verif.Model.TestContinuous
import Verif.Spec.TestContinuous
import Verif.Props.TestSampling
import Verif.Props.Dense
import Verif.Props.TestMoments

/-!
# C141: the tests of the scalar distributions
-/

namespace RB
open Spec
variable {N : Nat} {K W : Type}

theorem vecElements_ok {T : Type} {b : Buf T} {x : Nat → T} : ∀ {n : Nat}, (∀ i : Nat, i < n → b i = .val (x i)) → vecElements b n = .ok ((List.range n).map x)
  | 0, _ => rfl
  | n + 1, h => by
    rw [vecElements, vecElements_ok fun i hi => h i (by omega), Res.ok_bind, Buf.rd, h n (by omega)]
    simp [List.range_succ]

theorem empCdf_share (m : Nat) (y : Nat → ℝ) (x : ℝ) : empCdf ((List.range m).map y) x = shareOf m (fun t => y t ≤ x) := by
  unfold empCdf shareOf
  congr 2
  · rw [List.filter_map, List.length_map]
    simp only [Finset.card, Finset.filter_val, Finset.range_val, Multiset.range, Multiset.filter_coe, Multiset.coe_card]
    congr 1
  · simp

/-- The distribution function of the law that a family stands for. -/
theorem trueCdfOf_cont {erfc : EReal → ℝ} (he : IsErfc erfc) (sd : ScalarDist) : ContCdf (trueCdfOf erfc sd) := by
  unfold trueCdfOf
  cases sd
  · simpa using C114_normal_contCdf he
  · simpa using C114_uniform_contCdf (r := Real.sqrt 3) (by positivity)

/-- What `run` decides, for either family and a known critical value. -/
theorem run_decides_of {erfc : EReal → ℝ} {sched : List Nat} {G : Gen N K W ℝ} {num : Int} {sig cv sig' : ℚ} {m : Nat} {sd : ScalarDist} {state : RNGState N K} (he : IsErfc erfc) (hG : G.Ok)
    (hnum : 8 ≤ num ∧ num ≤ 2 ^ 24) (e : criticalValueRep num sig = .ok (cv, (m : Int), sig')) (hm : SmallestSize num m) :
    M.wp (runScalarKs erfc sched G sig num sd state) () (fun o _ => o = none ↔ ∀ x : ℝ, |shareOf m (fun t => familyValue G sd state t ≤ x) - trueCdfOf erfc sd x| ≤ cv) := by
  have hm0 : num ≤ m := hm.2.1
  have hm1 : (m : Int) ≤ 2 ^ 24 := hm.2.2 (2 ^ 24) ⟨24, by norm_num, by norm_num, by norm_num⟩ hnum.2
  have hmax : (2 : Int) ^ 24 ≤ intMax 64 := by decide
  unfold familyValue
  unfold runScalarKs
  rw [M.wp_bind, M.wp_lift]
  refine ⟨_, (C113_mutator_partial (by constructor <;> simp only [intMin, intMax] <;> omega)).trans e, ?_⟩
  dsimp only
  rw [M.wp_bind, M.wp_lift]
  let D : DenseDist := { nRows := m, nCols := 1, majorAxis := .Long, dimMajor := max m 1, dimMinor := min m 1, family := sd, naturalLayout := naturalLayout .Long m 1 }
  have hmk : mkDenseDist m 1 sd .Long = .ok D := by
    unfold mkDenseDist Res.require
    simp only [D, if_pos (show (m : Int) > 0 by omega), if_pos (show (1 : Int) > 0 by decide), Res.ok_bind]
    rfl
  have hlay : D.naturalLayout = .ColMajor := by
    show naturalLayout .Long (m : Int) 1 = _
    unfold naturalLayout
    rw [if_neg (by omega), if_neg (by omega), if_pos rfl]
  refine ⟨D, hmk, ?_⟩
  rw [M.wp_bind, M.wp_onLocal]
  unfold fillDense
  have hD : DenseDistOk D := ⟨hmk, by show (m : Int) * 1 ≤ _; omega⟩
  refine M.wp_mono (C01_entry_formula (G := G) hG hD (m := m) (n := 1) (ro := 0) (co := 0) ⟨by omega, by omega, le_rfl, le_rfl, by simp [D], by simp [D]⟩ (fun p h0 h1 => ?_)) ?_
  · simp [Buf.fill, h0, show p < m by omega]
  rintro st b hb
  have hx : ∀ t : Nat, t < m → b t = .val (famScale sd (Real.sqrt 3) (genValue G sd (state.counter + (((t : Int) / G.len : Int) : ZMod N)) state.key ((t : Int) % G.len))) := by
    intro t ht
    have := hb t 0 ⟨by omega, by omega, le_rfl, by omega⟩
    rw [hlay] at this
    simp only [addr, add_zero, denseEntry, hlay, denseRaw, zero_mul, zero_add] at this
    exact this
  rw [M.wp_bind, M.wp_lift]
  refine ⟨_, vecElements_ok (fun i hi => hx i (by simpa using hi)), ?_⟩
  simp only [Int.toNat_natCast]
  have hcdf := trueCdfOf_cont he sd
  have hne : (List.range m).map (fun t : Nat => famScale sd (Real.sqrt 3) (genValue G sd (state.counter + (((t : Int) / G.len : Int) : ZMod N)) state.key ((t : Int) % G.len))) ≠ [] := by
    intro h; have := congrArg List.length h; simp at this; omega
  obtain ⟨⟨o, ho⟩, hiff⟩ := C114_continuous_test (cv := (cv : ℝ)) hcdf.mono hcdf.bot hcdf.top hcdf.cont hne
  rw [M.wp_lift]
  refine ⟨o, ho, ?_⟩
  rw [ho] at hiff
  simp only [Res.ok.injEq, empCdf_share] at hiff
  exact hiff

/-- See `run_decides_of`. -/
theorem run_decides {erfc : EReal → ℝ} {sched : List Nat} {G : Gen N K W ℝ} {num : Int} {sig : ℚ} {sd : ScalarDist} {state : RNGState N K} (he : IsErfc erfc) (hG : G.Ok)
    (hnum : 8 ≤ num ∧ num ≤ 2 ^ 24) (hs : 1 / 10 ^ 6 ≤ sig ∧ sig ≤ 5 / 100) :
    ∃ (cv : ℚ) (m : Nat) (sig' : ℚ), SmallestSize num m ∧ LargestLevel sig sig' ∧ (¬ (1 / 10 ^ 5 ≤ sig ∧ sig < 1 / 10 ^ 4 ∧ 2 ^ 23 < num) → KsCritical m sig' cv) ∧
      M.wp (runScalarKs erfc sched G sig num sd state) () (fun o _ => o = none ↔ ∀ x : ℝ, |shareOf m (fun t => familyValue G sd state t ≤ x) - trueCdfOf erfc sd x| ≤ cv) := by
  obtain ⟨cv, m, sig', e, hm, hl, hc⟩ := lookup_exists hnum hs
  have hm0 : num ≤ m := hm.2.1
  obtain ⟨m, rfl⟩ : ∃ m' : ℕ, m = m' := ⟨m.toNat, by omega⟩
  exact ⟨cv, m, sig', hm, hl, fun h => by simpa using hc h, run_decides_of he hG hnum e hm⟩

/-- C141 (uniform). The test passes exactly if for every real `y` the share of the uniform values (of the tabulated number `m` of them) that are at most `y` is within the critical value of
the probability that a uniform variate on [-1, 1] is at most `y`. -/
theorem C141_uniform {erfc : EReal → ℝ} {sched : List Nat} {G : Gen N K W ℝ} {num : Int} {sig : ℚ} {state : RNGState N K} (he : IsErfc erfc) (hG : G.Ok)
    (hnum : 8 ≤ num ∧ num ≤ 2 ^ 24) (hs : 1 / 10 ^ 6 ≤ sig ∧ sig ≤ 5 / 100) :
    ∃ (cv : ℚ) (m : Nat) (sig' : ℚ), SmallestSize num m ∧ LargestLevel sig sig' ∧ (¬ (1 / 10 ^ 5 ≤ sig ∧ sig < 1 / 10 ^ 4 ∧ 2 ^ 23 < num) → KsCritical m sig' cv) ∧
      M.wp (runScalarKs erfc sched G sig num .Uniform state) () (fun o _ => o = none ↔ ∀ y : ℝ,
        |shareOf m (fun t => stream G state t ≤ y) - max 0 (min 1 ((y + 1) / 2))| ≤ cv) := by
  obtain ⟨cv, m, sig', h1, h2, h3, h4⟩ := run_decides (sched := sched) (state := state) (sd := .Uniform) he hG hnum hs
  refine ⟨cv, m, sig', h1, h2, h3, M.wp_mono h4 fun o _ ho => ho.trans ?_⟩
  have h3 : (0 : ℝ) < Real.sqrt 3 := by positivity
  have key : ∀ y : ℝ, shareOf m (fun t : Nat => familyValue G .Uniform state t ≤ Real.sqrt 3 * y) -
      trueCdfOf erfc .Uniform ((Real.sqrt 3 * y : ℝ) : EReal) = shareOf m (fun t => stream G state t ≤ y) - max 0 (min 1 ((y + 1) / 2)) := by
    intro y
    congr 1
    · apply shareOf_congr
      intro t _
      simp only [familyValue, famScale, genValue, stream]
      exact mul_le_mul_iff_right₀ h3
    · simp only [trueCdfOf, reduceCtorEq, if_false]
      rw [uniform_real h3]
      congr 2
      field_simp
  constructor
  · intro h y
    have := h (Real.sqrt 3 * y)
    rwa [key y] at this
  · intro h x
    have := h (x / Real.sqrt 3)
    rw [← key, mul_div_cancel₀ _ h3.ne'] at this
    exact this

/-- C141 (Gaussian). The test passes exactly if for every real `x` the share of the Gaussian values that are at most `x` is within the critical value of the probability that a standard
normal variate is at most `x`. Value `t` comes from words `2 (t % len / 2)` and the next one at counter `t / len`. -/
theorem C141_gaussian {erfc : EReal → ℝ} {sched : List Nat} {G : Gen N K W ℝ} {num : Int} {sig : ℚ} {state : RNGState N K} (he : IsErfc erfc) (hG : G.Ok)
    (hnum : 8 ≤ num ∧ num ≤ 2 ^ 24) (hs : 1 / 10 ^ 6 ≤ sig ∧ sig ≤ 5 / 100) :
    ∃ (cv : ℚ) (m : Nat) (sig' : ℚ), SmallestSize num m ∧ LargestLevel sig sig' ∧ (¬ (1 / 10 ^ 5 ≤ sig ∧ sig < 1 / 10 ^ 4 ∧ 2 ^ 23 < num) → KsCritical m sig' cv) ∧
      M.wp (runScalarKs erfc sched G sig num .Gaussian state) () (fun o _ => o = none ↔ ∀ x : ℝ,
        |shareOf m (fun t => genValue G .Gaussian (state.counter + (((t : Int) / G.len : Int) : ZMod N)) state.key ((t : Int) % G.len) ≤ x) -
          (ProbabilityTheory.gaussianReal 0 1 (Set.Iic x)).toReal| ≤ cv) := by
  obtain ⟨cv, m, sig', h1, h2, h3, h4⟩ := run_decides (sched := sched) (state := state) (sd := .Gaussian) he hG hnum hs
  refine ⟨cv, m, sig', h1, h2, h3, M.wp_mono h4 fun o _ ho => ho.trans ?_⟩
  simp only [familyValue, famScale, trueCdfOf, if_true, C114_normal_cdf he]
  exact Iff.rfl

theorem shareOf_perm {m : Nat} {y z : Nat → ℝ} (π : Equiv.Perm (Fin m)) (h : ∀ t : Fin m, z t = y (π t)) (x : ℝ) :
    (shareOf m (fun t => z t ≤ x) : ℝ) = shareOf m (fun t => y t ≤ x) := by
  have key : ∀ w : Nat → ℝ, ((Finset.range m).filter fun t => w t ≤ x).card = (Finset.univ.filter fun t : Fin m => w t ≤ x).card := by
    intro w
    rw [Finset.card_filter, Finset.card_filter, Finset.sum_range]
  unfold shareOf
  rw [key, key, Finset.card_filter, Finset.card_filter]
  simp only [h]
  rw [Equiv.sum_comp π (fun t : Fin m => if y t ≤ x then 1 else 0)]

/-- C141 (blind to order). The outcome does not depend on the order of the values: if the values of two streams (of other generators, or from other states) are the same up to their order, the
tests pass or fail alike. So values that depend on one another, such as an increasing sequence, are accepted if their shares are right. -/
theorem C141_order_blind {erfc : EReal → ℝ} {sched sched' : List Nat} {G : Gen N K W ℝ} {N' : Nat} {K' W' : Type} {G' : Gen N' K' W' ℝ} {num : Int} {sig : ℚ} {sd : ScalarDist}
    {state : RNGState N K} {state' : RNGState N' K'} (he : IsErfc erfc) (hG : G.Ok) (hG' : G'.Ok) (hnum : 8 ≤ num ∧ num ≤ 2 ^ 24) (hs : 1 / 10 ^ 6 ≤ sig ∧ sig ≤ 5 / 100) {m : Nat}
    (hm : SmallestSize num m) (π : Equiv.Perm (Fin m)) (h : ∀ t : Fin m, familyValue G' sd state' t = familyValue G sd state (π t)) :
    M.wp (runScalarKs erfc sched G sig num sd state) () (fun o _ => M.wp (runScalarKs erfc sched' G' sig num sd state') () (fun o' _ => o' = none ↔ o = none)) := by
  obtain ⟨cv, m', sig', e, hm', -, -⟩ := lookup_exists hnum hs
  obtain rfl : m' = m := le_antisymm (hm'.2.2 _ hm.1 hm.2.1) (hm.2.2 _ hm'.1 hm'.2.1)
  refine M.wp_mono (run_decides_of he hG hnum e hm) fun o _ ho => M.wp_mono (run_decides_of he hG' hnum e hm) fun o' _ ho' => ?_
  rw [ho, ho']
  simp only [shareOf_perm (y := familyValue G sd state) (z := familyValue G' sd state') π h]

/-- C141 (errors). A number of samples or a significance level outside the tables is an error. -/
theorem C141_error {erfc : EReal → ℝ} {sched : List Nat} {G : Gen N K W ℝ} {num : Int} {sig : ℚ} {sd : ScalarDist} {state : RNGState N K} (hfit : FitsInt 32 num)
    (h : ¬ (8 ≤ num ∧ num ≤ 2 ^ 24) ∨ ¬ (1 / 10 ^ 6 ≤ sig ∧ sig ≤ 5 / 100)) : runScalarKs erfc sched G sig num sd state () = (.throw .require, ()) := by
  unfold runScalarKs
  rw [M.bind_throw]
  simp [M.lift, C113_mutator_partial hfit, C113_out_of_range h]

/-- The hypotheses are met for each family, and by the settings of the tests (test/test_basic_rng/test_continuous.cc:123-167). -/
example {erfc : EReal → ℝ} (he : IsErfc erfc) : ∃ (cv : ℚ) (m : Nat) (sig' : ℚ), SmallestSize 100000 m ∧ LargestLevel (1 / 10 ^ 6) sig' ∧
    (¬ ((1 : ℚ) / 10 ^ 5 ≤ 1 / 10 ^ 6 ∧ (1 : ℚ) / 10 ^ 6 < 1 / 10 ^ 4 ∧ 2 ^ 23 < (100000 : Int)) → KsCritical m sig' cv) ∧
      M.wp (runScalarKs erfc [0, 1] midGenR (1 / 10 ^ 6) 100000 .Uniform ⟨0, 7⟩) () (fun o _ => o = none ↔ ∀ y : ℝ,
        |shareOf m (fun t => stream midGenR ⟨0, 7⟩ t ≤ y) - max 0 (min 1 ((y + 1) / 2))| ≤ cv) :=
  C141_uniform he (Or.inr rfl) (by norm_num) (by norm_num)

example {erfc : EReal → ℝ} (he : IsErfc erfc) : ∃ (cv : ℚ) (m : Nat) (sig' : ℚ), SmallestSize 1000 m ∧ LargestLevel (1 / 100) sig' ∧
    (¬ ((1 : ℚ) / 10 ^ 5 ≤ 1 / 100 ∧ (1 : ℚ) / 100 < 1 / 10 ^ 4 ∧ 2 ^ 23 < (1000 : Int)) → KsCritical m sig' cv) ∧
      M.wp (runScalarKs erfc [0, 1] midGenR (1 / 100) 1000 .Gaussian ⟨0, 7⟩) () (fun o _ => o = none ↔ ∀ x : ℝ,
        |shareOf m (fun t => genValue midGenR .Gaussian (0 + (((t : Int) / midGenR.len : Int) : ZMod (2 ^ 128))) 7 ((t : Int) % midGenR.len) ≤ x) -
          (ProbabilityTheory.gaussianReal 0 1 (Set.Iic x)).toReal| ≤ cv) :=
  C141_gaussian (state := ⟨0, 7⟩) he (Or.inr rfl) (by norm_num) (by norm_num)

/-- A generator and the one that exchanges the first two words: the uniform values 0 and 1 of the stream change places. -/
example {erfc : EReal → ℝ} (he : IsErfc erfc) : ∃ (G' : Gen (2 ^ 128) Nat (Fin (4 * 2 ^ 30)) ℝ), G'.word 0 7 0 = midGenR.word 0 7 1 ∧
    M.wp (runScalarKs erfc [0] midGenR (1 / 100) 8 .Uniform ⟨0, 7⟩) () (fun o _ => M.wp (runScalarKs erfc [0] G' (1 / 100) 8 .Uniform ⟨0, 7⟩) () (fun o' _ => o' = none ↔ o = none)) := by
  refine ⟨{ midGenR with word := fun c k i => if c = 0 ∧ i = 0 then midGenR.word c k 1 else if c = 0 ∧ i = 1 then midGenR.word c k 0 else midGenR.word c k i }, by simp, ?_⟩
  refine C141_order_blind (m := 8) he (Or.inr rfl) (Or.inr rfl) (by norm_num) (by norm_num) ⟨⟨3, by norm_num, by norm_num, by norm_num⟩, by norm_num, fun n hn h => h⟩ (Equiv.swap 0 1) fun t => ?_
  have hl : midGenR.len = 4 := rfl
  have h10 : (1 : ZMod (2 ^ 128)) ≠ 0 := by
    have : Fact (1 < 2 ^ 128) := ⟨by norm_num⟩
    exact one_ne_zero
  fin_cases t <;> simp [familyValue, famScale, genValue, hl, Equiv.swap_apply_def] <;> norm_num [h10]

example {erfc : EReal → ℝ} : runScalarKs erfc [0, 1] midGenR (1 / 100) 7 .Gaussian ⟨0, 7⟩ () = (.throw .require, ()) :=
  C141_error (by decide) (Or.inl (by norm_num))

end RB
