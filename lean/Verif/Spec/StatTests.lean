import Mathlib.Data.Finset.Powerset
import Mathlib.Analysis.Complex.Exponential

/-!
# Specifications for the statistical test helpers

Stated without the tables and the helper functions of the model.
-/

namespace RB.Spec

/-- The sample sizes that the critical values are tabulated for: the powers of two from `8` to `2^24`. -/
def KsSize (n : Int) : Prop := ∃ k : Nat, 3 ≤ k ∧ k ≤ 24 ∧ n = 2 ^ k

/-- The significance levels that the critical values are tabulated for: `0.05` and `10^-2, ..., 10^-6`. -/
def KsLevel (a : ℚ) : Prop := a = 5 / 100 ∨ ∃ k : Nat, 2 ≤ k ∧ k ≤ 6 ∧ a = 1 / 10 ^ k

/-- `n'` is the smallest tabulated sample size that is at least `n`. -/
def SmallestSize (n n' : Int) : Prop := KsSize n' ∧ n ≤ n' ∧ ∀ m, KsSize m → n ≤ m → n' ≤ m

/-- `a'` is the largest tabulated level that is at most `a` (the weakest one that is at least as strict). -/
def LargestLevel (a a' : ℚ) : Prop := KsLevel a' ∧ a' ≤ a ∧ ∀ b, KsLevel b → b ≤ a → b ≤ a'

/-- `c` is a critical value of the two-sided Kolmogorov-Smirnov test with `n` samples and significance level `a`, up to `1/n`: by the
inequality of Dvoretzky, Kiefer, Wolfowitz and Massart the statistic exceeds `d` with probability at most `2 exp(-2 n d^2)`; this bound is
at least `a` for `d = c` and at most `a` for `d = c + 1/n`. -/
def KsCritical (n : Int) (a c : ℝ) : Prop :=
  0 < c ∧ c < 1 ∧ a ≤ 2 * Real.exp (-2 * n * c ^ 2) ∧ 2 * Real.exp (-2 * n * (c + 1 / n) ^ 2) ≤ a

/-- The empirical distribution function of a list of real samples: the fraction of samples that are at most `x`. -/
noncomputable def empCdf (samples : List ℝ) (x : ℝ) : ℝ := (samples.filter (fun s => decide (s ≤ x))).length / samples.length

/-- The empirical distribution function of a list of integer samples. -/
def empCdfInt {R : Type} [Field R] (samples : List Int) (x : Int) : R :=
  ((samples.filter (fun s => decide (s ≤ x))).length : R) / (samples.length : R)

/-- The probability that a uniformly random subset of `D` out of `N` elements contains exactly `k` of the first `K` elements: favourable
subsets over all subsets. -/
noncomputable def hyperProb (N K D k : ℕ) : ℝ :=
  (((Finset.range N).powersetCard D).filter (fun S => (S.filter (fun x => x < K)).card = k)).card /
    (((Finset.range N).powersetCard D).card : ℝ)

end RB.Spec
