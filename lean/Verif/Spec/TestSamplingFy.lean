import Verif.Spec.TestSampling
import Verif.Spec.StatTests
import Mathlib.Data.Real.Basic

/-! # Specification for the test of sampling without replacement -/

namespace RB.Spec
open Finset

/-- Among `m` draws of `k` indices each (draw `s` is `x (s k), ..., x (s k + k - 1)`): the distance at `c` between the share of the draws with at most `c` indices below `k` and the
probability that a random `k`-subset of `n` elements has at most `c` of the first `k` elements. -/
noncomputable def fyDistance (x : Int → Int) (n k m c : ℕ) : ℝ :=
  |∑ l ∈ range (c + 1), hyperProb n k k l - shareOf m (fun s => ((range k).filter fun j => x ((s : Int) * k + (j : ℕ)) < k).card ≤ c)|

/-- The result `r` of the test: -1 exactly if no distance exceeds the critical value; otherwise the first `c` where it does. -/
def FyKsOutcome (x : Int → Int) (n k m : ℕ) (cv : ℝ) (r : Int) : Prop :=
  (r = -1 ∧ ∀ c, c ≤ k → fyDistance x n k m c ≤ cv) ∨ ∃ c : ℕ, r = c ∧ c ≤ k ∧ cv < fyDistance x n k m c ∧ ∀ d, d < c → fyDistance x n k m d ≤ cv

end RB.Spec
