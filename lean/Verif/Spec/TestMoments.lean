import Verif.Model.TestMoments
import Mathlib.Algebra.BigOperators.Group.Finset.Basic
import Mathlib.Data.Real.Basic

/-! # Specification: the sample mean and the sample variance of the entries of a matrix -/

namespace RB.Spec
open Finset

/-- The mean of the entries of an m x n matrix. -/
noncomputable def sampleMean (m n : Int) (A : Int → Int → ℝ) : ℝ := (∑ i ∈ range m.toNat, ∑ j ∈ range n.toNat, A i j) / (m * n)

/-- The sample variance of the entries of an m x n matrix: the sum of the squares of the deviations from the mean, divided by the number of entries less one. -/
noncomputable def sampleVariance (m n : Int) (A : Int → Int → ℝ) : ℝ := (∑ i ∈ range m.toNat, ∑ j ∈ range n.toNat, (A i j - sampleMean m n A) ^ 2) / (m * n - 1)

end RB.Spec
