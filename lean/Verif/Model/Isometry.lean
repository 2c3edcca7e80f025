import Verif.Model.SparseSkops
import Verif.Model.DenseSkops
import Mathlib.Analysis.SpecialFunctions.Pow.Real

/-! # Model of the `isometry_scale` members (over the real numbers instead of doubles) -/

namespace RB

/-- `sparse::isometry_scale` (RandBLAS/sparse_skops.hh:108-114). -/
noncomputable def isometryScale (majorAxis : Axis) (vecNnz dimMajor dimMinor : Int) : ℝ :=
  if majorAxis = .Short then (vecNnz : ℝ) ^ (-0.5 : ℝ) else Real.sqrt ((dimMajor : ℝ) / (vecNnz * (dimMinor : ℝ)))

/-- `SparseDist::isometry_scale` (RandBLAS/sparse_skops.hh:205). -/
noncomputable def SparseDist.isometryScale (D : SparseDist) : ℝ := RB.isometryScale D.majorAxis D.vecNnz D.dimMajor D.dimMinor

/-- `DenseDist::isometry_scale` (RandBLAS/dense_skops.hh:315). -/
noncomputable def DenseDist.isometryScale (D : DenseDist) : ℝ := (D.dimMinor : ℝ) ^ (-0.5 : ℝ)

end RB
