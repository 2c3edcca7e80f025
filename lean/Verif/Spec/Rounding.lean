import Verif.Spec.Spmm
import Mathlib.Data.Real.Basic

/-! # Specification: floating-point numbers and error bounds -/

namespace RB.Spec

/-- The standard model of floating-point arithmetic: `val x` is the real number that `x` stands for, and every sum and product is the exact
one up to a relative error of at most `u`. (This is what IEEE arithmetic provides as long as nothing overflows or underflows.) Comparisons
with 0 and 1 are exact. -/
structure Rounding (F : Type) [Zero F] [One F] [Add F] [Mul F] [BEq F] (val : F → ℝ) (u : ℝ) : Prop where
  nonneg : 0 ≤ u
  zero : val 0 = 0
  one : val 1 = 1
  add : ∀ x y, |val (x + y) - (val x + val y)| ≤ u * |val x + val y|
  mul : ∀ x y, |val (x * y) - val x * val y| ≤ u * |val x * val y|
  beq_zero : ∀ x : F, (x == 0) = true ↔ val x = 0
  beq_one : ∀ x : F, (x == 1) = true ↔ val x = 1

/-- The stored entries with other values. -/
def mapEntries {F R : Type} (f : F → R) (E : List (Entry F)) : List (Entry R) := E.map fun e => ⟨e.row, e.col, f e.val⟩

/-- The number of stored entries in row `i`. -/
def rowCount {F : Type} (E : List (Entry F)) (i : Int) : Nat := (E.filter fun e => e.row = i).length

/-- The relative error of `n` roundings. -/
noncomputable def gam (u : ℝ) (n : Nat) : ℝ := (1 + u) ^ n - 1

end RB.Spec
