import Mathlib.Data.Real.Basic
import Mathlib.Algebra.Order.Floor.Ring

/-! Rounding to nearest, for C99. A number is representable with `p` bits if it is an integer of magnitude at most `2^p` times a power of two (the exponent is not bounded). -/

namespace RB.Spec

/-- `x` is representable with `p` significant bits. -/
def Repr (p : Nat) (x : ℝ) : Prop := ∃ k e : ℤ, |k| ≤ 2 ^ p ∧ x = k * 2 ^ e

/-- `rnd` rounds every real number to a nearest representable number. Ties are broken in any way, so IEEE round-to-nearest-even is included. -/
structure Nearest (p : Nat) (rnd : ℝ → ℝ) : Prop where
  repr : ∀ x, Repr p (rnd x)
  near : ∀ x y, Repr p y → |rnd x - x| ≤ |y - x|

end RB.Spec
