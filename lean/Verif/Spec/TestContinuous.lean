import Verif.Spec.Dense
import Mathlib.Analysis.SpecialFunctions.Pow.Real

/-! # Specification for C141 -/

namespace RB.Spec
variable {N : Nat} {K W : Type}

/-- The values of the stream of a family: value `t` is made from the words at counter `t / len`; uniform values are scaled by the square root of 3. -/
noncomputable def familyValue (G : Gen N K W ℝ) (sd : ScalarDist) (state : RNGState N K) (t : Nat) : ℝ :=
  famScale sd (Real.sqrt 3) (genValue G sd (state.counter + (((t : Int) / G.len : Int) : ZMod N)) state.key ((t : Int) % G.len))

end RB.Spec
