import Verif.Spec.Sampling
import Mathlib.Data.Finset.Card

/-! # Specification for the tests of index sampling -/

namespace RB.Spec

/-- The share of the numbers `0 .. m-1` that have a property. -/
def shareOf {R : Type} [Field R] (m : Nat) (P : Nat → Prop) [DecidablePred P] : R := (((Finset.range m).filter P).card : R) / (m : R)

/-- The result of a search through `0 .. n-1` for the first number without a property: none, or that number (as a value `f i`). -/
def FirstWithout {α : Type} (o : Option α) (n : Int) (P : Int → Prop) (f : Int → α) : Prop :=
  (o = none ∧ ∀ i, 0 ≤ i → i < n → P i) ∨ ∃ i, o = some (f i) ∧ 0 ≤ i ∧ i < n ∧ ¬ P i ∧ ∀ j, 0 ≤ j → j < i → P j

end RB.Spec
