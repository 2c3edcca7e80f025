import Verif.Spec.TestLinop

/-! # Operators that a product test can be run with: windows and transposes -/

namespace RB.Spec
variable {N : Nat} {K W WS R T : Type}

/-- The operator is `Sm` and one of those for which C31, C36 and C37 describe `op(submat(S)) * op(A)` from the left, where `op(submat(S))` is d x m. -/
def LeftUsable [Field R] [LinearOrder R] [FloorRing R] [Ring T] (E : SkEnv N K W WS R T) (alpha : T) (layout : Layout) (opS opA : Op) (S : TestOp N K T) (Sm : Int → Int → T) (d m ro co : Int) : Prop :=
  TestOpIs E S Sm ∧
  match S with
  | .dense S => LeftOk E alpha (.dense S) Sm opS d m ro co
  | .sparse S => LeftOk E alpha (.sparse S) Sm opS d m ro co
  | .mat A => ∃ L, SpHolds A L ∧ Copyable A L ∧ spBase A = .Zero ∧ InRange (spRows A) (spCols A) L ∧ (L.map Entry.pos).Nodup ∧ toMat L = Sm ∧
      WindowOk A (rowsOf opS d m) (colsOf opS d m) ro co ∧
      (alpha ≠ 0 → Supported A opS layout opA d m (opEntries opS (window ro co (rowsOf opS d m) (colsOf opS d m) L)))

/-- The same for `op(A) * op(submat(S))` from the right, where `op(submat(S))` is n x d. A sparse operator has been filled. -/
def RightUsable [Field R] [LinearOrder R] [FloorRing R] [Ring T] (E : SkEnv N K W WS R T) (alpha : T) (layout : Layout) (opA opS : Op) (S : TestOp N K T) (Sm : Int → Int → T) (n d ro co : Int) : Prop :=
  TestOpIs E S Sm ∧
  match S with
  | .dense S => RightOk E alpha (.dense S) Sm opS n d ro co
  | .sparse S => RightOk E alpha (.sparse S) Sm opS n d ro co
  | .mat A => ∃ L, SpHolds A L ∧ Copyable A L ∧ spBase A = .Zero ∧ InRange (spRows A) (spCols A) L ∧ (L.map Entry.pos).Nodup ∧ toMat L = Sm ∧
      WindowOk A (rowsOf opS n d) (colsOf opS n d) ro co ∧
      (alpha ≠ 0 → Supported A opS.flip layout.flip opA d n (opEntries opS.flip (window ro co (rowsOf opS n d) (colsOf opS n d) L)))

end RB.Spec
