import Verif.Model.TestSkge
import Verif.Spec.TestSpmm
import Verif.Props.SketchUpdates

/-! # Specification: the operators of the sketching kernel tests -/

namespace RB.Spec
variable {N : Nat} {K W WS R T : Type} [Field T] [LinearOrder T] [Field R] [LinearOrder R] [FloorRing R]

/-- `Sm` is the matrix that the distribution and the key of a test determine. -/
def IsTestMat (F : SkgeFixture N K W WS R T) (kind : OpKind) (nRows nCols : Int) (key : Nat) (Sm : Int → Int → T) : Prop :=
  match kind with
  | .dense _ => ∃ D, mkDenseDist nRows nCols .Gaussian .Long = .ok D ∧ Samples F.E.G F.E.sqrt3 D ⟨0, F.keyOf key⟩ Sm
  | .sparse vecNnz axis _ => ∃ D, mkSparseDist nRows nCols vecNnz axis = .ok D ∧ SparseSamples F.E.GS F.E.sqrt D ⟨0, F.keyOf key⟩ Sm

/-- `S` was made from the distribution and the key, and has been filled or not as the test says. -/
def MadeOp (F : SkgeFixture N K W WS R T) (kind : OpKind) (nRows nCols : Int) (key : Nat) (S : TestOp N K T) : Prop :=
  match kind, S with
  | .dense fill, .dense S => ∃ D, mkDenseDist nRows nCols .Gaussian .Long = .ok D ∧ DenseFrom F.E D ⟨0, F.keyOf key⟩ S ∧ S.buff.isSome = fill
  | .sparse vecNnz axis fill, .sparse S => ∃ D, mkSparseDist nRows nCols vecNnz axis = .ok D ∧
      if fill then fillSparse F.E.GS F.E.sqrt F.E.order (mkSparseSkOp F.E.GS.len D ⟨0, F.keyOf key⟩) = (.ok (), S) else S = mkSparseSkOp F.E.GS.len D ⟨0, F.keyOf key⟩
  | _, _ => False

/-- The operator can be made: positive sizes, arrays that can be addressed; for sparse operators also an acceptable number of nonzeros per vector, and uniform numbers in [0, 1) if the major axis is long. -/
def OpOk (F : SkgeFixture N K W WS R T) (kind : OpKind) (nRows nCols : Int) (key : Nat) : Prop :=
  0 < nRows ∧ 0 < nCols ∧
  match kind with
  | .dense _ => nRows * nCols ≤ intMax 64
  | .sparse vecNnz .Short _ => 0 < vecNnz ∧ vecNnz ≤ min nRows nCols ∧ 2 * (vecNnz * max nRows nCols) ≤ intMax 64
  | .sparse vecNnz .Long _ => 0 < vecNnz ∧ vecNnz ≤ max nRows nCols ∧ 2 * (vecNnz * min nRows nCols) ≤ intMax 64 ∧
      ∀ c t, 0 ≤ unif01 F.E.GS (advance ⟨0, F.keyOf key⟩ c) t ∧ unif01 F.E.GS (advance ⟨0, F.keyOf key⟩ c) t < 1

/-- A sparse operator is filled before it is used. -/
def FilledFirst (kind : OpKind) : Prop :=
  match kind with
  | .dense _ => True
  | .sparse _ _ fill => fill = true

/-- The environment and the tolerances are as the tests assume. -/
structure SkgeOk (F : SkgeFixture N K W WS R T) : Prop where
  env : SkEnvOk F.E
  atol : 0 ≤ F.atol
  eps : 0 ≤ F.eps

/-- The product under test turns a d x n array that holds `C` into one that holds `X'` when the other factor is `Am`, and the operator stays the same matrix. -/
def LeftOpGives (F : SkgeFixture N K W WS R T) (L : LeftProduct N K T) (kind : OpKind) (nRows nCols : Int) (key : Nat) (Sm : Int → Int → T) (layout : Layout) (opS opA : Op) (d n m : Int) (alpha : T)
    (ro co : Int) (Am : Int → Int → T) (beta : T) (C X' : Int → Int → T) : Prop :=
  ∀ A b lda ldb S, MadeOp F kind nRows nCols key S → LdOk layout lda (rowsOf opA m n) (colsOf opA m n) → Holds A layout lda (rowsOf opA m n) (colsOf opA m n) Am → LdOk layout ldb d n →
    Holds b layout ldb d n C → M.wp (L layout opS opA d n m alpha ro co A lda beta ldb) (S, b)
      (fun _ s => TestOpIs F.E s.1 Sm ∧ s.1.dims = (nRows, nCols) ∧ Holds s.2 layout ldb d n X')

/-- The same for a product from the right. -/
def RightOpGives (F : SkgeFixture N K W WS R T) (P : RightProduct N K T) (kind : OpKind) (nRows nCols : Int) (key : Nat) (Sm : Int → Int → T) (layout : Layout) (opA opS : Op) (m d n : Int) (alpha : T)
    (ro co : Int) (Am : Int → Int → T) (beta : T) (C X' : Int → Int → T) : Prop :=
  ∀ A b lda ldb S, MadeOp F kind nRows nCols key S → LdOk layout lda (rowsOf opA m n) (colsOf opA m n) → Holds A layout lda (rowsOf opA m n) (colsOf opA m n) Am → LdOk layout ldb m d →
    Holds b layout ldb m d C → M.wp (P layout opA opS m d n alpha A lda ro co beta ldb) (S, b)
      (fun _ s => TestOpIs F.E s.1 Sm ∧ s.1.dims = (nRows, nCols) ∧ Holds s.2 layout ldb m d X')

/-- What the kernels for sparse operators need (C37): a matrix with two or more columns has a nonzero outside the first. -/
def SeesMore (kind : OpKind) (r c : Int) (M : Int → Int → T) : Prop :=
  match kind with
  | .dense _ => True
  | .sparse _ _ _ => 2 ≤ c → ∃ i j, InR r c i j ∧ j ≠ 0 ∧ M i j ≠ 0

end RB.Spec
