import Verif.Model.TestSpmm
import Verif.Spec.TestWindow
import Verif.Props.TestSpmats

/-! # Specification of the fixtures of the sparse product tests -/

namespace RB.Spec
variable {T : Type}

/-- The nonzeros of the r x c matrix `F`, if there are any and `c` is at least 2, are not all in the first column. -/
def NotOnlyFirst [Zero T] (r c : Int) (F : Int → Int → T) : Prop := 2 ≤ c → (∃ i j, InR r c i j ∧ F i j ≠ 0) → ∃ i j, InR r c i j ∧ j ≠ 0 ∧ F i j ≠ 0

/-- The object has the format. -/
def HasFmt (fmt : SpFmt) (A : SpMat T) : Prop :=
  match fmt, A with
  | .coo, .coo _ => True
  | .csc, .csc _ => True
  | .csr, .csr _ => True
  | _, _ => False

/-- `A` is an m x n sparse matrix in the format, with zero-based indices, whose entries are the nonzeros of `F`, each once. -/
def MadeFrom [Field T] [LinearOrder T] (fmt : SpFmt) (A : SpMat T) (m n : Int) (F : Int → Int → T) : Prop :=
  HasFmt fmt A ∧ spRows A = m ∧ spCols A = n ∧ spBase A = .Zero ∧ ∃ L, SpHolds A L ∧ (L.map Entry.pos).Nodup ∧ ∀ e, e ∈ L ↔ InR m n e.row e.col ∧ e.val = F e.row e.col ∧ e.val ≠ 0

/-- The matrix `F` inside its m x n range, zero outside. -/
def inside [Zero T] (m n : Int) (F : Int → Int → T) (i j : Int) : T := if 0 ≤ i ∧ i < m ∧ 0 ≤ j ∧ j < n then F i j else 0

/-- The cases in which the kernels (C31) compute the product of `op(submat(A))` with a dense matrix, in terms of the r x c matrix `F` that `op(submat(A))` is. -/
def KernelOk [Zero T] (fmt : SpFmt) (op : Op) (layout : Layout) (opB : Op) (r c : Int) (F : Int → Int → T) : Prop :=
  match fmt, op with
  | .coo, _ => NotOnlyFirst r c F
  | .csc, .NoTrans | .csr, .Trans => if layout = .RowMajor ∧ opB = .NoTrans then r < 2 ^ 31 else NotOnlyFirst r c F
  | .csr, .NoTrans | .csc, .Trans => if layout = .RowMajor ∧ opB = .NoTrans then True else c ≤ 2 ^ 31

/-- The identity matrix. -/
def eyeMat [Zero T] [One T] (i j : Int) : T := if i = j then 1 else 0

/-- The window can be used: CSC and CSR matrices only as a whole. -/
def FmtWindow (fmt : SpFmt) (m n r c ro co : Int) : Prop :=
  match fmt with
  | .coo => r ≤ m ∧ c ≤ n
  | _ => m = r ∧ n = c ∧ ro = 0 ∧ co = 0

variable {N : Nat} {K W WS R : Type} [Field T] [LinearOrder T]

/-- The random sparse matrix of a test (C126): m x n, entries nonzero with probability `p`. -/
def testMat (X : SpmmFixture N K W WS R T) (m n : Int) (p : T) (key : Nat) : Int → Int → T := inside m n (sparsifiedTest X.E.G X.E.sqrt3 (1 - p) m n ⟨0, X.keyOf key⟩)

/-- Assumptions about a fixture: those about the environment, the constant of `fill_dense` is the positive square root of 3, the tolerances are not negative. -/
structure FixtureOk (X : SpmmFixture N K W WS R T) : Prop where
  env : SkEnvOk X.E
  sq : X.E.sqrt3 * X.E.sqrt3 = 3
  pos : 0 < X.E.sqrt3
  atol : 0 ≤ X.atol
  eps : 0 ≤ X.eps

/-- The sizes of the matrix and the probability are acceptable. -/
structure SizeOk (X : SpmmFixture N K W WS R T) (m n : Int) (p : T) : Prop where
  rows : 0 < m
  cols : 0 < n
  size : m * n ≤ intMax 64
  prob : 0 ≤ p ∧ p ≤ 1
  csr : X.fmt = .csr → n ≤ 2 ^ 31

variable [Field R] [LinearOrder R] [FloorRing R]

/-- Whatever the representation of the m x n test matrix, the product `L` turns a d x n' array that holds `C` into one that holds `X'` when the other factor is `Am`, and the operator stays the
same matrix. -/
def LeftGives (X : SpmmFixture N K W WS R T) (L : LeftProduct N K T) (m n : Int) (p : T) (key : Nat) (layout : Layout) (opS opA : Op) (d n' m' : Int) (alpha : T) (ro co : Int) (Am : Int → Int → T)
    (beta : T) (C X' : Int → Int → T) : Prop :=
  ∀ A b lda ldb S, MadeFrom X.fmt S m n (testMat X m n p key) → LdOk layout lda (rowsOf opA m' n') (colsOf opA m' n') → Holds A layout lda (rowsOf opA m' n') (colsOf opA m' n') Am → LdOk layout ldb d n' →
    Holds b layout ldb d n' C → M.wp (L layout opS opA d n' m' alpha ro co A lda beta ldb) (.mat S, b)
      (fun _ s => TestOpIs X.E s.1 (testMat X m n p key) ∧ s.1.dims = (m, n) ∧ Holds s.2 layout ldb d n' X')

/-- The same for a product from the right. -/
def RightGives (X : SpmmFixture N K W WS R T) (P : RightProduct N K T) (m n : Int) (p : T) (key : Nat) (layout : Layout) (opA opS : Op) (m' d n' : Int) (alpha : T) (ro co : Int) (Am : Int → Int → T)
    (beta : T) (C X' : Int → Int → T) : Prop :=
  ∀ A b lda ldb S, MadeFrom X.fmt S m n (testMat X m n p key) → LdOk layout lda (rowsOf opA m' n') (colsOf opA m' n') → Holds A layout lda (rowsOf opA m' n') (colsOf opA m' n') Am → LdOk layout ldb m' d →
    Holds b layout ldb m' d C → M.wp (P layout opA opS m' d n' alpha A lda ro co beta ldb) (.mat S, b)
      (fun _ s => TestOpIs X.E s.1 (testMat X m n p key) ∧ s.1.dims = (m, n) ∧ Holds s.2 layout ldb m' d X')

end RB.Spec
