import Verif.Model.TestLinopMore
import Verif.Model.TestSpmats

/-!
# Model of the fixtures of the sparse product tests (test/test_matmul_cores/test_spmm/)

The random sparse matrix of a test in each of the three formats, and the test functions of `TestLeftMultiply_Sparse` and `TestRightMultiply_Sparse`. The product under test is a parameter.
-/

namespace RB
variable {N : Nat} {K W WS R T : Type}

/-- The three sparse matrix types that the fixtures are instantiated with (test/test_matmul_cores/test_spmm/test_spmm_coo.cc:39, test/test_matmul_cores/test_spmm/test_spmm_csc.cc:40, test/test_matmul_cores/test_spmm/test_spmm_csr.cc:40). -/
inductive SpFmt where
  | coo
  | csc
  | csr

/-- What the fixtures depend on besides their arguments: the environment, the default tolerances `atol` and `rtol` of `matrices_approx_equal`, the machine precision, the schedules of the two
parallel loops that create the matrix, the format, and the conversion of an integer to a key by `RNGState(key)`. Used to model test/test_matmul_cores/test_spmm/test_spmm_coo.cc:40-49. -/
structure SpmmFixture (N : Nat) (K W WS R T : Type) where
  E : SkEnv N K W WS R T
  atol : T
  rtol : T
  eps : T
  s1 : List Nat
  s2 : List Nat
  fmt : SpFmt
  keyOf : Nat → K

/-- A product `alpha * op(submat(S)) * op(A) + beta * B` from the left (the arguments of `left_apply`, test/test_matmul_cores/linop_common.hh:135-180). -/
abbrev LeftProduct (N : Nat) (K T : Type) := Layout → Op → Op → Int → Int → Int → T → Int → Int → Buf T → Int → T → Int → M (TestOp N K T × Buf T) Unit

/-- A product `alpha * op(A) * op(submat(S)) + beta * B` from the right (the arguments of `right_apply`, test/test_matmul_cores/linop_common.hh:461-504). -/
abbrev RightProduct (N : Nat) (K T : Type) := Layout → Op → Op → Int → Int → Int → T → Buf T → Int → Int → Int → T → Int → M (TestOp N K T × Buf T) Unit

section
variable [Field T] [LinearOrder T]

/-- `make_test_matrix` (test/test_matmul_cores/test_spmm/test_spmm_coo.cc:40-49, 238-247, test/test_matmul_cores/test_spmm/test_spmm_csc.cc:41-50, 210-219, test/test_matmul_cores/test_spmm/test_spmm_csr.cc:41-50, 210-219). -/
def makeTestMatrix (X : SpmmFixture N K W WS R T) (m n : Int) (p : T) (key : Nat) : M Unit (SpMat T) := do
  M.require (p ≥ 0)
  M.require (p ≤ 1)
  let actual ← M.onLocal (iidSparsifyLayout X.s1 X.s2 X.E.G X.E.sqrt3 m n .ColMajor (1 - p) ⟨0, X.keyOf key⟩) (zeroVec (m * n))
  match X.fmt with
  | .coo => do
    let A ← M.onLocal (denseToCoo .ColMajor actual.2 0) (mkCoo m n)
    pure (.coo A.2)
  | .csc => do
    let A ← M.onLocal (denseToCsc .ColMajor actual.2 0) (mkCsc m n)
    pure (.csc A.2)
  | .csr => do
    let A ← M.onLocal (denseToCsr .ColMajor actual.2 0) (mkCsr m n)
    pure (.csr A.2)

/-- A test with the matrix as operator (test/test_matmul_cores/test_spmm/spmm_test_helpers.hh:60-61 and the other functions). -/
def withTestMatrix {α : Type} (X : SpmmFixture N K W WS R T) (m n : Int) (p : T) (key : Nat) (test : M (TestOp N K T) α) : M Unit α := do
  let A ← makeTestMatrix X m n p key
  let r ← M.onLocal test (TestOp.mat A)
  pure r.1

variable [Field R] [LinearOrder R] [FloorRing R]

/-! ## From the left -/

/-- `TestLeftMultiply_Sparse::multiply_eye` (test/test_matmul_cores/test_spmm/spmm_test_helpers.hh:59-62); the seed of the data is in test/test_matmul_cores/linop_common.hh:308. -/
def leftMultiplyEye (X : SpmmFixture N K W WS R T) (L : LeftProduct N K T) (key : Nat) (m n : Int) (layout : Layout) (p : T) : M Unit (Option (Int × Int)) :=
  withTestMatrix X m n p key (testLeftEye X.E X.atol X.rtol ⟨0, X.keyOf 42⟩ (fun A lda ldb => L layout .NoTrans .NoTrans m n n 1 0 0 A lda 0 ldb) 1 m n 0 0 layout 0)

/-- `TestLeftMultiply_Sparse::alpha_beta` (test/test_matmul_cores/test_spmm/spmm_test_helpers.hh:64-68). -/
def leftAlphaBeta (X : SpmmFixture N K W WS R T) (L : LeftProduct N K T) (key : Nat) (alpha beta : T) (m n : Int) (layout : Layout) (p : T) : M Unit (Option (Int × Int)) := do
  M.require (alpha ≠ 1 ∨ beta ≠ 0)
  withTestMatrix X m n p key (testLeftEye X.E X.atol X.rtol ⟨0, X.keyOf 42⟩ (fun A lda ldb => L layout .NoTrans .NoTrans m n n alpha 0 0 A lda beta ldb) alpha m n 0 0 layout beta)

/-- `TestLeftMultiply_Sparse::transpose_self` (test/test_matmul_cores/test_spmm/spmm_test_helpers.hh:70-73). -/
def leftTransposeSelf (X : SpmmFixture N K W WS R T) (L : LeftProduct N K T) (key : Nat) (m n : Int) (layout : Layout) (p : T) : M Unit (Option (Int × Int)) :=
  withTestMatrix X m n p key (testLeftTransEye X.E X.atol X.rtol (fun A lda ldb => L layout .Trans .NoTrans n m m 1 0 0 A lda 0 ldb) layout)

/-- `TestLeftMultiply_Sparse::submatrix_self` (test/test_matmul_cores/test_spmm/spmm_test_helpers.hh:75-90). -/
def leftSubmatrixSelf (X : SpmmFixture N K W WS R T) (L : LeftProduct N K T) (key : Nat) (d m d0 m0 ro co : Int) (layout : Layout) (p : T) : M Unit (Option (Int × Int)) := do
  M.require (d0 > d)
  M.require (m0 > m)
  withTestMatrix X d0 m0 p key (testLeftEye X.E X.atol X.rtol ⟨0, X.keyOf 42⟩ (fun A lda ldb => L layout .NoTrans .NoTrans d m m 1 ro co A lda 0 ldb) 1 d m ro co layout 0)

/-- `TestLeftMultiply_Sparse::submatrix_other` (test/test_matmul_cores/test_spmm/spmm_test_helpers.hh:92-108); the seed is in test/test_matmul_cores/linop_common.hh:388. The matrix is created before the
arguments are checked. -/
def leftSubmatrixOther (X : SpmmFixture N K W WS R T) (L : LeftProduct N K T) (key : Nat) (d m n m0 n0 ro co : Int) (layout : Layout) (p : T) : M Unit (Option Int) := do
  let A ← makeTestMatrix X d m p key
  M.require (m0 > m)
  M.require (n0 > n)
  let r ← M.onLocal (testLeftSubmatrix X.E X.eps ⟨0, X.keyOf 13⟩ (fun A lda ldb => L layout .NoTrans .NoTrans d n m 1 0 0 A lda 0 ldb) n m0 n0 ro co layout) (TestOp.mat A)
  pure r.1

/-- `TestLeftMultiply_Sparse::transpose_other` (test/test_matmul_cores/test_spmm/spmm_test_helpers.hh:110-120); the seed is in test/test_matmul_cores/linop_common.hh:424. -/
def leftTransposeOther (X : SpmmFixture N K W WS R T) (L : LeftProduct N K T) (key : Nat) (d m n : Int) (layout : Layout) (p : T) : M Unit (Option Int) :=
  withTestMatrix X d m p key (testLeftTransposed X.E X.eps ⟨0, X.keyOf 101⟩ (fun A lda ldb => L layout .NoTrans .Trans d n m 1 0 0 A lda 0 ldb) n layout)

/-! ## From the right -/

/-- `TestRightMultiply_Sparse::multiply_eye` (test/test_matmul_cores/test_spmm/spmm_test_helpers.hh:139-142); the seed is in test/test_matmul_cores/linop_common.hh:588. -/
def rightMultiplyEye (X : SpmmFixture N K W WS R T) (P : RightProduct N K T) (key : Nat) (m n : Int) (layout : Layout) (p : T) : M Unit (Option (Int × Int)) :=
  withTestMatrix X m n p key (testRightEye X.E X.atol X.rtol ⟨0, X.keyOf 11⟩ (fun A lda ldb => P layout .NoTrans .NoTrans m n m 1 A lda 0 0 0 ldb) 1 m n 0 0 layout 0)

/-- `TestRightMultiply_Sparse::alpha_beta` (test/test_matmul_cores/test_spmm/spmm_test_helpers.hh:144-147). -/
def rightAlphaBeta (X : SpmmFixture N K W WS R T) (P : RightProduct N K T) (key : Nat) (alpha beta : T) (m n : Int) (layout : Layout) (p : T) : M Unit (Option (Int × Int)) :=
  withTestMatrix X m n p key (testRightEye X.E X.atol X.rtol ⟨0, X.keyOf 11⟩ (fun A lda ldb => P layout .NoTrans .NoTrans m n m alpha A lda 0 0 beta ldb) alpha m n 0 0 layout beta)

/-- `TestRightMultiply_Sparse::transpose_self` (test/test_matmul_cores/test_spmm/spmm_test_helpers.hh:149-152). -/
def rightTransposeSelf (X : SpmmFixture N K W WS R T) (P : RightProduct N K T) (key : Nat) (m n : Int) (layout : Layout) (p : T) : M Unit (Option (Int × Int)) :=
  withTestMatrix X m n p key (testRightTransEye X.E X.atol X.rtol (fun A lda ldb => P layout .NoTrans .Trans n m n 1 A lda 0 0 0 ldb) layout)

/-- `TestRightMultiply_Sparse::submatrix_self` (test/test_matmul_cores/test_spmm/spmm_test_helpers.hh:154-167). -/
def rightSubmatrixSelf (X : SpmmFixture N K W WS R T) (P : RightProduct N K T) (key : Nat) (d m d0 m0 ro co : Int) (layout : Layout) (p : T) : M Unit (Option (Int × Int)) :=
  withTestMatrix X m0 d0 p key (testRightEye X.E X.atol X.rtol ⟨0, X.keyOf 11⟩ (fun A lda ldb => P layout .NoTrans .NoTrans m d m 1 A lda ro co 0 ldb) 1 m d ro co layout 0)

/-- `TestRightMultiply_Sparse::transpose_other` (test/test_matmul_cores/test_spmm/spmm_test_helpers.hh:169-179); the seed is in test/test_matmul_cores/linop_common.hh:678. -/
def rightTransposeOther (X : SpmmFixture N K W WS R T) (P : RightProduct N K T) (key : Nat) (d n m : Int) (layout : Layout) (p : T) : M Unit (Option Int) :=
  withTestMatrix X n d p key (testRightTransposed X.E X.eps ⟨0, X.keyOf 0⟩ (fun A lda ldb => P layout .Trans .NoTrans m d n 1 A lda 0 0 0 ldb) m layout)

/-- `TestRightMultiply_Sparse::submatrix_other` (test/test_matmul_cores/test_spmm/spmm_test_helpers.hh:181-195); the seed is in test/test_matmul_cores/linop_common.hh:649. -/
def rightSubmatrixOther (X : SpmmFixture N K W WS R T) (P : RightProduct N K T) (key : Nat) (d m n m0 n0 ro co : Int) (layout : Layout) (p : T) : M Unit (Option Int) :=
  withTestMatrix X n d p key (testRightSubmatrix X.E X.eps ⟨0, X.keyOf 1⟩ (fun A lda ldb => P layout .NoTrans .NoTrans m d n 1 A lda 0 0 0 ldb) m m0 n0 ro co layout)

end

end RB
