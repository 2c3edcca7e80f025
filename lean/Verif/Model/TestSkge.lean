import Verif.Model.TestSpmm
import Verif.Model.TestSketchSparse

/-!
# Model of the fixtures of the sketching kernel tests (test/test_matmul_cores/test_lskge3.cc, test_rskge3.cc, test_lskges.cc, test_rskges.cc)

The operator of a test and the test functions of `TestLSKGE3`, `TestRSKGE3`, `TestLSKGES` and `TestRSKGES`. The product under test is a parameter. The number of threads (`apply`) is not modelled.
-/

namespace RB
variable {N : Nat} {K W WS R T : Type}

/-- What the fixtures depend on besides their arguments: the environment, the default tolerances `atol` and `rtol` of `matrices_approx_equal`, the machine precision, and the conversion of an integer
to a key by `RNGState(key)`. Used to model test/test_matmul_cores/test_lskge3.cc:53-56. -/
structure SkgeFixture (N : Nat) (K W WS R T : Type) where
  E : SkEnv N K W WS R T
  atol : T
  rtol : T
  eps : T
  keyOf : Nat → K

/-- The operator that a fixture creates: `DenseDist D(..); DenseSkOp<T> S0(D, seed);` (test/test_matmul_cores/test_lskge3.cc:53-54) or `SparseDist D0(.., vec_nnz, major_axis); SparseSkOp<T> S0(D0, key);`
(test/test_matmul_cores/test_lskges.cc:60-61), and whether it is filled before it is used. -/
inductive OpKind where
  | dense (fill : Bool)
  | sparse (vecNnz : Int) (axis : Axis) (fill : Bool)

section
variable [Field T] [LinearOrder T] [Field R] [LinearOrder R] [FloorRing R]

/-- The first statements of the fixtures (test/test_matmul_cores/test_lskge3.cc:53-56, test/test_matmul_cores/test_lskges.cc:60-61, test/test_matmul_cores/test_rskges.cc:58-60). -/
def makeTestOp (F : SkgeFixture N K W WS R T) (kind : OpKind) (nRows nCols : Int) (key : Nat) : M Unit (TestOp N K T) :=
  match kind with
  | .dense fill => do
    let S ← fixtureOp F.E nRows nCols ⟨0, F.keyOf key⟩ fill
    pure (.dense S)
  | .sparse vecNnz axis fill => do
    let D ← M.lift (mkSparseDist nRows nCols vecNnz axis)
    if fill then
      let r ← M.onLocal (fillSparse F.E.GS F.E.sqrt F.E.order) (mkSparseSkOp F.E.GS.len D ⟨0, F.keyOf key⟩)
      pure (.sparse r.2)
    else
      pure (.sparse (mkSparseSkOp F.E.GS.len D ⟨0, F.keyOf key⟩))

/-- A test with this operator (the last statement of each fixture). Used to model test/test_matmul_cores/test_lskge3.cc:46-58. -/
def withTestOp {α : Type} (F : SkgeFixture N K W WS R T) (kind : OpKind) (nRows nCols : Int) (key : Nat) (test : M (TestOp N K T) α) : M Unit α := do
  let S ← makeTestOp F kind nRows nCols key
  let r ← M.onLocal test S
  pure r.1

/-! ## Dense operators from the left -/

/-- `TestLSKGE3::sketch_eye` (test/test_matmul_cores/test_lskge3.cc:46-58); the seed of the data is in test/test_matmul_cores/linop_common.hh:308. -/
def lskge3Eye (F : SkgeFixture N K W WS R T) (L : LeftProduct N K T) (key : Nat) (m d : Int) (preallocate : Bool) (layout : Layout) : M Unit (Option (Int × Int)) :=
  withTestOp F (.dense preallocate) d m key (testLeftEye F.E F.atol F.rtol ⟨0, F.keyOf 42⟩ (fun A lda ldb => L layout .NoTrans .NoTrans d m m 1 0 0 A lda 0 ldb) 1 d m 0 0 layout 0)

/-- `TestLSKGE3::transpose_S` (test/test_matmul_cores/test_lskge3.cc:61-71). -/
def lskge3Transpose (F : SkgeFixture N K W WS R T) (L : LeftProduct N K T) (key : Nat) (m d : Int) (layout : Layout) : M Unit (Option (Int × Int)) :=
  withTestOp F (.dense true) m d key (testLeftTransEye F.E F.atol F.rtol (fun A lda ldb => L layout .Trans .NoTrans d m m 1 0 0 A lda 0 ldb) layout)

/-- `TestLSKGE3::submatrix_S` (test/test_matmul_cores/test_lskge3.cc:74-89). -/
def lskge3SubmatrixS (F : SkgeFixture N K W WS R T) (L : LeftProduct N K T) (key : Nat) (d m d0 m0 ro co : Int) (layout : Layout) : M Unit (Option (Int × Int)) := do
  M.require (d0 > d)
  M.require (m0 > m)
  withTestOp F (.dense false) d0 m0 key (testLeftEye F.E F.atol F.rtol ⟨0, F.keyOf 42⟩ (fun A lda ldb => L layout .NoTrans .NoTrans d m m 1 ro co A lda 0 ldb) 1 d m ro co layout 0)

/-- `TestLSKGE3::submatrix_A` (test/test_matmul_cores/test_lskge3.cc:92-108); the seed of the data is in test/test_matmul_cores/linop_common.hh:388. -/
def lskge3SubmatrixA (F : SkgeFixture N K W WS R T) (L : LeftProduct N K T) (key : Nat) (d m n m0 n0 ro co : Int) (layout : Layout) : M Unit (Option Int) := do
  M.require (m0 > m)
  M.require (n0 > n)
  withTestOp F (.dense false) d m key (testLeftSubmatrix F.E F.eps ⟨0, F.keyOf 13⟩ (fun A lda ldb => L layout .NoTrans .NoTrans d n m 1 0 0 A lda 0 ldb) n m0 n0 ro co layout)

/-! ## Dense operators from the right -/

/-- `TestRSKGE3::sketch_eye` (test/test_matmul_cores/test_rskge3.cc:47-59); the seed of the data is in test/test_matmul_cores/linop_common.hh:588. -/
def rskge3Eye (F : SkgeFixture N K W WS R T) (P : RightProduct N K T) (key : Nat) (m d : Int) (preallocate : Bool) (layout : Layout) : M Unit (Option (Int × Int)) :=
  withTestOp F (.dense preallocate) m d key (testRightEye F.E F.atol F.rtol ⟨0, F.keyOf 11⟩ (fun A lda ldb => P layout .NoTrans .NoTrans m d m 1 A lda 0 0 0 ldb) 1 m d 0 0 layout 0)

/-- `TestRSKGE3::transpose_S` (test/test_matmul_cores/test_rskge3.cc:62-71). -/
def rskge3Transpose (F : SkgeFixture N K W WS R T) (P : RightProduct N K T) (key : Nat) (m d : Int) (layout : Layout) : M Unit (Option (Int × Int)) :=
  withTestOp F (.dense false) d m key (testRightTransEye F.E F.atol F.rtol (fun A lda ldb => P layout .NoTrans .Trans m d m 1 A lda 0 0 0 ldb) layout)

/-- `TestRSKGE3::submatrix_S` (test/test_matmul_cores/test_rskge3.cc:74-87). -/
def rskge3SubmatrixS (F : SkgeFixture N K W WS R T) (P : RightProduct N K T) (key : Nat) (d m d0 m0 ro co : Int) (layout : Layout) : M Unit (Option (Int × Int)) :=
  withTestOp F (.dense false) m0 d0 key (testRightEye F.E F.atol F.rtol ⟨0, F.keyOf 11⟩ (fun A lda ldb => P layout .NoTrans .NoTrans m d m 1 A lda ro co 0 ldb) 1 m d ro co layout 0)

/-- `TestRSKGE3::submatrix_A` (test/test_matmul_cores/test_rskge3.cc:90-104); the seed of the data is in test/test_matmul_cores/linop_common.hh:649. -/
def rskge3SubmatrixA (F : SkgeFixture N K W WS R T) (P : RightProduct N K T) (key : Nat) (d m n m0 n0 ro co : Int) (layout : Layout) : M Unit (Option Int) :=
  withTestOp F (.dense false) n d key (testRightSubmatrix F.E F.eps ⟨0, F.keyOf 1⟩ (fun A lda ldb => P layout .NoTrans .NoTrans m d n 1 A lda 0 0 0 ldb) m m0 n0 ro co layout)

/-! ## Sparse operators from the left -/

/-- `TestLSKGES::apply` (test/test_matmul_cores/test_lskges.cc:50-63), with the key and the number of nonzeros instead of their indices in the lists of lines 42-43; the seeds of the data are in
test/test_matmul_cores/linop_common.hh:262-263. -/
def lskgesApply (F : SkgeFixture N K W WS R T) (L : LeftProduct N K T) (axis : Axis) (d m n : Int) (layout : Layout) (key : Nat) (vecNnz : Int) : M Unit (Option Int) :=
  withTestOp F (.sparse vecNnz axis false) d m key (testLeftRandom F.E F.eps ⟨0, F.keyOf 99⟩ ⟨0, F.keyOf 42⟩ (fun A lda ldb => L layout .NoTrans .NoTrans d n m 1 0 0 A lda 0 ldb) 1 n 0 layout)

/-- `TestLSKGES::submatrix_S` (test/test_matmul_cores/test_lskges.cc:66-80). The quotient is that of C++, which rounds towards zero. -/
def lskgesSubmatrixS (F : SkgeFixture N K W WS R T) (L : LeftProduct N K T) (key : Nat) (d1 m1 d0 m0 ro co : Int) (layout : Layout) : M Unit (Option (Int × Int)) :=
  withTestOp F (.sparse (d0.tdiv 3) .Short false) d0 m0 key
    (testLeftEye F.E F.atol F.rtol ⟨0, F.keyOf 42⟩ (fun A lda ldb => L layout .NoTrans .NoTrans d1 m1 m1 1 ro co A lda 0 ldb) 1 d1 m1 ro co layout 0)

/-- `TestLSKGES::alpha_beta` (test/test_matmul_cores/test_lskges.cc:83-95). -/
def lskgesAlphaBeta (F : SkgeFixture N K W WS R T) (L : LeftProduct N K T) (key : Nat) (alpha beta : T) (m d : Int) (layout : Layout) : M Unit (Option (Int × Int)) :=
  withTestOp F (.sparse (d.tdiv 2) .Short false) d m key
    (testLeftEye F.E F.atol F.rtol ⟨0, F.keyOf 42⟩ (fun A lda ldb => L layout .NoTrans .NoTrans d m m alpha 0 0 A lda beta ldb) alpha d m 0 0 layout beta)

/-- The number of nonzeros per vector in three fixtures (test/test_matmul_cores/test_lskges.cc:106-107, 127-128, 144-145). -/
def halfNnz (axis : Axis) (d m : Int) : Int := if axis = .Short then d.tdiv 2 else m.tdiv 2

/-- `TestLSKGES::transpose_S` (test/test_matmul_cores/test_lskges.cc:98-111). -/
def lskgesTranspose (F : SkgeFixture N K W WS R T) (L : LeftProduct N K T) (axis : Axis) (key : Nat) (m d : Int) (layout : Layout) : M Unit (Option (Int × Int)) := do
  M.require (m > d)
  withTestOp F (.sparse (halfNnz axis d m) axis false) m d key (testLeftTransEye F.E F.atol F.rtol (fun A lda ldb => L layout .Trans .NoTrans d m m 1 0 0 A lda 0 ldb) layout)

/-- `TestLSKGES::submatrix_A` (test/test_matmul_cores/test_lskges.cc:114-132). -/
def lskgesSubmatrixA (F : SkgeFixture N K W WS R T) (L : LeftProduct N K T) (axis : Axis) (key : Nat) (d m n m0 n0 ro co : Int) (layout : Layout) : M Unit (Option Int) :=
  withTestOp F (.sparse (halfNnz axis d m) axis false) d m key
    (testLeftSubmatrix F.E F.eps ⟨0, F.keyOf 13⟩ (fun A lda ldb => L layout .NoTrans .NoTrans d n m 1 0 0 A lda 0 ldb) n m0 n0 ro co layout)

/-- `TestLSKGES::transpose_A` (test/test_matmul_cores/test_lskges.cc:135-149); the seed of the data is in test/test_matmul_cores/linop_common.hh:424. -/
def lskgesTransposeA (F : SkgeFixture N K W WS R T) (L : LeftProduct N K T) (axis : Axis) (key : Nat) (d m n : Int) (layout : Layout) : M Unit (Option Int) :=
  withTestOp F (.sparse (halfNnz axis d m) axis false) d m key (testLeftTransposed F.E F.eps ⟨0, F.keyOf 101⟩ (fun A lda ldb => L layout .NoTrans .Trans d n m 1 0 0 A lda 0 ldb) n layout)

/-! ## Sparse operators from the right -/

/-- `TestRSKGES::sketch_eye` (test/test_matmul_cores/test_rskges.cc:50-62). -/
def rskgesEye (F : SkgeFixture N K W WS R T) (P : RightProduct N K T) (key : Nat) (m d : Int) (axis : Axis) (vecNnz : Int) (layout : Layout) : M Unit (Option (Int × Int)) :=
  withTestOp F (.sparse vecNnz axis true) m d key (testRightEye F.E F.atol F.rtol ⟨0, F.keyOf 11⟩ (fun A lda ldb => P layout .NoTrans .NoTrans m d m 1 A lda 0 0 0 ldb) 1 m d 0 0 layout 0)

/-- `TestRSKGES::apply` (test/test_matmul_cores/test_rskges.cc:65-79), with the key and the number of nonzeros instead of their indices in the lists of lines 42-43; the seeds of the data are in
test/test_matmul_cores/linop_common.hh:548-549. -/
def rskgesApply (F : SkgeFixture N K W WS R T) (P : RightProduct N K T) (axis : Axis) (d m n : Int) (layout : Layout) (key : Nat) (vecNnz : Int) : M Unit (Option Int) :=
  withTestOp F (.sparse vecNnz axis true) n d key (testRightRandom F.E F.eps ⟨0, F.keyOf 57⟩ ⟨0, F.keyOf 10⟩ (fun A lda ldb => P layout .NoTrans .NoTrans m d n 1 A lda 0 0 0 ldb) 1 m layout 0)

/-- `TestRSKGES::submatrix_S` (test/test_matmul_cores/test_rskges.cc:82-99). -/
def rskgesSubmatrixS (F : SkgeFixture N K W WS R T) (P : RightProduct N K T) (key : Nat) (d1 n1 d0 n0 ro co : Int) (layout : Layout) : M Unit (Option (Int × Int)) := do
  M.require (d0 ≥ d1)
  M.require (n0 ≥ n1)
  withTestOp F (.sparse (d0.tdiv 3) .Short true) n0 d0 key
    (testRightEye F.E F.atol F.rtol ⟨0, F.keyOf 11⟩ (fun A lda ldb => P layout .NoTrans .NoTrans n1 d1 n1 1 A lda ro co 0 ldb) 1 n1 d1 ro co layout 0)

end
end RB
