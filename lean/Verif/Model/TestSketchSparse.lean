import Verif.Model.TestLinopMore
import Verif.Model.TestSpmats
import Verif.Model.TestSketch

/-!
# Model of the tests of `sketch_sparse`

test/test_matmul_wrappers/test_sketch_sparse.cc. The helpers were copied from linop_common.hh: they differ from the ones there in that the identity is a sparse matrix and the product is the
sketch under test. They are modelled as those helpers (Model/TestLinop.lean, Model/TestLinopMore.lean) with a call `apply` that makes the sparse identity and does not use the dense one.
All tests use the COO format.
The `int` counters of the loops that compute the expected matrix (lines 112-116, 178-182) do not overflow in the model, as in the models of linop_common.hh; that of `eye` does.
-/

namespace RB
variable {N : Nat} {K W WS R T : Type}

/-- `eye` for COO matrices (test/test_matmul_wrappers/test_sketch_sparse.cc:24-39; the other formats, lines 40-50, are not instantiated). The loop counter is an `int`: its increment overflows if m exceeds the largest `int`. -/
def cooEye [One T] (m : Int) : M (CooMat T) Unit := do
  reserveCoo m
  M.zoom CooMat.bufs CooMat.withBufs (forI 0 m fun i => do
    onCRows (M.wr i i)
    onCCols (M.wr i i)
    onCVals (M.wr i 1))
  if intMax 32 < m then M.lift .ub else pure ()

/-- The call in the four helpers (test/test_matmul_wrappers/test_sketch_sparse.cc:60, 66-69, 93, 98-101, 136, 142, 165, 168): make the sparse identity of order k, then sketch it. The sketch under test
`sk` gets the operator and the leading dimension of the result; its state is the sparse matrix and the result. The operator is dense in all tests. -/
def sketchOfEye [One T] (sk : DenseSkOp N K T → Int → M (SpMat T × Buf T) Unit) (k ldb : Int) : M (TestOp N K T × Buf T) Unit := do
  let s ← M.get
  match s.1 with
  | .dense S => do
    let A ← M.onLocal (cooEye k) (mkCoo k k)
    let r ← M.onLocal (sk S ldb) (.coo A.2, s.2)
    M.modify fun s => (s.1, r.2.2)
  | _ => M.lift .ub

section
variable [Field R] [LinearOrder R] [FloorRing R] [Field T] [LinearOrder T]

/-- `test_left_submat_sketch_of_eye` (test/test_matmul_wrappers/test_sketch_sparse.cc:80-127). -/
def testLeftSubmatSketch (E : SkEnv N K W WS R T) (atol rtol : T) (seedB : RNGState N K) (sk : DenseSkOp N K T → Int → M (SpMat T × Buf T) Unit) (alpha : T) (d1 m1 roS coS : Int)
    (layout : Layout) (beta : T) : M (TestOp N K T) (Option (Int × Int)) :=
  testLeftEye E atol rtol seedB (fun _ _ ldb => sketchOfEye sk m1 ldb) alpha d1 m1 roS coS layout beta

/-- `test_left_transposed_sketch_of_eye` (test/test_matmul_wrappers/test_sketch_sparse.cc:53-78). -/
def testLeftTransposedSketch (E : SkEnv N K W WS R T) (atol rtol : T) (sk : DenseSkOp N K T → Int → M (SpMat T × Buf T) Unit) (layout : Layout) :
    M (TestOp N K T) (Option (Int × Int)) := do
  let S ← M.get
  testLeftTransEye E atol rtol (fun _ _ ldb => sketchOfEye sk S.dims.1 ldb) layout

/-- `test_right_submat_sketch_of_eye` (test/test_matmul_wrappers/test_sketch_sparse.cc:153-190). -/
def testRightSubmatSketch (E : SkEnv N K W WS R T) (atol rtol : T) (seedB : RNGState N K) (sk : DenseSkOp N K T → Int → M (SpMat T × Buf T) Unit) (alpha : T) (n d roS coS : Int)
    (layout : Layout) (beta : T) : M (TestOp N K T) (Option (Int × Int)) :=
  testRightEye E atol rtol seedB (fun _ _ ldb => sketchOfEye sk n ldb) alpha n d roS coS layout beta

/-- `test_right_transposed_sketch_of_eye` (test/test_matmul_wrappers/test_sketch_sparse.cc:129-151). -/
def testRightTransposedSketch (E : SkEnv N K W WS R T) (atol rtol : T) (sk : DenseSkOp N K T → Int → M (SpMat T × Buf T) Unit) (layout : Layout) :
    M (TestOp N K T) (Option (Int × Int)) := do
  let S ← M.get
  testRightTransEye E atol rtol (fun _ _ ldb => sketchOfEye sk S.dims.2 ldb) layout

/-- The operator of the fixtures (for example test/test_matmul_wrappers/test_sketch_sparse.cc:203-206): made with or without its entries. -/
def fixtureOp (E : SkEnv N K W WS R T) (nRows nCols : Int) (seed : RNGState N K) (preallocate : Bool) : M Unit (DenseSkOp N K T) := do
  let D ← M.lift (mkDenseDist nRows nCols .Gaussian .Long)
  if preallocate then filledOp E D seed else M.lift (mkDenseSkOp E.G.len D seed)

/-- `TestLSKSP3::sketch_eye` (test/test_matmul_wrappers/test_sketch_sparse.cc:201-208). -/
def testLsksp3Eye (E : SkEnv N K W WS R T) (atol rtol : T) (seedB seed : RNGState N K) (m d : Int) (preallocate : Bool) (layout : Layout) : M Unit (Option (Int × Int)) := do
  let S ← fixtureOp E d m seed preallocate
  let r ← M.onLocal (testLeftSubmatSketch E atol rtol seedB (fun S ldb => lsksp3 E layout .NoTrans .NoTrans d m m 1 S 0 0 0 0 0 ldb) 1 d m 0 0 layout 0) (.dense S)
  pure r.1

/-- `TestLSKSP3::transpose_S` (test/test_matmul_wrappers/test_sketch_sparse.cc:210-216). -/
def testLsksp3Transpose (E : SkEnv N K W WS R T) (atol rtol : T) (seed : RNGState N K) (m d : Int) (layout : Layout) : M Unit (Option (Int × Int)) := do
  let S ← fixtureOp E m d seed true
  let r ← M.onLocal (testLeftTransposedSketch E atol rtol (fun S ldb => lsksp3 E layout .Trans .NoTrans d m m 1 S 0 0 0 0 0 ldb) layout) (.dense S)
  pure r.1

/-- `TestLSKSP3::submatrix_S` (test/test_matmul_wrappers/test_sketch_sparse.cc:218-234). -/
def testLsksp3Submatrix (E : SkEnv N K W WS R T) (atol rtol : T) (seedB seed : RNGState N K) (d m d0 m0 roS coS : Int) (layout : Layout) : M Unit (Option (Int × Int)) := do
  M.require (d0 > d)
  M.require (m0 > m)
  let S ← fixtureOp E d0 m0 seed false
  let r ← M.onLocal (testLeftSubmatSketch E atol rtol seedB (fun S ldb => lsksp3 E layout .NoTrans .NoTrans d m m 1 S roS coS 0 0 0 ldb) 1 d m roS coS layout 0) (.dense S)
  pure r.1

/-- `TestRSKSP3::sketch_eye` (test/test_matmul_wrappers/test_sketch_sparse.cc:377-384). -/
def testRsksp3Eye (E : SkEnv N K W WS R T) (atol rtol : T) (seedB seed : RNGState N K) (m d : Int) (preallocate : Bool) (layout : Layout) : M Unit (Option (Int × Int)) := do
  let S ← fixtureOp E m d seed preallocate
  let r ← M.onLocal (testRightSubmatSketch E atol rtol seedB (fun S ldb => rsksp3 E layout .NoTrans .NoTrans m d m 1 0 0 S 0 0 0 ldb) 1 m d 0 0 layout 0) (.dense S)
  pure r.1

/-- `TestRSKSP3::transpose_S` (test/test_matmul_wrappers/test_sketch_sparse.cc:386-391). -/
def testRsksp3Transpose (E : SkEnv N K W WS R T) (atol rtol : T) (seed : RNGState N K) (m d : Int) (layout : Layout) : M Unit (Option (Int × Int)) := do
  let S ← fixtureOp E d m seed false
  let r ← M.onLocal (testRightTransposedSketch E atol rtol (fun S ldb => rsksp3 E layout .NoTrans .Trans m d m 1 0 0 S 0 0 0 ldb) layout) (.dense S)
  pure r.1

/-- `TestRSKSP3::submatrix_S` (test/test_matmul_wrappers/test_sketch_sparse.cc:393-407). -/
def testRsksp3Submatrix (E : SkEnv N K W WS R T) (atol rtol : T) (seedB seed : RNGState N K) (d m d0 m0 roS coS : Int) (layout : Layout) : M Unit (Option (Int × Int)) := do
  let S ← fixtureOp E m0 d0 seed false
  let r ← M.onLocal (testRightSubmatSketch E atol rtol seedB (fun S ldb => rsksp3 E layout .NoTrans .NoTrans m d m 1 0 0 S roS coS 0 ldb) 1 m d roS coS layout 0) (.dense S)
  pure r.1

end
end RB
