import Verif.Model.TestLinop

/-!
# Model of the other product tests (test/test_matmul_cores/linop_common.hh)

The tests on submatrices and transposes of random data, and the identity tests from the right. As in `Model/TestLinop.lean` the product under test is a parameter.
-/

namespace RB
variable {N : Nat} {K W WS R T : Type} [Field R] [LinearOrder R] [FloorRing R] [Field T] [LinearOrder T]

/-- The part that `test_left_apply_to_submatrix` and `test_left_apply_to_transposed` share (test/test_matmul_cores/linop_common.hh:386-415, 424-455): S * op(A) from zeros,
the reference, the comparison. `A` is the pointer to the data. -/
def compareLeft (E : SkEnv N K W WS R T) (eps : T) (apply : Buf T → Int → Int → M (TestOp N K T × Buf T) Unit) (opA : Op) (n : Int) (layout : Layout) (A : Buf T) (lda : Int) :
    M (TestOp N K T) (Option Int) := do
  let S ← M.get
  let d := S.dims.1
  let m := S.dims.2
  let ldb := if layout = .ColMajor then d else n
  let r ← M.onLocal (apply A lda ldb) (S, zeroVec (d * n))
  let q ← M.onLocal (referenceLeftApply E eps layout .NoTrans opA d n m 1 0 0 A lda 0 ldb) ⟨r.2.1, zeroVec (d * n), zeroVec (d * n)⟩
  M.modify fun _ => q.2.op
  M.lift (buffsWithinBounds (fltBuf r.2.2) (fltBuf q.2.b) (fltBuf q.2.e) (d * n))

/-- `test_left_apply_to_submatrix` (test/test_matmul_cores/linop_common.hh:376-416). -/
def testLeftSubmatrix (E : SkEnv N K W WS R T) (eps : T) (seedA : RNGState N K) (apply : Buf T → Int → Int → M (TestOp N K T × Buf T) Unit) (n m0 n0 roA coA : Int) (layout : Layout) :
    M (TestOp N K T) (Option Int) := do
  let S ← M.get
  M.require (m0 ≥ S.dims.2)
  M.require (n0 ≥ n)
  let A ← M.onLocal (randomMatrix E m0 n0 seedA) (zeroVec (m0 * n0))
  let p := offsetAndLdim layout m0 n0 roA coA
  compareLeft E eps apply .NoTrans n layout (A.2.shift p.1) p.2

/-- `test_left_apply_to_transposed` (test/test_matmul_cores/linop_common.hh:418-457). -/
def testLeftTransposed (E : SkEnv N K W WS R T) (eps : T) (seedA : RNGState N K) (apply : Buf T → Int → Int → M (TestOp N K T × Buf T) Unit) (n : Int) (layout : Layout) :
    M (TestOp N K T) (Option Int) := do
  let S ← M.get
  let m := S.dims.2
  let A ← M.onLocal (randomMatrix E n m seedA) (zeroVec (n * m))
  compareLeft E eps apply .Trans n layout A.2 (if layout = .ColMajor then n else m)

/-- The part that `test_right_apply_to_submatrix` and `test_right_apply_to_transposed` share (test/test_matmul_cores/linop_common.hh:647-669, 678-697). -/
def compareRight (E : SkEnv N K W WS R T) (eps : T) (apply : Buf T → Int → Int → M (TestOp N K T × Buf T) Unit) (opA : Op) (m : Int) (layout : Layout) (A : Buf T) (lda : Int) :
    M (TestOp N K T) (Option Int) := do
  let S ← M.get
  let n := S.dims.1
  let d := S.dims.2
  let ldb := if layout = .ColMajor then m else d
  let r ← M.onLocal (apply A lda ldb) (S, zeroVec (m * d))
  let q ← M.onLocal (referenceRightApply E eps layout opA .NoTrans m d n 1 A lda 0 0 0 ldb) ⟨r.2.1, zeroVec (d * m), zeroVec (d * m)⟩
  M.modify fun _ => q.2.op
  M.lift (buffsWithinBounds (fltBuf r.2.2) (fltBuf q.2.b) (fltBuf q.2.e) (d * m))

/-- `test_right_apply_to_submatrix` (test/test_matmul_cores/linop_common.hh:637-670). -/
def testRightSubmatrix (E : SkEnv N K W WS R T) (eps : T) (seedA : RNGState N K) (apply : Buf T → Int → Int → M (TestOp N K T × Buf T) Unit) (m m0 n0 roA coA : Int) (layout : Layout) :
    M (TestOp N K T) (Option Int) := do
  let S ← M.get
  M.require (m0 ≥ m)
  M.require (n0 ≥ S.dims.1)
  let A ← M.onLocal (randomMatrix E m0 n0 seedA) (zeroVec (m0 * n0))
  let p := offsetAndLdim layout m0 n0 roA coA
  compareRight E eps apply .NoTrans m layout (A.2.shift p.1) p.2

/-- `test_right_apply_to_transposed` (test/test_matmul_cores/linop_common.hh:672-698). -/
def testRightTransposed (E : SkEnv N K W WS R T) (eps : T) (seedA : RNGState N K) (apply : Buf T → Int → Int → M (TestOp N K T × Buf T) Unit) (m : Int) (layout : Layout) :
    M (TestOp N K T) (Option Int) := do
  let S ← M.get
  let n := S.dims.1
  let A ← M.onLocal (randomMatrix E n m seedA) (zeroVec (n * m))
  compareRight E eps apply .Trans m layout A.2 (if layout = .ColMajor then n else m)

/-- `test_right_apply_submatrix_to_eye` (test/test_matmul_cores/linop_common.hh:575-612). As in `testLeftEye` the `int` counters of lines 600-601 do not overflow in the model. -/
def testRightEye (E : SkEnv N K W WS R T) (atol rtol : T) (seedB : RNGState N K) (apply : Buf T → Int → Int → M (TestOp N K T × Buf T) Unit) (alpha : T) (n d roS coS : Int)
    (layout : Layout) (beta : T) : M (TestOp N K T) (Option (Int × Int)) := do
  let S ← M.get
  let n0 := S.dims.1
  let d0 := S.dims.2
  M.require (n0 ≥ n)
  M.require (d0 ≥ d)
  let lda := n
  let ldb := if layout = .ColMajor then n else d
  let A ← M.onLocal (testEye n) (zeroVec (n * n))
  let B ← M.onLocal (randomMatrix E n d seedB) (zeroVec (n * d))
  let r ← M.onLocal (apply A.2 lda ldb) (S, B.2)
  let x ← M.onLocal (toExplicit E layout) (r.2.1, Buf.alloc T (n0 * d0))
  M.modify fun _ => x.2.1
  let ldE := if layout = .ColMajor then n0 else d0
  let ss := layoutToStrides layout ldE
  let sb := layoutToStrides layout ldb
  let offset := ss.irs * roS + ss.ics * coS
  let y ← M.onLocal (forI 0 n fun i => forI 0 d fun j => do
    let e ← M.rd (offset + i * ss.irs + j * ss.ics)
    let b ← M.lift (B.2.rd (i * sb.irs + j * sb.ics))
    M.wr (offset + i * ss.irs + j * ss.ics) (alpha * e + beta * b)) x.2.2
  M.lift (matricesApproxEqual1 layout .NoTrans n d (fltBuf r.2.2) ldb (fltBuf (y.2.shift offset)) ldE (.fin atol) (.fin rtol))

/-- `test_right_apply_transpose_to_eye` (test/test_matmul_cores/linop_common.hh:614-635). -/
def testRightTransEye (E : SkEnv N K W WS R T) (atol rtol : T) (apply : Buf T → Int → Int → M (TestOp N K T × Buf T) Unit) (layout : Layout) :
    M (TestOp N K T) (Option (Int × Int)) := do
  let S ← M.get
  let d := S.dims.1
  let n := S.dims.2
  let A ← M.onLocal (testEye n) (zeroVec (n * n))
  let ldb := if layout = .ColMajor then n else d
  let lds := if layout = .ColMajor then d else n
  let r ← M.onLocal (apply A.2 n ldb) (S, zeroVec (n * d))
  let x ← M.onLocal (toExplicit E layout) (r.2.1, zeroVec (n * d))
  M.modify fun _ => x.2.1
  M.lift (matricesApproxEqual1 layout .Trans n d (fltBuf r.2.2) ldb (fltBuf x.2.2) lds (.fin atol) (.fin rtol))

end RB
