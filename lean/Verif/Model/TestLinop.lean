import Verif.Model.Sketch
import Verif.Model.TestCompare

/-!
# Model of the reference products of the tests (test/test_matmul_cores/linop_common.hh)

A test runs a product of the library and compares it with a reference, which is computed from an explicit copy of the operator with `gemm`. The product of the library is a parameter of
the modelled tests, so that the tests can be judged as tests of any program. Arithmetic is exact; `eps` stands for `std::numeric_limits<T>::epsilon()`. `abs` is the absolute value of
floating-point numbers. Setting the number of threads is not modelled (the product is a parameter).
-/

namespace RB
variable {N : Nat} {K W WS R T : Type}

/-- The operators for which the helpers are instantiated: sketching operators and sparse matrices. Used to model test/test_matmul_cores/linop_common.hh:80-81. -/
inductive TestOp (N : Nat) (K T : Type) where
  | dense (S : DenseSkOp N K T)
  | sparse (S : SparseSkOp N K T)
  | mat (A : SpMat T)

/-- `dimensions(S)` (test/test_matmul_cores/linop_common.hh:80-81). -/
def TestOp.dims : TestOp N K T → Int × Int
  | .dense S => (S.nRows, S.nCols)
  | .sparse S => (S.nRows, S.nCols)
  | .mat A => (A.numRows, A.numCols)

/-- `std::vector<T>(n, 0.0)`; also `std::vector<T>(n)`. Used to model test/test_matmul_cores/linop_common.hh:183-254. -/
def zeroVec [Zero T] (n : Int) : Buf T := Buf.ofFn n fun _ => 0

/-- `eye` (test/test_matmul_cores/linop_common.hh:63-69). The loop counter is an `int`; that n * n elements fit in memory excludes an overflow. -/
def testEye [One T] (n : Int) : M (Buf T) Unit := forI 0 n fun i => M.wr (i + n * i) 1

/-- `random_matrix` (test/test_matmul_cores/linop_common.hh:71-78), without its other results. -/
def randomMatrix [Mul T] (E : SkEnv N K W WS R T) (m n : Int) (seed : RNGState N K) : M (Buf T) Unit := do
  let D ← M.lift (mkDenseDist m n .Gaussian .Long)
  let _ ← fillDense E.env.sched E.G E.sqrt3 D seed
  pure ()

/-- `to_explicit_buffer` for a sparse matrix (test/test_matmul_cores/linop_common.hh:83-99). -/
def toExplicitSp [Zero T] (A : SpMat T) (layout : Layout) : M (Buf T) Unit :=
  match A with
  | .coo A => cooToDense A layout
  | .csc A => cscToDense A layout
  | .csr A => csrToDense A layout

/-- `to_explicit_buffer` for a sparse operator (test/test_matmul_cores/linop_common.hh:101-106). -/
def toExplicitSparse [Field R] [LinearOrder R] [FloorRing R] [Zero T] [One T] [Neg T] [Add T] [Mul T] (E : SkEnv N K W WS R T) (layout : Layout) :
    M (SparseSkOp N K T × Buf T) Unit := do
  let A ← onSp (cooViewOfSkop E.GS E.sqrt E.order)
  onC (toExplicitSp (.coo A) layout)

/-- `to_explicit_buffer` for a dense operator (test/test_matmul_cores/linop_common.hh:108-127). The operator is sampled again, whether or not it has been filled. -/
def toExplicitDense [Mul T] (E : SkEnv N K W WS R T) (S : DenseSkOp N K T) (layout : Layout) : M (Buf T) Unit := do
  let S0 ← M.lift (mkDenseSkOp E.G.len S.dist S.seedState)
  let r ← M.onLocal (fillDenseOp E.env.sched E.G E.sqrt3) S0
  let bs := layoutToStrides3 r.2.layout S.dist.nRows S.dist.nCols
  let ms := layoutToStrides3 layout S.dist.nRows S.dist.nCols
  forI 0 S.dist.nRows fun i => forI 0 S.dist.nCols fun j => do
    let v ← M.lift ((ptr r.2.buff).rd (i * bs.irs + j * bs.ics))
    M.wr (i * ms.irs + j * ms.ics) v

/-- `to_explicit_buffer`, all overloads. The state is the operator (a sparse one may be filled) and the array. Used to model test/test_matmul_cores/linop_common.hh:183-254. -/
def toExplicit [Field R] [LinearOrder R] [FloorRing R] [Zero T] [One T] [Neg T] [Add T] [Mul T] (E : SkEnv N K W WS R T) (layout : Layout) :
    M (TestOp N K T × Buf T) Unit := do
  let s ← M.get
  match s.1 with
  | .dense S => onC (toExplicitDense E S layout)
  | .sparse S => M.zoom (fun s => (S, s.2)) (fun _ r => (TestOp.sparse r.1, r.2)) (toExplicitSparse E layout)
  | .mat A => onC (toExplicitSp A layout)

/-- The arrays of a reference product: the operator, `B` and the bound `E`. Used to model test/test_matmul_cores/linop_common.hh:183-254. -/
structure RefSt (N : Nat) (K T : Type) where
  op : TestOp N K T
  b : Buf T
  e : Buf T

/-- Run code on `B`. Used to model test/test_matmul_cores/linop_common.hh:183-254. -/
def RefSt.onB {α : Type} (m : M (Buf T) α) : M (RefSt N K T) α := M.zoom RefSt.b (fun s b => { s with b := b }) m
/-- Run code on `E`. Used to model test/test_matmul_cores/linop_common.hh:183-254. -/
def RefSt.onE {α : Type} (m : M (Buf T) α) : M (RefSt N K T) α := M.zoom RefSt.e (fun s b => { s with e := b }) m

/-- The loops that compute `S_dense_abs` (test/test_matmul_cores/linop_common.hh:224-229). -/
def absStr [Lattice T] [AddGroup T] (rows cols irs ics : Int) (src : Buf T) : M (Buf T) Unit :=
  forI 0 rows fun i => forI 0 cols fun j => do
    let v ← M.lift (src.rd (i * irs + j * ics))
    M.wr (i * irs + j * ics) |v|

/-- A loop `dst[i] = abs(src[i])` (test/test_matmul_cores/linop_common.hh:240-241, 243-244). -/
def absVec [Lattice T] [AddGroup T] (n : Int) (src : Buf T) : M (Buf T) Unit :=
  forI 0 n fun i => do
    let v ← M.lift (src.rd i)
    M.wr i |v|

/-- `reference_left_apply` (test/test_matmul_cores/linop_common.hh:183-254). `|B|` is read for the bound after `B` has been overwritten with the result. -/
def referenceLeftApply [Field R] [LinearOrder R] [FloorRing R] [Field T] [LinearOrder T] (E : SkEnv N K W WS R T) (eps : T) (layout : Layout) (opS opA : Op) (d n m : Int)
    (alpha : T) (roS coS : Int) (A : Buf T) (lda : Int) (beta : T) (ldb : Int) : M (RefSt N K T) Unit := do
  M.require (d > 0)
  M.require (m > 0)
  M.require (n > 0)
  let s ← M.get
  let rowsS := s.op.dims.1
  let colsS := s.op.dims.2
  let dA := dimsBeforeOp m n opA
  let dS := dimsBeforeOp d m opS
  let lds := if layout = .ColMajor then rowsS else colsS
  let pos := if layout = .ColMajor then roS + lds * coS else roS * lds + coS
  M.require (lds ≥ if layout = .ColMajor then dS.1 else dS.2)
  M.require (lda ≥ if layout = .ColMajor then dA.1 else dA.2)
  M.require (ldb ≥ if layout = .ColMajor then d else n)
  let sizeA := if layout = .ColMajor then lda * (dA.2 - 1) + dA.1 else lda * (dA.1 - 1) + dA.2
  let sizeB := if layout = .ColMajor then ldb * (n - 1) + d else ldb * (d - 1) + n
  let rowStride := if layout = .ColMajor then 1 else lds
  let colStride := if layout = .ColMajor then lds else 1
  let r ← M.onLocal (toExplicit E layout) (s.op, zeroVec (rowsS * colsS))
  M.modify fun s => { s with op := r.2.1 }
  let sAbs ← M.onLocal (absStr rowsS colsS rowStride colStride r.2.2) (zeroVec (rowsS * colsS))
  RefSt.onB (blasGemm layout opS opA d n m alpha r.2.2 pos lds A 0 lda beta 0 ldb)
  let aAbs ← M.onLocal (absVec sizeA A) (zeroVec sizeA)
  let s ← M.get
  M.when (beta ≠ 0) (RefSt.onE (absVec sizeB s.b))
  RefSt.onE (blasGemm layout opS opA d n m (|alpha| * (m : T) * (2 * eps)) sAbs.2 pos lds aAbs.2 0 lda (|beta| * eps) 0 ldb)

/-- `reference_right_apply` (test/test_matmul_cores/linop_common.hh:506-540). -/
def referenceRightApply [Field R] [LinearOrder R] [FloorRing R] [Field T] [LinearOrder T] (E : SkEnv N K W WS R T) (eps : T) (layout : Layout) (opA opS : Op) (m d n : Int)
    (alpha : T) (A : Buf T) (lda : Int) (roS coS : Int) (beta : T) (ldb : Int) : M (RefSt N K T) Unit := do
  let s ← M.get
  M.require ((dimsBeforeOp n d opS).1 ≤ s.op.dims.1)
  M.require ((dimsBeforeOp n d opS).2 ≤ s.op.dims.2)
  M.require (lda ≥ if layout = .ColMajor then (dimsBeforeOp m n opA).1 else (dimsBeforeOp m n opA).2)
  referenceLeftApply E eps (if layout = .ColMajor then .RowMajor else .ColMajor) (if opS = .NoTrans then .Trans else .NoTrans) opA d m n alpha roS coS A lda beta ldb

/-- `left_apply`, all overloads (test/test_matmul_cores/linop_common.hh:135-180). -/
def leftApply [Field R] [LinearOrder R] [FloorRing R] [Zero T] [One T] [Neg T] [Add T] [Mul T] [BEq T] (E : SkEnv N K W WS R T) (layout : Layout) (opS opA : Op) (d n m : Int)
    (alpha : T) (roS coS : Int) (A : Buf T) (lda : Int) (beta : T) (ldb : Int) : M (TestOp N K T × Buf T) Unit := do
  let s ← M.get
  match s.1 with
  | .dense S => onC (lskge3 E layout opS opA d n m alpha S roS coS A lda beta ldb)
  | .sparse S => M.zoom (fun s => (S, s.2)) (fun _ r => (TestOp.sparse r.1, r.2)) (lskges E layout opS opA d n m alpha roS coS A lda beta ldb)
  | .mat S => M.zoom (fun s => (S, s.2)) (fun _ r => (TestOp.mat r.1, r.2)) (leftSpmm E.env layout opS opA d n m alpha roS coS A lda beta ldb)

/-- `right_apply`, all overloads (test/test_matmul_cores/linop_common.hh:461-504). -/
def rightApply [Field R] [LinearOrder R] [FloorRing R] [Zero T] [One T] [Neg T] [Add T] [Mul T] [BEq T] (E : SkEnv N K W WS R T) (layout : Layout) (opA opS : Op) (m d n : Int)
    (alpha : T) (A : Buf T) (lda : Int) (roS coS : Int) (beta : T) (ldb : Int) : M (TestOp N K T × Buf T) Unit := do
  let s ← M.get
  match s.1 with
  | .dense S => onC (rskge3 E layout opA opS m d n alpha A lda S roS coS beta ldb)
  | .sparse S => M.zoom (fun s => (S, s.2)) (fun _ r => (TestOp.sparse r.1, r.2)) (rskges E layout opA opS m d n alpha A lda roS coS beta ldb)
  | .mat S => M.zoom (fun s => (S, s.2)) (fun _ r => (TestOp.mat r.1, r.2)) (rightSpmm E.env layout opA opS m d n alpha A lda roS coS beta ldb)

/-- The contents of an array as floating-point numbers. Used to model test/test_matmul_cores/linop_common.hh:256-292. -/
def fltBuf (b : Buf T) : Buf (Flt T) := fun i =>
  match b i with
  | .none => .none
  | .uninit => .uninit
  | .val v => .val (.fin v)

/-- `test_left_apply_to_random` (test/test_matmul_cores/linop_common.hh:256-292): the position of the first difference that is reported, if any. `apply A lda ldb` is the product under test. -/
def testLeftRandom [Field R] [LinearOrder R] [FloorRing R] [Field T] [LinearOrder T] (E : SkEnv N K W WS R T) (eps : T) (seedA seedB : RNGState N K)
    (apply : Buf T → Int → Int → M (TestOp N K T × Buf T) Unit) (alpha : T) (n : Int) (beta : T) (layout : Layout) : M (TestOp N K T) (Option Int) := do
  let S ← M.get
  let d := S.dims.1
  let m := S.dims.2
  let A ← M.onLocal (randomMatrix E m n seedA) (zeroVec (m * n))
  let B0 ← M.onLocal (randomMatrix E d n seedB) (zeroVec (d * n))
  let lda := if layout = .ColMajor then m else n
  let ldb := if layout = .ColMajor then d else n
  let r ← M.onLocal (apply A.2 lda ldb) (S, B0.2)
  let q ← M.onLocal (referenceLeftApply E eps layout .NoTrans .NoTrans d n m alpha 0 0 A.2 lda beta ldb) ⟨r.2.1, B0.2, zeroVec (d * n)⟩
  M.modify fun _ => q.2.op
  M.lift (buffsWithinBounds (fltBuf r.2.2) (fltBuf q.2.b) (fltBuf q.2.e) (d * n))

/-- `test_right_apply_to_random` (test/test_matmul_cores/linop_common.hh:542-573). -/
def testRightRandom [Field R] [LinearOrder R] [FloorRing R] [Field T] [LinearOrder T] (E : SkEnv N K W WS R T) (eps : T) (seedA seedB : RNGState N K)
    (apply : Buf T → Int → Int → M (TestOp N K T × Buf T) Unit) (alpha : T) (m : Int) (layout : Layout) (beta : T) : M (TestOp N K T) (Option Int) := do
  let S ← M.get
  let n := S.dims.1
  let d := S.dims.2
  let A ← M.onLocal (randomMatrix E m n seedA) (zeroVec (m * n))
  let B0 ← M.onLocal (randomMatrix E m d seedB) (zeroVec (m * d))
  let lda := if layout = .ColMajor then m else n
  let ldb := if layout = .ColMajor then m else d
  let r ← M.onLocal (apply A.2 lda ldb) (S, B0.2)
  let q ← M.onLocal (referenceRightApply E eps layout .NoTrans .NoTrans m d n alpha A.2 lda 0 0 beta ldb) ⟨r.2.1, B0.2, zeroVec (m * d)⟩
  M.modify fun _ => q.2.op
  M.lift (buffsWithinBounds (fltBuf r.2.2) (fltBuf q.2.b) (fltBuf q.2.e) (m * d))

/-- `test_left_apply_submatrix_to_eye` (test/test_matmul_cores/linop_common.hh:294-344). `atol` and `rtol` are the default tolerances of `matrices_approx_equal`. The counters of lines 329-330 are `int`; the model does not show that they overflow for d1 or m1 of 2^31 or more. -/
def testLeftEye [Field R] [LinearOrder R] [FloorRing R] [Field T] [LinearOrder T] (E : SkEnv N K W WS R T) (atol rtol : T) (seedB : RNGState N K)
    (apply : Buf T → Int → Int → M (TestOp N K T × Buf T) Unit) (alpha : T) (d1 m1 roS coS : Int) (layout : Layout) (beta : T) : M (TestOp N K T) (Option (Int × Int)) := do
  let S ← M.get
  let d0 := S.dims.1
  let m0 := S.dims.2
  M.require (d0 ≥ d1)
  M.require (m0 ≥ m1)
  let lda := m1
  let ldb := if layout = .ColMajor then d1 else m1
  let A ← M.onLocal (testEye m1) (zeroVec (m1 * m1))
  let B ← M.onLocal (randomMatrix E d1 m1 seedB) (zeroVec (d1 * m1))
  let r ← M.onLocal (apply A.2 lda ldb) (S, B.2)
  let x ← M.onLocal (toExplicit E layout) (r.2.1, Buf.alloc T (d0 * m0))
  M.modify fun _ => x.2.1
  let ldE := if layout = .ColMajor then d0 else m0
  let ss := layoutToStrides layout ldE
  let sb := layoutToStrides layout ldb
  let offset := ss.irs * roS + ss.ics * coS
  let y ← M.onLocal (forI 0 d1 fun i => forI 0 m1 fun j => do
    let e ← M.rd (offset + i * ss.irs + j * ss.ics)
    let b ← M.lift (B.2.rd (i * sb.irs + j * sb.ics))
    M.wr (offset + i * ss.irs + j * ss.ics) (alpha * e + beta * b)) x.2.2
  M.lift (matricesApproxEqual1 layout .NoTrans d1 m1 (fltBuf r.2.2) ldb (fltBuf (y.2.shift offset)) ldE (.fin atol) (.fin rtol))

/-- `test_left_apply_transpose_to_eye` (test/test_matmul_cores/linop_common.hh:346-373). -/
def testLeftTransEye [Field R] [LinearOrder R] [FloorRing R] [Field T] [LinearOrder T] (E : SkEnv N K W WS R T) (atol rtol : T)
    (apply : Buf T → Int → Int → M (TestOp N K T × Buf T) Unit) (layout : Layout) : M (TestOp N K T) (Option (Int × Int)) := do
  let S ← M.get
  let m := S.dims.1
  let d := S.dims.2
  let A ← M.onLocal (testEye m) (zeroVec (m * m))
  let ldb := if layout = .ColMajor then d else m
  let lds := if layout = .ColMajor then m else d
  let r ← M.onLocal (apply A.2 m ldb) (S, zeroVec (d * m))
  let x ← M.onLocal (toExplicit E layout) (r.2.1, zeroVec (m * d))
  M.modify fun _ => x.2.1
  M.lift (matricesApproxEqual1 layout .Trans d m (fltBuf r.2.2) ldb (fltBuf x.2.2) lds (.fin atol) (.fin rtol))

end RB
