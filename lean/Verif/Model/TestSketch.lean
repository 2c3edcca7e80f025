import Verif.Model.Sketch
import Verif.Model.TestLinop

/-!
# Model of the tests of `sketch_vector` and `sketch_symmetric`

test/test_matmul_wrappers/test_sketch_vector.cc and test_sketch_symmetric.cc. A check that fails is an ordinary result, the place of the failure. Sizes are integers; the loop counters of
type `int` are unbounded here.
-/

namespace RB
variable {N : Nat} {K W WS R T : Type}

/-! ## The BLAS routines used for the expected results -/

/-- `alpha * Σ_l a(l) * b(l) + beta * c[p]` is written to `c[p]`, the inner part of the reference BLAS routines below (external, BLAS++): the terms are not read if alpha = 0,
`c[p]` is not read if beta = 0. Used to model test/test_matmul_wrappers/test_sketch_vector.cc:54-82. -/
def blasEntry [Zero T] [Add T] [Mul T] [BEq T] (k : Int) (alpha : T) (a b : Int → Res T) (beta : T) (p : Int) : M (Buf T) Unit := do
  let acc ← if alpha == 0 then pure 0
    else do
      let s ← foldI 0 k (fun l acc => do
        let x ← M.lift (a l)
        let y ← M.lift (b l)
        pure (acc + x * y)) 0
      pure (alpha * s)
  if beta == 0 then M.wr p acc
  else do
    let c ← M.rd p
    M.wr p (acc + beta * c)

/-- `blas::gemv(layout, op, m, n, alpha, A, lda, x, incx, beta, y, incy)` (external, BLAS++), positive increments; the state is the buffer of y. Used to model test/test_matmul_wrappers/test_sketch_vector.cc:54-82. -/
def blasGemvOp [Zero T] [Add T] [Mul T] [BEq T] (layout : Layout) (op : Op) (m n : Int) (alpha : T) (A : Buf T) (lda : Int) (x : Buf T) (incx : Int) (beta : T) (incy : Int) :
    M (Buf T) Unit := do
  blasCheck (0 ≤ m)
  blasCheck (0 ≤ n)
  blasCheck (if layout = .ColMajor then m ≤ lda else n ≤ lda)
  blasCheck (incx ≠ 0)
  blasCheck (incy ≠ 0)
  forI 0 (if op = .NoTrans then m else n) fun i =>
    blasEntry (if op = .NoTrans then n else m) alpha (fun l => A.rd (opIndex layout lda op i l)) (fun l => x.rd (l * incx)) beta (i * incy)

/-- `blas::Side`. Used to model test/test_matmul_wrappers/test_sketch_symmetric.cc:61-73. -/
inductive Side where | Left | Right
  deriving DecidableEq

/-- Where a symmetric matrix of which one triangle is stored has its entry (i, k). Used to model test/test_matmul_wrappers/test_sketch_symmetric.cc:89-116. -/
def symIndex (layout : Layout) (ld : Int) (uplo : Uplo) (i k : Int) : Int :=
  match uplo with
  | .Upper => (layoutToStrides layout ld).at (min i k) (max i k)
  | _ => (layoutToStrides layout ld).at (max i k) (min i k)

/-- `blas::symm(layout, side, uplo, m, n, alpha, A, lda, B, ldb, beta, C, ldc)` (external, BLAS++): `C = alpha * A * B + beta * C` (Left) or `alpha * B * A + beta * C` (Right), with A
symmetric and read in the triangle `uplo` only. The state is the buffer of C. Used to model test/test_matmul_wrappers/test_sketch_symmetric.cc:89-116. -/
def blasSymm [Zero T] [Add T] [Mul T] [BEq T] (layout : Layout) (side : Side) (uplo : Uplo) (m n : Int) (alpha : T) (A : Buf T) (lda : Int) (B : Buf T) (ldb : Int) (beta : T) (ldc : Int) :
    M (Buf T) Unit := do
  blasCheck (uplo ≠ .General)
  blasCheck (0 ≤ m)
  blasCheck (0 ≤ n)
  blasCheck ((if side = .Left then m else n) ≤ lda)
  blasCheck (if layout = .ColMajor then m ≤ ldb else n ≤ ldb)
  blasCheck (if layout = .ColMajor then m ≤ ldc else n ≤ ldc)
  forI 0 m fun i => forI 0 n fun j =>
    match side with
    | .Left => blasEntry m alpha (fun l => A.rd (symIndex layout lda uplo i l)) (fun l => B.rd (opIndex layout ldb .NoTrans l j)) beta ((layoutToStrides layout ldc).at i j)
    | .Right => blasEntry n alpha (fun l => B.rd (opIndex layout ldb .NoTrans i l)) (fun l => A.rd (symIndex layout lda uplo l j)) beta ((layoutToStrides layout ldc).at i j)

section
variable [Field R] [LinearOrder R] [FloorRing R] [Field T] [LinearOrder T]

/-! ## Vectors -/

/-- `for (int i = 0; i < m; i++) x[incx*i] = 1.0` (test/test_matmul_wrappers/test_sketch_vector.cc:65-66, 95-96, 127-128, 161-162). -/
def onesVec (m incx : Int) : M (Buf T) Unit := forI 0 m fun i => M.wr (incx * i) 1

/-- `DenseSkOp<T> S(D, seed); fill_dense(S);`, as in all tests below (for example test/test_matmul_wrappers/test_sketch_vector.cc:68-69). -/
def filledOp (E : SkEnv N K W WS R T) (D : DenseDist) (seed : RNGState N K) : M Unit (DenseSkOp N K T) := do
  let S ← M.lift (mkDenseSkOp E.G.len D seed)
  let r ← M.onLocal (fillDenseOp E.env.sched E.G E.sqrt3) S
  pure r.2

/-- `test_sketch_vec_wide` and `test_sketch_vec_tallSK` (test/test_matmul_wrappers/test_sketch_vector.cc:54-82, 150-181; the same code): the first difference. The call that is tested is the
argument `sk`. -/
def testVecWith (E : SkEnv N K W WS R T) (sk : Buf T → M (SkOp N K T × Buf T) Unit) (atol rtol : T) (d m incx incy : Int) (seed : RNGState N K) : M Unit (Option Int) := do
  let x ← M.onLocal (onesVec m incx) (Buf.alloc T (incx * m))
  let D ← M.lift (mkDenseDist d m .Gaussian .Long)
  let S ← filledOp E D seed
  let lds := if S.layout = .RowMajor then m else d
  let actual ← M.onLocal (sk x.2) (.dense S, Buf.alloc T (incy * d))
  let expect ← M.onLocal (blasGemvOp S.layout .NoTrans d m 1 (ptr S.buff) lds x.2 incx 0 incy) (Buf.alloc T (incy * d))
  M.lift (buffsApproxEqualInc d (fltBuf actual.2.2) incy (fltBuf expect.2) incy (.fin atol) (.fin rtol))

/-- The test of the library's `sketch_vector` (test/test_matmul_wrappers/test_sketch_vector.cc:54-82, 150-181). -/
def testVec (E : SkEnv N K W WS R T) (atol rtol : T) (d m incx incy : Int) (seed : RNGState N K) : M Unit (Option Int) :=
  testVecWith E (fun x => sketchVector E .NoTrans d m 1 0 0 x incx 0 incy) atol rtol d m incx incy seed

/-- `test_apply_transposed_to_vector` (test/test_matmul_wrappers/test_sketch_vector.cc:84-114). The call that is tested is the argument `sk`. -/
def testVecTransposedWith (E : SkEnv N K W WS R T) (sk : Buf T → M (SkOp N K T × Buf T) Unit) (atol rtol : T) (d m incx incy : Int) (seed : RNGState N K) : M Unit (Option Int) := do
  let x ← M.onLocal (onesVec m incx) (Buf.alloc T (incx * m))
  let D ← M.lift (mkDenseDist m d .Gaussian .Long)
  let S ← filledOp E D seed
  let lds := if S.layout = .RowMajor then d else m
  let actual ← M.onLocal (sk x.2) (.dense S, Buf.alloc T (incy * d))
  let expect ← M.onLocal (blasGemvOp S.layout .Trans m d 1 (ptr S.buff) lds x.2 incx 0 incy) (Buf.alloc T (incy * d))
  M.lift (buffsApproxEqualInc d (fltBuf actual.2.2) incy (fltBuf expect.2) incy (.fin atol) (.fin rtol))

/-- The test of the library's `sketch_vector` with a transposed operator (test/test_matmul_wrappers/test_sketch_vector.cc:84-114). -/
def testVecTransposed (E : SkEnv N K W WS R T) (atol rtol : T) (d m incx incy : Int) (seed : RNGState N K) : M Unit (Option Int) :=
  testVecTransposedWith E (fun x => sketchVector E .Trans m d 1 0 0 x incx 0 incy) atol rtol d m incx incy seed

/-- `test_transpose_compatible` (test/test_matmul_wrappers/test_sketch_vector.cc:116-148). -/
def testVecCompatible (E : SkEnv N K W WS R T) (atol rtol : T) (d m incx incy : Int) (seed : RNGState N K) : M Unit (Option Int) := do
  let x ← M.onLocal (onesVec m incx) (Buf.alloc T (incx * m))
  let Dw ← M.lift (mkDenseDist d m .Gaussian .Long)
  let Dt ← M.lift (mkDenseDist m d .Gaussian .Long)
  let Sw ← filledOp E Dw seed
  let St ← filledOp E Dt seed
  let wide ← M.onLocal (sketchVector E .NoTrans d m 1 0 0 x.2 incx 0 incy) (.dense Sw, Buf.alloc T (incy * d))
  let tall ← M.onLocal (sketchVector E .Trans m d 1 0 0 x.2 incx 0 incy) (.dense St, Buf.alloc T (incy * d))
  M.lift (buffsApproxEqualInc d (fltBuf wide.2.2) incy (fltBuf tall.2.2) incy (.fin atol) (.fin rtol))

/-! ## Symmetric matrices -/

/-- `random_symmetric_mat` (test/test_matmul_wrappers/test_sketch_symmetric.cc:51-59). The state is the array. -/
def randomSymmetricMat (E : SkEnv N K W WS R T) (n lda : Int) (seed : RNGState N K) : M (Buf T) Unit := do
  let D ← M.lift (mkDenseDist lda lda .Gaussian .Long)
  let _ ← fillDenseUnpacked E.env.sched E.G E.sqrt3 .ColMajor D n n 0 0 seed
  symmetrize .ColMajor .Upper n lda

/-- `sketch_symmetric_side` (test/test_matmul_wrappers/test_sketch_symmetric.cc:61-73): the sketch and the side of the data. The tolerance of the symmetry check is the default, 0. -/
def sketchSymmetricSide (E : SkEnv N K W WS R T) (sideSkop : Side) (layout : Layout) (rowsOut colsOut : Int) (alpha : T) (A : Buf T) (lda ro co : Int) (beta : T) (ldb : Int) :
    M (SkOp N K T × Buf T) Side :=
  if sideSkop = .Left then do
    sketchSymmetricL E layout rowsOut colsOut alpha ro co A lda beta ldb 0
    pure .Right
  else do
    sketchSymmetricR E layout rowsOut colsOut alpha A lda ro co beta ldb 0
    pure .Left

/-- `dims_of_sketch_symmetric_output` (test/test_matmul_wrappers/test_sketch_symmetric.cc:75-84). -/
def symmetricOutputDims (d n : Int) (sideSkop : Side) : Int × Int := if sideSkop = .Left then (d, n) else (n, d)

/-- `test_same_layouts` (test/test_matmul_wrappers/test_sketch_symmetric.cc:89-116): the first difference. Simplification: the state of the seed `seed_a + 42` is the argument `seedB`.
The call that is tested is the argument `sk`; it gets the layout, the data and the leading dimension of the result. -/
def testSymSameWith (E : SkEnv N K W WS R T) (sk : Layout → Buf T → Int → M (SkOp N K T × Buf T) Side) (atol rtol : T) (seedA seedB seedSkop : RNGState N K) (ax : Axis) (alpha : T) (d n lda : Int) (beta : T) (side : Side) :
    M Unit (Option (Int × Int)) := do
  let rows := (symmetricOutputDims d n side).1
  let cols := (symmetricOutputDims d n side).2
  let A ← M.onLocal (randomSymmetricMat E n lda seedA) (zeroVec (lda * lda))
  let D ← M.lift (mkDenseDist rows cols .Uniform ax)
  let S ← filledOp E D seedSkop
  let lds := if S.layout = .RowMajor then cols else rows
  let ldb := lds
  let b0 ← M.onLocal (fillDense E.env.sched E.G E.sqrt3 D seedB) (zeroVec (d * n))
  let actual ← M.onLocal (sk S.layout A.2 ldb) (.dense S, b0.2)
  let expect ← M.onLocal (blasSymm S.layout actual.1 .Upper rows cols alpha A.2 lda (ptr S.buff) lds beta ldb) b0.2
  M.lift (matricesApproxEqual1 S.layout .NoTrans rows cols (fltBuf actual.2.2) ldb (fltBuf expect.2) ldb (.fin atol) (.fin rtol))

/-- The test of the library's `sketch_symmetric` (test/test_matmul_wrappers/test_sketch_symmetric.cc:89-116). -/
def testSymSame (E : SkEnv N K W WS R T) (atol rtol : T) (seedA seedB seedSkop : RNGState N K) (ax : Axis) (alpha : T) (d n lda : Int) (beta : T) (side : Side) :
    M Unit (Option (Int × Int)) :=
  testSymSameWith E (fun layout A ldb => sketchSymmetricSide E side layout (symmetricOutputDims d n side).1 (symmetricOutputDims d n side).2 alpha A lda 0 0 beta ldb)
    atol rtol seedA seedB seedSkop ax alpha d n lda beta side

/-- `test_opposing_layouts` (test/test_matmul_wrappers/test_sketch_symmetric.cc:118-156). The vector `S_flipped` starts as a copy of the d * n elements of the operator.
The call that is tested is the argument `sk`. -/
def testSymOpposingWith (E : SkEnv N K W WS R T) (sk : Layout → Buf T → Int → M (SkOp N K T × Buf T) Side) (atol rtol : T) (seedA seedB seedSkop : RNGState N K) (ax : Axis) (alpha : T) (d n lda : Int) (beta : T) (side : Side) :
    M Unit (Option (Int × Int)) := do
  let rows := (symmetricOutputDims d n side).1
  let cols := (symmetricOutputDims d n side).2
  let A ← M.onLocal (randomSymmetricMat E n lda seedA) (zeroVec (lda * lda))
  let D ← M.lift (mkDenseDist rows cols .Uniform ax)
  let S ← filledOp E D seedSkop
  let layoutB := if S.layout = .RowMajor then Layout.ColMajor else Layout.RowMajor
  let ldb := if S.layout = .RowMajor then rows else cols
  let ldsInit := if S.layout = .RowMajor then cols else rows
  let b0 ← M.onLocal (fillDense E.env.sched E.G E.sqrt3 D seedB) (zeroVec (d * n))
  let actual ← M.onLocal (sk layoutB A.2 ldb) (.dense S, b0.2)
  let v ← M.onLocal (flipLayout S.layout rows cols ldsInit ldb) ⟨d * n, fun p => if 0 ≤ p ∧ p < d * n then ptr S.buff p else .none⟩
  let expect ← M.onLocal (blasSymm layoutB actual.1 .Upper rows cols alpha A.2 lda v.2.buf ldb beta ldb) b0.2
  M.lift (matricesApproxEqual1 layoutB .NoTrans rows cols (fltBuf actual.2.2) ldb (fltBuf expect.2) ldb (.fin atol) (.fin rtol))

/-- The test of the library's `sketch_symmetric` (test/test_matmul_wrappers/test_sketch_symmetric.cc:118-156). -/
def testSymOpposing (E : SkEnv N K W WS R T) (atol rtol : T) (seedA seedB seedSkop : RNGState N K) (ax : Axis) (alpha : T) (d n lda : Int) (beta : T) (side : Side) :
    M Unit (Option (Int × Int)) :=
  testSymOpposingWith E (fun layout A ldb => sketchSymmetricSide E side layout (symmetricOutputDims d n side).1 (symmetricOutputDims d n side).2 alpha A lda 0 0 beta ldb)
    atol rtol seedA seedB seedSkop ax alpha d n lda beta side

end
end RB
