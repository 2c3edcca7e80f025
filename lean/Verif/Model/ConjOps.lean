import Verif.Model.Sketch

/-!
# Model: `blas::Op::ConjTrans`

`blas::Op` has three values. The other models have `NoTrans` and `Trans` only; here the functions that take such an argument are modelled again for all three, with the
comparisons of the code: where the code asks for `op == Op::NoTrans`, the third value goes the way of `Trans`; where it asks for `op == Op::Trans`, it goes the way of `NoTrans`.
-/

namespace RB
variable {N : Nat} {K W WS R T : Type}

/-- `blas::Op` (BLAS++). Used to model RandBLAS/skge.hh:196. -/
inductive BlasOp where | NoTrans | Trans | ConjTrans
  deriving DecidableEq, Repr

/-- The branch taken by code that compares only with `Op::NoTrans`. Used to model RandBLAS/sparse_data/spmm_dispatch.hh:48-160. -/
def BlasOp.unlessNo : BlasOp → Op
  | .NoTrans => .NoTrans
  | .Trans => .Trans
  | .ConjTrans => .Trans

/-- The branch taken by code that compares only with `Op::Trans`. Used to model RandBLAS/sparse_data/spmm_dispatch.hh:48-160. -/
def BlasOp.onlyTrans : BlasOp → Op
  | .NoTrans => .NoTrans
  | .Trans => .Trans
  | .ConjTrans => .NoTrans

/-- `(op == Op::NoTrans) ? Op::Trans : Op::NoTrans` (RandBLAS/skge.hh:196, 349, RandBLAS/sparse_data/sksp.hh:178, 322, RandBLAS/sparse_data/spmm_dispatch.hh:194). -/
def BlasOp.flip : BlasOp → BlasOp
  | .NoTrans => .Trans
  | .Trans => .NoTrans
  | .ConjTrans => .NoTrans

/-- `dims_before_op` (RandBLAS/base.hh:220-226). -/
def dimsBeforeOpC (m n : Int) (op : BlasOp) : Int × Int :=
  if op = .NoTrans then (m, n) else (n, m)

/-- `opS` after the comparison of layouts (RandBLAS/skge.hh:194-196, 347-349, RandBLAS/sparse_data/sksp.hh:177-178, 321-322). -/
def opForLayoutC (layoutS layout : Layout) (opS : BlasOp) : BlasOp := if layoutS ≠ layout then opS.flip else opS

/-- `blas::gemm` (BLAS++) for real scalars, where the conjugate transpose is the transpose. Used to model RandBLAS/skge.hh:179-199. -/
def blasGemmC [Zero T] [Add T] [Mul T] [BEq T] (layout : Layout) (opA opB : BlasOp) (m n k : Int) (alpha : T)
    (A : Buf T) (a0 lda : Int) (B : Buf T) (b0 ldb : Int) (beta : T) (c0 ldc : Int) : M (Buf T) Unit :=
  blasGemm layout opA.unlessNo opB.unlessNo m n k alpha A a0 lda B b0 ldb beta c0 ldc

/-- `left_spmm` (RandBLAS/sparse_data/spmm_dispatch.hh:48-160): `opA` is compared with `Op::Trans`, `opB` with `Op::NoTrans`. -/
def leftSpmmC [Zero T] [One T] [Add T] [Mul T] [BEq T] (env : Env T) (layout : Layout) (opA opB : BlasOp) (d n m : Int) (alpha : T)
    (ro co : Int) (B : Buf T) (ldb : Int) (beta : T) (ldc : Int) : M (SpMat T × Buf T) Unit :=
  leftSpmm env layout opA.onlyTrans opB.unlessNo d n m alpha ro co B ldb beta ldc

/-- `right_spmm` (RandBLAS/sparse_data/spmm_dispatch.hh:162-200). -/
def rightSpmmC [Zero T] [One T] [Add T] [Mul T] [BEq T] (env : Env T) (layout : Layout) (opA opB : BlasOp) (m d n : Int) (alpha : T)
    (A : Buf T) (lda : Int) (iOff jOff : Int) (beta : T) (ldc : Int) : M (SpMat T × Buf T) Unit :=
  leftSpmmC env layout.flip opB.flip opA d m n alpha iOff jOff A lda beta ldc

/-- `lskge3` from the null check on (RandBLAS/skge.hh:179-199). -/
def lskge3ViewC [Zero T] [Add T] [Mul T] [BEq T] (layout : Layout) (opS opA : BlasOp) (d n m : Int) (alpha : T) (S : BFO T) (roS coS : Int)
    (A : Buf T) (lda : Int) (beta : T) (ldb : Int) : M (Buf T) Unit := do
  let sb ← S.getBuff
  M.require (S.nRows ≥ (dimsBeforeOpC d m opS).1 + roS)
  M.require (S.nCols ≥ (dimsBeforeOpC d m opS).2 + coS)
  M.require (lda ≥ if layout = .ColMajor then (dimsBeforeOpC m n opA).1 else (dimsBeforeOpC m n opA).2)
  M.require (ldb ≥ if layout = .ColMajor then d else n)
  let p := offsetAndLdim S.layout S.nRows S.nCols roS coS
  blasGemmC layout (opForLayoutC S.layout layout opS) opA d n m alpha sb p.1 p.2 A 0 lda beta 0 ldb

/-- `lskge3` (RandBLAS/skge.hh:152-200). The recursive call is with a `BLASFriendlyOperator`, for which the first branch is not compiled. -/
def lskge3C [Zero T] [Add T] [Mul T] [BEq T] (E : SkEnv N K W WS R T) (layout : Layout) (opS opA : BlasOp) (d n m : Int) (alpha : T)
    (S : DenseSkOp N K T) (roS coS : Int) (A : Buf T) (lda : Int) (beta : T) (ldb : Int) : M (Buf T) Unit :=
  if S.buff.isNone then do
    let sub ← M.lift (submatrixAsBlackbox E.env.sched E.G E.sqrt3 S (dimsBeforeOpC d m opS).1 (dimsBeforeOpC d m opS).2 roS coS)
    lskge3ViewC layout opS opA d n m alpha sub 0 0 A lda beta ldb
  else lskge3ViewC layout opS opA d n m alpha S.view roS coS A lda beta ldb

/-- `rskge3` from the null check on (RandBLAS/skge.hh:332-352). -/
def rskge3ViewC [Zero T] [Add T] [Mul T] [BEq T] (layout : Layout) (opA opS : BlasOp) (m d n : Int) (alpha : T) (A : Buf T) (lda : Int)
    (S : BFO T) (roS coS : Int) (beta : T) (ldb : Int) : M (Buf T) Unit := do
  let sb ← S.getBuff
  M.require (S.nRows ≥ (dimsBeforeOpC n d opS).1 + roS)
  M.require (S.nCols ≥ (dimsBeforeOpC n d opS).2 + coS)
  M.require (lda ≥ if layout = .ColMajor then (dimsBeforeOpC m n opA).1 else (dimsBeforeOpC m n opA).2)
  M.require (ldb ≥ if layout = .ColMajor then m else d)
  let p := offsetAndLdim S.layout S.nRows S.nCols roS coS
  blasGemmC layout opA (opForLayoutC S.layout layout opS) m d n alpha A 0 lda sb p.1 p.2 beta 0 ldb

/-- `rskge3` (RandBLAS/skge.hh:305-353). -/
def rskge3C [Zero T] [Add T] [Mul T] [BEq T] (E : SkEnv N K W WS R T) (layout : Layout) (opA opS : BlasOp) (m d n : Int) (alpha : T) (A : Buf T)
    (lda : Int) (S : DenseSkOp N K T) (roS coS : Int) (beta : T) (ldb : Int) : M (Buf T) Unit :=
  if S.buff.isNone then do
    let sub ← M.lift (submatrixAsBlackbox E.env.sched E.G E.sqrt3 S (dimsBeforeOpC n d opS).1 (dimsBeforeOpC n d opS).2 roS coS)
    rskge3ViewC layout opA opS m d n alpha A lda sub 0 0 beta ldb
  else rskge3ViewC layout opA opS m d n alpha A lda S.view roS coS beta ldb

/-- `lskges` from the view on (RandBLAS/skge.hh:486-488). -/
def lskgesViewC [Field R] [LinearOrder R] [FloorRing R] [Zero T] [One T] [Neg T] [Add T] [Mul T] [BEq T] (E : SkEnv N K W WS R T) (layout : Layout)
    (opS opA : BlasOp) (d n m : Int) (alpha : T) (roS coS : Int) (A : Buf T) (lda : Int) (beta : T) (ldb : Int) :
    M (SparseSkOp N K T × Buf T) Unit := do
  let Scoo ← onSp (cooViewOfSkop E.GS E.sqrt E.order)
  onSkArrays Scoo (leftSpmmC E.env layout opS opA d n m alpha roS coS A lda beta ldb)

/-- `lskges` (RandBLAS/skge.hh:463-490). The recursive call is with the copy, which has `nnz ≥ 0` (otherwise the recursion would not end, which
the model calls undefined). -/
def lskgesC [Field R] [LinearOrder R] [FloorRing R] [Zero T] [One T] [Neg T] [Add T] [Mul T] [BEq T] (E : SkEnv N K W WS R T) (layout : Layout)
    (opS opA : BlasOp) (d n m : Int) (alpha : T) (roS coS : Int) (A : Buf T) (lda : Int) (beta : T) (ldb : Int) :
    M (SparseSkOp N K T × Buf T) Unit := do
  let s ← M.get
  if s.1.nnz < 0 then do
    let S' ← filledCopy E s.1
    M.ubIf (S'.nnz < 0)
    M.zoom (fun s => (S', s.2)) (fun s r => (s.1, r.2)) (lskgesViewC E layout opS opA d n m alpha roS coS A lda beta ldb)
  else lskgesViewC E layout opS opA d n m alpha roS coS A lda beta ldb

/-- `rskges` from the view on (RandBLAS/skge.hh:619-622). -/
def rskgesViewC [Field R] [LinearOrder R] [FloorRing R] [Zero T] [One T] [Neg T] [Add T] [Mul T] [BEq T] (E : SkEnv N K W WS R T) (layout : Layout)
    (opA opS : BlasOp) (m d n : Int) (alpha : T) (A : Buf T) (lda : Int) (roS coS : Int) (beta : T) (ldb : Int) :
    M (SparseSkOp N K T × Buf T) Unit := do
  let Scoo ← onSp (cooViewOfSkop E.GS E.sqrt E.order)
  onSkArrays Scoo (rightSpmmC E.env layout opA opS m d n alpha A lda roS coS beta ldb)

/-- `rskges` (RandBLAS/skge.hh:596-624). There is no `return` after the recursive call: the function goes on with the original operator. -/
def rskgesC [Field R] [LinearOrder R] [FloorRing R] [Zero T] [One T] [Neg T] [Add T] [Mul T] [BEq T] (E : SkEnv N K W WS R T) (layout : Layout)
    (opA opS : BlasOp) (m d n : Int) (alpha : T) (A : Buf T) (lda : Int) (roS coS : Int) (beta : T) (ldb : Int) :
    M (SparseSkOp N K T × Buf T) Unit := do
  let s ← M.get
  M.when (s.1.nnz < 0) (do
    let S' ← filledCopy E s.1
    M.ubIf (S'.nnz < 0)
    M.zoom (fun s => (S', s.2)) (fun s r => (s.1, r.2)) (rskgesViewC E layout opA opS m d n alpha A lda roS coS beta ldb))
  rskgesViewC E layout opA opS m d n alpha A lda roS coS beta ldb

/-- `sketch_general` from the left, with offsets (RandBLAS/skge.hh:773-819, dispatch on the operator type). -/
def sketchGeneralLC [Field R] [LinearOrder R] [FloorRing R] [Zero T] [One T] [Neg T] [Add T] [Mul T] [BEq T] (E : SkEnv N K W WS R T)
    (layout : Layout) (opS opA : BlasOp) (d n m : Int) (alpha : T) (roS coS : Int) (A : Buf T) (lda : Int) (beta : T) (ldb : Int) :
    M (SkOp N K T × Buf T) Unit := do
  let s ← M.get
  match s.1 with
  | .dense S => onC (lskge3C E layout opS opA d n m alpha S roS coS A lda beta ldb)
  | .sparse S => onSkSparse S (lskgesC E layout opS opA d n m alpha roS coS A lda beta ldb)

/-- `sketch_general` from the right, with offsets (RandBLAS/skge.hh:945-990). -/
def sketchGeneralRC [Field R] [LinearOrder R] [FloorRing R] [Zero T] [One T] [Neg T] [Add T] [Mul T] [BEq T] (E : SkEnv N K W WS R T)
    (layout : Layout) (opA opS : BlasOp) (m d n : Int) (alpha : T) (A : Buf T) (lda : Int) (roS coS : Int) (beta : T) (ldb : Int) :
    M (SkOp N K T × Buf T) Unit := do
  let s ← M.get
  match s.1 with
  | .dense S => onC (rskge3C E layout opA opS m d n alpha A lda S roS coS beta ldb)
  | .sparse S => onSkSparse S (rskgesC E layout opA opS m d n alpha A lda roS coS beta ldb)

/-- `sketch_general` from the left with the whole operator (RandBLAS/skge.hh:1071-1095). -/
def sketchGeneralLFullC [Field R] [LinearOrder R] [FloorRing R] [Zero T] [One T] [Neg T] [Add T] [Mul T] [BEq T] (E : SkEnv N K W WS R T)
    (layout : Layout) (opS opA : BlasOp) (d n m : Int) (alpha : T) (A : Buf T) (lda : Int) (beta : T) (ldb : Int) :
    M (SkOp N K T × Buf T) Unit := do
  let s ← M.get
  M.require (s.1.nRows = if opS = .NoTrans then d else m)
  M.require (s.1.nCols = if opS = .NoTrans then m else d)
  sketchGeneralLC E layout opS opA d n m alpha 0 0 A lda beta ldb

/-- `sketch_general` from the right with the whole operator (RandBLAS/skge.hh:1173-1197). -/
def sketchGeneralRFullC [Field R] [LinearOrder R] [FloorRing R] [Zero T] [One T] [Neg T] [Add T] [Mul T] [BEq T] (E : SkEnv N K W WS R T)
    (layout : Layout) (opA opS : BlasOp) (m d n : Int) (alpha : T) (A : Buf T) (lda : Int) (beta : T) (ldb : Int) :
    M (SkOp N K T × Buf T) Unit := do
  let s ← M.get
  M.require (s.1.nRows = if opS = .NoTrans then n else d)
  M.require (s.1.nCols = if opS = .NoTrans then d else n)
  sketchGeneralRC E layout opA opS m d n alpha A lda 0 0 beta ldb

/-- `sketch_vector` with offsets (RandBLAS/skve.hh:140-164). -/
def sketchVectorC [Field R] [LinearOrder R] [FloorRing R] [Zero T] [One T] [Neg T] [Add T] [Mul T] [BEq T] (E : SkEnv N K W WS R T)
    (opS : BlasOp) (d m : Int) (alpha : T) (roS coS : Int) (x : Buf T) (incx : Int) (beta : T) (incy : Int) : M (SkOp N K T × Buf T) Unit :=
  let d' := if opS = .Trans then m else d
  let m' := if opS = .Trans then d else m
  sketchGeneralLC E .RowMajor opS .NoTrans d' 1 m' alpha roS coS x incx beta incy

/-- `sketch_vector` with the whole operator (RandBLAS/skve.hh:232-246). -/
def sketchVectorFullC [Field R] [LinearOrder R] [FloorRing R] [Zero T] [One T] [Neg T] [Add T] [Mul T] [BEq T] (E : SkEnv N K W WS R T)
    (opS : BlasOp) (alpha : T) (x : Buf T) (incx : Int) (beta : T) (incy : Int) : M (SkOp N K T × Buf T) Unit := do
  let s ← M.get
  sketchVectorC E opS s.1.distRows s.1.distCols alpha 0 0 x incx beta incy

/-- `lsksp3` from the null check on (RandBLAS/sparse_data/sksp.hh:163-181). -/
def lsksp3ViewC [Zero T] [One T] [Add T] [Mul T] [BEq T] (env : Env T) (layout : Layout) (opS opA : BlasOp) (d n m : Int) (alpha : T) (S : BFO T)
    (roS coS roA coA : Int) (beta : T) (ldb : Int) : M (SpMat T × Buf T) Unit := do
  let sb ← S.getBuff
  let s ← M.get
  M.require (s.1.numRows ≥ (dimsBeforeOpC m n opA).1 + roA)
  M.require (s.1.numCols ≥ (dimsBeforeOpC m n opA).2 + coA)
  M.require (S.nRows ≥ (dimsBeforeOpC d m opS).1 + roS)
  M.require (S.nCols ≥ (dimsBeforeOpC d m opS).2 + coS)
  M.require (ldb ≥ if layout = .ColMajor then d else n)
  let p := offsetAndLdim S.layout S.nRows S.nCols roS coS
  rightSpmmC env layout (opForLayoutC S.layout layout opS) opA d n m alpha (sb.shift p.1) p.2 roA coA beta ldb

/-- `lsksp3` (RandBLAS/sparse_data/sksp.hh:132-182). The state is the sparse data matrix and `B`. -/
def lsksp3C [Zero T] [One T] [Add T] [Mul T] [BEq T] (E : SkEnv N K W WS R T) (layout : Layout) (opS opA : BlasOp) (d n m : Int) (alpha : T)
    (S : DenseSkOp N K T) (roS coS roA coA : Int) (beta : T) (ldb : Int) : M (SpMat T × Buf T) Unit :=
  if S.buff.isNone then do
    let sub ← M.lift (submatrixAsBlackbox E.env.sched E.G E.sqrt3 S (dimsBeforeOpC d m opS).1 (dimsBeforeOpC d m opS).2 roS coS)
    lsksp3ViewC E.env layout opS opA d n m alpha sub 0 0 roA coA beta ldb
  else lsksp3ViewC E.env layout opS opA d n m alpha S.view roS coS roA coA beta ldb

/-- `rsksp3` from the null check on (RandBLAS/sparse_data/sksp.hh:307-325). -/
def rsksp3ViewC [Zero T] [One T] [Add T] [Mul T] [BEq T] (env : Env T) (layout : Layout) (opA opS : BlasOp) (m d n : Int) (alpha : T)
    (roA coA : Int) (S : BFO T) (roS coS : Int) (beta : T) (ldb : Int) : M (SpMat T × Buf T) Unit := do
  let sb ← S.getBuff
  let s ← M.get
  M.require (s.1.numRows ≥ (dimsBeforeOpC m n opA).1 + roA)
  M.require (s.1.numCols ≥ (dimsBeforeOpC m n opA).2 + coA)
  M.require (S.nRows ≥ (dimsBeforeOpC n d opS).1 + roS)
  M.require (S.nCols ≥ (dimsBeforeOpC n d opS).2 + coS)
  M.require (ldb ≥ if layout = .ColMajor then m else d)
  let p := offsetAndLdim S.layout S.nRows S.nCols roS coS
  leftSpmmC env layout opA (opForLayoutC S.layout layout opS) m d n alpha roA coA (sb.shift p.1) p.2 beta ldb

/-- `rsksp3` (RandBLAS/sparse_data/sksp.hh:277-326). -/
def rsksp3C [Zero T] [One T] [Add T] [Mul T] [BEq T] (E : SkEnv N K W WS R T) (layout : Layout) (opA opS : BlasOp) (m d n : Int) (alpha : T)
    (roA coA : Int) (S : DenseSkOp N K T) (roS coS : Int) (beta : T) (ldb : Int) : M (SpMat T × Buf T) Unit :=
  if S.buff.isNone then do
    let sub ← M.lift (submatrixAsBlackbox E.env.sched E.G E.sqrt3 S (dimsBeforeOpC n d opS).1 (dimsBeforeOpC n d opS).2 roS coS)
    rsksp3ViewC E.env layout opA opS m d n alpha roA coA sub 0 0 beta ldb
  else rsksp3ViewC E.env layout opA opS m d n alpha roA coA S.view roS coS beta ldb

/-- `sketch_sparse` from the left (RandBLAS/sparse_data/sksp.hh:418-437). -/
def sketchSparseLC [Zero T] [One T] [Add T] [Mul T] [BEq T] (E : SkEnv N K W WS R T) (layout : Layout) (opS opA : BlasOp) (d n m : Int) (alpha : T)
    (S : DenseSkOp N K T) (roS coS : Int) (beta : T) (ldb : Int) : M (SpMat T × Buf T) Unit :=
  lsksp3C E layout opS opA d n m alpha S roS coS 0 0 beta ldb

/-- `sketch_sparse` from the right (RandBLAS/sparse_data/sksp.hh:520-539). -/
def sketchSparseRC [Zero T] [One T] [Add T] [Mul T] [BEq T] (E : SkEnv N K W WS R T) (layout : Layout) (opA opS : BlasOp) (m d n : Int) (alpha : T)
    (S : DenseSkOp N K T) (roS coS : Int) (beta : T) (ldb : Int) : M (SpMat T × Buf T) Unit :=
  rsksp3C E layout opA opS m d n alpha 0 0 S roS coS beta ldb

end RB
