import Verif.Model.DenseSkops
import Verif.Model.SparseSkops
import Verif.Model.Spmm
import Verif.Model.Util

/-!
# Model of RandBLAS/skge.hh, skve.hh, sksy.hh and sparse_data/sksp.hh

The state of a left or right product is the buffer of `B` (with a sparse operator or matrix: that object as well). The data matrix and the
operator's data do not overlap `B`.
-/

namespace RB
variable {N : Nat} {K W WS R T : Type}

/-- Everything a sketching call depends on besides its arguments: the execution environment of sparse products, the generator with its
transformations to scalars of dense operators and `(T) sqrt(3)`, the generator for sparse operators, `sqrt` and the iteration orders of
hash maps. Used to model RandBLAS/skge.hh:152-200. -/
structure SkEnv (N : Nat) (K W WS R T : Type) where
  env : Env T
  G : Gen N K W T
  sqrt3 : T
  GS : Gen N K WS R
  sqrt : T → T
  order : Int → List (Int × T) → List (Int × T)

/-! ## Dense operators -/

/-- The operator as the products see it: `BLASFriendlyOperator` or a `DenseSkOp` with a buffer. Used to model RandBLAS/skge.hh:152-200. -/
def DenseSkOp.view (S : DenseSkOp N K T) : BFO T := ⟨S.layout, S.nRows, S.nCols, S.buff, 0⟩

/-- `opS` after the comparison of layouts (RandBLAS/skge.hh:194-195, 347-348, RandBLAS/sparse_data/sksp.hh:177-178, 321-322). -/
def opForLayout (layoutS layout : Layout) (opS : Op) : Op := if layoutS ≠ layout then opS.flip else opS

/-- `S.buff` after `randblas_require( S.buff != nullptr )`. Used to model RandBLAS/skge.hh:179-199. -/
def BFO.getBuff {σ : Type} (S : BFO T) : M σ (Buf T) :=
  match S.buff with
  | some b => pure b
  | none => M.throw .require

/-- `lskge3` from the null check on (RandBLAS/skge.hh:179-199). -/
def lskge3View [Zero T] [Add T] [Mul T] [BEq T] (layout : Layout) (opS opA : Op) (d n m : Int) (alpha : T) (S : BFO T) (roS coS : Int)
    (A : Buf T) (lda : Int) (beta : T) (ldb : Int) : M (Buf T) Unit := do
  let sb ← S.getBuff
  M.require (S.nRows ≥ (dimsBeforeOp d m opS).1 + roS)
  M.require (S.nCols ≥ (dimsBeforeOp d m opS).2 + coS)
  M.require (lda ≥ if layout = .ColMajor then (dimsBeforeOp m n opA).1 else (dimsBeforeOp m n opA).2)
  M.require (ldb ≥ if layout = .ColMajor then d else n)
  let p := offsetAndLdim S.layout S.nRows S.nCols roS coS
  blasGemm layout (opForLayout S.layout layout opS) opA d n m alpha sb p.1 p.2 A 0 lda beta 0 ldb

/-- `lskge3` (RandBLAS/skge.hh:152-200). The recursive call is with a `BLASFriendlyOperator`, for which the first branch is not compiled. -/
def lskge3 [Zero T] [Add T] [Mul T] [BEq T] (E : SkEnv N K W WS R T) (layout : Layout) (opS opA : Op) (d n m : Int) (alpha : T)
    (S : DenseSkOp N K T) (roS coS : Int) (A : Buf T) (lda : Int) (beta : T) (ldb : Int) : M (Buf T) Unit :=
  if S.buff.isNone then do
    let sub ← M.lift (submatrixAsBlackbox E.env.sched E.G E.sqrt3 S (dimsBeforeOp d m opS).1 (dimsBeforeOp d m opS).2 roS coS)
    lskge3View layout opS opA d n m alpha sub 0 0 A lda beta ldb
  else lskge3View layout opS opA d n m alpha S.view roS coS A lda beta ldb

/-- `rskge3` from the null check on (RandBLAS/skge.hh:332-352). -/
def rskge3View [Zero T] [Add T] [Mul T] [BEq T] (layout : Layout) (opA opS : Op) (m d n : Int) (alpha : T) (A : Buf T) (lda : Int)
    (S : BFO T) (roS coS : Int) (beta : T) (ldb : Int) : M (Buf T) Unit := do
  let sb ← S.getBuff
  M.require (S.nRows ≥ (dimsBeforeOp n d opS).1 + roS)
  M.require (S.nCols ≥ (dimsBeforeOp n d opS).2 + coS)
  M.require (lda ≥ if layout = .ColMajor then (dimsBeforeOp m n opA).1 else (dimsBeforeOp m n opA).2)
  M.require (ldb ≥ if layout = .ColMajor then m else d)
  let p := offsetAndLdim S.layout S.nRows S.nCols roS coS
  blasGemm layout opA (opForLayout S.layout layout opS) m d n alpha A 0 lda sb p.1 p.2 beta 0 ldb

/-- `rskge3` (RandBLAS/skge.hh:305-353). -/
def rskge3 [Zero T] [Add T] [Mul T] [BEq T] (E : SkEnv N K W WS R T) (layout : Layout) (opA opS : Op) (m d n : Int) (alpha : T) (A : Buf T)
    (lda : Int) (S : DenseSkOp N K T) (roS coS : Int) (beta : T) (ldb : Int) : M (Buf T) Unit :=
  if S.buff.isNone then do
    let sub ← M.lift (submatrixAsBlackbox E.env.sched E.G E.sqrt3 S (dimsBeforeOp n d opS).1 (dimsBeforeOp n d opS).2 roS coS)
    rskge3View layout opA opS m d n alpha A lda sub 0 0 beta ldb
  else rskge3View layout opA opS m d n alpha A lda S.view roS coS beta ldb

/-! ## Sparse operators -/

/-- Run a product on a COO matrix that shares the arrays of the sparse operator. Used to model RandBLAS/skge.hh:486-488. -/
def onSkArrays (A : CooMat T) (m : M (SpMat T × Buf T) Unit) : M (SparseSkOp N K T × Buf T) Unit :=
  M.zoom (fun s : SparseSkOp N K T × Buf T => (SpMat.coo A, s.2))
    (fun s r => match r.1 with
      | .coo A' => ({ s.1 with vals := A'.vals, rows := A'.rows, cols := A'.cols }, r.2)
      | _ => (s.1, r.2)) m

/-- `coo_view_of_skop` (RandBLAS/sparse_skops.hh:640-645). -/
def cooViewOfSkop [Field R] [LinearOrder R] [FloorRing R] [Zero T] [One T] [Neg T] [Add T] [Mul T] (G : Gen N K WS R)
    (sqrt : T → T) (order : Int → List (Int × T) → List (Int × T)) : M (SparseSkOp N K T) (CooMat T) := do
  let S ← M.get
  M.when (S.nnz ≤ 0) (fillSparse G sqrt order)
  let S ← M.get
  M.lift (mkCooExpert S.nRows S.nCols S.nnz S.vals S.rows S.cols true .Zero)

/-- `SparseSkOp shallowcopy(S.dist, S.seed_state); fill_sparse(shallowcopy);` (RandBLAS/skge.hh:481-482, 614-615). -/
def filledCopy {σ : Type} [Field R] [LinearOrder R] [FloorRing R] [Zero T] [One T] [Neg T] [Add T] [Mul T] (E : SkEnv N K W WS R T)
    (S : SparseSkOp N K T) : M σ (SparseSkOp N K T) := do
  let r ← M.onLocal (fillSparse E.GS E.sqrt E.order) (mkSparseSkOp E.GS.len S.dist S.seedState)
  pure r.2

/-- `lskges` from the view on (RandBLAS/skge.hh:486-488). -/
def lskgesView [Field R] [LinearOrder R] [FloorRing R] [Zero T] [One T] [Neg T] [Add T] [Mul T] [BEq T] (E : SkEnv N K W WS R T) (layout : Layout)
    (opS opA : Op) (d n m : Int) (alpha : T) (roS coS : Int) (A : Buf T) (lda : Int) (beta : T) (ldb : Int) :
    M (SparseSkOp N K T × Buf T) Unit := do
  let Scoo ← onSp (cooViewOfSkop E.GS E.sqrt E.order)
  onSkArrays Scoo (leftSpmm E.env layout opS opA d n m alpha roS coS A lda beta ldb)

/-- `lskges` (RandBLAS/skge.hh:463-490). The recursive call is with the copy, which has `nnz ≥ 0` (otherwise the recursion would not end, which
the model calls undefined). -/
def lskges [Field R] [LinearOrder R] [FloorRing R] [Zero T] [One T] [Neg T] [Add T] [Mul T] [BEq T] (E : SkEnv N K W WS R T) (layout : Layout)
    (opS opA : Op) (d n m : Int) (alpha : T) (roS coS : Int) (A : Buf T) (lda : Int) (beta : T) (ldb : Int) :
    M (SparseSkOp N K T × Buf T) Unit := do
  let s ← M.get
  if s.1.nnz < 0 then do
    let S' ← filledCopy E s.1
    M.ubIf (S'.nnz < 0)
    M.zoom (fun s => (S', s.2)) (fun s r => (s.1, r.2)) (lskgesView E layout opS opA d n m alpha roS coS A lda beta ldb)
  else lskgesView E layout opS opA d n m alpha roS coS A lda beta ldb

/-- `rskges` from the view on (RandBLAS/skge.hh:619-622). -/
def rskgesView [Field R] [LinearOrder R] [FloorRing R] [Zero T] [One T] [Neg T] [Add T] [Mul T] [BEq T] (E : SkEnv N K W WS R T) (layout : Layout)
    (opA opS : Op) (m d n : Int) (alpha : T) (A : Buf T) (lda : Int) (roS coS : Int) (beta : T) (ldb : Int) :
    M (SparseSkOp N K T × Buf T) Unit := do
  let Scoo ← onSp (cooViewOfSkop E.GS E.sqrt E.order)
  onSkArrays Scoo (rightSpmm E.env layout opA opS m d n alpha A lda roS coS beta ldb)

/-- `rskges` (RandBLAS/skge.hh:596-624). There is no `return` after the recursive call: the function goes on with the original operator. -/
def rskges [Field R] [LinearOrder R] [FloorRing R] [Zero T] [One T] [Neg T] [Add T] [Mul T] [BEq T] (E : SkEnv N K W WS R T) (layout : Layout)
    (opA opS : Op) (m d n : Int) (alpha : T) (A : Buf T) (lda : Int) (roS coS : Int) (beta : T) (ldb : Int) :
    M (SparseSkOp N K T × Buf T) Unit := do
  let s ← M.get
  M.when (s.1.nnz < 0) (do
    let S' ← filledCopy E s.1
    M.ubIf (S'.nnz < 0)
    M.zoom (fun s => (S', s.2)) (fun s r => (s.1, r.2)) (rskgesView E layout opA opS m d n alpha A lda roS coS beta ldb))
  rskgesView E layout opA opS m d n alpha A lda roS coS beta ldb

/-! ## sketch_general -/

/-- A sketching operator of either kind. Used to model RandBLAS/skge.hh:773-819. -/
inductive SkOp (N : Nat) (K T : Type) where
  | dense (S : DenseSkOp N K T)
  | sparse (S : SparseSkOp N K T)

/-- `S.n_rows`. Used to model RandBLAS/skge.hh:773-819. -/
def SkOp.nRows : SkOp N K T → Int | .dense S => S.nRows | .sparse S => S.nRows
/-- `S.n_cols`. Used to model RandBLAS/skge.hh:773-819. -/
def SkOp.nCols : SkOp N K T → Int | .dense S => S.nCols | .sparse S => S.nCols
/-- `S.dist.n_rows`. Used to model RandBLAS/skve.hh:232-246. -/
def SkOp.distRows : SkOp N K T → Int | .dense S => S.dist.nRows | .sparse S => S.dist.nRows
/-- `S.dist.n_cols`. Used to model RandBLAS/skve.hh:232-246. -/
def SkOp.distCols : SkOp N K T → Int | .dense S => S.dist.nCols | .sparse S => S.dist.nCols

/-- Run on the sparse operator `S` that is the operator of the state. Used to model RandBLAS/skge.hh:773-819. -/
def onSkSparse (S : SparseSkOp N K T) (m : M (SparseSkOp N K T × Buf T) Unit) : M (SkOp N K T × Buf T) Unit :=
  M.zoom (fun s : SkOp N K T × Buf T => (S, s.2)) (fun _ r => (SkOp.sparse r.1, r.2)) m

/-- `sketch_general` from the left, with offsets (RandBLAS/skge.hh:773-819, dispatch on the operator type). -/
def sketchGeneralL [Field R] [LinearOrder R] [FloorRing R] [Zero T] [One T] [Neg T] [Add T] [Mul T] [BEq T] (E : SkEnv N K W WS R T)
    (layout : Layout) (opS opA : Op) (d n m : Int) (alpha : T) (roS coS : Int) (A : Buf T) (lda : Int) (beta : T) (ldb : Int) :
    M (SkOp N K T × Buf T) Unit := do
  let s ← M.get
  match s.1 with
  | .dense S => onC (lskge3 E layout opS opA d n m alpha S roS coS A lda beta ldb)
  | .sparse S => onSkSparse S (lskges E layout opS opA d n m alpha roS coS A lda beta ldb)

/-- `sketch_general` from the right, with offsets (RandBLAS/skge.hh:945-990). -/
def sketchGeneralR [Field R] [LinearOrder R] [FloorRing R] [Zero T] [One T] [Neg T] [Add T] [Mul T] [BEq T] (E : SkEnv N K W WS R T)
    (layout : Layout) (opA opS : Op) (m d n : Int) (alpha : T) (A : Buf T) (lda : Int) (roS coS : Int) (beta : T) (ldb : Int) :
    M (SkOp N K T × Buf T) Unit := do
  let s ← M.get
  match s.1 with
  | .dense S => onC (rskge3 E layout opA opS m d n alpha A lda S roS coS beta ldb)
  | .sparse S => onSkSparse S (rskges E layout opA opS m d n alpha A lda roS coS beta ldb)

/-- `sketch_general` from the left with the whole operator (RandBLAS/skge.hh:1071-1095). -/
def sketchGeneralLFull [Field R] [LinearOrder R] [FloorRing R] [Zero T] [One T] [Neg T] [Add T] [Mul T] [BEq T] (E : SkEnv N K W WS R T)
    (layout : Layout) (opS opA : Op) (d n m : Int) (alpha : T) (A : Buf T) (lda : Int) (beta : T) (ldb : Int) :
    M (SkOp N K T × Buf T) Unit := do
  let s ← M.get
  M.require (s.1.nRows = if opS = .NoTrans then d else m)
  M.require (s.1.nCols = if opS = .NoTrans then m else d)
  sketchGeneralL E layout opS opA d n m alpha 0 0 A lda beta ldb

/-- `sketch_general` from the right with the whole operator (RandBLAS/skge.hh:1173-1197). -/
def sketchGeneralRFull [Field R] [LinearOrder R] [FloorRing R] [Zero T] [One T] [Neg T] [Add T] [Mul T] [BEq T] (E : SkEnv N K W WS R T)
    (layout : Layout) (opA opS : Op) (m d n : Int) (alpha : T) (A : Buf T) (lda : Int) (beta : T) (ldb : Int) :
    M (SkOp N K T × Buf T) Unit := do
  let s ← M.get
  M.require (s.1.nRows = if opS = .NoTrans then n else d)
  M.require (s.1.nCols = if opS = .NoTrans then d else n)
  sketchGeneralR E layout opA opS m d n alpha A lda 0 0 beta ldb

/-! ## sketch_vector -/

/-- `sketch_vector` with offsets (RandBLAS/skve.hh:140-164). -/
def sketchVector [Field R] [LinearOrder R] [FloorRing R] [Zero T] [One T] [Neg T] [Add T] [Mul T] [BEq T] (E : SkEnv N K W WS R T)
    (opS : Op) (d m : Int) (alpha : T) (roS coS : Int) (x : Buf T) (incx : Int) (beta : T) (incy : Int) : M (SkOp N K T × Buf T) Unit :=
  let d' := if opS = .Trans then m else d
  let m' := if opS = .Trans then d else m
  sketchGeneralL E .RowMajor opS .NoTrans d' 1 m' alpha roS coS x incx beta incy

/-- `sketch_vector` with the whole operator (RandBLAS/skve.hh:232-246). -/
def sketchVectorFull [Field R] [LinearOrder R] [FloorRing R] [Zero T] [One T] [Neg T] [Add T] [Mul T] [BEq T] (E : SkEnv N K W WS R T)
    (opS : Op) (alpha : T) (x : Buf T) (incx : Int) (beta : T) (incy : Int) : M (SkOp N K T × Buf T) Unit := do
  let s ← M.get
  sketchVector E opS s.1.distRows s.1.distCols alpha 0 0 x incx beta incy

/-! ## sketch_symmetric -/

/-- `sketch_symmetric` from the right, with offsets (RandBLAS/sksy.hh:158-177): B is n x d. -/
def sketchSymmetricR [Field R] [LinearOrder R] [FloorRing R] [Field T] [LinearOrder T] (E : SkEnv N K W WS R T)
    (layout : Layout) (n d : Int) (alpha : T) (A : Buf T) (lda : Int) (roS coS : Int) (beta : T) (ldb : Int) (tol : T) :
    M (SkOp N K T × Buf T) Unit := do
  M.lift (requireSymmetric layout A n lda tol)
  sketchGeneralR E layout .NoTrans .NoTrans n d n alpha A lda roS coS beta ldb

/-- `sketch_symmetric` from the left, with offsets (RandBLAS/sksy.hh:293-312): B is d x n. -/
def sketchSymmetricL [Field R] [LinearOrder R] [FloorRing R] [Field T] [LinearOrder T] (E : SkEnv N K W WS R T)
    (layout : Layout) (d n : Int) (alpha : T) (roS coS : Int) (A : Buf T) (lda : Int) (beta : T) (ldb : Int) (tol : T) :
    M (SkOp N K T × Buf T) Unit := do
  M.lift (requireSymmetric layout A n lda tol)
  sketchGeneralL E layout .NoTrans .NoTrans d n n alpha roS coS A lda beta ldb

/-- `sketch_symmetric` from the right with the whole operator (RandBLAS/sksy.hh:406-423). -/
def sketchSymmetricRFull [Field R] [LinearOrder R] [FloorRing R] [Field T] [LinearOrder T] (E : SkEnv N K W WS R T)
    (layout : Layout) (alpha : T) (A : Buf T) (lda : Int) (beta : T) (ldb : Int) (tol : T) : M (SkOp N K T × Buf T) Unit := do
  let s ← M.get
  sketchSymmetricR E layout s.1.distRows s.1.distCols alpha A lda 0 0 beta ldb tol

/-- `sketch_symmetric` from the left with the whole operator (RandBLAS/sksy.hh:513-530). -/
def sketchSymmetricLFull [Field R] [LinearOrder R] [FloorRing R] [Field T] [LinearOrder T] (E : SkEnv N K W WS R T)
    (layout : Layout) (alpha : T) (A : Buf T) (lda : Int) (beta : T) (ldb : Int) (tol : T) : M (SkOp N K T × Buf T) Unit := do
  let s ← M.get
  sketchSymmetricL E layout s.1.distRows s.1.distCols alpha 0 0 A lda beta ldb tol

/-! ## sketch_sparse -/

/-- `A.n_rows` of a sparse matrix of any type. Used to model RandBLAS/sparse_data/sksp.hh:163-181. -/
def SpMat.numRows : SpMat T → Int | .coo A => A.nRows | .csc A => A.nRows | .csr A => A.nRows
/-- `A.n_cols`. Used to model RandBLAS/sparse_data/sksp.hh:163-181. -/
def SpMat.numCols : SpMat T → Int | .coo A => A.nCols | .csc A => A.nCols | .csr A => A.nCols

/-- `lsksp3` from the null check on (RandBLAS/sparse_data/sksp.hh:163-181). -/
def lsksp3View [Zero T] [One T] [Add T] [Mul T] [BEq T] (env : Env T) (layout : Layout) (opS opA : Op) (d n m : Int) (alpha : T) (S : BFO T)
    (roS coS roA coA : Int) (beta : T) (ldb : Int) : M (SpMat T × Buf T) Unit := do
  let sb ← S.getBuff
  let s ← M.get
  M.require (s.1.numRows ≥ (dimsBeforeOp m n opA).1 + roA)
  M.require (s.1.numCols ≥ (dimsBeforeOp m n opA).2 + coA)
  M.require (S.nRows ≥ (dimsBeforeOp d m opS).1 + roS)
  M.require (S.nCols ≥ (dimsBeforeOp d m opS).2 + coS)
  M.require (ldb ≥ if layout = .ColMajor then d else n)
  let p := offsetAndLdim S.layout S.nRows S.nCols roS coS
  rightSpmm env layout (opForLayout S.layout layout opS) opA d n m alpha (sb.shift p.1) p.2 roA coA beta ldb

/-- `lsksp3` (RandBLAS/sparse_data/sksp.hh:132-182). The state is the sparse data matrix and `B`. -/
def lsksp3 [Zero T] [One T] [Add T] [Mul T] [BEq T] (E : SkEnv N K W WS R T) (layout : Layout) (opS opA : Op) (d n m : Int) (alpha : T)
    (S : DenseSkOp N K T) (roS coS roA coA : Int) (beta : T) (ldb : Int) : M (SpMat T × Buf T) Unit :=
  if S.buff.isNone then do
    let sub ← M.lift (submatrixAsBlackbox E.env.sched E.G E.sqrt3 S (dimsBeforeOp d m opS).1 (dimsBeforeOp d m opS).2 roS coS)
    lsksp3View E.env layout opS opA d n m alpha sub 0 0 roA coA beta ldb
  else lsksp3View E.env layout opS opA d n m alpha S.view roS coS roA coA beta ldb

/-- `rsksp3` from the null check on (RandBLAS/sparse_data/sksp.hh:307-325). -/
def rsksp3View [Zero T] [One T] [Add T] [Mul T] [BEq T] (env : Env T) (layout : Layout) (opA opS : Op) (m d n : Int) (alpha : T)
    (roA coA : Int) (S : BFO T) (roS coS : Int) (beta : T) (ldb : Int) : M (SpMat T × Buf T) Unit := do
  let sb ← S.getBuff
  let s ← M.get
  M.require (s.1.numRows ≥ (dimsBeforeOp m n opA).1 + roA)
  M.require (s.1.numCols ≥ (dimsBeforeOp m n opA).2 + coA)
  M.require (S.nRows ≥ (dimsBeforeOp n d opS).1 + roS)
  M.require (S.nCols ≥ (dimsBeforeOp n d opS).2 + coS)
  M.require (ldb ≥ if layout = .ColMajor then m else d)
  let p := offsetAndLdim S.layout S.nRows S.nCols roS coS
  leftSpmm env layout opA (opForLayout S.layout layout opS) m d n alpha roA coA (sb.shift p.1) p.2 beta ldb

/-- `rsksp3` (RandBLAS/sparse_data/sksp.hh:277-326). -/
def rsksp3 [Zero T] [One T] [Add T] [Mul T] [BEq T] (E : SkEnv N K W WS R T) (layout : Layout) (opA opS : Op) (m d n : Int) (alpha : T)
    (roA coA : Int) (S : DenseSkOp N K T) (roS coS : Int) (beta : T) (ldb : Int) : M (SpMat T × Buf T) Unit :=
  if S.buff.isNone then do
    let sub ← M.lift (submatrixAsBlackbox E.env.sched E.G E.sqrt3 S (dimsBeforeOp n d opS).1 (dimsBeforeOp n d opS).2 roS coS)
    rsksp3View E.env layout opA opS m d n alpha roA coA sub 0 0 beta ldb
  else rsksp3View E.env layout opA opS m d n alpha roA coA S.view roS coS beta ldb

/-- `sketch_sparse` from the left (RandBLAS/sparse_data/sksp.hh:418-437). -/
def sketchSparseL [Zero T] [One T] [Add T] [Mul T] [BEq T] (E : SkEnv N K W WS R T) (layout : Layout) (opS opA : Op) (d n m : Int) (alpha : T)
    (S : DenseSkOp N K T) (roS coS : Int) (beta : T) (ldb : Int) : M (SpMat T × Buf T) Unit :=
  lsksp3 E layout opS opA d n m alpha S roS coS 0 0 beta ldb

/-- `sketch_sparse` from the right (RandBLAS/sparse_data/sksp.hh:520-539). -/
def sketchSparseR [Zero T] [One T] [Add T] [Mul T] [BEq T] (E : SkEnv N K W WS R T) (layout : Layout) (opA opS : Op) (m d n : Int) (alpha : T)
    (S : DenseSkOp N K T) (roS coS : Int) (beta : T) (ldb : Int) : M (SpMat T × Buf T) Unit :=
  rsksp3 E layout opA opS m d n alpha 0 0 S roS coS beta ldb

end RB
