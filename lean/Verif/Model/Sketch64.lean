import Verif.Model.Sketch
import Verif.Model.Dense64
import Verif.Model.Sparse64
import Verif.Model.Spmm64

/-!
# Model of RandBLAS/skge.hh and sparse_data/sksp.hh with machine integers

The functions of `Model/Sketch.lean` once more, with every intermediate result of type `int64_t` checked; a result that is not representable is
undefined. The index type of sparse operators and matrices has `w` bits. `gemm` is external and computes with integers.
-/

namespace RB
variable {N : Nat} {K W WS R T : Type}

/-- `offset_and_ldim` (RandBLAS/base.hh:233-243). -/
def offsetAndLdim64 (layout : Layout) (nRows nCols roS coS : Int) : Res (Int × Int) :=
  if layout = .ColMajor then do
    let p ← i64 (nRows * coS)
    let q ← i64 (roS + p)
    pure (q, nRows)
  else do
    let p ← i64 (roS * nCols)
    let q ← i64 (p + coS)
    pure (q, nCols)

/-- `randblas_require( bound >= len + off )`. Used to model RandBLAS/skge.hh:179-199. -/
def requireEnd64 {σ : Type} (bound len off : Int) : M σ Unit := do
  let e ← M.lift (i64 (len + off))
  M.require (bound ≥ e)

/-- `submatrix_as_blackbox` (RandBLAS/dense_skops.hh:652-664). -/
def submatrixAsBlackbox64 [Mul T] (sched : List Nat) (G : Gen N K W T) (sqrt3 : T) (S : DenseSkOp N K T)
    (nRows nCols roS coS : Int) : Res (BFO T) := do
  let endRow ← i64 (roS + nRows)
  Res.require (endRow ≤ S.nRows)
  let endCol ← i64 (coS + nCols)
  Res.require (endCol ≤ S.nCols)
  let size ← i64 (nRows * nCols)
  if size < 0 then .throw .runtime
  else
    match fillDenseUnpacked64 sched G sqrt3 S.layout S.dist nRows nCols roS coS S.seedState (Buf.alloc T size) with
    | (.ok _, b) => .ok { layout := S.layout, nRows := nRows, nCols := nCols, buff := some b, ldim := S.dist.dimMajor }
    | (.throw e, _) => .throw e
    | (.ub, _) => .ub

/-- `lskge3` from the null check on (RandBLAS/skge.hh:179-199). -/
def lskge3View64 [Zero T] [Add T] [Mul T] [BEq T] (layout : Layout) (opS opA : Op) (d n m : Int) (alpha : T) (S : BFO T) (roS coS : Int)
    (A : Buf T) (lda : Int) (beta : T) (ldb : Int) : M (Buf T) Unit := do
  let sb ← S.getBuff
  requireEnd64 S.nRows (dimsBeforeOp d m opS).1 roS
  requireEnd64 S.nCols (dimsBeforeOp d m opS).2 coS
  M.require (lda ≥ if layout = .ColMajor then (dimsBeforeOp m n opA).1 else (dimsBeforeOp m n opA).2)
  M.require (ldb ≥ if layout = .ColMajor then d else n)
  let p ← M.lift (offsetAndLdim64 S.layout S.nRows S.nCols roS coS)
  blasGemm layout (opForLayout S.layout layout opS) opA d n m alpha sb p.1 p.2 A 0 lda beta 0 ldb

/-- `lskge3` (RandBLAS/skge.hh:152-200). -/
def lskge3_64 [Zero T] [Add T] [Mul T] [BEq T] (E : SkEnv N K W WS R T) (layout : Layout) (opS opA : Op) (d n m : Int) (alpha : T)
    (S : DenseSkOp N K T) (roS coS : Int) (A : Buf T) (lda : Int) (beta : T) (ldb : Int) : M (Buf T) Unit :=
  if S.buff.isNone then do
    let sub ← M.lift (submatrixAsBlackbox64 E.env.sched E.G E.sqrt3 S (dimsBeforeOp d m opS).1 (dimsBeforeOp d m opS).2 roS coS)
    lskge3View64 layout opS opA d n m alpha sub 0 0 A lda beta ldb
  else lskge3View64 layout opS opA d n m alpha S.view roS coS A lda beta ldb

/-- `rskge3` from the null check on (RandBLAS/skge.hh:332-352). -/
def rskge3View64 [Zero T] [Add T] [Mul T] [BEq T] (layout : Layout) (opA opS : Op) (m d n : Int) (alpha : T) (A : Buf T) (lda : Int)
    (S : BFO T) (roS coS : Int) (beta : T) (ldb : Int) : M (Buf T) Unit := do
  let sb ← S.getBuff
  requireEnd64 S.nRows (dimsBeforeOp n d opS).1 roS
  requireEnd64 S.nCols (dimsBeforeOp n d opS).2 coS
  M.require (lda ≥ if layout = .ColMajor then (dimsBeforeOp m n opA).1 else (dimsBeforeOp m n opA).2)
  M.require (ldb ≥ if layout = .ColMajor then m else d)
  let p ← M.lift (offsetAndLdim64 S.layout S.nRows S.nCols roS coS)
  blasGemm layout opA (opForLayout S.layout layout opS) m d n alpha A 0 lda sb p.1 p.2 beta 0 ldb

/-- `rskge3` (RandBLAS/skge.hh:305-353). -/
def rskge3_64 [Zero T] [Add T] [Mul T] [BEq T] (E : SkEnv N K W WS R T) (layout : Layout) (opA opS : Op) (m d n : Int) (alpha : T) (A : Buf T)
    (lda : Int) (S : DenseSkOp N K T) (roS coS : Int) (beta : T) (ldb : Int) : M (Buf T) Unit :=
  if S.buff.isNone then do
    let sub ← M.lift (submatrixAsBlackbox64 E.env.sched E.G E.sqrt3 S (dimsBeforeOp n d opS).1 (dimsBeforeOp n d opS).2 roS coS)
    rskge3View64 layout opA opS m d n alpha A lda sub 0 0 beta ldb
  else rskge3View64 layout opA opS m d n alpha A lda S.view roS coS beta ldb

/-- `coo_view_of_skop` (RandBLAS/sparse_skops.hh:640-645). -/
def cooViewOfSkop64 [Field R] [LinearOrder R] [FloorRing R] [Zero T] [One T] [Neg T] [Add T] [Mul T] (w : Nat) (G : Gen N K WS R)
    (sqrt : T → T) (order : Int → List (Int × T) → List (Int × T)) : M (SparseSkOp N K T) (CooMat T) := do
  let S ← M.get
  M.when (S.nnz ≤ 0) (fillSparseW w G sqrt order)
  let S ← M.get
  M.lift (mkCooExpert S.nRows S.nCols S.nnz S.vals S.rows S.cols true .Zero)

/-- `SparseSkOp shallowcopy(S.dist, S.seed_state); fill_sparse(shallowcopy);` (RandBLAS/skge.hh:481-482, 614-615). -/
def filledCopy64 {σ : Type} [Field R] [LinearOrder R] [FloorRing R] [Zero T] [One T] [Neg T] [Add T] [Mul T] (w : Nat) (E : SkEnv N K W WS R T)
    (S : SparseSkOp N K T) : M σ (SparseSkOp N K T) := do
  let r ← M.onLocal (fillSparseW w E.GS E.sqrt E.order) (mkSparseSkOp E.GS.len S.dist S.seedState)
  pure r.2

/-- `lskges` from the view on (RandBLAS/skge.hh:486-488). -/
def lskgesView64 [Field R] [LinearOrder R] [FloorRing R] [Zero T] [One T] [Neg T] [Add T] [Mul T] [BEq T] (w : Nat) (E : SkEnv N K W WS R T)
    (layout : Layout) (opS opA : Op) (d n m : Int) (alpha : T) (roS coS : Int) (A : Buf T) (lda : Int) (beta : T) (ldb : Int) :
    M (SparseSkOp N K T × Buf T) Unit := do
  let Scoo ← onSp (cooViewOfSkop64 w E.GS E.sqrt E.order)
  onSkArrays Scoo (leftSpmm64 w E.env layout opS opA d n m alpha roS coS A lda beta ldb)

/-- `lskges` (RandBLAS/skge.hh:463-490). -/
def lskges64 [Field R] [LinearOrder R] [FloorRing R] [Zero T] [One T] [Neg T] [Add T] [Mul T] [BEq T] (w : Nat) (E : SkEnv N K W WS R T)
    (layout : Layout) (opS opA : Op) (d n m : Int) (alpha : T) (roS coS : Int) (A : Buf T) (lda : Int) (beta : T) (ldb : Int) :
    M (SparseSkOp N K T × Buf T) Unit := do
  let s ← M.get
  if s.1.nnz < 0 then do
    let S' ← filledCopy64 w E s.1
    M.ubIf (S'.nnz < 0)
    M.zoom (fun s => (S', s.2)) (fun s r => (s.1, r.2)) (lskgesView64 w E layout opS opA d n m alpha roS coS A lda beta ldb)
  else lskgesView64 w E layout opS opA d n m alpha roS coS A lda beta ldb

/-- `rskges` from the view on (RandBLAS/skge.hh:619-622). -/
def rskgesView64 [Field R] [LinearOrder R] [FloorRing R] [Zero T] [One T] [Neg T] [Add T] [Mul T] [BEq T] (w : Nat) (E : SkEnv N K W WS R T)
    (layout : Layout) (opA opS : Op) (m d n : Int) (alpha : T) (A : Buf T) (lda : Int) (roS coS : Int) (beta : T) (ldb : Int) :
    M (SparseSkOp N K T × Buf T) Unit := do
  let Scoo ← onSp (cooViewOfSkop64 w E.GS E.sqrt E.order)
  onSkArrays Scoo (rightSpmm64 w E.env layout opA opS m d n alpha A lda roS coS beta ldb)

/-- `rskges` (RandBLAS/skge.hh:596-624). -/
def rskges64 [Field R] [LinearOrder R] [FloorRing R] [Zero T] [One T] [Neg T] [Add T] [Mul T] [BEq T] (w : Nat) (E : SkEnv N K W WS R T)
    (layout : Layout) (opA opS : Op) (m d n : Int) (alpha : T) (A : Buf T) (lda : Int) (roS coS : Int) (beta : T) (ldb : Int) :
    M (SparseSkOp N K T × Buf T) Unit := do
  let s ← M.get
  M.when (s.1.nnz < 0) (do
    let S' ← filledCopy64 w E s.1
    M.ubIf (S'.nnz < 0)
    M.zoom (fun s => (S', s.2)) (fun s r => (s.1, r.2)) (rskgesView64 w E layout opA opS m d n alpha A lda roS coS beta ldb))
  rskgesView64 w E layout opA opS m d n alpha A lda roS coS beta ldb

/-- `sketch_general` from the left, with offsets (RandBLAS/skge.hh:773-819). -/
def sketchGeneralL64 [Field R] [LinearOrder R] [FloorRing R] [Zero T] [One T] [Neg T] [Add T] [Mul T] [BEq T] (w : Nat) (E : SkEnv N K W WS R T)
    (layout : Layout) (opS opA : Op) (d n m : Int) (alpha : T) (roS coS : Int) (A : Buf T) (lda : Int) (beta : T) (ldb : Int) :
    M (SkOp N K T × Buf T) Unit := do
  let s ← M.get
  match s.1 with
  | .dense S => onC (lskge3_64 E layout opS opA d n m alpha S roS coS A lda beta ldb)
  | .sparse S => onSkSparse S (lskges64 w E layout opS opA d n m alpha roS coS A lda beta ldb)

/-- `sketch_general` from the right, with offsets (RandBLAS/skge.hh:945-990). -/
def sketchGeneralR64 [Field R] [LinearOrder R] [FloorRing R] [Zero T] [One T] [Neg T] [Add T] [Mul T] [BEq T] (w : Nat) (E : SkEnv N K W WS R T)
    (layout : Layout) (opA opS : Op) (m d n : Int) (alpha : T) (A : Buf T) (lda : Int) (roS coS : Int) (beta : T) (ldb : Int) :
    M (SkOp N K T × Buf T) Unit := do
  let s ← M.get
  match s.1 with
  | .dense S => onC (rskge3_64 E layout opA opS m d n alpha A lda S roS coS beta ldb)
  | .sparse S => onSkSparse S (rskges64 w E layout opA opS m d n alpha A lda roS coS beta ldb)

/-- `lsksp3` from the null check on (RandBLAS/sparse_data/sksp.hh:163-181). -/
def lsksp3View64 [Zero T] [One T] [Add T] [Mul T] [BEq T] (w : Nat) (env : Env T) (layout : Layout) (opS opA : Op) (d n m : Int) (alpha : T)
    (S : BFO T) (roS coS roA coA : Int) (beta : T) (ldb : Int) : M (SpMat T × Buf T) Unit := do
  let sb ← S.getBuff
  let s ← M.get
  requireEnd64 s.1.numRows (dimsBeforeOp m n opA).1 roA
  requireEnd64 s.1.numCols (dimsBeforeOp m n opA).2 coA
  requireEnd64 S.nRows (dimsBeforeOp d m opS).1 roS
  requireEnd64 S.nCols (dimsBeforeOp d m opS).2 coS
  M.require (ldb ≥ if layout = .ColMajor then d else n)
  let p ← M.lift (offsetAndLdim64 S.layout S.nRows S.nCols roS coS)
  rightSpmm64 w env layout (opForLayout S.layout layout opS) opA d n m alpha (sb.shift p.1) p.2 roA coA beta ldb

/-- `lsksp3` (RandBLAS/sparse_data/sksp.hh:132-182). -/
def lsksp3_64 [Zero T] [One T] [Add T] [Mul T] [BEq T] (w : Nat) (E : SkEnv N K W WS R T) (layout : Layout) (opS opA : Op) (d n m : Int) (alpha : T)
    (S : DenseSkOp N K T) (roS coS roA coA : Int) (beta : T) (ldb : Int) : M (SpMat T × Buf T) Unit :=
  if S.buff.isNone then do
    let sub ← M.lift (submatrixAsBlackbox64 E.env.sched E.G E.sqrt3 S (dimsBeforeOp d m opS).1 (dimsBeforeOp d m opS).2 roS coS)
    lsksp3View64 w E.env layout opS opA d n m alpha sub 0 0 roA coA beta ldb
  else lsksp3View64 w E.env layout opS opA d n m alpha S.view roS coS roA coA beta ldb

/-- `rsksp3` from the null check on (RandBLAS/sparse_data/sksp.hh:307-325). -/
def rsksp3View64 [Zero T] [One T] [Add T] [Mul T] [BEq T] (w : Nat) (env : Env T) (layout : Layout) (opA opS : Op) (m d n : Int) (alpha : T)
    (roA coA : Int) (S : BFO T) (roS coS : Int) (beta : T) (ldb : Int) : M (SpMat T × Buf T) Unit := do
  let sb ← S.getBuff
  let s ← M.get
  requireEnd64 s.1.numRows (dimsBeforeOp m n opA).1 roA
  requireEnd64 s.1.numCols (dimsBeforeOp m n opA).2 coA
  requireEnd64 S.nRows (dimsBeforeOp n d opS).1 roS
  requireEnd64 S.nCols (dimsBeforeOp n d opS).2 coS
  M.require (ldb ≥ if layout = .ColMajor then m else d)
  let p ← M.lift (offsetAndLdim64 S.layout S.nRows S.nCols roS coS)
  leftSpmm64 w env layout opA (opForLayout S.layout layout opS) m d n alpha roA coA (sb.shift p.1) p.2 beta ldb

/-- `rsksp3` (RandBLAS/sparse_data/sksp.hh:277-326). -/
def rsksp3_64 [Zero T] [One T] [Add T] [Mul T] [BEq T] (w : Nat) (E : SkEnv N K W WS R T) (layout : Layout) (opA opS : Op) (m d n : Int) (alpha : T)
    (roA coA : Int) (S : DenseSkOp N K T) (roS coS : Int) (beta : T) (ldb : Int) : M (SpMat T × Buf T) Unit :=
  if S.buff.isNone then do
    let sub ← M.lift (submatrixAsBlackbox64 E.env.sched E.G E.sqrt3 S (dimsBeforeOp n d opS).1 (dimsBeforeOp n d opS).2 roS coS)
    rsksp3View64 w E.env layout opA opS m d n alpha roA coA sub 0 0 beta ldb
  else rsksp3View64 w E.env layout opA opS m d n alpha roA coA S.view roS coS beta ldb

/-- `sketch_sparse` from the left (RandBLAS/sparse_data/sksp.hh:418-437). -/
def sketchSparseL64 [Zero T] [One T] [Add T] [Mul T] [BEq T] (w : Nat) (E : SkEnv N K W WS R T) (layout : Layout) (opS opA : Op) (d n m : Int)
    (alpha : T) (S : DenseSkOp N K T) (roS coS : Int) (beta : T) (ldb : Int) : M (SpMat T × Buf T) Unit :=
  lsksp3_64 w E layout opS opA d n m alpha S roS coS 0 0 beta ldb

/-- `sketch_sparse` from the right (RandBLAS/sparse_data/sksp.hh:520-539). -/
def sketchSparseR64 [Zero T] [One T] [Add T] [Mul T] [BEq T] (w : Nat) (E : SkEnv N K W WS R T) (layout : Layout) (opA opS : Op) (m d n : Int)
    (alpha : T) (S : DenseSkOp N K T) (roS coS : Int) (beta : T) (ldb : Int) : M (SpMat T × Buf T) Unit :=
  rsksp3_64 w E layout opA opS m d n alpha 0 0 S roS coS beta ldb

end RB
