import Verif.Model.Sketch

/-!
# Stores into shared operators and sparse matrices

The sketching and product functions once more, for the question whether calls in different threads can share an operator or a sparse
matrix. The state is that of the functions in `Model/Spmm.lean` and `Model/Sketch.lean` with a list of the locations of the shared object
that the call has stored to. The value of every load and store, and the outcome, are those of the other model
(`Lemmas/Shared.lean`, `erase` theorems); only stores to the shared object are added to the list. Stores to `B` or `C` and to local arrays
are not in the list: they are not shared.
-/

namespace RB
variable {N : Nat} {K W WS R T : Type}

/-- A location of an operator or sparse matrix: an element of one of its arrays or a data member of the object itself
(`sort`, or `nnz` and the pointers). Used to model RandBLAS/sparse_data/coo_matrix.hh:299-343. -/
inductive Loc where
  | vals (i : Int)
  | rows (i : Int)
  | cols (i : Int)
  | object
  deriving DecidableEq, Repr

/-- Code that stores nothing to the shared object. Used to model RandBLAS/sparse_data/coo_matrix.hh:299-343. -/
def quiet {σ α : Type} (m : M σ α) : M (σ × List Loc) α := M.zoom Prod.fst (fun s a => (a, s.2)) m

/-- A store to location `p` of the shared object. Used to model RandBLAS/sparse_data/coo_matrix.hh:299-343. -/
def noting {σ α : Type} (p : Loc) (m : M σ α) : M (σ × List Loc) α := do
  let a ← quiet m
  M.modify fun s => (s.1, s.2 ++ [p])
  pure a

/-- Code on a part of the state. Used to model RandBLAS/sparse_data/coo_matrix.hh:345-350. -/
def zoomL {σ τ α : Type} (get : σ → τ) (put : σ → τ → σ) (m : M (τ × List Loc) α) : M (σ × List Loc) α :=
  M.zoom (fun s => (get s.1, s.2)) (fun s r => (put s.1 r.1, r.2)) m

/-- The part of `sort_coo_data` after the early returns (RandBLAS/sparse_data/coo_matrix.hh:299-343). -/
def sortCooWorkL (srt : (Int × Int × T → Int × Int × T → Bool) → List (Int × Int × T) → List (Int × Int × T)) (s : NonzeroSort) (nnz : Int) :
    M (CooBufs T × List Loc) Unit := do
  quiet (M.when (nnz < 0) (M.throw .runtime))  -- std::vector::reserve
  let nonzeros ← quiet (foldI 0 nnz (fun ell (l : List (Int × Int × T)) => do
    let r ← onCRows (M.rd ell)
    let c ← onCCols (M.rd ell)
    let v ← onCVals (M.rd ell)
    pure (l ++ [(r, c, v)])) [])
  forI 0 nnz fun ell => do
    let t ← quiet (M.lift ((Buf.ofList (srt (sortLt s) nonzeros)).rd ell))
    noting (.vals ell) (onCVals (M.wr ell t.2.2))
    noting (.rows ell) (onCRows (M.wr ell t.1))
    noting (.cols ell) (onCCols (M.wr ell t.2.1))

/-- `sort_coo_data(s, nnz, vals, rows, cols)` (RandBLAS/sparse_data/coo_matrix.hh:292-343). -/
def sortCooRawL (srt : (Int × Int × T → Int × Int × T → Bool) → List (Int × Int × T) → List (Int × Int × T)) (s : NonzeroSort) (nnz : Int) :
    M (CooBufs T × List Loc) Unit :=
  if s = .None then pure ()
  else do
    let b ← M.get
    let curr ← quiet (M.lift (cooSortType nnz b.1.rows b.1.cols))
    M.when (curr ≠ s) (sortCooWorkL srt s nnz)

/-- `sort_coo_data(s, spmat)` (RandBLAS/sparse_data/coo_matrix.hh:345-350). -/
def sortCooDataL (srt : (Int × Int × T → Int × Int × T → Bool) → List (Int × Int × T) → List (Int × Int × T)) (s : NonzeroSort) :
    M (CooMat T × List Loc) Unit := do
  let A ← M.get
  zoomL CooMat.bufs CooMat.withBufs (sortCooRawL srt s A.1.nnz)
  noting .object (M.modify fun A => { A with sort := s })

/-- `apply_coo_left_jki_p11` (RandBLAS/sparse_data/coo_spmm_impl.hh:80-163). -/
def cooLeftJkiL [Zero T] [Add T] [Mul T] (srt : (Int × Int × T → Int × Int × T → Bool) → List (Int × Int × T) → List (Int × Int × T))
    (sched : List Nat) (alpha : T) (layoutB layoutC : Layout) (d n m : Int) (ro co : Int) (B : Buf T) (ldb ldc : Int) :
    M ((CooMat T × Buf T) × List Loc) Unit := do
  let s ← M.get
  quiet (M.require (s.1.1.indexBase = .Zero))
  if s.1.1.sort ≠ .CSC then do
    zoomL Prod.fst (fun s b => (b, s.2)) (sortCooDataL srt .CSC)
    let s1 ← M.get
    quiet (onC (cooLeftCsc sched alpha layoutB layoutC d n m s1.1.1 ro co B ldb ldc))
    zoomL Prod.fst (fun s b => (b, s.2)) (sortCooDataL srt s.1.1.sort)
  else
    quiet (onC (cooLeftCsc sched alpha layoutB layoutC d n m s.1.1 ro co B ldb ldc))

/-- `left_spmm` for an untransposed COO matrix (RandBLAS/sparse_data/spmm_dispatch.hh:86-160). -/
def leftSpmmCooNL [Zero T] [Add T] [Mul T] [BEq T] (srt : (Int × Int × T → Int × Int × T → Bool) → List (Int × Int × T) → List (Int × Int × T))
    (sched : List Nat) (layout : Layout) (opB : Op) (d n m : Int) (alpha : T)
    (ro co : Int) (B : Buf T) (ldb : Int) (beta : T) (ldc : Int) : M ((CooMat T × Buf T) × List Loc) Unit := do
  let s ← M.get
  quiet (M.require (s.1.1.indexBase = .Zero))
  quiet (M.require (s.1.1.nRows ≥ d))
  quiet (M.require (s.1.1.nCols ≥ m))
  quiet (onC (spmmScale layout opB d n m ldb beta ldc))
  if alpha == 0 then pure ()
  else cooLeftJkiL srt sched alpha (layoutOp layout opB) layout d n m ro co B ldb ldc

/-- The location of the matrix behind a location of a transposed view, which exchanges the row and the column array. The view is a local
object (RandBLAS/sparse_data/spmm_dispatch.hh:71-84), so its own members are not shared. -/
def Loc.swap : Loc → Option Loc
  | .vals i => some (.vals i)
  | .rows i => some (.cols i)
  | .cols i => some (.rows i)
  | .object => none

/-- Run on the COO matrix `A` that is the sparse matrix of the state. Used to model RandBLAS/sparse_data/spmm_dispatch.hh:48-160. -/
def asCooL (A : CooMat T) (m : M ((CooMat T × Buf T) × List Loc) Unit) : M ((SpMat T × Buf T) × List Loc) Unit :=
  zoomL (fun s : SpMat T × Buf T => (A, s.2)) (fun _ r => (SpMat.coo r.1, r.2)) m

/-- Run on the view `At`, which shares its arrays with the COO matrix `A` of the state, rows and columns exchanged. Used to model RandBLAS/sparse_data/spmm_dispatch.hh:48-160. -/
def asCooTL (A At : CooMat T) (m : M ((CooMat T × Buf T) × List Loc) Unit) : M ((SpMat T × Buf T) × List Loc) Unit :=
  M.zoom (fun s : (SpMat T × Buf T) × List Loc => ((At, s.1.2), []))
    (fun s r => ((SpMat.coo { A with vals := r.1.1.vals, rows := r.1.1.cols, cols := r.1.1.rows }, r.1.2), s.2 ++ r.2.filterMap Loc.swap)) m

/-- `left_spmm` (RandBLAS/sparse_data/spmm_dispatch.hh:48-160). The functions for CSC and CSR matrices, and the transposed views of such
matrices, only load from the arrays of the matrix. -/
def leftSpmmL [Zero T] [One T] [Add T] [Mul T] [BEq T] (env : Env T) (layout : Layout) (opA opB : Op) (d n m : Int) (alpha : T)
    (ro co : Int) (B : Buf T) (ldb : Int) (beta : T) (ldc : Int) : M ((SpMat T × Buf T) × List Loc) Unit := do
  let s ← M.get
  match s.1.1, opA with
  | .coo A, .NoTrans => asCooL A (leftSpmmCooNL env.srt env.sched layout opB d n m alpha ro co B ldb beta ldc)
  | .coo A, .Trans => do
    let At ← quiet (M.lift (cooTranspose A))
    asCooTL A At (leftSpmmCooNL env.srt env.sched layout opB d n m alpha co ro B ldb beta ldc)
  | .csc A, .NoTrans => quiet (onC (leftSpmmCscN env.sched env.nt layout opB d n m alpha A ro co B ldb beta ldc))
  | .csc A, .Trans => do
    let At ← quiet (M.lift (transposeAsCsr A true))
    quiet (onC (leftSpmmCsrN env.sched layout opB d n m alpha At co ro B ldb beta ldc))
  | .csr A, .NoTrans => quiet (onC (leftSpmmCsrN env.sched layout opB d n m alpha A ro co B ldb beta ldc))
  | .csr A, .Trans => do
    let At ← quiet (M.lift (transposeAsCsc A true))
    quiet (onC (leftSpmmCscN env.sched env.nt layout opB d n m alpha At co ro B ldb beta ldc))

/-- `right_spmm` (RandBLAS/sparse_data/spmm_dispatch.hh:162-200). -/
def rightSpmmL [Zero T] [One T] [Add T] [Mul T] [BEq T] (env : Env T) (layout : Layout) (opA opB : Op) (m d n : Int) (alpha : T)
    (A : Buf T) (lda : Int) (iOff jOff : Int) (beta : T) (ldc : Int) : M ((SpMat T × Buf T) × List Loc) Unit :=
  leftSpmmL env layout.flip opB.flip opA d m n alpha iOff jOff A lda beta ldc

/-! ## Sparse operators -/

/-- Run a product on a COO matrix that shares the arrays of the sparse operator. The matrix is a local object: its own members are not
shared. Used to model RandBLAS/skge.hh:486-488. -/
def onSkArraysL (A : CooMat T) (m : M ((SpMat T × Buf T) × List Loc) Unit) : M ((SparseSkOp N K T × Buf T) × List Loc) Unit :=
  M.zoom (fun s : (SparseSkOp N K T × Buf T) × List Loc => ((SpMat.coo A, s.1.2), []))
    (fun s r => (match r.1.1 with
      | .coo A' => ({ s.1.1 with vals := A'.vals, rows := A'.rows, cols := A'.cols }, r.1.2)
      | _ => (s.1.1, r.1.2), s.2 ++ r.2.filter (· ≠ .object))) m

/-- `coo_view_of_skop` (RandBLAS/sparse_skops.hh:640-645). `fill_sparse` stores `nnz` and, if they are null, the array pointers of the
operator; the stores to the arrays are not listed separately. -/
def cooViewOfSkopL [Field R] [LinearOrder R] [FloorRing R] [Zero T] [One T] [Neg T] [Add T] [Mul T] (G : Gen N K WS R)
    (sqrt : T → T) (order : Int → List (Int × T) → List (Int × T)) : M (SparseSkOp N K T × List Loc) (CooMat T) := do
  let S ← M.get
  M.when (S.1.nnz ≤ 0) (noting .object (fillSparse G sqrt order))
  let S ← M.get
  quiet (M.lift (mkCooExpert S.1.nRows S.1.nCols S.1.nnz S.1.vals S.1.rows S.1.cols true .Zero))

/-- `lskges` from the view on (RandBLAS/skge.hh:486-488). -/
def lskgesViewL [Field R] [LinearOrder R] [FloorRing R] [Zero T] [One T] [Neg T] [Add T] [Mul T] [BEq T] (E : SkEnv N K W WS R T)
    (layout : Layout) (opS opA : Op) (d n m : Int) (alpha : T) (roS coS : Int) (A : Buf T) (lda : Int) (beta : T) (ldb : Int) :
    M ((SparseSkOp N K T × Buf T) × List Loc) Unit := do
  let Scoo ← zoomL Prod.fst (fun s b => (b, s.2)) (cooViewOfSkopL E.GS E.sqrt E.order)
  onSkArraysL Scoo (leftSpmmL E.env layout opS opA d n m alpha roS coS A lda beta ldb)

/-- `lskges` (RandBLAS/skge.hh:463-490). The operator in the recursive call is a local object with its own arrays. -/
def lskgesL [Field R] [LinearOrder R] [FloorRing R] [Zero T] [One T] [Neg T] [Add T] [Mul T] [BEq T] (E : SkEnv N K W WS R T) (layout : Layout)
    (opS opA : Op) (d n m : Int) (alpha : T) (roS coS : Int) (A : Buf T) (lda : Int) (beta : T) (ldb : Int) :
    M ((SparseSkOp N K T × Buf T) × List Loc) Unit := do
  let s ← M.get
  if s.1.1.nnz < 0 then do
    let S' ← quiet (filledCopy E s.1.1)
    quiet (M.ubIf (S'.nnz < 0))
    quiet (M.zoom (fun s => (S', s.2)) (fun s r => (s.1, r.2)) (lskgesView E layout opS opA d n m alpha roS coS A lda beta ldb))
  else lskgesViewL E layout opS opA d n m alpha roS coS A lda beta ldb

/-- `rskges` from the view on (RandBLAS/skge.hh:619-622). -/
def rskgesViewL [Field R] [LinearOrder R] [FloorRing R] [Zero T] [One T] [Neg T] [Add T] [Mul T] [BEq T] (E : SkEnv N K W WS R T)
    (layout : Layout) (opA opS : Op) (m d n : Int) (alpha : T) (A : Buf T) (lda : Int) (roS coS : Int) (beta : T) (ldb : Int) :
    M ((SparseSkOp N K T × Buf T) × List Loc) Unit := do
  let Scoo ← zoomL Prod.fst (fun s b => (b, s.2)) (cooViewOfSkopL E.GS E.sqrt E.order)
  onSkArraysL Scoo (rightSpmmL E.env layout opA opS m d n alpha A lda roS coS beta ldb)

/-- `rskges` (RandBLAS/skge.hh:596-624). There is no `return` after the recursive call: the function goes on with the original operator. -/
def rskgesL [Field R] [LinearOrder R] [FloorRing R] [Zero T] [One T] [Neg T] [Add T] [Mul T] [BEq T] (E : SkEnv N K W WS R T) (layout : Layout)
    (opA opS : Op) (m d n : Int) (alpha : T) (A : Buf T) (lda : Int) (roS coS : Int) (beta : T) (ldb : Int) :
    M ((SparseSkOp N K T × Buf T) × List Loc) Unit := do
  let s ← M.get
  quiet (M.when (s.1.1.nnz < 0) (do
    let S' ← filledCopy E s.1.1
    M.ubIf (S'.nnz < 0)
    M.zoom (fun s => (S', s.2)) (fun s r => (s.1, r.2)) (rskgesView E layout opA opS m d n alpha A lda roS coS beta ldb)))
  rskgesViewL E layout opA opS m d n alpha A lda roS coS beta ldb

/-! ## sketch_general and sketch_sparse -/

/-- Run on the sparse operator `S` that is the operator of the state. Used to model RandBLAS/skge.hh:773-819. -/
def onSkSparseL (S : SparseSkOp N K T) (m : M ((SparseSkOp N K T × Buf T) × List Loc) Unit) : M ((SkOp N K T × Buf T) × List Loc) Unit :=
  zoomL (fun s : SkOp N K T × Buf T => (S, s.2)) (fun _ r => (SkOp.sparse r.1, r.2)) m

/-- `sketch_general` from the left, with offsets (RandBLAS/skge.hh:773-819). `lskge3` takes the operator by const reference and stores to
`B` and to a local copy of the operator only (RandBLAS/skge.hh:152-200). -/
def sketchGeneralLL [Field R] [LinearOrder R] [FloorRing R] [Zero T] [One T] [Neg T] [Add T] [Mul T] [BEq T] (E : SkEnv N K W WS R T)
    (layout : Layout) (opS opA : Op) (d n m : Int) (alpha : T) (roS coS : Int) (A : Buf T) (lda : Int) (beta : T) (ldb : Int) :
    M ((SkOp N K T × Buf T) × List Loc) Unit := do
  let s ← M.get
  match s.1.1 with
  | .dense S => quiet (onC (lskge3 E layout opS opA d n m alpha S roS coS A lda beta ldb))
  | .sparse S => onSkSparseL S (lskgesL E layout opS opA d n m alpha roS coS A lda beta ldb)

/-- `sketch_general` from the right, with offsets (RandBLAS/skge.hh:945-990). -/
def sketchGeneralRL [Field R] [LinearOrder R] [FloorRing R] [Zero T] [One T] [Neg T] [Add T] [Mul T] [BEq T] (E : SkEnv N K W WS R T)
    (layout : Layout) (opA opS : Op) (m d n : Int) (alpha : T) (A : Buf T) (lda : Int) (roS coS : Int) (beta : T) (ldb : Int) :
    M ((SkOp N K T × Buf T) × List Loc) Unit := do
  let s ← M.get
  match s.1.1 with
  | .dense S => quiet (onC (rskge3 E layout opA opS m d n alpha A lda S roS coS beta ldb))
  | .sparse S => onSkSparseL S (rskgesL E layout opA opS m d n alpha A lda roS coS beta ldb)

/-- `lsksp3` from the null check on (RandBLAS/sparse_data/sksp.hh:163-181). -/
def lsksp3ViewL [Zero T] [One T] [Add T] [Mul T] [BEq T] (env : Env T) (layout : Layout) (opS opA : Op) (d n m : Int) (alpha : T) (S : BFO T)
    (roS coS roA coA : Int) (beta : T) (ldb : Int) : M ((SpMat T × Buf T) × List Loc) Unit := do
  let sb ← quiet S.getBuff
  let s ← M.get
  quiet (M.require (s.1.1.numRows ≥ (dimsBeforeOp m n opA).1 + roA))
  quiet (M.require (s.1.1.numCols ≥ (dimsBeforeOp m n opA).2 + coA))
  quiet (M.require (S.nRows ≥ (dimsBeforeOp d m opS).1 + roS))
  quiet (M.require (S.nCols ≥ (dimsBeforeOp d m opS).2 + coS))
  quiet (M.require (ldb ≥ if layout = .ColMajor then d else n))
  rightSpmmL env layout (opForLayout S.layout layout opS) opA d n m alpha (sb.shift (offsetAndLdim S.layout S.nRows S.nCols roS coS).1)
    (offsetAndLdim S.layout S.nRows S.nCols roS coS).2 roA coA beta ldb

/-- `sketch_sparse` from the left (RandBLAS/sparse_data/sksp.hh:418-437), which calls `lsksp3` (:132-182). The shared object is the sparse
data matrix. -/
def sketchSparseLL [Zero T] [One T] [Add T] [Mul T] [BEq T] (E : SkEnv N K W WS R T) (layout : Layout) (opS opA : Op) (d n m : Int) (alpha : T)
    (S : DenseSkOp N K T) (roS coS : Int) (beta : T) (ldb : Int) : M ((SpMat T × Buf T) × List Loc) Unit :=
  if S.buff.isNone then do
    let sub ← quiet (M.lift (submatrixAsBlackbox E.env.sched E.G E.sqrt3 S (dimsBeforeOp d m opS).1 (dimsBeforeOp d m opS).2 roS coS))
    lsksp3ViewL E.env layout opS opA d n m alpha sub 0 0 0 0 beta ldb
  else lsksp3ViewL E.env layout opS opA d n m alpha S.view roS coS 0 0 beta ldb

/-- `rsksp3` from the null check on (RandBLAS/sparse_data/sksp.hh:307-325). -/
def rsksp3ViewL [Zero T] [One T] [Add T] [Mul T] [BEq T] (env : Env T) (layout : Layout) (opA opS : Op) (m d n : Int) (alpha : T)
    (roA coA : Int) (S : BFO T) (roS coS : Int) (beta : T) (ldb : Int) : M ((SpMat T × Buf T) × List Loc) Unit := do
  let sb ← quiet S.getBuff
  let s ← M.get
  quiet (M.require (s.1.1.numRows ≥ (dimsBeforeOp m n opA).1 + roA))
  quiet (M.require (s.1.1.numCols ≥ (dimsBeforeOp m n opA).2 + coA))
  quiet (M.require (S.nRows ≥ (dimsBeforeOp n d opS).1 + roS))
  quiet (M.require (S.nCols ≥ (dimsBeforeOp n d opS).2 + coS))
  quiet (M.require (ldb ≥ if layout = .ColMajor then m else d))
  leftSpmmL env layout opA (opForLayout S.layout layout opS) m d n alpha roA coA (sb.shift (offsetAndLdim S.layout S.nRows S.nCols roS coS).1)
    (offsetAndLdim S.layout S.nRows S.nCols roS coS).2 beta ldb

/-- `sketch_sparse` from the right (RandBLAS/sparse_data/sksp.hh:520-539), which calls `rsksp3` (:277-326). -/
def sketchSparseRL [Zero T] [One T] [Add T] [Mul T] [BEq T] (E : SkEnv N K W WS R T) (layout : Layout) (opA opS : Op) (m d n : Int) (alpha : T)
    (S : DenseSkOp N K T) (roS coS : Int) (beta : T) (ldb : Int) : M ((SpMat T × Buf T) × List Loc) Unit :=
  if S.buff.isNone then do
    let sub ← quiet (M.lift (submatrixAsBlackbox E.env.sched E.G E.sqrt3 S (dimsBeforeOp n d opS).1 (dimsBeforeOp n d opS).2 roS coS))
    rsksp3ViewL E.env layout opA opS m d n alpha 0 0 sub 0 0 beta ldb
  else rsksp3ViewL E.env layout opA opS m d n alpha 0 0 S.view roS coS beta ldb

end RB
