import Verif.Model.FisherYates
import Verif.Model.Sampling
import Mathlib.Algebra.Order.Floor.Ring
import Mathlib.Algebra.Order.Archimedean.Basic
import Mathlib.Data.Rat.Floor

/-! # Model of RandBLAS/sparse_skops.hh -/

namespace RB
variable {N : Nat} {K W R T : Type}

/-- `SparseDist` (RandBLAS/sparse_skops.hh:125-219). `isometry_scale` is modelled separately (`Model/Isometry.lean`). -/
structure SparseDist where
  nRows : Int
  nCols : Int
  majorAxis : Axis
  dimMajor : Int
  dimMinor : Int
  vecNnz : Int
  fullNnz : Int
  deriving DecidableEq, Repr

/-- The `SparseDist` constructor (RandBLAS/sparse_skops.hh:196-214). -/
def mkSparseDist (nRows nCols vecNnz : Int) (majorAxis : Axis) : Res SparseDist := do
  let dimMajor := if majorAxis = .Short then min nRows nCols else max nRows nCols
  let dimMinor := nRows + nCols - dimMajor
  Res.require (nRows > 0)
  Res.require (nCols > 0)
  Res.require (vecNnz > 0)
  Res.require (vecNnz ≤ dimMajor)
  pure { nRows := nRows, nCols := nCols, majorAxis := majorAxis, dimMajor := dimMajor, dimMinor := dimMinor, vecNnz := vecNnz,
         fullNnz := vecNnz * dimMinor }

/-- `compute_next_state(SparseDist, RNGState)` (RandBLAS/sparse_skops.hh:243-260). The quotient of doubles is a rational
number here (exact for numbers below 2^53). -/
def sparseNextState (lenC : Int) (D : SparseDist) (state : RNGState N K) : RNGState N K :=
  let numMavec := if D.majorAxis = .Short then max D.nRows D.nCols else min D.nRows D.nCols
  let incrs := if D.majorAxis = .Short then D.vecNnz else ⌈(D.vecNnz : ℚ) / ((lenC : ℚ) / 2)⌉
  state.incr (numMavec * incrs)

/-- `SparseSkOp` (RandBLAS/sparse_skops.hh:267-427). Null pointers are `none`. -/
structure SparseSkOp (N : Nat) (K T : Type) where
  dist : SparseDist
  seedState : RNGState N K
  nextState : RNGState N K
  nRows : Int
  nCols : Int
  ownMemory : Bool
  nnz : Int
  vals : Option (Buf T)
  rows : Option (Buf Int)
  cols : Option (Buf Int)

/-- The standard constructor (RandBLAS/sparse_skops.hh:371-380). -/
def mkSparseSkOp (lenC : Int) (dist : SparseDist) (seed : RNGState N K) : SparseSkOp N K T :=
  { dist := dist, seedState := seed, nextState := sparseNextState lenC dist seed, nRows := dist.nRows, nCols := dist.nCols,
    ownMemory := true, nnz := -1, vals := none, rows := none, cols := none }

/-! ## `std::unordered_map` (external) as an association list; the iteration order is a parameter where it matters -/

/-- `map.find(key)`. Used to model RandBLAS/sparse_skops.hh:449-454. -/
def mapGet {κ V : Type} [DecidableEq κ] (m : List (κ × V)) (key : κ) : Option V :=
  match m with
  | [] => none
  | (k, v) :: m => if k = key then some v else mapGet m key

/-- `map[key] = v`. Used to model RandBLAS/sparse_skops.hh:449-454. -/
def mapSet {κ V : Type} [DecidableEq κ] (m : List (κ × V)) (key : κ) (v : V) : List (κ × V) :=
  match m with
  | [] => [(key, v)]
  | (k, w) :: m => if k = key then (key, v) :: m else (k, w) :: mapSet m key v

/-- The arrays the long-axis sampling code writes: `idxs_lax`, `idxs_sax`, `vals`. Used to model RandBLAS/sparse_skops.hh:460-465. -/
structure LaxBufs (T : Type) where
  lax : Buf Int
  sax : Buf Int
  vals : Buf T

/-- Access to `idxs_lax`. Used to model RandBLAS/sparse_skops.hh:460-465. -/
def onLax {α : Type} (m : M (Buf Int) α) : M (LaxBufs T) α := M.zoom LaxBufs.lax (fun s b => { s with lax := b }) m
/-- Access to `idxs_sax`. Used to model RandBLAS/sparse_skops.hh:429-468. -/
def onSax {α : Type} (m : M (Buf Int) α) : M (LaxBufs T) α := M.zoom LaxBufs.sax (fun s b => { s with sax := b }) m
/-- Access to `vals`. Used to model RandBLAS/sparse_skops.hh:460-465. -/
def onLVals {α : Type} (m : M (Buf T) α) : M (LaxBufs T) α := M.zoom LaxBufs.vals (fun s b => { s with vals := b }) m

/-- The updates of `loc2count` and `loc2scale` for one sample (RandBLAS/sparse_skops.hh:449-454). -/
def lasoCount [Zero T] [One T] [Add T] (ell : Int) (val : T) (maps : List (Int × T) × List (Int × T)) : List (Int × T) × List (Int × T) :=
  match mapGet maps.2 ell with
  | some _ => (mapSet maps.1 ell ((mapGet maps.1 ell).getD 0 + 1), maps.2)
  | none => (mapSet maps.1 ell 1, mapSet maps.2 ell val)

/-- The loop over the map (RandBLAS/sparse_skops.hh:460-465), over the (key, count) pairs in iteration order. `loc2scale[ell]` of
a missing key would be the value-initialised scalar. -/
def lasoWrite [Zero T] [Mul T] (sqrt : T → T) (scale : List (Int × T)) (off : Int) (l : List (Int × T)) (count : Int) :
    M (LaxBufs T) Unit :=
  match l with
  | [] => pure ()
  | (ell, c) :: l => do
    onLax (M.wr (off + count) ell)
    onLVals (M.wr (off + count) (sqrt c * (mapGet scale ell).getD 0))
    lasoWrite sqrt scale off l (count + 1)

/-- `laso_merge_long_axis_vector_coo_data` (RandBLAS/sparse_skops.hh:429-468) at `vals + off`, `idxs_lax + off`, `idxs_sax + off`.
`order` gives the iteration order of `loc2count`. Returns `loc2count.size()`. -/
def lasoMerge [Zero T] [One T] [Add T] [Mul T] (sqrt : T → T) (order : List (Int × T) → List (Int × T)) (vecNnz off i : Int) :
    M (LaxBufs T) Int := do
  let (loc2count, loc2scale) ← foldI 0 vecNnz (fun j (maps : List (Int × T) × List (Int × T)) => do
    onSax (M.wr (off + j) i)
    let ell ← onLax (M.rd (off + j))
    let val ← onLVals (M.rd (off + j))
    pure (lasoCount ell val maps)) ([], [])
  M.when ((loc2scale.length : Int) < vecNnz) (lasoWrite sqrt loc2scale off (order loc2count) 0)
  pure loc2count.length

/-- `fill_sparse_unpacked_nosub`, long-axis branch (RandBLAS/sparse_skops.hh:508-541). `order i` is the iteration order of the map for
vector `i`. Returns the number of nonzeros and the state. -/
def fillLaso [Field R] [LinearOrder R] [FloorRing R] [Zero T] [One T] [Neg T] [Add T] [Mul T] (G : Gen N K W R) (sqrt : T → T)
    (order : Int → List (Int × T) → List (Int × T)) (D : SparseDist) (seed : RNGState N K) : M (LaxBufs T) (Int × RNGState N K) :=
  foldI 0 D.dimMinor (fun i (acc : Int × RNGState N K) => do
    let state ← M.zoom (fun s => UnifBufs.mk s.lax s.vals) (fun s u => { s with lax := u.samples, vals := u.rademachers })
      (sampleIndicesIidUniform G true D.dimMajor D.vecNnz acc.1 acc.2)
    let count ← lasoMerge sqrt (order i) D.vecNnz acc.1 i
    pure (acc.1 + count, state)) (0, seed)

/-- The arrays of a COO representation. Used to model RandBLAS/sparse_skops.hh:501-502. -/
structure CooBufs (T : Type) where
  vals : Buf T
  rows : Buf Int
  cols : Buf Int

/-- The short-axis view: `idxs_short` is `rows` if `n_rows <= n_cols`, otherwise `cols` (RandBLAS/sparse_skops.hh:501-502). -/
def CooBufs.toSk (D : SparseDist) (s : CooBufs T) : SkBufs T :=
  if D.nRows ≤ D.nCols then { major := s.rows, minor := some s.cols, vals := some s.vals }
  else { major := s.cols, minor := some s.rows, vals := some s.vals }

/-- Write back (the arrays are non-null). Used to model RandBLAS/sparse_skops.hh:491-542. -/
def CooBufs.ofSk (D : SparseDist) (s : CooBufs T) (k : SkBufs T) : CooBufs T :=
  if D.nRows ≤ D.nCols then { vals := k.vals.getD s.vals, rows := k.major, cols := k.minor.getD s.cols }
  else { vals := k.vals.getD s.vals, rows := k.minor.getD s.rows, cols := k.major }

/-- The long-axis view. Used to model RandBLAS/sparse_skops.hh:491-542. -/
def CooBufs.toLax (D : SparseDist) (s : CooBufs T) : LaxBufs T :=
  if D.nRows ≤ D.nCols then { lax := s.cols, sax := s.rows, vals := s.vals } else { lax := s.rows, sax := s.cols, vals := s.vals }

/-- Write back. Used to model RandBLAS/sparse_skops.hh:491-542. -/
def CooBufs.ofLax (D : SparseDist) (_ : CooBufs T) (l : LaxBufs T) : CooBufs T :=
  if D.nRows ≤ D.nCols then { vals := l.vals, rows := l.sax, cols := l.lax } else { vals := l.vals, rows := l.lax, cols := l.sax }

/-- `fill_sparse_unpacked_nosub` (RandBLAS/sparse_skops.hh:491-542). Returns (nnz, state). -/
def fillSparseUnpackedNosub [Field R] [LinearOrder R] [FloorRing R] [Zero T] [One T] [Neg T] [Add T] [Mul T] (G : Gen N K W R)
    (sqrt : T → T) (order : Int → List (Int × T) → List (Int × T)) (D : SparseDist) (seed : RNGState N K) :
    M (CooBufs T) (Int × RNGState N K) :=
  if D.majorAxis = .Short then do
    let state ← M.zoom (CooBufs.toSk D) (CooBufs.ofSk D) (repeatedFisherYates G seed D.vecNnz D.dimMajor D.dimMinor)
    pure (D.vecNnz * D.dimMinor, state)
  else M.zoom (CooBufs.toLax D) (CooBufs.ofLax D) (fillLaso G sqrt order D seed)

/-- The allocation stage of `fill_sparse` (RandBLAS/sparse_skops.hh:568-572). -/
def SparseSkOp.allocate (S : SparseSkOp N K T) : SparseSkOp N K T :=
  if S.ownMemory then
    { S with
      rows := S.rows.orElse fun _ => some (Buf.alloc Int S.dist.fullNnz)
      cols := S.cols.orElse fun _ => some (Buf.alloc Int S.dist.fullNnz)
      vals := S.vals.orElse fun _ => some (Buf.alloc T S.dist.fullNnz) }
  else S

/-- `fill_sparse(SparseSkOp &S)` (RandBLAS/sparse_skops.hh:564-580). -/
def fillSparse [Field R] [LinearOrder R] [FloorRing R] [Zero T] [One T] [Neg T] [Add T] [Mul T] (G : Gen N K W R)
    (sqrt : T → T) (order : Int → List (Int × T) → List (Int × T)) : M (SparseSkOp N K T) Unit := do
  M.modify SparseSkOp.allocate
  let S ← M.get
  match S.rows, S.cols, S.vals with
  | some rows, some cols, some vals => do
    let (r, c) ← M.onLocal (fillSparseUnpackedNosub G sqrt order S.dist S.seedState) { vals := vals, rows := rows, cols := cols }
    M.modify fun S => { S with nnz := r.1, vals := some c.vals, rows := some c.rows, cols := some c.cols }
  | _, _, _ => M.throw .require

end RB
