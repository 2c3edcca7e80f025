import Verif.Core.Par
import Verif.Model.RandomGen
import Verif.Model.Util

/-! # Model of RandBLAS/dense_skops.hh -/

namespace RB

variable {N : Nat} {K W T : Type}

/-- `copy_promote` (RandBLAS/dense_skops.hh:51-55), writing at offset `b` of the shared buffer. -/
def copyPromote (n : Int) (a : Buf T) (b : Int) : Prog T Unit :=
  forI 0 n fun i => do
    let v ← Prog.lift (a.rd i)
    Prog.store (b + i) v

/-- One iteration of the parallel loop of `fill_dense_submat_impl` (RandBLAS/dense_skops.hh:132-163).
`gen c k` is `OP::generate(rng, c, k)`. Loop counters of type `int` are unbounded here. -/
def fillRow (gen : ZMod N → K → Res (Buf T)) (ctrSize : Int) (c : ZMod N) (k : K) (lda stride firstStart firstLen
    ctrStart ctrEnd lastStop : Int) (oneBlock : Prop) [Decidable oneBlock] (row : Int) : Prog T Unit := do
  let incrFromC ← Prog.lift (safeIntProduct stride row)
  let cRow := ctrIncr c incrFromC
  let rv ← Prog.lift (gen cRow k)
  forI 0 firstLen fun i => do
    let v ← Prog.lift (rv.rd (i + firstStart))
    Prog.store (row * lda + i) v
  if oneBlock then pure ()
  else do
    -- middle blocks
    let (cRow, ind) ← foldI 0 (ctrEnd - ctrStart - 1) (fun _ (st : ZMod N × Int) => do
      let cRow := ctrIncr st.1 1
      let rv ← Prog.lift (gen cRow k)
      copyPromote ctrSize rv (row * lda + st.2)
      pure (cRow, st.2 + ctrSize)) (cRow, firstLen)
    -- last block
    let cRow := ctrIncr cRow 1
    let rv ← Prog.lift (gen cRow k)
    copyPromote lastStop rv (row * lda + ind)

/-- `fill_dense_submat_impl` (RandBLAS/dense_skops.hh:96-170) on the buffer in the state, under a schedule of the parallel
loop. `/` and `%` truncate as in C++; division by zero is undefined. -/
def fillDenseSubmatImpl (sched : List Nat) (gen : ZMod N → K → Res (Buf T)) (ctrSize : Int) (nCols nSrows nScols ptr : Int)
    (seed : RNGState N K) (lda0 : Int) : M (Buf T) (RNGState N K) := do
  let lda := if lda0 ≤ 0 then nScols else lda0
  M.require (lda0 ≤ 0 ∨ lda0 ≥ nScols)
  M.require (nCols ≥ nScols)
  let pad := if nCols.tmod ctrSize ≠ 0 then ctrSize - nCols.tmod ctrSize else 0
  M.ubIf (nCols = 0)
  let ptrPadded := ptr + ptr.tdiv nCols * pad
  let ctrStart := ptrPadded.tdiv ctrSize
  let firstStart := ptrPadded.tmod ctrSize
  let ctrEnd := (ptrPadded + nScols - 1).tdiv ctrSize
  let lastStop := (ptrPadded + nScols - 1).tmod ctrSize + 1
  let stride := (nCols + pad).tdiv ctrSize
  let firstLen := (if ctrStart = ctrEnd then lastStop else ctrSize) - firstStart
  let c := ctrIncr seed.counter ctrStart
  parForI sched 0 nSrows
    (fillRow gen ctrSize c seed.key lda stride firstStart firstLen ctrStart ctrEnd lastStop (ctrStart = ctrEnd))
  pure { counter := ctrIncr c (nSrows * stride), key := seed.key }

/-- `ScalarDist` (RandBLAS/dense_skops.hh:207-216). -/
inductive ScalarDist where | Gaussian | Uniform
  deriving DecidableEq, Repr

/-- `dense::natural_layout` (RandBLAS/dense_skops.hh:187-199). -/
def naturalLayout (majorAxis : Axis) (nRows nCols : Int) : Layout :=
  if nRows < nCols ∧ majorAxis = .Long then .RowMajor
  else if nRows < nCols then .ColMajor
  else if majorAxis = .Long then .ColMajor
  else .RowMajor

/-- `DenseDist` (RandBLAS/dense_skops.hh:223-323). `isometry_scale` is modelled separately (`Model/Isometry.lean`). -/
structure DenseDist where
  nRows : Int
  nCols : Int
  majorAxis : Axis
  dimMajor : Int
  dimMinor : Int
  family : ScalarDist
  naturalLayout : Layout
  deriving DecidableEq, Repr

/-- The `DenseDist` constructor (RandBLAS/dense_skops.hh:304-321). -/
def mkDenseDist (nRows nCols : Int) (family : ScalarDist) (majorAxis : Axis) : Res DenseDist := do
  let D : DenseDist := {
    nRows := nRows, nCols := nCols, majorAxis := majorAxis,
    dimMajor := if majorAxis = .Long then max nRows nCols else min nRows nCols
    dimMinor := if majorAxis = .Long then min nRows nCols else max nRows nCols
    family := family
    naturalLayout := naturalLayout majorAxis nRows nCols }
  Res.require (nRows > 0)
  Res.require (nCols > 0)
  pure D

/-- `dense::compute_next_state` (RandBLAS/dense_skops.hh:172-185). -/
def denseNextState (ctrSize : Int) (D : DenseDist) (state : RNGState N K) : Res (RNGState N K) := do
  let pad := if D.dimMajor.tmod ctrSize ≠ 0 then ctrSize - D.dimMajor.tmod ctrSize else 0
  let stride := (D.dimMajor + pad).tdiv ctrSize
  let fullIncr ← safeIntProduct stride D.dimMinor
  pure (state.incr fullIncr)

/-- `OP::generate` selected by the family in `fill_dense_unpacked` (RandBLAS/dense_skops.hh:556-565). -/
def Gen.generate (G : Gen N K W T) (family : ScalarDist) : ZMod N → K → Res (Buf T) :=
  match family with
  | .Gaussian => G.boxmulGenerate
  | .Uniform => G.uneg11Generate

/-- The change of layout at the end of `fill_dense_unpacked` (RandBLAS/dense_skops.hh:571-579). -/
def flipWork (layout natural : Layout) (nRows nCols : Int) : M (Buf T) Unit := do
  let size := nRows * nCols
  if layout ≠ natural then do
    let buff ← M.get
    if size < 0 then M.throw .runtime   -- new T[size_mat] with a negative size: std::bad_array_new_length
    else do
      let (_, work) ← M.onLocal (blasCopy size buff 0 1 0 1) (Buf.alloc T size)
      let sNat := layoutToStrides3 natural nRows nCols
      let sReq := layoutToStrides3 layout nRows nCols
      omatcopy nRows nCols work sNat.irs sNat.ics 0 sReq.irs sReq.ics
  else pure ()

/-- The scaling step of `fill_dense_unpacked` (RandBLAS/dense_skops.hh:556-570): only for the uniform family. -/
def scaleByFamily [Mul T] (family : ScalarDist) (n : Int) (sqrt3 : T) : M (Buf T) Unit :=
  match family with
  | .Gaussian => pure ()
  | .Uniform => blasScal n sqrt3 0 1

/-- `fill_dense_unpacked` (RandBLAS/dense_skops.hh:538-581). `sqrt3` is `(T) std::sqrt(3)`. -/
def fillDenseUnpacked [Mul T] (sched : List Nat) (G : Gen N K W T) (sqrt3 : T) (layout : Layout) (D : DenseDist)
    (nRows nCols roS coS : Int) (seed : RNGState N K) : M (Buf T) (RNGState N K) := do
  M.require (D.nRows ≥ nRows + roS)
  M.require (D.nCols ≥ nCols + coS)
  let maLen := D.dimMajor
  let nRows' := if D.naturalLayout = .ColMajor then nCols else nRows
  let nCols' := if D.naturalLayout = .ColMajor then nRows else nCols
  let prod ← M.lift (if D.naturalLayout = .ColMajor then safeIntProduct coS maLen else safeIntProduct roS maLen)
  let ptr := if D.naturalLayout = .ColMajor then roS + prod else prod + coS
  let next ← fillDenseSubmatImpl sched (G.generate D.family) G.len maLen nRows' nCols' ptr seed 0
  scaleByFamily D.family (nRows' * nCols') sqrt3
  flipWork layout D.naturalLayout nRows nCols
  pure next

/-- `fill_dense(D, buff, seed)` (RandBLAS/dense_skops.hh:598-601). -/
def fillDense [Mul T] (sched : List Nat) (G : Gen N K W T) (sqrt3 : T) (D : DenseDist) (seed : RNGState N K) :
    M (Buf T) (RNGState N K) :=
  fillDenseUnpacked sched G sqrt3 D.naturalLayout D D.nRows D.nCols 0 0 seed

/-- `DenseSkOp` (RandBLAS/dense_skops.hh:335-455). `buff = none` is the null pointer. -/
structure DenseSkOp (N : Nat) (K T : Type) where
  dist : DenseDist
  seedState : RNGState N K
  nextState : RNGState N K
  nRows : Int
  nCols : Int
  ownMemory : Bool
  buff : Option (Buf T)
  layout : Layout

/-- The `DenseSkOp` constructor (RandBLAS/dense_skops.hh:412-425). -/
def mkDenseSkOp (ctrSize : Int) (dist : DenseDist) (seed : RNGState N K) : Res (DenseSkOp N K T) := do
  let next ← denseNextState ctrSize dist seed
  pure { dist := dist, seedState := seed, nextState := next, nRows := dist.nRows, nCols := dist.nCols,
         ownMemory := true, buff := none, layout := dist.naturalLayout }

/-- `fill_dense(S)` (RandBLAS/dense_skops.hh:624-633). The operator is the state; `new T[n]` is a fresh uninitialised
buffer. -/
def fillDenseOp [Mul T] (sched : List Nat) (G : Gen N K W T) (sqrt3 : T) : M (DenseSkOp N K T) Unit := do
  let S ← M.get
  M.when (S.ownMemory ∧ S.buff.isNone) (M.modify fun S => { S with buff := some (Buf.alloc T (S.nRows * S.nCols)) })
  let S ← M.get
  match S.buff with
  | none => M.throw .require
  | some b => do
    let (_, b') ← M.onLocal (fillDenseUnpacked sched G sqrt3 S.layout S.dist S.nRows S.nCols 0 0 S.seedState) b
    M.modify fun S => { S with buff := some b' }

/-- `BLASFriendlyOperator` (RandBLAS/dense_skops.hh:635-650). -/
structure BFO (T : Type) where
  layout : Layout
  nRows : Int
  nCols : Int
  buff : Option (Buf T)
  ldim : Int

/-- `submatrix_as_blackbox` (RandBLAS/dense_skops.hh:652-664). -/
def submatrixAsBlackbox [Mul T] (sched : List Nat) (G : Gen N K W T) (sqrt3 : T) (S : DenseSkOp N K T)
    (nRows nCols roS coS : Int) : Res (BFO T) := do
  Res.require (roS + nRows ≤ S.nRows)
  Res.require (coS + nCols ≤ S.nCols)
  if nRows * nCols < 0 then .throw .runtime
  else
    match fillDenseUnpacked sched G sqrt3 S.layout S.dist nRows nCols roS coS S.seedState
        (Buf.alloc T (nRows * nCols)) with
    | (.ok _, b) => .ok { layout := S.layout, nRows := nRows, nCols := nCols, buff := some b, ldim := S.dist.dimMajor }
    | (.throw e, _) => .throw e
    | (.ub, _) => .ub

end RB
