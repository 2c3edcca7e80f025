import Verif.Model.SparseSkops
import Verif.Model.Dense64

/-!
# Sparse sampling with machine integers

The sampling functions of `Model/FisherYates.lean`, `Model/Sampling.lean` and `Model/SparseSkops.lean` once more, now with the machine types of the
code: `int64_t` dimensions, and indices of type `sint_t` with `w` bits (`int` or `int64_t`). A signed operation whose value is not
representable makes the execution undefined; a conversion to a narrower type wraps (this is what C++20 prescribes). Integer promotion is not
an issue for `w >= 32`.
-/

namespace RB
variable {N : Nat} {K W R T : Type}

/-- The result of an operation on numbers of a signed type of `w` bits. Used to model RandBLAS/sparse_skops.hh:77-92. -/
def intW (w : Nat) (x : Int) : Res Int := if FitsInt w x then .ok x else .ub

/-- One step of the inner loop (RandBLAS/sparse_skops.hh:77-92). `j` and `offset` have type `sint_t`; `dim_major - j` and
`j + rv[0] % (dim_major - j)` have type `int64_t`, and the latter is converted to `sint_t`. -/
def fyStepW [One T] [Neg T] (w : Nat) (G : Gen N K W R) (key : K) (dimMajor i offset j : Int) (ctr : ZMod N) : M (FYMem T) (ZMod N) := do
  let rv0 ← M.lift ((G.words ctr key).rd 0)
  let d ← M.lift (i64 (dimMajor - j))
  M.ubIf (d = 0)
  let ell ← M.lift (i64 (j + (G.nat rv0 : Int).tmod d))
  let ell := wrapInt w ell
  onPivots (M.wr j ell)
  let swap ← onWork (M.rd ell)
  let wj ← onWork (M.rd j)
  onWork (M.wr ell wj)
  onWork (M.wr j swap)
  let pos ← M.lift (intW w (j + offset))
  onMajor (M.wr pos swap)
  let rv1 ← M.lift ((G.words ctr key).rd 1)
  onVals (wrOpt pos (if G.nat rv1 % 2 = 0 then 1 else -1))
  onMinor (wrOpt pos i)
  pure (ctrIncr ctr 1)

/-- One step of the restore loop (RandBLAS/sparse_skops.hh:97-103). `vec_nnz - j` is converted from `int64_t` to `sint_t`. -/
def fyRestoreW (w : Nat) (vecNnz offset j : Int) : M (FYMem T) Unit := do
  let jj ← M.lift (i64 (vecNnz - j))
  let jj := wrapInt w jj
  let pos ← M.lift (intW w (jj + offset))
  let swap ← onMajor (M.rd pos)
  let ell ← onPivots (M.rd jj)
  let we ← onWork (M.rd ell)
  onWork (M.wr jj we)
  onWork (M.wr ell swap)

/-- One iteration of the outer loop (RandBLAS/sparse_skops.hh:73-104). `i * vec_nnz` is an `int64_t` product that is converted to `sint_t`.
The counters `j` of the two inner loops have type `sint_t` and reach `vec_nnz` and `vec_nnz + 1`; if `sint_t` cannot hold these numbers the
execution is undefined. -/
def fyBlockW [One T] [Neg T] (w : Nat) (G : Gen N K W R) (state : RNGState N K) (vecNnz dimMajor i : Int) : M (FYMem T) Unit := do
  let prod ← M.lift (i64 (i * vecNnz))
  let offset := wrapInt w prod
  M.ubIf (intMax w ≤ vecNnz)
  let _ ← foldI 0 vecNnz (fyStepW w G state.key dimMajor i offset) (ctrIncr state.counter offset)
  forI 1 (vecNnz + 1) (fyRestoreW w vecNnz offset)

/-- `sparse::repeated_fisher_yates` (RandBLAS/sparse_skops.hh:51-106). The loop counters of lines 64 and 73 have type `sint_t` and reach
`dim_major` and `dim_minor`. -/
def repeatedFisherYatesW [One T] [Neg T] (w : Nat) (G : Gen N K W R) (state : RNGState N K) (vecNnz dimMajor dimMinor : Int) :
    M (SkBufs T) (RNGState N K) := do
  M.errorIf (vecNnz > dimMajor)
  let work ← mkVector dimMajor
  M.ubIf (intMax w < dimMajor)
  let (_, work) ← M.onLocal (forI 0 dimMajor fun j => M.wr j j) work
  let pivots ← mkVector vecNnz
  M.ubIf (intMax w < dimMinor)
  let out ← M.get
  let (_, mem) ← M.onLocal (forI 0 dimMinor (fyBlockW w G state vecNnz dimMajor)) { work := work, pivots := pivots, out := out }
  M.set mem.out
  let full ← M.lift (i64 (dimMinor * vecNnz))
  pure (state.incr full)

/-- `RandBLAS::repeated_fisher_yates(k, n, r, samples, state)` (RandBLAS/sparse_skops.hh:236-241). -/
def repeatedFisherYatesPublicW (w : Nat) (G : Gen N K W R) (k n r : Int) (state : RNGState N K) : M (Buf Int) (RNGState N K) := do
  let samples ← M.get
  let (st, out) ← M.onLocal (repeatedFisherYatesW (T := Int) w G state k n r) { major := samples, minor := none, vals := none }
  M.set out.major
  pure st

/-- The `SparseDist` constructor (RandBLAS/sparse_skops.hh:196-214). The members are computed before the arguments are checked. -/
def mkSparseDist64 (nRows nCols vecNnz : Int) (majorAxis : Axis) : Res SparseDist := do
  let dimMajor := if majorAxis = .Short then min nRows nCols else max nRows nCols
  let sum ← i64 (nRows + nCols)
  let dimMinor ← i64 (sum - dimMajor)
  let fullNnz ← i64 (vecNnz * dimMinor)
  Res.require (nRows > 0)
  Res.require (nCols > 0)
  Res.require (vecNnz > 0)
  Res.require (vecNnz ≤ dimMajor)
  pure { nRows := nRows, nCols := nCols, majorAxis := majorAxis, dimMajor := dimMajor, dimMinor := dimMinor, vecNnz := vecNnz,
         fullNnz := fullNnz }

/-- `compute_next_state(SparseDist, RNGState)` (RandBLAS/sparse_skops.hh:243-260). The quotient of doubles is a rational number here (exact
for numbers below 2^53). -/
def sparseNextState64 (lenC : Int) (D : SparseDist) (state : RNGState N K) : Res (RNGState N K) := do
  let numMavec := if D.majorAxis = .Short then max D.nRows D.nCols else min D.nRows D.nCols
  let incrs := if D.majorAxis = .Short then D.vecNnz else ⌈(D.vecNnz : ℚ) / ((lenC : ℚ) / 2)⌉
  let full ← i64 (numMavec * incrs)
  pure (state.incr full)

/-- The conversion of a floating-point number to a signed type of `w` bits: truncation towards zero, undefined if the result is not
representable. Used to model RandBLAS/util.hh:476-506. -/
def truncW [Field R] [LinearOrder R] [FloorRing R] (w : Nat) (x : R) : Res Int := intW w (truncToInt x)

/-- `sample_indices_iid_uniform` (RandBLAS/util.hh:476-506). `(sint_t) dN * random_unif01` converts `dN` to `sint_t` first (the cast binds
more tightly than the product), multiplies in double precision and converts the product to `sint_t`. The positions are offsets from
`samples + off`, `rademachers + off`. -/
def sampleIndicesIidUniformW [Field R] [LinearOrder R] [FloorRing R] [One T] [Neg T] (w : Nat) (G : Gen N K W R) (writeR : Bool)
    (n k off : Int) (state : RNGState N K) : M (UnifBufs T) (RNGState N K) := do
  let rv ← M.lift (G.uneg11Generate state.counter state.key)
  let len := if writeR then 2 * (G.len.tdiv 2) else G.len
  let (ctr, _, idx) ← foldI 0 k (fun i (st : ZMod N × Buf R × Int) => do
    let x ← M.lift (st.2.1.rd st.2.2)
    let nW ← M.lift (intW w n)
    let s ← M.lift (truncW w ((nW : R) * uneg11ToU01 x))
    M.zoom UnifBufs.samples (fun s b => { s with samples := b }) (M.wr (off + i) s)
    let idx ← writeRademacher writeR off i st.2.1 (st.2.2 + 1)
    M.lift (nextWord G state.key len st.1 st.2.1 idx)) (state.counter, rv, 0)
  pure { state with counter := finishCtr ctr idx }

/-- The public `sample_indices_iid_uniform(n, k, samples, state)` (RandBLAS/util.hh:516-520). -/
def sampleIndicesIidUniformPublicW [Field R] [LinearOrder R] [FloorRing R] (w : Nat) (G : Gen N K W R) (n k : Int) (state : RNGState N K) :
    M (Buf Int) (RNGState N K) :=
  M.zoom (fun s => UnifBufs.mk (T := R) s (fun _ => .none)) (fun _ u => u.samples) (sampleIndicesIidUniformW w G false n k 0 state)

/-- `laso_merge_long_axis_vector_coo_data` (RandBLAS/sparse_skops.hh:429-468). `i` is converted from `int64_t` to `sint_t` (line 446). -/
def lasoMergeW [Zero T] [One T] [Add T] [Mul T] (w : Nat) (sqrt : T → T) (order : List (Int × T) → List (Int × T)) (vecNnz off i : Int) :
    M (LaxBufs T) Int := do
  let (loc2count, loc2scale) ← foldI 0 vecNnz (fun j (maps : List (Int × T) × List (Int × T)) => do
    onSax (M.wr (off + j) (wrapInt w i))
    let ell ← onLax (M.rd (off + j))
    let val ← onLVals (M.rd (off + j))
    pure (lasoCount ell val maps)) ([], [])
  M.when ((loc2scale.length : Int) < vecNnz) (lasoWrite sqrt loc2scale off (order loc2count) 0)
  pure loc2count.length

/-- `fill_sparse_unpacked_nosub`, long-axis branch (RandBLAS/sparse_skops.hh:508-541). -/
def fillLasoW [Field R] [LinearOrder R] [FloorRing R] [Zero T] [One T] [Neg T] [Add T] [Mul T] (w : Nat) (G : Gen N K W R) (sqrt : T → T)
    (order : Int → List (Int × T) → List (Int × T)) (D : SparseDist) (seed : RNGState N K) : M (LaxBufs T) (Int × RNGState N K) :=
  foldI 0 D.dimMinor (fun i (acc : Int × RNGState N K) => do
    let state ← M.zoom (fun s => UnifBufs.mk s.lax s.vals) (fun s u => { s with lax := u.samples, vals := u.rademachers })
      (sampleIndicesIidUniformW w G true D.dimMajor D.vecNnz acc.1 acc.2)
    let count ← lasoMergeW w sqrt (order i) D.vecNnz acc.1 i
    let total ← M.lift (i64 (acc.1 + count))
    pure (total, state)) (0, seed)

/-- `fill_sparse_unpacked_nosub` (RandBLAS/sparse_skops.hh:491-542). -/
def fillSparseUnpackedNosubW [Field R] [LinearOrder R] [FloorRing R] [Zero T] [One T] [Neg T] [Add T] [Mul T] (w : Nat) (G : Gen N K W R)
    (sqrt : T → T) (order : Int → List (Int × T) → List (Int × T)) (D : SparseDist) (seed : RNGState N K) :
    M (CooBufs T) (Int × RNGState N K) :=
  if D.majorAxis = .Short then do
    let state ← M.zoom (CooBufs.toSk D) (CooBufs.ofSk D) (repeatedFisherYatesW w G seed D.vecNnz D.dimMajor D.dimMinor)
    let nnz ← M.lift (i64 (D.vecNnz * D.dimMinor))
    pure (nnz, state)
  else M.zoom (CooBufs.toLax D) (CooBufs.ofLax D) (fillLasoW w G sqrt order D seed)

/-- `fill_sparse(SparseSkOp &S)` (RandBLAS/sparse_skops.hh:564-580). -/
def fillSparseW [Field R] [LinearOrder R] [FloorRing R] [Zero T] [One T] [Neg T] [Add T] [Mul T] (w : Nat) (G : Gen N K W R)
    (sqrt : T → T) (order : Int → List (Int × T) → List (Int × T)) : M (SparseSkOp N K T) Unit := do
  M.modify SparseSkOp.allocate
  let S ← M.get
  match S.rows, S.cols, S.vals with
  | some rows, some cols, some vals => do
    let (r, c) ← M.onLocal (fillSparseUnpackedNosubW w G sqrt order S.dist S.seedState) { vals := vals, rows := rows, cols := cols }
    M.modify fun S => { S with nnz := r.1, vals := some c.vals, rows := some c.rows, cols := some c.cols }
  | _, _, _ => M.throw .require

end RB
