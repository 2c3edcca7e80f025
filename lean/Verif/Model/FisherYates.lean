import Verif.Model.RandomGen

/-! # Model of `repeated_fisher_yates` (RandBLAS/sparse_skops.hh:51-106, 236-241) -/

namespace RB
variable {N : Nat} {K W R T : Type}

/-- A pointer argument that may be null: a store through it is skipped by the caller's test when it is null. Used to model RandBLAS/sparse_skops.hh:77-92. -/
def wrOpt {T : Type} (i : Int) (v : T) : M (Option (Buf T)) Unit := fun b =>
  match b with
  | none => (.ok (), none)
  | some b => match M.wr i v b with | (r, b') => (r, some b')

/-- The output arrays of `repeated_fisher_yates`: `idxs_major`, `idxs_minor` (may be null) and `vals` (may be null). The
arrays are distinct objects. Used to model RandBLAS/sparse_skops.hh:51-106. -/
structure SkBufs (T : Type) where
  major : Buf Int
  minor : Option (Buf Int)
  vals : Option (Buf T)

/-- The memory `repeated_fisher_yates` works on: its two local vectors and the output arrays. Used to model RandBLAS/sparse_skops.hh:77-92. -/
structure FYMem (T : Type) where
  work : Buf Int
  pivots : Buf Int
  out : SkBufs T

/-- Access to `vec_work`. Used to model RandBLAS/sparse_skops.hh:77-92. -/
def onWork {α : Type} (m : M (Buf Int) α) : M (FYMem T) α := M.zoom FYMem.work (fun s b => { s with work := b }) m
/-- Access to `pivots`. Used to model RandBLAS/sparse_skops.hh:77-92. -/
def onPivots {α : Type} (m : M (Buf Int) α) : M (FYMem T) α := M.zoom FYMem.pivots (fun s b => { s with pivots := b }) m
/-- Access to `idxs_major`. Used to model RandBLAS/sparse_skops.hh:77-92. -/
def onMajor {α : Type} (m : M (Buf Int) α) : M (FYMem T) α :=
  M.zoom (fun s => s.out.major) (fun s b => { s with out := { s.out with major := b } }) m
/-- Access to `idxs_minor`. Used to model RandBLAS/sparse_skops.hh:77-92. -/
def onMinor {α : Type} (m : M (Option (Buf Int)) α) : M (FYMem T) α :=
  M.zoom (fun s => s.out.minor) (fun s b => { s with out := { s.out with minor := b } }) m
/-- Access to `vals`. Used to model RandBLAS/sparse_skops.hh:77-92. -/
def onVals {α : Type} (m : M (Option (Buf T)) α) : M (FYMem T) α :=
  M.zoom (fun s => s.out.vals) (fun s b => { s with out := { s.out with vals := b } }) m

/-- One step of the inner loop (RandBLAS/sparse_skops.hh:77-92): choose a pivot, swap, record, advance the counter.
`offset = i * vec_nnz`. The remainder by zero would be undefined. -/
def fyStep [One T] [Neg T] (G : Gen N K W R) (key : K) (dimMajor i offset j : Int) (ctr : ZMod N) : M (FYMem T) (ZMod N) := do
  let rv0 ← M.lift ((G.words ctr key).rd 0)
  M.ubIf (dimMajor - j = 0)
  let ell := j + (G.nat rv0 : Int).tmod (dimMajor - j)
  onPivots (M.wr j ell)
  let swap ← onWork (M.rd ell)
  let wj ← onWork (M.rd j)
  onWork (M.wr ell wj)
  onWork (M.wr j swap)
  onMajor (M.wr (j + offset) swap)
  let rv1 ← M.lift ((G.words ctr key).rd 1)
  onVals (wrOpt (j + offset) (if G.nat rv1 % 2 = 0 then 1 else -1))
  onMinor (wrOpt (j + offset) i)
  pure (ctrIncr ctr 1)

/-- One step of the restore loop (RandBLAS/sparse_skops.hh:97-103). -/
def fyRestore (vecNnz offset j : Int) : M (FYMem T) Unit := do
  let jj := vecNnz - j
  let swap ← onMajor (M.rd (jj + offset))
  let ell ← onPivots (M.rd jj)
  let we ← onWork (M.rd ell)
  onWork (M.wr jj we)
  onWork (M.wr ell swap)

/-- One iteration of the outer loop (RandBLAS/sparse_skops.hh:73-104). -/
def fyBlock [One T] [Neg T] (G : Gen N K W R) (state : RNGState N K) (vecNnz dimMajor i : Int) : M (FYMem T) Unit := do
  let offset := i * vecNnz
  let _ ← foldI 0 vecNnz (fyStep G state.key dimMajor i offset) (ctrIncr state.counter offset)
  forI 1 (vecNnz + 1) (fyRestore vecNnz offset)

/-- `std::vector<sint_t> v(n)`: value-initialised; a negative size raises `std::length_error`. Used to model RandBLAS/sparse_skops.hh:51-106. -/
def mkVector {σ : Type} (n : Int) : M σ (Buf Int) := if n < 0 then M.throw .runtime else pure (Buf.fill n 0)

/-- `sparse::repeated_fisher_yates` (RandBLAS/sparse_skops.hh:51-106). Index types are unbounded: the products `i * vec_nnz`
are assumed to fit `sint_t`. `vals == nullptr`, `idxs_minor == nullptr` are the `none` cases of `SkBufs`. -/
def repeatedFisherYates [One T] [Neg T] (G : Gen N K W R) (state : RNGState N K) (vecNnz dimMajor dimMinor : Int) :
    M (SkBufs T) (RNGState N K) := do
  M.errorIf (vecNnz > dimMajor)
  let work ← mkVector dimMajor
  let (_, work) ← M.onLocal (forI 0 dimMajor fun j => M.wr j j) work
  let pivots ← mkVector vecNnz
  let out ← M.get
  let (_, mem) ← M.onLocal (forI 0 dimMinor (fyBlock G state vecNnz dimMajor)) { work := work, pivots := pivots, out := out }
  M.set mem.out
  pure (state.incr (dimMinor * vecNnz))

/-- `RandBLAS::repeated_fisher_yates(k, n, r, samples, state)` (RandBLAS/sparse_skops.hh:236-241). -/
def repeatedFisherYatesPublic (G : Gen N K W R) (k n r : Int) (state : RNGState N K) : M (Buf Int) (RNGState N K) := do
  let samples ← M.get
  let (st, out) ← M.onLocal (repeatedFisherYates (T := Int) G state k n r) { major := samples, minor := none, vals := none }
  M.set out.major
  pure st

end RB
