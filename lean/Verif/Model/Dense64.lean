import Verif.Model.DenseSkops

/-!
# Dense sampling with machine integers

The functions of `Model/DenseSkops.lean` once more, now with `int64_t` and `int` arithmetic: every sum, difference and product whose value is
not representable makes the execution undefined. `safe_int_product` is the same function as before. Additions of an address and an offset are
pointer arithmetic and are covered by the model of memory (accesses outside an array are undefined).
-/

namespace RB

variable {N : Nat} {K W T : Type}

/-- The result of an `int64_t` operation. Used to model RandBLAS/dense_skops.hh:132-163. -/
def i64 (x : Int) : Res Int := if FitsInt 64 x then .ok x else .ub

/-- One iteration of the parallel loop of `fill_dense_submat_impl` (RandBLAS/dense_skops.hh:132-163). The counter of the loop over the middle
blocks is an `int` (line 151); if there are 2^31 blocks or more it overflows, which makes the whole execution undefined. The other loops
(lines 142 and `copy_promote`, lines 51-55) have at most `ctr_size` iterations. -/
def fillRow64 (gen : ZMod N → K → Res (Buf T)) (ctrSize : Int) (c : ZMod N) (k : K) (lda stride firstStart firstLen
    ctrStart ctrEnd lastStop : Int) (oneBlock : Prop) [Decidable oneBlock] (row : Int) : Prog T Unit := do
  let incrFromC ← Prog.lift (safeIntProduct stride row)
  let cRow := ctrIncr c incrFromC
  let rv ← Prog.lift (gen cRow k)
  let base ← Prog.lift (i64 (row * lda))
  forI 0 firstLen fun i => do
    let v ← Prog.lift (rv.rd (i + firstStart))
    Prog.store (base + i) v
  if oneBlock then pure ()
  else do
    -- middle blocks
    let diff ← Prog.lift (i64 (ctrEnd - ctrStart))
    let blocks ← Prog.lift (i64 (diff - 1))
    Prog.lift (if blocks ≤ intMax 32 then .ok () else .ub)
    let (cRow, ind) ← foldI 0 blocks (fun _ (st : ZMod N × Int) => do
      let cRow := ctrIncr st.1 1
      let rv ← Prog.lift (gen cRow k)
      copyPromote ctrSize rv (base + st.2)
      let ind ← Prog.lift (i64 (st.2 + ctrSize))
      pure (cRow, ind)) (cRow, firstLen)
    -- last block
    let cRow := ctrIncr cRow 1
    let rv ← Prog.lift (gen cRow k)
    copyPromote lastStop rv (base + ind)

/-- `fill_dense_submat_impl` (RandBLAS/dense_skops.hh:96-170). -/
def fillDenseSubmatImpl64 (sched : List Nat) (gen : ZMod N → K → Res (Buf T)) (ctrSize : Int) (nCols nSrows nScols ptr : Int)
    (seed : RNGState N K) (lda0 : Int) : M (Buf T) (RNGState N K) := do
  let lda := if lda0 ≤ 0 then nScols else lda0
  M.require (lda0 ≤ 0 ∨ lda0 ≥ nScols)
  M.require (nCols ≥ nScols)
  let pad ← M.lift (if nCols.tmod ctrSize ≠ 0 then i64 (ctrSize - nCols.tmod ctrSize) else .ok 0)
  let quot ← M.lift (divInt 64 ptr nCols)
  let extra ← M.lift (i64 (quot * pad))
  let ptrPadded ← M.lift (i64 (ptr + extra))
  let ctrStart := ptrPadded.tdiv ctrSize
  let firstStart := ptrPadded.tmod ctrSize
  let stop ← M.lift (i64 (ptrPadded + nScols))
  let last ← M.lift (i64 (stop - 1))
  let ctrEnd := last.tdiv ctrSize
  let lastStop := last.tmod ctrSize + 1
  let width ← M.lift (i64 (nCols + pad))
  let stride := width.tdiv ctrSize
  let firstLen := (if ctrStart = ctrEnd then lastStop else ctrSize) - firstStart
  let c := ctrIncr seed.counter ctrStart
  parForI sched 0 nSrows
    (fillRow64 gen ctrSize c seed.key lda stride firstStart firstLen ctrStart ctrEnd lastStop (ctrStart = ctrEnd))
  let total ← M.lift (i64 (nSrows * stride))
  pure { counter := ctrIncr c total, key := seed.key }

/-- `omatcopy` (RandBLAS/util.hh:63-78), see `omatcopy`. -/
def omatcopy64 (m n : Int) (A : Buf T) (irsA icsA : Int) (b0 irsB icsB : Int) : M (Buf T) Unit :=
  forI 0 m fun i => forI 0 n fun j => do
    let a1 ← M.lift (i64 (i * irsA))
    let a2 ← M.lift (i64 (j * icsA))
    let a ← M.lift (i64 (a1 + a2))
    let v ← M.lift (A.rd a)
    let b1 ← M.lift (i64 (i * irsB))
    let b2 ← M.lift (i64 (j * icsB))
    let b ← M.lift (i64 (b1 + b2))
    M.wr (b0 + b) v

/-- The change of layout at the end of `fill_dense_unpacked` (RandBLAS/dense_skops.hh:571-579). -/
def flipWork64 (layout natural : Layout) (nRows nCols : Int) : M (Buf T) Unit := do
  let size ← M.lift (i64 (nRows * nCols))
  if layout ≠ natural then do
    let buff ← M.get
    if size < 0 then M.throw .runtime
    else do
      let (_, work) ← M.onLocal (blasCopy size buff 0 1 0 1) (Buf.alloc T size)
      let sNat := layoutToStrides3 natural nRows nCols
      let sReq := layoutToStrides3 layout nRows nCols
      omatcopy64 nRows nCols work sNat.irs sNat.ics 0 sReq.irs sReq.ics
  else pure ()

/-- The scaling step of `fill_dense_unpacked` (RandBLAS/dense_skops.hh:556-570). -/
def scaleByFamily64 [Mul T] (family : ScalarDist) (a b : Int) (sqrt3 : T) : M (Buf T) Unit :=
  match family with
  | .Gaussian => pure ()
  | .Uniform => do
    let n ← M.lift (i64 (a * b))
    blasScal n sqrt3 0 1

/-- `fill_dense_unpacked` (RandBLAS/dense_skops.hh:538-581). -/
def fillDenseUnpacked64 [Mul T] (sched : List Nat) (G : Gen N K W T) (sqrt3 : T) (layout : Layout) (D : DenseDist)
    (nRows nCols roS coS : Int) (seed : RNGState N K) : M (Buf T) (RNGState N K) := do
  let endRow ← M.lift (i64 (nRows + roS))
  M.require (D.nRows ≥ endRow)
  let endCol ← M.lift (i64 (nCols + coS))
  M.require (D.nCols ≥ endCol)
  let maLen := D.dimMajor
  let nRows' := if D.naturalLayout = .ColMajor then nCols else nRows
  let nCols' := if D.naturalLayout = .ColMajor then nRows else nCols
  let prod ← M.lift (if D.naturalLayout = .ColMajor then safeIntProduct coS maLen else safeIntProduct roS maLen)
  let ptr ← M.lift (i64 (if D.naturalLayout = .ColMajor then roS + prod else prod + coS))
  let next ← fillDenseSubmatImpl64 sched (G.generate D.family) G.len maLen nRows' nCols' ptr seed 0
  scaleByFamily64 D.family nRows' nCols' sqrt3
  flipWork64 layout D.naturalLayout nRows nCols
  pure next

/-- `dense::compute_next_state` (RandBLAS/dense_skops.hh:172-185), called by the constructor of `DenseSkOp` (lines 412-425). -/
def denseNextState64 (ctrSize : Int) (D : DenseDist) (state : RNGState N K) : Res (RNGState N K) := do
  let pad ← (if D.dimMajor.tmod ctrSize ≠ 0 then i64 (ctrSize - D.dimMajor.tmod ctrSize) else .ok 0)
  let width ← i64 (D.dimMajor + pad)
  let fullIncr ← safeIntProduct (width.tdiv ctrSize) D.dimMinor
  pure (state.incr fullIncr)

end RB
