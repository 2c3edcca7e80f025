import Verif.Model.DenseSkops
import Verif.Model.SparseData
import Verif.Model.TestSpmats

/-!
# Model of the tests of dense sketching operators (test/test_datastructures/test_denseskop.cc)

Array sizes are taken to be nonnegative. `gen` is `OP::generate`, `L` is `RNG::ctr_type::static_size`. A check that fails is an ordinary result, the place of the failure.
-/

namespace RB
variable {N : Nat} {K W T : Type}

/-- `fill_dense_rmat_trunc` (test/test_datastructures/test_denseskop.cc:44-80). The state of the loops is the counter `c` and the position `ind`; counters of type `int` are unbounded here. -/
def fillRmatTrunc (gen : ZMod N → K → Res (Buf T)) (L nRows nCols : Int) (seed : RNGState N K) : M (Buf T) Unit := do
  let cts := nCols.tdiv L
  let res := nCols.tmod L
  let _ ← foldI 0 nRows (fun _ (st : ZMod N × Int) => do
    let st ← foldI 0 cts (fun _ (st : ZMod N × Int) => do
      let rv ← M.lift (gen st.1 seed.key)
      let ind ← foldI 0 L (fun j (ind : Int) => do
        let v ← M.lift (rv.rd j)
        M.wr ind v
        pure (ind + 1)) st.2
      pure (ctrIncr st.1 1, ind)) st
    if res ≠ 0 then do
      let ind ← foldI 0 res (fun j (ind : Int) => do
        let rv ← M.lift (gen st.1 seed.key)
        let v ← M.lift (rv.rd j)
        M.wr ind v
        pure (ind + 1)) st.2
      pure (ctrIncr st.1 1, ind)
    else pure st) (seed.counter, 0)
  pure ()

/-- The comparison loops (test/test_datastructures/test_denseskop.cc:188-195, 218-225, 246-252): the first entry of the window that differs. The position `ind`, which counts the entries in the
order of the loops, is `i * nScols + j`. -/
def firstDiff [DecidableEq T] (smat mat : Buf T) (nptr nCols nSrows nScols : Int) : Res (Option (Int × Int)) :=
  findI 0 nSrows fun i => findI 0 nScols fun j => do
    let a ← smat.rd (i * nScols + j)
    let b ← mat.rd (nptr + i * nCols + j)
    if a ≠ b then pure (some (i, j)) else pure none

/-- The body of the loops over windows (test/test_datastructures/test_denseskop.cc:187-195, 217-225): fill the window, compare. -/
def windowCheck [DecidableEq T] (sched : List Nat) (gen : ZMod N → K → Res (Buf T)) (L nCols nSrows nScols : Int) (seed : RNGState N K) (mat : Buf T) (nptr : Int) :
    M (Buf T) (Option (Int × Int)) := do
  let _ ← fillDenseSubmatImpl sched gen L nCols nSrows nScols nptr seed 0
  let smat ← M.get
  M.lift (firstDiff smat mat nptr nCols nSrows nScols)

/-- `for (int nptr = ptr; nptr < bound; nptr += step)` (test/test_datastructures/test_denseskop.cc:185-196, 215-226): the position of the window and the entry of the first difference. A step that
is not positive makes the loop infinite; a position that does not fit an `int` is converted to some other number. Both are recorded as undefined here. -/
def windowLoop (check : Int → M (Buf T) (Option (Int × Int))) (bound step nptr : Int) : M (Buf T) (Option (Int × Int × Int)) :=
  if _hb : nptr < bound then do
    match ← check nptr with
    | some p => pure (some (nptr, p))
    | none => if _hs : step ≤ 0 ∨ intMax 32 < nptr + step then M.lift .ub else windowLoop check bound step (nptr + step)
  else pure none
termination_by (bound - nptr).toNat
decreasing_by omega

/-- `test_colwise_smat_gen` (test/test_datastructures/test_denseskop.cc:171-199). -/
def testColwise [DecidableEq T] (sched : List Nat) (gen : ZMod N → K → Res (Buf T)) (L nCols nRows nScols nSrows ptr : Int) (seed : RNGState N K) :
    M Unit (Option (Int × Int × Int)) := do
  let stride := nCols.tdiv 50
  let mat ← M.onLocal (fillRmatTrunc gen L nRows nCols seed) (Buf.alloc T (nRows * nCols))
  let r ← M.onLocal (windowLoop (windowCheck sched gen L nCols nSrows nScols seed mat.2) (nCols * (nRows - nSrows - 1)) (stride * nCols) ptr) (Buf.alloc T (nSrows * nScols))
  pure r.1

/-- `test_rowwise_smat_gen` (test/test_datastructures/test_denseskop.cc:201-229). -/
def testRowwise [DecidableEq T] (sched : List Nat) (gen : ZMod N → K → Res (Buf T)) (L nCols nRows nScols nSrows ptr : Int) (seed : RNGState N K) :
    M Unit (Option (Int × Int × Int)) := do
  let stride := nCols.tdiv 50
  let mat ← M.onLocal (fillRmatTrunc gen L nRows nCols seed) (Buf.alloc T (nRows * nCols))
  let r ← M.onLocal (windowLoop (windowCheck sched gen L nCols nSrows nScols seed mat.2) (nCols - nScols - 1) stride ptr) (Buf.alloc T (nSrows * nScols))
  pure r.1

/-- The loop of `test_diag_smat_gen` (test/test_datastructures/test_denseskop.cc:243-255): the window is n x n, at position `p`. Both sizes grow together. `safe_scal` (RandBLAS/util.hh:53-61)
sets the array to zero. As in `windowLoop`, a loop that does not advance and a position beyond `int` are recorded as undefined. -/
def diagLoop [Zero T] [Mul T] [DecidableEq T] (sched : List Nat) (gen : ZMod N → K → Res (Buf T)) (L nCols nRows : Int) (seed : RNGState N K) (mat : Buf T) (p n : Int) :
    M (Buf T) (Option (Int × Int × Int)) :=
  if _hb : p + n + nCols * n < nCols * nRows then do
    safeScal (n * n) (0 : T) 0 1
    match ← windowCheck sched gen L nCols n n seed mat p with
    | some e => pure (some (p, e))
    | none => if _hs : nRows + 1 ≤ 0 ∨ nCols ≤ 0 ∨ intMax 32 < p + (nRows + 1) then M.lift .ub else diagLoop sched gen L nCols nRows seed mat (p + (nRows + 1)) (n + 1)
  else pure none
termination_by (nCols * nRows - (p + n + nCols * n)).toNat
decreasing_by
  rw [mul_add]; omega

/-- `test_diag_smat_gen` (test/test_datastructures/test_denseskop.cc:231-258). -/
def testDiag [Zero T] [Mul T] [DecidableEq T] (sched : List Nat) (gen : ZMod N → K → Res (Buf T)) (L nCols nRows : Int) (seed : RNGState N K) : M Unit (Option (Int × Int × Int)) := do
  let mat ← M.onLocal (fillRmatTrunc gen L nRows nCols seed) (Buf.alloc T (nRows * nCols))
  let r ← M.onLocal (diagLoop sched gen L nCols nRows seed mat.2 0 1) (zeroVec (nRows * nCols))
  pure r.1

/-- One round of `DenseThreadTest` (test/test_datastructures/test_denseskop.cc:316-322): fill the array of zeros under schedule `s`, compare all elements with `base`. `EXPECT_FLOAT_EQ`, which accepts
numbers that are four units apart, is equality here. -/
def threadRound [Zero T] [DecidableEq T] (gen : ZMod N → K → Res (Buf T)) (L m n : Int) (state : RNGState N K) (base : Buf T) (s : List Nat) : M Unit Bool := do
  let test ← M.onLocal (fillDenseSubmatImpl s gen L n m n 0 state 0) (zeroVec (m * n))
  M.lift (foldI 0 (m * n) (fun i (ok : Bool) => do
    let a ← base.rd i
    let b ← test.2.rd i
    pure (ok && decide (a = b))) true)

/-- The loop over numbers of threads of `DenseThreadTest` (test/test_datastructures/test_denseskop.cc:315-323): the schedule of each round is given. -/
def threadRounds [Zero T] [DecidableEq T] (gen : ZMod N → K → Res (Buf T)) (L m n : Int) (state : RNGState N K) (base : Buf T) : List (List Nat) → M Unit Bool
  | [] => pure true
  | s :: ss => do
    let a ← threadRound gen L m n state base s
    let b ← threadRounds gen L m n state base ss
    pure (a && b)

/-- `DenseThreadTest` (test/test_datastructures/test_denseskop.cc:300-324), without the output: whether all expectations hold. `s1` is the schedule of the first fill. -/
def testThreads [Zero T] [DecidableEq T] (s1 : List Nat) (scheds : List (List Nat)) (gen : ZMod N → K → Res (Buf T)) (L m n : Int) (state : RNGState N K) : M Unit Bool := do
  let base ← M.onLocal (fillDenseSubmatImpl s1 gen L n m n 0 state 0) (zeroVec (m * n))
  threadRounds gen L m n state base.2 scheds

/-- `auto_transpose` (test/test_datastructures/test_denseskop.cc:349-377): whether the layouts are opposite (if not, the test fails there), and the first difference. -/
def testAutoTranspose [Field T] [LinearOrder T] (s1 s2 : List Nat) (G : Gen N K W T) (sqrt3 atol rtol : T) (shortDim longDim : Int) (majorAxis : Axis) (seed : RNGState N K) :
    M Unit (Bool × Option (Int × Int)) := do
  let Dw ← M.lift (mkDenseDist shortDim longDim .Uniform majorAxis)
  let Sw0 ← M.lift (mkDenseSkOp G.len Dw seed)
  let Sw ← M.onLocal (fillDenseOp s1 G sqrt3) Sw0
  let Dt ← M.lift (mkDenseDist longDim shortDim .Uniform majorAxis)
  let St0 ← M.lift (mkDenseSkOp G.len Dt seed)
  let St ← M.onLocal (fillDenseOp s2 G sqrt3) St0
  if St.2.layout = Sw.2.layout then pure (false, none)
  else do
    let ldsWide := if Sw.2.layout = .ColMajor then shortDim else longDim
    let ldsTall := if St.2.layout = .ColMajor then longDim else shortDim
    let r ← M.lift (matricesApproxEqual Sw.2.layout St.2.layout .Trans shortDim longDim (fltBuf (ptr Sw.2.buff)) ldsWide (fltBuf (ptr St.2.buff)) ldsTall (.fin atol) (.fin rtol))
    pure (true, r)

/-- `test_concatenate_along_columns` (test/test_datastructures/test_denseskop.cc:409-440): the first index with a difference. -/
def testConcat [Zero T] [Mul T] [DecidableEq T] (s1 s2 s3 : List Nat) (G : Gen N K W T) (sqrt3 : T) (nRows nCols : Int) (sd : ScalarDist) (state : RNGState N K) : M Unit (Option Int) := do
  M.require (nRows > nCols)
  let D1 ← M.lift (mkDenseDist nRows (nCols.tdiv 2) sd .Long)
  let D2 ← M.lift (mkDenseDist nRows (nCols - nCols.tdiv 2) sd .Long)
  let Dfull ← M.lift (mkDenseDist nRows nCols sd .Long)
  let size := nRows * nCols
  let S10 ← M.lift (mkDenseSkOp G.len D1 state)
  let S20 ← M.lift (mkDenseSkOp G.len D2 S10.nextState)
  let S1 ← M.onLocal (fillDenseOp s1 G sqrt3) S10
  let S2 ← M.onLocal (fillDenseOp s2 G sqrt3) S20
  let sizeD1 := nRows * D1.nCols
  let A1 ← M.onLocal (blasCopy sizeD1 (ptr S1.2.buff) 0 1 0 1) (zeroVec size)
  let sizeD2 := nRows * D2.nCols
  let A ← M.onLocal (blasCopy sizeD2 (ptr S2.2.buff) 0 1 sizeD1 1) A1.2
  let Sc0 ← M.lift (mkDenseSkOp G.len Dfull state)
  let Sc ← M.onLocal (fillDenseOp s3 G sqrt3) Sc0
  M.lift (findI 0 size fun i => do
    let a ← A.2.rd i
    let b ← (ptr Sc.2.buff).rd i
    if a ≠ b then pure (some i) else pure none)

/-- `test_compute_next_state` (test/test_datastructures/test_denseskop.cc:442-465): whether all words of the counters agree. The default major axis is `Long` (RandBLAS/dense_skops.hh:305-310). -/
def testNextState [Mul T] (sched : List Nat) (G : Gen N K W T) (sqrt3 : T) (nRows nCols : Int) (sd : ScalarDist) (state : RNGState N K) : M Unit Bool := do
  let D ← M.lift (mkDenseDist nRows nCols sd .Long)
  let actual ← M.onLocal (fillDense sched G sqrt3 D state) (Buf.alloc T (nRows * nCols))
  let expect ← M.lift (denseNextState G.len D state)
  pure (decide (actual.1.counter = expect.counter))

end RB
