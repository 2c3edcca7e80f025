import Verif.Model.TestConversions

/-!
# Model of the tests of sparse sketching operators (test/test_datastructures/test_sparseskop.cc)
-/

namespace RB
variable {N : Nat} {K W R T : Type}

/-- The inner loop of `check_fixed_nnz_per_col` and `check_fixed_nnz_per_row` (test/test_datastructures/test_sparseskop.cc:64-68, 79-83): `n` more positions from `off + j`;
`s` is the set of the indices seen so far. The first position whose index has been seen before. -/
def distinctScan (idx : Buf Int) (off : Int) : Nat → Int → List Int → Res (Option Int)
  | 0, _, _ => .ok none
  | n + 1, j, s => do
    let x ← idx.rd (off + j)
    if x ∈ s then pure (some j) else distinctScan idx off n (j + 1) (x :: s)

/-- `check_fixed_nnz_per_col` and `check_fixed_nnz_per_row` (test/test_datastructures/test_sparseskop.cc:57-86) with the array and the number of vectors that they use: the vector and the
position of the first duplicate. `ASSERT_EQ` returns from the helper. -/
def checkFixedNnz (idx : Buf Int) (n vecNnz : Int) : Res (Option (Int × Int)) :=
  findI 0 n fun i => do
    let r ← distinctScan idx (vecNnz * i) vecNnz.toNat 0 []
    pure (r.map fun j => (i, j))

/-- `check_fixed_nnz_per_col` (test/test_datastructures/test_sparseskop.cc:57-70). -/
def checkPerCol (S : SparseSkOp N K T) : Res (Option (Int × Int)) := checkFixedNnz (ptr S.rows) S.dist.nCols S.dist.vecNnz

/-- `check_fixed_nnz_per_row` (test/test_datastructures/test_sparseskop.cc:72-85). -/
def checkPerRow (S : SparseSkOp N K T) : Res (Option (Int × Int)) := checkFixedNnz (ptr S.cols) S.dist.nRows S.dist.vecNnz

/-- `proper_saso_construction` (test/test_datastructures/test_sparseskop.cc:87-98). -/
def testSaso [Field R] [LinearOrder R] [FloorRing R] [Zero T] [One T] [Neg T] [Add T] [Mul T] (G : Gen N K W R) (sqrt : T → T) (order : Int → List (Int × T) → List (Int × T))
    (d m vecNnz : Int) (seed : RNGState N K) : M Unit (Option (Int × Int)) := do
  let D ← M.lift (mkSparseDist d m vecNnz .Short)
  let r ← M.onLocal (fillSparse G sqrt order) (mkSparseSkOp G.len D seed)
  M.lift (if d < m then checkPerCol r.2 else checkPerRow r.2)

/-- `proper_laso_construction` (test/test_datastructures/test_sparseskop.cc:100-111). -/
def testLaso [Field R] [LinearOrder R] [FloorRing R] [Zero T] [One T] [Neg T] [Add T] [Mul T] (G : Gen N K W R) (sqrt : T → T) (order : Int → List (Int × T) → List (Int × T))
    (d m vecNnz : Int) (seed : RNGState N K) : M Unit (Option (Int × Int)) := do
  let D ← M.lift (mkSparseDist d m vecNnz .Long)
  let r ← M.onLocal (fillSparse G sqrt order) (mkSparseSkOp G.len D seed)
  M.lift (if d < m then checkPerRow r.2 else checkPerCol r.2)

/-- The expert constructor (RandBLAS/sparse_skops.hh:390-407). -/
def mkSparseSkOpExpert (dist : SparseDist) (seed next : RNGState N K) (nnz : Int) (vals : Option (Buf T)) (rows cols : Option (Buf Int)) : SparseSkOp N K T :=
  { dist := dist, seedState := seed, nextState := next, nRows := dist.nRows, nCols := dist.nCols, ownMemory := false, nnz := nnz, vals := vals, rows := rows, cols := cols }

/-- The loop of `respect_ownership` (test/test_datastructures/test_sparseskop.cc:136-140): whether all expectations hold. The counter is an `int`. -/
def allOverwritten [Field T] [LinearOrder T] (vals : Buf T) (rows cols : Buf Int) (n : Int) : Res Bool := do
  let ok ← foldI 0 n (fun i (ok : Bool) => do
    let r ← rows.rd i
    let c ← cols.rd i
    let v ← vals.rd i
    pure (ok && decide (0 ≤ r) && decide (0 ≤ c) && decide (v ≠ -(1 / 2)))) true
  if intMax 32 < n then .ub else pure ok

/-- `respect_ownership` (test/test_datastructures/test_sparseskop.cc:113-147): whether the arrays are unchanged by the constructor (indices are compared exactly, values with
the given tolerances), and whether all expectations hold after filling. That deleting the operator leaves the arrays alone is not part of this model (C38): the last
comparisons are omitted. -/
def testRespectOwnership [Field R] [LinearOrder R] [FloorRing R] [Field T] [LinearOrder T] (G : Gen N K W R) (sqrt : T → T) (order : Int → List (Int × T) → List (Int × T))
    (d m : Int) (seed : RNGState N K) : M Unit (Option Int × Bool) := do
  let D ← M.lift (mkSparseDist d m 2 .Short)
  let idx := Buf.ofFn D.fullNnz (fun _ => (-1 : Int))
  let vals := Buf.ofFn D.fullNnz (fun _ => (-(1 / 2) : T))
  let S := mkSparseSkOpExpert D seed seed (-1) (some vals) (some idx) (some idx)
  let e ← M.lift (buffsApproxEqual (fltBuf (ptr S.vals)) (fltBuf vals) D.fullNnz (.fin 0) (.fin 0))
  let r ← M.onLocal (fillSparse G sqrt order) S
  let ok ← M.lift (allOverwritten (ptr r.2.vals) (ptr r.2.rows) (ptr r.2.cols) D.fullNnz)
  pure (e, ok)

/-- `buffs_approx_equal` of arrays of integers (test/comparison.hh:60-128): the tolerances are zero (`numeric_limits<sint_t>::epsilon()`), so the elements must be equal. -/
def intBuffsEqual (actual expect : Buf Int) (size : Int) : Res (Option Int) :=
  findI 0 size fun i => do
    let a ← actual.rd i
    let e ← expect.rd i
    if a ≠ e then pure (some i) else pure none

/-- `unpacked_nosub` (test/test_datastructures/test_sparseskop.cc:149-172): whether the numbers of nonzeros and the next states agree, and the results of the three comparisons. -/
def testUnpackedNosub [Field R] [LinearOrder R] [FloorRing R] [Field T] [LinearOrder T] [DecidableEq K] (G : Gen N K W R) (sqrt : T → T) (order : Int → List (Int × T) → List (Int × T)) (atol rtol : T)
    (D : SparseDist) (seed : RNGState N K) : M Unit (Bool × Option Int × Option Int × Option Int) := do
  let S0 : SparseSkOp N K T := mkSparseSkOp G.len D seed
  let S ← M.onLocal (fillSparse G sqrt order) S0
  let r ← M.onLocal (fillSparseUnpackedNosub G sqrt order D seed) { vals := zeroVec D.fullNnz, rows := Buf.ofFn D.fullNnz (fun _ => 0), cols := Buf.ofFn D.fullNnz (fun _ => 0) }
  let nnz := r.1.1
  let e1 ← M.lift (buffsApproxEqual (fltBuf r.2.vals) (fltBuf (ptr S.2.vals)) nnz (.fin atol) (.fin rtol))
  let e2 ← M.lift (intBuffsEqual r.2.rows (ptr S.2.rows) nnz)
  let e3 ← M.lift (intBuffsEqual r.2.cols (ptr S.2.cols) nnz)
  pure (decide (S.2.nnz = nnz ∧ r.1.2.counter = S0.nextState.counter ∧ r.1.2.key = S0.nextState.key), e1, e2, e3)

end RB
