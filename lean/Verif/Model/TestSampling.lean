import Verif.Model.StatTests
import Verif.Model.FisherYates

/-!
# Model of the tests of index sampling (test/test_basic_rng/test_discrete.cc)

Floating point is exact. An assertion of the test framework that fails is an ordinary result. A test that is given a seed starts at the state
made from it, which is an argument here. The parameters that the tests fix (numbers of indices and of samples, offsets) are arguments, except in
the test of degenerate distributions.
-/

namespace RB
variable {N : Nat} {K W R : Type}

/-- The first `n` elements of a vector that is passed to a function (no lines of its own: vectors passed as arguments are lists in the model of
`index_set_kolmogorov_smirnov_tester`). -/
def elements (b : Buf Int) : Nat → Res (List Int)
  | 0 => .ok []
  | n + 1 => do
    let l ← elements b n
    let a ← b.rd n
    pure (l ++ [a])

section
variable [Field R] [LinearOrder R] [FloorRing R]

/-- `test_iid_uniform_smoke` (test/test_basic_rng/test_discrete.cc:73-83): the first sample that fails one of the two assertions. -/
def testIidUniformSmoke (G : Gen N K W R) (n k : Int) (state : RNGState N K) : M Unit (Option Int) := do
  let (_, data) ← M.onLocal (sampleIndicesIidUniformPublic G n k state) (Buf.fill k (-1))
  findI 0 k fun i => do
    let s ← M.lift (data.rd i)
    if ¬ s < n then pure (some i) else if ¬ s ≥ 0 then pure (some i) else pure none

/-- `test_iid_uniform_kolmogorov_smirnov` (test/test_basic_rng/test_discrete.cc:103-116). The lookup of the critical value replaces the number of
samples by a tabulated one. `thresh` and `below` are the two constants of `weights_to_cdf`. -/
def testIidUniformKs (G : Gen N K W R) (n : Int) (sig : ℚ) (numSamples : Int) (thresh below : R) (state : RNGState N K) : M Unit (Option Int) := do
  let (cv, numSamples, _) ← M.lift (criticalValueRepMutator numSamples sig)
  let (_, trueCdf) ← M.onLocal (weightsToCdf n thresh below) (Buf.fill n (1 : R))
  let (_, samples) ← M.onLocal (sampleIndicesIidUniformPublic G n numSamples state) (Buf.fill numSamples (-1))
  let samples ← M.lift (elements samples numSamples.toNat)
  indexSetKsTester samples n trueCdf (cv : R) thresh below

end

section
variable [Field R] [LinearOrder R]

/-- `test_iid_kolmogorov_smirnov` (test/test_basic_rng/test_discrete.cc:118-134). `pow i` is `std::pow(1.0/((float)i + 1.0), exponent)`. -/
def testIidKs (G : Gen N K W R) (n : Int) (pow : Int → R) (sig : ℚ) (numSamples : Int) (thresh below : R) (state : RNGState N K) :
    M Unit (Option Int) := do
  let (cv, numSamples, _) ← M.lift (criticalValueRepMutator numSamples sig)
  let (_, trueCdf) ← M.onLocal (weightsToCdf n thresh below) (Buf.ofFn n pow)
  let (_, samples) ← M.onLocal (sampleIndicesIid G n trueCdf numSamples state) (Buf.fill numSamples (-1))
  let samples ← M.lift (elements samples numSamples.toNat)
  indexSetKsTester samples n trueCdf (cv : R) thresh below

/-- The weights of the first case of `test_iid_degenerate_distributions` (test/test_basic_rng/test_discrete.cc:144-147). Iteration `t` of the loop is
the one with `i = 2 t`. -/
def degenerateCdf1 (thresh below : R) : M (Buf R) Unit := do
  forI 0 50 fun t => M.wr (2 * t) (1 / ((2 * t : Int) + 1 : R))
  M.wr 10 0
  weightsToCdf 100 thresh below

/-- The weights of the second case (test/test_basic_rng/test_discrete.cc:155, 157-160). `eps` is `std::numeric_limits<float>::epsilon()`. -/
def degenerateCdf2 (thresh below eps : R) : M (Buf R) Unit := do
  forI 0 100 fun i => M.wr i 0
  M.wr 17 99
  M.wr 3 (-eps / 10)
  let x ← M.rd 3
  M.require (x < 0)
  weightsToCdf 100 thresh below

/-- `test_iid_degenerate_distributions` (test/test_basic_rng/test_discrete.cc:136-167): the line of the assertion that fails and the number of the
sample (0 for the assertion on line 161), or `none`. The second case starts at the same state as the first one. -/
def testIidDegenerate (G : Gen N K W R) (thresh below eps : R) (state : RNGState N K) : M Unit (Option (Nat × Int)) := do
  let (_, cdf) ← M.onLocal (degenerateCdf1 thresh below) (Buf.fill 100 (0 : R))
  let (_, samples) ← M.onLocal (sampleIndicesIid G 100 cdf (100 * 100) state) (Buf.fill (100 * 100) (-1))
  let bad ← findI 0 (100 * 100) fun i => do
    let s ← M.lift (samples.rd i)
    if s = 10 ∨ s.tmod 2 = 1 then pure (some (150, i)) else pure none
  if bad.isSome then pure bad
  else do
    let (_, cdf) ← M.onLocal (degenerateCdf2 thresh below eps) cdf
    let x ← M.lift (cdf.rd 17)
    if ¬ x ≥ 0 then pure (some (161, 0))
    else do
      let (_, samples) ← M.onLocal (do
        forI 0 (100 * 100) fun i => M.wr i (-1)
        sampleIndicesIid G 100 cdf (100 * 100) state) samples
      findI 0 (100 * 100) fun i => do
        let s ← M.lift (samples.rd i)
        if s ≠ 17 then pure (some (164, i)) else pure none

end

/-- `counter.v[0]`: the lowest 32 bits of the counter (as read in test/test_basic_rng/test_discrete.cc:179-180, 186, 204-205, 211, 318-319, 323). -/
def lowWord (s : RNGState N K) : Int := (s.counter.val : Int) % 2 ^ 32

/-- The state `RNGState seed; seed.counter.incr(offset)` (test/test_basic_rng/test_discrete.cc:170-172, 192-194, 305-307). `key` is the key of a
default-constructed state. -/
def offsetState (key : K) (offset : Int) : RNGState N K := RNGState.incr ⟨0, key⟩ offset

/-- The common part of `test_updated_rngstates_iid_uniform` and `test_updated_rngstates_iid` (test/test_basic_rng/test_discrete.cc:175-188, 197,
201-213): whether each of the three expectations holds. `sample k` is the call that draws `k` samples. Arithmetic on counter words is
modulo `2^32`. -/
def testUpdatedStates (sample : Int → RNGState N K → M (Buf Int) (RNGState N K)) (key : K) (offset k : Int) : M Unit (Bool × Bool × Bool) := do
  let seed := offsetState key offset
  let ((s1, s2, t), _) ← M.onLocal (do
    let s1 ← sample k seed
    let s2 ← sample k s1
    let t ← sample (2 * k) seed
    pure (s1, s2, t)) (Buf.fill (2 * k) 0)
  let total2 := lowWord s2
  let total1 := lowWord t
  pure (decide ((total2 - offset) % 2 ^ 32 = (2 * ((lowWord s1 - offset) % 2 ^ 32)) % 2 ^ 32),
    decide (total1 ≤ total2), decide (total2 ≤ (total1 + 1) % 2 ^ 32))

/-- `test_updated_rngstates_iid_uniform` (test/test_basic_rng/test_discrete.cc:169-189); in the source `offset` is 3456, `n` 40 and `k` 17. -/
def testUpdatedStatesUniform [Field R] [LinearOrder R] [FloorRing R] (G : Gen N K W R) (key : K) (offset n k : Int) : M Unit (Bool × Bool × Bool) :=
  testUpdatedStates (fun k => sampleIndicesIidUniformPublic G n k) key offset k

/-- `test_updated_rngstates_iid` (test/test_basic_rng/test_discrete.cc:191-214); in the source `offset` is 8675309, `n` 29 and `k` 13. -/
def testUpdatedStatesIid [Field R] [LinearOrder R] (G : Gen N K W R) (key : K) (offset n k : Int) (thresh below : R) : M Unit (Bool × Bool × Bool) := do
  let (_, cdf) ← M.onLocal (weightsToCdf n thresh below) (Buf.fill n (1 : R))
  testUpdatedStates (fun k => sampleIndicesIid G n cdf k) key offset k

/-- `test_updated_rngstates_fisher_yates` (test/test_basic_rng/test_discrete.cc:304-329): whether each of the two expectations holds, and the first index
at which the two arrays differ. In the source `offset` is 306, `n` 29, `k` 17, `r1` 1 and `r2` 3. The expected increment is computed without
rounding. `buffs_approx_equal` on arrays of `int` has tolerances 0 and compares for equality (test/comparison.hh:109-128). -/
def testUpdatedStatesFisherYates (G : Gen N K W R) (key : K) (offset n k r1 r2 : Int) : M Unit (Bool × Bool × Option Int) := do
  let seed := offsetState key offset
  let rTotal := r1 + r2
  let ((s1, s2), twocall) ← M.onLocal (do
    let s1 ← repeatedFisherYatesPublic G k n r1 seed
    let s2 ← M.zoom (fun b => Buf.shift b (r1 * k)) (fun _ b => Buf.shift b (-(r1 * k))) (repeatedFisherYatesPublic G k n r2 s1)
    pure (s1, s2)) (Buf.fill (rTotal * k) 0)
  let ctrTwo := wrapInt 32 (lowWord s2)
  let expectIncr := ⌈(rTotal : ℚ) / r1 * ((lowWord s1 - offset) % 2 ^ 32 : Int)⌉
  let (t, onecall) ← M.onLocal (repeatedFisherYatesPublic G k n rTotal seed) (Buf.fill (rTotal * k) 0)
  let ctrOne := lowWord t
  let bad ← findI 0 (rTotal * k) fun i => do
    let a ← M.lift (onecall.rd i)
    let e ← M.lift (twocall.rd i)
    if a = e then pure none else pure (some i)
  pure (decide (ctrTwo - offset = expectIncr), decide (ctrOne = ctrTwo % 2 ^ 32), bad)

end RB
