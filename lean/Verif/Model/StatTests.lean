import Verif.Model.HrLapack
import Verif.Model.Sampling
import Mathlib.Data.EReal.Operations
import Mathlib.Analysis.SpecialFunctions.Log.Basic

/-!
# Model of the statistical test helpers (test/test_basic_rng/rng_common.hh, test_discrete.cc, test_continuous.cc)

The tests of the random number code compare samples with a distribution by a Kolmogorov-Smirnov test. Floating point is exact here: the
tables are rational numbers, the other values are elements of an ordered field or real numbers. A `double` that is not finite (a
division by zero, the logarithm of a number that is not positive) is `none`. An assertion of the test framework that fails is an ordinary
result (the index at which the check failed), not an exception.
-/

namespace RB

/-! ## Critical values -/

/-- `SMALLEST_SAMPLE` (test/test_basic_rng/rng_common.hh:47). -/
def ksSmallestSample : Int := 8
/-- `LARGEST_SAMPLE` (test/test_basic_rng/rng_common.hh:48). -/
def ksLargestSample : Int := 16777216
/-- `WEAKEST_SIGNIFICANCE` (test/test_basic_rng/rng_common.hh:57). -/
def ksWeakest : ℚ := 0.05
/-- `STRONGEST_SIGNIFICANCE` (test/test_basic_rng/rng_common.hh:58). -/
def ksStrongest : ℚ := 1e-6

/-- `sample_sizes` (test/test_basic_rng/rng_common.hh:50-55). -/
def ksSampleSizes : List Int :=
  [8, 16, 32, 64, 128, 256, 512, 1024, 2048, 4096, 8192, 16384, 32768, 65536, 131072, 262144, 524288, 1048576, 2097152, 4194304,
   8388608, 16777216]

/-- `significance_levels` (test/test_basic_rng/rng_common.hh:60-62). -/
def ksLevels : List ℚ := [0.05, 1e-2, 1e-3, 1e-4, 1e-5, 1e-6]

/-- `critical_values` (test/test_basic_rng/rng_common.hh:64-112), digit for digit; one row for each significance level. -/
def ksCriticalValues : List (List ℚ) := [
  [4.54266591e-01, 3.27333470e-01, 2.34240860e-01, 1.66933746e-01,
   1.18658276e-01, 8.42018587e-02, 5.96844982e-02, 4.22742678e-02,
   2.99273847e-02, 2.11791555e-02, 1.49845091e-02, 1.05999173e-02,
   7.49739992e-03, 5.30252270e-03, 3.74997893e-03, 2.65189975e-03,
   1.87530828e-03, 1.32610915e-03, 9.37733728e-04, 6.63094351e-04,
   4.68886747e-04, 3.31557115e-04],
  [5.41792524e-01, 3.92007307e-01, 2.80935776e-01, 2.00288899e-01,
   1.42362543e-01, 1.01005285e-01, 7.15810977e-02, 5.06916722e-02,
   3.58812433e-02, 2.53898259e-02, 1.79621350e-02, 1.27054989e-02,
   8.98630003e-03, 6.35534434e-03, 4.49443988e-03, 3.17831443e-03,
   2.24754012e-03, 1.58931697e-03, 1.12384982e-03, 7.94698321e-04,
   5.61944814e-04, 3.97359107e-04],
  [6.40978605e-01, 4.67504918e-01, 3.36105510e-01, 2.39914323e-01,
   1.70596759e-01, 1.21045341e-01, 8.57783224e-02, 6.07400729e-02,
   4.29898739e-02, 3.04175670e-02, 2.15177021e-02, 1.52198122e-02,
   1.07642402e-02, 7.61255632e-03, 5.38342952e-03, 3.80692734e-03,
   2.69203739e-03, 1.90362429e-03, 1.34609876e-03, 9.51852090e-04,
   6.73069322e-04, 4.75936005e-04],
  [7.20107998e-01, 5.30358433e-01, 3.82763541e-01, 2.73655631e-01,
   1.94715231e-01, 1.38189709e-01, 9.79338402e-02, 6.93467436e-02,
   4.90797287e-02, 3.47251628e-02, 2.45641333e-02, 1.73741413e-02,
   1.22876435e-02, 8.68978729e-03, 6.14515467e-03, 4.34555112e-03,
   3.07290290e-03, 2.17293722e-03, 1.53653188e-03, 1.08650868e-03,
   7.68285928e-04, 5.43264318e-04],
  [7.84314235e-01, 5.84534035e-01, 4.23688590e-01, 3.03463697e-01,
   2.16091906e-01, 1.53407046e-01, 1.08732306e-01, 7.69956230e-02,
   5.44929246e-02, 3.85544959e-02, 2.72724540e-02, 1.92894157e-02,
   1.36420186e-02, 9.64750036e-03, 6.82236902e-03, 4.82441714e-03,
   3.41151342e-03, 2.41237141e-03, 1.70583756e-03, 1.20622593e-03,
   8.52938821e-04, 6.03122960e-0],
  [8.36962528e-01, 6.32173765e-01, 4.60387149e-01, 3.30395198e-01,
   2.35470356e-01, 1.67220735e-01, 1.18543880e-01, 8.39483725e-02,
   5.94144379e-02, 4.20363448e-02, 2.97351313e-02, 2.10310168e-02,
   1.48735960e-02, 1.05183852e-02, 7.43818754e-03, 5.25987011e-03,
   3.71942641e-03, 2.63009921e-03, 1.85979452e-03, 1.31508999e-03,
   9.29917360e-04, 6.57555013e-04]]

/-- `significance_rep` (test/test_basic_rng/rng_common.hh:121-131). -/
def significanceRep (sig : ℚ) : Res Int := do
  Res.require (ksStrongest ≤ sig ∧ sig ≤ ksWeakest)
  let o ← findI 0 ksLevels.length fun i => do
    let x ← (Buf.ofList ksLevels).rd i
    if x ≤ sig then pure (some i) else pure none
  match o with
  | some i => pure i
  | none => do
    Res.require False
    pure (-1)

/-- `sample_size_rep` (test/test_basic_rng/rng_common.hh:139-149). -/
def sampleSizeRep (n : Int) : Res Int := do
  Res.require (ksSmallestSample ≤ n ∧ n ≤ ksLargestSample)
  let o ← findI 0 ksSampleSizes.length fun i => do
    let x ← (Buf.ofList ksSampleSizes).rd i
    if x ≥ n then pure (some i) else pure none
  match o with
  | some i => pure i
  | none => do
    Res.require False
    pure (-1)

/-- `critical_value_rep` (test/test_basic_rng/rng_common.hh:151-158): the critical value, the sample size and the significance level. -/
def criticalValueRep (n : Int) (sig : ℚ) : Res (ℚ × Int × ℚ) := do
  let i ← significanceRep sig
  let overrideSig ← (Buf.ofList ksLevels).rd i
  let j ← sampleSizeRep n
  let overrideSample ← (Buf.ofList ksSampleSizes).rd j
  let row ← (Buf.ofList ksCriticalValues).rd i
  let cv ← (Buf.ofList row).rd j
  pure (cv, overrideSample, overrideSig)

/-- `critical_value_rep_mutator` (test/test_basic_rng/rng_common.hh:160-168): the critical value and the new values of `n` and `sig`. The
sample size has the type `TI` of the caller (`int64_t` in the tests) and is converted to `int` for `sample_size_rep`. -/
def criticalValueRepMutator (n : Int) (sig : ℚ) : Res (ℚ × Int × ℚ) := do
  let i ← significanceRep sig
  let sig ← (Buf.ofList ksLevels).rd i
  let j ← sampleSizeRep (wrapInt 32 n)
  let n ← (Buf.ofList ksSampleSizes).rd j
  let row ← (Buf.ofList ksCriticalValues).rd i
  let cv ← (Buf.ofList row).rd j
  pure (cv, n, sig)

/-! ## Kolmogorov-Smirnov checks -/

section
variable {R : Type} [Field R] [LinearOrder R]

/-- `ks_check_critval` (test/test_basic_rng/rng_common.hh:173-184): the first index at which the vectors differ by more than the critical
value and the difference there, or `-1` and `0`. `n1`, `n2` are the sizes of the vectors. A failing `assert` aborts (`terminate`), unless
`NDEBUG` is defined. -/
def ksCheckCritval (ndebug : Bool) (n1 n2 : Int) (cdf1 cdf2 : Buf R) (cv : R) : Res (Int × R) := do
  if ndebug = false ∧ n1 ≠ n2 then .throw .terminate
  else do
    let o ← findI 0 n1 fun i => do
      let x ← cdf1.rd i
      let y ← cdf2.rd i
      if |x - y| > cv then pure (some (i, |x - y|)) else pure none
    match o with
    | some r => pure r
    | none => pure (-1, 0)

/-- `index_set_kolmogorov_smirnov_tester` (test/test_basic_rng/test_discrete.cc:85-101): the first index at which the assertion fails, or
`none` if the test passes. `thresh` is the threshold inside `weights_to_cdf`, `below` its default argument. -/
def indexSetKsTester (samples : List Int) (n : Int) (trueCdf : Buf R) (cv thresh below : R) : M Unit (Option Int) := do
  let ((), sampleCdf) ← M.onLocal (do
    forI 0 samples.length fun t => do
      let s ← M.lift ((Buf.ofList samples).rd t)
      let x ← M.rd s
      M.wr s (x + 1)
    weightsToCdf n thresh below) (Buf.fill n (0 : R))
  findI 0 n fun i => do
    let e ← M.lift (sampleCdf.rd i)
    let f ← M.lift (trueCdf.rd i)
    if |e - f| < cv then pure none else pure (some i)

/-- The count of one sample in `fisher_yates_cdf` (test/test_basic_rng/test_discrete.cc:230-234): how many of the `k` indices from
position `i` on are less than `k`. -/
def fyCount (idxs : Buf Int) (k i : Int) : Res Int :=
  foldI 0 k (fun j count => do
    let x ← idxs.rd (i + j)
    if x < k then pure (count + 1) else pure count) 0

/-- `fisher_yates_cdf` (test/test_basic_rng/test_discrete.cc:220-244). The state is the vector `empirical_cdf`; the loop
`for (i = 0; i < K * num_samples; i += K)` runs over `i = s * K`, `s < num_samples`. -/
def fisherYatesCdf (idxs : Buf Int) (k numSamples : Int) (thresh below : R) : M (Buf R) Unit := do
  if k = 0 then M.set (Buf.ofList [1])
  else do
    let ((), counter) ← M.onLocal (forI 0 numSamples fun s => do
      let count ← M.lift (fyCount idxs k (s * k))
      let x ← M.rd count
      M.wr count (x + 1)) (Buf.fill (k + 1) (0 : Int))
    M.set (Buf.alloc R (k + 1))
    forI 0 (k + 1) fun c => do
      let x ← M.lift (counter.rd c)
      M.wr c (x : R)
    weightsToCdf (k + 1) thresh below

end

/-- `kolmogorov_smirnov_tester` (test/test_basic_rng/test_continuous.cc:55-108): the first `j` at which the assertion fails, or `none` if
the test passes. `F` is `F_true`. `std::sort` is merge sort: equal numbers are indistinguishable, so every correct sort gives the same
vector. With no samples, `j/N` is not a number and the assertion fails at once. -/
noncomputable def kolmogorovSmirnovTester (F : EReal → ℝ) (samples : List ℝ) (cv : ℝ) : Res (Option Int) :=
  let N : Int := samples.length
  if N = 0 then pure (some 0)
  else
    let s : Buf EReal := Buf.ofList ((samples.map Real.toEReal ++ [⊤, ⊥]).mergeSort (fun a b => decide (a ≤ b)))
    findI 0 (N + 1) fun j => do
      let a ← s.rd j
      let b ← s.rd (j + 1)
      let temp1 := F a
      let temp2 := F b
      let empirical := (j : ℝ) / (N : ℝ)
      let supLx := max |temp1 - empirical| |temp2 - empirical|
      if supLx ≤ cv then pure none else pure (some j)

/-! ## Distribution functions -/

/-- `standard_normal_cdf` (test/test_basic_rng/rng_common.hh:264-268). `erfc` is the function of the C library. -/
noncomputable def standardNormalCdf (erfc : EReal → ℝ) (x : EReal) : ℝ := erfc (-x / ((Real.sqrt 2 : ℝ) : EReal)) / 2

/-- `uniform_syminterval_cdf` (test/test_basic_rng/rng_common.hh:270-277). -/
noncomputable def uniformSymintervalCdf (x : EReal) (radius : ℝ) : ℝ :=
  if x ≤ ((-radius : ℝ) : EReal) then 0
  else if x ≥ (radius : EReal) then 1
  else (x.toReal + radius) / (2 * radius)

/-! ## Hypergeometric distribution -/

/-- `std::log`: not finite if the argument is not positive. Used to model test/test_basic_rng/rng_common.hh:190-196. -/
noncomputable def logD (x : ℝ) : Option ℝ := if 0 < x then some (Real.log x) else none

/-- Division of doubles: not finite if the divisor is zero. Used to model test/test_basic_rng/rng_common.hh:244-249. -/
noncomputable def divD (x y : ℝ) : Option ℝ := if y = 0 then none else some (x / y)

/-- `log_binomial_coefficient` (test/test_basic_rng/rng_common.hh:190-196). -/
noncomputable def logBinomialCoefficient (n k : Int) : Option ℝ :=
  foldI 1 (k + 1) (fun i result => do
    let a ← logD ((n - i + 1 : Int) : ℝ)
    let b ← logD (i : ℝ)
    pure (result + (a - b))) 0

/-- `hypergeometric_pmf` (test/test_basic_rng/rng_common.hh:211-230). -/
noncomputable def hypergeometricPmf (N K D k : Int) : Res (Option ℝ) := do
  Res.require (0 ≤ K ∧ K ≤ N)
  Res.require (0 ≤ D ∧ D ≤ N)
  Res.require (0 ≤ k ∧ k ≤ K)
  if k < D - (N - K) ∨ k > D then pure (some 0)
  else pure (do
    let a ← logBinomialCoefficient (N - K) (D - k)
    let b ← logBinomialCoefficient K k
    let logden ← logBinomialCoefficient N D
    some (Real.exp (a + b - logden)))

/-- `hypergeometric_pmf_arr` (test/test_basic_rng/rng_common.hh:232-242). The state is the vector `pmf`, of `K + 1` zeros at first. -/
noncomputable def hypergeometricPmfArr (N K D : Int) : M (Buf (Option ℝ)) Unit := do
  M.require (0 ≤ K ∧ K ≤ N)
  M.require (0 ≤ D ∧ D ≤ N)
  M.set (Buf.fill (K + 1) (some 0))
  forI 0 (K + 1) fun i => do
    let x ← M.lift (hypergeometricPmf N K D i)
    M.wr i x

/-- `hypergeometric_mean` (test/test_basic_rng/rng_common.hh:244-249). -/
noncomputable def hypergeometricMean (N K D : Int) : Option ℝ := divD ((D : ℝ) * (K : ℝ)) (N : ℝ)

/-- `hypergeometric_variance` (test/test_basic_rng/rng_common.hh:251-260). -/
noncomputable def hypergeometricVariance (N K D : Int) : Option ℝ := do
  let t1 ← divD (K : ℝ) (N : ℝ)
  let t2 ← divD ((N : ℝ) - (K : ℝ)) (N : ℝ)
  let t3 ← divD ((N : ℝ) - (D : ℝ)) ((N : ℝ) - 1)
  pure ((D : ℝ) * t1 * t2 * t3)

end RB
