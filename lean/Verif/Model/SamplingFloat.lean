import Verif.Model.Sampling
import Mathlib.Data.Real.Basic

/-! Model of `weights_to_cdf` and `sample_indices_iid` (RandBLAS/util.hh:418-474) with a rounding `rnd` of every operation in the type `T` of the cumulative distribution. -/

namespace RB
variable {N : Nat} {K W : Type}

/-- `weights_to_cdf` (RandBLAS/util.hh:418-432), every sum, the quotient and every product rounded by `rnd`. `thresh` is `sqrt(n) * numeric_limits<T>::epsilon()`. `blas::scal`
(external) is the reference loop. Simplification: no overflow and no underflow. -/
noncomputable def weightsToCdfFl (rnd : ℝ → ℝ) (n : Int) (thresh errorIfBelow : ℝ) : M (Buf ℝ) Unit := do
  let sum ← foldI 0 n (fun i sum => do
    let val ← M.rd i
    M.require (val ≥ errorIfBelow)
    M.wr i (rnd (sum + max val 0))
    pure (rnd (sum + max val 0))) 0
  M.require (sum ≥ thresh)
  blasCheck (0 ≤ n)
  forI 0 n fun i => do
    let x ← M.rd i
    M.wr i (rnd (rnd (1 / sum) * x))

/-- `uneg11_to_u01<TO, TI>` (RandBLAS/util.hh:434-437) with the conversion to `TO`, the sum and the quotient rounded. -/
noncomputable def uneg11ToU01Fl (rnd : ℝ → ℝ) (x : ℝ) : ℝ := rnd (rnd (rnd x + 1) / 2)

/-- `sample_indices_iid` (RandBLAS/util.hh:452-474) for a cumulative distribution of the floating-point type with rounding `rnd`. -/
noncomputable def sampleIndicesIidFl (rnd : ℝ → ℝ) (G : Gen N K W ℝ) (n : Int) (cdf : Buf ℝ) (k : Int) (state : RNGState N K) :
    M (Buf Int) (RNGState N K) := do
  let rv ← M.lift (G.uneg11Generate state.counter state.key)
  let (ctr, _, idx) ← foldI 0 k (fun i (st : ZMod N × Buf ℝ × Int) => do
    let x ← M.lift (st.2.1.rd st.2.2)
    let s ← M.lift (lowerBound cdf (uneg11ToU01Fl rnd x) n.toNat 0 n)
    M.wr i s
    M.lift (nextWord G state.key G.len st.1 st.2.1 (st.2.2 + 1))) (state.counter, rv, 0)
  pure { state with counter := finishCtr ctr idx }

end RB
