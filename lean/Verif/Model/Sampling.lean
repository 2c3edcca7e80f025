import Verif.Model.RandomGen
import Verif.Model.Blas
import Mathlib.Algebra.Order.Field.Basic
import Mathlib.Algebra.Order.Floor.Defs

/-!
# Model of the sampling functions of RandBLAS/util.hh (394-520)

The floating-point types of the uniform variates and of the cdf are an ordered field `R`: rounding is not modelled.
-/

namespace RB
variable {N : Nat} {K W R T : Type}

/-- `weights_to_cdf` (RandBLAS/util.hh:418-432). `thresh` is `sqrt(n) * numeric_limits<T>::epsilon()`. -/
def weightsToCdf [Field R] [LinearOrder R] (n : Int) (thresh errorIfBelow : R) : M (Buf R) Unit := do
  let sum ← foldI 0 n (fun i sum => do
    let val ← M.rd i
    M.require (val ≥ errorIfBelow)
    M.wr i (sum + max val 0)
    pure (sum + max val 0)) 0
  M.require (sum ≥ thresh)
  blasScal n (1 / sum) 0 1

/-- `uneg11_to_u01` (RandBLAS/util.hh:434-437). -/
def uneg11ToU01 [Field R] (x : R) : R := (x + 1) / 2

/-- `std::lower_bound(cdf + first, cdf + first + len, v) - cdf` (external): the binary search of the reference
implementation. `fuel` bounds the number of halvings (`len` suffices). Used to model RandBLAS/util.hh:452-474. -/
def lowerBound [LT R] [DecidableLT R] (cdf : Buf R) (v : R) (fuel : Nat) (first len : Int) : Res Int :=
  match fuel with
  | 0 => .ok first
  | fuel + 1 =>
    if len ≤ 0 then .ok first
    else do
      let half := len.tdiv 2
      let x ← cdf.rd (first + half)
      if x < v then lowerBound cdf v fuel (first + half + 1) (len - half - 1)
      else lowerBound cdf v fuel first half

/-- The part of the sampling loops that moves to the next random word, and to the next counter after `len` words
(RandBLAS/util.hh:466-470, 500-504). -/
def nextWord (G : Gen N K W R) (key : K) (len : Int) (ctr : ZMod N) (rv : Buf R) (idx : Int) : Res (ZMod N × Buf R × Int) :=
  if idx = len then do
    let ctr := ctrIncr ctr 1
    let rv ← G.uneg11Generate ctr key
    pure (ctr, rv, 0)
  else pure (ctr, rv, idx)

/-- `if (0 < rv_index) ctr.incr(1)` (RandBLAS/util.hh:472, 506). -/
def finishCtr (ctr : ZMod N) (idx : Int) : ZMod N := if 0 < idx then ctrIncr ctr 1 else ctr

/-- `sample_indices_iid` (RandBLAS/util.hh:452-474). -/
def sampleIndicesIid [Field R] [LinearOrder R] (G : Gen N K W R) (n : Int) (cdf : Buf R) (k : Int) (state : RNGState N K) :
    M (Buf Int) (RNGState N K) := do
  let rv ← M.lift (G.uneg11Generate state.counter state.key)
  let (ctr, _, idx) ← foldI 0 k (fun i (st : ZMod N × Buf R × Int) => do
    let x ← M.lift (st.2.1.rd st.2.2)
    let s ← M.lift (lowerBound cdf (uneg11ToU01 x) n.toNat 0 n)
    M.wr i s
    M.lift (nextWord G state.key G.len st.1 st.2.1 (st.2.2 + 1))) (state.counter, rv, 0)
  pure { state with counter := finishCtr ctr idx }

/-- Conversion of a floating-point number to an integer: truncation towards zero. Used to model RandBLAS/util.hh:476-508. -/
def truncToInt [Field R] [LinearOrder R] [FloorRing R] (x : R) : Int := if 0 ≤ x then ⌊x⌋ else ⌈x⌉

/-- The memory of `sample_indices_iid_uniform`: `samples` and (unless null) `rademachers`. Used to model RandBLAS/util.hh:496-499. -/
structure UnifBufs (T : Type) where
  samples : Buf Int
  rademachers : Buf T

/-- The optional part of the loop body (RandBLAS/util.hh:496-499, `if constexpr (WriteRademachers)`). -/
def writeRademacher [Field R] [LinearOrder R] [One T] [Neg T] (writeR : Bool) (off i : Int) (rv : Buf R) (idx : Int) :
    M (UnifBufs T) Int :=
  if writeR then do
    let y ← M.lift (rv.rd idx)
    M.zoom UnifBufs.rademachers (fun s b => { s with rademachers := b }) (M.wr (off + i) (if y ≥ 0 then 1 else -1))
    pure (idx + 1)
  else pure idx

/-- `sample_indices_iid_uniform<T, sint_t, WriteRademachers>` (RandBLAS/util.hh:476-508), writing at `samples + off` and
`rademachers + off`. -/
def sampleIndicesIidUniform [Field R] [LinearOrder R] [FloorRing R] [One T] [Neg T] (G : Gen N K W R) (writeR : Bool)
    (n k off : Int) (state : RNGState N K) : M (UnifBufs T) (RNGState N K) := do
  let rv ← M.lift (G.uneg11Generate state.counter state.key)
  let len := if writeR then 2 * (G.len.tdiv 2) else G.len
  let (ctr, _, idx) ← foldI 0 k (fun i (st : ZMod N × Buf R × Int) => do
    let x ← M.lift (st.2.1.rd st.2.2)
    M.zoom UnifBufs.samples (fun s b => { s with samples := b }) (M.wr (off + i) (truncToInt ((n : R) * uneg11ToU01 x)))
    let idx ← writeRademacher writeR off i st.2.1 (st.2.2 + 1)
    M.lift (nextWord G state.key len st.1 st.2.1 idx)) (state.counter, rv, 0)
  pure { state with counter := finishCtr ctr idx }

/-- The public `sample_indices_iid_uniform(n, k, samples, state)` (RandBLAS/util.hh:516-520). -/
def sampleIndicesIidUniformPublic [Field R] [LinearOrder R] [FloorRing R] (G : Gen N K W R) (n k : Int) (state : RNGState N K) :
    M (Buf Int) (RNGState N K) :=
  M.zoom (fun s => UnifBufs.mk (T := R) s (fun _ => .none)) (fun _ u => u.samples) (sampleIndicesIidUniform G false n k 0 state)

end RB
