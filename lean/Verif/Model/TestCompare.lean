import Verif.Model.HrLapack

/-!
# Model of the comparison helpers of the tests (test/comparison.hh)

Floating-point numbers are finite numbers of an ordered field, two infinities and NaN, with the rules of IEEE 754 for the latter: comparisons with NaN
are false, infinity minus infinity is NaN, zero times infinity is NaN. Operations on finite numbers are exact (no rounding, no overflow).
`abs` is the floating-point absolute value. A check that fails (`FAIL()`, which returns from the helper) is an ordinary result, the place of the failure; the text of the
message is not modelled.
-/

namespace RB

/-- A floating-point number: finite, infinite (`true`: negative), or not a number. Used to model test/comparison.hh:60-82. -/
inductive Flt (R : Type) where
  | fin (x : R)
  | inf (neg : Bool)
  | nan
deriving DecidableEq

namespace Flt
variable {R : Type} [Field R] [LinearOrder R]

/-- `a - b` (IEEE 754). Used to model test/comparison.hh:60-82. -/
def sub : Flt R → Flt R → Flt R
  | .fin x, .fin y => .fin (x - y)
  | .fin _, .inf s => .inf (!s)
  | .inf s, .fin _ => .inf s
  | .inf s, .inf t => if s = t then .nan else .inf s
  | .nan, _ => .nan
  | _, .nan => .nan

/-- `a * b` (IEEE 754). Used to model test/comparison.hh:60-82. -/
def mul : Flt R → Flt R → Flt R
  | .fin x, .fin y => .fin (x * y)
  | .fin x, .inf s => if x = 0 then .nan else .inf (xor s (decide (x < 0)))
  | .inf s, .fin y => if y = 0 then .nan else .inf (xor s (decide (y < 0)))
  | .inf s, .inf t => .inf (xor s t)
  | .nan, _ => .nan
  | _, .nan => .nan

/-- `abs(a)` (the overload for floating-point numbers). Used to model test/comparison.hh:60-82. -/
def abs : Flt R → Flt R
  | .fin x => .fin |x|
  | .inf _ => .inf false
  | .nan => .nan

/-- `a < b` (IEEE 754). Used to model test/comparison.hh:60-82. -/
def lt : Flt R → Flt R → Bool
  | .fin x, .fin y => decide (x < y)
  | .fin _, .inf s => !s
  | .inf s, .fin _ => s
  | .inf s, .inf t => s && !t
  | .nan, _ => false
  | _, .nan => false

/-- `a <= b` (IEEE 754). Used to model test/comparison.hh:60-82. -/
def le : Flt R → Flt R → Bool
  | .fin x, .fin y => decide (x ≤ y)
  | .fin _, .inf s => !s
  | .inf s, .fin _ => s
  | .inf s, .inf t => s || !t
  | .nan, _ => false
  | _, .nan => false

/-- `std::max(a, b)`, which is `(a < b) ? b : a`. Used to model test/comparison.hh:60-82. -/
def max (a b : Flt R) : Flt R := if lt a b then b else a

end Flt

section
variable {R : Type} [Field R] [LinearOrder R]

/-- `approx_equal(A, B, str, atol, rtol)` (test/comparison.hh:60-82). -/
def approxEqual (A B atol rtol : Flt R) : Bool :=
  let diff := (A.sub B).abs
  if diff.le atol then true
  else
    let m := Flt.max B.abs A.abs
    if diff.le (m.mul rtol) then true else false

/-- `approx_equal(A, B, testName, fileName, lineNo, atol, rtol)` (test/comparison.hh:85-93): whether the check fails. -/
def approxEqualFails (A B atol rtol : Flt R) : Bool := if !approxEqual A B atol rtol then true else false

/-- `buffs_approx_equal(actual, expect, size, ..., atol, rtol)` (test/comparison.hh:109-128): the first index with different values, or `none`. -/
def buffsApproxEqual (actual expect : Buf (Flt R)) (size : Int) (atol rtol : Flt R) : Res (Option Int) :=
  findI 0 size fun i => do
    let a ← actual.rd i
    let e ← expect.rd i
    if !approxEqual a e atol rtol then pure (some i) else pure none

/-- `buffs_approx_equal(size, actual, inc_actual, expect, inc_expect, ..., atol, rtol)` (test/comparison.hh:134-155). -/
def buffsApproxEqualInc (size : Int) (actual : Buf (Flt R)) (incA : Int) (expect : Buf (Flt R)) (incE : Int) (atol rtol : Flt R) : Res (Option Int) :=
  findI 0 size fun i => do
    let a ← actual.rd (i * incA)
    let e ← expect.rd (i * incE)
    if !approxEqual a e atol rtol then pure (some i) else pure none

/-- `buffs_approx_equal(actual, expect, bounds, size, ...)` (test/comparison.hh:158-179). -/
def buffsWithinBounds (actual expect bounds : Buf (Flt R)) (size : Int) : Res (Option Int) :=
  findI 0 size fun i => do
    let a ← actual.rd i
    let e ← expect.rd i
    let err := (a.sub e).abs
    let allowed ← bounds.rd i
    if allowed.lt err then pure (some i) else pure none

/-- The index functions of `matrices_approx_equal` (test/comparison.hh:200-205). -/
def cmpIdx (layout : Layout) (ld i j : Int) : Int := if layout = .ColMajor then i + j * ld else j + i * ld

/-- `matrices_approx_equal(layoutA, layoutB, transB, m, n, A, lda, B, ldb, ..., atol, rtol)` (test/comparison.hh:182-229): the first failing pair of indices
(i, j), or `none`. (For a transposed B the message has them in the other order.) -/
def matricesApproxEqual (layoutA layoutB : Layout) (transB : Op) (m n : Int) (A : Buf (Flt R)) (lda : Int) (B : Buf (Flt R)) (ldb : Int)
    (atol rtol : Flt R) : Res (Option (Int × Int)) :=
  if transB = .NoTrans then
    findI 0 m fun i => findI 0 n fun j => do
      let a ← A.rd (cmpIdx layoutA lda i j)
      let b ← B.rd (cmpIdx layoutB ldb i j)
      if !approxEqual a b atol rtol then pure (some (i, j)) else pure none
  else
    findI 0 m fun i => findI 0 n fun j => do
      let a ← A.rd (cmpIdx layoutA lda i j)
      let b ← B.rd (cmpIdx layoutB ldb j i)
      if !approxEqual a b atol rtol then pure (some (i, j)) else pure none

/-- `matrices_approx_equal(layout, transB, m, n, A, lda, B, ldb, ..., atol, rtol)` (test/comparison.hh:233-249). -/
def matricesApproxEqual1 (layout : Layout) (transB : Op) (m n : Int) (A : Buf (Flt R)) (lda : Int) (B : Buf (Flt R)) (ldb : Int)
    (atol rtol : Flt R) : Res (Option (Int × Int)) :=
  matricesApproxEqual layout layout transB m n A lda B ldb atol rtol

end
end RB
