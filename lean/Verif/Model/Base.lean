import Verif.Core.Loop
import Mathlib.Data.ZMod.Defs
import Mathlib.Data.ZMod.Basic

/-! # Model of RandBLAS/base.hh -/

namespace RB

/-- `blas::Layout` (BLAS++). Used to model RandBLAS/base.hh:199-205. -/
inductive Layout where | ColMajor | RowMajor
  deriving DecidableEq, Repr

/-- `blas::Op` (BLAS++). `ConjTrans` behaves as `Trans` for the real scalar types RandBLAS uses. Used to model RandBLAS/skge.hh:189. -/
inductive Op where | NoTrans | Trans
  deriving DecidableEq, Repr

/-- `blas::Uplo` (BLAS++). Used to model RandBLAS/util.hh:306-327. -/
inductive Uplo where | Upper | Lower | General
  deriving DecidableEq, Repr

/-- `RandBLAS::Axis` (RandBLAS/base.hh:286-292). -/
inductive Axis where | Short | Long
  deriving DecidableEq, Repr

/-- The other layout. Used to model RandBLAS/skge.hh:194-196. -/
def Layout.flip : Layout → Layout
  | .ColMajor => .RowMajor
  | .RowMajor => .ColMajor

/-- The other op (as in `RandBLAS/skge.hh:189`: `(opS == NoTrans) ? Trans : NoTrans`). -/
def Op.flip : Op → Op
  | .NoTrans => .Trans
  | .Trans => .NoTrans

/-- `stride_64t` (RandBLAS/base.hh:194-197). -/
structure Strides where
  irs : Int
  ics : Int
  deriving DecidableEq, Repr

/-- Offset of matrix entry (i, j), as in `mat(A)_{ij} == A[i * inter_row_stride + j * inter_col_stride]`
(RandBLAS/base.hh:184-193). -/
def Strides.at (s : Strides) (i j : Int) : Int := i * s.irs + j * s.ics

/-- `layout_to_strides(layout, ldim)` (RandBLAS/base.hh:199-205). -/
def layoutToStrides (layout : Layout) (ldim : Int) : Strides :=
  if layout = .ColMajor then ⟨1, ldim⟩ else ⟨ldim, 1⟩

/-- `layout_to_strides(layout, n_rows, n_cols)` (RandBLAS/base.hh:207-213). -/
def layoutToStrides3 (layout : Layout) (nRows nCols : Int) : Strides :=
  if layout = .ColMajor then ⟨1, nRows⟩ else ⟨nCols, 1⟩

/-- `dims_before_op` (RandBLAS/base.hh:220-226). -/
def dimsBeforeOp (m n : Int) (op : Op) : Int × Int :=
  if op = .NoTrans then (m, n) else (n, m)

/-- `offset_and_ldim` (RandBLAS/base.hh:233-243): (pointer_offset, ldim). Index arithmetic over ℤ. -/
def offsetAndLdim (layout : Layout) (nRows nCols roS coS : Int) : Int × Int :=
  if layout = .ColMajor then (roS + nRows * coS, nRows) else (roS * nCols + coS, nCols)

/-! ## Machine integers and `safe_int_product` -/

/-- Largest value of a `w`-bit signed integer. Used to model RandBLAS/base.hh:254-268. -/
def intMax (w : Nat) : Int := 2 ^ (w - 1) - 1
/-- Smallest value of a `w`-bit signed integer. Used to model RandBLAS/base.hh:254-268. -/
def intMin (w : Nat) : Int := -2 ^ (w - 1)

/-- The value is representable in a `w`-bit signed integer. Used to model RandBLAS/base.hh:254-268. -/
def FitsInt (w : Nat) (x : Int) : Prop := intMin w ≤ x ∧ x ≤ intMax w

instance (w : Nat) (x : Int) : Decidable (FitsInt w x) := by unfold FitsInt; infer_instance

/-- Two's complement wrap-around to `w` bits: what common hardware computes on overflow. Used to model RandBLAS/base.hh:254-268. -/
def wrapInt (w : Nat) (x : Int) : Int := (x + 2 ^ (w - 1)) % 2 ^ w - 2 ^ (w - 1)

/-- How `a * b` behaves when the product is not representable. Signed overflow is undefined
behaviour in C++ (`strict`); compiled code usually wraps (`wrapping`). Used to model RandBLAS/base.hh:254-268. -/
inductive OverflowMode where | strict | wrapping
  deriving DecidableEq, Repr

/-- `a * b` on `w`-bit signed integers. Used to model RandBLAS/base.hh:254-268. -/
def mulInt (mode : OverflowMode) (w : Nat) (a b : Int) : Res Int :=
  if FitsInt w (a * b) then .ok (a * b)
  else match mode with
    | .strict => .ub
    | .wrapping => .ok (wrapInt w (a * b))

/-- `a / b` on `w`-bit signed integers: truncating; undefined for `b = 0` and when the quotient overflows. Used to model RandBLAS/base.hh:254-268. -/
def divInt (w : Nat) (a b : Int) : Res Int :=
  if b = 0 then .ub else if FitsInt w (a.tdiv b) then .ok (a.tdiv b) else .ub

/-- `safe_int_product` (RandBLAS/base.hh:254-268) for `TI = TO` a `w`-bit signed integer type. -/
def safeIntProductM (mode : OverflowMode) (w : Nat) (a b : Int) : Res Int :=
  if a = 0 ∨ b = 0 then .ok 0
  else do
    let c ← mulInt mode w a b
    let bCheck ← divInt w c a
    let aCheck ← divInt w c b
    if aCheck ≠ a ∨ bCheck ≠ b then .throw .overflow else .ok c

/-- `safe_int_product<int64_t>` as used by the rest of the library (wrapping multiplication). Used to model RandBLAS/base.hh:254-268. -/
def safeIntProduct (a b : Int) : Res Int := safeIntProductM .wrapping 64 a b

/-- `get_dim_major` (RandBLAS/base.hh:298-304). -/
def getDimMajor (ax : Axis) (nRows nCols : Int) : Int :=
  if ax = .Long then max nRows nCols else min nRows nCols

/-! ## RNG states -/

/-- `RNGState<RNG>` (RandBLAS/base.hh:64-164). The counter, an array of `len_c` unsigned words that
Random123 treats as one wide unsigned integer, is an integer modulo `N = 2^(width * len_c)`. -/
structure RNGState (N : Nat) (K : Type) where
  counter : ZMod N
  key : K

/-- `counter.incr(n)` (Random123 `r123array::incr`): the argument is converted to an unsigned 64-bit integer and added
to the counter, modulo the counter's period. Used to model RandBLAS/dense_skops.hh:132-163. -/
def ctrIncr {N : Nat} (c : ZMod N) (n : Int) : ZMod N := c + ((n % 2 ^ 64 : Int) : ZMod N)

/-- The state with its counter incremented. Used to model RandBLAS/dense_skops.hh:172-185. -/
def RNGState.incr {N : Nat} {K : Type} (s : RNGState N K) (n : Int) : RNGState N K :=
  { s with counter := ctrIncr s.counter n }

end RB
