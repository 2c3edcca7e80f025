import Verif.Model.Util
import Verif.Model.HrLapack

/-!
# Error messages

The macros of RandBLAS/exceptions.hh in their default form (`RandBLAS_ERROR_ASSERT` not defined), with the text that the exception carries. A C string is the list of its characters before the
terminating null character.
-/

namespace RB
variable {T : Type}

/-- An argument of a variadic call after the default promotions: a 32-bit or a 64-bit integer, a double, a C string. Used to model RandBLAS/exceptions.hh:138-147. -/
inductive PfArg (T : Type) where
  | i32 (v : Int) | i64 (v : Int) | dbl (x : T) | str (s : List Char)

/-- What `%i` does with an argument of 64 bits. `standard`: a conversion with an argument of another type is undefined (C17 7.21.6.1p9). `lowWord`: the low 32 bits are read as an `int`,
as the calling conventions of x86-64 and AArch64 make it. Used to model RandBLAS/exceptions.hh:138-147. -/
inductive VaMode where
  | standard | lowWord
  deriving DecidableEq

/-- The decimal digits of an integer, as `%i` writes them. Used to model RandBLAS/exceptions.hh:138-147. -/
def decimal (v : Int) : List Char := if v < 0 then '-' :: Nat.toDigits 10 (-v).toNat else Nat.toDigits 10 v.toNat

/-- The text that `vsnprintf` (C library) produces before it is cut to the size of the buffer, for the conversions `%i`, `%d`, `%e`, `%s` and `%%` without flags; every other conversion, a wrong type and a
missing argument are undefined. `fmtE` is the text that `%e` writes for a number. Used to model RandBLAS/exceptions.hh:138-147. -/
def formatted (mode : VaMode) (fmtE : T → List Char) : List Char → List (PfArg T) → Res (List Char)
  | [], _ => .ok []
  | '%' :: '%' :: f, as => do let r ← formatted mode fmtE f as; pure ('%' :: r)
  | '%' :: 'i' :: f, .i32 v :: as => do let r ← formatted mode fmtE f as; pure (decimal v ++ r)
  | '%' :: 'd' :: f, .i32 v :: as => do let r ← formatted mode fmtE f as; pure (decimal v ++ r)
  | '%' :: 'i' :: f, .i64 v :: as =>
    match mode with
    | .standard => .ub
    | .lowWord => do let r ← formatted mode fmtE f as; pure (decimal (wrapInt 32 v) ++ r)
  | '%' :: 'e' :: f, .dbl x :: as => do let r ← formatted mode fmtE f as; pure (fmtE x ++ r)
  | '%' :: 's' :: f, .str s :: as => do let r ← formatted mode fmtE f as; pure (s ++ r)
  | '%' :: _, _ => .ub
  | c :: f, as => do let r ← formatted mode fmtE f as; pure (c :: r)

/-- The end of a statement that may raise an error, with the text that `what()` of the exception returns. Used to model RandBLAS/exceptions.hh:115-120. -/
inductive Outcome where
  | returned | thrown (what : List Char) | undefined
  deriving DecidableEq

/-- `Error(const char* msg, const char* func)` and `what` (RandBLAS/exceptions.hh:71-75, 95-96). -/
def errorText (msg func : List Char) : List Char := msg ++ ", in function ".toList ++ func

/-- `throw_if(cond, condstr, func)` (RandBLAS/exceptions.hh:115-120). -/
def throwIf (cond : Prop) [Decidable cond] (condstr func : List Char) : Outcome := if cond then .thrown (errorText condstr func) else .returned

/-- `randblas_error_if(cond)` (RandBLAS/exceptions.hh:189-190); `text` is the source text of the condition, `func` the name of the function that contains the statement. -/
def errorIfOut (cond : Prop) [Decidable cond] (text func : List Char) : Outcome := throwIf cond text func

/-- `randblas_require(cond)` (RandBLAS/exceptions.hh:198-199). -/
def requireOut (cond : Prop) [Decidable cond] (text func : List Char) : Outcome :=
  throwIf (¬ cond) ("(".toList ++ text ++ ") was required, but did not hold".toList) func

/-- `RandBLAS_ERROR_MESSAGE_SIZE` (RandBLAS/exceptions.hh:128). -/
def errorMessageSize : Nat := 256

/-- `throw_if(cond, condstr, func, format, ...)` and `randblas_error_if_msg` (RandBLAS/exceptions.hh:138-147, 195-196). -/
def errorIfMsgOut (mode : VaMode) (fmtE : T → List Char) (cond : Prop) [Decidable cond] (func format : List Char) (args : List (PfArg T)) : Outcome :=
  if cond then
    match formatted mode fmtE format args with
    | .ok s => .thrown (errorText (s.take (errorMessageSize - 1)) func)
    | _ => .undefined
  else .returned

/-- The text of the error in `require_symmetric` (RandBLAS/util.hh:139). -/
def symmetryFormat : List Char := "Symmetry check failed. |A(%i,%i) - A(%i,%i)| was %e, which exceeds tolerance of %e.".toList

/-- The loops of `require_symmetric` up to the first violation (RandBLAS/util.hh:127-138): its row, its column, the violation and the tolerance. -/
def symmetryViolation [Field T] [LinearOrder T] (layout : Layout) (A : Buf T) (n lda : Int) (tol : T) : Res (Option (Int × Int × T × T)) :=
  if tol < 0 then .ok none
  else
    let s := layoutToStrides layout lda
    findI 0 n fun i => findI (i + 1) n fun j => do
      let aij ← A.rd (s.at i j)
      let aji ← A.rd (s.at j i)
      let viol := |aij - aji|
      let relTol := (|aij| + |aji| + 1) * tol
      if viol > relTol then pure (some (i, j, viol, relTol)) else pure none

/-- `require_symmetric` with the text of its error (RandBLAS/util.hh:126-147). The indices are `int64_t`. -/
def requireSymmetricOut [Field T] [LinearOrder T] (mode : VaMode) (fmtE : T → List Char) (layout : Layout) (A : Buf T) (n lda : Int) (tol : T) : Outcome :=
  match symmetryViolation layout A n lda tol with
  | .ok none => .returned
  | .ok (some (i, j, viol, relTol)) => errorIfMsgOut mode fmtE (viol > relTol) "require_symmetric".toList symmetryFormat [.i64 i, .i64 j, .i64 j, .i64 i, .dbl viol, .dbl relTol]
  | _ => .undefined

end RB
