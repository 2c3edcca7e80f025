import Verif.Model.Messages
import Verif.Model.Random123Float
import Verif.Model.Sampling
import Verif.Model.TestLinop

/-!
# Model of the histogram test and of the tests of the error macros (test/test_basic_rng/test_r123.cc, test/test_exceptions.cc)
-/

namespace RB
variable {N : Nat} {K W R : Type}

section
variable [Field R] [LinearOrder R] [FloorRing R]

/-- The bin of a number, `(int) ((u + Ftype(1.))*Ftype(NBINS/2))` with `NBINS = 26` (test/test_basic_rng/test_r123.cc:582, 593). `rnd` is the rounding of `Ftype`. -/
def histIndex (rnd : R → R) (u : R) : Int := truncToInt (rnd (rnd (u + 1) * 13))

/-- `R123_ASSERT` (Random123 features/compilerfeatures.h): `assert`, which ends the process. Used to model test/test_basic_rng/test_r123.cc:591-594. -/
def r123Assert {σ : Type} (p : Prop) [Decidable p] : M σ Unit := M.lift (if p then .ok () else .throw .terminate)

/-- One number is counted (test/test_basic_rng/test_r123.cc:591-594). -/
def histAdd (rnd : R → R) (u : R) : M (Buf Int) Unit := do
  r123Assert (-1 ≤ u)
  r123Assert (u ≤ 1)
  let x ← M.rd (histIndex rnd u)
  M.wr (histIndex rnd u) (x + 1)

/-- The loops that fill the histogram (test/test_basic_rng/test_r123.cc:576, 585-596). `f` is the conversion under test, `key` the key of zeros. -/
def histFill (G : Gen N K W R) (f : W → R) (rnd : R → R) (key : K) : M (Buf Int) Unit := do
  let _ ← foldI 0 1000 (fun _ c => do
    let c := ctrIncr c 1
    forI 0 G.len fun j => histAdd rnd (f (G.word c key j))
    pure c) (0 : ZMod N)
  pure ()

/-- The text of the histogram, `oss << " " << hist[i]` for all bins (test/test_basic_rng/test_r123.cc:597-600). -/
def histText (hist : Buf Int) : Res (List Char) :=
  foldI 0 26 (fun i t => do let x ← hist.rd i; pure (t ++ ' ' :: decimal x)) []

/-- `chk` (test/test_basic_rng/test_r123.cc:569-607): whether the text is that of the reference. The entry of the map is the argument `ref`. -/
def histTest (G : Gen N K W R) (f : W → R) (rnd : R → R) (key : K) (ref : List Char) : M Unit Bool := do
  let h ← M.onLocal (histFill G f rnd key) (Buf.fill 26 0)
  let t ← M.lift (histText h.2)
  pure (decide (t = ref))

end

/-- `message.find(text) != std::string::npos` (test/test_exceptions.cc:20, 31, 43). -/
def findsText (message text : List Char) : Bool := decide (text <:+: message)

/-- The shape of the three tests (test/test_exceptions.cc:14-46): the statement raises an error whose message contains the text; `flag` is the value of the flag if no error is raised. -/
def exceptionTest (out : Outcome) (flag : Bool) (text : List Char) : Option Bool :=
  match out with
  | .returned => some flag
  | .thrown w => some (findsText w text)
  | .undefined => none

/-- `randblas_require_var_arg` (test/test_exceptions.cc:14-23), for a condition with the source text `text` that is false at first. -/
def testRequire (text func : List Char) : Option Bool := exceptionTest (requireOut False text func) false text

/-- `randblas_error_if_msg_output` (test/test_exceptions.cc:36-46) for a message. -/
def testErrorIfMsg {T : Type} (mode : VaMode) (fmtE : T → List Char) (func msg : List Char) : Option Bool := exceptionTest (errorIfMsgOut mode fmtE True func msg ([] : List (PfArg T))) false msg

end RB
