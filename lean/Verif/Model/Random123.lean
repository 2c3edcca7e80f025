import Verif.Model.RandomGen
import Verif.Model.RngWords
import Mathlib.Analysis.SpecialFunctions.Log.Basic
import Mathlib.Analysis.SpecialFunctions.Trigonometric.Basic

/-!
# The generators of Random123

RandBLAS includes `Random123/philox.h` and `Random123/threefry.h` (RandBLAS/random_gen.hh:76-77) and its default generator is Philox4x32 with its default of 10 rounds
(RandBLAS/base.hh:53). They are external code, modelled from its public source. The known answers of test/test_basic_rng/r123_kat_vectors.txt are evaluated in
`Verif/Props/Random123.lean`.
-/

namespace RB

/-- An `r123array` of two words. External (Random123), included at RandBLAS/random_gen.hh:75-87. -/
structure W2 (w : Nat) where
  x0 : BitVec w
  x1 : BitVec w
deriving DecidableEq

/-- An `r123array` of four words. External (Random123), included at RandBLAS/random_gen.hh:75-87. -/
structure W4 (w : Nat) where
  x0 : BitVec w
  x1 : BitVec w
  x2 : BitVec w
  x3 : BitVec w
deriving DecidableEq

variable {w : Nat}

/-- `mulhilo32` and `mulhilo64` (Random123 philox.h): the high word of the product. The low word is the product of `BitVec`s. External (Random123), included at RandBLAS/random_gen.hh:75-87. -/
def mulhi (a b : BitVec w) : BitVec w := BitVec.ofNat w (a.toNat * b.toNat / 2 ^ w)

/-- The multipliers and the increments of the key. The generators of two words do not use the second ones. External (Random123), included at RandBLAS/random_gen.hh:75-87. -/
structure PhiloxConst (w : Nat) where
  m0 : BitVec w
  m1 : BitVec w
  w0 : BitVec w
  w1 : BitVec w

/-- `PHILOX_M4x32_0`, `PHILOX_M4x32_1`, `PHILOX_W32_0`, `PHILOX_W32_1`. External (Random123), included at RandBLAS/random_gen.hh:75-87. -/
def philox4x32C : PhiloxConst 32 := ⟨0xD2511F53#32, 0xCD9E8D57#32, 0x9E3779B9#32, 0xBB67AE85#32⟩
/-- `PHILOX_M4x64_0`, `PHILOX_M4x64_1`, `PHILOX_W64_0`, `PHILOX_W64_1`. External (Random123), included at RandBLAS/random_gen.hh:75-87. -/
def philox4x64C : PhiloxConst 64 := ⟨0xD2E7470EE14C6C93#64, 0xCA5A826395121157#64, 0x9E3779B97F4A7C15#64, 0xBB67AE8584CAA73B#64⟩
/-- `PHILOX_M2x32_0`, `PHILOX_W32_0`. External (Random123), included at RandBLAS/random_gen.hh:75-87. -/
def philox2x32C : PhiloxConst 32 := ⟨0xd256d193#32, 1#32, 0x9E3779B9#32, 0#32⟩
/-- `PHILOX_M2x64_0`, `PHILOX_W64_0`. External (Random123), included at RandBLAS/random_gen.hh:75-87. -/
def philox2x64C : PhiloxConst 64 := ⟨0xD2B74407B1CE6E93#64, 1#64, 0x9E3779B97F4A7C15#64, 0#64⟩

/-- `_philox4xWround`. External (Random123), included at RandBLAS/random_gen.hh:75-87. -/
def philox4Round (C : PhiloxConst w) (c : W4 w) (k : W2 w) : W4 w :=
  ⟨mulhi C.m1 c.x2 ^^^ c.x1 ^^^ k.x0, C.m1 * c.x2, mulhi C.m0 c.x0 ^^^ c.x3 ^^^ k.x1, C.m0 * c.x0⟩

/-- `_philox4xWbumpkey`. External (Random123), included at RandBLAS/random_gen.hh:75-87. -/
def philox4Bump (C : PhiloxConst w) (k : W2 w) : W2 w := ⟨k.x0 + C.w0, k.x1 + C.w1⟩

/-- `philox4xW_R`: the key is bumped before every round but the first. External (Random123), included at RandBLAS/random_gen.hh:75-87. -/
def philox4 (C : PhiloxConst w) : Nat → W4 w → W2 w → W4 w
  | 0, c, _ => c
  | R + 1, c, k => philox4 C R (philox4Round C c k) (philox4Bump C k)

/-- `_philox2xWround`. External (Random123), included at RandBLAS/random_gen.hh:75-87. -/
def philox2Round (C : PhiloxConst w) (c : W2 w) (k : BitVec w) : W2 w := ⟨mulhi C.m0 c.x0 ^^^ k ^^^ c.x1, C.m0 * c.x0⟩

/-- `philox2xW_R`, with `_philox2xWbumpkey`. External (Random123), included at RandBLAS/random_gen.hh:75-87. -/
def philox2 (C : PhiloxConst w) : Nat → W2 w → BitVec w → W2 w
  | 0, c, _ => c
  | R + 1, c, k => philox2 C R (philox2Round C c k) (k + C.w0)

/-- The parity constant and the rotations of Threefry. In the generators of four words, round `r` uses `rot (r % 8) 0` and `rot (r % 8) 1`, in those of two words only
the first. External (Random123), included at RandBLAS/random_gen.hh:75-87. -/
structure ThreefryConst (w : Nat) where
  parity : BitVec w
  rot : Nat → Nat → Nat

/-- `R_32x4_*` and `SKEIN_KS_PARITY32` (Random123 threefry.h). External (Random123), included at RandBLAS/random_gen.hh:75-87. -/
def threefry4x32C : ThreefryConst 32 :=
  ⟨0x1BD11BDA#32, fun r i => ((if i = 0 then [10, 11, 13, 23, 6, 17, 25, 18] else [26, 21, 27, 5, 20, 11, 10, 20])[r]?).getD 0⟩
/-- `R_64x4_*` and `SKEIN_KS_PARITY64`. External (Random123), included at RandBLAS/random_gen.hh:75-87. -/
def threefry4x64C : ThreefryConst 64 :=
  ⟨0x1BD11BDAA9FC1A22#64, fun r i => ((if i = 0 then [14, 52, 23, 5, 25, 46, 58, 32] else [16, 57, 40, 37, 33, 12, 22, 32])[r]?).getD 0⟩
/-- `R_32x2_*` and `SKEIN_KS_PARITY32`. External (Random123), included at RandBLAS/random_gen.hh:75-87. -/
def threefry2x32C : ThreefryConst 32 := ⟨0x1BD11BDA#32, fun r _ => (([13, 15, 26, 6, 17, 29, 16, 24])[r]?).getD 0⟩
/-- `R_64x2_*` and `SKEIN_KS_PARITY64`. External (Random123), included at RandBLAS/random_gen.hh:75-87. -/
def threefry2x64C : ThreefryConst 64 := ⟨0x1BD11BDAA9FC1A22#64, fun r _ => (([16, 42, 12, 31, 16, 32, 24, 21])[r]?).getD 0⟩

/-- The extended key `ks` of the generators of four words, `ks[i % 5]`. External (Random123), included at RandBLAS/random_gen.hh:75-87. -/
def ks4 (C : ThreefryConst w) (k : W4 w) (i : Nat) : BitVec w :=
  match i % 5 with
  | 0 => k.x0
  | 1 => k.x1
  | 2 => k.x2
  | 3 => k.x3
  | _ => C.parity ^^^ k.x0 ^^^ k.x1 ^^^ k.x2 ^^^ k.x3

/-- `InjectKey(s)`. For `s = 0` it is the initial addition of the key. External (Random123), included at RandBLAS/random_gen.hh:75-87. -/
def inject4 (C : ThreefryConst w) (k : W4 w) (s : Nat) (x : W4 w) : W4 w :=
  ⟨x.x0 + ks4 C k s, x.x1 + ks4 C k (s + 1), x.x2 + ks4 C k (s + 2), x.x3 + ks4 C k (s + 3) + BitVec.ofNat w s⟩

/-- Round `r` (from 0) of `threefry4xW_R`. External (Random123), included at RandBLAS/random_gen.hh:75-87. -/
def threefry4Round (C : ThreefryConst w) (r : Nat) (x : W4 w) : W4 w :=
  if r % 2 = 0 then
    let y0 := x.x0 + x.x1
    let y2 := x.x2 + x.x3
    ⟨y0, x.x1.rotateLeft (C.rot (r % 8) 0) ^^^ y0, y2, x.x3.rotateLeft (C.rot (r % 8) 1) ^^^ y2⟩
  else
    let y0 := x.x0 + x.x3
    let y2 := x.x2 + x.x1
    ⟨y0, x.x1.rotateLeft (C.rot (r % 8) 1) ^^^ y2, y2, x.x3.rotateLeft (C.rot (r % 8) 0) ^^^ y0⟩

/-- `threefry4xW_R`: the key is injected before the first round and after every fourth. External (Random123), included at RandBLAS/random_gen.hh:75-87. -/
def threefry4 (C : ThreefryConst w) (k : W4 w) : Nat → W4 w → W4 w
  | 0, c => inject4 C k 0 c
  | R + 1, c =>
    let x := threefry4Round C R (threefry4 C k R c)
    if (R + 1) % 4 = 0 then inject4 C k ((R + 1) / 4) x else x

/-- The extended key of the generators of two words. External (Random123), included at RandBLAS/random_gen.hh:75-87. -/
def ks2 (C : ThreefryConst w) (k : W2 w) (i : Nat) : BitVec w :=
  match i % 3 with
  | 0 => k.x0
  | 1 => k.x1
  | _ => C.parity ^^^ k.x0 ^^^ k.x1

/-- The injection of the key, two words. External (Random123), included at RandBLAS/random_gen.hh:75-87. -/
def inject2 (C : ThreefryConst w) (k : W2 w) (s : Nat) (x : W2 w) : W2 w := ⟨x.x0 + ks2 C k s, x.x1 + ks2 C k (s + 1) + BitVec.ofNat w s⟩

/-- Round `r` (from 0) of `threefry2xW_R`. External (Random123), included at RandBLAS/random_gen.hh:75-87. -/
def threefry2Round (C : ThreefryConst w) (r : Nat) (x : W2 w) : W2 w :=
  let y0 := x.x0 + x.x1
  ⟨y0, x.x1.rotateLeft (C.rot (r % 8) 0) ^^^ y0⟩

/-- `threefry2xW_R`. External (Random123), included at RandBLAS/random_gen.hh:75-87. -/
def threefry2 (C : ThreefryConst w) (k : W2 w) : Nat → W2 w → W2 w
  | 0, c => inject2 C k 0 c
  | R + 1, c =>
    let x := threefry2Round C R (threefry2 C k R c)
    if (R + 1) % 4 = 0 then inject2 C k ((R + 1) / 4) x else x

/-- An array of words as in `RNGState`. External (Random123), included at RandBLAS/random_gen.hh:75-87. -/
abbrev Words (w len : Nat) := List.Vector (BitVec w) len

/-- The array of four words with the elements of `v`. External (Random123), included at RandBLAS/random_gen.hh:75-87. -/
def W4.ofWords (v : Words w 4) : W4 w := ⟨v.get 0, v.get 1, v.get 2, v.get 3⟩
/-- See `W4.ofWords`. External (Random123), included at RandBLAS/random_gen.hh:75-87. -/
def W4.toWords (x : W4 w) : Words w 4 := ⟨[x.x0, x.x1, x.x2, x.x3], rfl⟩
/-- See `W4.ofWords`. External (Random123), included at RandBLAS/random_gen.hh:75-87. -/
def W2.ofWords (v : Words w 2) : W2 w := ⟨v.get 0, v.get 1⟩
/-- See `W4.ofWords`. External (Random123), included at RandBLAS/random_gen.hh:75-87. -/
def W2.toWords (x : W2 w) : Words w 2 := ⟨[x.x0, x.x1], rfl⟩

/-- The classes of generators RandBLAS includes, `r123::Philox{2,4}x{32,64}_R<R>` and `r123::Threefry{2,4}x{32,64}_R<R>` with any number of rounds `R`: `block c k` is
`operator()(c, k)`. The default generator is `philox4x32 10`. External (Random123), included at RandBLAS/random_gen.hh:75-87. -/
inductive IsRng : (w lenC lenK : Nat) → (block : Words w lenC → Words w lenK → Words w lenC) → Prop
  | philox2x32 (R : Nat) : IsRng 32 2 1 fun c k => (philox2 philox2x32C R (.ofWords c) (k.get 0)).toWords
  | philox4x32 (R : Nat) : IsRng 32 4 2 fun c k => (philox4 philox4x32C R (.ofWords c) (.ofWords k)).toWords
  | philox2x64 (R : Nat) : IsRng 64 2 1 fun c k => (philox2 philox2x64C R (.ofWords c) (k.get 0)).toWords
  | philox4x64 (R : Nat) : IsRng 64 4 2 fun c k => (philox4 philox4x64C R (.ofWords c) (.ofWords k)).toWords
  | threefry2x32 (R : Nat) : IsRng 32 2 2 fun c k => (threefry2 threefry2x32C (.ofWords k) R (.ofWords c)).toWords
  | threefry4x32 (R : Nat) : IsRng 32 4 4 fun c k => (threefry4 threefry4x32C (.ofWords k) R (.ofWords c)).toWords
  | threefry2x64 (R : Nat) : IsRng 64 2 2 fun c k => (threefry2 threefry2x64C (.ofWords k) R (.ofWords c)).toWords
  | threefry4x64 (R : Nat) : IsRng 64 4 4 fun c k => (threefry4 threefry4x64C (.ofWords k) R (.ofWords c)).toWords

/-- `RandBLAS::DefaultRNG` (RandBLAS/base.hh:53). -/
def defaultBlock (c : Words 32 4) (k : Words 32 2) : Words 32 4 := (philox4 philox4x32C 10 (.ofWords c) (.ofWords k)).toWords

/-- The words of an integer, the least significant first. External (Random123), included at RandBLAS/random_gen.hh:75-87. -/
def natWords (w : Nat) : Nat → Nat → List (BitVec w)
  | 0, _ => []
  | len + 1, v => BitVec.ofNat w v :: natWords w len (v / 2 ^ w)

theorem natWords_length (w len v : Nat) : (natWords w len v).length = len := by
  induction len generalizing v with
  | zero => rfl
  | succ n ih => simp [natWords, ih]

/-- The array that represents a counter. External (Random123), included at RandBLAS/random_gen.hh:75-87. -/
def ctrWords {w len : Nat} (c : ZMod (2 ^ (w * len))) : Words w len := ⟨natWords w len c.val, natWords_length w len _⟩

/-- `r123::uneg11` (Random123 uniform.hpp) in exact arithmetic: the word as a signed integer, times `2^(1-w)`, plus `2^(-w)`. External (Random123), included at RandBLAS/random_gen.hh:75-87. -/
noncomputable def uneg11R (x : BitVec w) : ℝ := (x.toInt : ℝ) * (1 / 2 ^ (w - 1)) + 1 / 2 * (1 / 2 ^ (w - 1))

/-- `r123::u01` (Random123 uniform.hpp) in exact arithmetic. External (Random123), included at RandBLAS/random_gen.hh:75-87. -/
noncomputable def u01R (x : BitVec w) : ℝ := (x.toNat : ℝ) * (1 / 2 ^ w) + 1 / 2 * (1 / 2 ^ w)

/-- `r123::boxmuller` (Random123 boxmuller.hpp) in exact arithmetic. External (Random123), included at RandBLAS/random_gen.hh:75-87. -/
noncomputable def boxmullerR (u0 u1 : BitVec w) : ℝ × ℝ :=
  let r := Real.sqrt (-2 * Real.log (u01R u1))
  (r * Real.sin (Real.pi * uneg11R u0), r * Real.cos (Real.pi * uneg11R u0))

/-- The generator of the other model files whose words are those of `block`, with exact conversions to real numbers. External (Random123), included at RandBLAS/random_gen.hh:75-87. -/
noncomputable def r123Gen {w lenC lenK : Nat} (block : Words w lenC → Words w lenK → Words w lenC) : Gen (2 ^ (w * lenC)) (Words w lenK) (BitVec w) ℝ :=
  { len := lenC
    word := fun c k i => ((block (ctrWords c) k).toList[i.toNat]?).getD 0
    boxmuller := boxmullerR
    uneg11 := uneg11R
    nat := BitVec.toNat }

end RB
