import Verif.Model.Base

/-!
# `RNGState` at the level of machine words

The rest of the model treats the counter as an integer modulo its period. Here it is the array of words that it is in the program.
-/

namespace RB

variable {w : Nat}

/-- The loop of Random123's `r123array::incr_carefully` (external code: Random123 `array.h`, modelled from its public source). `n` is an unsigned 64-bit integer, `prev` is
the word before, after its update, and `vtn` what has been added to it. Used to model RandBLAS/base.hh:119. -/
def carefulLoop (prev vtn : BitVec w) (n : Nat) : List (BitVec w) → List (BitVec w)
  | [] => []
  | v :: vs =>
    let n1 := (if w < 64 then n >>> w else 0) + (if prev < vtn then 1 else 0)
    if n1 = 0 then v :: vs
    else (v + BitVec.ofNat w n1) :: carefulLoop (v + BitVec.ofNat w n1) (BitVec.ofNat w n1) n1 vs

/-- Random123 `r123array::incr_carefully`. Used to model RandBLAS/base.hh:119. -/
def incrCarefully (n : Nat) : List (BitVec w) → List (BitVec w)
  | [] => []
  | v :: vs => (v + BitVec.ofNat w n) :: carefulLoop (v + BitVec.ofNat w n) (BitVec.ofNat w n) n vs

/-- The propagation of the carry in `r123array::incr`: `++v[i]; if (v[i] != 0) return;`. Used to model RandBLAS/base.hh:119. -/
def carryLoop : List (BitVec w) → List (BitVec w)
  | [] => []
  | v :: vs => if v + 1 ≠ 0 then (v + 1) :: vs else (v + 1) :: carryLoop vs

/-- Random123 `r123array::incr(n)`, for an array of any length. Used to model RandBLAS/base.hh:119. -/
def wordsIncr (n : Nat) : List (BitVec w) → List (BitVec w)
  | [] => []
  | v :: vs =>
    if w < 64 ∧ n >>> w ≠ 0 then incrCarefully n (v :: vs)
    else if n = 1 then
      if v + 1 ≠ 0 then (v + 1) :: vs else (v + 1) :: carryLoop vs
    else if BitVec.ofNat w n ≤ v + BitVec.ofNat w n then (v + BitVec.ofNat w n) :: vs
    else (v + BitVec.ofNat w n) :: carryLoop vs

/-- `RNGState<RNG>` (RandBLAS/base.hh:63-167): `counter` has `len_c` words of `wc` bits, `key` has `len_k` words of `wk` bits. -/
structure RNGWords (wc lenC wk lenK : Nat) where
  counter : List.Vector (BitVec wc) lenC
  key : List.Vector (BitVec wk) lenK

variable {wc lenC wk lenK : Nat}

/-- `counter{}`: all words zero. Used to model RandBLAS/base.hh:116. -/
def zeroWords (w len : Nat) : List.Vector (BitVec w) len := List.Vector.replicate len 0

theorem carefulLoop_length (prev vtn : BitVec w) (n : Nat) (v : List (BitVec w)) : (carefulLoop prev vtn n v).length = v.length := by
  induction v generalizing prev vtn n with
  | nil => rfl
  | cons x xs ih =>
    simp only [carefulLoop]
    generalize (if w < 64 then n >>> w else 0) + (if prev < vtn then 1 else 0) = n1
    by_cases h : n1 = 0
    · rw [if_pos h]
    · rw [if_neg h, List.length_cons, ih, List.length_cons]

theorem carryLoop_length (v : List (BitVec w)) : (carryLoop v).length = v.length := by
  induction v with
  | nil => rfl
  | cons x xs ih =>
    unfold carryLoop
    split <;> simp [ih]

theorem wordsIncr_length (n : Nat) (v : List (BitVec w)) : (wordsIncr n v).length = v.length := by
  cases v with
  | nil => rfl
  | cons x xs =>
    simp only [wordsIncr, incrCarefully]
    split
    · simp [carefulLoop_length]
    · split
      · split <;> simp [carryLoop_length]
      · split <;> simp [carryLoop_length]

/-- `incr` on an array. Used to model RandBLAS/base.hh:119. -/
def vecIncr {len : Nat} (n : Nat) (v : List.Vector (BitVec w) len) : List.Vector (BitVec w) len :=
  ⟨wordsIncr n v.toList, by rw [wordsIncr_length, v.toList_length]⟩

/-- The conversion of an `int64_t` argument of `incr` to an unsigned 64-bit integer. Used to model RandBLAS/dense_skops.hh:183. -/
def toU64 (n : Int) : Nat := (n % 2 ^ 64).toNat

namespace RNGWords

/-- `RNGState()` (RandBLAS/base.hh:116). -/
def default : RNGWords wc lenC wk lenK := ⟨zeroWords wc lenC, zeroWords wk lenK⟩

/-- `RNGState(uint64_t k)` (RandBLAS/base.hh:119). -/
def ofKey (k : Nat) : RNGWords wc lenC wk lenK := ⟨zeroWords wc lenC, vecIncr k (zeroWords wk lenK)⟩

/-- `state.counter.incr(n)`. Used to model RandBLAS/dense_skops.hh:183. -/
def incr (s : RNGWords wc lenC wk lenK) (n : Int) : RNGWords wc lenC wk lenK := { s with counter := vecIncr (toU64 n) s.counter }

/-- `std::memcpy(dst, src, n * sizeof(word))`. Used to model RandBLAS/base.hh:139-143. -/
def memcpyWords (n : Nat) (dst src : List (BitVec w)) : List (BitVec w) := src.take n ++ dst.drop n

/-- The copy-assignment operator (RandBLAS/base.hh:139-143): the words of `t` are overwritten. -/
def assign (t s : RNGWords wc lenC wk lenK) : RNGWords wc lenC wk lenK :=
  ⟨⟨memcpyWords lenC t.counter.toList s.counter.toList, by simp [memcpyWords]⟩,
   ⟨memcpyWords lenK t.key.toList s.key.toList, by simp [memcpyWords]⟩⟩

/-- The copy constructor, move constructor and the constructor from two arrays (RandBLAS/base.hh:125-136). -/
def copy (s : RNGWords wc lenC wk lenK) : RNGWords wc lenC wk lenK := ⟨s.counter, s.key⟩

/-- A loop `for (int i = 0; i < len; ++i) if (a[i] != b[i]) return false;`: `true` if it does not return. Used to model RandBLAS/base.hh:149-158. -/
def eqLoop {len : Nat} (a b : List.Vector (BitVec w) len) : Nat → Bool
  | 0 => true
  | fuel + 1 =>
    if h : len - (fuel + 1) < len then
      if a.get ⟨len - (fuel + 1), h⟩ ≠ b.get ⟨len - (fuel + 1), h⟩ then false else eqLoop a b fuel
    else true

/-- `operator==` (RandBLAS/base.hh:149-158). -/
def beq (s t : RNGWords wc lenC wk lenK) : Bool :=
  if eqLoop s.counter t.counter lenC = false then false
  else if eqLoop s.key t.key lenK = false then false
  else true

end RNGWords
end RB
