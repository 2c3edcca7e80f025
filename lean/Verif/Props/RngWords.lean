import Verif.Model.RngWords
import Mathlib.Data.ZMod.Basic
import Mathlib.Logic.Function.Iterate
import Mathlib.Tactic.Ring
import Mathlib.Tactic.Linarith

/-!
# RNG states at the level of words (C45)
-/

namespace RB
variable {w : Nat}

/-- Specification: the unsigned integer stored in an array of words, least significant word first. -/
def wordsVal : List (BitVec w) → Nat
  | [] => 0
  | v :: vs => v.toNat + 2 ^ w * wordsVal vs

theorem wordsVal_lt (v : List (BitVec w)) : wordsVal v < 2 ^ (w * v.length) := by
  induction v with
  | nil => simp [wordsVal]
  | cons x xs ih =>
    have hx := x.isLt
    rw [wordsVal, List.length_cons, Nat.mul_add, Nat.mul_one, Nat.add_comm (w * _), Nat.pow_add]
    have : 2 ^ w * (wordsVal xs + 1) ≤ 2 ^ w * 2 ^ (w * xs.length) := Nat.mul_le_mul_left _ ih
    rw [Nat.mul_add] at this
    omega

theorem wordsVal_inj {u v : List (BitVec w)} (hl : u.length = v.length) (h : wordsVal u = wordsVal v) : u = v := by
  induction u generalizing v with
  | nil => cases v with
    | nil => rfl
    | cons y ys => simp at hl
  | cons x xs ih => cases v with
    | nil => simp at hl
    | cons y ys =>
      simp only [wordsVal] at h
      have hx := x.isLt
      have hy := y.isLt
      have h1 : x.toNat = y.toNat := by
        have := congrArg (· % 2 ^ w) h
        simpa [Nat.add_mul_mod_self_left, Nat.mod_eq_of_lt hx, Nat.mod_eq_of_lt hy] using this
      have h2 : wordsVal xs = wordsVal ys := by
        rw [h1] at h
        exact Nat.eq_of_mul_eq_mul_left (Nat.two_pow_pos w) (Nat.add_left_cancel h)
      rw [BitVec.eq_of_toNat_eq h1, ih (by simpa using hl) h2]

/-- Addition of two words: the sum, and the carry found by comparing. -/
theorem add_carry (v x : BitVec w) : v.toNat + x.toNat = (v + x).toNat + 2 ^ w * (if v + x < x then 1 else 0) := by
  have hv := v.isLt
  have hx := x.isLt
  have hl : v + x < x ↔ (v.toNat + x.toNat) % 2 ^ w < x.toNat := by rw [BitVec.lt_def, BitVec.toNat_add]
  simp only [hl]
  rw [BitVec.toNat_add]
  by_cases h : v.toNat + x.toNat < 2 ^ w
  · rw [Nat.mod_eq_of_lt h, if_neg (by omega)]; omega
  · have : (v.toNat + x.toNat) % 2 ^ w = v.toNat + x.toNat - 2 ^ w := by
      rw [Nat.mod_eq_sub_mod (by omega), Nat.mod_eq_of_lt (by omega)]
    rw [this, if_pos (by omega)]; omega

theorem add_word (v : BitVec w) (n : Nat) :
    v.toNat + n = (v + BitVec.ofNat w n).toNat + 2 ^ w * (n / 2 ^ w + if v + BitVec.ofNat w n < BitVec.ofNat w n then 1 else 0) := by
  have h1 := add_carry v (BitVec.ofNat w n)
  have h2 := Nat.mod_add_div n (2 ^ w)
  rw [BitVec.toNat_ofNat] at h1
  rw [Nat.mul_add]
  omega

theorem modEq_of_eq {a b m : Nat} (h : a = b) : a ≡ b [MOD m] := h ▸ Nat.ModEq.refl a

theorem modEq_cons {a b m k : Nat} (h : a ≡ b [MOD m]) (c : Nat) : c + k * a ≡ c + k * b [MOD k * m] :=
  Nat.ModEq.add_left c (h.mul_left' k)

theorem carefulLoop_val (hw : w ≤ 64) (prev vtn : BitVec w) (n : Nat) (hn : n < 2 ^ 64) (v : List (BitVec w)) :
    wordsVal (carefulLoop prev vtn n v) ≡ wordsVal v + (n / 2 ^ w + if prev < vtn then 1 else 0) [MOD 2 ^ (w * v.length)] := by
  induction v generalizing prev vtn n with
  | nil => simp [carefulLoop, Nat.ModEq, Nat.mod_one]
  | cons x xs ih =>
    have hs : (if w < 64 then n >>> w else 0) = n / 2 ^ w := by
      split
      · exact Nat.shiftRight_eq_div_pow n w
      · obtain rfl : w = 64 := by omega
        rw [Nat.div_eq_of_lt hn]
    simp only [carefulLoop]
    rw [hs]
    by_cases hw0 : w = 0
    · subst hw0; simp [Nat.ModEq, Nat.mod_one]
    generalize hn1 : n / 2 ^ w + (if prev < vtn then 1 else 0) = n1
    have hn1' : n1 < 2 ^ 64 := by
      have : n / 2 ^ w ≤ n / 2 := Nat.div_le_div_left (by
        calc 2 = 2 ^ 1 := rfl
          _ ≤ 2 ^ w := Nat.pow_le_pow_right (by omega) (by omega)) (by omega)
      split at hn1 <;> omega
    by_cases h0 : n1 = 0
    · rw [if_pos h0, h0]; simp [Nat.ModEq.refl]
    · rw [if_neg h0]
      simp only [wordsVal, List.length_cons]
      have e := add_word x n1
      have r := ih (x + BitVec.ofNat w n1) (BitVec.ofNat w n1) n1 hn1'
      have r' := modEq_cons (k := 2 ^ w) r (x + BitVec.ofNat w n1).toNat
      rw [← Nat.pow_add, show w + w * xs.length = w * (xs.length + 1) by ring] at r'
      refine r'.trans (modEq_of_eq ?_)
      rw [Nat.mul_add]
      omega

theorem carryLoop_val (v : List (BitVec w)) : wordsVal (carryLoop v) ≡ wordsVal v + 1 [MOD 2 ^ (w * v.length)] := by
  induction v with
  | nil => simp [Nat.ModEq, Nat.mod_one]
  | cons x xs ih =>
    by_cases hw0 : w = 0
    · subst hw0; simp [Nat.ModEq, Nat.mod_one]
    have h1 : (1 : BitVec w).toNat = 1 := by
      show (BitVec.ofNat w 1).toNat = 1
      rw [BitVec.toNat_ofNat]; exact Nat.mod_eq_of_lt (Nat.one_lt_two_pow hw0)
    have hx := x.isLt
    simp only [carryLoop]
    by_cases h : x + 1 = 0
    · have ht : (x + 1).toNat = 0 := by rw [h]; simp
      rw [BitVec.toNat_add, h1] at ht
      have hx1 : x.toNat + 1 = 2 ^ w := by
        by_contra hc
        rw [Nat.mod_eq_of_lt (by omega)] at ht; omega
      rw [if_neg (by simpa using h)]
      simp only [wordsVal, List.length_cons]
      rw [show (x + 1).toNat = 0 by rw [h]; simp]
      have r' := modEq_cons (k := 2 ^ w) ih 0
      rw [← Nat.pow_add, show w + w * xs.length = w * (xs.length + 1) by ring] at r'
      refine r'.trans (modEq_of_eq ?_)
      rw [Nat.mul_add]; omega
    · rw [if_pos h]
      simp only [wordsVal, List.length_cons]
      have : (x + 1).toNat = x.toNat + 1 := by
        rw [BitVec.toNat_add, h1]
        refine Nat.mod_eq_of_lt ?_
        by_contra hc
        refine h (BitVec.eq_of_toNat_eq ?_)
        rw [BitVec.toNat_add, h1, show x.toNat + 1 = 2 ^ w by omega]
        simp
      rw [this]
      exact modEq_of_eq (by ring)

/-- C45, increments: `incr(n)` adds `n` to the unsigned integer stored in the array, modulo 2 to the power of its number of bits, for words of any width up to 64
and arrays of any length. -/
theorem C45_incr (hw : w ≤ 64) {n : Nat} (hn : n < 2 ^ 64) {v : List (BitVec w)} (hv : v ≠ []) :
    (wordsIncr n v).length = v.length ∧ wordsVal (wordsIncr n v) = (wordsVal v + n) % 2 ^ (w * v.length) := by
  refine ⟨wordsIncr_length n v, ?_⟩
  suffices h : wordsVal (wordsIncr n v) ≡ wordsVal v + n [MOD 2 ^ (w * v.length)] by
    have hl := wordsVal_lt (wordsIncr n v)
    rw [wordsIncr_length] at hl
    rw [← h, Nat.mod_eq_of_lt hl]
  cases v with
  | nil => exact absurd rfl hv
  | cons x xs =>
    by_cases hw0 : w = 0
    · subst hw0; simp [Nat.ModEq, Nat.mod_one]
    have carry : ∀ m : Nat, m < 2 ^ w → ¬ BitVec.ofNat w m ≤ x + BitVec.ofNat w m →
        wordsVal ((x + BitVec.ofNat w m) :: carryLoop xs) ≡ wordsVal (x :: xs) + m [MOD 2 ^ (w * (x :: xs).length)] := by
      intro m hm hc
      simp only [wordsVal, List.length_cons]
      have e := add_word x m
      rw [if_pos (by rw [BitVec.lt_def]; rw [BitVec.le_def] at hc; omega), Nat.div_eq_of_lt hm] at e
      have r' := modEq_cons (k := 2 ^ w) (carryLoop_val xs) (x + BitVec.ofNat w m).toNat
      rw [← Nat.pow_add, show w + w * xs.length = w * (xs.length + 1) by ring] at r'
      refine r'.trans (modEq_of_eq ?_)
      rw [Nat.mul_add]; omega
    have nocarry : ∀ m : Nat, m < 2 ^ w → BitVec.ofNat w m ≤ x + BitVec.ofNat w m →
        wordsVal ((x + BitVec.ofNat w m) :: xs) ≡ wordsVal (x :: xs) + m [MOD 2 ^ (w * (x :: xs).length)] := by
      intro m hm hc
      simp only [wordsVal]
      have e := add_word x m
      rw [if_neg (by rw [BitVec.lt_def]; rw [BitVec.le_def] at hc; omega), Nat.div_eq_of_lt hm] at e
      exact modEq_of_eq (by omega)
    have one : BitVec.ofNat w 1 ≤ x + BitVec.ofNat w 1 ↔ x + 1 ≠ 0 := by
      have h1 : (BitVec.ofNat w 1).toNat = 1 := by
        rw [BitVec.toNat_ofNat]; exact Nat.mod_eq_of_lt (Nat.one_lt_two_pow hw0)
      rw [BitVec.le_def, h1]
      constructor
      · intro h hc
        have : (x + BitVec.ofNat w 1).toNat = 0 := by
          have : x + BitVec.ofNat w 1 = 0 := hc
          rw [this]; simp
        omega
      · intro h
        by_contra hc
        exact h (BitVec.eq_of_toNat_eq (by
          show (x + BitVec.ofNat w 1).toNat = _
          rw [show (x + BitVec.ofNat w 1).toNat = 0 by omega]; simp))
    simp only [wordsIncr]
    by_cases hc : w < 64 ∧ n >>> w ≠ 0
    · rw [if_pos hc]
      simp only [incrCarefully, wordsVal, List.length_cons]
      have e := add_word x n
      have r' := modEq_cons (k := 2 ^ w) (carefulLoop_val hw (x + BitVec.ofNat w n) (BitVec.ofNat w n) n hn xs) (x + BitVec.ofNat w n).toNat
      rw [← Nat.pow_add, show w + w * xs.length = w * (xs.length + 1) by ring] at r'
      refine r'.trans (modEq_of_eq ?_)
      rw [Nat.mul_add]; omega
    · rw [if_neg hc]
      have hnw : n < 2 ^ w := by
        by_cases h64 : w < 64
        · have : n >>> w = 0 := by
            by_contra h; exact hc ⟨h64, h⟩
          rw [Nat.shiftRight_eq_div_pow] at this
          exact (Nat.div_eq_zero_iff.mp this).resolve_left (by positivity)
        · obtain rfl : w = 64 := by omega
          exact hn
      by_cases h1 : n = 1
      · rw [if_pos h1]
        subst h1
        by_cases h0 : x + 1 ≠ 0
        · rw [if_pos h0]; exact nocarry 1 hnw (one.mpr h0)
        · rw [if_neg h0]; exact carry 1 hnw fun h => h0 (one.mp h)
      · rw [if_neg h1]
        by_cases h0 : BitVec.ofNat w n ≤ x + BitVec.ofNat w n
        · rw [if_pos h0]; exact nocarry n hnw h0
        · rw [if_neg h0]; exact carry n hnw h0

example : ((64 : Nat) ≤ 64) ∧ (2 ^ 40 < 2 ^ 64) ∧ ([0xffffffff#32, 0xffffffff#32, 7#32] ≠ []) ∧
    wordsIncr (2 ^ 40 + 1) [0xffffffff#32, 0xffffffff#32, 7#32] = [0#32, 0x100#32, 8#32] := by decide

/-- Specification: the integer stored in an array. -/
def vecVal {len : Nat} (v : List.Vector (BitVec w) len) : Nat := wordsVal v.toList

theorem vecVal_lt {len : Nat} (v : List.Vector (BitVec w) len) : vecVal v < 2 ^ (w * len) := by
  have := wordsVal_lt v.toList
  rwa [v.toList_length] at this

theorem vecVal_inj {len : Nat} {u v : List.Vector (BitVec w) len} : vecVal u = vecVal v ↔ u = v := by
  refine ⟨fun h => ?_, fun h => by rw [h]⟩
  apply List.Vector.eq
  exact wordsVal_inj (by rw [u.toList_length, v.toList_length]) h

theorem vecVal_incr (hw : w ≤ 64) {len : Nat} (hlen : 0 < len) {n : Nat} (hn : n < 2 ^ 64) (v : List.Vector (BitVec w) len) :
    vecVal (vecIncr n v) = (vecVal v + n) % 2 ^ (w * len) := by
  have := (C45_incr hw hn (v := v.toList) (by
    intro h
    have := congrArg List.length h
    rw [v.toList_length] at this
    simp at this; omega)).2
  rw [v.toList_length] at this
  exact this

theorem vecVal_zero (w len : Nat) : vecVal (zeroWords w len) = 0 := by
  unfold vecVal zeroWords
  rw [List.Vector.replicate]
  show wordsVal (List.replicate len 0) = 0
  induction len with
  | zero => rfl
  | succ n ih => rw [List.replicate_succ, wordsVal, ih]; simp

/-- C45, composition: incrementing by `a` and then by `b` is incrementing by `a + b`. -/
theorem C45_incr_add (hw : w ≤ 64) {len : Nat} (hlen : 0 < len) {a b : Nat} (hab : a + b < 2 ^ 64) (v : List.Vector (BitVec w) len) :
    vecIncr b (vecIncr a v) = vecIncr (a + b) v := by
  apply vecVal_inj.mp
  rw [vecVal_incr hw hlen (by omega), vecVal_incr hw hlen (by omega), vecVal_incr hw hlen hab, Nat.mod_add_mod, Nat.add_assoc]

theorem vecVal_iter (hw : w ≤ 64) {len : Nat} (hlen : 0 < len) {n : Nat} (hn : n < 2 ^ 64) (v : List.Vector (BitVec w) len) (k : Nat) :
    vecVal ((vecIncr n)^[k] v) = (vecVal v + k * n) % 2 ^ (w * len) := by
  induction k with
  | zero => simp [Nat.mod_eq_of_lt (vecVal_lt v)]
  | succ k ih =>
    rw [Function.iterate_succ_apply', vecVal_incr hw hlen hn, ih, Nat.mod_add_mod]
    congr 1
    ring

/-- C45, period: counting up by one returns to the same array for the first time after `2^(width * length)` steps. -/
theorem C45_period (hw : w ≤ 64) {len : Nat} (hlen : 0 < len) (v : List.Vector (BitVec w) len) (k : Nat) :
    (vecIncr 1)^[k] v = v ↔ 2 ^ (w * len) ∣ k := by
  rw [← vecVal_inj, vecVal_iter hw hlen (by omega)]
  have hlt := vecVal_lt v
  rw [Nat.mul_one]
  constructor
  · intro h
    have : (vecVal v + k) ≡ vecVal v + 0 [MOD 2 ^ (w * len)] := by
      unfold Nat.ModEq
      rw [h, Nat.add_zero, Nat.mod_eq_of_lt hlt]
    exact (Nat.modEq_zero_iff_dvd).mp (Nat.ModEq.add_left_cancel' _ this)
  · rintro ⟨q, rfl⟩
    rw [Nat.add_mul_mod_self_left, Nat.mod_eq_of_lt hlt]

namespace RNGWords
variable {wc lenC wk lenK : Nat}

theorem eqLoop_iff {len : Nat} (a b : List.Vector (BitVec w) len) (fuel : Nat) (hf : fuel ≤ len) :
    eqLoop a b fuel = true ↔ ∀ i : Fin len, len - fuel ≤ i.val → a.get i = b.get i := by
  induction fuel with
  | zero =>
    simp only [eqLoop, true_iff]
    intro i hi
    have := i.isLt
    omega
  | succ m ih =>
    simp only [eqLoop]
    rw [dif_pos (by omega)]
    by_cases h : a.get ⟨len - (m + 1), by omega⟩ = b.get ⟨len - (m + 1), by omega⟩
    · rw [if_neg (by simpa using h), ih (by omega)]
      constructor
      · intro hx i hi
        by_cases he : i.val = len - (m + 1)
        · have : i = ⟨len - (m + 1), by omega⟩ := Fin.ext he
          rw [this]; exact h
        · exact hx i (by omega)
      · intro hx i hi
        exact hx i (by omega)
    · rw [if_pos h]
      simp only [Bool.false_eq_true, false_iff]
      intro hx
      exact h (hx _ (le_refl _))

/-- C45, equality: two states compare equal iff counter and key agree in every word. -/
theorem C45_eq (s t : RNGWords wc lenC wk lenK) :
    beq s t = true ↔ (∀ i, s.counter.get i = t.counter.get i) ∧ ∀ i, s.key.get i = t.key.get i := by
  have h1 := eqLoop_iff s.counter t.counter lenC (le_refl _)
  have h2 := eqLoop_iff s.key t.key lenK (le_refl _)
  simp only [Nat.sub_self, Nat.zero_le, true_imp_iff] at h1 h2
  rw [← h1, ← h2]
  unfold beq
  cases eqLoop s.counter t.counter lenC <;> cases eqLoop s.key t.key lenK <;> simp

theorem beq_iff (s t : RNGWords wc lenC wk lenK) : beq s t = true ↔ s = t := by
  rw [C45_eq]
  constructor
  · rintro ⟨h1, h2⟩
    have e1 : s.counter = t.counter := List.Vector.ext h1
    have e2 : s.key = t.key := List.Vector.ext h2
    cases s; cases t
    simp_all
  · rintro rfl
    exact ⟨fun _ => rfl, fun _ => rfl⟩

/-- C45, copies and assignments compare equal to the original, whatever the target contained. -/
theorem C45_copy (s t : RNGWords wc lenC wk lenK) : beq (copy s) s = true ∧ beq (assign t s) s = true ∧ assign t s = copy s := by
  have h : assign t s = s := by
    unfold assign memcpyWords
    rcases s with ⟨c, k⟩
    congr 1
    · apply List.Vector.eq
      show List.take lenC c.toList ++ List.drop lenC t.counter.toList = c.toList
      rw [List.take_of_length_le (by rw [c.toList_length]), List.drop_of_length_le (by rw [t.counter.toList_length]), List.append_nil]
    · apply List.Vector.eq
      show List.take lenK k.toList ++ List.drop lenK t.key.toList = k.toList
      rw [List.take_of_length_le (by rw [k.toList_length]), List.drop_of_length_le (by rw [t.key.toList_length]), List.append_nil]
  exact ⟨(beq_iff _ _).mpr rfl, (beq_iff _ _).mpr h, h⟩

/-- C45, construction from an integer: the counter is zero and the key is the integer, modulo 2 to the power of the key's number of bits. -/
theorem C45_ofKey (hw : wk ≤ 64) (hlen : 0 < lenK) {k : Nat} (hk : k < 2 ^ 64) :
    vecVal (ofKey (wc := wc) (lenC := lenC) (wk := wk) (lenK := lenK) k).counter = 0 ∧
    vecVal (ofKey (wc := wc) (lenC := lenC) (wk := wk) (lenK := lenK) k).key = k % 2 ^ (wk * lenK) := by
  refine ⟨vecVal_zero _ _, ?_⟩
  show vecVal (vecIncr k (zeroWords wk lenK)) = _
  rw [vecVal_incr hw hlen hk, vecVal_zero, Nat.zero_add]

/-- For generators with a key of at least 64 bits (such as the default, Philox 4x32), different integers give different states. -/
theorem C45_ofKey_inj (hw : wk ≤ 64) (hlen : 0 < lenK) (h64 : 64 ≤ wk * lenK) {k l : Nat} (hk : k < 2 ^ 64) (hl : l < 2 ^ 64) :
    beq (ofKey (wc := wc) (lenC := lenC) (wk := wk) (lenK := lenK) k) (ofKey l) = true ↔ k = l := by
  rw [beq_iff]
  refine ⟨fun h => ?_, fun h => by rw [h]⟩
  have hp : 2 ^ 64 ≤ 2 ^ (wk * lenK) := Nat.pow_le_pow_right (by omega) h64
  have h1 := (C45_ofKey (wc := wc) (lenC := lenC) hw hlen hk).2
  have h2 := (C45_ofKey (wc := wc) (lenC := lenC) hw hlen hl).2
  rw [h, h2, Nat.mod_eq_of_lt (by omega), Nat.mod_eq_of_lt (by omega)] at h1
  exact h1.symm

/-- With a shorter key (Philox 2x32, whose key is one 32-bit word), different integers can give the same state. -/
theorem C45_ofKey_short_counterexample : beq (ofKey (wc := 32) (lenC := 2) (wk := 32) (lenK := 1) 1) (ofKey (2 ^ 32 + 1)) = true := by decide

/-- The state of the other model files: the counter as an integer modulo its period. -/
def abs (s : RNGWords wc lenC wk lenK) : RNGState (2 ^ (wc * lenC)) (List.Vector (BitVec wk) lenK) := ⟨(vecVal s.counter : ZMod _), s.key⟩

/-- The other model files use the states faithfully: they represent every state exactly once, and increments are represented by `RNGState.incr`. -/
theorem C45_abs (hw : wc ≤ 64) (hlen : 0 < lenC) :
    (∀ s t : RNGWords wc lenC wk lenK, abs s = abs t ↔ beq s t = true) ∧
    (∀ (s : RNGWords wc lenC wk lenK) (n : Int), abs (s.incr n) = (abs s).incr n) := by
  constructor
  · intro s t
    rw [beq_iff]
    refine ⟨fun h => ?_, fun h => by rw [h]⟩
    unfold abs at h
    simp only [RNGState.mk.injEq] at h
    have h1 : s.counter = t.counter := by
      apply vecVal_inj.mp
      have := (ZMod.natCast_eq_natCast_iff _ _ _).mp h.1
      unfold Nat.ModEq at this
      rwa [Nat.mod_eq_of_lt (vecVal_lt _), Nat.mod_eq_of_lt (vecVal_lt _)] at this
    cases s; cases t
    simp_all
  · intro s n
    have hn : toU64 n < 2 ^ 64 := by
      unfold toU64
      have h1 := Int.emod_lt_of_pos n (show (0 : Int) < 2 ^ 64 by norm_num)
      have h2 := Int.emod_nonneg n (show (2 ^ 64 : Int) ≠ 0 by norm_num)
      omega
    unfold abs incr RNGState.incr ctrIncr
    simp only [RNGState.mk.injEq, and_true]
    rw [vecVal_incr hw hlen hn, ZMod.natCast_mod, Nat.cast_add]
    congr 1
    unfold toU64
    have h2 := Int.emod_nonneg n (show (2 ^ 64 : Int) ≠ 0 by norm_num)
    have : ((n % 2 ^ 64).toNat : Int) = n % 2 ^ 64 := Int.toNat_of_nonneg h2
    rw [← Int.cast_natCast, this]

/-- The default generator: four 32-bit counter words, two 32-bit key words; a carry through three words. -/
example : (32 ≤ 64) ∧ (0 < 4) ∧
    (incr (⟨⟨[0xffffffff#32, 0xffffffff#32, 0xffffffff#32, 1#32], rfl⟩, zeroWords 32 2⟩ : RNGWords 32 4 32 2) 1).counter.toList =
      [0#32, 0#32, 0#32, 2#32] := by decide

end RNGWords
end RB
