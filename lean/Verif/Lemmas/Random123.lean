import Verif.Model.Random123
import Mathlib.Data.Nat.ModEq
import Mathlib.Data.Int.GCD
import Mathlib.Tactic.Ring
import Mathlib.Tactic.Linarith

/-! # The rounds of the Random123 generators are injective -/

namespace RB
variable {w : Nat}

theorem mul_odd_injective {m : BitVec w} (hm : m.toNat % 2 = 1) {x y : BitVec w} (h : m * x = m * y) : x = y := by
  apply BitVec.eq_of_toNat_eq
  have h1 := congrArg BitVec.toNat h
  rw [BitVec.toNat_mul, BitVec.toNat_mul] at h1
  have hc : Nat.gcd (2 ^ w) m.toNat = 1 := Nat.Coprime.pow_left w (Nat.coprime_two_left.mpr (Nat.odd_iff.mpr hm))
  have h2 := Nat.ModEq.cancel_left_of_coprime hc h1
  unfold Nat.ModEq at h2
  rwa [Nat.mod_eq_of_lt x.isLt, Nat.mod_eq_of_lt y.isLt] at h2

theorem add_right_inj' {a b c : BitVec w} (h : a + c = b + c) : a = b := BitVec.add_right_inj c |>.mp (by rw [BitVec.add_comm c, BitVec.add_comm c]; exact h)

theorem xor_right_inj' {a b c : BitVec w} (h : a ^^^ c = b ^^^ c) : a = b := by
  have := congrArg (· ^^^ c) h
  simpa [BitVec.xor_assoc] using this

theorem rotateLeft_injective (r : Nat) {x y : BitVec w} (h : x.rotateLeft r = y.rotateLeft r) : x = y := by
  apply BitVec.eq_of_getLsbD_eq
  intro i hi
  have hw : 0 < w := by omega
  have hr : r % w < w := Nat.mod_lt _ hw
  by_cases hc : i + r % w < w
  · have := congrArg (fun z : BitVec w => z.getLsbD (i + r % w)) h
    simp only [BitVec.getLsbD_rotateLeft] at this
    rw [show decide (i + r % w < r % w) = false by simp] at this
    simpa [hc] using this
  · have := congrArg (fun z : BitVec w => z.getLsbD (i + r % w - w)) h
    simp only [BitVec.getLsbD_rotateLeft] at this
    have h1 : i + r % w - w < r % w := by omega
    have h2 : w - r % w + (i + r % w - w) = i := by omega
    simpa [h1, h2] using this

theorem philox4Round_injective {C : PhiloxConst w} (h0 : C.m0.toNat % 2 = 1) (h1 : C.m1.toNat % 2 = 1) (k : W2 w) : Function.Injective fun c => philox4Round C c k := by
  rintro ⟨a0, a1, a2, a3⟩ ⟨b0, b1, b2, b3⟩ h
  simp only [philox4Round, W4.mk.injEq] at h
  obtain ⟨e0, e1, e2, e3⟩ := h
  obtain rfl := mul_odd_injective h1 e1
  obtain rfl := mul_odd_injective h0 e3
  have e0' := xor_right_inj' e0
  have e2' := xor_right_inj' e2
  rw [BitVec.xor_comm _ a1, BitVec.xor_comm _ b1] at e0'
  rw [BitVec.xor_comm _ a3, BitVec.xor_comm _ b3] at e2'
  rw [xor_right_inj' e0', xor_right_inj' e2']

theorem philox4_injective {C : PhiloxConst w} (h0 : C.m0.toNat % 2 = 1) (h1 : C.m1.toNat % 2 = 1) (R : Nat) (k : W2 w) : Function.Injective fun c => philox4 C R c k := by
  induction R generalizing k with
  | zero => exact fun _ _ h => h
  | succ R ih => exact fun a b h => philox4Round_injective h0 h1 k (ih _ h)

theorem philox2_injective {C : PhiloxConst w} (h0 : C.m0.toNat % 2 = 1) (R : Nat) (k : BitVec w) : Function.Injective fun c => philox2 C R c k := by
  induction R generalizing k with
  | zero => exact fun _ _ h => h
  | succ R ih =>
    intro a b h
    have h := ih _ h
    simp only [philox2Round, W2.mk.injEq] at h
    obtain ⟨e0, e1⟩ := h
    cases a; cases b
    obtain rfl := mul_odd_injective h0 e1
    rw [BitVec.xor_comm, BitVec.xor_comm _ (W2.x1 _)] at e0
    simp only at e0
    rw [xor_right_inj' e0]

theorem threefry4Round_injective (C : ThreefryConst w) (r : Nat) : Function.Injective (threefry4Round C r) := by
  rintro ⟨a0, a1, a2, a3⟩ ⟨b0, b1, b2, b3⟩ h
  unfold threefry4Round at h
  by_cases hr : r % 2 = 0
  · simp only [if_pos hr, W4.mk.injEq] at h
    obtain ⟨e0, e1, e2, e3⟩ := h
    rw [e0] at e1
    rw [e2] at e3
    obtain rfl := rotateLeft_injective _ (xor_right_inj' e1)
    obtain rfl := rotateLeft_injective _ (xor_right_inj' e3)
    rw [add_right_inj' e0, add_right_inj' e2]
  · simp only [if_neg hr, W4.mk.injEq] at h
    obtain ⟨e0, e1, e2, e3⟩ := h
    rw [e2] at e1
    rw [e0] at e3
    obtain rfl := rotateLeft_injective _ (xor_right_inj' e1)
    obtain rfl := rotateLeft_injective _ (xor_right_inj' e3)
    rw [add_right_inj' e0, add_right_inj' e2]

theorem inject4_injective (C : ThreefryConst w) (k : W4 w) (s : Nat) : Function.Injective (inject4 C k s) := by
  rintro ⟨a0, a1, a2, a3⟩ ⟨b0, b1, b2, b3⟩ h
  simp only [inject4, W4.mk.injEq] at h
  obtain ⟨e0, e1, e2, e3⟩ := h
  rw [add_right_inj' e0, add_right_inj' e1, add_right_inj' e2, add_right_inj' (add_right_inj' e3)]

theorem threefry4_injective (C : ThreefryConst w) (k : W4 w) (R : Nat) : Function.Injective (threefry4 C k R) := by
  induction R with
  | zero => exact inject4_injective C k 0
  | succ R ih =>
    intro a b h
    simp only [threefry4] at h
    split at h
    · exact ih (threefry4Round_injective C R (inject4_injective C k _ h))
    · exact ih (threefry4Round_injective C R h)

theorem inject2_injective (C : ThreefryConst w) (k : W2 w) (s : Nat) : Function.Injective (inject2 C k s) := by
  rintro ⟨a0, a1⟩ ⟨b0, b1⟩ h
  simp only [inject2, W2.mk.injEq] at h
  obtain ⟨e0, e1⟩ := h
  rw [add_right_inj' e0, add_right_inj' (add_right_inj' e1)]

theorem threefry2Round_injective (C : ThreefryConst w) (r : Nat) : Function.Injective (threefry2Round C r) := by
  rintro ⟨a0, a1⟩ ⟨b0, b1⟩ h
  simp only [threefry2Round, W2.mk.injEq] at h
  obtain ⟨e0, e1⟩ := h
  rw [e0] at e1
  obtain rfl := rotateLeft_injective _ (xor_right_inj' e1)
  rw [add_right_inj' e0]

theorem threefry2_injective (C : ThreefryConst w) (k : W2 w) (R : Nat) : Function.Injective (threefry2 C k R) := by
  induction R with
  | zero => exact inject2_injective C k 0
  | succ R ih =>
    intro a b h
    simp only [threefry2] at h
    split at h
    · exact ih (threefry2Round_injective C R (inject2_injective C k _ h))
    · exact ih (threefry2Round_injective C R h)

theorem W4.ofWords_injective : Function.Injective (W4.ofWords (w := w)) := by
  intro u v h
  simp only [W4.ofWords, W4.mk.injEq] at h
  obtain ⟨h0, h1, h2, h3⟩ := h
  apply List.Vector.ext
  intro i
  fin_cases i
  · exact h0
  · exact h1
  · exact h2
  · exact h3

theorem W2.ofWords_injective : Function.Injective (W2.ofWords (w := w)) := by
  intro u v h
  simp only [W2.ofWords, W2.mk.injEq] at h
  obtain ⟨h0, h1⟩ := h
  apply List.Vector.ext
  intro i
  fin_cases i
  · exact h0
  · exact h1

theorem W4.toWords_injective : Function.Injective (W4.toWords (w := w)) := by
  rintro ⟨a0, a1, a2, a3⟩ ⟨b0, b1, b2, b3⟩ h
  have := congrArg List.Vector.toList h
  simp only [W4.toWords, List.Vector.toList] at this
  simpa using this

theorem W2.toWords_injective : Function.Injective (W2.toWords (w := w)) := by
  rintro ⟨a0, a1⟩ ⟨b0, b1⟩ h
  have := congrArg List.Vector.toList h
  simp only [W2.toWords, List.Vector.toList] at this
  simpa using this

theorem isRng_injective {lenC lenK : Nat} {block : Words w lenC → Words w lenK → Words w lenC} (h : IsRng w lenC lenK block) (k : Words w lenK) :
    Function.Injective fun c => block c k := by
  cases h with
  | philox2x32 R => exact W2.toWords_injective.comp ((philox2_injective (by decide) R _).comp W2.ofWords_injective)
  | philox4x32 R => exact W4.toWords_injective.comp ((philox4_injective (by decide) (by decide) R _).comp W4.ofWords_injective)
  | philox2x64 R => exact W2.toWords_injective.comp ((philox2_injective (by decide) R _).comp W2.ofWords_injective)
  | philox4x64 R => exact W4.toWords_injective.comp ((philox4_injective (by decide) (by decide) R _).comp W4.ofWords_injective)
  | threefry2x32 R => exact W2.toWords_injective.comp ((threefry2_injective _ _ R).comp W2.ofWords_injective)
  | threefry4x32 R => exact W4.toWords_injective.comp ((threefry4_injective _ _ R).comp W4.ofWords_injective)
  | threefry2x64 R => exact W2.toWords_injective.comp ((threefry2_injective _ _ R).comp W2.ofWords_injective)
  | threefry4x64 R => exact W4.toWords_injective.comp ((threefry4_injective _ _ R).comp W4.ofWords_injective)

end RB
