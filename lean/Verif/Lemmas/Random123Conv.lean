import Verif.Lemmas.Random123
import Mathlib.Data.BitVec
import Mathlib.Data.Fintype.Vector
import Mathlib.Analysis.SpecialFunctions.Trigonometric.Angle
import Verif.Props.RngWords
import Verif.Spec.Dense

/-! # The conversions of Random123 in exact arithmetic are injective -/

namespace RB
open Spec
variable {w : Nat}

instance : Fintype (BitVec w) := Fintype.ofEquiv _ (BitVec.equivFin (m := w)).toEquiv.symm

/-- The words in the order of the unsigned integers. -/
def unsignedEquiv (w : Nat) : BitVec w ≃ Fin (2 ^ w) := BitVec.equivFin.toEquiv

/-- The words in the order of the signed integers. -/
def signedEquiv (w : Nat) : BitVec w ≃ Fin (2 ^ w) := (Equiv.addRight (BitVec.ofNat w (2 ^ (w - 1)))).trans (unsignedEquiv w)

theorem unsignedEquiv_val (x : BitVec w) : (unsignedEquiv w x : Nat) = x.toNat := rfl

theorem two_pow_pred (hw : 0 < w) : 2 ^ w = 2 * 2 ^ (w - 1) := by
  obtain ⟨v, rfl⟩ : ∃ v, w = v + 1 := ⟨w - 1, by omega⟩
  rw [Nat.add_sub_cancel, Nat.pow_succ, Nat.mul_comm]

theorem signedEquiv_val (hw : 0 < w) (x : BitVec w) : ((signedEquiv w x : Nat) : Int) = x.toInt + 2 ^ (w - 1) := by
  have h2 := two_pow_pred hw
  show (((x + BitVec.ofNat w (2 ^ (w - 1))).toNat : Nat) : Int) = _
  rw [BitVec.toNat_add, BitVec.toNat_ofNat, BitVec.toInt_eq_toNat_cond]
  have hx := x.isLt
  have hc : ((2 ^ (w - 1) : Nat) : Int) = 2 ^ (w - 1) := by push_cast; rfl
  rw [← hc, h2] at *
  generalize 2 ^ (w - 1) = h at *
  have hh : 0 < h := by omega
  rw [Nat.mod_eq_of_lt (show h < 2 * h by omega)]
  split_ifs with hlt
  · rw [Nat.mod_eq_of_lt (by omega)]; push_cast; ring
  · rw [Nat.mod_eq_sub_mod (by omega), Nat.mod_eq_of_lt (by omega)]
    omega

theorem uneg11R_mid (hw : 0 < w) (x : BitVec w) : (uneg11R x + 1) / 2 = (((signedEquiv w x : Nat) : ℝ) + 1 / 2) / (2 ^ w : Nat) := by
  have h1 : ((signedEquiv w x : Nat) : ℝ) = (x.toInt : ℝ) + 2 ^ (w - 1) := by exact_mod_cast congrArg (Int.cast (R := ℝ)) (signedEquiv_val hw x)
  have h2 : ((2 ^ w : Nat) : ℝ) = 2 * 2 ^ (w - 1) := by rw [two_pow_pred hw]; push_cast; rfl
  rw [h1, h2, uneg11R]
  have : (2 : ℝ) ^ (w - 1) ≠ 0 := by positivity
  field_simp
  ring

theorem u01R_mid (x : BitVec w) : u01R x = (((unsignedEquiv w x : Nat) : ℝ) + 1 / 2) / (2 ^ w : Nat) := by
  rw [unsignedEquiv_val, u01R]
  push_cast
  ring

theorem mid_bounds {M : Nat} (j : Fin M) : 0 < (((j : Nat) : ℝ) + 1 / 2) / M ∧ (((j : Nat) : ℝ) + 1 / 2) / M < 1 := by
  have h1 : ((j : Nat) : ℝ) + 1 ≤ M := by exact_mod_cast j.2
  have h2 : (0 : ℝ) < M := by linarith [Nat.cast_nonneg (α := ℝ) (j : Nat)]
  exact ⟨by positivity, by rw [div_lt_one h2]; linarith⟩

theorem mid_injective {M : Nat} {i j : Fin M} (h : (((i : Nat) : ℝ) + 1 / 2) / M = (((j : Nat) : ℝ) + 1 / 2) / M) : i = j := by
  have h1 : (0 : ℝ) < M := by exact_mod_cast (by have := i.2; omega : 0 < M)
  rw [div_left_inj' h1.ne', add_left_inj] at h
  exact Fin.ext (by exact_mod_cast h)

theorem uneg11R_bounds (hw : 0 < w) (x : BitVec w) : -1 < uneg11R x ∧ uneg11R x < 1 := by
  have h := mid_bounds (signedEquiv w x)
  rw [← uneg11R_mid hw] at h
  exact ⟨by linarith [h.1], by linarith [h.2]⟩

theorem uneg11R_injective (hw : 0 < w) : Function.Injective (uneg11R (w := w)) := by
  intro x y h
  apply (signedEquiv w).injective
  apply mid_injective
  rw [← uneg11R_mid hw, ← uneg11R_mid hw, h]

theorem u01R_injective : Function.Injective (u01R (w := w)) := by
  intro x y h
  apply (unsignedEquiv w).injective
  apply mid_injective
  rw [← u01R_mid, ← u01R_mid, h]

theorem boxmullerR_injective (hw : 0 < w) {x x' y y' : BitVec w} (h : boxmullerR x x' = boxmullerR y y') : x = y ∧ x' = y' := by
  simp only [boxmullerR, Prod.mk.injEq] at h
  obtain ⟨hs, hc⟩ := h
  have hpos : ∀ z : BitVec w, 0 < u01R z ∧ u01R z < 1 := fun z => by rw [u01R_mid]; exact mid_bounds _
  have hlog : ∀ z : BitVec w, 0 < -2 * Real.log (u01R z) := fun z => by
    have := Real.log_neg (hpos z).1 (hpos z).2
    linarith
  have hr : ∀ z : BitVec w, 0 < Real.sqrt (-2 * Real.log (u01R z)) := fun z => Real.sqrt_pos.mpr (hlog z)
  set r := Real.sqrt (-2 * Real.log (u01R x')) with hrd
  set r' := Real.sqrt (-2 * Real.log (u01R y')) with hrd'
  have hr0 : 0 < r := hr x'
  have hr0' : 0 < r' := hr y'
  have hsq : r ^ 2 = r' ^ 2 := by
    have e1 := Real.sin_sq_add_cos_sq (Real.pi * uneg11R x)
    have e2 := Real.sin_sq_add_cos_sq (Real.pi * uneg11R y)
    calc r ^ 2 = (r * Real.sin (Real.pi * uneg11R x)) ^ 2 + (r * Real.cos (Real.pi * uneg11R x)) ^ 2 := by rw [mul_pow, mul_pow, ← mul_add, e1, mul_one]
      _ = r' ^ 2 := by rw [hs, hc, mul_pow, mul_pow, ← mul_add, e2, mul_one]
  have hrr : r = r' := by
    have := abs_eq_abs.mpr (sq_eq_sq_iff_eq_or_eq_neg.mp hsq)
    rwa [abs_of_pos hr0, abs_of_pos hr0'] at this
  constructor
  · rw [hrr] at hs hc
    have hs' := mul_left_cancel₀ hr0'.ne' hs
    have hc' := mul_left_cancel₀ hr0'.ne' hc
    obtain ⟨k, hk⟩ := Real.Angle.angle_eq_iff_two_pi_dvd_sub.mp (Real.Angle.cos_sin_inj hc' hs')
    have h1 : uneg11R x - uneg11R y = 2 * k := by
      have : Real.pi * (uneg11R x - uneg11R y) = Real.pi * (2 * k) := by rw [mul_sub, hk]; ring
      exact mul_left_cancel₀ Real.pi_ne_zero this
    have b1 := uneg11R_bounds hw x
    have b2 := uneg11R_bounds hw y
    have k1 : (k : ℝ) < 1 := by linarith
    have k2 : (-1 : ℝ) < k := by linarith
    have k0 : k = 0 := by
      have : k < 1 := by exact_mod_cast k1
      have : -1 < k := by exact_mod_cast k2
      omega
    rw [k0] at h1
    exact uneg11R_injective hw (by push_cast at h1; linarith)
  · apply u01R_injective
    rw [hrd, hrd', Real.sqrt_inj (hlog x').le (hlog y').le] at hrr
    exact Real.log_injOn_pos (hpos x').1 (hpos y').1 (by linarith)

theorem natWords_val (w len v : Nat) : wordsVal (natWords w len v) = v % 2 ^ (w * len) := by
  induction len generalizing v with
  | zero => simp [natWords, wordsVal, Nat.mod_one]
  | succ n ih =>
    simp only [natWords, wordsVal, ih, BitVec.toNat_ofNat]
    rw [Nat.mul_succ, Nat.add_comm (w * n), Nat.pow_add, Nat.mod_mul]

theorem ctrWords_val {len : Nat} (c : ZMod (2 ^ (w * len))) : vecVal (ctrWords c) = c.val := by
  show wordsVal (natWords w len c.val) = _
  rw [natWords_val]
  haveI : NeZero (2 ^ (w * len)) := ⟨by positivity⟩
  exact Nat.mod_eq_of_lt (ZMod.val_lt c)

theorem ctrWords_injective {len : Nat} : Function.Injective (ctrWords (w := w) (len := len)) := by
  intro c c' h
  haveI : NeZero (2 ^ (w * len)) := ⟨by positivity⟩
  apply ZMod.val_injective
  rw [← ctrWords_val, ← ctrWords_val, h]

/-- The words of the generator of the other model files are the elements of the block, and its counter is that of the state. -/
theorem ctrWords_abs {lenC : Nat} (v : Words w lenC) : ctrWords ((vecVal v : Nat) : ZMod (2 ^ (w * lenC))) = v := by
  apply vecVal_inj.mp
  rw [ctrWords_val, ZMod.val_natCast, Nat.mod_eq_of_lt (vecVal_lt v)]

theorem isRng_len {lenC lenK : Nat} {block : Words w lenC → Words w lenK → Words w lenC} (h : IsRng w lenC lenK block) :
    (w = 32 ∨ w = 64) ∧ (lenC = 2 ∨ lenC = 4) := by
  cases h <;> simp

/-- The values of a whole block determine the counter. -/
theorem group_differs {lenC lenK : Nat} {block : Words w lenC → Words w lenK → Words w lenC} (h : IsRng w lenC lenK block) (fam : ScalarDist)
    {c c' : ZMod (2 ^ (w * lenC))} (k : Words w lenK) (hc : c ≠ c') :
    ∃ t : Int, 0 ≤ t ∧ t < lenC ∧ genValue (r123Gen block) fam c k t ≠ genValue (r123Gen block) fam c' k t := by
  by_contra hcon
  push Not at hcon
  apply hc
  obtain ⟨hw, hl⟩ := isRng_len h
  have hw0 : 0 < w := by omega
  apply ctrWords_injective
  apply isRng_injective h k
  have key : ∀ t : Nat, t < lenC → (r123Gen block).word c k t = (r123Gen block).word c' k t := by
    intro t ht
    cases fam with
    | Uniform => exact uneg11R_injective hw0 (hcon t (by omega) (by omega))
    | Gaussian =>
      have e0 := hcon (2 * (t / 2 : Nat) : Int) (by omega) (by omega)
      have e1 := hcon (2 * (t / 2 : Nat) + 1 : Int) (by omega) (by omega)
      simp only [genValue] at e0 e1
      rw [show (2 * ((t / 2 : Nat) : Int)) % 2 = 0 by omega, show (2 * ((t / 2 : Nat) : Int)) / 2 = (t / 2 : Nat) by omega, if_pos rfl, if_pos rfl] at e0
      rw [show (2 * ((t / 2 : Nat) : Int) + 1) % 2 = 1 by omega, show (2 * ((t / 2 : Nat) : Int) + 1) / 2 = (t / 2 : Nat) by omega, if_neg (by decide), if_neg (by decide)] at e1
      have hb := boxmullerR_injective hw0 (Prod.ext e0 e1)
      rcases Nat.mod_two_eq_zero_or_one t with ht | ht
      · rw [show (t : Int) = 2 * ((t / 2 : Nat) : Int) by omega]; exact hb.1
      · rw [show (t : Int) = 2 * ((t / 2 : Nat) : Int) + 1 by omega]; exact hb.2
  apply List.Vector.eq
  apply List.ext_getElem?
  intro i
  by_cases hi : i < lenC
  · have := key i hi
    simp only [r123Gen, Int.toNat_natCast] at this
    rw [List.getElem?_eq_getElem (by rw [List.Vector.toList_length]; exact hi), List.getElem?_eq_getElem (by rw [List.Vector.toList_length]; exact hi)] at this ⊢
    simpa using this
  · rw [List.getElem?_eq_none (by rw [List.Vector.toList_length]; omega), List.getElem?_eq_none (by rw [List.Vector.toList_length]; omega)]

end RB
