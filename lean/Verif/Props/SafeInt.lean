import Verif.Lemmas.SafeInt

/-! # C15: `safe_int_product` -/

namespace RB

/-- C15 (exactness). For all `w`-bit signed `a`, `b` whose product is representable, `safe_int_product`
returns exactly `a * b`, under both readings of signed overflow. -/
theorem C15_exact_when_representable (mode : OverflowMode) (w : Nat) (a b : Int)
    (ha : FitsInt w a) (hb : FitsInt w b) (h : FitsInt w (a * b)) :
    safeIntProductM mode w a b = .ok (a * b) :=
  safeIntProductM_ok ha hb h

example : FitsInt 64 (-3037000500) ∧ FitsInt 64 3037000499 ∧ FitsInt 64 (-3037000500 * 3037000499) := by decide

/-- C15 (soundness). Whatever `safe_int_product` returns normally is the mathematical product:
it never returns a wrong number, for all `w`-bit signed `a`, `b`. -/
theorem C15_never_wrong (mode : OverflowMode) (w : Nat) (hw : 0 < w) (a b c : Int)
    (ha : FitsInt w a) (hb : FitsInt w b) (h : safeIntProductM mode w a b = .ok c) : c = a * b := by
  by_cases hf : FitsInt w (a * b)
  · rw [safeIntProductM_ok ha hb hf] at h
    cases h; rfl
  · cases mode with
    | wrapping => exact absurd h (safeIntProductM_not_ok hw ha hf c)
    | strict =>
      unfold safeIntProductM at h
      by_cases h0 : a = 0 ∨ b = 0
      · rw [if_pos h0] at h; cases h
        rcases h0 with h0 | h0 <;> simp [h0]
      · rw [if_neg h0] at h
        simp [mulInt, hf] at h

/-- C15 (overflow report), wrapping multiplication. When the product is not representable,
`safe_int_product` raises `overflow_error`, except for the factor pair `-1`, `INT_MIN`, where its own
check divides `INT_MIN` by `-1` (undefined behaviour, a trap on x86). Partial: the full property asks
for the error in that case too, and for `a * b` not to overflow in the strict reading of C++. -/
theorem C15_overflow_reported_partial (w : Nat) (hw : 0 < w) (a b : Int) (ha : FitsInt w a) (hb : FitsInt w b)
    (h : ¬ FitsInt w (a * b)) (ha1 : a ≠ -1) (hb1 : b ≠ -1) :
    safeIntProductM .wrapping w a b = .throw .overflow := by
  have hno := safeIntProductM_not_ok hw ha h
  unfold safeIntProductM at hno ⊢
  by_cases h0 : a = 0 ∨ b = 0
  · exact absurd (by rw [if_pos h0]) (hno 0)
  · rw [if_neg h0] at hno ⊢
    push Not at h0
    have hfit := wrapInt_range (w := w) (a * b) hw
    -- dividing by anything but 0 and -1 cannot overflow
    have key : ∀ d : Int, d ≠ 0 → d ≠ -1 → FitsInt w ((wrapInt w (a * b)).tdiv d) := by
      intro d hd hd1
      generalize wrapInt w (a * b) = x at hfit
      unfold FitsInt intMin intMax at hfit ⊢
      by_cases hd2 : d = 1
      · subst hd2; simpa using hfit
      · have habs : (x.tdiv d).natAbs = x.natAbs / d.natAbs := Int.natAbs_tdiv x d
        have h2 : x.natAbs / d.natAbs ≤ x.natAbs / 2 := Nat.div_le_div_left (by omega) (by omega)
        have hp : (0 : Int) < 2 ^ (w - 1) := by positivity
        constructor <;> omega
    have e1 := key a h0.1 ha1
    have e2 := key b h0.2 hb1
    simp only [mulInt, h, if_false, divInt, h0.1, h0.2, e1, e2, if_true, Res.ok_bind] at hno ⊢
    split_ifs with hc
    · rfl
    · exact absurd (by rw [if_neg hc]) (hno (wrapInt w (a * b)))

example : ¬ FitsInt 64 (3037000500 * 3037000500) ∧ FitsInt 64 3037000500 := by decide

/-- The gap in C15: for `(-1) * INT_MIN` the overflow check itself executes `INT_MIN / -1`, which is
undefined behaviour; no error is raised. -/
theorem C15_intmin_counterexample : safeIntProductM .wrapping 64 (-1) (intMin 64) = .ub := by decide

/-- The gap in C15 under the strict reading of C++: the product is formed before it is checked, so
every unrepresentable product of nonzero factors is undefined behaviour. -/
theorem C15_strict_counterexample : safeIntProductM .strict 64 3037000500 3037000500 = .ub := by decide

end RB
