import Verif.Spec.Messages
import Verif.Props.Util
import Verif.Lemmas.Sparse64
import Mathlib.Data.Nat.Digits.Defs

/-!
# Error messages (C127)
-/

namespace RB
open Spec
variable {T : Type}

/-- C127 (`randblas_require`). The statement returns if the condition holds; otherwise the exception carries the text of the condition and the name of the function. -/
theorem C127_require (cond : Prop) [Decidable cond] (text func : List Char) :
    (cond → requireOut cond text func = .returned) ∧
    (¬ cond → ∃ w, requireOut cond text func = .thrown w ∧ text <:+: w ∧ func <:+ w ∧ "was required, but did not hold".toList <:+: w) := by
  refine ⟨fun h => by simp [requireOut, throwIf, h], fun h => ⟨_, if_pos h, ⟨"(".toList, ") was required, but did not hold, in function ".toList ++ func, ?_⟩, ⟨_, rfl⟩, ⟨"(".toList ++ text ++ ") ".toList, ", in function ".toList ++ func, ?_⟩⟩⟩
  · simp [errorText]
  · simp [errorText]

/-- C127 (`randblas_error_if`). -/
theorem C127_error_if (cond : Prop) [Decidable cond] (text func : List Char) :
    (¬ cond → errorIfOut cond text func = .returned) ∧ (cond → errorIfOut cond text func = .thrown (text ++ ", in function ".toList ++ func)) :=
  ⟨fun h => if_neg h, fun h => if_pos h⟩

/-- The conditions that raise an error are those of the model of the library. -/
theorem C127_require_agrees (cond : Prop) [Decidable cond] (text func : List Char) :
    (Res.require cond = .ok () ↔ requireOut cond text func = .returned) ∧ (Res.require cond = .throw .require ↔ ∃ w, requireOut cond text func = .thrown w) := by
  by_cases h : cond <;> simp [requireOut, throwIf, h]

/-- A text without `%` is copied. -/
theorem formatted_append (mode : VaMode) (fmtE : T → List Char) {p : List Char} (h : '%' ∉ p) (f : List Char) (as : List (PfArg T)) :
    formatted mode fmtE (p ++ f) as = (do let r ← formatted mode fmtE f as; pure (p ++ r)) := by
  induction p with
  | nil => cases h1 : formatted mode fmtE f as <;> simp [h1]
  | cons c p ih =>
    have hc : c ≠ '%' := fun e => h (by simp [e])
    have hf : '%' ∉ p := fun e => h (List.mem_cons_of_mem _ e)
    rw [List.cons_append, formatted.eq_def]
    split
    all_goals first
      | (exfalso; simp_all; done)
      | skip
    have e := ‹c :: (p ++ f) = _ :: _›
    obtain ⟨rfl, rfl⟩ := List.cons.inj e
    rw [ih hf]
    generalize formatted mode fmtE f _ = r
    cases r <;> simp

theorem formatted_plain (mode : VaMode) (fmtE : T → List Char) {msg : List Char} (h : '%' ∉ msg) (as : List (PfArg T)) : formatted mode fmtE msg as = .ok msg := by
  have := formatted_append mode fmtE h [] as
  rw [List.append_nil] at this
  rw [this]
  simp [formatted]

/-- C127 (`randblas_error_if_msg`). A message without conversions of at most 255 characters is part of the text of the exception, together with the name of the function.

Missing: a longer message is cut, see `C127_long_message`. -/
theorem C127_error_if_msg_partial (mode : VaMode) (fmtE : T → List Char) (cond : Prop) [Decidable cond] (func : List Char) {msg : List Char} (h : '%' ∉ msg) (hl : msg.length ≤ 255) :
    (¬ cond → errorIfMsgOut mode fmtE cond func msg [] = .returned) ∧ (cond → errorIfMsgOut mode fmtE cond func msg [] = .thrown (msg ++ ", in function ".toList ++ func)) := by
  refine ⟨fun hc => if_neg hc, fun hc => ?_⟩
  unfold errorIfMsgOut
  rw [if_pos hc, formatted_plain mode fmtE h]
  simp only [errorText, errorMessageSize]
  rw [List.take_of_length_le (by omega)]

/-- C127 (long messages). Only the first 255 characters of a message are part of the text: two messages that agree in them raise the same error, whatever the rest says. -/
theorem C127_long_message (mode : VaMode) (fmtE : T → List Char) (func : List Char) {p a b : List Char} (hp : p.length = 255) (ha : '%' ∉ p ++ a) (hb : '%' ∉ p ++ b) :
    errorIfMsgOut mode fmtE True func (p ++ a) [] = errorIfMsgOut mode fmtE True func (p ++ b) [] ∧ errorIfMsgOut mode fmtE True func (p ++ a) [] = .thrown (p ++ ", in function ".toList ++ func) := by
  have key : ∀ c, '%' ∉ p ++ c → errorIfMsgOut mode fmtE True func (p ++ c) [] = .thrown (p ++ ", in function ".toList ++ func) := fun c hc => by
    unfold errorIfMsgOut
    rw [if_pos trivial, formatted_plain mode fmtE hc]
    simp only [errorText, errorMessageSize]
    rw [List.take_append_of_le_length (by omega), List.take_of_length_le (by omega)]
  exact ⟨(key a ha).trans (key b hb).symm, key a ha⟩

/-! ## `require_symmetric` -/

/-- A search loop whose steps are known. -/
theorem findI_search {α : Type} {lo hi : Int} {body : Int → Res (Option α)} {P : Int → α → Prop} {Q : Int → Prop}
    (h : ∀ i, lo ≤ i → i < hi → (∃ a, body i = .ok (some a) ∧ P i a) ∨ (body i = .ok none ∧ Q i)) :
    (∃ i a, lo ≤ i ∧ i < hi ∧ P i a ∧ (∀ j, lo ≤ j → j < i → Q j) ∧ findI lo hi body = .ok (some a)) ∨ ((∀ i, lo ≤ i → i < hi → Q i) ∧ findI lo hi body = .ok none) := by
  unfold findI
  have key : ∀ n : Nat, n ≤ (hi - lo).toNat → (∃ (i : Nat) (a : α), i < n ∧ P (lo + i) a ∧ (∀ j : Nat, j < i → Q (lo + j)) ∧ findN n (fun k => body (lo + k)) = .ok (some a)) ∨
      ((∀ i : Nat, i < n → Q (lo + i)) ∧ findN n (fun k => body (lo + k)) = .ok none) := by
    intro n
    induction n with
    | zero => exact fun _ => Or.inr ⟨fun i h => absurd h (by omega), rfl⟩
    | succ n ih =>
      intro hn
      rcases ih (by omega) with ⟨i, a, hi, hp, hj, he⟩ | ⟨hq, he⟩
      · refine Or.inl ⟨i, a, by omega, hp, hj, ?_⟩
        show (findN n _ >>= _) = _
        rw [he]; rfl
      · rcases h (lo + n) (by omega) (by omega) with ⟨a, h1, h2⟩ | ⟨h1, h2⟩
        · refine Or.inl ⟨n, a, by omega, h2, hq, ?_⟩
          show (findN n _ >>= _) = _
          rw [he]; exact h1
        · refine Or.inr ⟨fun i hi => ?_, ?_⟩
          · rcases Nat.lt_succ_iff_lt_or_eq.mp hi with h3 | h3
            · exact hq i h3
            · subst h3; exact h2
          · show (findN n _ >>= _) = _
            rw [he]; exact h1
  rcases key _ le_rfl with ⟨i, a, hi, hp, hj, he⟩ | ⟨hq, he⟩
  · refine Or.inl ⟨lo + i, a, by omega, by omega, hp, fun j h0 h1 => ?_, he⟩
    have := hj (j - lo).toNat (by omega)
    rwa [show lo + ((j - lo).toNat : Int) = j by omega] at this
  · refine Or.inr ⟨fun j h0 h1 => ?_, he⟩
    have := hq (j - lo).toNat (by omega)
    rwa [show lo + ((j - lo).toNat : Int) = j by omega] at this

/-- The loops stop at the first violation. -/
theorem symmetryViolation_spec [Field T] [LinearOrder T] {layout : Layout} {A : Buf T} {n lda : Int} {tol : T} {a : Int → Int → T} (htol : 0 ≤ tol) (hA : Holds A layout lda n n a) :
    (∃ i j, FirstViolation n a tol i j ∧ symmetryViolation layout A n lda tol = .ok (some (i, j, |a i j - a j i|, (|a i j| + |a j i| + 1) * tol))) ∨
    ((∀ i j, 0 ≤ i → i < j → j < n → |a i j - a j i| ≤ (|a i j| + |a j i| + 1) * tol) ∧ symmetryViolation layout A n lda tol = .ok none) := by
  unfold symmetryViolation
  rw [if_neg (not_lt.mpr htol)]
  have inner : ∀ i, 0 ≤ i → i < n → _ := fun i h0 h1 => findI_search (lo := i + 1) (hi := n)
    (body := fun j => do
      let aij ← A.rd ((layoutToStrides layout lda).at i j)
      let aji ← A.rd ((layoutToStrides layout lda).at j i)
      let viol := |aij - aji|
      let relTol := (|aij| + |aji| + 1) * tol
      if viol > relTol then pure (some (i, j, viol, relTol)) else pure none)
    (P := fun j r => r = (i, j, |a i j - a j i|, (|a i j| + |a j i| + 1) * tol) ∧ (|a i j| + |a j i| + 1) * tol < |a i j - a j i|)
    (Q := fun j => |a i j - a j i| ≤ (|a i j| + |a j i| + 1) * tol) (fun j g0 g1 => by
      have e1 := Buf.rd_val (hA i j ⟨h0, h1, by omega, g1⟩)
      have e2 := Buf.rd_val (hA j i ⟨by omega, g1, h0, h1⟩)
      rw [← strides_at] at e1 e2
      simp only [e1, e2, Res.ok_bind]
      by_cases hv : |a i j - a j i| > (|a i j| + |a j i| + 1) * tol
      · left; exact ⟨_, by rw [if_pos hv]; rfl, rfl, hv⟩
      · right; exact ⟨by rw [if_neg hv]; rfl, not_lt.mp hv⟩)
  rcases findI_search (lo := 0) (hi := n) (P := fun i r => ∃ j, i < j ∧ j < n ∧ r = (i, j, |a i j - a j i|, (|a i j| + |a j i| + 1) * tol) ∧ (|a i j| + |a j i| + 1) * tol < |a i j - a j i| ∧
      ∀ l, i < l → l < j → |a i l - a l i| ≤ (|a i l| + |a l i| + 1) * tol) (Q := fun i => ∀ j, i < j → j < n → |a i j - a j i| ≤ (|a i j| + |a j i| + 1) * tol) (fun i h0 h1 => by
      rcases inner i h0 h1 with ⟨j, r, g0, g1, ⟨g2, g3⟩, g4, g5⟩ | ⟨g1, g2⟩
      · left; exact ⟨r, g5, j, by omega, g1, g2, g3, fun l l0 l1 => g4 l (by omega) l1⟩
      · right; exact ⟨g2, fun j j0 j1 => g1 j (by omega) j1⟩) with ⟨i, r, h0, h1, ⟨j, g0, g1, g2, g3, g4⟩, h3, h4⟩ | ⟨h1, h2⟩
  · left
    refine ⟨i, j, ⟨h0, g0, g1, g3, ?_⟩, ?_⟩
    · rintro k l k0 kl ln (hk | ⟨rfl, hl⟩)
      · exact not_lt.mpr (h3 k k0 hk l kl ln)
      · exact not_lt.mpr (g4 l kl hl)
    · rw [← g2]; exact h4
  · right
    exact ⟨fun i j h0 hij hj => h1 i h0 (by omega) j hij hj, h2⟩

theorem symmetryFormat_eq : symmetryFormat = "Symmetry check failed. |A(".toList ++ '%' :: 'i' :: (",".toList ++ '%' :: 'i' :: (") - A(".toList ++ '%' :: 'i' :: (",".toList ++ '%' :: 'i' ::
    (")| was ".toList ++ '%' :: 'e' :: (", which exceeds tolerance of ".toList ++ '%' :: 'e' :: ".".toList))))) := by decide +kernel

theorem formatted_i64 {fmtE : T → List Char} {p f r : List Char} {v : Int} {as : List (PfArg T)} (hp : '%' ∉ p) (h : formatted .lowWord fmtE f as = .ok r) :
    formatted .lowWord fmtE (p ++ '%' :: 'i' :: f) (.i64 v :: as) = .ok (p ++ (decimal (wrapInt 32 v) ++ r)) := by
  rw [formatted_append _ _ hp]
  simp [formatted, h]

theorem formatted_dbl {mode : VaMode} {fmtE : T → List Char} {p f r : List Char} {x : T} {as : List (PfArg T)} (hp : '%' ∉ p) (h : formatted mode fmtE f as = .ok r) :
    formatted mode fmtE (p ++ '%' :: 'e' :: f) (.dbl x :: as) = .ok (p ++ (fmtE x ++ r)) := by
  rw [formatted_append _ _ hp]
  simp [formatted, h]

theorem formatted_six {fmtE : T → List Char} {p1 p2 p3 p4 p5 p6 p7 : List Char} {a b c d : Int} {x y : T} (h1 : '%' ∉ p1) (h2 : '%' ∉ p2) (h3 : '%' ∉ p3) (h4 : '%' ∉ p4) (h5 : '%' ∉ p5) (h6 : '%' ∉ p6)
    (h7 : '%' ∉ p7) : formatted .lowWord fmtE (p1 ++ '%' :: 'i' :: (p2 ++ '%' :: 'i' :: (p3 ++ '%' :: 'i' :: (p4 ++ '%' :: 'i' :: (p5 ++ '%' :: 'e' :: (p6 ++ '%' :: 'e' :: p7))))))
      [.i64 a, .i64 b, .i64 c, .i64 d, .dbl x, .dbl y] =
    .ok (p1 ++ decimal (wrapInt 32 a) ++ p2 ++ decimal (wrapInt 32 b) ++ p3 ++ decimal (wrapInt 32 c) ++ p4 ++ decimal (wrapInt 32 d) ++ p5 ++ fmtE x ++ p6 ++ fmtE y ++ p7) := by
  rw [formatted_i64 h1 (formatted_i64 h2 (formatted_i64 h3 (formatted_i64 h4 (formatted_dbl h5 (formatted_dbl h6 (formatted_plain _ _ h7 _))))))]
  simp only [List.append_assoc]

/-- The text before it is cut, with the low words of the indices. -/
theorem formatted_symmetry (fmtE : T → List Char) (i j : Int) (v t : T) :
    formatted .lowWord fmtE symmetryFormat [.i64 i, .i64 j, .i64 j, .i64 i, .dbl v, .dbl t] = .ok (symmetryText (wrapInt 32 i) (wrapInt 32 j) (fmtE v) (fmtE t)) := by
  have h1 : '%' ∉ "Symmetry check failed. |A(".toList := by decide
  have h2 : '%' ∉ ",".toList := by decide
  have h3 : '%' ∉ ") - A(".toList := by decide
  have h5 : '%' ∉ ")| was ".toList := by decide
  have h6 : '%' ∉ ", which exceeds tolerance of ".toList := by decide
  have h7 : '%' ∉ ".".toList := by decide
  unfold symmetryText
  rw [symmetryFormat_eq]
  generalize "Symmetry check failed. |A(".toList = p1 at *
  generalize ",".toList = p2 at *
  generalize ") - A(".toList = p3 at *
  generalize ")| was ".toList = p5 at *
  generalize ", which exceeds tolerance of ".toList = p6 at *
  generalize ".".toList = p7 at *
  exact formatted_six h1 h2 h3 h2 h5 h6 h7

theorem symmetryText_length {i j : Int} {v t : List Char} (hi : (decimal i).length ≤ 11) (hj : (decimal j).length ≤ 11) (hv : v.length ≤ 14) (ht : t.length ≤ 14) : (symmetryText i j v t).length ≤ 255 := by
  unfold symmetryText
  simp only [List.length_append, show "Symmetry check failed. |A(".toList.length = 26 by decide, show ",".toList.length = 1 by decide, show ") - A(".toList.length = 6 by decide,
    show ")| was ".toList.length = 7 by decide, show ", which exceeds tolerance of ".toList.length = 29 by decide, show ".".toList.length = 1 by decide]
  omega

theorem decimal_length {v : Int} (h : FitsInt 32 v) : (decimal v).length ≤ 11 := by
  unfold FitsInt intMin intMax at h
  norm_num at h
  unfold decimal
  split_ifs with hv
  · have := Nat.toDigits_length 10 (-v).toNat 10 (by norm_num) (by norm_num; omega)
    simp only [List.length_cons]; omega
  · have := Nat.toDigits_length 10 v.toNat 10 (by norm_num) (by norm_num; omega)
    omega

/-- C127 (`require_symmetric`, calling conventions that read the low word). For a matrix that is not symmetric up to the tolerance the text names the first pair of positions that violates the check, the violation
and the tolerance, and nothing is cut off.

Missing: the order of the matrix must be below 2^31 (`C127_symmetric_large`); and the C standard leaves the call undefined (`C127_symmetric_undefined`). -/
theorem C127_symmetric_partial [Field T] [LinearOrder T] {fmtE : T → List Char} (hE : ∀ x, (fmtE x).length ≤ 14) {layout : Layout} {A : Buf T} {n lda : Int} {tol : T} {a : Int → Int → T} (htol : 0 ≤ tol)
    (hA : Holds A layout lda n n a) (hn : n ≤ 2 ^ 31) :
    (∃ i j, FirstViolation n a tol i j ∧ requireSymmetricOut .lowWord fmtE layout A n lda tol =
      .thrown (symmetryText i j (fmtE |a i j - a j i|) (fmtE ((|a i j| + |a j i| + 1) * tol)) ++ ", in function require_symmetric".toList)) ∨
    ((∀ i j, 0 ≤ i → i < j → j < n → |a i j - a j i| ≤ (|a i j| + |a j i| + 1) * tol) ∧ requireSymmetricOut .lowWord fmtE layout A n lda tol = .returned) := by
  rcases symmetryViolation_spec htol hA with ⟨i, j, h1, h2⟩ | ⟨h1, h2⟩
  · left
    refine ⟨i, j, h1, ?_⟩
    obtain ⟨p0, p1, p2, p3, -⟩ := h1
    unfold requireSymmetricOut
    rw [h2]
    simp only [errorIfMsgOut]
    rw [if_pos p3, formatted_symmetry]
    have hi : wrapInt 32 i = i := wrapInt_self (by norm_num) p0 (by norm_num [intMax]; omega)
    have hj : wrapInt 32 j = j := wrapInt_self (by norm_num) (by omega) (by norm_num [intMax]; omega)
    rw [hi, hj]
    have li := decimal_length (hi ▸ wrapInt_range i (by norm_num : 0 < 32))
    have lj := decimal_length (hj ▸ wrapInt_range j (by norm_num : 0 < 32))
    have l1 := hE |a i j - a j i|
    have l2 := hE ((|a i j| + |a j i| + 1) * tol)
    simp only [errorText, errorMessageSize]
    rw [List.take_of_length_le (symmetryText_length li lj l1 l2), List.append_assoc]
    rfl
  · right
    refine ⟨h1, ?_⟩
    unfold requireSymmetricOut
    rw [h2]

/-- C127 (`require_symmetric`, large matrices). A violation in a row from 2^31 on is reported under a negative row number. -/
theorem C127_symmetric_large [Field T] [LinearOrder T] {fmtE : T → List Char} (hE : ∀ x, (fmtE x).length ≤ 14) {layout : Layout} {A : Buf T} {n lda : Int} {tol : T} {a : Int → Int → T} (htol : 0 ≤ tol)
    (hA : Holds A layout lda n n a) {i j : Int} (hv : FirstViolation n a tol i j) (hi : 2 ^ 31 ≤ i) (hj : j < 2 ^ 32) :
    requireSymmetricOut .lowWord fmtE layout A n lda tol =
      .thrown (symmetryText (i - 2 ^ 32) (j - 2 ^ 32) (fmtE |a i j - a j i|) (fmtE ((|a i j| + |a j i| + 1) * tol)) ++ ", in function require_symmetric".toList) := by
  rcases symmetryViolation_spec htol hA with ⟨k, l, h1, h2⟩ | ⟨h1, h2⟩
  · obtain ⟨p0, p1, p2, p3, p4⟩ := h1
    obtain ⟨q0, q1, q2, q3, q4⟩ := hv
    have e1 : k = i := by
      rcases lt_trichotomy k i with h | h | h
      · exact absurd p3 (q4 k l p0 p1 p2 (Or.inl h))
      · exact h
      · exact absurd q3 (p4 i j q0 q1 q2 (Or.inl h))
    subst e1
    have e2 : l = j := by
      rcases lt_trichotomy l j with h | h | h
      · exact absurd p3 (q4 k l p0 p1 p2 (Or.inr ⟨rfl, h⟩))
      · exact h
      · exact absurd q3 (p4 k j q0 q1 q2 (Or.inr ⟨rfl, h⟩))
    subst e2
    unfold requireSymmetricOut
    rw [h2]
    simp only [errorIfMsgOut]
    rw [if_pos p3, formatted_symmetry]
    have hk : wrapInt 32 k = k - 2 ^ 32 := by unfold wrapInt; norm_num; omega
    have hl : wrapInt 32 l = l - 2 ^ 32 := by unfold wrapInt; norm_num; omega
    rw [hk, hl]
    have li := decimal_length (hk ▸ wrapInt_range k (by norm_num : 0 < 32))
    have lj := decimal_length (hl ▸ wrapInt_range l (by norm_num : 0 < 32))
    have l1 := hE |a k l - a l k|
    have l2 := hE ((|a k l| + |a l k| + 1) * tol)
    simp only [errorText, errorMessageSize]
    rw [List.take_of_length_le (symmetryText_length li lj l1 l2), List.append_assoc]
    rfl
  · obtain ⟨q0, q1, q2, q3, q4⟩ := hv
    exact absurd q3 (not_lt.mpr (h1 i j q0 q1 q2))

/-- C127 (`require_symmetric`, the C standard). For every matrix that is not symmetric up to the tolerance the text is formatted with `%i` for an argument of 64 bits: the behaviour is undefined, where an error is documented. -/
theorem C127_symmetric_undefined [Field T] [LinearOrder T] {fmtE : T → List Char} {layout : Layout} {A : Buf T} {n lda : Int} {tol : T} {a : Int → Int → T} (htol : 0 ≤ tol) (hA : Holds A layout lda n n a)
    {i j : Int} (h0 : 0 ≤ i) (hij : i < j) (hj : j < n) (hbad : (|a i j| + |a j i| + 1) * tol < |a i j - a j i|) :
    requireSymmetricOut .standard fmtE layout A n lda tol = .undefined := by
  rcases symmetryViolation_spec htol hA with ⟨k, l, h1, h2⟩ | ⟨h1, h2⟩
  · unfold requireSymmetricOut
    rw [h2]
    simp only [errorIfMsgOut]
    rw [if_pos h1.2.2.2.1]
    rw [symmetryFormat_eq, formatted_append _ _ (by decide), formatted]
    rfl
  · exact absurd hbad (not_lt.mpr (h1 i j h0 hij hj))

/-- The statement that may raise an error is reached exactly if the model of C21 raises one. -/
theorem C127_symmetric_agrees [Field T] [LinearOrder T] [IsStrictOrderedRing T] {fmtE : T → List Char} {layout : Layout} {A : Buf T} {n lda : Int} {tol : T} {a : Int → Int → T} (hA : Holds A layout lda n n a) :
    (requireSymmetric layout A n lda tol = .ok () ↔ requireSymmetricOut .lowWord fmtE layout A n lda tol = .returned) ∧
    (requireSymmetric layout A n lda tol = .throw .errorIf ↔ ∃ w, requireSymmetricOut .lowWord fmtE layout A n lda tol = .thrown w) := by
  by_cases ht : tol < 0
  · have : symmetryViolation layout A n lda tol = .ok none := by unfold symmetryViolation; rw [if_pos ht]
    simp [C21_negative_tol ht, requireSymmetricOut, this]
  · have ht' := not_lt.mp ht
    obtain ⟨c1, c2⟩ := C21_require_symmetric ht' hA
    rcases symmetryViolation_spec ht' hA with ⟨k, l, h1, h2⟩ | ⟨h1, h2⟩
    · have hne : requireSymmetric layout A n lda tol = .throw .errorIf := c2.resolve_left fun h => by
        have := c1.mp h k l ⟨h1.1, by have := h1.2.1; have := h1.2.2.1; omega, by have := h1.1; have := h1.2.1; omega, h1.2.2.1⟩
        exact absurd h1.2.2.2.1 (not_lt.mpr this)
      unfold requireSymmetricOut
      rw [h2, hne]
      simp only [errorIfMsgOut]
      rw [if_pos h1.2.2.2.1, formatted_symmetry]
      simp
    · have hok : requireSymmetric layout A n lda tol = .ok () := c1.mpr fun i j hij => by
        rcases lt_trichotomy i j with h | h | h
        · exact h1 i j hij.1 h hij.2.2.2
        · subst h; rw [sub_self, abs_zero]; have := abs_nonneg (a i i); positivity
        · have := h1 j i hij.2.2.1 h hij.2.1
          rwa [abs_sub_comm, add_comm |a j i|] at this
      unfold requireSymmetricOut
      rw [h2, hok]
      simp

/-- A 2 x 2 matrix that is not symmetric: the text of the error, and the undefined call. -/
example : requireSymmetricOut .lowWord (fun x : ℚ => if x = 3 then "3.000000e+00".toList else "0.000000e+00".toList) .ColMajor (Buf.ofList [1, 2, 5, 4]) 2 2 0 =
      .thrown "Symmetry check failed. |A(0,1) - A(1,0)| was 3.000000e+00, which exceeds tolerance of 0.000000e+00., in function require_symmetric".toList ∧
    requireSymmetricOut .standard (fun _ : ℚ => []) .ColMajor (Buf.ofList [1, 2, 5, 4]) 2 2 0 = .undefined := by
  constructor <;> decide +kernel

example : requireOut (1 < 0) "1 < 0".toList "main".toList = .thrown "(1 < 0) was required, but did not hold, in function main".toList := by decide

/-- The hypotheses of the theorem on long messages are met. -/
example : (List.replicate 255 'x').length = 255 ∧ '%' ∉ List.replicate 255 'x' ++ ['a'] := by
  refine ⟨List.length_replicate, ?_⟩
  intro h
  rcases List.mem_append.mp h with h | h
  · exact absurd (List.eq_of_mem_replicate h) (by decide)
  · simp at h

end RB
