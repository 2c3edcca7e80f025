import Verif.Model.StatTests
import Verif.Spec.StatTests
import Mathlib.Analysis.Complex.ExponentialBounds
import Mathlib.Tactic.NormNum
import Mathlib.Tactic.IntervalCases
import Mathlib.Data.Rat.Cast.Order
import Mathlib.Data.Real.Basic

/-!
# Critical values of the Kolmogorov-Smirnov tests (C113)
-/

namespace RB
open Spec

/-! ## Searching -/

theorem findN_first {α : Type} {n : Nat} {body : Nat → Res (Option α)} {P : Nat → Prop} {f : Nat → α}
    (h1 : ∀ i, i < n → P i → body i = .ok (some (f i))) (h2 : ∀ i, i < n → ¬ P i → body i = .ok none) :
    (∃ i, i < n ∧ P i ∧ (∀ j, j < i → ¬ P j) ∧ findN n body = .ok (some (f i))) ∨
      ((∀ i, i < n → ¬ P i) ∧ findN n body = .ok none) := by
  induction n with
  | zero => exact Or.inr ⟨fun i h => absurd h (by omega), rfl⟩
  | succ n ih =>
    rcases ih (fun i h => h1 i (by omega)) (fun i h => h2 i (by omega)) with ⟨i, hi, hp, hj, he⟩ | ⟨hn, he⟩
    · refine Or.inl ⟨i, by omega, hp, hj, ?_⟩
      show (findN n body >>= _) = _
      rw [he]; rfl
    · by_cases hp : P n
      · refine Or.inl ⟨n, by omega, hp, hn, ?_⟩
        show (findN n body >>= _) = _
        rw [he]; exact h1 n (by omega) hp
      · refine Or.inr ⟨fun i hi => ?_, ?_⟩
        · rcases Nat.lt_succ_iff_lt_or_eq.mp hi with h | h
          · exact hn i h
          · subst h; exact hp
        · show (findN n body >>= _) = _
          rw [he]; exact h2 n (by omega) hp

/-- A search loop returns the first hit, or nothing if there is none. -/
theorem findI_first {α : Type} {n : Int} {body : Int → Res (Option α)} {P : Int → Prop} {f : Int → α} (hn : 0 ≤ n)
    (h1 : ∀ i, 0 ≤ i → i < n → P i → body i = .ok (some (f i))) (h2 : ∀ i, 0 ≤ i → i < n → ¬ P i → body i = .ok none) :
    (∃ i, 0 ≤ i ∧ i < n ∧ P i ∧ (∀ j, 0 ≤ j → j < i → ¬ P j) ∧ findI 0 n body = .ok (some (f i))) ∨
      ((∀ i, 0 ≤ i → i < n → ¬ P i) ∧ findI 0 n body = .ok none) := by
  unfold findI
  rcases findN_first (n := (n - 0).toNat) (body := fun k => body (0 + k)) (P := fun k => P k) (f := fun k => f k)
    (fun i hi hp => by rw [zero_add]; exact h1 i (by omega) (by omega) hp)
    (fun i hi hp => by rw [zero_add]; exact h2 i (by omega) (by omega) hp) with ⟨i, hi, hp, hj, he⟩ | ⟨hn', he⟩
  · refine Or.inl ⟨i, by omega, by omega, hp, fun j h0 h => ?_, he⟩
    have := hj j.toNat (by omega)
    rwa [Int.toNat_of_nonneg h0] at this
  · refine Or.inr ⟨fun i h0 h => ?_, he⟩
    have := hn' i.toNat (by omega)
    rwa [Int.toNat_of_nonneg h0] at this

theorem Buf.ofList_rd {T : Type} {l : List T} {i : Int} (h0 : 0 ≤ i) (h : i < l.length) :
    (Buf.ofList l).rd i = .ok (l[i.toNat]'(by omega)) := by
  apply Buf.rd_val
  unfold Buf.ofList
  rw [if_pos h0, List.getElem?_eq_getElem (by omega)]

theorem getD_get {T : Type} {l : List T} {d : T} {i : Nat} (h : i < l.length) : l.getD i d = l[i] := by
  rw [List.getD_eq_getElem?_getD, List.getElem?_eq_getElem h]; rfl

/-! ## The tables -/

theorem ksLevels_eq {i : Nat} (h : i < 6) : ksLevels.getD i 0 = if i = 0 then 5 / 100 else 1 / 10 ^ (i + 1) := by
  interval_cases i <;> norm_num [ksLevels]

theorem ksLevels_anti {i j : Nat} (h : i ≤ j) (hj : j < 6) : ksLevels.getD j 0 ≤ ksLevels.getD i 0 := by
  have hi : i < 6 := by omega
  interval_cases j <;> interval_cases i <;> norm_num [ksLevels]

/-- The lookups succeed for arguments in range, and only for these. -/
theorem significanceRep_spec (sig : ℚ) :
    (∃ i : Nat, ∃ h : i < ksLevels.length, significanceRep sig = .ok i ∧ LargestLevel sig ksLevels[i]) ∨
      (¬ (1 / 10 ^ 6 ≤ sig ∧ sig ≤ 5 / 100) ∧ significanceRep sig = .throw .require) := by
  by_cases hr : 1 / 10 ^ 6 ≤ sig ∧ sig ≤ 5 / 100
  · left
    have hr' : ksStrongest ≤ sig ∧ sig ≤ ksWeakest := by
      unfold ksStrongest ksWeakest; norm_num at hr ⊢; exact hr
    unfold significanceRep
    rw [Res.require_eq_ok hr', Res.ok_bind]
    have hb : ∀ i : Int, 0 ≤ i → i < ksLevels.length → ∃ h : i.toNat < ksLevels.length, (Buf.ofList ksLevels).rd i = .ok ksLevels[i.toNat] :=
      fun i h0 h => ⟨by omega, Buf.ofList_rd h0 h⟩
    rcases findI_first (n := ksLevels.length) (P := fun i => ksLevels.getD i.toNat 0 ≤ sig) (f := fun i => i)
      (body := fun i => do
        let x ← (Buf.ofList ksLevels).rd i
        if x ≤ sig then pure (some i) else pure none) (by omega)
      (fun i h0 h hp => by
        obtain ⟨h', e⟩ := hb i h0 h
        rw [getD_get h'] at hp
        rw [e, Res.ok_bind, if_pos hp]; rfl)
      (fun i h0 h hp => by
        obtain ⟨h', e⟩ := hb i h0 h
        rw [getD_get h'] at hp
        rw [e, Res.ok_bind, if_neg hp]; rfl) with ⟨i, h0, hi, hp, hj, he⟩ | ⟨hno, -⟩
    · refine ⟨i.toNat, by omega, ?_, ?_⟩
      · rw [he, Res.ok_bind]; simp [Int.toNat_of_nonneg h0]
      · have hi6 : i < 6 := hi
        obtain ⟨k, rfl⟩ := Int.eq_ofNat_of_zero_le h0
        have hk6 : k < 6 := by omega
        rw [← getD_get (d := 0)]
        simp only [Int.toNat_natCast] at hp ⊢
        refine ⟨?_, hp, ?_⟩
        · rw [ksLevels_eq hk6]
          by_cases hk0 : k = 0
          · left; rw [if_pos hk0]
          · right; exact ⟨k + 1, by omega, by omega, by rw [if_neg hk0]⟩
        · intro b hb hbs
          have key : ∀ t : Nat, t < 6 → b = ksLevels.getD t 0 → b ≤ ksLevels.getD k 0 := by
            intro t ht6 hbt
            have hti : k ≤ t := by
              by_contra hlt
              exact hj t (by omega) (by omega) (by rw [Int.toNat_natCast, ← hbt]; exact hbs)
            rw [hbt]
            exact ksLevels_anti hti ht6
          rcases hb with hb | ⟨l, h2, h6, hb⟩
          · exact key 0 (by norm_num) (by rw [hb]; norm_num [ksLevels])
          · refine key (l - 1) (by omega) ?_
            rw [hb, ksLevels_eq (by omega), if_neg (by omega), show l - 1 + 1 = l by omega]
    · exfalso
      have := hno 5 (by norm_num) (by decide)
      apply this
      refine le_trans ?_ hr.1
      show ksLevels.getD 5 0 ≤ _
      norm_num [ksLevels]
  · right
    refine ⟨hr, ?_⟩
    unfold significanceRep
    rw [Res.require_eq_throw, Res.throw_bind]
    intro h; apply hr
    unfold ksStrongest ksWeakest at h; norm_num at h ⊢; exact h

theorem ksSampleSizes_eq {i : Nat} (h : i < 22) : ksSampleSizes.getD i 0 = 2 ^ (i + 3) := by
  interval_cases i <;> rfl

/-- The lookup of the sample size succeeds for arguments in range, and only for these. -/
theorem sampleSizeRep_spec (n : Int) :
    (∃ i : Nat, ∃ h : i < ksSampleSizes.length, sampleSizeRep n = .ok i ∧ SmallestSize n ksSampleSizes[i]) ∨
      (¬ (8 ≤ n ∧ n ≤ 2 ^ 24) ∧ sampleSizeRep n = .throw .require) := by
  by_cases hr : 8 ≤ n ∧ n ≤ 2 ^ 24
  · left
    have hr' : ksSmallestSample ≤ n ∧ n ≤ ksLargestSample := by
      unfold ksSmallestSample ksLargestSample; norm_num at hr ⊢; exact hr
    unfold sampleSizeRep
    rw [Res.require_eq_ok hr', Res.ok_bind]
    have hb : ∀ i : Int, 0 ≤ i → i < ksSampleSizes.length →
        ∃ h : i.toNat < ksSampleSizes.length, (Buf.ofList ksSampleSizes).rd i = .ok ksSampleSizes[i.toNat] :=
      fun i h0 h => ⟨by omega, Buf.ofList_rd h0 h⟩
    rcases findI_first (n := ksSampleSizes.length) (P := fun i => ksSampleSizes.getD i.toNat 0 ≥ n) (f := fun i => i)
      (body := fun i => do
        let x ← (Buf.ofList ksSampleSizes).rd i
        if x ≥ n then pure (some i) else pure none) (by omega)
      (fun i h0 h hp => by
        obtain ⟨h', e⟩ := hb i h0 h
        rw [getD_get h'] at hp
        rw [e, Res.ok_bind, if_pos hp]; rfl)
      (fun i h0 h hp => by
        obtain ⟨h', e⟩ := hb i h0 h
        rw [getD_get h'] at hp
        rw [e, Res.ok_bind, if_neg hp]; rfl) with ⟨i, h0, hi, hp, hj, he⟩ | ⟨hno, -⟩
    · have hi22 : i < 22 := hi
      refine ⟨i.toNat, by omega, ?_, ?_⟩
      · rw [he, Res.ok_bind]; simp [Int.toNat_of_nonneg h0]
      · rw [← getD_get (d := 0)]
        rw [ksSampleSizes_eq (by omega)] at hp ⊢
        refine ⟨⟨i.toNat + 3, by omega, by omega, rfl⟩, hp, ?_⟩
        rintro m ⟨k, h3, h24, rfl⟩ hm
        have hik : i.toNat + 3 ≤ k := by
          by_contra hlt
          have := hj (k - 3) (by omega) (by omega)
          rw [ksSampleSizes_eq (by omega), show ((k : Int) - 3).toNat + 3 = k by omega] at this
          exact this hm
        exact pow_le_pow_right₀ (by norm_num) hik
    · exfalso
      have := hno 21 (by norm_num) (by decide)
      apply this
      rw [ksSampleSizes_eq (by decide)]
      exact hr.2
  · right
    refine ⟨hr, ?_⟩
    unfold sampleSizeRep
    rw [Res.require_eq_throw, Res.throw_bind]
    intro h; apply hr
    unfold ksSmallestSample ksLargestSample at h; norm_num at h ⊢; exact h

/-- The entry of the table in row `i`, column `j`. -/
def ksEntry (i j : Nat) : ℚ := (ksCriticalValues.getD i []).getD j 0

/-- Rational bounds of `log (2 / a)` for the level `a` of row `i`, from `2^485 < 10^146` and `10^59 < 2^196`. -/
def ksLogLo (i : Nat) : ℚ := (if i = 0 then 2 else 1) * 0.6931471803 + (if i = 0 then 1 else i + 1) * (485 / 146 * 0.6931471803)
/-- See `ksLogLo`. -/
def ksLogHi (i : Nat) : ℚ := (if i = 0 then 2 else 1) * 0.6931471808 + (if i = 0 then 1 else i + 1) * (196 / 59 * 0.6931471808)

theorem ksEntry_ok : ∀ i : Fin 6, ∀ j : Fin 22, (i.1, j.1) ≠ (4, 21) →
    0 < ksEntry i j ∧ ksEntry i j < 1 ∧ 2 * (ksSampleSizes.getD j 0 : ℚ) * ksEntry i j ^ 2 ≤ ksLogLo i ∧
      ksLogHi i ≤ 2 * (ksSampleSizes.getD j 0 : ℚ) * (ksEntry i j + 1 / (ksSampleSizes.getD j 0 : ℚ)) ^ 2 := by
  decide +kernel

set_option exponentiation.threshold 1000 in
theorem log_ten_lo : (485 / 146 * 0.6931471803 : ℝ) ≤ Real.log 10 := by
  have h1 : Real.log ((2 : ℝ) ^ 485) ≤ Real.log ((10 : ℝ) ^ 146) := Real.log_le_log (by positivity) (by norm_num)
  rw [Real.log_pow, Real.log_pow] at h1
  have := Real.log_two_gt_d9
  push_cast at h1
  linarith

theorem log_ten_hi : Real.log 10 ≤ (196 / 59 * 0.6931471808 : ℝ) := by
  have h1 : Real.log ((10 : ℝ) ^ 59) ≤ Real.log ((2 : ℝ) ^ 196) := Real.log_le_log (by positivity) (by norm_num)
  rw [Real.log_pow, Real.log_pow] at h1
  have := Real.log_two_lt_d9
  push_cast at h1
  linarith

theorem ksLog_bounds {i : Nat} (h : i < 6) :
    (ksLogLo i : ℝ) ≤ Real.log (2 / (ksLevels.getD i 0 : ℚ)) ∧ Real.log (2 / (ksLevels.getD i 0 : ℚ)) ≤ (ksLogHi i : ℝ) := by
  have a1 := Real.log_two_gt_d9
  have a2 := Real.log_two_lt_d9
  have b1 := log_ten_lo
  have b2 := log_ten_hi
  by_cases h0 : i = 0
  · subst h0
    have : Real.log (2 / ((ksLevels.getD 0 0 : ℚ) : ℝ)) = 2 * Real.log 2 + Real.log 10 := by
      have : (2 / ((ksLevels.getD 0 0 : ℚ) : ℝ)) = 2 ^ 2 * 10 := by norm_num [ksLevels]
      rw [this, Real.log_mul (by norm_num) (by norm_num), Real.log_pow]; norm_num
    rw [this]
    constructor <;> · norm_num [ksLogLo, ksLogHi] at *; linarith
  · have : Real.log (2 / ((ksLevels.getD i 0 : ℚ) : ℝ)) = Real.log 2 + (i + 1) * Real.log 10 := by
      have : (2 / ((ksLevels.getD i 0 : ℚ) : ℝ)) = 2 * 10 ^ (i + 1) := by
        interval_cases i
        · exact absurd rfl h0
        all_goals norm_num [ksLevels]
      rw [this, Real.log_mul (by norm_num) (by positivity), Real.log_pow]; push_cast; ring
    rw [this]
    have hi : (0 : ℝ) ≤ (i : ℝ) + 1 := by positivity
    have c1 := mul_le_mul_of_nonneg_left b1 hi
    have c2 := mul_le_mul_of_nonneg_left b2 hi
    unfold ksLogLo ksLogHi
    rw [if_neg h0, if_neg h0]
    push_cast
    constructor <;> linarith

theorem ksCritical_entry {i j : Nat} (hi : i < 6) (hj : j < 22) (h : (i, j) ≠ (4, 21)) :
    KsCritical (ksSampleSizes.getD j 0) (ksLevels.getD i 0 : ℚ) (ksEntry i j : ℚ) := by
  obtain ⟨h1, h2, h3, h4⟩ := ksEntry_ok ⟨i, hi⟩ ⟨j, hj⟩ h
  obtain ⟨l1, l2⟩ := ksLog_bounds hi
  dsimp only at h1 h2 h3 h4
  have ha : (0 : ℝ) < ((ksLevels.getD i 0 : ℚ) : ℝ) := by
    interval_cases i <;> norm_num [ksLevels]
  have h3' : (2 * (ksSampleSizes.getD j 0 : ℝ) * (ksEntry i j : ℝ) ^ 2) ≤ (ksLogLo i : ℝ) := by exact_mod_cast h3
  have h4' : (ksLogHi i : ℝ) ≤ (2 * (ksSampleSizes.getD j 0 : ℝ) * ((ksEntry i j : ℝ) + 1 / (ksSampleSizes.getD j 0 : ℝ)) ^ 2) := by
    exact_mod_cast h4
  have hl : Real.log (2 / ((ksLevels.getD i 0 : ℚ) : ℝ)) = Real.log 2 - Real.log ((ksLevels.getD i 0 : ℚ) : ℝ) :=
    Real.log_div (by norm_num) ha.ne'
  rw [hl] at l1 l2
  have e2 : Real.exp (Real.log 2) = 2 := Real.exp_log (by norm_num)
  have ea := Real.exp_log ha
  refine ⟨by exact_mod_cast h1, by exact_mod_cast h2, ?_, ?_⟩
  · calc ((ksLevels.getD i 0 : ℚ) : ℝ) = Real.exp (Real.log ((ksLevels.getD i 0 : ℚ) : ℝ)) := ea.symm
      _ ≤ Real.exp (Real.log 2 + -2 * (ksSampleSizes.getD j 0 : ℝ) * (ksEntry i j : ℝ) ^ 2) := by
        rw [Real.exp_le_exp]; linarith
      _ = _ := by rw [Real.exp_add, e2]
  · calc _ = Real.exp (Real.log 2 + -2 * (ksSampleSizes.getD j 0 : ℝ) * ((ksEntry i j : ℝ) + 1 / (ksSampleSizes.getD j 0 : ℝ)) ^ 2) := by
          rw [Real.exp_add, e2]
      _ ≤ Real.exp (Real.log ((ksLevels.getD i 0 : ℚ) : ℝ)) := by rw [Real.exp_le_exp]; linarith
      _ = _ := ea

/-- What `critical_value_rep` returns for arguments in range. -/
theorem criticalValueRep_eq {n : Int} {sig : ℚ} (hn : 8 ≤ n ∧ n ≤ 2 ^ 24) (hs : 1 / 10 ^ 6 ≤ sig ∧ sig ≤ 5 / 100) :
    ∃ i j : Nat, i < 6 ∧ j < 22 ∧ significanceRep sig = .ok i ∧ sampleSizeRep n = .ok j ∧
      LargestLevel sig (ksLevels.getD i 0) ∧ SmallestSize n (ksSampleSizes.getD j 0) ∧
      criticalValueRep n sig = .ok (ksEntry i j, ksSampleSizes.getD j 0, ksLevels.getD i 0) := by
  rcases significanceRep_spec sig with ⟨i, hi, ei, li⟩ | ⟨h, -⟩
  swap; · exact absurd hs h
  rcases sampleSizeRep_spec n with ⟨j, hj, ej, lj⟩ | ⟨h, -⟩
  swap; · exact absurd hn h
  have hrow : ∃ h : i < ksCriticalValues.length, (ksCriticalValues[i]).length = 22 := by
    have : i < 6 := hi
    refine ⟨this, ?_⟩
    interval_cases i <;> rfl
  obtain ⟨h1, h2⟩ := hrow
  refine ⟨i, j, hi, hj, ei, ej, ?_, ?_, ?_⟩
  · rw [getD_get hi]; exact li
  · rw [getD_get hj]; exact lj
  · unfold criticalValueRep
    rw [ei, Res.ok_bind, Buf.ofList_rd (by omega) (by exact_mod_cast hi), Res.ok_bind, ej, Res.ok_bind,
      Buf.ofList_rd (by omega) (by exact_mod_cast hj), Res.ok_bind, Buf.ofList_rd (by omega) (by exact_mod_cast h1), Res.ok_bind,
      Buf.ofList_rd (by omega) (by
        have : j < 22 := hj
        simp only [Int.toNat_natCast]; rw [h2]; exact_mod_cast this), Res.ok_bind]
    simp only [Int.toNat_natCast, Res.pure_eq]
    unfold ksEntry
    rw [getD_get hi, getD_get hj, getD_get h1, getD_get (by rw [h2]; exact hj)]

/-- C113 (part: all arguments in range except `10^-5 ≤ sig < 10^-4` with more than `2^23` samples, for which `C113_never_fails` shows that
the claim is false). The lookup returns the smallest tabulated sample size that is at least `n`, the largest tabulated level that is at most
`sig`, and a number that is the critical value for these two up to `1/n'`. -/
theorem C113_critical_value_partial {n : Int} {sig : ℚ} (hn : 8 ≤ n ∧ n ≤ 2 ^ 24) (hs : 1 / 10 ^ 6 ≤ sig ∧ sig ≤ 5 / 100)
    (hexc : ¬ (1 / 10 ^ 5 ≤ sig ∧ sig < 1 / 10 ^ 4 ∧ 2 ^ 23 < n)) :
    ∃ (cv : ℚ) (n' : Int) (sig' : ℚ), criticalValueRep n sig = .ok (cv, n', sig') ∧
      SmallestSize n n' ∧ LargestLevel sig sig' ∧ KsCritical n' sig' cv := by
  obtain ⟨i, j, hi, hj, -, -, li, lj, e⟩ := criticalValueRep_eq hn hs
  refine ⟨_, _, _, e, lj, li, ksCritical_entry hi hj ?_⟩
  intro hij
  obtain ⟨rfl, rfl⟩ := Prod.mk.inj hij
  apply hexc
  refine ⟨?_, ?_, ?_⟩
  · have := li.2.1
    norm_num [ksLevels] at this ⊢; exact this
  · by_contra hge
    have := li.2.2 (1 / 10 ^ 4) (Or.inr ⟨4, by norm_num, by norm_num, rfl⟩) (not_lt.mp hge)
    norm_num [ksLevels] at this
  · by_contra hge
    have := lj.2.2 (2 ^ 23) ⟨23, by norm_num, by norm_num, rfl⟩ (not_lt.mp hge)
    norm_num [ksSampleSizes] at this

example : ∃ (cv : ℚ) (n' : Int) (sig' : ℚ), criticalValueRep 100000 (3 / 100) = .ok (cv, n', sig') ∧
    SmallestSize 100000 n' ∧ LargestLevel (3 / 100) sig' ∧ KsCritical n' sig' cv :=
  C113_critical_value_partial (by norm_num) (by norm_num) (by norm_num)

/-- C113 (errors). Arguments out of range raise an error. -/
theorem C113_out_of_range {n : Int} {sig : ℚ} (h : ¬ (8 ≤ n ∧ n ≤ 2 ^ 24) ∨ ¬ (1 / 10 ^ 6 ≤ sig ∧ sig ≤ 5 / 100)) :
    criticalValueRep n sig = .throw .require := by
  unfold criticalValueRep
  rcases significanceRep_spec sig with ⟨i, hi, ei, li⟩ | ⟨-, es⟩
  · rw [ei, Res.ok_bind, Buf.ofList_rd (by omega) (by exact_mod_cast hi), Res.ok_bind]
    rcases sampleSizeRep_spec n with ⟨j, hj, ej, lj⟩ | ⟨-, es⟩
    · exfalso
      rcases h with h | h
      · apply h
        obtain ⟨⟨k, h3, h24, hk⟩, h2, -⟩ := lj
        have hle : (2 : Int) ^ k ≤ 2 ^ 24 := pow_le_pow_right₀ (by norm_num) h24
        refine ⟨?_, by rw [← hk] at hle; omega⟩
        by_contra hlt
        have : sampleSizeRep n = .throw .require := by
          unfold sampleSizeRep
          rw [Res.require_eq_throw, Res.throw_bind]
          unfold ksSmallestSample; omega
        rw [this] at ej; cases ej
      · have : significanceRep sig = .throw .require := by
          unfold significanceRep
          rw [Res.require_eq_throw, Res.throw_bind]
          intro h'; apply h
          unfold ksStrongest ksWeakest at h'; norm_num at h' ⊢; exact h'
        rw [this] at ei; cases ei
    · rw [es]; rfl
  · rw [es]; rfl

example : criticalValueRep 7 (1 / 100) = .throw .require := C113_out_of_range (Or.inl (by norm_num))

/-- `ks_check_critval` passes if no two entries differ by more than the critical value. -/
theorem ksCheck_pass {R : Type} [Field R] [LinearOrder R] {ndebug : Bool} {n : Int} {c1 c2 : Buf R} {f g : Int → R} {cv : R} (hn : 0 ≤ n)
    (h1 : ∀ i, 0 ≤ i → i < n → c1 i = .val (f i)) (h2 : ∀ i, 0 ≤ i → i < n → c2 i = .val (g i)) :
    (∃ i, 0 ≤ i ∧ i < n ∧ |f i - g i| > cv ∧ (∀ j, 0 ≤ j → j < i → |f j - g j| ≤ cv) ∧
      ksCheckCritval ndebug n n c1 c2 cv = .ok (i, |f i - g i|)) ∨
    ((∀ i, 0 ≤ i → i < n → |f i - g i| ≤ cv) ∧ ksCheckCritval ndebug n n c1 c2 cv = .ok (-1, 0)) := by
  unfold ksCheckCritval
  rw [if_neg (by simp)]
  rcases findI_first (n := n) (P := fun i => |f i - g i| > cv) (f := fun i => (i, |f i - g i|))
    (body := fun i => do
      let x ← c1.rd i
      let y ← c2.rd i
      if |x - y| > cv then pure (some (i, |x - y|)) else pure none) hn
    (fun i h0 h hp => by rw [Buf.rd_val (h1 i h0 h), Res.ok_bind, Buf.rd_val (h2 i h0 h), Res.ok_bind, if_pos hp]; rfl)
    (fun i h0 h hp => by rw [Buf.rd_val (h1 i h0 h), Res.ok_bind, Buf.rd_val (h2 i h0 h), Res.ok_bind, if_neg hp]; rfl) with
    ⟨i, h0, hi, hp, hj, he⟩ | ⟨hno, he⟩
  · refine Or.inl ⟨i, h0, hi, hp, fun j a b => not_lt.mp (hj j a b), ?_⟩
    rw [he]; rfl
  · refine Or.inr ⟨fun i a b => not_lt.mp (hno i a b), ?_⟩
    rw [he]; rfl

/-- C113 is violated: with `10^-5 ≤ sig < 10^-4` and more than `2^23` samples the critical value is larger than `6` (a misprinted exponent),
and a check with it accepts every pair of distribution functions. -/
theorem C113_never_fails {n : Int} {sig : ℚ} (hn : 2 ^ 23 < n ∧ n ≤ 2 ^ 24) (hs : 1 / 10 ^ 5 ≤ sig ∧ sig < 1 / 10 ^ 4) :
    ∃ cv : ℚ, criticalValueRep n sig = .ok (cv, 2 ^ 24, 1 / 10 ^ 5) ∧ 6 < cv ∧ ¬ KsCritical (2 ^ 24) (1 / 10 ^ 5) cv ∧
      ∀ (ndebug : Bool) (size : Int) (c1 c2 : Buf ℚ) (f g : Int → ℚ), 0 ≤ size →
        (∀ i, 0 ≤ i → i < size → c1 i = .val (f i) ∧ c2 i = .val (g i) ∧ 0 ≤ f i ∧ f i ≤ 1 ∧ 0 ≤ g i ∧ g i ≤ 1) →
        ksCheckCritval ndebug size size c1 c2 cv = .ok (-1, 0) := by
  obtain ⟨i, j, hi, hj, -, -, li, lj, e⟩ := criticalValueRep_eq (n := n) (sig := sig) ⟨by omega, hn.2⟩
    ⟨le_trans (by norm_num) hs.1, le_trans hs.2.le (by norm_num)⟩
  have hi4 : i = 4 := by
    have a := li.2.1
    have b := li.2.2 (1 / 10 ^ 5) (Or.inr ⟨5, by norm_num, by norm_num, rfl⟩) hs.1
    have c := lt_of_le_of_lt a hs.2
    interval_cases i
    all_goals first | rfl | (exfalso; norm_num [ksLevels] at c; done) | (exfalso; norm_num [ksLevels] at b)
  have hj21 : j = 21 := by
    have a := lj.2.1
    rw [ksSampleSizes_eq hj] at a
    by_contra hne
    have : (2 : Int) ^ (j + 3) ≤ 2 ^ 23 := pow_le_pow_right₀ (by norm_num) (by omega)
    omega
  subst hi4; subst hj21
  have hcv : ksEntry 4 21 = 60312296 / 10000000 := by norm_num [ksEntry, ksCriticalValues]
  refine ⟨ksEntry 4 21, ?_, ?_, ?_, ?_⟩
  · rw [e]
    congr 3
    norm_num [ksLevels]
  · rw [hcv]; norm_num
  · rintro ⟨-, h, -⟩
    rw [hcv] at h; norm_num at h
  · intro ndebug size c1 c2 f g h0 hv
    rcases ksCheck_pass (ndebug := ndebug) (cv := ksEntry 4 21) h0 (fun i a b => (hv i a b).1) (fun i a b => (hv i a b).2.1) with
      ⟨i, a, b, hgt, -⟩ | ⟨-, h⟩
    · exfalso
      obtain ⟨-, -, f0, f1, g0, g1⟩ := hv i a b
      rw [hcv] at hgt
      have : |f i - g i| ≤ 1 := abs_le.mpr ⟨by linarith, by linarith⟩
      have : (60312296 / 10000000 : ℚ) ≤ 1 := hgt.le.trans this
      norm_num at this
    · exact h

example : ∃ cv : ℚ, criticalValueRep 10000000 (1 / 10 ^ 5) = .ok (cv, 2 ^ 24, 1 / 10 ^ 5) ∧ 6 < cv :=
  let ⟨cv, h1, h2, _⟩ := C113_never_fails (n := 10000000) (sig := 1 / 10 ^ 5) (by norm_num) (by norm_num)
  ⟨cv, h1, h2⟩

/-! ## The mutating variant -/

theorem criticalValueRepMutator_eq (n : Int) (sig : ℚ) : criticalValueRepMutator n sig = criticalValueRep (wrapInt 32 n) sig := rfl

/-- C113 (part: sample sizes that fit in an `int`). The mutating lookup sets `n` and `sig` to what `critical_value_rep` returns. -/
theorem C113_mutator_partial {n : Int} {sig : ℚ} (hn : FitsInt 32 n) : criticalValueRepMutator n sig = criticalValueRep n sig := by
  rw [criticalValueRepMutator_eq]
  congr 1
  obtain ⟨h1, h2⟩ := hn
  unfold wrapInt
  unfold intMin at h1
  unfold intMax at h2
  omega

example : FitsInt 32 100000 := by decide

/-- C113 is violated by the mutating lookup with 64-bit sample sizes: a size beyond the range of `int` is not rejected but reduced modulo
`2^32`; the caller's sample size is replaced by a much smaller one. -/
theorem C113_mutator_wraps {n q : Int} {sig : ℚ} (hn : 8 ≤ n ∧ n ≤ 2 ^ 24) (hq : 1 ≤ q) (hs : 1 / 10 ^ 6 ≤ sig ∧ sig ≤ 5 / 100) :
    ∃ (cv : ℚ) (n' : Int) (sig' : ℚ), criticalValueRepMutator (n + q * 2 ^ 32) sig = .ok (cv, n', sig') ∧ n' ≤ 2 ^ 24 ∧
      n' < n + q * 2 ^ 32 := by
  obtain ⟨i, j, hi, hj, -, -, li, lj, e⟩ := criticalValueRep_eq hn hs
  have hw : wrapInt 32 (n + q * 2 ^ 32) = n := by unfold wrapInt; omega
  refine ⟨_, _, _, by rw [criticalValueRepMutator_eq, hw]; exact e, ?_, ?_⟩ <;>
  · obtain ⟨k, -, h24, hk⟩ := lj.1
    have hle : (2 : Int) ^ k ≤ 2 ^ 24 := pow_le_pow_right₀ (by norm_num) h24
    rw [hk]; omega

example : ∃ (cv : ℚ) (n' : Int) (sig' : ℚ), criticalValueRepMutator (1000 + 1 * 2 ^ 32) (1 / 100) = .ok (cv, n', sig') ∧ n' ≤ 2 ^ 24 ∧
    n' < 1000 + 1 * 2 ^ 32 := C113_mutator_wraps (by norm_num) (by norm_num) (by norm_num)

end RB
