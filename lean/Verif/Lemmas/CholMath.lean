import Verif.Lemmas.Chol
import Verif.Spec.Lapack
import Mathlib.Algebra.Order.Ring.Basic
import Mathlib.Tactic.Positivity

/-! # Algebra of triangular factors -/

namespace RB
open Spec

variable {T : Type} [Field T]

/-- A triangular system has a solution. -/
theorem tri_solve {R : Nat → Nat → T} (m : Nat) (hup : ∀ i j, j < i → R i j = 0) (hd : ∀ i < m, R i i ≠ 0) (y : Nat → T) :
    ∃ x : Nat → T, ∀ l < m, ∑ i ∈ Finset.range m, R l i * x i = y l := by
  induction m generalizing y with
  | zero => exact ⟨fun _ => 0, fun l hl => by omega⟩
  | succ m ih =>
    obtain ⟨x, hx⟩ := ih (fun i hi => hd i (by omega)) (fun l => y l - R l m * (y m / R m m))
    refine ⟨fun i => if i = m then y m / R m m else x i, fun l hl => ?_⟩
    rw [Finset.sum_range_succ]
    dsimp only
    rw [if_pos rfl]
    have h1 : ∑ i ∈ Finset.range m, R l i * (if i = m then y m / R m m else x i) = ∑ i ∈ Finset.range m, R l i * x i :=
      Finset.sum_congr rfl fun i hi => by rw [if_neg (by have := Finset.mem_range.1 hi; omega)]
    rw [h1]
    rcases Nat.lt_succ_iff_lt_or_eq.1 hl with h | h
    · rw [hx l h]; ring
    · subst h
      rw [Finset.sum_eq_zero (fun i hi => by rw [hup l i (Finset.mem_range.1 hi), zero_mul]), zero_add]
      field_simp [hd l (by omega)]

/-- The only solution of the homogeneous triangular system is zero. -/
theorem tri_zero {R : Nat → Nat → T} (m : Nat) (hup : ∀ i j, j < i → R i j = 0) (hd : ∀ i < m, R i i ≠ 0) {x : Nat → T}
    (h : ∀ l < m, ∑ i ∈ Finset.range m, R l i * x i = 0) : ∀ l < m, x l = 0 := by
  induction m with
  | zero => intro l hl; omega
  | succ m ih =>
    have hm : x m = 0 := by
      have := h m (by omega)
      rw [Finset.sum_range_succ, Finset.sum_eq_zero (fun i hi => by rw [hup m i (Finset.mem_range.1 hi), zero_mul]), zero_add] at this
      exact (mul_eq_zero.1 this).resolve_left (hd m (by omega))
    have h2 := ih (fun i hi => hd i (by omega)) (fun l hl => by
      have := h l (by omega)
      rwa [Finset.sum_range_succ, hm, mul_zero, add_zero] at this)
    intro l hl
    rcases Nat.lt_succ_iff_lt_or_eq.1 hl with h | h
    · exact h2 l h
    · rw [h]; exact hm

/-- The same for the transposed system. -/
theorem tri_zero_left {R : Nat → Nat → T} (m : Nat) (hup : ∀ i j, j < i → R i j = 0) (hd : ∀ i < m, R i i ≠ 0) {y : Nat → T}
    (h : ∀ i < m, ∑ l ∈ Finset.range m, y l * R l i = 0) : ∀ l < m, y l = 0 := by
  intro l
  induction l using Nat.strong_induction_on with
  | _ l ih =>
    intro hl
    have := h l hl
    rw [Finset.sum_eq_single l] at this
    · exact (mul_eq_zero.1 this).resolve_right (hd l hl)
    · intro k hk hne
      rcases lt_or_gt_of_ne hne with h1 | h1
      · rw [ih k h1 (by omega), zero_mul]
      · rw [hup k l h1, mul_zero]
    · intro h1; exact absurd (Finset.mem_range.2 hl) h1

section
variable [LinearOrder T] [IsStrictOrderedRing T]

/-- The upper triangular factor. -/
def cholU (sqrt : T → T) (A : Int → Int → T) (i j : Int) : T := if i ≤ j then cholF sqrt A i.toNat j else 0

omit [IsStrictOrderedRing T] in
theorem chol_pos {sqrt : T → T} (hs : SqrtOk sqrt) {A : Int → Int → T} {k : Nat} (h : 0 < schurF sqrt A k k k) :
    0 < cholF sqrt A k k := by
  rw [cholF_diag]; exact (hs _ h).1

omit [IsStrictOrderedRing T] in
/-- The identity behind the elimination. -/
theorem chol_sum {sqrt : T → T} (hs : SqrtOk sqrt) {A : Int → Int → T} (J : Nat) (hpos : ∀ k < J, 0 < schurF sqrt A k k k) (r c : Nat)
    (hrc : r ≤ c) : ∑ k ∈ Finset.range J, cholU sqrt A k r * cholU sqrt A k c = if r < J then A r c else A r c - schurF sqrt A J r c := by
  have hlow : ∀ K : Nat, K ≤ r → ∑ k ∈ Finset.range K, cholU sqrt A k r * cholU sqrt A k c = A r c - schurF sqrt A K r c := by
    intro K hK
    rw [schurF, sub_sub_cancel]
    refine Finset.sum_congr rfl fun k hk => ?_
    have := Finset.mem_range.1 hk
    rw [cholU, cholU, if_pos (by exact_mod_cast (by omega : k ≤ r)), if_pos (by exact_mod_cast (by omega : k ≤ c)), Int.toNat_natCast]
  by_cases h : r < J
  · rw [if_pos h]
    have h1 : ∑ k ∈ Finset.range J, cholU sqrt A k r * cholU sqrt A k c = ∑ k ∈ Finset.range (r + 1), cholU sqrt A k r * cholU sqrt A k c := by
      symm
      refine Finset.sum_subset (fun k hk => by simp at hk ⊢; omega) (fun k hk hk2 => ?_)
      have : ¬ ((k : Int) ≤ r) := by simp at hk2; omega
      rw [cholU, if_neg this, zero_mul]
    rw [h1, Finset.sum_range_succ, hlow r (le_refl _)]
    have hp := hpos r h
    have hc := chol_pos hs hp
    have h2 : cholU sqrt A r r * cholU sqrt A r c = schurF sqrt A r r c := by
      rw [cholU, cholU, if_pos (le_refl _), if_pos (by exact_mod_cast hrc), Int.toNat_natCast]
      by_cases he : c = r
      · subst he
        rw [cholF_diag]; exact (hs _ hp).2
      · rw [cholF_off (c := (c : Int)) _ _ (by exact_mod_cast he)]
        field_simp
    rw [h2]; ring
  · rw [if_neg h]; exact hlow J (by omega)

omit [IsStrictOrderedRing T] in
/-- The quadratic form as a sum of squares, up to the next pivot. -/
theorem quad_eq {sqrt : T → T} (hs : SqrtOk sqrt) {A : Int → Int → T} (J N : Nat) (hN : J ≤ N) (hN2 : N ≤ J + 1)
    (hpos : ∀ k < J, 0 < schurF sqrt A k k k) (x : Int → T) :
    quadU N A x = ∑ l ∈ Finset.range J, (∑ i ∈ Finset.range N, cholU sqrt A l i * x i) ^ 2 +
      if J < N then schurF sqrt A J J J * x J ^ 2 else 0 := by
  have hsym1 : ∀ i < N, ∀ j < N, i ≤ j → symU A i j = ∑ l ∈ Finset.range J, cholU sqrt A l i * cholU sqrt A l j +
      if i = J ∧ j = J then schurF sqrt A J J J else 0 := by
    intro i hi j hj h
    unfold symU
    rw [if_pos (by exact_mod_cast h), chol_sum hs J hpos i j h]
    by_cases h2 : i < J
    · rw [if_pos h2, if_neg (by omega), add_zero]
    · have h3 : i = J := by omega
      have h4 : j = J := by omega
      subst h3; subst h4
      simp
  have hsym : ∀ i < N, ∀ j < N, symU A i j = ∑ l ∈ Finset.range J, cholU sqrt A l i * cholU sqrt A l j +
      if i = J ∧ j = J then schurF sqrt A J J J else 0 := by
    intro i hi j hj
    rcases le_total i j with h | h
    · exact hsym1 i hi j hj h
    · have h2 := hsym1 j hj i hi h
      have h3 : symU A i j = symU A j i := by
        unfold symU
        split_ifs with h4 h5 h5
        · have : i = j := by omega
          subst this; rfl
        · rfl
        · rfl
        · omega
      rw [h3, h2]
      congr 1
      · exact Finset.sum_congr rfl fun l _ => mul_comm _ _
      · simp only [and_comm]
  have h1 : quadU N A x = ∑ i ∈ Finset.range N, ∑ j ∈ Finset.range N, (∑ l ∈ Finset.range J,
      (cholU sqrt A l i * x i) * (cholU sqrt A l j * x j) + if i = J ∧ j = J then schurF sqrt A J J J * x J ^ 2 else 0) := by
    unfold quadU
    rw [Int.toNat_natCast]
    refine Finset.sum_congr rfl fun i hi => Finset.sum_congr rfl fun j hj => ?_
    rw [hsym i (Finset.mem_range.1 hi) j (Finset.mem_range.1 hj), mul_add, add_mul, Finset.mul_sum, Finset.sum_mul]
    congr 1
    · exact Finset.sum_congr rfl fun l _ => by ring
    · by_cases h : i = J ∧ j = J
      · rw [if_pos h, if_pos h, h.1, h.2]; ring
      · rw [if_neg h, if_neg h]; ring
  have h2 : ∀ l ∈ Finset.range J, (∑ i ∈ Finset.range N, cholU sqrt A l i * x i) ^ 2 = ∑ i ∈ Finset.range N, ∑ j ∈ Finset.range N,
      (cholU sqrt A l i * x i) * (cholU sqrt A l j * x j) := by
    intro l _
    rw [sq, Finset.sum_mul_sum]
  rw [h1, Finset.sum_congr rfl h2]
  simp only [Finset.sum_add_distrib]
  congr 1
  · rw [Finset.sum_congr rfl (fun i _ => Finset.sum_comm)]
    exact Finset.sum_comm
  · by_cases h : J < N
    · rw [if_pos h, Finset.sum_eq_single J, Finset.sum_eq_single J]
      · simp
      · intro j _ hj; simp [hj]
      · intro h3; exact absurd (Finset.mem_range.2 h) h3
      · intro i _ hi
        exact Finset.sum_eq_zero fun j _ => by simp [hi]
      · intro h3; exact absurd (Finset.mem_range.2 h) h3
    · rw [if_neg h]
      refine Finset.sum_eq_zero fun i hi => Finset.sum_eq_zero fun j hj => ?_
      rw [if_neg (by have := Finset.mem_range.1 hi; omega)]

omit [IsStrictOrderedRing T] in
theorem cholU_upper (sqrt : T → T) (A : Int → Int → T) {i j : Nat} (h : j < i) : cholU sqrt A i j = 0 := by
  rw [cholU, if_neg (by omega)]

omit [IsStrictOrderedRing T] in
theorem cholU_diag_pos {sqrt : T → T} (hs : SqrtOk sqrt) {A : Int → Int → T} {k : Nat} (h : 0 < schurF sqrt A k k k) :
    0 < cholU sqrt A k k := by
  rw [cholU, if_pos (le_refl _), Int.toNat_natCast]; exact chol_pos hs h

/-- Positive pivots imply positive definiteness. -/
theorem posDef_of_pivots {sqrt : T → T} (hs : SqrtOk sqrt) {A : Int → Int → T} (n : Nat) (hpos : ∀ k < n, 0 < schurF sqrt A k k k) :
    PosDefU n A := by
  rintro x ⟨i, hi0, hin, hxi⟩
  rw [quad_eq hs n n (le_refl _) (by omega) hpos, if_neg (lt_irrefl _), add_zero]
  have hnn : ∀ l ∈ Finset.range n, 0 ≤ (∑ i ∈ Finset.range n, cholU sqrt A l i * x i) ^ 2 := fun l _ => sq_nonneg _
  refine lt_of_le_of_ne (Finset.sum_nonneg hnn) (fun h0 => hxi ?_)
  have h1 := (Finset.sum_eq_zero_iff_of_nonneg hnn).1 h0.symm
  have h2 := tri_zero (R := fun l i => cholU sqrt A l i) n (fun i j h => cholU_upper _ _ h) (fun i hi => (cholU_diag_pos hs (hpos i hi)).ne')
    (x := fun i => x i) (fun l hl => by
      have := h1 l (Finset.mem_range.2 hl)
      exact pow_eq_zero_iff (by norm_num) |>.1 this)
  have := h2 i.toNat (by omega)
  rwa [show ((i.toNat : Nat) : Int) = i by omega] at this

omit [IsStrictOrderedRing T] in
/-- A nonpositive pivot excludes positive definiteness. -/
theorem not_posDef_of_pivot {sqrt : T → T} (hs : SqrtOk sqrt) {A : Int → Int → T} (J : Nat) (hpos : ∀ k < J, 0 < schurF sqrt A k k k)
    (hneg : schurF sqrt A J J J ≤ 0) : ∃ x : Int → T, x J = 1 ∧ quadU ((J + 1 : Nat) : Int) A x ≤ 0 := by
  obtain ⟨x, hx⟩ := tri_solve (R := fun l i => cholU sqrt A l i) J (fun i j h => cholU_upper _ _ h)
    (fun i hi => (cholU_diag_pos hs (hpos i hi)).ne') (fun l => - cholU sqrt A l J)
  refine ⟨fun i => if i = J then 1 else x i.toNat, by simp, ?_⟩
  rw [quad_eq hs J (J + 1) (by omega) (by omega) hpos, if_pos (by omega)]
  rw [Finset.sum_eq_zero]
  · simpa using hneg
  · intro l hl
    rw [Finset.sum_range_succ]
    have h1 : ∑ i ∈ Finset.range J, cholU sqrt A l i * (if (i : Int) = J then 1 else x (i : Int).toNat) = ∑ i ∈ Finset.range J, cholU sqrt A l i * x i :=
      Finset.sum_congr rfl fun i hi => by
        rw [if_neg (by have := Finset.mem_range.1 hi; omega), Int.toNat_natCast]
    rw [h1, hx l (Finset.mem_range.1 hl)]
    simp

/-- The leading block of a positive definite matrix is positive definite. -/
theorem posDef_leading {A : Int → Int → T} {n k : Int} (hk : k ≤ n) (h : PosDefU n A) : PosDefU k A := by
  rintro x ⟨i, hi0, hik, hx⟩
  have := h (fun j => if j < k then x j else 0) ⟨i, hi0, by omega, by rw [if_pos hik]; exact hx⟩
  refine lt_of_lt_of_eq this ?_
  have hsub : Finset.range k.toNat ⊆ Finset.range n.toNat := fun j hj => by simp at hj ⊢; omega
  unfold quadU
  symm
  refine (Finset.sum_congr rfl fun i hi => ?_).trans (Finset.sum_subset hsub fun i hi hi2 => ?_)
  · refine (Finset.sum_congr rfl fun j hj => ?_).trans (Finset.sum_subset hsub fun j hj hj2 => ?_)
    · simp only [Finset.mem_range] at hi hj
      dsimp only
      rw [if_pos (by omega), if_pos (by omega)]
    · simp only [Finset.mem_range] at hj2
      have : ¬ ((j : Int) < k) := by omega
      simp [this]
  · simp only [Finset.mem_range] at hi2
    have : ¬ ((i : Int) < k) := by omega
    simp [this]

theorem posDef_iff_pivots {sqrt : T → T} (hs : SqrtOk sqrt) {A : Int → Int → T} {n : Int} (hn : 0 ≤ n) :
    PosDefU n A ↔ ∀ k : Nat, (k : Int) < n → 0 < schurF sqrt A k k k := by
  obtain ⟨N, rfl⟩ := Int.eq_ofNat_of_zero_le hn
  simp only [Nat.cast_lt]
  refine ⟨fun h => ?_, posDef_of_pivots hs N⟩
  intro k
  induction k using Nat.strong_induction_on with
  | _ k ih =>
    intro hk
    by_contra hneg
    obtain ⟨x, hx, hq⟩ := not_posDef_of_pivot hs k (fun l hl => ih l hl (by omega)) (not_lt.1 hneg)
    have h1 := posDef_leading (k := ((k + 1 : Nat) : Int)) (by exact_mod_cast hk) h
    have h2 := h1 x ⟨k, by omega, by push_cast; omega, by rw [hx]; exact one_ne_zero⟩
    exact absurd hq (not_le.2 h2)

end

end RB
