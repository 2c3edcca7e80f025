import Verif.Lemmas.CholMath
import Mathlib.Analysis.SpecialFunctions.Pow.Real
import Mathlib.Tactic.NormNum

/-! # C62: the Cholesky decomposition of test/handrolled_lapack.hh

"If the symmetric matrix with the stored upper triangle is positive definite, `potrf_upper` returns 0 and overwrites the upper triangle
with the upper triangular R with positive diagonal and R^T R = A; nothing else is written, and the result does not depend on the block
size.  If it is not positive definite, the number returned is the order of the first leading block that is not positive definite." -/

namespace RB
open Spec

variable {T : Type} [Field T] [LinearOrder T] [IsStrictOrderedRing T]

omit [Field T] [LinearOrder T] [IsStrictOrderedRing T] in
theorem upd_of_holdsUpper {b : Buf T} {ld n : Int} {A : Int → Int → T} (h : HoldsUpper b ld n A) : Upd ld (Up n) A b b :=
  Upd.refl fun i j hij => h i j hij.1 hij.2.1 hij.2.2

omit [Field T] [LinearOrder T] [IsStrictOrderedRing T] in
theorem upd_holdsUpper {b b' : Buf T} {ld n : Int} {A : Int → Int → T} (h : Upd ld (Up n) A b b') : HoldsUpper b' ld n A :=
  fun i j h1 h2 h3 => h.cells i j ⟨h1, h2, h3⟩

omit [Field T] [LinearOrder T] [IsStrictOrderedRing T] in
theorem upd_sameOutsideUpper {b b' : Buf T} {ld n : Int} {A : Int → Int → T} (h : Upd ld (Up n) A b b') : SameOutsideUpper b b' ld n :=
  fun p hp => h.outside p fun i j hij => hp i j hij.1 hij.2.1 hij.2.2

omit [IsStrictOrderedRing T] in
/-- The factor is upper triangular with positive diagonal and `R^T R = A`. -/
theorem cholU_factor {sqrt : T → T} (hs : SqrtOk sqrt) {A : Int → Int → T} {n : Int}
    (hpos : ∀ k : Nat, (k : Int) < n → 0 < schurF sqrt A k k k) :
    (UpperPos n (cholU sqrt A)) ∧ ∀ i j, 0 ≤ i → i ≤ j → j < n →
      prodEntry n (fun r c => cholU sqrt A c r) (cholU sqrt A) i j = A i j := by
  refine ⟨⟨fun i j h => by rw [cholU, if_neg (by omega)], fun i h0 hn => ?_⟩, fun i j h0 hij hn => ?_⟩
  · obtain ⟨k, rfl⟩ := Int.eq_ofNat_of_zero_le h0
    exact cholU_diag_pos hs (hpos k hn)
  · obtain ⟨i, rfl⟩ := Int.eq_ofNat_of_zero_le h0
    obtain ⟨j, rfl⟩ := Int.eq_ofNat_of_zero_le (h0.trans hij)
    have := chol_sum hs n.toNat (fun k hk => hpos k (by omega)) i j (by exact_mod_cast hij)
    rw [if_pos (by omega)] at this
    exact this

omit [LinearOrder T] [IsStrictOrderedRing T] in
theorem upd_cholU {sqrt : T → T} {A : Int → Int → T} {n ld : Int} {b b' : Buf T}
    (h : Upd ld (Up n) (fun r c => cholF sqrt A r.toNat c) b b') : Upd ld (Up n) (cholU sqrt A) b b' :=
  h.congr fun i j hij => by rw [cholU, if_pos hij.2.1]

/-- The Cholesky decomposition of a positive definite matrix, for every size, leading dimension and block size. -/
theorem C62_potrf {sqrt : T → T} (hs : SqrtOk sqrt) {n lda bs : Int} {A : Int → Int → T} {b : Buf T} (hn : 0 ≤ n) (hl : n ≤ lda)
    (hbs : 0 < bs) (hA : HoldsUpper b lda n A) (hpd : PosDefU n A) :
    M.wp (potrfUpper sqrt n lda bs) b (fun code b' => code = 0 ∧
      ∃ R, UpperPos n R ∧ (∀ i j, 0 ≤ i → i ≤ j → j < n → prodEntry n (fun r c => R c r) R i j = A i j) ∧
        HoldsUpper b' lda n R ∧ SameOutsideUpper b b' lda n) := by
  have hpos := (posDef_iff_pivots hs hn).1 hpd
  refine M.wp_mono (potrfUpperF_spec hbs (n.toNat + 1) hn hl (by omega) (upd_of_holdsUpper hA)) ?_
  rintro code b' ⟨h1, h2, -, -⟩
  have h3 := upd_cholU (h1 hpos)
  obtain ⟨h4, h5⟩ := cholU_factor hs hpos
  exact ⟨h2 (fun k hk _ => hpos k hk), _, h4, h5, upd_holdsUpper h3, upd_sameOutsideUpper h3⟩

/-- The block size does not matter: result and memory are the same. -/
theorem C62_block_size {sqrt : T → T} (hs : SqrtOk sqrt) {n lda bs bs' : Int} {A : Int → Int → T} {b : Buf T} (hn : 0 ≤ n) (hl : n ≤ lda)
    (hbs : 0 < bs) (hbs' : 0 < bs') (hA : HoldsUpper b lda n A) (hpd : PosDefU n A) :
    potrfUpper sqrt n lda bs b = potrfUpper sqrt n lda bs' b := by
  have hpos := (posDef_iff_pivots hs hn).1 hpd
  obtain ⟨c1, b1, e1, h1, h2, -, -⟩ := potrfUpperF_spec (sqrt := sqrt) hbs (n.toNat + 1) hn hl (by omega) (upd_of_holdsUpper hA)
  obtain ⟨c2, b2, e2, h3, h4, -, -⟩ := potrfUpperF_spec (sqrt := sqrt) hbs' (n.toNat + 1) hn hl (by omega) (upd_of_holdsUpper hA)
  have e3 : b1 = b2 := by
    have h1 := h1 hpos
    have h3 := h3 hpos
    funext p
    by_cases hp : ∃ i j, Up n i j ∧ p = i + j * lda
    · obtain ⟨i, j, hij, rfl⟩ := hp
      rw [h1.cells i j hij, h3.cells i j hij]
    · push Not at hp
      rw [h1.outside p hp, h3.outside p hp]
  rw [potrfUpper, potrfUpper, e1, e2, h2 (fun k hk _ => hpos k hk), h4 (fun k hk _ => hpos k hk), e3]

/-- The unblocked routine returns 0 exactly for positive definite matrices; otherwise it returns the order of the first leading
block that is not positive definite. -/
theorem C62_sequential {sqrt : T → T} (hs : SqrtOk sqrt) {n lda : Int} {A : Int → Int → T} {b : Buf T} (hn : 0 ≤ n) (hl : n ≤ lda)
    (hA : HoldsUpper b lda n A) :
    M.wp (potrfSeq sqrt n lda) b (fun code b' => SameOutsideUpper b b' lda n ∧ (code = 0 ↔ PosDefU n A) ∧
      (code = 0 → ∃ R, UpperPos n R ∧ (∀ i j, 0 ≤ i → i ≤ j → j < n → prodEntry n (fun r c => R c r) R i j = A i j) ∧
        HoldsUpper b' lda n R) ∧
      (code ≠ 0 → 1 ≤ code ∧ code ≤ n ∧ ¬ PosDefU code A ∧ PosDefU (code - 1) A)) := by
  refine M.wp_mono (potrfSeq_spec hn hl (upd_of_holdsUpper hA)) ?_
  rintro code b' (⟨rfl, hpos, h⟩ | ⟨j, hj, rfl, hpos, hneg, X, h⟩)
  · have h3 := upd_cholU h
    obtain ⟨h4, h5⟩ := cholU_factor hs hpos
    exact ⟨upd_sameOutsideUpper h3, iff_of_true rfl ((posDef_iff_pivots hs hn).2 hpos), fun _ => ⟨_, h4, h5, upd_holdsUpper h3⟩,
      fun h => absurd rfl h⟩
  · have hnot : ∀ m : Int, (j : Int) < m → 0 ≤ m → ¬ PosDefU m A := by
      intro m hm hm0 hpd
      exact absurd ((posDef_iff_pivots hs hm0).1 hpd j hm) (not_lt.2 hneg)
    refine ⟨upd_sameOutsideUpper h, iff_of_false (by omega) (hnot n hj hn), fun h => absurd h (by omega), fun _ => ⟨by omega, by omega,
      hnot _ (by omega) (by omega), ?_⟩⟩
    rw [add_sub_cancel_right]
    exact (posDef_iff_pivots hs (by omega)).2 (fun k hk => hpos k (by exact_mod_cast hk))

/-- The blocked routine returns 0 exactly if the leading block of at most `bs` rows is positive definite, and otherwise the order of
the first leading block that is not.  Missing for the full claim: failures in later blocks are not reported. -/
theorem C62_code_partial {sqrt : T → T} (hs : SqrtOk sqrt) {n lda bs : Int} {A : Int → Int → T} {b : Buf T} (hn : 0 ≤ n) (hl : n ≤ lda)
    (hbs : 0 < bs) (hA : HoldsUpper b lda n A) :
    M.wp (potrfUpper sqrt n lda bs) b (fun code b' => SameOutsideUpper b b' lda n ∧ (code = 0 ↔ PosDefU (min bs n) A) ∧
      (code ≠ 0 → 1 ≤ code ∧ code ≤ n ∧ ¬ PosDefU n A ∧ ¬ PosDefU code A ∧ PosDefU (code - 1) A)) := by
  refine M.wp_mono (potrfUpperF_spec hbs (n.toNat + 1) hn hl (by omega) (upd_of_holdsUpper hA)) ?_
  rintro code b' ⟨-, h2, h3, X, h4⟩
  have hm0 : 0 ≤ min bs n := le_min hbs.le hn
  refine ⟨upd_sameOutsideUpper h4, ?_⟩
  by_cases hpd : PosDefU (min bs n) A
  · have := h2 (fun k hk hkb => (posDef_iff_pivots hs hm0).1 hpd k (lt_min hkb hk))
    exact ⟨iff_of_true this hpd, fun h => absurd this h⟩
  · have hex : ∃ k : Nat, (k : Int) < min bs n ∧ schurF sqrt A k k k ≤ 0 := by
      by_contra hno
      push Not at hno
      exact hpd ((posDef_iff_pivots hs hm0).2 (fun k hk => hno k hk))
    classical
    have hj := Nat.find_spec hex
    have hmin : ∀ k < Nat.find hex, 0 < schurF sqrt A k k k := by
      intro k hk
      have := Nat.find_min hex hk
      by_contra hneg
      exact this ⟨by omega, not_lt.1 hneg⟩
    have hjn := lt_min_iff.1 hj.1
    have hcode := h3 _ hjn.2 hjn.1 hmin hj.2
    have hnot : ∀ m : Int, ((Nat.find hex : Nat) : Int) < m → 0 ≤ m → ¬ PosDefU m A := by
      intro m hm hm0 hpd
      exact absurd ((posDef_iff_pivots hs hm0).1 hpd _ hm) (not_lt.2 hj.2)
    refine ⟨iff_of_false (by omega) hpd, fun _ => ⟨by omega, by omega, hnot n hjn.2 hn, hnot _ (by omega) (by omega), ?_⟩⟩
    rw [hcode, add_sub_cancel_right]
    exact (posDef_iff_pivots hs (by omega)).2 (fun k hk => hmin k (by exact_mod_cast hk))

omit [IsStrictOrderedRing T] in
/-- A block size that is not positive is an error. -/
theorem C62_block_size_error {sqrt : T → T} {n lda bs : Int} {b : Buf T} (hbs : bs ≤ 0) :
    potrfUpper sqrt n lda bs b = (.throw .require, b) := by
  unfold potrfUpper potrfUpperF
  have : ¬ (bs > 0) := by omega
  exact M.bind_throw (by simp [M.require, Res.require, M.lift, this])

theorem sqrtOk_real : SqrtOk Real.sqrt := fun _ hx => ⟨Real.sqrt_pos.2 hx, Real.mul_self_sqrt hx.le⟩

/-- Non-vacuity: a positive definite 2 x 2 matrix. -/
example : PosDefU 2 (fun i j : Int => if i = j then (2 : ℝ) else 1) ∧
    HoldsUpper (Buf.ofFn 4 fun p => if p = 0 ∨ p = 3 then (2 : ℝ) else 1) 2 2 (fun i j => if i = j then (2 : ℝ) else 1) := by
  constructor
  · rintro x ⟨i, h0, h1, hx⟩
    have : quadU 2 (fun i j : Int => if i = j then (2 : ℝ) else 1) x = x 0 ^ 2 + x 1 ^ 2 + (x 0 + x 1) ^ 2 := by
      simp [quadU, symU, Finset.sum_range_succ]; ring
    rw [this]
    have : i = 0 ∨ i = 1 := by omega
    rcases this with rfl | rfl <;> positivity
  · intro i j h0 h1 h2
    have : (i = 0 ∧ j = 0) ∨ (i = 0 ∧ j = 1) ∨ (i = 1 ∧ j = 1) := by omega
    rcases this with ⟨rfl, rfl⟩ | ⟨rfl, rfl⟩ | ⟨rfl, rfl⟩ <;> simp [Buf.ofFn, addr]

/-- `potrf_upper` reports success for an indefinite matrix: the matrix (1 2; 2 1) with block size 1. -/
theorem C62_code_counterexample :
    let A : Int → Int → ℝ := fun i j => if i = j then 1 else 2
    let b : Buf ℝ := Buf.ofList [1, 2, 2, 1]
    HoldsUpper b 2 2 A ∧ ¬ PosDefU 2 A ∧ (potrfUpper Real.sqrt 2 2 1 b).1 = .ok 0 := by
  intro A b
  have hA : HoldsUpper b 2 2 A := by
    intro i j h0 h1 h2
    have : (i = 0 ∧ j = 0) ∨ (i = 0 ∧ j = 1) ∨ (i = 1 ∧ j = 1) := by omega
    rcases this with ⟨rfl, rfl⟩ | ⟨rfl, rfl⟩ | ⟨rfl, rfl⟩ <;> simp [A, b, Buf.ofList, addr]
  refine ⟨hA, ?_, ?_⟩
  · intro h
    have := h (fun i => if i = 0 then 1 else -1) ⟨0, le_refl _, by norm_num, by norm_num⟩
    revert this
    simp [quadU, symU, Finset.sum_range_succ, A]
    norm_num
  · obtain ⟨code, b', h1, -, h2, -⟩ := C62_code_partial sqrtOk_real (n := 2) (lda := 2) (bs := 1) (by norm_num) (le_refl _) (by norm_num) hA
    have h3 : PosDefU (min 1 2) A := by
      rintro x ⟨i, h0, h1, hx⟩
      have : i = 0 := by simp at h1; omega
      subst this
      have : quadU (min 1 2) A x = x 0 ^ 2 := by simp [quadU, symU, A]; ring
      rw [this]; positivity
    rw [h1, h2.2 h3]

end RB
