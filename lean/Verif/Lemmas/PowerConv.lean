import Verif.Lemmas.Power
import Mathlib.Tactic.Linarith

/-! # Convergence of the power method

The moments `x^T A^j x` of a symmetric positive semidefinite matrix are log-convex, so the Rayleigh quotient of `A^(k-1) x` is at least the mean growth
`(x^T A^(2k-1) x / x^T x)^(1/(2k-1))`. -/

namespace RB
open Spec
variable {T : Type} [Field T] [LinearOrder T] [IsStrictOrderedRing T]

/-- The form of `A` is symmetric and positive semidefinite. -/
structure FormOk (n : Int) (A : Int → Int → T) : Prop where
  symm : ∀ x y, dotV n x (mulVec n A y) = dotV n (mulVec n A x) y
  nonneg : ∀ x, 0 ≤ dotV n x (mulVec n A x)

theorem disc_le {p q r : T} (h : ∀ a b : T, 0 ≤ a * a * p + 2 * (a * b) * q + b * b * r) : q * q ≤ p * r := by
  have hr : 0 ≤ r := by have := h 0 1; simpa using this
  rcases hr.eq_or_lt with hr | hr
  · rcases eq_or_ne q 0 with hq | hq
    · rw [hq, ← hr]; simp
    · have := h 1 (-(p + 1) / (2 * q))
      rw [← hr] at this
      have e : (1 : T) * 1 * p + 2 * (1 * (-(p + 1) / (2 * q))) * q + -(p + 1) / (2 * q) * (-(p + 1) / (2 * q)) * 0 = -1 := by
        field_simp
        ring
      rw [e] at this
      exact absurd this (by norm_num)
  · have := h r (-q)
    have e : r * r * p + 2 * (r * -q) * q + -q * -q * r = r * (p * r - q * q) := by ring
    rw [e] at this
    have := nonneg_of_mul_nonneg_right this hr
    linarith

theorem FormOk.cauchy {n : Int} {A : Int → Int → T} (h : FormOk n A) (x y : Int → T) :
    dotV n x (mulVec n A y) * dotV n x (mulVec n A y) ≤ dotV n x (mulVec n A x) * dotV n y (mulVec n A y) := by
  refine disc_le fun a b => ?_
  have e1 : ∀ i, mulVec n A (fun i => a * x i + b * y i) i = a * mulVec n A x i + b * mulVec n A y i := by
    intro i
    unfold mulVec
    rw [Finset.mul_sum, Finset.mul_sum, ← Finset.sum_add_distrib]
    exact Finset.sum_congr rfl fun j _ => by ring
  have e2 : dotV n y (mulVec n A x) = dotV n x (mulVec n A y) := by rw [h.symm, dotV_comm]
  have e3 : dotV n (fun i => a * x i + b * y i) (mulVec n A (fun i => a * x i + b * y i)) =
      a * a * dotV n x (mulVec n A x) + a * b * dotV n x (mulVec n A y) + a * b * dotV n y (mulVec n A x) + b * b * dotV n y (mulVec n A y) := by
    unfold dotV
    simp only [e1, Finset.mul_sum, ← Finset.sum_add_distrib]
    exact Finset.sum_congr rfl fun i _ => by ring
  have := h.nonneg (fun i => a * x i + b * y i)
  rw [e3, e2] at this
  linarith

theorem formOk_of_posDef {n : Int} {A : Int → Int → T} (hsym : ∀ i j, InR n n i j → A i j = A j i) (hpd : PosDefU n A) : FormOk n A where
  symm := dotV_symm hsym
  nonneg z := by
    rw [← quadU_dot hsym]
    by_cases h : ∃ i, 0 ≤ i ∧ i < n ∧ z i ≠ 0
    · exact (hpd z h).le
    · push Not at h
      rw [quadU_dot hsym]
      refine le_of_eq (Eq.symm (Finset.sum_eq_zero fun i hi => ?_))
      have := Finset.mem_range.1 hi
      rw [h i (by omega) (by omega), zero_mul]

theorem FormOk.inv {n : Int} {A X : Int → Int → T} (h : FormOk n A)
    (hX : ∀ i j, InR n n i j → prodEntry n A X i j = if i = j then 1 else 0) : FormOk n X where
  symm x y := by
    have h1 : dotV n (mulVec n A (mulVec n X x)) (mulVec n X y) = dotV n x (mulVec n X y) := dotV_congr (fun i h0 hi => mulVec_inv hX x h0 hi) (fun _ _ _ => rfl)
    have h2 : dotV n (mulVec n X x) (mulVec n A (mulVec n X y)) = dotV n (mulVec n X x) y := dotV_congr (fun _ _ _ => rfl) (fun i h0 hi => mulVec_inv hX y h0 hi)
    rw [← h1, ← h2, h.symm]
  nonneg x := by
    have h1 : dotV n (mulVec n A (mulVec n X x)) (mulVec n X x) = dotV n x (mulVec n X x) := dotV_congr (fun i h0 hi => mulVec_inv hX x h0 hi) (fun _ _ _ => rfl)
    rw [← h1, ← h.symm]
    exact h.nonneg _

/-- The moments. -/
def moment (n : Int) (A : Int → Int → T) (x : Int → T) (j : Nat) : T := dotV n x (powVec n A x j)

omit [LinearOrder T] [IsStrictOrderedRing T] in
theorem dotV_pow {n : Int} {A : Int → Int → T} (h : ∀ x y, dotV n x (mulVec n A y) = dotV n (mulVec n A x) y) (x y : Int → T) (i j : Nat) :
    dotV n (powVec n A x i) (powVec n A y j) = dotV n x (powVec n A y (i + j)) := by
  induction i generalizing j with
  | zero => rw [Nat.zero_add]; rfl
  | succ i ih =>
    rw [show i + 1 + j = i + (j + 1) by omega, ← ih]
    exact (h _ _).symm

theorem moment_even {n : Int} {A : Int → Int → T} (h : FormOk n A) (x : Int → T) (i : Nat) :
    dotV n (powVec n A x i) (powVec n A x i) = moment n A x (2 * i) := by
  rw [dotV_pow h.symm, moment, two_mul]

theorem moment_odd {n : Int} {A : Int → Int → T} (h : FormOk n A) (x : Int → T) (i : Nat) :
    dotV n (powVec n A x i) (mulVec n A (powVec n A x i)) = moment n A x (2 * i + 1) := by
  have := dotV_pow h.symm x x i (i + 1)
  rw [show i + (i + 1) = 2 * i + 1 by omega] at this
  exact this

theorem moment_convex {n : Int} {A : Int → Int → T} (h : FormOk n A) (x : Int → T) (j : Nat) :
    moment n A x (j + 1) * moment n A x (j + 1) ≤ moment n A x j * moment n A x (j + 2) := by
  rcases Nat.even_or_odd' j with ⟨i, rfl | rfl⟩
  · have := dotV_cauchy n (powVec n A x i) (powVec n A x (i + 1))
    rw [moment_even h, moment_even h] at this
    have e : dotV n (powVec n A x i) (powVec n A x (i + 1)) = moment n A x (2 * i + 1) := moment_odd h x i
    rw [e, show 2 * (i + 1) = 2 * i + 2 by omega] at this
    exact this
  · have := h.cauchy (powVec n A x i) (powVec n A x (i + 1))
    rw [moment_odd h, moment_odd h] at this
    have e : dotV n (powVec n A x i) (mulVec n A (powVec n A x (i + 1))) = moment n A x (2 * i + 2) := by
      have := dotV_pow h.symm x x i (i + 2)
      rw [show i + (i + 2) = 2 * i + 2 by omega] at this
      exact this
    rw [e, show 2 * (i + 1) + 1 = 2 * i + 1 + 2 by omega] at this
    exact this

/-- A log-convex positive sequence grows at most like its last ratio. -/
theorem logConvex_growth {μ : Nat → T} (hpos : ∀ j, 0 < μ j) (hc : ∀ j, μ (j + 1) * μ (j + 1) ≤ μ j * μ (j + 2)) {m : Nat} {r : T} (hr : r * μ m = μ (m + 1)) :
    μ (m + 1) ≤ r ^ (m + 1) * μ 0 := by
  induction m generalizing r with
  | zero => rw [← hr]; simp
  | succ m ih =>
    have hr0 : 0 < r := by
      by_contra h
      have := mul_nonpos_of_nonpos_of_nonneg (not_lt.1 h) (hpos (m + 1)).le
      rw [hr] at this
      exact absurd (hpos _) (not_lt.2 this)
    have h1 := ih (r := μ (m + 1) / μ m) (by rw [div_mul_cancel₀ _ (hpos m).ne'])
    have h2 : μ (m + 1) / μ m ≤ r := by
      rw [div_le_iff₀ (hpos m)]
      refine le_of_mul_le_mul_right ?_ (hpos (m + 1))
      calc μ (m + 1) * μ (m + 1) ≤ μ m * μ (m + 2) := hc m
        _ = r * μ m * μ (m + 1) := by rw [← hr]; ring
    have h3 : (0 : T) ≤ μ (m + 1) / μ m := (div_pos (hpos _) (hpos _)).le
    calc μ (m + 1 + 1) = r * μ (m + 1) := hr.symm
      _ ≤ r * ((μ (m + 1) / μ m) ^ (m + 1) * μ 0) := mul_le_mul_of_nonneg_left h1 hr0.le
      _ ≤ r * (r ^ (m + 1) * μ 0) := mul_le_mul_of_nonneg_left (mul_le_mul_of_nonneg_right (pow_le_pow_left₀ h3 h2 _) (hpos 0).le) hr0.le
      _ = r ^ (m + 1 + 1) * μ 0 := by ring

omit [LinearOrder T] [IsStrictOrderedRing T] in
theorem powVec_eig {n : Int} {A : Int → Int → T} {u : Int → T} {lam : T} (hu : ∀ i, 0 ≤ i → i < n → mulVec n A u i = lam * u i) (k : Nat) :
    ∀ i, 0 ≤ i → i < n → powVec n A u k i = lam ^ k * u i := by
  induction k with
  | zero => intro i _ _; simp [powVec]
  | succ k ih =>
    intro i h0 hi
    have : powVec n A u (k + 1) i = mulVec n A (fun j => lam ^ k * u j) i := by
      show mulVec n A (powVec n A u k) i = _
      unfold mulVec
      refine Finset.sum_congr rfl fun j hj => ?_
      have := Finset.mem_range.1 hj
      rw [ih j (by omega) (by omega)]
    rw [this, mulVec_smul, hu i h0 hi]
    ring

theorem dotV_smul_right (n : Int) (a : T) (x y : Int → T) : dotV n x (fun i => a * y i) = a * dotV n x y := by
  have := dotV_smul n 1 a x y
  simp only [one_mul] at this
  exact this

/-- The Rayleigh quotient of `A^k x` compared with any eigenvalue: `lam^(2k+1) <x,u>^2 <= est^(2k+1) |x|^2 |u|^2`. -/
theorem power_growth {n : Int} {A : Int → Int → T} (h : FormOk n A) {x u : Int → T} {lam est : T} {k : Nat}
    (hnz : ∀ k, ∃ i, 0 ≤ i ∧ i < n ∧ powVec n A x k i ≠ 0) (hlam : 0 < lam) (hu : ∀ i, 0 ≤ i → i < n → mulVec n A u i = lam * u i)
    (hest : est * dotV n (powVec n A x k) (powVec n A x k) = dotV n (powVec n A x k) (powVec n A x (k + 1))) :
    lam ^ (2 * k + 1) * (dotV n x u * dotV n x u) ≤ est ^ (2 * k + 1) * (dotV n x x * dotV n u u) := by
  have hev : ∀ i, 0 < moment n A x (2 * i) := fun i => by
    rw [← moment_even h]
    exact dotV_pos (hnz i)
  have hpos : ∀ j, 0 < moment n A x j := by
    intro j
    rcases Nat.even_or_odd' j with ⟨i, rfl | rfl⟩
    · exact hev i
    · have h1 := moment_convex h x (2 * i + 1)
      have h2 := hev (i + 1)
      have h3 : 0 ≤ moment n A x (2 * i + 1) := by rw [← moment_odd h]; exact h.nonneg _
      rcases h3.eq_or_lt with h4 | h4
      · rw [← h4, zero_mul] at h1
        exact absurd (mul_pos h2 h2) (not_lt.2 h1)
      · exact h4
  have hr : est * moment n A x (2 * k) = moment n A x (2 * k + 1) := by
    rw [← moment_even h, hest, ← moment_odd h]; rfl
  have h1 := logConvex_growth hpos (moment_convex h x) hr
  have h0 : moment n A x 0 = dotV n x x := rfl
  rw [h0] at h1
  -- the eigenvector
  have h2 := h.cauchy (powVec n A x k) (powVec n A u k)
  have e1 : dotV n (powVec n A x k) (mulVec n A (powVec n A u k)) = lam ^ (2 * k + 1) * dotV n x u := by
    have e := dotV_pow h.symm x u k (k + 1)
    rw [show k + (k + 1) = 2 * k + 1 by omega] at e
    rw [← dotV_smul_right]
    exact e.trans (dotV_congr (fun _ _ _ => rfl) (powVec_eig hu _))
  have e2 : dotV n (powVec n A u k) (mulVec n A (powVec n A u k)) = lam ^ (2 * k + 1) * dotV n u u := by
    have e := dotV_pow h.symm u u k (k + 1)
    rw [show k + (k + 1) = 2 * k + 1 by omega] at e
    rw [← dotV_smul_right]
    exact e.trans (dotV_congr (fun _ _ _ => rfl) (powVec_eig hu _))
  rw [e1, e2, moment_odd h] at h2
  have hl : 0 < lam ^ (2 * k + 1) := pow_pos hlam _
  have h3 : lam ^ (2 * k + 1) * (dotV n x u * dotV n x u) ≤ moment n A x (2 * k + 1) * dotV n u u := by
    refine le_of_mul_le_mul_left ?_ hl
    calc _ = lam ^ (2 * k + 1) * dotV n x u * (lam ^ (2 * k + 1) * dotV n x u) := by ring
      _ ≤ _ := h2
      _ = _ := by ring
  calc _ ≤ _ := h3
    _ ≤ est ^ (2 * k + 1) * dotV n x x * dotV n u u := mul_le_mul_of_nonneg_right h1 (dotV_nonneg n u)
    _ = _ := by ring

end RB
