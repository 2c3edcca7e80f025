import Mathlib.Algebra.Order.BigOperators.Ring.Finset
import Mathlib.Data.Fintype.Sum
import Mathlib.Data.Real.Basic
import Mathlib.Tactic.Linarith
import Mathlib.Tactic.Ring

/-!
# Fourth moments of sums of variables whose signs can be changed one at a time
-/

namespace RB
open Finset

theorem sum_flip_zero {Ω : Type} [Fintype Ω] {Φ : Ω → Ω} (hinv : Function.Involutive Φ) {f : Ω → ℝ} (h : ∀ ω, f (Φ ω) = -f ω) : ∑ ω, f ω = 0 := by
  have e1 := Equiv.sum_comp (hinv.toPerm Φ) f
  have e2 : ∀ ω, f (hinv.toPerm Φ ω) = -f ω := h
  simp only [e2, sum_neg_distrib] at e1
  linarith

/-- `∑ (Σ_j e_j x_j)² y` for a weight `y` that does not depend on the signs of the `e_j`. -/
theorem sum_sq_weight {Ω : Type} [Fintype Ω] {n : Nat} (e : Nat → Ω → ℝ) (Φ : Nat → Ω → Ω) (hinv : ∀ j < n, Function.Involutive (Φ j))
    (hneg : ∀ j < n, ∀ ω, e j (Φ j ω) = -e j ω) (hkeep : ∀ j < n, ∀ l < n, l ≠ j → ∀ ω, e l (Φ j ω) = e l ω) (y : Ω → ℝ)
    (hy : ∀ j < n, ∀ ω, y (Φ j ω) = y ω) (x : Nat → ℝ) :
    ∑ ω, (∑ j ∈ range n, e j ω * x j) ^ 2 * y ω = ∑ j ∈ range n, x j ^ 2 * ∑ ω, e j ω ^ 2 * y ω := by
  induction n with
  | zero => simp
  | succ n ih =>
    have ih' := ih (fun j hj => hinv j (by omega)) (fun j hj => hneg j (by omega)) (fun j hj l hl => hkeep j (by omega) l (by omega)) (fun j hj => hy j (by omega))
    have hX : ∀ ω, ∑ j ∈ range n, e j (Φ n ω) * x j = ∑ j ∈ range n, e j ω * x j := fun ω =>
      sum_congr rfl fun j hj => by rw [hkeep n (by omega) j (by have := mem_range.mp hj; omega) (by have := mem_range.mp hj; omega)]
    have hz : ∑ ω, (∑ j ∈ range n, e j ω * x j) * e n ω * y ω = 0 :=
      sum_flip_zero (hinv n (by omega)) fun ω => by rw [hX, hneg n (by omega), hy n (by omega)]; ring
    rw [sum_range_succ, ← ih', mul_sum]
    have hexp : ∀ ω, (∑ j ∈ range (n + 1), e j ω * x j) ^ 2 * y ω = (∑ j ∈ range n, e j ω * x j) ^ 2 * y ω +
        2 * x n * ((∑ j ∈ range n, e j ω * x j) * e n ω * y ω) + x n ^ 2 * (e n ω ^ 2 * y ω) := by
      intro ω; rw [sum_range_succ]; ring
    simp only [hexp, sum_add_distrib, ← mul_sum, hz]
    ring

/-- Bound of the fourth moment of `Σ_j e_j x_j`. -/
theorem sum_four_le {Ω : Type} [Fintype Ω] {n : Nat} (e : Nat → Ω → ℝ) (Φ : Nat → Ω → Ω) (hinv : ∀ j < n, Function.Involutive (Φ j))
    (hneg : ∀ j < n, ∀ ω, e j (Φ j ω) = -e j ω) (hkeep : ∀ j < n, ∀ l < n, l ≠ j → ∀ ω, e l (Φ j ω) = e l ω) {w : ℝ}
    (h2 : ∀ j < n, ∀ l < n, l ≠ j → ∑ ω, e j ω ^ 2 * e l ω ^ 2 ≤ w) (h4 : ∀ j < n, ∑ ω, e j ω ^ 4 ≤ 3 * w) (x : Nat → ℝ) :
    ∑ ω, (∑ j ∈ range n, e j ω * x j) ^ 4 ≤ 3 * w * (∑ j ∈ range n, x j ^ 2) ^ 2 := by
  induction n with
  | zero => simp
  | succ n ih =>
    have ih' := ih (fun j hj => hinv j (by omega)) (fun j hj => hneg j (by omega)) (fun j hj l hl => hkeep j (by omega) l (by omega))
      (fun j hj l hl => h2 j (by omega) l (by omega)) (fun j hj => h4 j (by omega))
    have hX : ∀ ω, ∑ j ∈ range n, e j (Φ n ω) * x j = ∑ j ∈ range n, e j ω * x j := fun ω =>
      sum_congr rfl fun j hj => by rw [hkeep n (by omega) j (by have := mem_range.mp hj; omega) (by have := mem_range.mp hj; omega)]
    have hz3 : ∑ ω, (∑ j ∈ range n, e j ω * x j) ^ 3 * e n ω = 0 :=
      sum_flip_zero (hinv n (by omega)) fun ω => by rw [hX, hneg n (by omega)]; ring
    have hz1 : ∑ ω, (∑ j ∈ range n, e j ω * x j) * e n ω ^ 3 = 0 :=
      sum_flip_zero (hinv n (by omega)) fun ω => by rw [hX, hneg n (by omega)]; ring
    have hw := sum_sq_weight (n := n) e Φ (fun j hj => hinv j (by omega)) (fun j hj => hneg j (by omega)) (fun j hj l hl => hkeep j (by omega) l (by omega))
      (fun ω => e n ω ^ 2) (fun j hj ω => by rw [hkeep j (by omega) n (by omega) (by omega)]) x
    have hw' : ∑ ω, (∑ j ∈ range n, e j ω * x j) ^ 2 * e n ω ^ 2 ≤ w * ∑ j ∈ range n, x j ^ 2 := by
      rw [hw, mul_sum]
      refine sum_le_sum fun j hj => ?_
      have hj' := mem_range.mp hj
      rw [mul_comm w]
      exact mul_le_mul_of_nonneg_left (h2 j (by omega) n (by omega) (by omega)) (sq_nonneg _)
    have hexp : ∀ ω, (∑ j ∈ range (n + 1), e j ω * x j) ^ 4 = (∑ j ∈ range n, e j ω * x j) ^ 4 +
        4 * x n * ((∑ j ∈ range n, e j ω * x j) ^ 3 * e n ω) + 6 * x n ^ 2 * ((∑ j ∈ range n, e j ω * x j) ^ 2 * e n ω ^ 2) +
        4 * x n ^ 3 * ((∑ j ∈ range n, e j ω * x j) * e n ω ^ 3) + x n ^ 4 * e n ω ^ 4 := by
      intro ω; rw [sum_range_succ]; ring
    simp only [hexp, sum_add_distrib, ← mul_sum, hz3, hz1]
    rw [sum_range_succ]
    have a := mul_le_mul_of_nonneg_left hw' (show 0 ≤ 6 * x n ^ 2 by positivity)
    have b := mul_le_mul_of_nonneg_left (h4 n (by omega)) (show 0 ≤ x n ^ 4 by positivity)
    have : 3 * w * (∑ j ∈ range n, x j ^ 2 + x n ^ 2) ^ 2 = 3 * w * (∑ j ∈ range n, x j ^ 2) ^ 2 + 6 * x n ^ 2 * (w * ∑ j ∈ range n, x j ^ 2) +
      x n ^ 4 * (3 * w) := by ring
    linarith

/-- Bound of the second moment of `Σ_i (Σ_j e_ij x_j)²`. -/
theorem sum_quad_le {Ω : Type} [Fintype Ω] {d n : Nat} (e : Nat → Nat → Ω → ℝ) (Φ : Nat → Nat → Ω → Ω)
    (hinv : ∀ i < d, ∀ j < n, Function.Involutive (Φ i j)) (hneg : ∀ i < d, ∀ j < n, ∀ ω, e i j (Φ i j ω) = -e i j ω)
    (hkeep : ∀ i < d, ∀ j < n, ∀ k < d, ∀ l < n, (k, l) ≠ (i, j) → ∀ ω, e k l (Φ i j ω) = e k l ω) {w : ℝ}
    (h2 : ∀ i < d, ∀ j < n, ∀ k < d, ∀ l < n, (k, l) ≠ (i, j) → ∑ ω, e i j ω ^ 2 * e k l ω ^ 2 ≤ w) (h4 : ∀ i < d, ∀ j < n, ∑ ω, e i j ω ^ 4 ≤ 3 * w)
    (x : Nat → ℝ) : ∑ ω, (∑ i ∈ range d, (∑ j ∈ range n, e i j ω * x j) ^ 2) ^ 2 ≤ (d ^ 2 + 2 * d) * w * (∑ j ∈ range n, x j ^ 2) ^ 2 := by
  have hterm : ∀ i ∈ range d, ∀ k ∈ range d, ∑ ω, (∑ j ∈ range n, e i j ω * x j) ^ 2 * (∑ j ∈ range n, e k j ω * x j) ^ 2 ≤
      w * (∑ j ∈ range n, x j ^ 2) ^ 2 + if i = k then 2 * w * (∑ j ∈ range n, x j ^ 2) ^ 2 else 0 := by
    intro i hi k hk
    have hi' := mem_range.mp hi
    have hk' := mem_range.mp hk
    split_ifs with h
    · subst h
      have := sum_four_le (n := n) (fun j => e i j) (fun j => Φ i j) (hinv i hi') (hneg i hi')
        (fun j hj l hl hlj => hkeep i hi' j hj i hi' l hl (by simpa using hlj)) (fun j hj l hl hlj => h2 i hi' j hj i hi' l hl (by simpa using hlj))
        (h4 i hi') x
      have e2 : ∀ ω, (∑ j ∈ range n, e i j ω * x j) ^ 2 * (∑ j ∈ range n, e i j ω * x j) ^ 2 = (∑ j ∈ range n, e i j ω * x j) ^ 4 := fun ω => by ring
      simp only [e2]
      linarith
    · rw [add_zero]
      rw [sum_sq_weight (n := n) (fun j => e i j) (fun j => Φ i j) (hinv i hi') (hneg i hi')
        (fun j hj l hl hlj => hkeep i hi' j hj i hi' l hl (by simpa using hlj)) (fun ω => (∑ j ∈ range n, e k j ω * x j) ^ 2) (fun j hj ω => by
          congr 1
          exact sum_congr rfl fun l hl => by rw [hkeep i hi' j hj k hk' l (mem_range.mp hl) (by simp; omega)]) x]
      rw [sq (∑ j ∈ range n, x j ^ 2), ← mul_assoc, mul_comm w, mul_assoc, sum_mul]
      refine sum_le_sum fun j hj => mul_le_mul_of_nonneg_left ?_ (sq_nonneg _)
      have hj' := mem_range.mp hj
      have := sum_sq_weight (n := n) (fun l => e k l) (fun l => Φ k l) (hinv k hk') (hneg k hk')
        (fun j hj l hl hlj => hkeep k hk' j hj k hk' l hl (by simpa using hlj)) (fun ω => e i j ω ^ 2) (fun l hl ω => by
          rw [hkeep k hk' l hl i hi' j hj' (by simp; omega)]) x
      simp only [mul_comm (e i j _ ^ 2)]
      rw [this, mul_sum]
      refine sum_le_sum fun l hl => ?_
      rw [mul_comm w]
      refine mul_le_mul_of_nonneg_left ?_ (sq_nonneg _)
      exact h2 k hk' l (mem_range.mp hl) i hi' j hj' (by simp; omega)
  have hexp : ∀ ω, (∑ i ∈ range d, (∑ j ∈ range n, e i j ω * x j) ^ 2) ^ 2 =
      ∑ i ∈ range d, ∑ k ∈ range d, (∑ j ∈ range n, e i j ω * x j) ^ 2 * (∑ j ∈ range n, e k j ω * x j) ^ 2 := fun ω => by rw [sq, sum_mul_sum]
  simp only [hexp]
  rw [sum_comm]
  have : ∀ i ∈ range d, ∑ ω, ∑ k ∈ range d, (∑ j ∈ range n, e i j ω * x j) ^ 2 * (∑ j ∈ range n, e k j ω * x j) ^ 2 ≤
      (d * w + 2 * w) * (∑ j ∈ range n, x j ^ 2) ^ 2 := by
    intro i hi
    rw [sum_comm]
    refine (sum_le_sum fun k hk => hterm i hi k hk).trans ?_
    rw [sum_add_distrib, sum_const, card_range, nsmul_eq_mul, sum_ite_eq (range d) i (fun _ => _), if_pos hi]
    exact le_of_eq (by ring)
  refine (sum_le_sum this).trans ?_
  rw [sum_const, card_range, nsmul_eq_mul]
  exact le_of_eq (by ring)

end RB
