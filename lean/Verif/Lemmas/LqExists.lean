import Verif.Spec.Stab
import Verif.Lemmas.OrthExists
import Mathlib.Analysis.Real.Cardinality

/-! # Over the real numbers there are routines for LQ decompositions of all m x n matrices with m ≤ n

Used to show that the hypotheses of the theorems about the stabilisation can be met. -/

namespace RB
open Spec

open Cardinal in
theorem exists_encode : Nonempty ((Int → Int → ℝ) ≃ ℝ) := by
  rw [← Cardinal.eq]
  have h : #(Int → Int → ℝ) = #(Int × Int → ℝ) := Cardinal.mk_congr (Equiv.curry _ _ _).symm
  rw [h, ← Cardinal.power_def, Cardinal.mk_real, Cardinal.mk_eq_aleph0 (Int × Int), Cardinal.continuum_power_aleph0]

/-- The matrix Q is stored, encoded as a number, in the array for the scalar factors. -/
theorem exists_lqFor : ∃ L : RowLapack ℝ, ∀ m n, 1 ≤ m → m ≤ n → LqFor L m n := by
  classical
  obtain ⟨e⟩ := exists_encode
  have hqr : ∀ (m n : Int) (A : Int → Int → ℝ), ∃ (Q Lw : Int → Int → ℝ), m ≤ n → OrthoCols n m (fun i j => Q j i) ∧
      (∀ i j, InR m n i j → A i j = prodEntry m (fun i l => if l ≤ i then Lw i l else 0) Q i j) := by
    intro m n A
    by_cases h : m ≤ n
    · obtain ⟨Q, hQ, R, h1, h2⟩ := exists_qr h fun i j => A j i
      refine ⟨fun i j => Q j i, fun i j => R j i, fun _ => ⟨hQ, fun i j hij => ?_⟩⟩
      have := h1 j i ⟨hij.2.2.1, hij.2.2.2, hij.1, hij.2.1⟩
      rw [← this]
      unfold prodEntry
      refine Finset.sum_congr rfl fun l hl => ?_
      rw [Finset.mem_range] at hl
      dsimp only
      by_cases hle : (l : Int) ≤ i
      · rw [if_pos hle, mul_comm]
      · rw [if_neg hle, h2 l i ⟨by omega, by omega, hij.1, hij.2.1⟩ (by omega), mul_zero, zero_mul]
    · exact ⟨fun _ _ => 0, fun _ _ => 0, fun h' => absurd h' h⟩
  choose Q Lw hQ using hqr
  refine ⟨⟨fun _ _ A => (fun _ => 0, A), fun m n A => ⟨Lw m n A, fun _ => e (Q m n A)⟩, fun _ _ G => e.symm (G.tau 0)⟩, fun m n hm hmn A => ?_⟩
  obtain ⟨h1, h2⟩ := hQ m n A hmn
  refine ⟨Q m n A, h1, h2, fun G _ hG i j _ => ?_⟩
  dsimp only at hG ⊢
  rw [hG 0 le_rfl (by omega), e.symm_apply_apply]

end RB
