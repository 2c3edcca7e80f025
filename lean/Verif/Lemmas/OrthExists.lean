import Verif.Lemmas.MatBridge
import Verif.Spec.Examples
import Mathlib.Analysis.InnerProductSpace.GramSchmidtOrtho

/-! # Over the real numbers there is a routine that orthonormalises every m x n matrix with n ≤ m

Used to show that the hypotheses of the theorems about the examples can be met. -/

namespace RB
open Spec

theorem exists_qr {m n : Int} (hnm : n ≤ m) (F : Int → Int → ℝ) :
    ∃ Q : Int → Int → ℝ, OrthoCols m n Q ∧ ∃ R : Int → Int → ℝ, (∀ i j, InR m n i j → prodEntry n Q R i j = F i j) ∧
      ∀ i j, InR n n i j → j < i → R i j = 0 := by
  let f : Fin m.toNat → EuclideanSpace ℝ (Fin m.toNat) := fun j => WithLp.toLp 2 fun i => if (j : Nat) < n.toNat then F (i : Nat) (j : Nat) else 0
  have hd : Module.finrank ℝ (EuclideanSpace ℝ (Fin m.toNat)) = Fintype.card (Fin m.toNat) := by simp
  let b := InnerProductSpace.gramSchmidtOrthonormalBasis hd f
  have hle : n.toNat ≤ m.toNat := by omega
  let Q : Matrix (Fin m.toNat) (Fin n.toNat) ℝ := Matrix.of fun i j => b (Fin.castLE hle j) i
  let R : Matrix (Fin n.toNat) (Fin n.toNat) ℝ := Matrix.of fun i j => inner ℝ (b (Fin.castLE hle i)) (f (Fin.castLE hle j))
  have hQ : Q.transpose * Q = 1 := by
    ext i j
    have := orthonormal_iff_ite.1 b.orthonormal (Fin.castLE hle i) (Fin.castLE hle j)
    simp only [PiLp.inner_apply, RCLike.inner_apply, conj_trivial] at this
    simp only [Matrix.mul_apply, Matrix.transpose_apply, Q, Matrix.of_apply, Matrix.one_apply]
    rw [show (∑ x, (b (Fin.castLE hle i)).ofLp x * (b (Fin.castLE hle j)).ofLp x) = ∑ x, (b (Fin.castLE hle j)).ofLp x * (b (Fin.castLE hle i)).ofLp x
      from Finset.sum_congr rfl fun x _ => mul_comm _ _, this]
    simp [Fin.ext_iff]
  have hQR : Q * R = asM m n F := by
    ext i j
    have h1 := b.sum_repr' (f (Fin.castLE hle j))
    have h2 := congrArg (fun v : EuclideanSpace ℝ (Fin m.toNat) => v.ofLp i) h1
    have h3 : (f (Fin.castLE hle j)).ofLp i = asM m n F i j := by
      simp only [f, asM, Matrix.of_apply, Fin.val_castLE]
      rw [if_pos j.2]
    rw [← h3, ← h2]
    simp only [Matrix.mul_apply, Q, R, Matrix.of_apply, WithLp.ofLp_sum, Finset.sum_apply, PiLp.smul_apply, smul_eq_mul]
    have h4 : ∀ l : Fin m.toNat, ¬ (l : Nat) < n.toNat → inner ℝ (b l) (f (Fin.castLE hle j)) = 0 := fun l hl =>
      InnerProductSpace.gramSchmidtOrthonormalBasis_inv_triangular hd f (by
        rw [Fin.lt_def]; have := j.2; simp only [Fin.val_castLE]; omega)
    symm
    rw [← Finset.sum_subset (Finset.subset_univ (Finset.univ.map (Fin.castLEEmb hle)))]
    · rw [Finset.sum_map]
      exact Finset.sum_congr rfl fun x _ => mul_comm _ _
    · intro l _ hl
      rw [h4 l (fun h => hl (by
        rw [Finset.mem_map]; exact ⟨⟨l, h⟩, Finset.mem_univ _, rfl⟩)), zero_mul]
  refine ⟨ofM Q, ortho_asM.2 (by rw [asM_ofM]; exact hQ), ofM R, ?_, ?_⟩
  · rw [← asM_eq, asM_mul m n n, asM_ofM, asM_ofM, hQR]
  · rintro i j ⟨h1, h2, h3, h4⟩ hji
    unfold ofM
    rw [dif_pos ⟨by omega, by omega⟩]
    exact InnerProductSpace.gramSchmidtOrthonormalBasis_inv_triangular hd f (by
      rw [Fin.lt_def]; simp only [Fin.val_castLE]; omega)

/-- There is a routine that works for all sizes n ≤ m. -/
theorem exists_orthFor : ∃ orth : Int → Int → (Int → Int → ℝ) → (Int → Int → ℝ), ∀ m n, n ≤ m → OrthFor orth m n := by
  classical
  refine ⟨fun m n F => if h : n ≤ m then (exists_qr h F).choose else fun _ _ => 0, fun m n h F => ?_⟩
  simp only [dif_pos h]
  obtain ⟨h1, R, h2, -⟩ := (exists_qr h F).choose_spec
  exact ⟨h1, R, h2⟩

end RB
