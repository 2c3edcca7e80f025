import Verif.Lemmas.MatBridge
import Verif.Spec.Examples
import Mathlib.Analysis.Matrix.Spectrum
import Mathlib.Data.Fin.Tuple.Sort

/-! # Every real matrix has a singular value decomposition

It shows that the assumption of the theorems about the example programs, that the routine of LAPACK computes a decomposition of every matrix it is given, can be met. -/

namespace RB
open Spec Matrix

theorem exists_svd_tall {m n : Nat} (hnm : n ≤ m) (A : Matrix (Fin m) (Fin n) ℝ) : ∃ (U : Matrix (Fin m) (Fin n) ℝ) (s : Fin n → ℝ) (V : Matrix (Fin n) (Fin n) ℝ),
    U.transpose * U = 1 ∧ V.transpose * V = 1 ∧ (∀ j, 0 ≤ s j) ∧ Antitone s ∧ A = U * diagonal s * V.transpose := by
  have hH : (A.transpose * A).IsHermitian := isHermitian_conjTranspose_mul_self A
  let σ := Tuple.sort fun i => - hH.eigenvalues i
  let v : Fin n → Fin n → ℝ := fun j l => hH.eigenvectorBasis (σ j) l
  let lam : Fin n → ℝ := fun j => hH.eigenvalues (σ j)
  have hanti : Antitone lam := fun i j hij => by
    have := Tuple.monotone_sort (fun i => - hH.eigenvalues i) hij
    simpa [lam, σ] using this
  have hv : ∀ i j, v i ⬝ᵥ v j = if i = j then 1 else 0 := fun i j => by
    have h := orthonormal_iff_ite.1 hH.eigenvectorBasis.orthonormal (σ i) (σ j)
    rw [EuclideanSpace.inner_eq_star_dotProduct] at h
    simp only [σ.injective.eq_iff] at h
    rw [← h, dotProduct_comm]
    rfl
  have heig : ∀ j, (A.transpose * A) *ᵥ v j = lam j • v j := fun j => hH.mulVec_eigenvectorBasis (σ j)
  have hw : ∀ i j, (A *ᵥ v i) ⬝ᵥ (A *ᵥ v j) = if i = j then lam j else 0 := fun i j => by
    rw [dotProduct_mulVec, ← mulVec_transpose, mulVec_mulVec, dotProduct_comm, heig i, dotProduct_smul, hv j i]
    by_cases h : i = j
    · subst h; simp
    · simp [h, Ne.symm h]
  have hlam : ∀ j, 0 ≤ lam j := fun j => by
    have := hw j j
    rw [if_pos rfl] at this
    rw [← this]
    exact Finset.sum_nonneg fun l _ => mul_self_nonneg _
  let u0 : Fin m → EuclideanSpace ℝ (Fin m) := fun i => if h : i.1 < n then WithLp.toLp 2 ((Real.sqrt (lam ⟨i, h⟩))⁻¹ • (A *ᵥ v ⟨i, h⟩)) else 0
  let S : Set (Fin m) := {i | ∃ h : i.1 < n, lam ⟨i, h⟩ ≠ 0}
  have hortho : Orthonormal ℝ (S.domRestrict u0) := by
    rw [orthonormal_iff_ite]
    rintro ⟨i, hi, hi'⟩ ⟨j, hj, hj'⟩
    simp only [Set.domRestrict, u0, dif_pos hi, dif_pos hj]
    rw [EuclideanSpace.inner_eq_star_dotProduct]
    simp only [star_trivial]
    rw [smul_dotProduct, dotProduct_smul, hw]
    by_cases h : i = j
    · subst h
      have h1 : 0 < lam ⟨i, hi⟩ := lt_of_le_of_ne (hlam _) (Ne.symm hi')
      have h2 := Real.mul_self_sqrt h1.le
      have h3 := Real.sqrt_pos.2 h1
      rw [if_pos rfl, if_pos rfl, smul_eq_mul, smul_eq_mul]
      field_simp
      nlinarith
    · rw [if_neg (by simpa [Fin.ext_iff] using fun e => h (Fin.ext e.symm)), if_neg (by simpa using h)]
      simp
  obtain ⟨b, hb⟩ := hortho.exists_orthonormalBasis_extension_of_card_eq (by simp)
  let e : Fin n → Fin m := Fin.castLE hnm
  have hAv : ∀ j, A *ᵥ v j = Real.sqrt (lam j) • (b (e j) : Fin m → ℝ) := fun j => by
    by_cases h : lam j = 0
    · rw [h, Real.sqrt_zero, zero_smul]
      have := hw j j
      rw [if_pos rfl, h] at this
      exact dotProduct_self_eq_zero.1 this
    · rw [hb (e j) ⟨j.2, h⟩]
      have h1 : 0 < lam j := lt_of_le_of_ne (hlam _) (Ne.symm h)
      have h3 := Real.sqrt_pos.2 h1
      have : u0 (e j) = WithLp.toLp 2 ((Real.sqrt (lam j))⁻¹ • (A *ᵥ v j)) := dif_pos j.2
      rw [this]
      show _ = Real.sqrt (lam j) • ((Real.sqrt (lam j))⁻¹ • (A *ᵥ v j))
      rw [smul_smul, mul_inv_cancel₀ h3.ne', one_smul]
  have hV : (Matrix.of v) * (Matrix.of v).transpose = 1 := by
    ext i j
    rw [mul_apply, one_apply]
    exact hv i j
  refine ⟨Matrix.of fun i j => b (e j) i, fun j => Real.sqrt (lam j), (Matrix.of v).transpose, ?_, by rw [transpose_transpose]; exact hV, fun j => Real.sqrt_nonneg _,
    fun i j hij => Real.sqrt_le_sqrt (hanti hij), ?_⟩
  · ext i j
    have h := orthonormal_iff_ite.1 b.orthonormal (e i) (e j)
    rw [EuclideanSpace.inner_eq_star_dotProduct, dotProduct_comm] at h
    rw [mul_apply, one_apply]
    have he : (e i = e j) ↔ i = j := (Fin.castLE_injective hnm).eq_iff
    simp only [he] at h
    exact h
  · have h1 : A * (Matrix.of v).transpose = (Matrix.of fun i j => b (e j) i) * diagonal fun j => Real.sqrt (lam j) := by
      ext i j
      rw [mul_diagonal, mul_apply]
      have := congrFun (hAv j) i
      simp only [Matrix.mulVec, dotProduct, Pi.smul_apply, smul_eq_mul] at this
      simp only [transpose_apply, of_apply]
      rw [this, mul_comm]
    rw [← h1, transpose_transpose, Matrix.mul_assoc, mul_eq_one_comm.1 hV, Matrix.mul_one]

theorem svdIs_tall {m n : Int} (h : n ≤ m) (A : Int → Int → ℝ) : ∃ F : Svd ℝ, SvdIs m n A F := by
  obtain ⟨U, s, V, h1, h2, h3, h4, h5⟩ := exists_svd_tall (Int.toNat_le_toNat h) (asM m n A)
  refine ⟨⟨ofM (m := m) (n := n) U, fun l => if h : l.toNat < n.toNat then s ⟨l.toNat, h⟩ else 0, ofM (m := n) (n := n) V.transpose⟩, ?_, ?_, ?_, ?_, ?_⟩
  · rw [min_eq_right h, ortho_asM, asM_ofM]
    exact h1
  · rw [min_eq_right h, ortho_asM, asM_T, asM_ofM, transpose_transpose]
    exact h2
  · intro l _ _
    dsimp only
    split
    · exact h3 _
    · exact le_rfl
  · rw [min_eq_right h]
    intro l h0 hl
    dsimp only
    rw [dif_pos (by omega), dif_pos (by omega)]
    exact h4 (by simp only [Fin.mk_le_mk]; omega)
  · rw [min_eq_right h, ← asM_eq, asM_mul, asM_ofM, h5]
    congr 1
    ext i j
    rw [mul_diagonal]
    have := congrFun (congrFun (asM_ofM (m := m) (n := n) U) i) j
    simp only [asM, Matrix.of_apply, Int.toNat_natCast] at this ⊢
    rw [this, dif_pos j.2]

/-- Every real matrix has a singular value decomposition. -/
theorem exists_svdIs (m n : Int) (A : Int → Int → ℝ) : ∃ F : Svd ℝ, SvdIs m n A F := by
  rcases le_total n m with h | h
  · exact svdIs_tall h A
  · obtain ⟨F, h1, h2, h3, h4, h5⟩ := svdIs_tall h fun i j => A j i
    rw [min_comm] at h1 h2 h3 h4 h5
    refine ⟨⟨fun i j => F.vt j i, F.s, fun i j => F.u j i⟩, h2, h1, h3, h4, fun i j ⟨a, b, c, d⟩ => ?_⟩
    rw [← h5 j i ⟨c, d, a, b⟩]
    exact Finset.sum_congr rfl fun l _ => by ring

/-- A routine that computes a singular value decomposition of every matrix. -/
theorem exists_svdFor : ∃ svd : Int → Int → (Int → Int → ℝ) → Svd ℝ, ∀ m n A, SvdFor svd m n A := by
  choose svd h using exists_svdIs
  refine ⟨svd, fun m n A F hF => ?_⟩
  obtain ⟨h1, h2, h3, h4, h5⟩ := h m n F
  exact ⟨h1, h2, h3, h4, fun i j hij => (h5 i j hij).trans (hF i j hij)⟩

end RB
