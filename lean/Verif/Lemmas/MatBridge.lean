import Verif.Lemmas.ExMath
import Mathlib.Data.Matrix.Mul
import Mathlib.LinearAlgebra.Matrix.NonsingularInverse

/-! # Matrices as functions on integers and as Mathlib matrices -/

namespace RB
open Spec

variable {T : Type}

/-- The m x n matrix with the given entries. -/
def asM (m n : Int) (A : Int → Int → T) : Matrix (Fin m.toNat) (Fin n.toNat) T := Matrix.of fun i j => A (i : Nat) (j : Nat)

/-- The entries of a matrix (0 outside). -/
def ofM [Zero T] {m n : Int} (X : Matrix (Fin m.toNat) (Fin n.toNat) T) : Int → Int → T := fun i j =>
  if h : i.toNat < m.toNat ∧ j.toNat < n.toNat then X ⟨i.toNat, h.1⟩ ⟨j.toNat, h.2⟩ else 0

theorem asM_ofM [Zero T] {m n : Int} (X : Matrix (Fin m.toNat) (Fin n.toNat) T) : asM m n (ofM X) = X := by
  ext i j
  simp only [asM, Matrix.of_apply, ofM, Int.toNat_natCast]
  rw [dif_pos ⟨i.2, j.2⟩]

theorem asM_eq {m n : Int} {A B : Int → Int → T} : asM m n A = asM m n B ↔ ∀ i j, InR m n i j → A i j = B i j := by
  constructor
  · rintro h i j ⟨h1, h2, h3, h4⟩
    have := congrFun (congrFun h ⟨i.toNat, by omega⟩) ⟨j.toNat, by omega⟩
    simpa [asM, Int.toNat_of_nonneg h1, Int.toNat_of_nonneg h3] using this
  · intro h
    ext i j
    exact h _ _ ⟨by omega, by have := i.2; omega, by omega, by have := j.2; omega⟩

theorem asM_congr {m n : Int} {A B : Int → Int → T} (h : ∀ i j, InR m n i j → A i j = B i j) : asM m n A = asM m n B := asM_eq.2 h

theorem asM_T {m n : Int} (A : Int → Int → T) : asM n m (fun i j => A j i) = (asM m n A).transpose := rfl

theorem asM_mul [NonUnitalNonAssocSemiring T] (m k n : Int) (A B : Int → Int → T) : asM m n (prodEntry k A B) = asM m k A * asM k n B := by
  ext i j
  simp only [asM, Matrix.of_apply, Matrix.mul_apply, prodEntry]
  exact (Fin.sum_univ_eq_sum_range (fun l => A (i : Nat) (l : Nat) * B (l : Nat) (j : Nat)) k.toNat).symm

theorem ortho_asM [NonAssocSemiring T] {m n : Int} {Q : Int → Int → T} : OrthoCols m n Q ↔ (asM m n Q).transpose * asM m n Q = 1 := by
  rw [← asM_T, ← asM_mul, show (1 : Matrix (Fin n.toNat) (Fin n.toNat) T) = asM n n (fun i j => if i = j then 1 else 0) by
    ext i j; simp [asM, Matrix.one_apply, Fin.ext_iff], asM_eq]
  rfl

end RB
