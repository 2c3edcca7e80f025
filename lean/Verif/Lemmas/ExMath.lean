import Verif.Lemmas.QrMath
import Verif.Spec.Examples
import Mathlib.LinearAlgebra.Matrix.NonsingularInverse
import Mathlib.Algebra.Order.BigOperators.Ring.Finset
import Mathlib.Algebra.BigOperators.Field

/-! # Linear algebra behind the programs in examples/ -/

namespace RB
open Spec

variable {T : Type}

section
variable [CommRing T]

/-- Orthonormal columns preserve inner products. -/
theorem ortho_norm {m n : Int} {U : Int → Int → T} (hU : OrthoCols m n U) (y : Int → T) :
    dotV m (fun i => ∑ l ∈ Finset.range n.toNat, U i l * y l) (fun i => ∑ l ∈ Finset.range n.toNat, U i l * y l) = dotV n y y := by
  let Y : Int → Int → T := fun k _ => y k
  change prodEntry m (fun r c => prodEntry n U Y c r) (prodEntry n U Y) 0 0 = prodEntry n (fun r c => Y c r) Y 0 0
  rw [prodEntry_ext (A' := prodEntry n (fun r c => Y c r) (fun r c => U c r)) (B' := prodEntry n U Y)
    (fun k _ _ => (prodEntry_trans n U Y k 0).symm) (fun _ _ _ => rfl), prodEntry_assoc]
  refine prodEntry_ext (fun _ _ _ => rfl) (fun k hk0 hk => ?_)
  rw [← prodEntry_assoc, prodEntry_ext (A' := fun r c => if r = c then 1 else 0) (B' := Y)
    (fun l hl0 hl => hU k l ⟨hk0, hk, hl0, hl⟩) (fun _ _ _ => rfl), prodEntry_one_left _ _ hk0 hk]

/-- A square matrix with orthonormal rows has orthonormal columns. -/
theorem ortho_square {n : Int} {V : Int → Int → T} (h : OrthoCols n n fun i j => V j i) : OrthoCols n n V := by
  let W : Matrix (Fin n.toNat) (Fin n.toNat) T := Matrix.of fun i j => V (i : Nat) (j : Nat)
  have hW : W * W.transpose = 1 := by
    ext i j
    have := h (i : Nat) (j : Nat) ⟨by omega, by have := i.2; omega, by omega, by have := j.2; omega⟩
    unfold prodEntry at this
    rw [Finset.sum_range] at this
    rw [Matrix.mul_apply, Matrix.one_apply]
    simp only [Matrix.transpose_apply, W, Matrix.of_apply]
    refine this.trans ?_
    simp [Fin.ext_iff]
  have hW' : W.transpose * W = 1 := mul_eq_one_comm.1 hW
  intro i j hij
  obtain ⟨h1, h2, h3, h4⟩ := hij
  obtain ⟨i, rfl⟩ := Int.eq_ofNat_of_zero_le h1
  obtain ⟨j, rfl⟩ := Int.eq_ofNat_of_zero_le h3
  have := congrFun (congrFun hW' ⟨i, by omega⟩) ⟨j, by omega⟩
  rw [Matrix.mul_apply, Matrix.one_apply] at this
  unfold prodEntry
  rw [Finset.sum_range]
  simpa [W, Fin.ext_iff] using this

end

section
variable [Field T] [LinearOrder T] [IsStrictOrderedRing T]

theorem sum_succ' {n : Int} (hn : 0 ≤ n) (f : Nat → T) :
    ∑ j ∈ Finset.range (n + 1).toNat, f j = ∑ j ∈ Finset.range n.toNat, f j + f n.toNat := by
  rw [show (n + 1).toNat = n.toNat + 1 by omega, Finset.sum_range_succ]

/-- The vector computed from the last right singular vector solves the total least squares problem. -/
theorem tls_math {m n : Int} (hn : 0 ≤ n) (hm : n + 1 ≤ m) {AB : Int → Int → T} {F : Svd T} (hF : SvdIs m (n + 1) AB F)
    (hs : F.vt n n ≠ 0) : IsTls m n AB (fun j => -F.vt n j / F.vt n n) := by
  obtain ⟨hU, hV, hnn, hsort, hprod⟩ := hF
  rw [min_eq_right hm] at hU hV hnn hsort hprod
  have hV' := ortho_square (V := F.vt) hV
  have hzn : ((n.toNat : Nat) : Int) = n := by omega
  -- the smallest singular value
  have hmin : ∀ l, 0 ≤ l → l ≤ n → F.s n ≤ F.s l := by
    intro l h0 hl
    obtain ⟨k, rfl⟩ : ∃ k : Nat, l = n - k := ⟨(n - l).toNat, by omega⟩
    clear hl
    induction k with
    | zero => simp
    | succ k ih =>
      refine (ih (by push_cast at h0; omega)).trans ?_
      have := hsort (n - (k + 1 : Nat)) h0 (by omega)
      rwa [show n - ((k + 1 : Nat) : Int) + 1 = n - k by push_cast; ring] at this
  -- AB z
  have hABz : ∀ (z : Int → T) i, 0 ≤ i → i < m → ∑ j ∈ Finset.range (n + 1).toNat, AB i j * z j =
      ∑ l ∈ Finset.range (n + 1).toNat, F.u i l * (F.s l * ∑ j ∈ Finset.range (n + 1).toNat, F.vt l j * z j) := by
    intro z i h0 hi
    have : ∑ j ∈ Finset.range (n + 1).toNat, AB i j * z j = prodEntry (n + 1) (prodEntry (n + 1) (fun i l => F.u i l * F.s l) F.vt) (fun j _ => z j) i 0 := by
      unfold prodEntry
      refine Finset.sum_congr rfl fun j hj => ?_
      have hj := Finset.mem_range.1 hj
      rw [← hprod i j ⟨h0, hi, by omega, by omega⟩, prodEntry]
    rw [this, prodEntry_assoc]
    unfold prodEntry
    exact Finset.sum_congr rfl fun l _ => by ring
  have hlast : ∑ j ∈ Finset.range (n + 1).toNat, F.vt n j * F.vt n j = 1 := by
    have := hV n n ⟨hn, by omega, hn, by omega⟩
    simpa [prodEntry] using this
  have hcol : ∑ i ∈ Finset.range m.toNat, F.u i n * F.u i n = 1 := by
    have := hU n n ⟨hn, by omega, hn, by omega⟩
    simpa [prodEntry] using this
  have hE : frobSq m (n + 1) (fun i j => -(F.u i n * F.s n * F.vt n j)) = F.s n * F.s n := by
    unfold frobSq
    have : ∀ i : Nat, i ∈ Finset.range m.toNat → ∑ j ∈ Finset.range (n + 1).toNat, -(F.u i n * F.s n * F.vt n j) * -(F.u i n * F.s n * F.vt n j) =
        F.s n * F.s n * (F.u i n * F.u i n) := by
      intro i _
      rw [← mul_one (F.s n * F.s n * (F.u i n * F.u i n)), ← hlast, Finset.mul_sum]
      exact Finset.sum_congr rfl fun j _ => by ring
    rw [Finset.sum_congr rfl this, ← Finset.mul_sum, hcol, mul_one]
  refine ⟨fun i j => -(F.u i n * F.s n * F.vt n j), ?_, ?_⟩
  · intro i h0 hi
    have h1 := hABz (fun j => F.vt n j) i h0 hi
    have h2 : ∀ l : Nat, l ∈ Finset.range (n + 1).toNat → F.u i l * (F.s l * ∑ j ∈ Finset.range (n + 1).toNat, F.vt l j * F.vt n j) =
        if l = n.toNat then F.u i n * F.s n else 0 := by
      intro l hl
      have hl := Finset.mem_range.1 hl
      have := hV l n ⟨by omega, by omega, hn, by omega⟩
      unfold prodEntry at this
      rw [this]
      by_cases he : l = n.toNat
      · rw [if_pos he, if_pos (by omega), he, hzn, mul_one]
      · rw [if_neg he, if_neg (by omega), mul_zero, mul_zero]
    rw [Finset.sum_congr rfl h2, Finset.sum_ite_eq', if_pos (Finset.mem_range.2 (by omega))] at h1
    have h3 : ∑ j ∈ Finset.range (n + 1).toNat, (AB i j + -(F.u i n * F.s n * F.vt n j)) * F.vt n j = 0 := by
      have : ∀ j : Nat, j ∈ Finset.range (n + 1).toNat → (AB i j + -(F.u i n * F.s n * F.vt n j)) * F.vt n j =
          AB i j * F.vt n j - F.u i n * F.s n * (F.vt n j * F.vt n j) := fun j _ => by ring
      rw [Finset.sum_congr rfl this, Finset.sum_sub_distrib, h1, ← Finset.mul_sum, hlast, mul_one, sub_self]
    rw [sum_succ' hn (fun j => (AB i j + -(F.u i n * F.s n * F.vt n j)) * F.vt n j)] at h3
    simp only [hzn] at h3
    have h4 : ∑ j ∈ Finset.range n.toNat, (AB i j + -(F.u i n * F.s n * F.vt n j)) * (-F.vt n j / F.vt n n) =
        -(∑ j ∈ Finset.range n.toNat, (AB i j + -(F.u i n * F.s n * F.vt n j)) * F.vt n j) / F.vt n n := by
      rw [← Finset.sum_neg_distrib, Finset.sum_div]
      exact Finset.sum_congr rfl fun j _ => by ring
    rw [h4, div_eq_iff hs, eq_neg_of_add_eq_zero_left h3, neg_neg]
  · intro E' x' hx
    rw [hE]
    let z : Int → T := fun j => if j < n then x' j else -1
    have hz : ∀ i, 0 ≤ i → i < m → ∑ j ∈ Finset.range (n + 1).toNat, AB i j * z j = - ∑ j ∈ Finset.range (n + 1).toNat, E' i j * z j := by
      intro i h0 hi
      have h1 := hx i h0 hi
      have h2 : ∑ j ∈ Finset.range (n + 1).toNat, (AB i j + E' i j) * z j = 0 := by
        rw [sum_succ' hn (fun j => (AB i j + E' i j) * z j), hzn, show z n = -1 from if_neg (by omega), mul_neg_one, ← h1, ← sub_eq_add_neg, sub_eq_zero]
        refine Finset.sum_congr rfl fun j hj => ?_
        have hj := Finset.mem_range.1 hj
        rw [show z j = x' j from if_pos (by omega)]
      rw [eq_neg_iff_add_eq_zero, ← Finset.sum_add_distrib, ← h2]
      exact Finset.sum_congr rfl fun j _ => by ring
    have hzz : 1 ≤ ∑ j ∈ Finset.range (n + 1).toNat, z j * z j := by
      rw [sum_succ' hn (fun j => z j * z j), hzn, show z n = -1 from if_neg (by omega)]
      have : 0 ≤ ∑ j ∈ Finset.range n.toNat, z j * z j := Finset.sum_nonneg fun j _ => mul_self_nonneg _
      linarith
    let w : Int → T := fun l => ∑ j ∈ Finset.range (n + 1).toNat, F.vt l j * z j
    have hw : dotV (n + 1) w w = ∑ j ∈ Finset.range (n + 1).toNat, z j * z j := ortho_norm hV' z
    have hlow : F.s n * F.s n * ∑ j ∈ Finset.range (n + 1).toNat, z j * z j ≤
        ∑ i ∈ Finset.range m.toNat, (∑ j ∈ Finset.range (n + 1).toNat, AB i j * z j) * (∑ j ∈ Finset.range (n + 1).toNat, AB i j * z j) := by
      have h1 : ∑ i ∈ Finset.range m.toNat, (∑ j ∈ Finset.range (n + 1).toNat, AB i j * z j) * (∑ j ∈ Finset.range (n + 1).toNat, AB i j * z j) =
          dotV (n + 1) (fun l => F.s l * w l) (fun l => F.s l * w l) := by
        rw [← ortho_norm hU, dotV]
        refine Finset.sum_congr rfl fun i hi => ?_
        have hi := Finset.mem_range.1 hi
        rw [hABz z i (by omega) (by omega)]
      rw [h1, ← hw, dotV, dotV, Finset.mul_sum]
      refine Finset.sum_le_sum fun l hl => ?_
      have hl := Finset.mem_range.1 hl
      have ha := hmin l (by omega) (by omega)
      have hb := hnn n hn (by omega)
      have : F.s n * F.s n ≤ F.s l * F.s l := mul_self_le_mul_self hb ha
      nlinarith [mul_self_nonneg (w l)]
    have hup : ∑ i ∈ Finset.range m.toNat, (∑ j ∈ Finset.range (n + 1).toNat, AB i j * z j) * (∑ j ∈ Finset.range (n + 1).toNat, AB i j * z j) ≤
        frobSq m (n + 1) E' * ∑ j ∈ Finset.range (n + 1).toNat, z j * z j := by
      unfold frobSq
      rw [Finset.sum_mul]
      refine Finset.sum_le_sum fun i hi => ?_
      have hi := Finset.mem_range.1 hi
      rw [hz i (by omega) (by omega), neg_mul_neg]
      have := Finset.sum_mul_sq_le_sq_mul_sq (Finset.range (n + 1).toNat) (fun j => E' i j) (fun j => z j)
      simpa [pow_two] using this
    have hpos : 0 < ∑ j ∈ Finset.range (n + 1).toNat, z j * z j := lt_of_lt_of_le one_pos hzz
    exact le_of_mul_le_mul_right (hlow.trans hup) hpos

end

end RB
