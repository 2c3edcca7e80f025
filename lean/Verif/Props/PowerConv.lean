import Verif.Lemmas.PowerConv
import Verif.Props.Eig
import Verif.Spec.TestDistortion

/-! # C67: convergence of the power method

C67 describes the estimates as Rayleigh quotients and bounds them from one side. The theorems here bound them from the other side: after k iterations from the vector x the estimate
is at least `lam * cos(x, u)^(2/(2k-1))` for every eigenvalue `lam` with eigenvector `u`. The tolerance `tol` is met if the squared cosine of the angle between x and an eigenvector for
the largest eigenvalue is at least `(1 - tol)^(2k-1)`. -/

namespace RB
open Spec
variable {T : Type} [Field T] [LinearOrder T] [IsStrictOrderedRing T]

omit [LinearOrder T] [IsStrictOrderedRing T] in
theorem dotV_self_sq (n : Int) (x : Int → T) : dotV n x x = ∑ j ∈ Finset.range n.toNat, x j ^ 2 := Finset.sum_congr rfl fun _ _ => (sq _).symm

theorem le_of_growth {n : Int} {x u : Int → T} {lam est c r : T} {m : Nat} (hx : ∃ i, 0 ≤ i ∧ i < n ∧ x i ≠ 0) (hu : ∃ i, 0 ≤ i ∧ i < n ∧ u i ≠ 0) (hest : 0 ≤ est)
    (hm : m ≠ 0) (hlam : 0 ≤ lam) (h : lam ^ m * (dotV n x u * dotV n x u) ≤ est ^ m * (dotV n x x * dotV n u u)) (hc : r ^ m ≤ c) (hcos : Cos2Ge c n x u) :
    r * lam ≤ est := by
  unfold Cos2Ge at hcos
  rw [← dotV_self_sq, ← dotV_self_sq, show (∑ j ∈ Finset.range n.toNat, x j * u j) = dotV n x u from rfl, sq] at hcos
  have hp : 0 < dotV n x x * dotV n u u := mul_pos (dotV_pos hx) (dotV_pos hu)
  have h1 : (r * lam) ^ m ≤ est ^ m := by
    refine le_of_mul_le_mul_right ?_ hp
    calc (r * lam) ^ m * (dotV n x x * dotV n u u) = lam ^ m * (r ^ m * (dotV n x x * dotV n u u)) := by rw [mul_pow]; ring
      _ ≤ lam ^ m * (c * (dotV n x x * dotV n u u)) := mul_le_mul_of_nonneg_left (mul_le_mul_of_nonneg_right hc hp.le) (pow_nonneg hlam m)
      _ ≤ lam ^ m * (dotV n x u * dotV n x u) := mul_le_mul_of_nonneg_left hcos (pow_nonneg hlam m)
      _ ≤ _ := h
  by_contra hno
  exact absurd h1 (not_le.2 (pow_lt_pow_left₀ (not_le.1 hno) hest hm))

/-- C67. The estimate of the power method after `iters` iterations: `lam^(2 iters - 1) <x,u>^2 ≤ est^(2 iters - 1) |x|^2 |u|^2` for every eigenvector u with the eigenvalue lam. If the squared
cosine of the angle between x and u is at least `(1 - tol)^(2 iters - 1)`, the estimate is at least `(1 - tol) lam`. -/
theorem C67_convergence {sqrt : T → T} (hs : SqrtOk sqrt) {n iters : Int} {A : Int → Int → T} {fill : M (Buf T) Unit}
    {op : Buf T → M (Buf T) Unit} {v : Buf T} {x : Int → T} (hn : 1 ≤ n) (hit : 1 ≤ iters) (hop : OpSpec n A op)
    (hsym : ∀ i j, InR n n i j → A i j = A j i) (hpd : PosDefU n A)
    (hfill : Fills n x fill) (hx : ∃ i, 0 ≤ i ∧ i < n ∧ x i ≠ 0) (hv : ∀ i, 0 ≤ i → i < n → v i ≠ .none) :
    M.wp (powerMethod sqrt n iters fill op) v (fun est _ => ∀ (lam : T) (u : Int → T), 0 < lam → (∃ i, 0 ≤ i ∧ i < n ∧ u i ≠ 0) →
      (∀ i, 0 ≤ i → i < n → mulVec n A u i = lam * u i) →
      lam ^ (2 * iters - 1).toNat * dotV n x u ^ 2 ≤ est ^ (2 * iters - 1).toNat * (dotV n x x * dotV n u u) ∧
      ∀ tol, Cos2Ge ((1 - tol) ^ (2 * iters - 1).toNat) n x u → (1 - tol) * lam ≤ est) := by
  refine M.wp_mono (C67_power_method hs hn hit hop hsym hpd hfill hx hv) ?_
  rintro est v' ⟨h1, -, -, h2, -⟩ lam u hlam hu hAu
  obtain ⟨k, hk⟩ : ∃ k, iters.toNat = k + 1 := ⟨iters.toNat - 1, by omega⟩
  rw [hk, Nat.add_sub_cancel] at h1
  have hm : (2 * iters - 1).toNat = 2 * k + 1 := by omega
  have hf := formOk_of_posDef hsym hpd
  have h3 := power_growth hf (powVec_nz (mulVec_nz hsym hpd) hx) hlam hAu h1
  have h0 : 0 ≤ est := h2 0 fun y => by
    rw [zero_mul, quadU_dot hsym]
    exact hf.nonneg y
  rw [hm]
  exact ⟨by rw [sq]; exact h3, fun tol hc => le_of_growth hx hu h0 (by omega) hlam.le h3 le_rfl hc⟩

/-- C67. Both estimates of `exeigs_powermethod`. -/
theorem C67_exeigs_convergence {sqrt : T → T} (hs : SqrtOk sqrt) {n iters : Int} {a : Int → Int → T} {A v : Buf T} {work : Vec T}
    {fill1 fill2 : M (Buf T) Unit} {x1 x2 : Int → T} (hn : 1 ≤ n) (hit : 1 ≤ iters) (hA : Holds A .ColMajor n n n a)
    (hsym : ∀ i j, InR n n i j → a i j = a j i) (hpd : PosDefU n a) (hwork : ∀ p, 0 ≤ p → p < work.size → work.buf p ≠ .none)
    (hf1 : Fills n x1 fill1) (hf2 : Fills n x2 fill2) (hx1 : ∃ i, 0 ≤ i ∧ i < n ∧ x1 i ≠ 0) (hx2 : ∃ i, 0 ≤ i ∧ i < n ∧ x2 i ≠ 0)
    (hv : ∀ i, 0 ≤ i → i < 2 * n → v i ≠ .none) :
    M.wp (exeigs sqrt n iters A work fill1 fill2) v (fun r _ =>
      (0 < r.1 ∧ 0 < r.2) ∧ (∀ c, RayleighGe n a c → c ≤ r.1 ∧ c ≤ r.2) ∧ (∀ c, RayleighLe n a c → r.1 ≤ c ∧ r.2 ≤ c) ∧
      ∀ (lam : T) (u : Int → T), 0 < lam → (∃ i, 0 ≤ i ∧ i < n ∧ u i ≠ 0) → (∀ i, 0 ≤ i → i < n → mulVec n a u i = lam * u i) → ∀ tol,
      (Cos2Ge ((1 - tol) ^ (2 * iters - 1).toNat) n x1 u → (1 - tol) * lam ≤ r.1) ∧
      (Cos2Ge ((1 - tol) ^ (2 * iters - 1).toNat) n x2 u → (1 - tol) * r.2 ≤ lam)) := by
  refine M.wp_mono (C67_exeigs hs hn hit hA hsym hpd hwork hf1 hf2 hx1 hx2 hv) ?_
  rintro ⟨r1, r2⟩ v' ⟨X, hX, h1, h2, -, -, -, h3, h4⟩
  dsimp only at h1 h2 h3 h4 ⊢
  obtain ⟨k, hk⟩ : ∃ k, iters.toNat = k + 1 := ⟨iters.toNat - 1, by omega⟩
  rw [hk, Nat.add_sub_cancel] at h1 h2
  have hm : (2 * iters - 1).toNat = 2 * k + 1 := by omega
  have hf := formOk_of_posDef hsym hpd
  have hfX := hf.inv hX
  have hx1k := powVec_nz (mulVec_nz hsym hpd) hx1 k
  have hx2k := powVec_nz (inv_nz hX) hx2 k
  have hr1 : 0 < r1 := by
    have p1 : 0 < dotV n (powVec n a x1 k) (powVec n a x1 (k + 1)) := by
      have := hpd _ hx1k
      rwa [quadU_dot hsym] at this
    rw [← h1] at p1
    exact pos_of_mul_pos_left p1 (dotV_pos hx1k).le
  have p2 : 0 ≤ dotV n (powVec n X x2 k) (powVec n X x2 (k + 1)) := hfX.nonneg _
  have hr2 : 0 < r2 := by
    have := dotV_pos hx2k
    rw [h2] at this
    exact pos_of_mul_pos_left this p2
  refine ⟨⟨hr1, hr2⟩, h3, h4, fun lam u hlam hu hAu tol => ⟨fun hc => ?_, fun hc => ?_⟩⟩
  · rw [hm] at hc
    exact le_of_growth hx1 hu hr1.le (by omega) hlam.le (power_growth hf (powVec_nz (mulVec_nz hsym hpd) hx1) hlam hAu h1) le_rfl hc
  · rw [hm] at hc
    have hXu : ∀ i, 0 ≤ i → i < n → mulVec n X u i = lam⁻¹ * u i := by
      intro i h0 hi
      by_contra hne
      obtain ⟨k, hk0, hkn, hk⟩ := mulVec_nz hsym hpd (fun j => mulVec n X u j + (-lam⁻¹) * u j) ⟨i, h0, hi, fun h => hne (by linear_combination h)⟩
      refine hk ?_
      have e : mulVec n a (fun j => mulVec n X u j + (-lam⁻¹) * u j) k = mulVec n a (mulVec n X u) k + (-lam⁻¹) * mulVec n a u k := by
        unfold mulVec
        rw [Finset.mul_sum, ← Finset.sum_add_distrib]
        exact Finset.sum_congr rfl fun _ _ => by ring
      rw [e, mulVec_inv hX u hk0 hkn, hAu k hk0 hkn]
      field_simp
      ring
    have h5 : r2⁻¹ * dotV n (powVec n X x2 k) (powVec n X x2 k) = dotV n (powVec n X x2 k) (powVec n X x2 (k + 1)) := by
      rw [h2]; field_simp
    have h6 := le_of_growth hx2 hu (inv_pos.2 hr2).le (by omega) (inv_pos.2 hlam).le
      (power_growth hfX (powVec_nz (inv_nz hX) hx2) (inv_pos.2 hlam) hXu h5) le_rfl hc
    rw [← div_eq_mul_inv, ← one_div, div_le_div_iff₀ hlam hr2, one_mul] at h6
    exact h6

/-- The condition on the start vector is met by x = (1, 1) and the eigenvector u = (1, 0) of diag(2, 1) with one iteration and the tolerance 1/2 (see also the examples of C67 and C125). -/
example : Cos2Ge ((1 - 1 / 2 : ℚ) ^ (2 * 1 - 1)) 2 (fun _ => 1) (fun i => if i = 0 then 1 else 0) := by
  unfold Cos2Ge
  rw [show Int.toNat 2 = 2 from rfl]
  norm_num [Finset.sum_range_succ]

end RB
