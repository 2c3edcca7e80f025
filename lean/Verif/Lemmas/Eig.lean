import Verif.Model.HrEig
import Verif.Lemmas.Qr
import Mathlib.Algebra.Order.BigOperators.Ring.Finset

/-! # Lemmas about the eigenvalue routines -/

namespace RB
open Spec

variable {T : Type} [Field T] [LinearOrder T]

theorem syrkUpperNoTrans_spec {n k a0 lda ldc : Int} {A C : Int → Int → T} {Ab b0 b : Buf T} (hn : 0 ≤ n) (hk : 0 ≤ k)
    (hla : n ≤ lda) (hlc : n ≤ ldc) (hA : ∀ i j, InR n k i j → Ab (a0 + (i + j * lda)) = .val (A i j))
    (hb : Upd ldc (Up n) C b0 b) :
    M.wp (syrkUpperNoTrans n k Ab a0 lda ldc) b (fun _ b' =>
      Upd ldc (Up n) (prodEntry k A (fun r c => A c r)) b0 b') := by
  have hr := up_rows hlc
  unfold syrkUpperNoTrans
  simp only [M.wp_bind, wp_blasCheck]
  refine ⟨hn, hk, hla, hlc, ?_⟩
  refine M.wp_forI (fun j b => Upd ldc (Up n)
    (fun r c => if c < j then prodEntry k A (fun r c => A c r) r c else C r c) b0 b) hn ?_ ?_ ?_
  · exact hb.congr (fun i j h => by rw [if_neg (by obtain ⟨h1, h2, h3⟩ := h; omega)])
  · intro j b1 hj0 hjn hst
    refine M.wp_forI (fun i b => Upd ldc (Up n)
      (fun r c => if c < j ∨ (c = j ∧ r < i) then prodEntry k A (fun r c => A c r) r c else C r c) b0 b)
      (by omega) ?_ ?_ ?_
    · exact hst.congr (fun r c h => by
        have : (c < j ∨ (c = j ∧ r < 0)) ↔ c < j := by have := h.1; omega
        simp only [this])
    · intro i b2 hi0 hij hst2
      rw [M.wp_bind]
      refine dot_spec (F := fun l => A i l) (G := fun l => A j l) hk
        (fun l h0 h1 => Buf.rd_val (hA i l ⟨hi0, by omega, h0, h1⟩)) (fun l h0 h1 => Buf.rd_val (hA j l ⟨hj0, hjn, h0, h1⟩)) ?_
      refine hst2.wp_wr hr ⟨hi0, by omega, hjn⟩ ?_ ?_ (fun b2 h => h)
      · rw [if_pos (by omega)]; rfl
      · rintro r c ⟨h1, h2, h3⟩ hne
        have : (c < j ∨ (c = j ∧ r < i + 1)) ↔ (c < j ∨ (c = j ∧ r < i)) := by omega
        simp only [this]
    · intro b2 hst2
      exact hst2.congr (fun r c h => by
        have : (c < j ∨ (c = j ∧ r < j + 1)) ↔ c < j + 1 := by obtain ⟨h1, h2, h3⟩ := h; omega
        simp only [this])
  · intro b1 hst
    exact hst.congr (fun r c h => by rw [if_pos h.2.2])

/-! ## Gershgorin test -/

/-- What the loop over the rows knows after `k` rows. -/
def GershInv (n : Int) (G : Int → Int → T) (k : Int) (st : GershSt T) : Prop :=
  (k = 0 → st.lower = none ∧ st.upper = none ∧ st.ilb = 0 ∧ st.iub = 0) ∧
  (0 < k → 0 ≤ st.ilb ∧ st.ilb < k ∧ 0 ≤ st.iub ∧ st.iub < k ∧
    st.lower = some (G st.ilb st.ilb - discRadius n G st.ilb) ∧ st.upper = some (G st.iub st.iub + discRadius n G st.iub) ∧
    (∀ i, 0 ≤ i → i < k → G st.ilb st.ilb - discRadius n G st.ilb ≤ G i i - discRadius n G i) ∧
    ∀ i, 0 ≤ i → i < k → G i i + discRadius n G i ≤ G st.iub st.iub + discRadius n G st.iub)

theorem radius_spec {n i : Int} {G : Int → Int → T} {b : Buf T} (hn : 0 ≤ n) (hi0 : 0 ≤ i) (hi : i < n)
    (hG : ∀ i j, InR n n i j → b (i + j * n) = .val (G i j)) {Q : T → Buf T → Prop} (hQ : Q (discRadius n G i) b) :
    M.wp (foldI 0 n (fun j r => if i ≠ j then do
      let g ← M.rd (i * n + j)
      pure (r + |g|)
    else pure r) (0 : T)) b Q := by
  refine M.wp_foldI (fun k r b' => b' = b ∧ r = ∑ j ∈ Finset.range k.toNat, if (j : Int) = i then 0 else |G j i|) hn ⟨rfl, by simp⟩ ?_ ?_
  · rintro j r b' hj0 hj ⟨rfl, rfl⟩
    have e : ∑ l ∈ Finset.range (j + 1).toNat, (if (l : Int) = i then 0 else |G l i|) =
        ∑ l ∈ Finset.range j.toNat, (if (l : Int) = i then 0 else |G l i|) + if j = i then 0 else |G j i| := by
      rw [show (j + 1).toNat = j.toNat + 1 by omega, Finset.sum_range_succ, show ((j.toNat : Nat) : Int) = j by omega]
    by_cases h : i = j
    · rw [if_neg (by simpa using h), M.wp_pure]
      refine ⟨rfl, ?_⟩
      rw [e, if_pos h.symm, add_zero]
    · rw [if_pos h, M.wp_bind, M.wp_rd]
      refine ⟨_, by rw [show i * n + j = j + i * n by ring]; exact hG j i ⟨hj0, hj, hi0, hi⟩, ?_⟩
      rw [M.wp_pure]
      refine ⟨rfl, ?_⟩
      rw [e, if_neg (Ne.symm h)]
  · rintro r b' ⟨rfl, rfl⟩
    exact hQ

theorem gershRow_spec {n i : Int} {G : Int → Int → T} {b : Buf T} {st : GershSt T} (hn : 0 ≤ n) (hi0 : 0 ≤ i) (hi : i < n)
    (hG : ∀ i j, InR n n i j → b (i + j * n) = .val (G i j)) (hst : GershInv n G i st) :
    M.wp (gershRow n i st) b (fun st' b' => b' = b ∧ GershInv n G (i + 1) st') := by
  unfold gershRow
  rw [M.wp_bind, M.wp_rd]
  refine ⟨_, hG i i ⟨hi0, hi, hi0, hi⟩, ?_⟩
  rw [M.wp_bind]
  refine radius_spec hn hi0 hi hG ?_
  rw [M.wp_pure]
  refine ⟨rfl, fun h => by omega, fun _ => ?_⟩
  rcases hi0.lt_or_eq with hpos | h0
  · obtain ⟨h1, h2, h3, h4, h5, h6, h7, h8⟩ := hst.2 hpos
    have hlast : ∀ {P : Int → Prop}, (∀ k, 0 ≤ k → k < i → P k) → P i → ∀ k, 0 ≤ k → k < i + 1 → P k := by
      intro P hP hPi k hk0 hk
      rcases (show k < i ∨ k = i by omega) with h | h
      · exact hP k hk0 h
      · subst h; exact hPi
    simp only [h5, h6]
    by_cases hlo : G i i - discRadius n G i ≤ G st.ilb st.ilb - discRadius n G st.ilb <;>
    by_cases hup : G i i + discRadius n G i ≥ G st.iub st.iub + discRadius n G st.iub <;>
    simp only [hlo, hup, decide_true, decide_false, if_true, Bool.false_eq_true, if_false]
    · exact ⟨hi0, by omega, hi0, by omega, trivial, trivial, hlast (fun k hk0 hk => le_trans hlo (h7 k hk0 hk)) (le_refl _),
        hlast (fun k hk0 hk => le_trans (h8 k hk0 hk) hup) (le_refl _)⟩
    · exact ⟨hi0, by omega, h3, by omega, trivial, trivial, hlast (fun k hk0 hk => le_trans hlo (h7 k hk0 hk)) (le_refl _),
        hlast h8 (le_of_lt (not_le.1 hup))⟩
    · exact ⟨h1, by omega, hi0, by omega, trivial, trivial, hlast h7 (le_of_lt (not_le.1 hlo)),
        hlast (fun k hk0 hk => le_trans (h8 k hk0 hk) hup) (le_refl _)⟩
    · exact ⟨h1, by omega, h3, by omega, trivial, trivial, hlast h7 (le_of_lt (not_le.1 hlo)), hlast h8 (le_of_lt (not_le.1 hup))⟩
  · subst h0
    obtain ⟨h1, h2, h3, h4⟩ := hst.1 rfl
    simp only [h1, h2]
    refine ⟨by simp, by simp, by simp, by simp, by simp, by simp, ?_, ?_⟩ <;>
    · intro k hk0 hk
      obtain rfl : k = 0 := by omega
      simp

variable [IsStrictOrderedRing T]

omit [LinearOrder T] [IsStrictOrderedRing T] in
theorem discRadius_nonneg [LinearOrder T] [IsStrictOrderedRing T] (n : Int) (G : Int → Int → T) (i : Int) : 0 ≤ discRadius n G i :=
  Finset.sum_nonneg fun j _ => by split <;> simp

theorem gershgorin_spec {n : Int} {tol : T} {G : Int → Int → T} {b : Buf T} (hn : 1 ≤ n)
    (hG : ∀ i j, InR n n i j → b (i + j * n) = .val (G i j)) :
    M.wp (gershgorin n tol) b (fun res b' => b' = b ∧ ∃ l u, 0 ≤ l ∧ l < n ∧ 0 ≤ u ∧ u < n ∧
      (∀ i, 0 ≤ i → i < n → G l l - discRadius n G l ≤ G i i - discRadius n G i) ∧
      (∀ i, 0 ≤ i → i < n → G i i + discRadius n G i ≤ G u u + discRadius n G u) ∧
      (res = true ↔ discRadius n G l ≤ tol * G l l ∧ discRadius n G u ≤ tol * G u u)) := by
  unfold gershgorin
  rw [M.wp_bind]
  refine M.wp_foldI (fun k st b' => b' = b ∧ GershInv n G k st) (by omega) ⟨rfl, fun _ => ⟨rfl, rfl, rfl, rfl⟩, fun h => by omega⟩ ?_ ?_
  · rintro i st b' hi0 hi ⟨rfl, hst⟩
    exact gershRow_spec (by omega) hi0 hi hG hst
  · rintro st b' ⟨rfl, hst⟩
    obtain ⟨h1, h2, h3, h4, h5, h6, h7, h8⟩ := hst.2 (by omega)
    rw [M.wp_bind, M.wp_rd]
    refine ⟨_, hG _ _ ⟨h1, h2, h1, h2⟩, ?_⟩
    rw [M.wp_bind, M.wp_rd]
    refine ⟨_, hG _ _ ⟨h3, h4, h3, h4⟩, ?_⟩
    rw [M.wp_pure]
    refine ⟨rfl, st.ilb, st.iub, h1, h2, h3, h4, h7, h8, ?_⟩
    simp only [h5, h6, Bool.and_eq_true, decide_eq_true_eq]
    rw [sub_sub_cancel_left, abs_neg, add_sub_cancel_left, abs_of_nonneg (discRadius_nonneg _ _ _), abs_of_nonneg (discRadius_nonneg _ _ _)]

/-- Gershgorin's theorem for symmetric matrices. -/
theorem gersh_disc {n : Int} {G : Int → Int → T} (hsym : ∀ i j, InR n n i j → G i j = G j i) {lam : T} (h : IsEigval n G lam) :
    ∃ i, 0 ≤ i ∧ i < n ∧ |lam - G i i| ≤ discRadius n G i := by
  obtain ⟨x, ⟨i0, hi0, hi0n, hx0⟩, hx⟩ := h
  have hne : (Finset.range n.toNat).Nonempty := ⟨i0.toNat, Finset.mem_range.2 (by omega)⟩
  obtain ⟨k, hk, hmax⟩ := Finset.exists_max_image (Finset.range n.toNat) (fun k : Nat => |x k|) hne
  have hkn := Finset.mem_range.1 hk
  refine ⟨k, by omega, by omega, ?_⟩
  have hxk : 0 < |x k| := by
    have := hmax i0.toNat (Finset.mem_range.2 (by omega))
    rw [show ((i0.toNat : Nat) : Int) = i0 by omega] at this
    exact lt_of_lt_of_le (abs_pos.2 hx0) this
  have e : (lam - G k k) * x k = ∑ j ∈ Finset.range n.toNat, if (j : Int) = k then 0 else G k j * x j := by
    have := hx k (by omega) (by omega)
    rw [sub_mul, ← this, ← Finset.add_sum_erase _ _ hk, add_sub_cancel_left, ← Finset.add_sum_erase _ (fun j : Nat => if (j : Int) = k then 0 else G k j * x j) hk,
      if_pos rfl, zero_add]
    refine Finset.sum_congr rfl fun j hj => ?_
    rw [if_neg (by have := Finset.ne_of_mem_erase hj; exact_mod_cast this)]
  have h1 : |lam - G k k| * |x k| ≤ discRadius n G k * |x k| := by
    rw [← abs_mul, e]
    refine le_trans (Finset.abs_sum_le_sum_abs _ _) ?_
    rw [discRadius, Finset.sum_mul]
    refine Finset.sum_le_sum fun j hj => ?_
    have hjn := Finset.mem_range.1 hj
    by_cases h : (j : Int) = k
    · rw [if_pos h, if_pos h]; simp
    · rw [if_neg h, if_neg h, abs_mul, hsym k j ⟨by omega, by omega, by omega, by omega⟩]
      exact mul_le_mul_of_nonneg_left (hmax j hj) (abs_nonneg _)
  exact le_of_mul_le_mul_right h1 hxk

/-! ## Cholesky iteration -/

omit [LinearOrder T] [IsStrictOrderedRing T] in
theorem isEigval_congr {n : Int} {A B : Int → Int → T} (h : ∀ i j, InR n n i j → A i j = B i j) {lam : T} (hA : IsEigval n A lam) :
    IsEigval n B lam := by
  obtain ⟨x, hx, he⟩ := hA
  refine ⟨x, hx, fun i h0 hi => ?_⟩
  rw [← he i h0 hi]
  refine Finset.sum_congr rfl fun j hj => ?_
  have := Finset.mem_range.1 hj
  rw [h i j ⟨h0, hi, by omega, by omega⟩]

omit [LinearOrder T] [IsStrictOrderedRing T] in
/-- `X Y` and `Y X` have the same eigenvalues if `Y` is injective. -/
theorem isEigval_swap {n : Int} {X Y : Int → Int → T}
    (hY : ∀ x : Int → T, (∀ i, 0 ≤ i → i < n → ∑ j ∈ Finset.range n.toNat, Y i j * x j = 0) → ∀ j, 0 ≤ j → j < n → x j = 0) {lam : T}
    (h : IsEigval n (prodEntry n X Y) lam) : IsEigval n (prodEntry n Y X) lam := by
  obtain ⟨x, ⟨i0, h0, h1, h2⟩, hx⟩ := h
  refine ⟨fun i => ∑ j ∈ Finset.range n.toNat, Y i j * x j, ?_, fun i hi0 hi => ?_⟩
  · by_contra hno
    push Not at hno
    exact h2 (hY x hno i0 h0 h1)
  · have e1 : ∑ j ∈ Finset.range n.toNat, prodEntry n Y X i j * ∑ l ∈ Finset.range n.toNat, Y j l * x l =
        prodEntry n (prodEntry n Y X) (prodEntry n Y (fun k _ => x k)) i 0 := rfl
    have e2 : ∀ k, 0 ≤ k → k < n → prodEntry n X (prodEntry n Y (fun k _ => x k)) k 0 = lam * x k := fun k hk0 hk => by
      rw [← prodEntry_assoc]; exact hx k hk0 hk
    rw [e1, prodEntry_assoc, prodEntry_ext (A' := Y) (B' := fun k _ => lam * x k) (fun _ _ _ => rfl) e2, prodEntry, Finset.mul_sum]
    exact Finset.sum_congr rfl fun k _ => by ring

omit [IsStrictOrderedRing T] in
theorem upper_inj {n : Int} {R : Int → Int → T} (hR : UpperPos n R) (x : Int → T)
    (h : ∀ i, 0 ≤ i → i < n → ∑ j ∈ Finset.range n.toNat, R i j * x j = 0) : ∀ j, 0 ≤ j → j < n → x j = 0 := by
  intro j h0 hj
  have := tri_zero (R := fun i j => R i j) n.toNat (fun i j h => hR.1 _ _ (by omega)) (fun k hk => (hR.2 k (by omega) (by omega)).ne')
    (x := fun l => x l) (fun k hk => h k (by omega) (by omega)) j.toNat (by omega)
  rwa [show ((j.toNat : Nat) : Int) = j by omega] at this

omit [IsStrictOrderedRing T] in
theorem upperT_inj {n : Int} {R : Int → Int → T} (hR : UpperPos n R) (x : Int → T)
    (h : ∀ i, 0 ≤ i → i < n → ∑ j ∈ Finset.range n.toNat, R j i * x j = 0) : ∀ j, 0 ≤ j → j < n → x j = 0 := by
  intro j h0 hj
  refine upper_cancel_right (X := fun _ l => x l) (i := 0) hR (fun k hk0 hk => ?_) j h0 hj
  rw [← h k hk0 hk]
  exact Finset.sum_congr rfl fun l _ => mul_comm _ _

omit [LinearOrder T] [IsStrictOrderedRing T] in
theorem quadU_gram {m n : Int} {A B : Int → Int → T} (h : ∀ i j, InR n n i j → symU B i j = prodEntry m (fun r c => A c r) A i j) (x : Int → T) :
    quadU n B x = ∑ l ∈ Finset.range m.toNat, (∑ j ∈ Finset.range n.toNat, A l j * x j) * ∑ j ∈ Finset.range n.toNat, A l j * x j := by
  have e : quadU n B x = ∑ i ∈ Finset.range n.toNat, ∑ j ∈ Finset.range n.toNat, x i * prodEntry m (fun r c => A c r) A i j * x j := by
    unfold quadU
    refine Finset.sum_congr rfl fun i hi => Finset.sum_congr rfl fun j hj => ?_
    have := Finset.mem_range.1 hi
    have := Finset.mem_range.1 hj
    rw [h i j ⟨by omega, by omega, by omega, by omega⟩]
  rw [e]
  simp only [prodEntry, Finset.sum_mul, Finset.mul_sum]
  rw [Finset.sum_congr rfl fun i _ => Finset.sum_comm, Finset.sum_comm]
  refine Finset.sum_congr rfl fun l _ => ?_
  rw [Finset.sum_comm]
  refine Finset.sum_congr rfl fun j _ => Finset.sum_congr rfl fun i _ => by ring

theorem sumsq_nonneg (n : Nat) (f : Nat → T) : 0 ≤ ∑ i ∈ Finset.range n, f i * f i := Finset.sum_nonneg fun _ _ => mul_self_nonneg _

theorem cauchy (n : Nat) (f g : Nat → T) :
    (∑ i ∈ Finset.range n, f i * g i) * (∑ i ∈ Finset.range n, f i * g i) ≤ (∑ i ∈ Finset.range n, f i * f i) * ∑ i ∈ Finset.range n, g i * g i := by
  have := Finset.sum_mul_sq_le_sq_mul_sq (Finset.range n) f g
  simpa [pow_two] using this

/-- Lower bounds of the Rayleigh quotients of `R^T R` are lower bounds for `R R^T`. -/
theorem ray_ge {n : Int} {R : Int → Int → T} (hR : UpperPos n R) {c : T}
    (h : ∀ x : Int → T, c * ∑ i ∈ Finset.range n.toNat, x i * x i ≤
      ∑ l ∈ Finset.range n.toNat, (∑ j ∈ Finset.range n.toNat, R l j * x j) * ∑ j ∈ Finset.range n.toNat, R l j * x j) (y : Int → T) :
    c * ∑ i ∈ Finset.range n.toNat, y i * y i ≤
      ∑ l ∈ Finset.range n.toNat, (∑ j ∈ Finset.range n.toNat, R j l * y j) * ∑ j ∈ Finset.range n.toNat, R j l * y j := by
  obtain ⟨x, hx⟩ := upper_solve hR y
  have hx' : ∀ i ∈ Finset.range n.toNat, ∑ j ∈ Finset.range n.toNat, R i j * x j = y i := fun i hi => by
    have := Finset.mem_range.1 hi
    exact hx i (by omega) (by omega)
  have e1 : ∑ i ∈ Finset.range n.toNat, y i * y i = ∑ j ∈ Finset.range n.toNat, (∑ i ∈ Finset.range n.toNat, R i j * y i) * x j := by
    have e0 : ∀ i : Nat, i ∈ Finset.range n.toNat → y i * y i = ∑ j ∈ Finset.range n.toNat, y i * (R i j * x j) := fun i hi => by
      rw [← Finset.mul_sum, hx' i hi]
    rw [Finset.sum_congr rfl e0, Finset.sum_comm]
    refine Finset.sum_congr rfl fun j _ => ?_
    rw [Finset.sum_mul]
    exact Finset.sum_congr rfl fun i _ => by ring
  have h1 := cauchy n.toNat (fun j => ∑ i ∈ Finset.range n.toNat, R i j * y i) (fun j => x j)
  rw [← e1] at h1
  have h2 := h x
  have e2 : ∑ l ∈ Finset.range n.toNat, (∑ j ∈ Finset.range n.toNat, R l j * x j) * ∑ j ∈ Finset.range n.toNat, R l j * x j =
      ∑ l ∈ Finset.range n.toNat, y l * y l := Finset.sum_congr rfl fun i hi => by rw [hx' i hi]
  rw [e2] at h2
  have hX := sumsq_nonneg n.toNat (fun j => x j)
  have hY := sumsq_nonneg n.toNat (fun j => y j)
  have hZ := sumsq_nonneg n.toNat (fun j => ∑ i ∈ Finset.range n.toNat, R i j * y i)
  generalize ∑ i ∈ Finset.range n.toNat, y i * y i = Y at *
  generalize ∑ l ∈ Finset.range n.toNat, (∑ j ∈ Finset.range n.toNat, R j l * y j) * ∑ j ∈ Finset.range n.toNat, R j l * y j = Z at *
  generalize ∑ i ∈ Finset.range n.toNat, x i * x i = X at *
  rcases le_or_gt c 0 with hc | hc
  · exact (mul_nonpos_of_nonpos_of_nonneg hc hY).trans hZ
  · rcases hY.eq_or_lt with h0 | h0
    · rw [← h0, mul_zero]; exact hZ
    · refine le_of_mul_le_mul_right ?_ h0
      calc c * Y * Y = c * (Y * Y) := by ring
        _ ≤ c * (Z * X) := mul_le_mul_of_nonneg_left h1 hc.le
        _ = Z * (c * X) := by ring
        _ ≤ Z * Y := mul_le_mul_of_nonneg_left h2 hZ

/-- Upper bounds of the Rayleigh quotients of `R^T R` are upper bounds for `R R^T`. -/
theorem ray_le {n : Int} {R : Int → Int → T} {c : T}
    (h : ∀ x : Int → T, ∑ l ∈ Finset.range n.toNat, (∑ j ∈ Finset.range n.toNat, R l j * x j) * ∑ j ∈ Finset.range n.toNat, R l j * x j ≤
      c * ∑ i ∈ Finset.range n.toNat, x i * x i) (y : Int → T) :
    ∑ l ∈ Finset.range n.toNat, (∑ j ∈ Finset.range n.toNat, R j l * y j) * ∑ j ∈ Finset.range n.toNat, R j l * y j ≤
      c * ∑ i ∈ Finset.range n.toNat, y i * y i := by
  have e1 : ∑ l ∈ Finset.range n.toNat, (∑ j ∈ Finset.range n.toNat, R j l * y j) * ∑ j ∈ Finset.range n.toNat, R j l * y j =
      ∑ i ∈ Finset.range n.toNat, y i * ∑ l ∈ Finset.range n.toNat, R i l * ∑ j ∈ Finset.range n.toNat, R j l * y j := by
    simp only [Finset.mul_sum]
    rw [Finset.sum_comm]
    simp only [Finset.sum_mul]
    rw [Finset.sum_congr rfl fun i _ => Finset.sum_comm]
    rw [Finset.sum_comm]
    refine Finset.sum_congr rfl fun i _ => ?_
    rw [Finset.sum_comm]
    exact Finset.sum_congr rfl fun l _ => Finset.sum_congr rfl fun j _ => by ring
  have h1 := cauchy n.toNat (fun j => y j) (fun i => ∑ l ∈ Finset.range n.toNat, R i l * ∑ j ∈ Finset.range n.toNat, R j l * y j)
  rw [← e1] at h1
  have h2 := h (fun l => ∑ j ∈ Finset.range n.toNat, R j l * y j)
  have h3 := (sumsq_nonneg n.toNat (fun l => ∑ j ∈ Finset.range n.toNat, R l j * y j)).trans (h y)
  have hY := sumsq_nonneg n.toNat (fun j => y j)
  have hZ := sumsq_nonneg n.toNat (fun j => ∑ i ∈ Finset.range n.toNat, R i j * y i)
  generalize ∑ i ∈ Finset.range n.toNat, y i * y i = Y at *
  generalize ∑ l ∈ Finset.range n.toNat, (∑ j ∈ Finset.range n.toNat, R j l * y j) * ∑ j ∈ Finset.range n.toNat, R j l * y j = Z at *
  rcases hZ.eq_or_lt with h0 | h0
  · rw [← h0]; exact h3
  · refine le_of_mul_le_mul_right ?_ h0
    refine h1.trans ((mul_le_mul_of_nonneg_left h2 hY).trans (le_of_eq (by ring)))

theorem cholStep_rayleigh {n : Int} {B R G : Int → Int → T} (hR : UpperPos n R)
    (hA : ∀ i j, InR n n i j → prodEntry n (fun r c => R c r) R i j = symU B i j)
    (hG : ∀ i j, InR n n i j → symU G i j = prodEntry n R (fun r c => R c r) i j) (c : T) :
    (RayleighGe n B c → RayleighGe n G c) ∧ (RayleighLe n B c → RayleighLe n G c) := by
  constructor
  · intro h x
    rw [quadU_gram (A := fun r c => R c r) hG]
    refine ray_ge hR (fun x => ?_) x
    rw [← quadU_gram (fun i j hij => (hA i j hij).symm)]
    exact h x
  · intro h x
    rw [quadU_gram (A := fun r c => R c r) hG]
    refine ray_le (fun x => ?_) x
    rw [← quadU_gram (fun i j hij => (hA i j hij).symm)]
    exact h x

omit [IsStrictOrderedRing T] in
/-- Diagonal entries are Rayleigh quotients. -/
theorem rayleigh_diag {n : Int} {G : Int → Int → T} {c : T} {i : Int} (h0 : 0 ≤ i) (hi : i < n) :
    (RayleighGe n G c → c ≤ G i i) ∧ (RayleighLe n G c → G i i ≤ c) := by
  have e1 : ∑ k ∈ Finset.range n.toNat, (if (k : Int) = i then (1 : T) else 0) * (if (k : Int) = i then (1 : T) else 0) = 1 := by
    rw [Finset.sum_eq_single i.toNat]
    · rw [if_pos (by omega), mul_one]
    · intro k _ hk; rw [if_neg (by omega), mul_zero]
    · intro h; exact absurd (Finset.mem_range.2 (by omega)) h
  have e2 : quadU n G (fun k => if k = i then (1 : T) else 0) = G i i := by
    unfold quadU
    dsimp only
    rw [Finset.sum_eq_single i.toNat, Finset.sum_eq_single i.toNat]
    · rw [show ((i.toNat : Nat) : Int) = i by omega, if_pos rfl, symU, if_pos (le_refl _), one_mul, mul_one]
    · intro k _ hk; rw [if_neg (show ¬ (k : Int) = i by omega), mul_zero]
    · intro h; exact absurd (Finset.mem_range.2 (by omega)) h
    · intro k _ hk
      exact Finset.sum_eq_zero fun j _ => by rw [if_neg (show ¬ (k : Int) = i by omega), zero_mul, zero_mul]
    · intro h; exact absurd (Finset.mem_range.2 (by omega)) h
  constructor
  · intro h
    have := h (fun k => if k = i then 1 else 0)
    rwa [e1, e2, mul_one] at this
  · intro h
    have := h (fun k => if k = i then 1 else 0)
    rwa [e1, e2, mul_one] at this

/-- The step from `R^T R` to `R R^T` keeps eigenvalues, trace and positive definiteness. -/
theorem cholStep {n : Int} {A R G : Int → Int → T} (hR : UpperPos n R) (hA : ∀ i j, InR n n i j → prodEntry n (fun r c => R c r) R i j = A i j)
    (hG : ∀ i j, InR n n i j → G i j = prodEntry n R (fun r c => R c r) i j) :
    PosDefU n G ∧ (∀ lam, IsEigval n G lam ↔ IsEigval n A lam) ∧
    ∑ i ∈ Finset.range n.toNat, G i i = ∑ i ∈ Finset.range n.toNat, A i i := by
  refine ⟨?_, fun lam => ⟨fun h => ?_, fun h => ?_⟩, ?_⟩
  · have := gram_posDef (m := n) (n := n) (A := fun r c => R c r) (upperT_inj hR)
    intro x hx
    refine lt_of_lt_of_eq (this x hx) ?_
    unfold quadU
    refine Finset.sum_congr rfl fun i hi => Finset.sum_congr rfl fun j hj => ?_
    have := Finset.mem_range.1 hi
    have := Finset.mem_range.1 hj
    congr 2
    unfold symU
    split
    · exact (hG i j ⟨by omega, by omega, by omega, by omega⟩).symm
    · exact (hG j i ⟨by omega, by omega, by omega, by omega⟩).symm
  · exact isEigval_congr hA (isEigval_swap (X := R) (Y := fun r c => R c r) (upperT_inj hR) (isEigval_congr hG h))
  · exact isEigval_congr (fun i j hij => (hG i j hij).symm) (isEigval_swap (Y := R) (X := fun r c => R c r) (upper_inj hR)
      (isEigval_congr (fun i j hij => (hA i j hij).symm) h))
  · have e1 : ∑ i ∈ Finset.range n.toNat, G i i = ∑ i ∈ Finset.range n.toNat, ∑ l ∈ Finset.range n.toNat, R i l * R i l :=
      Finset.sum_congr rfl fun i hi => by
        have := Finset.mem_range.1 hi
        rw [hG i i ⟨by omega, by omega, by omega, by omega⟩]; rfl
    have e2 : ∑ i ∈ Finset.range n.toNat, A i i = ∑ i ∈ Finset.range n.toNat, ∑ l ∈ Finset.range n.toNat, R l i * R l i :=
      Finset.sum_congr rfl fun i hi => by
        have := Finset.mem_range.1 hi
        rw [← hA i i ⟨by omega, by omega, by omega, by omega⟩]; rfl
    rw [e1, e2, Finset.sum_comm]

theorem wp_eigA {α : Type} {m : M (Buf T) α} {s : EigSt T} {Q : α → EigSt T → Prop} :
    M.wp (EigSt.onA m) s Q ↔ M.wp m s.a (fun a b => Q a ⟨b, s.eig, s.g⟩) := by unfold EigSt.onA; rw [M.wp_zoom]
theorem wp_eigE {α : Type} {m : M (Buf T) α} {s : EigSt T} {Q : α → EigSt T → Prop} :
    M.wp (EigSt.onE m) s Q ↔ M.wp m s.eig (fun a b => Q a ⟨s.a, b, s.g⟩) := by unfold EigSt.onE; rw [M.wp_zoom]
theorem wp_eigG {α : Type} {m : M (Buf T) α} {s : EigSt T} {Q : α → EigSt T → Prop} :
    M.wp (EigSt.onG m) s Q ↔ M.wp m s.g (fun a b => Q a ⟨s.a, s.eig, b⟩) := by unfold EigSt.onG; rw [M.wp_zoom]

/-- The diagonal of `G` is written to the eigenvalues. -/
theorem diag_spec {n : Int} {G : Int → Int → T} {g e : Buf T} (hn : 0 ≤ n) (hg : ∀ i j, InR n n i j → g (i + j * n) = .val (G i j))
    (he : ∀ p, 0 ≤ p → p < n → e p ≠ .none) :
    M.wp (forI 0 n fun i => do
      let x ← M.lift (g.rd (i * n + i))
      M.wr i x) e (fun _ e' => (∀ i, 0 ≤ i → i < n → e' i = .val (G i i)) ∧ ∀ p, (p < 0 ∨ n ≤ p) → e' p = e p) := by
  refine M.wp_forI (fun k e' => (∀ i, 0 ≤ i → i < k → e' i = .val (G i i)) ∧ ∀ p, (p < 0 ∨ k ≤ p) → e' p = e p) hn
    ⟨fun i h0 h1 => by omega, fun _ _ => rfl⟩ ?_ (fun _ h => h)
  rintro k e1 hk0 hk ⟨h1, h2⟩
  rw [M.wp_bind, M.wp_lift]
  refine ⟨_, Buf.rd_val (by rw [show k * n + k = k + k * n by ring]; exact hg k k ⟨hk0, hk, hk0, hk⟩), ?_⟩
  rw [M.wp_wr]
  refine ⟨by rw [h2 k (by omega)]; exact he k hk0 hk, fun i h0 hi => ?_, fun p hp => ?_⟩
  · by_cases h : i = k
    · subst h; rw [Buf.set_same]
    · rw [Buf.set_ne h]; exact h1 i h0 (by omega)
  · rw [Buf.set_ne (by omega)]; exact h2 p (by omega)

theorem copyAll_spec {N : Int} {g a : Buf T} {F : Int → T} (hN : 0 ≤ N) (hg : ∀ p, 0 ≤ p → p < N → g p = .val (F p))
    (ha : ∀ p, 0 ≤ p → p < N → a p ≠ .none) :
    M.wp (blasCopy N g 0 1 0 1) a (fun _ a' => (∀ p, 0 ≤ p → p < N → a' p = .val (F p)) ∧ ∀ p, (p < 0 ∨ N ≤ p) → a' p = a p) := by
  unfold blasCopy
  rw [M.wp_bind, wp_blasCheck]
  refine ⟨hN, ?_⟩
  refine M.wp_forI (fun k a' => (∀ i, 0 ≤ i → i < k → a' i = .val (F i)) ∧ ∀ p, (p < 0 ∨ k ≤ p) → a' p = a p) hN
    ⟨fun i h0 h1 => by omega, fun _ _ => rfl⟩ ?_ (fun _ h => h)
  rintro k a1 hk0 hk ⟨h1, h2⟩
  rw [M.wp_bind, M.wp_lift, zero_add, mul_one]
  refine ⟨_, Buf.rd_val (hg k hk0 hk), ?_⟩
  rw [M.wp_wr]
  refine ⟨by rw [h2 k (by omega)]; exact ha k hk0 hk, fun i h0 hi => ?_, fun p hp => ?_⟩
  · by_cases h : i = k
    · subst h; rw [Buf.set_same]
    · rw [Buf.set_ne h]; exact h1 i h0 (by omega)
  · rw [Buf.set_ne (by omega)]; exact h2 p (by omega)

/-- The state between two rounds. -/
structure EigInv (n : Int) (A : Int → Int → T) (a0 e0 : Buf T) (k : Int) (s : EigSt T) : Prop where
  mat : ∃ B : Int → Int → T, (∀ i j, Up n i j → s.a (i + j * n) = .val (B i j)) ∧ PosDefU n B ∧
    (∀ lam, IsEigval n (symU B) lam ↔ IsEigval n (symU A) lam) ∧ ∑ i ∈ Finset.range n.toNat, B i i = ∑ i ∈ Finset.range n.toNat, A i i ∧
    ∀ c, (RayleighGe n A c → RayleighGe n B c) ∧ (RayleighLe n A c → RayleighLe n B c)
  alloc : ∀ p, 0 ≤ p → p < n * n → s.a p ≠ .none
  outA : ∀ p, (p < 0 ∨ n * n ≤ p) → s.a p = a0 p
  allocE : ∀ p, 0 ≤ p → p < n → s.eig p ≠ .none
  outE : ∀ p, (p < 0 ∨ n ≤ p) → s.eig p = e0 p
  eig0 : k = 0 → s.eig = e0
  eig : 0 < k → ∃ e : Int → T, (∀ i, 0 ≤ i → i < n → s.eig i = .val (e i)) ∧ ∑ i ∈ Finset.range n.toNat, e i = ∑ i ∈ Finset.range n.toNat, A i i
  g : ∀ p, 0 ≤ p → p < n * n → ∃ v, s.g p = .val v

/-- What holds when the loop is left because the test succeeded. -/
structure EigDone (n : Int) (tol : T) (A : Int → Int → T) (a0 e0 : Buf T) (s : EigSt T) : Prop where
  outA : ∀ p, (p < 0 ∨ n * n ≤ p) → s.a p = a0 p
  outE : ∀ p, (p < 0 ∨ n ≤ p) → s.eig p = e0 p
  eig : ∃ e : Int → T, (∀ i, 0 ≤ i → i < n → s.eig i = .val (e i)) ∧ ∑ i ∈ Finset.range n.toNat, e i = ∑ i ∈ Finset.range n.toNat, A i i ∧
    ∃ l u, 0 ≤ l ∧ l < n ∧ 0 ≤ u ∧ u < n ∧ (∀ lam, IsEigval n (symU A) lam → (1 - tol) * e l ≤ lam ∧ lam ≤ (1 + tol) * e u) ∧
      ∀ c i, 0 ≤ i → i < n → (RayleighGe n A c → c ≤ e i) ∧ (RayleighLe n A c → e i ≤ c)

theorem cholIterBody_spec {sqrt : T → T} (hs : SqrtOk sqrt) {n b iter : Int} {tol : T} {A : Int → Int → T} {a0 e0 : Buf T} {s : EigSt T}
    (hn : 1 ≤ n) (hb : 0 < b) (hi : 0 ≤ iter) (hinv : EigInv n A a0 e0 iter s) :
    M.wp (cholIterBody sqrt n b tol iter) s (fun o s' => (o = none → EigInv n A a0 e0 (iter + 1) s') ∧
      (o ≠ none → o = some iter ∧ EigDone n tol A a0 e0 s')) := by
  have hn0 : 0 ≤ n := by omega
  have hnn : 0 ≤ n * n := mul_nonneg hn0 hn0
  obtain ⟨⟨B, hB, hpd, heig, htr, hray⟩, halloc, houtA, hallocE, houtE, -, -, hg⟩ := hinv
  obtain ⟨a, e, g⟩ := s
  dsimp only at hB halloc houtA hallocE houtE hg
  unfold cholIterBody
  rw [M.wp_bind, wp_eigA]
  have hpos := (posDef_iff_pivots hs hn0).1 hpd
  unfold potrfUpper
  refine M.wp_mono (potrfUpperF_spec (b0 := a) hb (n.toNat + 1) hn0 (le_refl _) (by omega) (Upd.refl hB)) ?_
  rintro code a1 ⟨h1, -⟩
  have h1 : Upd n (Up n) (cholU sqrt B) a a1 := (h1 hpos).congr fun i j hij => by rw [cholU, if_pos hij.2.1]
  have hup : UpperPos n (cholU sqrt B) := ⟨fun i j h => by rw [cholU, if_neg (by omega)], fun i h0 hi => by
    obtain ⟨k, rfl⟩ := Int.eq_ofNat_of_zero_le h0
    exact cholU_diag_pos hs (hpos k hi)⟩
  have hRB : ∀ i j, InR n n i j → prodEntry n (fun r c => cholU sqrt B c r) (cholU sqrt B) i j = symU B i j := by
    have hG : ∀ i j, 0 ≤ i → i ≤ j → j < n → prodEntry n (fun r c => cholU sqrt B c r) (cholU sqrt B) i j = B i j := by
      intro i j h0 hij hj
      obtain ⟨i, rfl⟩ := Int.eq_ofNat_of_zero_le h0
      obtain ⟨j, rfl⟩ := Int.eq_ofNat_of_zero_le (h0.trans hij)
      have := chol_sum hs n.toNat (fun k hk => hpos k (by omega)) i j (by exact_mod_cast hij)
      rw [if_pos (by omega)] at this
      exact this
    rintro i j ⟨hi0, hi, hj0, hj⟩
    unfold symU
    split
    · rename_i h; exact hG i j hi0 h hj
    · rename_i h
      rw [← prodEntry_trans]
      exact hG j i hj0 (by omega) hi
  generalize cholU sqrt B = R at h1 hup hRB
  dsimp only at h1 ⊢
  rw [M.wp_bind, wp_eigA]
  have hcellA : ∀ i j, InR n n i j → a1 (i + j * n) ≠ .none := by
    intro i j hij
    by_cases h : i ≤ j
    · rw [h1.cells i j ⟨hij.1, h, hij.2.2.2⟩]; simp
    · rw [h1.other (up_rows (le_refl n)) ⟨hij.1, hij.2.1⟩ (fun h' => h h'.2.1)]
      exact halloc _ (pos_range hij).1 (pos_range hij).2
  refine M.wp_mono (overwrite_lower_spec (A := fun i j => a1 (addr .ColMajor n i j)) (b0 := a1) hn0 (by omega) (show LdOk .ColMajor n n n from le_refl _)
    (MatSt.init a1 _ n n) (fun i j hij => by rw [addr_colMajor]; exact hcellA i j hij)) ?_
  intro _ a2 h2
  have h2 : Upd n (InR n n) R a a2 := by
    refine ⟨fun i j hij => ?_, fun p hp => ?_⟩
    · have := h2.cells i j hij
      rw [addr_colMajor] at this
      rw [this]
      split
      · rw [hup.1 i j (by omega)]
      · exact h1.cells i j ⟨hij.1, by omega, hij.2.2.2⟩
    · rw [h2.outside p (fun i j hij => by rw [addr_colMajor]; exact hp i j hij),
        h1.outside p (fun i j hij => hp i j ⟨hij.1, by have := hij.2; omega, by have := hij.1; have := hij.2; omega, hij.2.2⟩)]
  dsimp only
  rw [M.wp_bind, M.wp_get, M.wp_bind, wp_eigG]
  -- the values of G before
  choose! v hv using hg
  refine M.wp_mono (syrkUpperNoTrans_spec (A := R) (C := fun i j => v (i + j * n)) (b0 := g) hn0 hn0 (le_refl _) (le_refl _)
    (fun i j hij => by rw [zero_add]; exact h2.cells i j hij) (Upd.refl fun i j hij => by
      have hij' : InR n n i j := ⟨hij.1, by have := hij.2; omega, by have := hij.1; have := hij.2; omega, hij.2.2⟩
      exact hv _ (pos_range hij').1 (pos_range hij').2)) ?_
  intro _ g1 h3
  dsimp only at h3 ⊢
  rw [M.wp_bind, wp_eigG]
  refine M.wp_mono (symmetrize_upper_spec (A := fun i j => if i ≤ j then prodEntry n R (fun r c => R c r) i j else v (i + j * n)) (b0 := g1) hn0
    (show LdOk .ColMajor n n n from le_refl _) ⟨fun i j hij => ?_, fun _ _ => rfl⟩) ?_
  · rw [addr_colMajor]
    by_cases h : i ≤ j
    · rw [if_pos h]; exact h3.cells i j ⟨hij.1, h, hij.2.2.2⟩
    · dsimp only
      rw [if_neg h, h3.other (up_rows (le_refl n)) ⟨hij.1, hij.2.1⟩ (fun h' => h h'.2.1)]
      exact hv _ (pos_range hij).1 (pos_range hij).2
  intro _ g2 h4
  have h4 : ∀ i j, InR n n i j → g2 (i + j * n) = .val (prodEntry n R (fun r c => R c r) i j) := by
    intro i j hij
    have := h4.cells i j hij
    rw [addr_colMajor] at this
    rw [this]
    congr 1
    split
    · rename_i h
      rw [if_pos (by omega)]
      exact prodEntry_trans n R (fun r c => R c r) i j
    · rename_i h
      rw [if_pos (by omega)]
  obtain ⟨hpd', heig', htr'⟩ := cholStep (G := prodEntry n R (fun r c => R c r)) hup hRB (fun _ _ _ => rfl)
  have hsymG : ∀ i j, InR n n i j → prodEntry n R (fun r c => R c r) i j = prodEntry n R (fun r c => R c r) j i :=
    fun i j _ => (prodEntry_trans n R (fun r c => R c r) i j).symm
  have htrB : ∑ i ∈ Finset.range n.toNat, symU B i i = ∑ i ∈ Finset.range n.toNat, B i i :=
    Finset.sum_congr rfl fun i _ => by rw [symU, if_pos (le_refl _)]
  have hray' := cholStep_rayleigh (G := prodEntry n R (fun r c => R c r)) hup hRB (fun i j hij => by
    unfold symU
    split
    · rfl
    · exact (hsymG i j hij).symm)
  generalize prodEntry n R (fun r c => R c r) = G at h4 hpd' heig' htr' hsymG hray'
  dsimp only
  rw [M.wp_bind, M.wp_get, M.wp_bind, wp_eigE]
  refine M.wp_mono (diag_spec hn0 h4 hallocE) ?_
  rintro _ e1 ⟨h5, h6⟩
  dsimp only at h5 h6 ⊢
  rw [M.wp_bind, wp_eigG]
  refine M.wp_mono (gershgorin_spec hn h4) ?_
  rintro res g3 ⟨rfl, l, u, hl0, hl, hu0, hu, hmin, hmax, hres⟩
  have houtA2 : ∀ p, (p < 0 ∨ n * n ≤ p) → a2 p = a0 p := fun p hp => by
    rw [h2.outside p (fun i j hij he => by have := pos_range hij; omega)]; exact houtA p hp
  cases res with
  | true =>
    rw [if_pos rfl, M.wp_pure]
    obtain ⟨hrl, hru⟩ := hres.1 rfl
    refine ⟨fun h => absurd h (by simp), fun _ => ⟨rfl, houtA2, fun p hp => by dsimp only; rw [h6 p hp]; exact houtE p hp, fun i => G i i, h5, ?_, l, u, hl0, hl, hu0, hu,
      fun lam hlam => ?_, fun c i hi0 hi => ⟨fun h => ?_, fun h => ?_⟩⟩⟩
    · rw [htr', htrB, htr]
    · obtain ⟨i, hi0, hi, hdisc⟩ := gersh_disc hsymG ((heig' lam).2 ((heig lam).2 hlam))
      have := abs_le.1 hdisc
      have h7 := hmin i hi0 hi
      have h8 := hmax i hi0 hi
      constructor
      · have : (1 - tol) * G l l = G l l - tol * G l l := by ring
        linarith
      · have : (1 + tol) * G u u = G u u + tol * G u u := by ring
        linarith
    · exact (rayleigh_diag hi0 hi).1 ((hray' c).1 ((hray c).1 h))
    · exact (rayleigh_diag hi0 hi).2 ((hray' c).2 ((hray c).2 h))
  | false =>
    rw [if_neg (by simp), M.wp_bind, M.wp_get, M.wp_bind, wp_eigA]
    refine M.wp_mono (copyAll_spec (F := fun p => G (p % n) (p / n)) hnn (fun p h0 hp => ?_) (fun p h0 hp => ?_)) ?_
    · obtain ⟨i, j, hij, rfl⟩ := pos_split h0 hp hn0
      dsimp only
      rw [h4 i j hij, Int.add_mul_emod_self_right, Int.emod_eq_of_lt hij.1 hij.2.1, Int.add_mul_ediv_right _ _ (by omega), Int.ediv_eq_zero_of_lt hij.1 hij.2.1,
        zero_add]
    · obtain ⟨i, j, hij, rfl⟩ := pos_split h0 hp hn0
      dsimp only
      rw [h2.cells i j hij]; simp
    rintro _ a3 ⟨h7, h8⟩
    rw [M.wp_pure]
    dsimp only at h8 ⊢
    refine ⟨fun _ => ⟨⟨G, fun i j hij => ?_, hpd', fun lam => ?_, ?_, fun c => ⟨fun h => (hray' c).1 ((hray c).1 h), fun h => (hray' c).2 ((hray c).2 h)⟩⟩, fun p h0 hp => by dsimp only; rw [h7 p h0 hp]; simp, fun p hp => ?_, fun p h0 hp => by dsimp only; rw [h5 p h0 hp]; simp, fun p hp => ?_,
      fun h => by omega, fun _ => ⟨fun i => G i i, h5, ?_⟩, fun p h0 hp => ?_⟩, fun h => absurd rfl h⟩
    · have hij' : InR n n i j := ⟨hij.1, by have := hij.2; omega, by have := hij.1; have := hij.2; omega, hij.2.2⟩
      dsimp only
      rw [h7 _ (pos_range hij').1 (pos_range hij').2, Int.add_mul_emod_self_right, Int.emod_eq_of_lt hij'.1 hij'.2.1, Int.add_mul_ediv_right _ _ (by omega),
        Int.ediv_eq_zero_of_lt hij'.1 hij'.2.1, zero_add]
    · rw [← heig lam, ← heig' lam]
      have hs : ∀ i j, InR n n i j → symU G i j = G i j := fun i j hij => by
        unfold symU
        split
        · rfl
        · exact (hsymG i j hij).symm
      exact ⟨isEigval_congr hs, isEigval_congr fun i j hij => (hs i j hij).symm⟩
    · rw [htr', htrB, htr]
    · dsimp only; rw [h8 p hp, houtA2 p hp]
    · dsimp only; rw [h6 p hp]; exact houtE p hp
    · rw [htr', htrB, htr]
    · obtain ⟨i, j, hij, rfl⟩ := pos_split h0 hp hn0
      exact ⟨_, h4 i j hij⟩

theorem posdefEigChol_spec {sqrt : T → T} (hs : SqrtOk sqrt) {n b maxIters : Int} {tol : T} {A : Int → Int → T} {a0 e0 : Buf T}
    (hn : 1 ≤ n) (hb : 0 < b) (hA : ∀ i j, Up n i j → a0 (i + j * n) = .val (A i j)) (hpd : PosDefU n A)
    (hal : ∀ p, 0 ≤ p → p < n * n → a0 p ≠ .none) (hale : ∀ p, 0 ≤ p → p < n → e0 p ≠ .none) :
    M.wp (posdefEigChol sqrt n tol maxIters b) (a0, e0) (fun code s =>
      (∃ t, 0 ≤ code ∧ code < maxIters ∧ s = (t.a, t.eig) ∧ EigDone n tol A a0 e0 t) ∨
      (∃ t, code = - max 0 maxIters ∧ s = (t.a, t.eig) ∧ EigInv n A a0 e0 (max 0 maxIters) t)) := by
  unfold posdefEigChol
  rw [M.wp_zoom, M.wp_bind]
  have h0 : EigInv n A a0 e0 0 ⟨a0, e0, Buf.ofFn (n * n) fun _ => 0⟩ :=
    ⟨⟨A, hA, hpd, fun _ => Iff.rfl, rfl, fun _ => ⟨id, id⟩⟩, hal, fun _ _ => rfl, hale, fun _ _ => rfl, fun _ => rfl, fun h => absurd h (lt_irrefl _),
      fun p h0 hp => ⟨0, by simp [Buf.ofFn, h0, hp]⟩⟩
  rcases le_or_gt 0 maxIters with hm | hm
  · refine M.wp_findI (fun k t => EigInv n A a0 e0 k t) hm h0 (fun k t hk0 hk ht => ?_) (fun t ht => ?_)
    · refine M.wp_mono (cholIterBody_spec hs hn (lt_min hb (by omega)) hk0 ht) ?_
      rintro o t' ⟨h1, h2⟩
      refine ⟨h1, fun ho => ?_⟩
      obtain ⟨rfl, h3⟩ := h2 ho
      rw [M.wp_pure]
      exact Or.inl ⟨t', hk0, hk, rfl, h3⟩
    · rw [M.wp_pure]
      exact Or.inr ⟨t, rfl, rfl, by rw [max_eq_right hm]; exact ht⟩
  · have : findI 0 maxIters (cholIterBody sqrt n (min b n) tol) = pure none := by
      unfold findI
      rw [show (maxIters - 0).toNat = 0 by omega]
      rfl
    rw [this, M.wp_pure, M.wp_pure]
    exact Or.inr ⟨_, rfl, rfl, by rw [max_eq_left hm.le]; exact h0⟩

end RB
