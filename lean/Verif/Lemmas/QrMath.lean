import Verif.Lemmas.Tri

/-! # Linear algebra behind the QR decompositions -/

namespace RB
open Spec

variable {T : Type}

section
variable [CommRing T]

theorem prodEntry_ext {m : Int} {A A' B B' : Int → Int → T} {i j : Int} (hA : ∀ k, 0 ≤ k → k < m → A i k = A' i k)
    (hB : ∀ k, 0 ≤ k → k < m → B k j = B' k j) : prodEntry m A B i j = prodEntry m A' B' i j := by
  unfold prodEntry
  refine Finset.sum_congr rfl fun k hk => ?_
  have := Finset.mem_range.1 hk
  rw [hA k (by omega) (by omega), hB k (by omega) (by omega)]

theorem prodEntry_assoc (m n : Int) (A B C : Int → Int → T) (i j : Int) :
    prodEntry n (prodEntry m A B) C i j = prodEntry m A (prodEntry n B C) i j := by
  unfold prodEntry
  simp only [Finset.sum_mul, Finset.mul_sum]
  rw [Finset.sum_comm]
  simp only [mul_assoc]

theorem prodEntry_trans (m : Int) (A B : Int → Int → T) (i j : Int) :
    prodEntry m (fun r c => B c r) (fun r c => A c r) j i = prodEntry m A B i j := by
  unfold prodEntry
  exact Finset.sum_congr rfl fun k _ => mul_comm _ _

theorem prodEntry_sub (m : Int) (A B C : Int → Int → T) (i j : Int) :
    prodEntry m A (fun r c => B r c - C r c) i j = prodEntry m A B i j - prodEntry m A C i j := by
  unfold prodEntry
  rw [← Finset.sum_sub_distrib]
  exact Finset.sum_congr rfl fun k _ => mul_sub _ _ _

theorem prodEntry_sub_left (m : Int) (A B C : Int → Int → T) (i j : Int) :
    prodEntry m (fun r c => A r c - B r c) C i j = prodEntry m A C i j - prodEntry m B C i j := by
  unfold prodEntry
  rw [← Finset.sum_sub_distrib]
  exact Finset.sum_congr rfl fun k _ => sub_mul _ _ _

theorem prodEntry_one_left {m : Int} (B : Int → Int → T) {i : Int} (j : Int) (h0 : 0 ≤ i) (hm : i < m) :
    prodEntry m (fun r c => if r = c then 1 else 0) B i j = B i j := by
  obtain ⟨i, rfl⟩ := Int.eq_ofNat_of_zero_le h0
  unfold prodEntry
  simp only [ite_mul, one_mul, zero_mul, Nat.cast_inj]
  rw [Finset.sum_ite_eq, if_pos (Finset.mem_range.2 (by omega))]

theorem prodEntry_zero_right {m : Int} {A B : Int → Int → T} {i j : Int} (h : ∀ k, 0 ≤ k → k < m → B k j = 0) :
    prodEntry m A B i j = 0 := by
  unfold prodEntry
  refine Finset.sum_eq_zero fun k hk => ?_
  have := Finset.mem_range.1 hk
  rw [h k (by omega) (by omega), mul_zero]

theorem prodEntry_zero_left {m : Int} {A B : Int → Int → T} {i j : Int} (h : ∀ k, 0 ≤ k → k < m → A i k = 0) :
    prodEntry m A B i j = 0 := by
  unfold prodEntry
  refine Finset.sum_eq_zero fun k hk => ?_
  have := Finset.mem_range.1 hk
  rw [h k (by omega) (by omega), zero_mul]

/-- A product over an inner dimension in two parts. -/
theorem prodEntry_add {b c : Int} (hb : 0 ≤ b) (hc : 0 ≤ c) (A B : Int → Int → T) (i j : Int) :
    prodEntry (b + c) A B i j = prodEntry b A B i j + prodEntry c (fun r k => A r (b + k)) (fun k r => B (b + k) r) i j := by
  unfold prodEntry
  rw [Int.toNat_add hb hc, Finset.sum_range_add]
  congr 1
  refine Finset.sum_congr rfl fun k _ => ?_
  rw [show ((b.toNat + k : Nat) : Int) = b + k by push_cast; omega]
end

section
variable [Field T] [LinearOrder T]

/-- A row that is annihilated by an invertible triangular matrix is zero. -/
theorem upper_cancel_right {n : Int} {R X : Int → Int → T} (hR : UpperPos n R) {i : Int} (h : ∀ j, 0 ≤ j → j < n → prodEntry n X R i j = 0) :
    ∀ j, 0 ≤ j → j < n → X i j = 0 := by
  intro j h0 hj
  have := tri_zero_left (R := fun i j => R i j) n.toNat (fun i j h => hR.1 _ _ (by omega)) (fun k hk => (hR.2 k (by omega) (by omega)).ne')
    (y := fun l => X i l) (fun k hk => h k (by omega) (by omega)) j.toNat (by omega)
  rwa [show ((j.toNat : Nat) : Int) = j by omega] at this

theorem upper_cancel_left {n : Int} {R X : Int → Int → T} (hR : UpperPos n R) {j : Int}
    (h : ∀ i, 0 ≤ i → i < n → prodEntry n (fun r c => R c r) X i j = 0) : ∀ i, 0 ≤ i → i < n → X i j = 0 := by
  intro i h0 hi
  refine upper_cancel_right (X := fun r c => X c r) (i := j) hR (fun k hk0 hk => ?_) i h0 hi
  rw [← h k hk0 hk]
  exact (prodEntry_trans n (fun r c => R c r) X k j)

/-- Solve a triangular system. -/
theorem upper_solve {n : Int} {R : Int → Int → T} (hR : UpperPos n R) (y : Int → T) :
    ∃ x : Int → T, ∀ l, 0 ≤ l → l < n → ∑ i ∈ Finset.range n.toNat, R l i * x i = y l := by
  obtain ⟨x, hx⟩ := tri_solve (R := fun i j => R i j) n.toNat (fun i j h => hR.1 _ _ (by omega))
    (fun k hk => (hR.2 k (by omega) (by omega)).ne') (fun l => y l)
  refine ⟨fun i => x i.toNat, fun l h0 hl => ?_⟩
  have := hx l.toNat (by omega)
  rw [show ((l.toNat : Nat) : Int) = l by omega] at this
  simpa using this

/-- The product of two upper triangular matrices with positive diagonals is one. -/
theorem upperPos_mul [IsStrictOrderedRing T] {n : Int} {R S : Int → Int → T} (hR : UpperPos n R) (hS : UpperPos n S) :
    UpperPos n (prodEntry n R S) := by
  constructor
  · intro i j hji
    unfold prodEntry
    refine Finset.sum_eq_zero fun k _ => ?_
    rcases lt_or_ge (k : Int) i with h | h
    · rw [hR.1 i k h, zero_mul]
    · rw [hS.1 k j (by omega), mul_zero]
  · intro i h0 hn
    have : prodEntry n R S i i = R i i * S i i := by
      unfold prodEntry
      rw [Finset.sum_eq_single i.toNat]
      · rw [show ((i.toNat : Nat) : Int) = i by omega]
      · intro k _ hk
        rcases lt_or_ge (k : Int) i with h | h
        · rw [hR.1 i k h, zero_mul]
        · rw [hS.1 k i (by omega), mul_zero]
      · intro h
        exact absurd (Finset.mem_range.2 (by omega)) h
    rw [this]
    exact mul_pos (hR.2 i h0 hn) (hS.2 i h0 hn)

variable [IsStrictOrderedRing T]

/-- The Gram matrix of linearly independent columns is positive definite. -/
theorem gram_posDef {m n : Int} {A : Int → Int → T} (h : FullColRank m n A) : PosDefU n (prodEntry m (fun r c => A c r) A) := by
  rintro x ⟨i, h0, hi, hx⟩
  have hsym : ∀ i j, symU (prodEntry m (fun r c => A c r) A) i j = prodEntry m (fun r c => A c r) A i j := by
    intro i j
    unfold symU
    split
    · rfl
    · exact prodEntry_trans m (fun r c => A c r) A i j
  have hq : quadU n (prodEntry m (fun r c => A c r) A) x = ∑ l ∈ Finset.range m.toNat, (∑ j ∈ Finset.range n.toNat, A l j * x j) ^ 2 := by
    unfold quadU
    simp only [hsym, prodEntry, pow_two, Finset.sum_mul, Finset.mul_sum]
    rw [Finset.sum_congr rfl fun i _ => Finset.sum_comm, Finset.sum_comm]
    refine Finset.sum_congr rfl fun l _ => ?_
    rw [Finset.sum_comm]
    refine Finset.sum_congr rfl fun j _ => Finset.sum_congr rfl fun i _ => by ring
  rw [hq]
  have hnn : ∀ l ∈ Finset.range m.toNat, 0 ≤ (∑ j ∈ Finset.range n.toNat, A l j * x j) ^ 2 := fun l _ => sq_nonneg _
  refine lt_of_le_of_ne (Finset.sum_nonneg hnn) (fun h1 => hx (h x (fun r hr0 hrm => ?_) i h0 hi))
  have := (Finset.sum_eq_zero_iff_of_nonneg hnn).1 h1.symm r.toNat (Finset.mem_range.2 (by omega))
  rw [show ((r.toNat : Nat) : Int) = r by omega] at this
  exact pow_eq_zero_iff (two_ne_zero) |>.1 this

omit [IsStrictOrderedRing T] in
/-- `Q R = A` and `R^T R = A^T A` with invertible R imply that Q has orthonormal columns. -/
theorem ortho_of_factor {m n : Int} {A Q R : Int → Int → T} (hR : UpperPos n R)
    (hG : ∀ i j, InR n n i j → prodEntry n (fun r c => R c r) R i j = prodEntry m (fun r c => A c r) A i j)
    (hQ : ∀ i j, InR m n i j → prodEntry n Q R i j = A i j) : OrthoCols m n Q := by
  have hF : ∀ i j, InR n n i j → prodEntry m (fun r c => Q c r) A i j - R i j = 0 := by
    intro i j hij
    refine upper_cancel_left (X := fun i j => prodEntry m (fun r c => Q c r) A i j - R i j) hR (j := j) (fun k hk0 hk => ?_) i hij.1 hij.2.1
    rw [prodEntry_sub, ← prodEntry_assoc, hG k j ⟨hk0, hk, hij.2.2.1, hij.2.2.2⟩, sub_eq_zero]
    refine prodEntry_ext (fun l hl0 hl => ?_) (fun _ _ _ => rfl)
    rw [← hQ l k ⟨hl0, hl, hk0, hk⟩]
    exact prodEntry_trans n Q R l k
  intro i j hij
  have := upper_cancel_right (X := fun i j => prodEntry m (fun r c => Q c r) Q i j - if i = j then 1 else 0) hR (i := i) (fun k hk0 hk => ?_) j
    hij.2.2.1 hij.2.2.2
  · exact sub_eq_zero.1 this
  · rw [prodEntry_sub_left, prodEntry_one_left _ _ hij.1 hij.2.1, prodEntry_assoc, ← hF i k ⟨hij.1, hij.2.1, hk0, hk⟩]
    congr 1
    exact prodEntry_ext (fun _ _ _ => rfl) (fun l hl0 hl => hQ l k ⟨hl0, hl, hk0, hk⟩)

omit [IsStrictOrderedRing T] [LinearOrder T] in
theorem ortho_fullRank {m n : Int} {Q : Int → Int → T} (hQ : OrthoCols m n Q) : FullColRank m n Q := by
  intro x hx j h0 hj
  have h1 : prodEntry n (prodEntry m (fun r c => Q c r) Q) (fun k _ => x k) j 0 = 0 := by
    rw [prodEntry_assoc]
    exact prodEntry_zero_right fun k hk0 hk => hx k hk0 hk
  rw [prodEntry_ext (A' := fun r c => if r = c then 1 else 0) (B' := fun k _ => x k) (fun k hk0 hk => hQ j k ⟨h0, hj, hk0, hk⟩) (fun _ _ _ => rfl),
    prodEntry_one_left _ _ h0 hj] at h1
  exact h1

omit [IsStrictOrderedRing T] in
/-- The trailing columns after one step of block Gram-Schmidt are linearly independent. -/
theorem trail_fullRank {m b c : Int} {A Q R S : Int → Int → T} (hb : 0 ≤ b) (hc : 0 ≤ c) (hR : UpperPos b R) (hA : FullColRank m (b + c) A)
    (hQ : ∀ i j, InR m b i j → prodEntry b Q R i j = A i j) :
    FullColRank m c (fun i j => A i (b + j) - prodEntry b Q S i j) := by
  intro y hy
  obtain ⟨x, hx⟩ := upper_solve hR (fun l => ∑ j ∈ Finset.range c.toNat, S l j * y j)
  have := hA (fun j => if j < b then - x j else y (j - b)) (fun i h0 hi => ?_)
  · intro j h0 hj
    have := this (b + j) (by omega) (by omega)
    rwa [if_neg (by omega), add_sub_cancel_left] at this
  · rw [Int.toNat_add hb hc, Finset.sum_range_add]
    have e1 : ∑ j ∈ Finset.range b.toNat, A i j * (if (j : Int) < b then - x j else y (j - b)) =
        - prodEntry b Q (prodEntry c S (fun k _ => y k)) i 0 := by
      have : prodEntry b Q (prodEntry c S (fun k _ => y k)) i 0 = prodEntry b Q (prodEntry b R (fun k _ => x k)) i 0 :=
        prodEntry_ext (fun _ _ _ => rfl) (fun l hl0 hl => (hx l hl0 hl).symm)
      rw [this, ← prodEntry_assoc, prodEntry, ← Finset.sum_neg_distrib]
      refine Finset.sum_congr rfl fun j hj => ?_
      have := Finset.mem_range.1 hj
      rw [if_pos (by omega), hQ i j ⟨h0, hi, by omega, by omega⟩, mul_neg]
    have e2 : ∑ j ∈ Finset.range c.toNat, A i ((b.toNat + j : Nat) : Int) * (if ((b.toNat + j : Nat) : Int) < b then - x ((b.toNat + j : Nat) : Int) else y (((b.toNat + j : Nat) : Int) - b)) =
        prodEntry c (prodEntry b Q S) (fun k _ => y k) i 0 := by
      have h1 := hy i h0 hi
      simp only [sub_mul, Finset.sum_sub_distrib] at h1
      rw [prodEntry, ← sub_eq_zero, ← h1]
      congr 1
      refine Finset.sum_congr rfl fun j hj => ?_
      rw [if_neg (by omega), show ((b.toNat + j : Nat) : Int) = b + j by omega, add_sub_cancel_left]
    rw [e1, e2, prodEntry_assoc]
    ring

omit [IsStrictOrderedRing T] in
/-- One step of block Gram-Schmidt: the factors of the blocks form the factors of the matrix. -/
theorem block_qr {m b c : Int} {A Q1 R1 S Q2 R2 : Int → Int → T} (hb : 0 ≤ b) (hc : 0 ≤ c) (h1 : OrthoCols m b Q1) (hR1 : UpperPos b R1)
    (hA1 : ∀ i j, InR m b i j → prodEntry b Q1 R1 i j = A i j)
    (hS : ∀ i j, InR b c i j → S i j = prodEntry m (fun r c => Q1 c r) (fun r c => A r (b + c)) i j)
    (h2 : OrthoCols m c Q2) (hR2 : UpperPos c R2)
    (hA2 : ∀ i j, InR m c i j → prodEntry c Q2 R2 i j = A i (b + j) - prodEntry b Q1 S i j) :
    OrthoCols m (b + c) (fun i j => if j < b then Q1 i j else Q2 i (j - b)) ∧
    UpperPos (b + c) (fun i j => if i < b then (if j < b then R1 i j else S i (j - b)) else if j < b then 0 else R2 (i - b) (j - b)) ∧
    ∀ i j, InR m (b + c) i j → prodEntry (b + c) (fun i j => if j < b then Q1 i j else Q2 i (j - b))
      (fun i j => if i < b then (if j < b then R1 i j else S i (j - b)) else if j < b then 0 else R2 (i - b) (j - b)) i j = A i j := by
  have hcross : ∀ i j, InR b c i j → prodEntry m (fun r c => Q1 c r) Q2 i j = 0 := by
    intro i j hij
    refine upper_cancel_right (X := prodEntry m (fun r c => Q1 c r) Q2) hR2 (fun k hk0 hk => ?_) j hij.2.2.1 hij.2.2.2
    rw [prodEntry_assoc, prodEntry_ext (A' := fun r c => Q1 c r) (B' := fun r j => A r (b + j) - prodEntry b Q1 S r j) (fun _ _ _ => rfl)
      (fun l hl0 hl => hA2 l k ⟨hl0, hl, hk0, hk⟩), prodEntry_sub, ← prodEntry_assoc,
      prodEntry_ext (A := prodEntry m (fun r c => Q1 c r) Q1) (A' := fun r c => if r = c then 1 else 0) (B' := S)
        (fun l hl0 hl => h1 i l ⟨hij.1, hij.2.1, hl0, hl⟩) (fun _ _ _ => rfl), prodEntry_one_left _ _ hij.1 hij.2.1,
      hS i k ⟨hij.1, hij.2.1, hk0, hk⟩, sub_self]
  refine ⟨?_, ⟨?_, ?_⟩, ?_⟩
  · rintro i j ⟨hi0, hi, hj0, hj⟩
    by_cases hib : i < b
    · by_cases hjb : j < b
      · rw [← h1 i j ⟨hi0, hib, hj0, hjb⟩]
        exact prodEntry_ext (fun k _ _ => if_pos hib) (fun k _ _ => if_pos hjb)
      · rw [if_neg (by omega), ← hcross i (j - b) ⟨hi0, hib, by omega, by omega⟩]
        refine (prodEntry_ext (A' := fun r c => Q1 c r) (B' := fun r c => Q2 r (c - b)) (fun k _ _ => if_pos hib) (fun k _ _ => if_neg hjb)).trans ?_
        rfl
    · by_cases hjb : j < b
      · rw [if_neg (by omega), ← hcross j (i - b) ⟨hj0, hjb, by omega, by omega⟩, ← prodEntry_trans]
        refine (prodEntry_ext (A' := fun r c => Q1 c r) (B' := fun r c => Q2 r (c - b)) (fun k _ _ => if_pos hjb) (fun k _ _ => if_neg hib)).trans ?_
        rfl
      · have := h2 (i - b) (j - b) ⟨by omega, by omega, by omega, by omega⟩
        have e : (i - b = j - b) = (i = j) := by rw [sub_left_inj]
        simp only [e] at this
        rw [← this]
        refine (prodEntry_ext (A' := fun r c => Q2 c (r - b)) (B' := fun r c => Q2 r (c - b)) (fun k _ _ => if_neg hib) (fun k _ _ => if_neg hjb)).trans ?_
        rfl
  · intro i j hji
    dsimp only
    by_cases hib : i < b
    · rw [if_pos hib, if_pos (by omega), hR1.1 i j hji]
    · rw [if_neg hib]
      split
      · rfl
      · exact hR2.1 _ _ (by omega)
  · intro i h0 hi
    dsimp only
    by_cases hib : i < b
    · rw [if_pos hib, if_pos hib]; exact hR1.2 i h0 hib
    · rw [if_neg hib, if_neg hib]; exact hR2.2 _ (by omega) (by omega)
  · rintro i j ⟨hi0, hi, hj0, hj⟩
    rw [prodEntry_add hb hc]
    by_cases hjb : j < b
    · rw [prodEntry_ext (A' := Q1) (B' := R1) (fun k _ hk => if_pos hk) (fun k _ hk => by rw [if_pos hk, if_pos hjb]),
        hA1 i j ⟨hi0, hi, hj0, hjb⟩, prodEntry_zero_right, add_zero]
      intro k hk0 hk
      rw [if_neg (by omega), if_pos hjb]
    · rw [prodEntry_ext (A' := Q1) (B' := fun r c => S r (c - b)) (fun k _ hk => if_pos hk) (fun k _ hk => by rw [if_pos hk, if_neg hjb]),
        prodEntry_ext (A := fun r k => if b + k < b then Q1 r (b + k) else Q2 r (b + k - b)) (A' := Q2) (B' := fun r c => R2 r (c - b))
        (fun k hk0 hk => by rw [if_neg (by omega), add_sub_cancel_left]) (fun k hk0 hk => by rw [if_neg (by omega), if_neg hjb, add_sub_cancel_left])]
      have := hA2 i (j - b) ⟨hi0, hi, by omega, by omega⟩
      rw [add_sub_cancel] at this
      have e1 : prodEntry b Q1 (fun r c => S r (c - b)) i j = prodEntry b Q1 S i (j - b) := rfl
      have e2 : prodEntry c Q2 (fun r c => R2 r (c - b)) i j = prodEntry c Q2 R2 i (j - b) := rfl
      rw [e1, e2, this]
      ring
end

end RB
