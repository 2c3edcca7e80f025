import Verif.Lemmas.Eig
import Verif.Props.Util

/-! # Lemmas about the power method -/

namespace RB
open Spec

variable {T : Type} [Field T] [LinearOrder T]

omit [LinearOrder T] in
theorem blasDot_spec {n : Int} {x y : Int → T} {b yb : Buf T} (hn : 0 ≤ n) (hx : HoldsVec b n x) (hy : HoldsVec yb n y) :
    M.wp (blasDot n yb) b (fun r b' => b' = b ∧ r = dotV n x y) := by
  unfold blasDot
  refine M.wp_foldI (fun k t s' => s' = b ∧ t = ∑ l ∈ Finset.range k.toNat, x l * y l) hn ⟨rfl, by simp⟩ ?_ ?_
  · rintro k t s' h0 hk ⟨rfl, rfl⟩
    simp only [M.wp_bind, M.wp_rd, M.wp_lift, M.wp_pure]
    refine ⟨_, hx k h0 hk, _, Buf.rd_val (hy k h0 hk), trivial, ?_⟩
    rw [show (k + 1).toNat = k.toNat + 1 by omega, Finset.sum_range_succ, show ((k.toNat : Nat) : Int) = k by omega]
  · rintro t s' ⟨rfl, rfl⟩
    exact ⟨rfl, rfl⟩

omit [LinearOrder T] in
theorem blasNrm2_spec {sqrt : T → T} {n : Int} {x : Int → T} {b : Buf T} (hn : 0 ≤ n) (hx : HoldsVec b n x) :
    M.wp (blasNrm2 sqrt n) b (fun r b' => b' = b ∧ r = sqrt (dotV n x x)) := by
  unfold blasNrm2
  rw [M.wp_bind]
  refine M.wp_foldI (fun k t s' => s' = b ∧ t = ∑ l ∈ Finset.range k.toNat, x l * x l) hn ⟨rfl, by simp⟩ ?_ ?_
  · rintro k t s' h0 hk ⟨rfl, rfl⟩
    simp only [M.wp_bind, M.wp_rd, M.wp_pure]
    refine ⟨_, hx k h0 hk, trivial, ?_⟩
    rw [show (k + 1).toNat = k.toNat + 1 by omega, Finset.sum_range_succ, show ((k.toNat : Nat) : Int) = k by omega]
  · rintro t s' ⟨rfl, rfl⟩
    rw [M.wp_pure]
    exact ⟨rfl, rfl⟩

omit [LinearOrder T] in
theorem blasGemv_spec {n a0 : Int} {A : Int → Int → T} {x : Int → T} {Ab xb b : Buf T} (hn : 0 ≤ n)
    (hA : ∀ i j, InR n n i j → Ab (a0 + (i + j * n)) = .val (A i j)) (hx : HoldsVec xb n x) (hb : ∀ i, 0 ≤ i → i < n → b i ≠ .none) :
    M.wp (blasGemv n Ab a0 xb) b (fun _ b' => HoldsVec b' n (mulVec n A x) ∧ SameOutsideVec b b' n) := by
  unfold blasGemv
  rw [M.wp_bind, wp_blasCheck]
  refine ⟨hn, ?_⟩
  refine M.wp_forI (fun k b' => (∀ i, 0 ≤ i → i < k → b' i = .val (mulVec n A x i)) ∧ ∀ p, (p < 0 ∨ k ≤ p) → b' p = b p) hn
    ⟨fun i h0 h1 => by omega, fun _ _ => rfl⟩ ?_ (fun _ h => h)
  rintro k b1 hk0 hk ⟨h1, h2⟩
  rw [M.wp_bind]
  refine dot_spec (F := fun l => A k l) (G := x) hn (fun l h0 hl => Buf.rd_val (hA k l ⟨hk0, hk, h0, hl⟩))
    (fun l h0 hl => Buf.rd_val (hx l h0 hl)) ?_
  rw [M.wp_wr]
  refine ⟨by rw [h2 k (by omega)]; exact hb k hk0 hk, fun i h0 hi => ?_, fun p hp => ?_⟩
  · by_cases h : i = k
    · subst h; rw [Buf.set_same]; rfl
    · rw [Buf.set_ne h]; exact h1 i h0 (by omega)
  · rw [Buf.set_ne (by omega)]; exact h2 p (by omega)

omit [LinearOrder T] in
theorem scal_spec {n : Int} {a : T} {x : Int → T} {b : Buf T} (hn : 0 ≤ n) (hx : HoldsVec b n x) :
    M.wp (blasScal n a 0 1) b (fun _ b' => HoldsVec b' n (fun i => a * x i) ∧ SameOutsideVec b b' n) := by
  refine M.wp_mono (blasScal_spec (v := x) hn (by norm_num) (fun i h0 hi => by rw [zero_add, mul_one]; exact hx i h0 hi)) ?_
  rintro _ b' ⟨h1, h2⟩
  refine ⟨fun i h0 hi => ?_, fun p hp => h2 p fun i h0 hi => by omega⟩
  have := h1 i h0 hi
  rwa [zero_add, mul_one] at this

omit [LinearOrder T] in
theorem dotV_congr {n : Int} {x x' y y' : Int → T} (hx : ∀ i, 0 ≤ i → i < n → x i = x' i) (hy : ∀ i, 0 ≤ i → i < n → y i = y' i) :
    dotV n x y = dotV n x' y' :=
  Finset.sum_congr rfl fun i hi => by
    have := Finset.mem_range.1 hi
    rw [hx i (by omega) (by omega), hy i (by omega) (by omega)]

omit [LinearOrder T] in
theorem dotV_smul (n : Int) (a b : T) (x y : Int → T) : dotV n (fun i => a * x i) (fun i => b * y i) = a * b * dotV n x y := by
  unfold dotV
  rw [Finset.mul_sum]
  exact Finset.sum_congr rfl fun i _ => by ring

omit [LinearOrder T] in
theorem mulVec_smul (n : Int) (A : Int → Int → T) (a : T) (x : Int → T) (i : Int) : mulVec n A (fun j => a * x j) i = a * mulVec n A x i := by
  unfold mulVec
  rw [Finset.mul_sum]
  exact Finset.sum_congr rfl fun i _ => by ring

section
variable [IsStrictOrderedRing T]

theorem dotV_pos {n : Int} {x : Int → T} (h : ∃ i, 0 ≤ i ∧ i < n ∧ x i ≠ 0) : 0 < dotV n x x := by
  obtain ⟨i, h0, hi, hx⟩ := h
  refine Finset.sum_pos' (fun _ _ => mul_self_nonneg _) ⟨i.toNat, Finset.mem_range.2 (by omega), ?_⟩
  rw [show ((i.toNat : Nat) : Int) = i by omega]
  exact mul_self_pos.2 hx

theorem dotV_nonneg (n : Int) (x : Int → T) : 0 ≤ dotV n x x := Finset.sum_nonneg fun _ _ => mul_self_nonneg _

/-- What the operator passed to the power method does. -/
def OpSpec (n : Int) (A : Int → Int → T) (op : Buf T → M (Buf T) Unit) : Prop :=
  ∀ (v y : Buf T) (x : Int → T), HoldsVec v n x → (∀ i, 0 ≤ i → i < n → y i ≠ .none) →
    M.wp (op v) y (fun _ y' => HoldsVec y' n (mulVec n A x) ∧ SameOutsideVec y y' n)

/-- `v` holds a vector of norm one in the direction of `u`. -/
structure Unit1 (n : Int) (v0 : Buf T) (u : Int → T) (v : Buf T) : Prop where
  cells : ∃ s : T, 0 < s ∧ s * s = dotV n u u ∧ HoldsVec v n (fun i => u i / s)
  out : SameOutsideVec v0 v n

theorem powerStep_spec {sqrt : T → T} (hs : SqrtOk sqrt) {n : Int} {A : Int → Int → T} {op : Buf T → M (Buf T) Unit} {v0 v w : Buf T}
    {u : Int → T} (hn : 0 ≤ n) (hop : OpSpec n A op) (hw : ∀ i, 0 ≤ i → i < n → w i ≠ .none) (hv : Unit1 n v0 u v)
    (hnz : ∃ i, 0 ≤ i ∧ i < n ∧ mulVec n A u i ≠ 0) :
    M.wp (powerStep sqrt n op) (v, w) (fun lam t => lam * dotV n u u = dotV n u (mulVec n A u) ∧
      (∀ i, 0 ≤ i → i < n → t.2 i ≠ .none) ∧ Unit1 n v0 (mulVec n A u) t.1) := by
  obtain ⟨⟨s, hs0, hss, hc⟩, hout⟩ := hv
  have hsn := hs0.ne'
  unfold powerStep
  rw [M.wp_bind, M.wp_get, M.wp_bind, wp_onSnd]
  refine M.wp_mono (hop v w _ hc hw) ?_
  rintro _ w1 ⟨h1, -⟩
  have h1 : HoldsVec w1 n (fun i => 1 / s * mulVec n A u i) := fun i h0 hi => by
    dsimp only
    rw [h1 i h0 hi, ← mulVec_smul]
    congr 2; funext j; ring
  dsimp only
  rw [M.wp_bind, M.wp_get, M.wp_bind, wp_onFst]
  refine M.wp_mono (blasDot_spec hn hc h1) ?_
  rintro lam _ ⟨rfl, hlam⟩
  have hlam : lam * dotV n u u = dotV n u (mulVec n A u) := by
    rw [hlam, ← hss, dotV_congr (x' := fun i => 1 / s * u i) (y' := fun i => 1 / s * mulVec n A u i) (fun i _ _ => by ring) (fun _ _ _ => rfl),
      dotV_smul]
    field_simp
  dsimp only
  rw [M.wp_bind, M.wp_get, M.wp_bind, wp_onFst]
  refine M.wp_mono (copyAll_spec hn h1 (fun p h0 hp => by dsimp only; rw [hc p h0 hp]; simp)) ?_
  rintro _ v1 ⟨h2, h3⟩
  dsimp only at h2 h3 ⊢
  rw [M.wp_bind, wp_onFst]
  refine M.wp_mono (blasNrm2_spec hn h2) ?_
  rintro nrm _ ⟨rfl, hnrm⟩
  have hpos : 0 < dotV n (fun i => 1 / s * mulVec n A u i) (fun i => 1 / s * mulVec n A u i) := by
    rw [dotV_smul]
    exact mul_pos (by positivity) (dotV_pos hnz)
  obtain ⟨h4, h5⟩ := hs _ hpos
  rw [← hnrm] at h4 h5
  rw [dotV_smul] at h5
  dsimp only
  rw [M.wp_bind, wp_onFst]
  refine M.wp_mono (scal_spec hn h2) ?_
  rintro _ v2 ⟨h6, h7⟩
  rw [M.wp_pure]
  refine ⟨hlam, fun i h0 hi => by dsimp only; rw [h1 i h0 hi]; simp, ⟨s * nrm, mul_pos hs0 h4, ?_, fun i h0 hi => ?_⟩, fun p hp => ?_⟩
  · have : s * nrm * (s * nrm) = s * s * (nrm * nrm) := by ring
    rw [this, h5]
    field_simp
  · dsimp only
    rw [h6 i h0 hi]
    congr 1
    have := h4.ne'
    field_simp
  · dsimp only
    exact (h7 p hp).trans ((h3 p hp).trans (hout p hp))

omit [LinearOrder T] [IsStrictOrderedRing T] in
theorem powVec_nz {n : Int} {A : Int → Int → T} {x : Int → T} (hA : ∀ x : Int → T, (∃ i, 0 ≤ i ∧ i < n ∧ x i ≠ 0) → ∃ i, 0 ≤ i ∧ i < n ∧ mulVec n A x i ≠ 0)
    (hx : ∃ i, 0 ≤ i ∧ i < n ∧ x i ≠ 0) (k : Nat) : ∃ i, 0 ≤ i ∧ i < n ∧ powVec n A x k i ≠ 0 := by
  induction k with
  | zero => exact hx
  | succ k ih => exact hA _ ih

/-- The result of the power method: the Rayleigh quotient of `A^(iters-1) x` and the normalised `A^iters x`. -/
theorem powerMethod_spec {sqrt : T → T} (hs : SqrtOk sqrt) {n iters : Int} {A : Int → Int → T} {fill : M (Buf T) Unit} {op : Buf T → M (Buf T) Unit}
    {v0 : Buf T} {x : Int → T} (hn : 0 ≤ n) (hit : 0 ≤ iters) (hop : OpSpec n A op)
    (hA : ∀ x : Int → T, (∃ i, 0 ≤ i ∧ i < n ∧ x i ≠ 0) → ∃ i, 0 ≤ i ∧ i < n ∧ mulVec n A x i ≠ 0)
    (hfill : M.wp fill v0 (fun _ v => HoldsVec v n x ∧ SameOutsideVec v0 v n)) (hx : ∃ i, 0 ≤ i ∧ i < n ∧ x i ≠ 0) :
    M.wp (powerMethod sqrt n iters fill op) v0 (fun lam v =>
      (iters = 0 → lam = 0) ∧ (0 < iters → lam * dotV n (powVec n A x (iters.toNat - 1)) (powVec n A x (iters.toNat - 1)) =
        dotV n (powVec n A x (iters.toNat - 1)) (powVec n A x iters.toNat)) ∧ Unit1 n v0 (powVec n A x iters.toNat) v) := by
  unfold powerMethod
  rw [M.wp_bind]
  refine M.wp_mono hfill ?_
  rintro _ v1 ⟨h1, h2⟩
  rw [M.wp_bind]
  refine M.wp_mono (blasNrm2_spec hn h1) ?_
  rintro nrm _ ⟨rfl, hnrm⟩
  obtain ⟨h3, h4⟩ := hs _ (dotV_pos hx)
  rw [← hnrm] at h3 h4
  rw [M.wp_bind]
  refine M.wp_mono (scal_spec hn h1) ?_
  rintro _ v2 ⟨h5, h6⟩
  rw [M.wp_zoom]
  refine M.wp_foldI (fun k lam t => (k = 0 → lam = 0) ∧ (0 < k → lam * dotV n (powVec n A x (k.toNat - 1)) (powVec n A x (k.toNat - 1)) =
        dotV n (powVec n A x (k.toNat - 1)) (powVec n A x k.toNat)) ∧ (∀ i, 0 ≤ i → i < n → t.2 i ≠ .none) ∧ Unit1 n v0 (powVec n A x k.toNat) t.1) hit ?_ ?_ ?_
  · refine ⟨fun _ => rfl, fun h => absurd h (lt_irrefl _), fun i h0 hi => ?_, ⟨nrm, h3, h4, fun i h0 hi => ?_⟩, fun p hp => ?_⟩
    · simp [Buf.ofFn, h0, hi]
    · dsimp only
      rw [h5 i h0 hi]
      congr 1
      simp only [Int.toNat_zero, powVec]
      ring
    · dsimp only
      rw [h6 p hp, h2 p hp]
  · rintro k lam ⟨v, w⟩ hk0 hk ⟨-, -, hw, hu⟩
    refine M.wp_mono (powerStep_spec hs hn hop hw hu (powVec_nz hA hx (k.toNat + 1))) ?_
    rintro lam' t ⟨h7, h8, h9⟩
    rw [show (k + 1).toNat = k.toNat + 1 by omega]
    exact ⟨fun h => by omega, fun _ => h7, h8, h9⟩
  · rintro lam t ⟨h7, h8, -, h9⟩
    exact ⟨h7, h8, h9⟩

/-! ## Rayleigh quotients -/

omit [LinearOrder T] [IsStrictOrderedRing T] in
theorem quadU_dot {n : Int} {A : Int → Int → T} (hsym : ∀ i j, InR n n i j → A i j = A j i) (x : Int → T) : quadU n A x = dotV n x (mulVec n A x) := by
  unfold quadU dotV mulVec
  refine Finset.sum_congr rfl fun i hi => ?_
  rw [Finset.mul_sum]
  refine Finset.sum_congr rfl fun j hj => ?_
  have := Finset.mem_range.1 hi
  have := Finset.mem_range.1 hj
  have : symU A i j = A i j := by
    unfold symU
    split
    · rfl
    · exact (hsym i j ⟨by omega, by omega, by omega, by omega⟩).symm
  rw [this]; ring

omit [LinearOrder T] [IsStrictOrderedRing T] in
theorem dotV_symm {n : Int} {A : Int → Int → T} (hsym : ∀ i j, InR n n i j → A i j = A j i) (x y : Int → T) :
    dotV n x (mulVec n A y) = dotV n (mulVec n A x) y := by
  unfold dotV mulVec
  simp only [Finset.mul_sum, Finset.sum_mul]
  rw [Finset.sum_comm]
  refine Finset.sum_congr rfl fun i hi => Finset.sum_congr rfl fun j hj => ?_
  have := Finset.mem_range.1 hi
  have := Finset.mem_range.1 hj
  rw [hsym j i ⟨by omega, by omega, by omega, by omega⟩]; ring

omit [LinearOrder T] [IsStrictOrderedRing T] in
theorem dotV_comm (n : Int) (x y : Int → T) : dotV n x y = dotV n y x := Finset.sum_congr rfl fun _ _ => mul_comm _ _

theorem dotV_cauchy (n : Int) (x y : Int → T) : dotV n x y * dotV n x y ≤ dotV n x x * dotV n y y := cauchy n.toNat (fun i => x i) (fun i => y i)

/-- Cauchy-Schwarz for the form of a positive definite matrix. -/
theorem form_cauchy {n : Int} {A : Int → Int → T} (hsym : ∀ i j, InR n n i j → A i j = A j i) (hpd : PosDefU n A) (x y : Int → T) :
    dotV n x (mulVec n A y) * dotV n x (mulVec n A y) ≤ dotV n x (mulVec n A x) * dotV n y (mulVec n A y) := by
  have hnn : ∀ z, 0 ≤ dotV n z (mulVec n A z) := by
    intro z
    rw [← quadU_dot hsym]
    by_cases h : ∃ i, 0 ≤ i ∧ i < n ∧ z i ≠ 0
    · exact (hpd z h).le
    · push Not at h
      rw [quadU_dot hsym]
      refine le_of_eq (Eq.symm (Finset.sum_eq_zero fun i hi => ?_))
      have := Finset.mem_range.1 hi
      rw [h i (by omega) (by omega), zero_mul]
  have hexp : ∀ a b : T, dotV n (fun i => a * x i + b * y i) (mulVec n A (fun i => a * x i + b * y i)) =
      a * a * dotV n x (mulVec n A x) + 2 * (a * b) * dotV n x (mulVec n A y) + b * b * dotV n y (mulVec n A y) := by
    intro a b
    have e1 : ∀ i, mulVec n A (fun i => a * x i + b * y i) i = a * mulVec n A x i + b * mulVec n A y i := by
      intro i
      unfold mulVec
      rw [Finset.mul_sum, Finset.mul_sum, ← Finset.sum_add_distrib]
      exact Finset.sum_congr rfl fun j _ => by ring
    have e2 : dotV n y (mulVec n A x) = dotV n x (mulVec n A y) := by rw [dotV_symm hsym, dotV_comm]
    have e3 : dotV n (fun i => a * x i + b * y i) (mulVec n A (fun i => a * x i + b * y i)) =
        a * a * dotV n x (mulVec n A x) + a * b * dotV n x (mulVec n A y) + a * b * dotV n y (mulVec n A x) + b * b * dotV n y (mulVec n A y) := by
      unfold dotV
      simp only [e1, Finset.mul_sum, ← Finset.sum_add_distrib]
      exact Finset.sum_congr rfl fun i _ => by ring
    rw [e3, e2]; ring
  rcases (hnn y).eq_or_lt with h | h
  · -- the form vanishes at y, so y is zero
    have hy : ∀ i, 0 ≤ i → i < n → y i = 0 := by
      intro i h0 hi
      by_contra hne
      have := hpd y ⟨i, h0, hi, hne⟩
      rw [quadU_dot hsym] at this
      exact absurd h.symm this.ne'
    have : dotV n x (mulVec n A y) = 0 := by
      rw [dotV_symm hsym]
      refine Finset.sum_eq_zero fun i hi => ?_
      have := Finset.mem_range.1 hi
      rw [hy i (by omega) (by omega), mul_zero]
    rw [this, ← h]; simp
  · have := hnn (fun i => dotV n y (mulVec n A y) * x i + (- dotV n x (mulVec n A y)) * y i)
    rw [hexp] at this
    refine le_of_mul_le_mul_right ?_ h
    nlinarith [this]

/-- The Rayleigh quotient does not decrease from `x` to `A x`. -/
theorem rayleigh_mono {n : Int} {A : Int → Int → T} (hsym : ∀ i j, InR n n i j → A i j = A j i) (hpd : PosDefU n A) {x : Int → T}
    (hx : ∃ i, 0 ≤ i ∧ i < n ∧ x i ≠ 0) (hAx : ∃ i, 0 ≤ i ∧ i < n ∧ mulVec n A x i ≠ 0) {lam mu : T} (h1 : lam * dotV n x x = dotV n x (mulVec n A x))
    (h2 : mu * dotV n (mulVec n A x) (mulVec n A x) = dotV n (mulVec n A x) (mulVec n A (mulVec n A x))) : lam ≤ mu := by
  have m0 := dotV_pos hx
  have m2 := dotV_pos hAx
  have m1 : 0 < dotV n x (mulVec n A x) := by rw [← quadU_dot hsym]; exact hpd x hx
  have c1 := dotV_cauchy n x (mulVec n A x)
  have c2 := form_cauchy hsym hpd x (mulVec n A x)
  rw [dotV_symm hsym x (mulVec n A x)] at c2
  -- lam = m1/m0 ≤ m2/m1 ≤ m3/m2 = mu
  have e1 : lam * dotV n x (mulVec n A x) ≤ dotV n (mulVec n A x) (mulVec n A x) := by
    refine le_of_mul_le_mul_right ?_ m0
    calc lam * dotV n x (mulVec n A x) * dotV n x x = dotV n x (mulVec n A x) * (lam * dotV n x x) := by ring
      _ = dotV n x (mulVec n A x) * dotV n x (mulVec n A x) := by rw [h1]
      _ ≤ _ := c1.trans (le_of_eq (mul_comm _ _))
  have e2 : dotV n (mulVec n A x) (mulVec n A x) ≤ mu * dotV n x (mulVec n A x) := by
    refine le_of_mul_le_mul_right ?_ m2
    calc _ ≤ _ := c2
      _ = dotV n x (mulVec n A x) * (mu * dotV n (mulVec n A x) (mulVec n A x)) := by rw [h2]
      _ = _ := by ring
  exact le_of_mul_le_mul_right (e1.trans e2) m1

/-! ## The explicit inverse -/

omit [LinearOrder T] [IsStrictOrderedRing T] in
theorem fsub_mul {R B : Int → Int → T} {n : Int} (hup : ∀ i j, j < i → R i j = 0) (hd : ∀ i, 0 ≤ i → i < n → R i i ≠ 0) {i j : Int}
    (hi0 : 0 ≤ i) (hin : i < n) : prodEntry n (fun r c => R c r) (fun i j => fsubF R B i.toNat j) i j = B i j := by
  obtain ⟨i, rfl⟩ := Int.eq_ofNat_of_zero_le hi0
  unfold prodEntry
  simp only [Int.toNat_natCast]
  have h1 : ∑ k ∈ Finset.range n.toNat, R k i * fsubF R B k j = ∑ k ∈ Finset.range (i + 1), R k i * fsubF R B k j := by
    symm
    refine Finset.sum_subset (fun k hk => by simp at hk ⊢; omega) (fun k hk hk2 => ?_)
    rw [hup k i (by simp at hk2; omega), zero_mul]
  rw [h1, Finset.sum_range_succ, fsubF_eq R B i, mul_div_cancel₀ _ (hd i (by omega) hin)]
  ring

omit [IsStrictOrderedRing T] in
/-- Back substitution. -/
theorem trsmLeftUpper_spec {m n a0 lda ldb : Int} {R B X : Int → Int → T} {Ab b0 b : Buf T} (hm : 0 ≤ m) (hn : 0 ≤ n)
    (hla : m ≤ lda) (hlb : m ≤ ldb) (hR : UpperPos m R) (hA : ∀ i j, Up m i j → Ab (a0 + (i + j * lda)) = .val (R i j))
    (hX : ∀ i j, InR m n i j → B i j = prodEntry m R X i j) (hb : Upd ldb (InR m n) B b0 b) :
    M.wp (trsmLeftUpper m n Ab a0 lda ldb) b (fun _ b' => Upd ldb (InR m n) X b0 b') := by
  have hr := inR_rows (n := n) hlb
  let P : Int → Int → Int → T := fun k i j => ∑ l ∈ Finset.range k.toNat, R i l * X l j
  have hP : ∀ k i j, 0 ≤ k → P (k + 1) i j = P k i j + R i k * X k j := by
    intro k i j hk
    show ∑ l ∈ Finset.range (k + 1).toNat, R i l * X l j = ∑ l ∈ Finset.range k.toNat, R i l * X l j + _
    rw [show (k + 1).toNat = k.toNat + 1 by omega, Finset.sum_range_succ, show ((k.toNat : Nat) : Int) = k by omega]
  have hP0 : ∀ k j, P k k j = 0 := by
    intro k j
    refine Finset.sum_eq_zero fun l hl => ?_
    have := Finset.mem_range.1 hl
    rw [hR.1 k l (by omega), zero_mul]
  unfold trsmLeftUpper
  simp only [M.wp_bind, wp_blasCheck]
  refine ⟨hm, hn, hla, hlb, ?_⟩
  refine M.wp_forI (fun j b => Upd ldb (InR m n) (fun r c => if c < j then X r c else B r c) b0 b) hn ?_ ?_ ?_
  · exact hb.congr (fun i j h => by rw [if_neg (by have := h.2.2.1; omega)])
  · intro j b1 hj0 hjn hst
    refine M.wp_forI (fun k' b => Upd ldb (InR m n)
      (fun r c => if c < j then X r c else if c = j then (if m - k' ≤ r then X r c else P (m - k') r c) else B r c) b0 b) hm ?_ ?_ ?_
    · refine hst.congr (fun r c h => ?_)
      by_cases h1 : c < j
      · rw [if_pos h1, if_pos h1]
      · rw [if_neg h1, if_neg h1]
        by_cases h2 : c = j
        · rw [if_pos h2, if_neg (by have := h.2.1; omega), hX r c h, sub_zero]; rfl
        · rw [if_neg h2]
    · intro k' b2 hk0 hkm hst2
      obtain ⟨k, hk⟩ : ∃ k, k = m - 1 - k' := ⟨_, rfl⟩
      have hmk : m - k' = k + 1 := by omega
      rw [hmk] at hst2
      have hk0' : 0 ≤ k := by omega
      have hd := (hR.2 k hk0' (by omega)).ne'
      rw [← hk, M.wp_bind]
      refine hst2.wp_rd (i := k) (j := j) ⟨hk0', by omega, hj0, hjn⟩ ?_
      rw [if_neg (lt_irrefl _), if_pos rfl, if_neg (by omega), hP k k j hk0', hP0, zero_add, M.wp_bind, M.wp_lift]
      refine ⟨_, Buf.rd_val (hA k k ⟨hk0', le_refl _, by omega⟩), ?_⟩
      rw [mul_div_cancel_left₀ _ hd, M.wp_bind]
      refine hst2.wp_wr (X' := fun r c => if c < j then X r c else if c = j then (if k ≤ r then X r c else P (k + 1) r c) else B r c) hr
        ⟨hk0', by omega, hj0, hjn⟩ ?_ ?_ ?_
      · rw [if_neg (lt_irrefl _), if_pos rfl, if_pos (le_refl _)]
      · rintro r c ⟨h1, h2, h3, h4⟩ hne
        by_cases h5 : c = j
        · have : k ≤ r ↔ k + 1 ≤ r := ⟨fun h => by
            have : r ≠ k := fun h' => hne ⟨h', h5⟩
            omega, fun h => by omega⟩
          simp only [this]
        · simp only [h5, if_false]
      intro b3 hst3
      rw [show m - (k' + 1) = k by omega]
      refine M.wp_forI (fun i b => Upd ldb (InR m n)
        (fun r c => if c < j then X r c else if c = j then (if k ≤ r then X r c else if r < i then P k r c else P (k + 1) r c) else B r c) b0 b) hk0' ?_ ?_ ?_
      · refine hst3.congr (fun r c h => ?_)
        have : ¬ r < 0 := by have := h.1; omega
        simp only [this, if_false]
      · intro i b4 hi0 hik hst4
        rw [M.wp_bind]
        refine hst4.wp_rd (i := i) (j := j) ⟨hi0, by omega, hj0, hjn⟩ ?_
        rw [M.wp_bind]
        refine hst4.wp_rd (i := k) (j := j) ⟨hk0', by omega, hj0, hjn⟩ ?_
        rw [M.wp_bind, M.wp_lift]
        refine ⟨_, Buf.rd_val (hA i k ⟨hi0, by omega, by omega⟩), ?_⟩
        refine hst4.wp_wr hr ⟨hi0, by omega, hj0, hjn⟩ ?_ ?_ (fun b h => h)
        · rw [if_neg (lt_irrefl _), if_pos rfl, if_neg (by omega), if_pos (by omega), if_neg (lt_irrefl _), if_pos rfl, if_neg (by omega), if_neg (lt_irrefl _),
            if_neg (lt_irrefl _), if_pos rfl, if_pos (le_refl _), hP k i j hk0']
          ring
        · rintro r c ⟨h1, h2, h3, h4⟩ hne
          by_cases h5 : c = j
          · have : r < i + 1 ↔ r < i := ⟨fun h => by
              have : r ≠ i := fun h' => hne ⟨h', h5⟩
              omega, fun h => by omega⟩
            simp only [this]
          · simp only [h5, if_false]
      · intro b4 hst4
        refine hst4.congr (fun r c h => ?_)
        by_cases h1 : c < j
        · rw [if_pos h1, if_pos h1]
        · rw [if_neg h1, if_neg h1]
          by_cases h2 : c = j
          · rw [if_pos h2, if_pos h2]
            by_cases h3 : k ≤ r
            · rw [if_pos h3, if_pos h3]
            · rw [if_neg h3, if_neg h3, if_pos (by omega)]
          · rw [if_neg h2, if_neg h2]
    · intro b2 hst2
      refine hst2.congr (fun r c h => ?_)
      by_cases h1 : c < j
      · rw [if_pos h1, if_pos (by omega)]
      · rw [if_neg h1]
        by_cases h2 : c = j
        · rw [if_pos h2, if_pos (by have := h.1; omega), if_pos (by omega)]
        · rw [if_neg h2, if_neg (by omega)]
  · intro b1 hst
    exact hst.congr (fun r c h => by rw [if_pos h.2.2.2])

omit [Field T] [LinearOrder T] [IsStrictOrderedRing T] in
theorem shift_shift_neg (b : Buf T) (o : Int) : (b.shift (-o)).shift o = b := by
  funext p; simp [Buf.shift]

/-- The Cholesky factor of a positive definite matrix in place, for the default block size or any other. -/
theorem potrf_posDef {sqrt : T → T} (hs : SqrtOk sqrt) {n lda bs : Int} {A : Int → Int → T} {b : Buf T} (hn : 0 ≤ n) (hl : n ≤ lda)
    (hbs : 0 < bs) (hA : ∀ i j, Up n i j → b (i + j * lda) = .val (A i j)) (hpd : PosDefU n A) :
    M.wp (potrfUpper sqrt n lda bs) b (fun _ b' => ∃ R, UpperPos n R ∧ (∀ i j, InR n n i j → prodEntry n (fun r c => R c r) R i j = symU A i j) ∧
      Upd lda (Up n) R b b') := by
  have hpos := (posDef_iff_pivots hs hn).1 hpd
  unfold potrfUpper
  refine M.wp_mono (potrfUpperF_spec (b0 := b) hbs (n.toNat + 1) hn hl (by omega) (Upd.refl hA)) ?_
  rintro code b' ⟨h1, -⟩
  refine ⟨cholU sqrt A, ⟨fun i j h => by rw [cholU, if_neg (by omega)], fun i h0 hi => ?_⟩, ?_,
    (h1 hpos).congr fun i j hij => by rw [cholU, if_pos hij.2.1]⟩
  · obtain ⟨k, rfl⟩ := Int.eq_ofNat_of_zero_le h0
    exact cholU_diag_pos hs (hpos k hi)
  · have hG : ∀ i j, 0 ≤ i → i ≤ j → j < n → prodEntry n (fun r c => cholU sqrt A c r) (cholU sqrt A) i j = A i j := by
      intro i j h0 hij hj
      obtain ⟨i, rfl⟩ := Int.eq_ofNat_of_zero_le h0
      obtain ⟨j, rfl⟩ := Int.eq_ofNat_of_zero_le (h0.trans hij)
      have := chol_sum hs n.toNat (fun k hk => hpos k (by omega)) i j (by exact_mod_cast hij)
      rw [if_pos (by omega)] at this
      exact this
    rintro i j ⟨hi0, hi, hj0, hj⟩
    unfold symU
    split
    · rename_i h; exact hG i j hi0 h hj
    · rename_i h
      rw [← prodEntry_trans]
      exact hG j i hj0 (by omega) hi

theorem invPart_spec {sqrt : T → T} (hs : SqrtOk sqrt) {n : Int} {A : Int → Int → T} {Ab w : Buf T} (hn : 0 ≤ n)
    (hA : ∀ i j, InR n n i j → Ab (i + j * n) = .val (A i j)) (hsym : ∀ i j, InR n n i j → A i j = A j i) (hpd : PosDefU n A)
    (hw : ∀ p, 0 ≤ p → p < 2 * n * n → w p ≠ .none) :
    M.wp (invPart sqrt n Ab) w (fun _ w' => ∃ X : Int → Int → T, (∀ i j, InR n n i j → prodEntry n A X i j = if i = j then 1 else 0) ∧
      ∀ i j, InR n n i j → w' (n * n + (i + j * n)) = .val (X i j)) := by
  have hnn : 0 ≤ n * n := mul_nonneg hn hn
  have h2nn : 2 * n * n = n * n + n * n := by ring
  unfold invPart
  rw [M.wp_bind]
  have hcell : ∀ i j, InR n n i j → A ((i + j * n) % n) ((i + j * n) / n) = A i j := fun i j hij => by
    rw [Int.add_mul_emod_self_right, Int.emod_eq_of_lt hij.1 hij.2.1, Int.add_mul_ediv_right _ _ (by have := hij.1; have := hij.2.1; omega),
      Int.ediv_eq_zero_of_lt hij.1 hij.2.1, zero_add]
  refine M.wp_mono (copyAll_spec (F := fun p => A (p % n) (p / n)) hnn (fun p h0 hp => ?_) (fun p h0 hp => hw p h0 (by omega))) ?_
  · obtain ⟨i, j, hij, rfl⟩ := pos_split h0 hp hn
    rw [hA i j hij, hcell i j hij]
  rintro _ w1 ⟨h1, h2⟩
  rw [M.wp_bind]
  refine M.wp_mono (potrf_posDef (A := A) hs hn (le_refl _) (by norm_num) (fun i j hij => ?_) hpd) ?_
  · have hij' : InR n n i j := ⟨hij.1, by have := hij.2; omega, by have := hij.1; have := hij.2; omega, hij.2.2⟩
    rw [h1 _ (pos_range hij').1 (pos_range hij').2, hcell i j hij']
  rintro _ w2 ⟨R, hR, hRA, h3⟩
  have hw2 : ∀ p, 0 ≤ p → p < n * n → (w2.shift (n * n)) p ≠ .none := by
    intro p h0 hp
    rw [Buf.shift, h3.outside _ (fun i j hij he => by
      have := pos_range (n := n) (c := n) (i := i) (j := j) ⟨hij.1, by have := hij.2; omega, by have := hij.1; have := hij.2; omega, hij.2.2⟩
      omega), h2 _ (by omega)]
    exact hw _ (by omega) (by omega)
  rw [M.wp_bind, M.wp_at]
  refine M.wp_mono (fill_spec hn hn hw2) ?_
  intro _ w3 h4
  rw [M.wp_bind, M.wp_at, shift_shift_neg]
  refine M.wp_forI (fun k b => Upd n (InR n n) (fun i j => if i = j ∧ i < k then 1 else 0) (w2.shift (n * n)) b) hn ?_ ?_ ?_
  · exact h4.congr fun i j hij => by rw [if_neg (by have := hij.1; omega)]
  · intro k b hk0 hk hb
    refine hb.wp_wr (inR_rows (le_refl n)) ⟨hk0, hk, hk0, hk⟩ (by rw [if_pos ⟨rfl, by omega⟩]) ?_ (fun b h => h)
    rintro r c hrc hne
    have : (r = c ∧ r < k + 1) ↔ (r = c ∧ r < k) := by
      constructor
      · rintro ⟨h, h'⟩
        exact ⟨h, by
          have : r ≠ k := fun h'' => hne ⟨h'', by omega⟩
          omega⟩
      · rintro ⟨h, h'⟩; exact ⟨h, by omega⟩
    simp only [this]
  intro w4 h5
  have hchol : ∀ b : Buf T, (∀ p, p < 0 → b p = (w2.shift (n * n)) p) → ∀ i j, Up n i j → (b.shift (-(n * n))) (0 + (i + j * n)) = .val (R i j) := by
    intro b hb i j hij
    have hij' : InR n n i j := ⟨hij.1, by have := hij.2; omega, by have := hij.1; have := hij.2; omega, hij.2.2⟩
    have := pos_range hij'
    rw [zero_add, Buf.shift, hb _ (by omega), Buf.shift, ← h3.cells i j hij]
    congr 1; ring
  have hneg : ∀ {X : Int → Int → T} {b : Buf T}, Upd n (InR n n) X (w2.shift (n * n)) b → ∀ p, p < 0 → b p = (w2.shift (n * n)) p := by
    intro X b hb p hp
    exact hb.outside p fun i j hij he => by have := pos_range hij; omega
  rw [M.wp_bind, M.wp_get, M.wp_bind, M.wp_at, shift_shift_neg]
  refine M.wp_mono (trsmLeftUpperTrans_spec hn hn (le_refl _) (le_refl _) (hchol _ (hneg h5)) h5) ?_
  intro _ w5 h6
  rw [M.wp_bind, M.wp_get, M.wp_at, shift_shift_neg]
  have hd : ∀ i, 0 ≤ i → i < n → R i i ≠ 0 := fun i h0 hi => (hR.2 i h0 hi).ne'
  have hY : ∀ i j, InR n n i j → prodEntry n (fun r c => R c r)
      (fun i j => fsubF R (fun i j => 1 * if i = j ∧ i < n then 1 else 0) i.toNat j) i j = if i = j then 1 else 0 := by
    intro i j hij
    rw [fsub_mul hR.1 hd hij.1 hij.2.1, one_mul]
    have := hij.2.1
    simp only [this, and_true]
  generalize (fun i j : Int => fsubF R (fun i j => 1 * if i = j ∧ i < n then 1 else 0) i.toNat j) = Y at h6 hY
  choose f hf using fun j => upper_solve hR (fun l => Y l j)
  refine M.wp_mono (trsmLeftUpper_spec (X := fun i j => f j i) hn hn (le_refl _) (le_refl _) hR (hchol _ (hneg h6))
    (fun i j hij => (hf j i hij.1 hij.2.1).symm) h6) ?_
  intro _ w6 h7
  refine ⟨fun i j => f j i, fun i j hij => ?_, fun i j hij => ?_⟩
  · rw [← hY i j hij, prodEntry_ext (A' := prodEntry n (fun r c => R c r) R) (B' := fun i j => f j i) (fun k hk0 hk => ?_) (fun _ _ _ => rfl), prodEntry_assoc]
    · exact prodEntry_ext (fun _ _ _ => rfl) (fun k hk0 hk => hf j k hk0 hk)
    · have hik : InR n n i k := ⟨hij.1, hij.2.1, hk0, hk⟩
      rw [hRA i k hik, symU]
      split
      · rfl
      · exact hsym i k hik
  · rw [Buf.shift, ← h7.cells i j hij]
    congr 1; ring

omit [LinearOrder T] [IsStrictOrderedRing T] in
theorem mulVec_inv {n : Int} {A X : Int → Int → T} (h : ∀ i j, InR n n i j → prodEntry n A X i j = if i = j then 1 else 0) (y : Int → T) {i : Int}
    (h0 : 0 ≤ i) (hi : i < n) : mulVec n A (mulVec n X y) i = y i := by
  have e : mulVec n A (mulVec n X y) i = prodEntry n A (prodEntry n X (fun k _ => y k)) i 0 := rfl
  rw [e, ← prodEntry_assoc, prodEntry]
  rw [Finset.sum_eq_single i.toNat]
  · rw [show ((i.toNat : Nat) : Int) = i by omega, h i i ⟨h0, hi, h0, hi⟩, if_pos rfl, one_mul]
  · intro k hk hne
    have := Finset.mem_range.1 hk
    rw [h i k ⟨h0, hi, by omega, by omega⟩, if_neg (by omega), zero_mul]
  · intro h; exact absurd (Finset.mem_range.2 (by omega)) h

theorem mulVec_nz {n : Int} {A : Int → Int → T} (hsym : ∀ i j, InR n n i j → A i j = A j i) (hpd : PosDefU n A) (x : Int → T)
    (hx : ∃ i, 0 ≤ i ∧ i < n ∧ x i ≠ 0) : ∃ i, 0 ≤ i ∧ i < n ∧ mulVec n A x i ≠ 0 := by
  by_contra hno
  push Not at hno
  have := hpd x hx
  rw [quadU_dot hsym] at this
  refine absurd ?_ this.ne'
  refine Finset.sum_eq_zero fun i hi => ?_
  have := Finset.mem_range.1 hi
  rw [hno i (by omega) (by omega), mul_zero]

omit [LinearOrder T] [IsStrictOrderedRing T] in
theorem inv_nz {n : Int} {A X : Int → Int → T} (h : ∀ i j, InR n n i j → prodEntry n A X i j = if i = j then 1 else 0) (x : Int → T)
    (hx : ∃ i, 0 ≤ i ∧ i < n ∧ x i ≠ 0) : ∃ i, 0 ≤ i ∧ i < n ∧ mulVec n X x i ≠ 0 := by
  by_contra hno
  push Not at hno
  obtain ⟨i, h0, hi, hx⟩ := hx
  refine hx ?_
  rw [← mulVec_inv h x h0 hi]
  refine Finset.sum_eq_zero fun k hk => ?_
  have := Finset.mem_range.1 hk
  rw [hno k (by omega) (by omega), mul_zero]

/-- The Rayleigh quotients of the inverse lie between the inverses of bounds for the matrix. -/
theorem rayleigh_inv {n : Int} {A X : Int → Int → T} (hsym : ∀ i j, InR n n i j → A i j = A j i) (hpd : PosDefU n A)
    (hX : ∀ i j, InR n n i j → prodEntry n A X i j = if i = j then 1 else 0) {y : Int → T} (hy : ∃ i, 0 ≤ i ∧ i < n ∧ y i ≠ 0) {mu : T}
    (hmu : mu * dotV n y y = dotV n y (mulVec n X y)) :
    0 < mu ∧ (∀ c, RayleighGe n A c → c ≤ 1 / mu) ∧ ∀ c, RayleighLe n A c → 1 / mu ≤ c := by
  have hz := inv_nz hX y hy
  have hAz : ∀ i, 0 ≤ i → i < n → mulVec n A (mulVec n X y) i = y i := fun i h0 hi => mulVec_inv hX y h0 hi
  generalize mulVec n X y = z at hmu hz hAz
  have hyy := dotV_pos hy
  have e1 : dotV n z (mulVec n A z) = dotV n y z := by
    rw [dotV_comm]; exact dotV_congr hAz (fun _ _ _ => rfl)
  have hyz : 0 < dotV n y z := by rw [← e1, ← quadU_dot hsym]; exact hpd z hz
  have hmu0 : 0 < mu := by
    by_contra h
    have := mul_nonpos_of_nonpos_of_nonneg (not_lt.1 h) hyy.le
    rw [hmu] at this
    exact absurd hyz (not_lt.2 this)
  refine ⟨hmu0, fun c hc => ?_, fun c hc => ?_⟩
  · rw [le_div_iff₀ hmu0]
    have h1 : c * dotV n z z ≤ dotV n y z := by
      have := hc z
      rwa [quadU_dot hsym, e1] at this
    have h2 := dotV_cauchy n y z
    rcases le_or_gt c 0 with hc0 | hc0
    · exact (mul_nonpos_of_nonpos_of_nonneg hc0 hmu0.le).trans zero_le_one
    · have h3 : c * dotV n y z ≤ dotV n y y := by
        refine le_of_mul_le_mul_right ?_ hyz
        calc c * dotV n y z * dotV n y z = c * (dotV n y z * dotV n y z) := by ring
          _ ≤ c * (dotV n y y * dotV n z z) := mul_le_mul_of_nonneg_left h2 hc0.le
          _ = dotV n y y * (c * dotV n z z) := by ring
          _ ≤ dotV n y y * dotV n y z := mul_le_mul_of_nonneg_left h1 hyy.le
      refine le_of_mul_le_mul_right ?_ hyy
      rw [one_mul, mul_assoc, hmu]
      exact h3
  · rw [div_le_iff₀ hmu0]
    have h1 := form_cauchy hsym hpd z y
    have h2 : dotV n z (mulVec n A y) = dotV n y y := by
      rw [dotV_symm hsym]; exact dotV_congr hAz (fun _ _ _ => rfl)
    have h3 : dotV n y (mulVec n A y) ≤ c * dotV n y y := by
      rw [← quadU_dot hsym]; exact hc y
    rw [h2, e1] at h1
    have h4 : dotV n y y ≤ c * dotV n y z := by
      refine le_of_mul_le_mul_right ?_ hyy
      refine h1.trans ((mul_le_mul_of_nonneg_left h3 hyz.le).trans (le_of_eq (by ring)))
    refine le_of_mul_le_mul_right ?_ hyy
    rw [one_mul, mul_assoc, hmu]
    exact h4

/-- The same for the matrix itself. -/
theorem rayleigh_self {n : Int} {A : Int → Int → T} (hsym : ∀ i j, InR n n i j → A i j = A j i) {y : Int → T}
    (hy : ∃ i, 0 ≤ i ∧ i < n ∧ y i ≠ 0) {lam : T} (h : lam * dotV n y y = dotV n y (mulVec n A y)) :
    (∀ c, RayleighGe n A c → c ≤ lam) ∧ ∀ c, RayleighLe n A c → lam ≤ c := by
  have hyy := dotV_pos hy
  constructor
  · intro c hc
    refine le_of_mul_le_mul_right ?_ hyy
    rw [h, ← quadU_dot hsym]; exact hc y
  · intro c hc
    refine le_of_mul_le_mul_right ?_ hyy
    rw [h, ← quadU_dot hsym]; exact hc y

end

end RB
