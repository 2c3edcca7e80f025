import Verif.Lemmas.Fourth
import Verif.Props.IsometryLong
import Verif.Props.IsometryDense

/-!
# Second moment of the squared norm of the product of several merged long-axis vectors with a vector
-/

namespace RB
open Spec Finset

/-- The fourth moment of `Σ_j e_j x_j` if the squares of the `e_j` do not depend on their signs. -/
theorem sum_four_eq {Ω : Type} [Fintype Ω] {n : Nat} (e v : Nat → Ω → ℝ) (Φ : Nat → Ω → Ω) (hinv : ∀ j < n, Function.Involutive (Φ j))
    (hneg : ∀ j < n, ∀ ω, e j (Φ j ω) = -e j ω) (hkeep : ∀ j < n, ∀ l < n, l ≠ j → ∀ ω, e l (Φ j ω) = e l ω) (hv : ∀ j < n, ∀ ω, e j ω ^ 2 = v j ω)
    (hvk : ∀ j < n, ∀ l < n, ∀ ω, v l (Φ j ω) = v l ω) (x : Nat → ℝ) :
    ∑ ω, (∑ j ∈ range n, e j ω * x j) ^ 4 = 3 * ∑ ω, (∑ j ∈ range n, v j ω * x j ^ 2) ^ 2 - 2 * ∑ ω, ∑ j ∈ range n, v j ω ^ 2 * x j ^ 4 := by
  induction n with
  | zero => simp
  | succ n ih =>
    have ih' := ih (fun j hj => hinv j (by omega)) (fun j hj => hneg j (by omega)) (fun j hj l hl => hkeep j (by omega) l (by omega))
      (fun j hj => hv j (by omega)) (fun j hj l hl => hvk j (by omega) l (by omega))
    have hX : ∀ ω, ∑ j ∈ range n, e j (Φ n ω) * x j = ∑ j ∈ range n, e j ω * x j := fun ω =>
      sum_congr rfl fun j hj => by rw [hkeep n (by omega) j (by have := mem_range.mp hj; omega) (by have := mem_range.mp hj; omega)]
    have hz3 : ∑ ω, (∑ j ∈ range n, e j ω * x j) ^ 3 * e n ω = 0 :=
      sum_flip_zero (hinv n (by omega)) fun ω => by rw [hX, hneg n (by omega)]; ring
    have hz1 : ∑ ω, (∑ j ∈ range n, e j ω * x j) * e n ω ^ 3 = 0 :=
      sum_flip_zero (hinv n (by omega)) fun ω => by rw [hX, hneg n (by omega)]; ring
    have hw := sum_sq_weight (n := n) e Φ (fun j hj => hinv j (by omega)) (fun j hj => hneg j (by omega)) (fun j hj l hl => hkeep j (by omega) l (by omega))
      (fun ω => v n ω) (fun j hj ω => by rw [hvk j (by omega) n (by omega)]) x
    have hw' : ∑ ω, (∑ j ∈ range n, e j ω * x j) ^ 2 * v n ω = ∑ ω, (∑ j ∈ range n, v j ω * x j ^ 2) * v n ω := by
      rw [hw]
      simp only [sum_mul]
      rw [sum_comm]
      refine sum_congr rfl fun j hj => ?_
      rw [mul_sum]
      exact sum_congr rfl fun ω _ => by rw [hv j (by have := mem_range.mp hj; omega)]; ring
    have hexp : ∀ ω, (∑ j ∈ range (n + 1), e j ω * x j) ^ 4 = (∑ j ∈ range n, e j ω * x j) ^ 4 +
        4 * x n * ((∑ j ∈ range n, e j ω * x j) ^ 3 * e n ω) + 6 * x n ^ 2 * ((∑ j ∈ range n, e j ω * x j) ^ 2 * v n ω) +
        4 * x n ^ 3 * ((∑ j ∈ range n, e j ω * x j) * e n ω ^ 3) + x n ^ 4 * v n ω ^ 2 := by
      intro ω; rw [sum_range_succ, ← hv n (by omega) ω]; ring
    have hexp' : ∀ ω, (∑ j ∈ range (n + 1), v j ω * x j ^ 2) ^ 2 = (∑ j ∈ range n, v j ω * x j ^ 2) ^ 2 +
        2 * x n ^ 2 * ((∑ j ∈ range n, v j ω * x j ^ 2) * v n ω) + x n ^ 4 * v n ω ^ 2 := by
      intro ω; rw [sum_range_succ]; ring
    have hexp2 : ∀ ω, ∑ j ∈ range (n + 1), v j ω ^ 2 * x j ^ 4 = ∑ j ∈ range n, v j ω ^ 2 * x j ^ 4 + x n ^ 4 * v n ω ^ 2 := by
      intro ω; rw [sum_range_succ]; ring
    simp only [hexp, hexp', hexp2, sum_add_distrib, ← mul_sum, hz3, hz1, ih', hw']
    ring

/-- The second moment of `Σ_i (Σ_j e_ij x_j)²`. -/
theorem sum_quad_eq {Ω : Type} [Fintype Ω] {d n : Nat} (e v : Nat → Nat → Ω → ℝ) (Φ : Nat → Nat → Ω → Ω)
    (hinv : ∀ i < d, ∀ j < n, Function.Involutive (Φ i j)) (hneg : ∀ i < d, ∀ j < n, ∀ ω, e i j (Φ i j ω) = -e i j ω)
    (hkeep : ∀ i < d, ∀ j < n, ∀ k < d, ∀ l < n, (k, l) ≠ (i, j) → ∀ ω, e k l (Φ i j ω) = e k l ω)
    (hv : ∀ i < d, ∀ j < n, ∀ ω, e i j ω ^ 2 = v i j ω) (hvk : ∀ i < d, ∀ j < n, ∀ k < d, ∀ l < n, ∀ ω, v k l (Φ i j ω) = v k l ω) (x : Nat → ℝ) :
    ∑ ω, (∑ i ∈ range d, (∑ j ∈ range n, e i j ω * x j) ^ 2) ^ 2 = ∑ ω, ((∑ i ∈ range d, ∑ j ∈ range n, v i j ω * x j ^ 2) ^ 2 +
      ∑ i ∈ range d, (2 * (∑ j ∈ range n, v i j ω * x j ^ 2) ^ 2 - 2 * ∑ j ∈ range n, v i j ω ^ 2 * x j ^ 4)) := by
  have hterm : ∀ i ∈ range d, ∀ k ∈ range d, ∑ ω, (∑ j ∈ range n, e i j ω * x j) ^ 2 * (∑ j ∈ range n, e k j ω * x j) ^ 2 =
      ∑ ω, (∑ j ∈ range n, v i j ω * x j ^ 2) * (∑ j ∈ range n, v k j ω * x j ^ 2) +
        if i = k then ∑ ω, (2 * (∑ j ∈ range n, v i j ω * x j ^ 2) ^ 2 - 2 * ∑ j ∈ range n, v i j ω ^ 2 * x j ^ 4) else 0 := by
    intro i hi k hk
    have hi' := mem_range.mp hi
    have hk' := mem_range.mp hk
    split_ifs with h
    · subst h
      have := sum_four_eq (n := n) (fun j => e i j) (fun j => v i j) (fun j => Φ i j) (hinv i hi') (hneg i hi')
        (fun j hj l hl hlj => hkeep i hi' j hj i hi' l hl (by simpa using hlj)) (hv i hi') (fun j hj l hl => hvk i hi' j hj i hi' l hl) x
      have e2 : ∀ ω, (∑ j ∈ range n, e i j ω * x j) ^ 2 * (∑ j ∈ range n, e i j ω * x j) ^ 2 = (∑ j ∈ range n, e i j ω * x j) ^ 4 := fun ω => by ring
      simp only [e2]
      rw [this, ← sum_add_distrib, mul_sum, mul_sum, ← sum_sub_distrib]
      exact sum_congr rfl fun ω _ => by ring
    · rw [add_zero]
      rw [sum_sq_weight (n := n) (fun j => e i j) (fun j => Φ i j) (hinv i hi') (hneg i hi')
        (fun j hj l hl hlj => hkeep i hi' j hj i hi' l hl (by simpa using hlj)) (fun ω => (∑ j ∈ range n, e k j ω * x j) ^ 2) (fun j hj ω => by
          congr 1
          exact sum_congr rfl fun l hl => by rw [hkeep i hi' j hj k hk' l (mem_range.mp hl) (by simp; omega)]) x]
      have h1 : ∀ j ∈ range n, ∑ ω, e i j ω ^ 2 * (∑ l ∈ range n, e k l ω * x l) ^ 2 = ∑ ω, v i j ω * (∑ l ∈ range n, v k l ω * x l ^ 2) := by
        intro j hj
        have hj' := mem_range.mp hj
        have := sum_sq_weight (n := n) (fun l => e k l) (fun l => Φ k l) (hinv k hk') (hneg k hk')
          (fun j hj l hl hlj => hkeep k hk' j hj k hk' l hl (by simpa using hlj)) (fun ω => v i j ω) (fun l hl ω => by
            rw [hvk k hk' l hl i hi' j hj']) x
        simp only [hv i hi' j hj', mul_comm (v i j _)]
        rw [this]
        simp only [sum_mul]
        rw [sum_comm]
        refine sum_congr rfl fun l hl => ?_
        rw [mul_sum]
        exact sum_congr rfl fun ω _ => by rw [hv k hk' l (mem_range.mp hl)]; ring
      rw [sum_congr rfl fun j hj => by rw [h1 j hj]]
      simp only [sum_mul (range n), mul_sum univ]
      rw [sum_comm]
      exact sum_congr rfl fun ω _ => sum_congr rfl fun j _ => by ring
  have hexp : ∀ ω, (∑ i ∈ range d, (∑ j ∈ range n, e i j ω * x j) ^ 2) ^ 2 =
      ∑ i ∈ range d, ∑ k ∈ range d, (∑ j ∈ range n, e i j ω * x j) ^ 2 * (∑ j ∈ range n, e k j ω * x j) ^ 2 := fun ω => by rw [sq, sum_mul_sum]
  have hexp' : ∀ ω, (∑ i ∈ range d, ∑ j ∈ range n, v i j ω * x j ^ 2) ^ 2 =
      ∑ i ∈ range d, ∑ k ∈ range d, (∑ j ∈ range n, v i j ω * x j ^ 2) * (∑ j ∈ range n, v k j ω * x j ^ 2) := fun ω => by rw [sq, sum_mul_sum]
  simp only [hexp, hexp']
  rw [sum_add_distrib, sum_comm, sum_comm (s := univ) (t := range d), sum_comm (s := univ) (t := range d), ← sum_add_distrib]
  refine sum_congr rfl fun i hi => ?_
  rw [sum_comm, sum_comm (s := univ) (t := range d), sum_congr rfl fun k hk => hterm i hi k hk, sum_add_distrib, sum_ite_eq (range d) i (fun _ => _), if_pos hi]

/-- The second moment of a sum of functions of different words. -/
theorem sum_iid_sq {ι W : Type} [Fintype ι] [DecidableEq ι] [Fintype W] {m : Nat} {a : Nat → ι} (ha : ∀ t < m, ∀ t' < m, a t = a t' → t = t') (h : W → ℝ) :
    (Fintype.card W : ℝ) ^ 2 * ∑ ω : ι → W, (∑ t ∈ range m, h (ω (a t))) ^ 2 =
      (Fintype.card W : ℝ) ^ Fintype.card ι * (m * (Fintype.card W * ∑ w, h w ^ 2) + (m * m - m) * (∑ w, h w) ^ 2) := by
  have hterm : ∀ t ∈ range m, ∀ t' ∈ range m, (Fintype.card W : ℝ) ^ 2 * ∑ ω : ι → W, h (ω (a t)) * h (ω (a t')) =
      (Fintype.card W : ℝ) ^ Fintype.card ι * ((∑ w, h w) ^ 2 + if t = t' then Fintype.card W * ∑ w, h w ^ 2 - (∑ w, h w) ^ 2 else 0) := by
    intro t ht t' ht'
    split_ifs with heq
    · subst heq
      have := sum_at (a t) fun w => h w * h w
      rw [sq, mul_assoc, this]
      simp only [← sq]
      ring
    · have := sum_at2 (fun hc => heq (ha t (mem_range.mp ht) t' (mem_range.mp ht') hc)) fun w w' => h w * h w'
      rw [this, add_zero, sq (∑ w, h w), sum_mul_sum]
  have hexp : ∀ ω : ι → W, (∑ t ∈ range m, h (ω (a t))) ^ 2 = ∑ t ∈ range m, ∑ t' ∈ range m, h (ω (a t)) * h (ω (a t')) := fun ω => by rw [sq, sum_mul_sum]
  simp only [hexp]
  rw [sum_comm, mul_sum]
  have : ∀ t ∈ range m, (Fintype.card W : ℝ) ^ 2 * ∑ ω : ι → W, ∑ t' ∈ range m, h (ω (a t)) * h (ω (a t')) =
      (Fintype.card W : ℝ) ^ Fintype.card ι * (m * (∑ w, h w) ^ 2 + (Fintype.card W * ∑ w, h w ^ 2 - (∑ w, h w) ^ 2)) := by
    intro t ht
    rw [sum_comm, mul_sum, sum_congr rfl fun t' ht' => hterm t ht t' ht', ← mul_sum, sum_add_distrib, sum_const, card_range, nsmul_eq_mul,
      sum_ite_eq (range m) t (fun _ => _), if_pos ht]
  rw [sum_congr rfl this, sum_const, card_range, nsmul_eq_mul]
  ring

theorem sum_flat {d k : Nat} (hk : 0 < k) (F : Nat → Nat → ℝ) : ∑ q ∈ range d, ∑ t ∈ range k, F q t = ∑ s ∈ range (d * k), F (s / k) (s % k) := by
  induction d with
  | zero => simp
  | succ d ih =>
    rw [sum_range_succ, ih, Nat.succ_mul, sum_range_add]
    congr 1
    refine sum_congr rfl fun t ht => ?_
    rw [mem_range] at ht
    rw [Nat.mul_comm d k, Nat.mul_add_div hk, Nat.mul_add_mod, Nat.div_eq_of_lt ht, Nat.mod_eq_of_lt ht, add_zero]

/-- The flip of the sign word at the first occurrence of `l`. -/
noncomputable def flipOcc {ι W : Type} [DecidableEq ι] (f : W → Int) (τ : W → W) (k : Nat) (pI pS : Int → ι) (l : Int) (ω : ι → W) : ι → W :=
  if occurrences (fun t => f (ω (pI t))) k l = 0 then ω else
    Function.update ω (pS (firstOcc (fun t => f (ω (pI t))) l)) (τ (ω (pS (firstOcc (fun t => f (ω (pI t))) l))))

/-- A flip changes none of the words that positions are computed from, and no sign word other than its own. -/
theorem flipOcc_of_ne {ι W : Type} [DecidableEq ι] {f : W → Int} {τ : W → W} {k : Nat} {pI pS : Int → ι} {l : Int} {ω : ι → W} {a : ι}
    (h : ∀ t : Nat, t < k → f (ω (pI t)) = l → a ≠ pS t) : flipOcc f τ k pI pS l ω a = ω a := by
  unfold flipOcc
  split_ifs with h0
  · rfl
  · have := firstOcc_mem h0
    exact Function.update_of_ne (h _ (by omega) this.1) _ _

theorem occurrences_congr {x x' : Int → Int} {k : Nat} (h : ∀ t : Nat, t < k → x t = x' t) (l : Int) : occurrences x k l = occurrences x' k l := by
  unfold occurrences
  congr 1
  refine filter_congr fun t ht => ?_
  rw [mem_range] at ht
  rw [h t (by omega)]

theorem firstOcc_congr {x x' : Int → Int} {k : Nat} (h : ∀ t : Nat, t < k → x t = x' t) {l : Int} (hl : occurrences x' k l ≠ 0) : firstOcc x l = firstOcc x' l := by
  have h1 := firstOcc_mem hl
  have h2 : (firstOcc x l : Int) = firstOcc x' l := by
    refine firstOcc_eq (by omega) ?_ ?_
    · rw [h _ (by omega)]; exact h1.1
    · intro t' a b
      obtain ⟨u, rfl⟩ : ∃ u : Nat, t' = u := ⟨t'.toNat, by omega⟩
      rw [h u (by omega)]
      intro hc
      have : firstOcc x' l ≤ u := Nat.sInf_le hc
      omega
  omega

/-- Moments of the sums of a function `h` of `d k` different words. -/
theorem sums_iid {ι W : Type} [Fintype ι] [DecidableEq ι] [Fintype W] [Nonempty W] {k d : Nat} (pI : Nat → Int → ι)
    (hII : ∀ q < d, ∀ q' < d, ∀ t t' : Nat, t < k → t' < k → pI q t = pI q' t' → q = q' ∧ t = t') (h2 : W → ℝ) {μ κ : ℝ}
    (hμ : ∑ w, h2 w = Fintype.card W * μ) (hm4 : ∑ w, h2 w ^ 2 = Fintype.card W * κ) :
    (∀ q < d, ∑ ω : ι → W, (∑ t ∈ range k, h2 (ω (pI q t))) ^ 2 = (Fintype.card W : ℝ) ^ Fintype.card ι * (k * κ + (k * k - k) * μ ^ 2)) ∧
    (∀ q < d, ∑ ω : ι → W, ∑ t ∈ range k, h2 (ω (pI q t)) ^ 2 = (Fintype.card W : ℝ) ^ Fintype.card ι * (k * κ)) ∧
    ∑ ω : ι → W, (∑ q ∈ range d, ∑ t ∈ range k, h2 (ω (pI q t))) ^ 2 =
      (Fintype.card W : ℝ) ^ Fintype.card ι * (d * k * κ + ((d * k) * (d * k) - d * k) * μ ^ 2) := by
  have hW : (0 : ℝ) < Fintype.card W := by exact_mod_cast Fintype.card_pos
  have hC : (0 : ℝ) < (Fintype.card W : ℝ) ^ Fintype.card ι := by positivity
  -- the sum over one vector
  have hone : ∀ q < d, ∑ ω : ι → W, (∑ t ∈ range k, h2 (ω (pI q t))) ^ 2 = (Fintype.card W : ℝ) ^ Fintype.card ι * (k * κ + (k * k - k) * μ ^ 2) := by
    intro q hq
    have := sum_iid_sq (m := k) (a := fun t => pI q t) (fun t ht t' ht' h => (hII q hq q hq t t' ht ht' h).2) h2
    rw [hμ, hm4] at this
    refine mul_left_cancel₀ (pow_ne_zero 2 hW.ne') (this.trans ?_)
    ring
  have hsing : ∀ q < d, ∑ ω : ι → W, ∑ t ∈ range k, h2 (ω (pI q t)) ^ 2 = (Fintype.card W : ℝ) ^ Fintype.card ι * (k * κ) := by
    intro q hq
    rw [sum_comm]
    have : ∀ t ∈ range k, ∑ ω : ι → W, h2 (ω (pI q t)) ^ 2 = (Fintype.card W : ℝ) ^ Fintype.card ι * κ := by
      intro t _
      have := sum_at (pI q t) fun w => h2 w ^ 2
      rw [hm4] at this
      refine mul_left_cancel₀ hW.ne' (this.trans ?_)
      ring
    rw [sum_congr rfl this, sum_const, card_range, nsmul_eq_mul]
    ring
  -- the sum over all vectors
  have hall : ∑ ω : ι → W, (∑ q ∈ range d, ∑ t ∈ range k, h2 (ω (pI q t))) ^ 2 =
      (Fintype.card W : ℝ) ^ Fintype.card ι * (d * k * κ + ((d * k) * (d * k) - d * k) * μ ^ 2) := by
    rcases Nat.eq_zero_or_pos k with rfl | hk
    · simp
    have hflat : ∀ ω : ι → W, ∑ q ∈ range d, ∑ t ∈ range k, h2 (ω (pI q t)) = ∑ s ∈ range (d * k), h2 (ω (pI (s / k) ((s % k : Nat) : Int))) := by
      intro ω
      exact sum_flat hk (fun q t => h2 (ω (pI q (t : Int))))
    have := sum_iid_sq (m := d * k) (a := fun s => pI (s / k) ((s % k : Nat) : Int)) (fun s hs s' hs' h => by
      have h1 := hII (s / k) ((Nat.div_lt_iff_lt_mul hk).mpr hs) (s' / k) ((Nat.div_lt_iff_lt_mul hk).mpr hs') (s % k) (s' % k) (Nat.mod_lt _ hk) (Nat.mod_lt _ hk) h
      rw [← Nat.div_add_mod s k, ← Nat.div_add_mod s' k, h1.1, h1.2]) h2
    rw [hμ, hm4] at this
    simp only [hflat]
    refine mul_left_cancel₀ (pow_ne_zero 2 hW.ne') (this.trans ?_)
    push_cast
    ring
  exact ⟨hone, hsing, hall⟩

theorem pick_sq {W : Type} (f : W → Int) {n : Nat} (y : Int → ℝ) (w : W) : (∑ l ∈ range n, if f w = (l : Int) then y l ^ 2 else 0) ^ 2 =
    ∑ l ∈ range n, if f w = (l : Int) then y l ^ 4 else 0 := by
  by_cases hw : ∃ l < n, f w = (l : Int)
  · obtain ⟨l, hl, hfl⟩ := hw
    have : ∀ (z : Nat → ℝ), (∑ m ∈ range n, if f w = (m : Int) then z m else 0) = z l := by
      intro z
      rw [sum_eq_single l, if_pos hfl]
      · intro m _ hm
        rw [if_neg]
        omega
      · intro hc; exact absurd (mem_range.mpr hl) hc
    rw [this, this]; ring
  · have : ∀ (z : Nat → ℝ), (∑ m ∈ range n, if f w = (m : Int) then z m else 0) = 0 := by
      intro z
      refine sum_eq_zero fun m hm => ?_
      rw [if_neg]
      exact fun hc => hw ⟨m, mem_range.mp hm, hc⟩
    rw [this, this]; ring

theorem pick_sum {W : Type} [Fintype W] [Nonempty W] (f : W → Int) {n : Nat} {p : Nat → ℝ}
    (hp : ∀ l < n, p l = ((univ.filter fun w => f w = (l : Int)).card : ℝ) / Fintype.card W) (z : Nat → ℝ) :
    ∑ w, (∑ l ∈ range n, if f w = (l : Int) then z l else 0) = Fintype.card W * ∑ l ∈ range n, p l * z l := by
  have hW : (0 : ℝ) < Fintype.card W := by exact_mod_cast Fintype.card_pos
  rw [sum_comm, mul_sum]
  refine sum_congr rfl fun l hl => ?_
  rw [hp l (mem_range.mp hl), ← sum_filter, sum_const, nsmul_eq_mul]
  field_simp

/-- The second moment of the squared norm of the product of `d` long-axis vectors with `y`, over all choices of the words. -/
theorem laso_quad {ι W : Type} [Fintype ι] [DecidableEq ι] [Fintype W] [Nonempty W] (f : W → Int) (g : W → ℝ) (τ : W → W) (hτ : Function.Involutive τ)
    (hg : ∀ w, g (τ w) = -g w) (hg1 : ∀ w, g w * g w = 1) {k n d : Nat} (pI pS : Nat → Int → ι)
    (hIS : ∀ q < d, ∀ q' < d, ∀ t t' : Nat, t < k → t' < k → pI q t ≠ pS q' t')
    (hSS : ∀ q < d, ∀ q' < d, ∀ t t' : Nat, t < k → t' < k → pS q t = pS q' t' → q = q' ∧ t = t')
    (hII : ∀ q < d, ∀ q' < d, ∀ t t' : Nat, t < k → t' < k → pI q t = pI q' t' → q = q' ∧ t = t') (y : Int → ℝ) (p : Nat → ℝ)
    (hp : ∀ l < n, p l = ((univ.filter fun w => f w = (l : Int)).card : ℝ) / Fintype.card W) :
    ∑ ω : ι → W, (∑ q ∈ range d, (∑ l ∈ range n, (Real.sqrt (occurrences (fun t => f (ω (pI q t))) k l) *
      g (ω (pS q (firstOcc (fun t => f (ω (pI q t))) l)))) * y l) ^ 2) ^ 2 ≤
    (Fintype.card W : ℝ) ^ Fintype.card ι * (d * k * ∑ l ∈ range n, p l * y l ^ 4 +
      ((d : ℝ) ^ 2 * k ^ 2 + 2 * d * k ^ 2 - 3 * d * k) * (∑ l ∈ range n, p l * y l ^ 2) ^ 2) := by
  classical
  have hW : (0 : ℝ) < Fintype.card W := by exact_mod_cast Fintype.card_pos
  let x : Nat → (ι → W) → Int → Int := fun q ω t => f (ω (pI q t))
  let e : Nat → Nat → (ι → W) → ℝ := fun q l ω => Real.sqrt (occurrences (x q ω) k l) * g (ω (pS q (firstOcc (x q ω) l)))
  let v : Nat → Nat → (ι → W) → ℝ := fun q l ω => occurrences (x q ω) k l
  let Φ : Nat → Nat → (ι → W) → (ι → W) := fun q l => flipOcc f τ k (pI q) (pS q) l
  have hx : ∀ q < d, ∀ l : Nat, ∀ q' < d, ∀ ω, ∀ t : Nat, t < k → x q' (Φ q l ω) t = x q' ω t := by
    intro q hq l q' hq' ω t ht
    simp only [x, Φ]
    rw [flipOcc_of_ne fun t' ht' _ => hIS q' hq' q hq t t' ht ht']
  have hocc : ∀ q < d, ∀ l : Nat, ∀ q' < d, ∀ ω (m : Int), occurrences (x q' (Φ q l ω)) k m = occurrences (x q' ω) k m :=
    fun q hq l q' hq' ω m => occurrences_congr (hx q hq l q' hq' ω) m
  have hfirst : ∀ q < d, ∀ l : Nat, ∀ q' < d, ∀ ω (m : Int), occurrences (x q' ω) k m ≠ 0 → firstOcc (x q' (Φ q l ω)) m = firstOcc (x q' ω) m :=
    fun q hq l q' hq' ω m h => firstOcc_congr (hx q hq l q' hq' ω) h
  have hΦ : ∀ (q l : Nat) (ω : ι → W), occurrences (x q ω) k l ≠ 0 →
      Φ q l ω = Function.update ω (pS q (firstOcc (x q ω) l)) (τ (ω (pS q (firstOcc (x q ω) l)))) := by
    intro q l ω h
    simp only [Φ, flipOcc]
    rw [if_neg h]
  have hinv : ∀ q < d, ∀ l < n, Function.Involutive (Φ q l) := by
    intro q hq l _ ω
    by_cases h : occurrences (x q ω) k l = 0
    · have : Φ q l ω = ω := by simp only [Φ, flipOcc]; rw [if_pos h]
      rw [this, this]
    · have h3 : occurrences (x q (Φ q l ω)) k l ≠ 0 := by rw [hocc q hq l q hq]; exact h
      rw [hΦ q l _ h3, hfirst q hq l q hq ω l h, hΦ q l ω h, Function.update_self, hτ, Function.update_idem, Function.update_eq_self]
  have hneg : ∀ q < d, ∀ l < n, ∀ ω, e q l (Φ q l ω) = -e q l ω := by
    intro q hq l _ ω
    simp only [e]
    rw [hocc q hq l q hq]
    by_cases h : occurrences (x q ω) k l = 0
    · rw [h]; simp
    rw [hfirst q hq l q hq ω l h, hΦ q l ω h, Function.update_self, hg]
    ring
  have hkeep : ∀ q < d, ∀ l < n, ∀ q' < d, ∀ l' < n, (q', l') ≠ (q, l) → ∀ ω, e q' l' (Φ q l ω) = e q' l' ω := by
    intro q hq l _ q' hq' l' _ hne ω
    simp only [e]
    rw [hocc q hq l q' hq']
    by_cases h : occurrences (x q' ω) k l' = 0
    · rw [h]; simp
    rw [hfirst q hq l q' hq' ω l' h]
    congr 2
    have h1 := firstOcc_mem h
    refine flipOcc_of_ne fun t ht htl hc => hne ?_
    obtain ⟨rfl, e2⟩ := hSS q' hq' q hq _ t (by omega) ht hc
    have h2 : x q' ω (firstOcc (x q' ω) l') = l := by rw [e2]; exact htl
    have : l' = l := by have := h1.1.symm.trans h2; omega
    rw [this]
  have hv : ∀ q < d, ∀ l < n, ∀ ω, e q l ω ^ 2 = v q l ω := by
    intro q _ l _ ω
    simp only [e, v]
    rw [sq, mul_mul_mul_comm, Real.mul_self_sqrt (Nat.cast_nonneg _), hg1, mul_one]
  have hvk : ∀ q < d, ∀ l < n, ∀ q' < d, ∀ l' < n, ∀ ω, v q' l' (Φ q l ω) = v q' l' ω := by
    intro q hq l _ q' hq' l' _ ω
    simp only [v]
    rw [hocc q hq l q' hq']
  have key := sum_quad_eq e v Φ hinv hneg hkeep hv hvk (fun l => y l)
  show ∑ ω, (∑ q ∈ range d, (∑ l ∈ range n, e q l ω * y l) ^ 2) ^ 2 ≤ _
  rw [key]
  -- sums over the samples
  let h2 : W → ℝ := fun w => ∑ l ∈ range n, if f w = (l : Int) then y l ^ 2 else 0
  have hcnt : ∀ (q : Nat) (ω : ι → W) (l : Nat), v q l ω = ∑ t ∈ range k, if f (ω (pI q t)) = (l : Int) then (1 : ℝ) else 0 := by
    intro q ω l
    simp only [v, occurrences]
    rw [card_filter, Int.toNat_natCast]
    push_cast
    rfl
  have hU : ∀ (q : Nat) (ω : ι → W), ∑ l ∈ range n, v q l ω * y l ^ 2 = ∑ t ∈ range k, h2 (ω (pI q t)) := by
    intro q ω
    simp only [hcnt, sum_mul, h2]
    rw [sum_comm]
    exact sum_congr rfl fun t _ => sum_congr rfl fun l _ => by split_ifs <;> simp
  have hh4 : ∀ w, h2 w ^ 2 = ∑ l ∈ range n, if f w = (l : Int) then y l ^ 4 else 0 := pick_sq f y
  have hV : ∀ (q : Nat) (ω : ι → W), ∑ t ∈ range k, h2 (ω (pI q t)) ^ 2 ≤ ∑ l ∈ range n, v q l ω ^ 2 * y l ^ 4 := by
    intro q ω
    have : ∑ t ∈ range k, h2 (ω (pI q t)) ^ 2 = ∑ l ∈ range n, v q l ω * y l ^ 4 := by
      simp only [hh4, hcnt, sum_mul]
      rw [sum_comm]
      exact sum_congr rfl fun l _ => sum_congr rfl fun t _ => by split_ifs <;> simp
    rw [this]
    refine sum_le_sum fun l _ => mul_le_mul_of_nonneg_right ?_ (by positivity)
    simp only [v]
    have : (occurrences (x q ω) k l : ℝ) ≤ (occurrences (x q ω) k l : ℝ) ^ 2 := by
      have : occurrences (x q ω) k l ≤ occurrences (x q ω) k l ^ 2 := Nat.le_self_pow (by norm_num) _
      exact_mod_cast this
    exact this
  have hm := pick_sum f hp
  have hμ : ∑ w, h2 w = Fintype.card W * ∑ l ∈ range n, p l * y l ^ 2 := hm fun l => y l ^ 2
  have hm4 : ∑ w, h2 w ^ 2 = Fintype.card W * ∑ l ∈ range n, p l * y l ^ 4 := by
    simp only [hh4]; exact hm fun l => y l ^ 4
  generalize ∑ l ∈ range n, p l * y l ^ 2 = μ at *
  generalize ∑ l ∈ range n, p l * y l ^ 4 = κ at *
  obtain ⟨hone, hsing, hall⟩ := sums_iid pI hII h2 hμ hm4
  simp only [hU]
  rw [sum_add_distrib, hall, sum_comm]
  have hq : ∀ q ∈ range d, ∑ ω : ι → W, (2 * (∑ t ∈ range k, h2 (ω (pI q t))) ^ 2 - 2 * ∑ l ∈ range n, v q l ω ^ 2 * y l ^ 4) ≤
      (Fintype.card W : ℝ) ^ Fintype.card ι * (2 * ((k * k - k) * μ ^ 2)) := by
    intro q hq
    have hq' := mem_range.mp hq
    have h1 : ∑ ω : ι → W, (2 * (∑ t ∈ range k, h2 (ω (pI q t))) ^ 2 - 2 * ∑ l ∈ range n, v q l ω ^ 2 * y l ^ 4) ≤
        ∑ ω : ι → W, (2 * (∑ t ∈ range k, h2 (ω (pI q t))) ^ 2 - 2 * ∑ t ∈ range k, h2 (ω (pI q t)) ^ 2) :=
      sum_le_sum fun ω _ => by have := hV q ω; linarith
    refine h1.trans (le_of_eq ?_)
    rw [sum_sub_distrib, ← mul_sum, ← mul_sum, hone q hq', hsing q hq']
    ring
  have := sum_le_sum hq
  rw [sum_const, card_range, nsmul_eq_mul] at this
  refine (add_le_add_right this _).trans (le_of_eq ?_)
  ring

end RB
