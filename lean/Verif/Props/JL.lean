import Verif.Lemmas.DenseMgf
import Verif.Lemmas.WordMgf
import Verif.Props.SketchDistDense
import Verif.Props.SketchDistLong

/-!
# C94, C95: dense operators preserve distances with exponentially small probability of failure

C94 is about the operator, C95 about `sketch_general`.
-/

namespace RB
open Spec Finset
variable {N : Nat} {K W WS R : Type}

/-- Exponential moment of a nonnegative variable with negative factor from its moments. -/
theorem exp_neg_of_moments {Ω : Type} [Fintype Ω] {S : Ω → ℝ} {k : Nat} {h v w t : ℝ} (hk : k ≤ 2) (hw1 : w ≤ 1) (h0 : 0 ≤ h) (hS : ∀ ω, 0 ≤ S ω)
    (e1 : ∑ ω, S ω = Fintype.card Ω * (k * v * t)) (e2 : ∑ ω, S ω ^ 2 ≤ Fintype.card Ω * (((k : ℝ) ^ 2 + 2 * k) * w * t ^ 2)) :
    ∑ ω, Real.exp (-(h * S ω)) ≤ Fintype.card Ω * Real.exp (k * (-(h * v * t) + 2 * (h * t) ^ 2)) := by
  have hΩ : (0 : ℝ) ≤ Fintype.card Ω := Nat.cast_nonneg _
  have hle : ∀ ω, Real.exp (-(h * S ω)) ≤ 1 - h * S ω + h ^ 2 / 2 * S ω ^ 2 := by
    intro ω
    refine (exp_neg_le (mul_nonneg h0 (hS ω))).trans (le_of_eq ?_)
    ring
  refine (sum_le_sum fun ω _ => hle ω).trans ?_
  rw [sum_add_distrib, sum_sub_distrib, ← mul_sum, ← mul_sum, sum_const, card_univ, nsmul_eq_mul, mul_one, e1]
  have hk' : (k : ℝ) ≤ 2 := by exact_mod_cast hk
  have hk0 : (0 : ℝ) ≤ k := Nat.cast_nonneg _
  have h4 : ((k : ℝ) ^ 2 + 2 * k) * w * t ^ 2 ≤ 4 * k * t ^ 2 := by
    refine mul_le_mul_of_nonneg_right ?_ (sq_nonneg _)
    calc ((k : ℝ) ^ 2 + 2 * k) * w ≤ ((k : ℝ) ^ 2 + 2 * k) * 1 := mul_le_mul_of_nonneg_left hw1 (by positivity)
      _ ≤ 4 * k := by nlinarith
  have h5 : h ^ 2 / 2 * ∑ ω, S ω ^ 2 ≤ Fintype.card Ω * (k * (2 * (h * t) ^ 2)) := by
    refine (mul_le_mul_of_nonneg_left (e2.trans (mul_le_mul_of_nonneg_left h4 hΩ)) (by positivity)).trans (le_of_eq ?_)
    ring
  have h6 := Real.add_one_le_exp ((k : ℝ) * (-(h * v * t) + 2 * (h * t) ^ 2))
  have h7 := mul_le_mul_of_nonneg_left h6 hΩ
  refine le_trans ?_ h7
  linarith

section
variable [NeZero N] [Fintype W] [Nonempty W] {L : Nat} [NeZero L] {G : Gen N K W ℝ} {family : ScalarDist} {seed : RNGState N K} {M r : Int}

/-- Exponential moments of the squared norm of `E x` for a `d × n` matrix `E` of different entries of the operator. -/
theorem dense_upper (hL : L = 2 ∨ L = 4) (hG : G.len = L) (hsub : SubGaussianWords G family) (hN : r * countersPerVector L M ≤ N) {d n : Nat} (vec off : Nat → Nat → Int)
    (hin : ∀ i < d, ∀ j < n, (0 ≤ vec i j ∧ vec i j < r) ∧ (0 ≤ off i j ∧ off i j < M))
    (hinj : ∀ i < d, ∀ j < n, ∀ i' < d, ∀ j' < n, vec i' j' = vec i j → off i' j' = off i j → i' = i ∧ j' = j) (x : Nat → ℝ) {h : ℝ} (h0 : 0 ≤ h)
    (hc : 2 * (h * ∑ j ∈ range n, x j ^ 2) < 1) :
    ∑ ω : ZMod N × ZMod L → W, Real.exp (h * ∑ i ∈ range d, (∑ j ∈ range n, rawE G family M seed ω (vec i j) (off i j) * x j) ^ 2) ≤
      Fintype.card (ZMod N × ZMod L → W) / Real.sqrt (1 - 2 * (h * ∑ j ∈ range n, x j ^ 2)) ^ d := by
  have key := exp_sq_sum_le (Ω := ZMod N × ZMod L → W) d (fun _ => 1) (fun i ω => ∑ j ∈ range n, rawE G family M seed ω (vec i j) (off i j) * x j)
    (C := Fintype.card (ZMod N × ZMod L → W)) (c := ∑ j ∈ range n, x j ^ 2) (h := h) (fun s => by
      have := dense_mgf (W := W) (seed := seed) hL hG hsub hN (range d ×ˢ range n) (fun e => vec e.1 e.2) (fun e => off e.1 e.2)
        (fun e he => hin e.1 (mem_range.mp (mem_product.mp he).1) e.2 (mem_range.mp (mem_product.mp he).2))
        (fun e he e' he' h1 h2 => by
          obtain ⟨a, b⟩ := hinj e.1 (mem_range.mp (mem_product.mp he).1) e.2 (mem_range.mp (mem_product.mp he).2) e'.1 (mem_range.mp (mem_product.mp he').1) e'.2
            (mem_range.mp (mem_product.mp he').2) h1 h2
          exact Prod.ext a b) (fun e => s e.1 * x e.2)
      simp only [sum_product] at this
      refine le_trans (le_of_eq (sum_congr rfl fun ω _ => ?_)) (this.trans (le_of_eq ?_))
      · rw [one_mul]
        congr 1
        refine sum_congr rfl fun i _ => ?_
        rw [mul_sum]
        exact sum_congr rfl fun j _ => by ring
      · congr 3
        rw [mul_comm, sum_mul_sum]
        exact sum_congr rfl fun i _ => sum_congr rfl fun j _ => by ring) h0 hc
  simpa only [one_mul] using key

/-- The same with a negative factor. Rows with different `κ` are computed from different words, and at most two rows have the same `κ`. -/
theorem dense_lower {τ0 τ1 : W → W} {v w : ℝ} (hL : L = 2 ∨ L = 4) (hG : G.len = L) (hsym : SymmetricWords G τ0 τ1 family) (hv : MeanSquare G family v)
    (hw : FourthMoments G family w) (hvw : v ^ 2 ≤ w) (hw1 : w ≤ 1) (hN : r * countersPerVector L M ≤ N) {d n : Nat} (vec off : Nat → Nat → Int)
    (hin : ∀ i < d, ∀ j < n, (0 ≤ vec i j ∧ vec i j < r) ∧ (0 ≤ off i j ∧ off i j < M))
    (hinj : ∀ i < d, ∀ j < n, ∀ i' < d, ∀ j' < n, vec i' j' = vec i j → off i' j' = off i j → i' = i ∧ j' = j) (κ : Nat → Int)
    (hκ : ∀ i < d, ∀ j < n, ∀ i' < d, ∀ j' < n, wordKey family (vec i' j') (off i' j') = wordKey family (vec i j) (off i j) → κ i' = κ i)
    (hκ2 : ∀ b, ((range d).filter fun i => κ i = b).card ≤ 2) (x : Nat → ℝ) {h : ℝ} (h0 : 0 ≤ h) :
    ∑ ω : ZMod N × ZMod L → W, Real.exp (-(h * ∑ i ∈ range d, (∑ j ∈ range n, rawE G family M seed ω (vec i j) (off i j) * x j) ^ 2)) ≤
      Fintype.card (ZMod N × ZMod L → W) * Real.exp (d * (-(h * v * ∑ j ∈ range n, x j ^ 2) + 2 * (h * ∑ j ∈ range n, x j ^ 2) ^ 2)) := by
  classical
  set t := ∑ j ∈ range n, x j ^ 2 with ht
  have hΩ : (0 : ℝ) < Fintype.card (ZMod N × ZMod L → W) := by exact_mod_cast Fintype.card_pos
  let Q : Nat → (ZMod N × ZMod L → W) → ℝ := fun i ω => (∑ j ∈ range n, rawE G family M seed ω (vec i j) (off i j) * x j) ^ 2
  -- one block of rows
  have hblock : ∀ b, ∑ ω : ZMod N × ZMod L → W, Real.exp (-(h * ∑ i ∈ (range d).filter (fun i => κ i = b), Q i ω)) ≤
      Fintype.card (ZMod N × ZMod L → W) * Real.exp (((range d).filter fun i => κ i = b).card * (-(h * v * t) + 2 * (h * t) ^ 2)) := by
    intro b
    have hk := hκ2 b
    obtain ⟨ρ, h1, h2, h3⟩ := enum_finset ((range d).filter fun i => κ i = b)
    set k := ((range d).filter fun i => κ i = b).card
    have hρ : ∀ i < k, ρ i < d := fun i hi => mem_range.mp (mem_filter.mp (h1 i hi)).1
    obtain ⟨e1, e2⟩ := dense_second (G := G) (family := family) (seed := seed) (r := r) (M := M) hL hG hsym hv hw hvw hN (fun i j => vec (ρ i) j) (fun i j => off (ρ i) j)
      (d := k) (n := n) (fun i hi j hj => hin _ (hρ i hi) j hj) (fun i hi j hj i' hi' j' hj' a b => by
        obtain ⟨c1, c2⟩ := hinj _ (hρ i hi) j hj _ (hρ i' hi') j' hj' a b
        exact ⟨h2 _ hi' _ hi c1, c2⟩) x
    rw [← ht] at e1 e2
    simp only [h3]
    exact exp_neg_of_moments hk hw1 h0 (fun ω => sum_nonneg fun i _ => sq_nonneg _) e1 e2
  have hfib : ∀ f : Nat → ℝ, ∑ i ∈ range d, f i = ∑ b ∈ (range d).image κ, ∑ i ∈ (range d).filter (fun i => κ i = b), f i := fun f =>
    (sum_fiberwise_of_maps_to (fun e he => mem_image_of_mem κ he) f).symm
  have hmain := sum_prod_indep_le (W := W) ((range d).image κ)
    (fun b (a : ZMod N × ZMod L) => ∃ i < d, κ i = b ∧ ∃ j < n, entryPos seed family (countersPerVector L M) (vec i j) (off i j) a)
    (fun b ω => Real.exp (-(h * ∑ i ∈ (range d).filter (fun i => κ i = b), Q i ω)))
    (fun b => Real.exp (((range d).filter fun i => κ i = b).card * (-(h * v * t) + 2 * (h * t) ^ 2)))
    (by
      rintro b b' a hne ⟨i, hi, rfl, j, hj, ha⟩ ⟨i', hi', rfl, j', hj', ha'⟩
      exact hne (hκ i' hi' j' hj' i hi j hj (entryPos_key hL hN (hin i' hi' j' hj').1 (hin i' hi' j' hj').2 (hin i hi j hj).1 (hin i hi j hj).2 ha' ha)))
    (by
      intro b ω ω' hω
      have : ∑ i ∈ (range d).filter (fun i => κ i = b), Q i ω = ∑ i ∈ (range d).filter (fun i => κ i = b), Q i ω' := by
        refine sum_congr rfl fun i hi => ?_
        rw [mem_filter, mem_range] at hi
        simp only [Q]
        congr 1
        refine sum_congr rfl fun j hj => ?_
        rw [rawE_congr hG fun a ha => hω a ⟨i, hi.1, hi.2, j, mem_range.mp hj, ha⟩]
      rw [this])
    (fun b ω => (Real.exp_pos _).le) (fun b _ => hblock b)
  simp only [← Real.exp_sum, ← sum_mul, sum_neg_distrib, ← mul_sum, ← hfib] at hmain
  have hcount : ∑ b ∈ (range d).image κ, (((range d).filter fun i => κ i = b).card : ℝ) = d := by
    have := hfib fun _ => (1 : ℝ)
    simp only [sum_const, card_range, nsmul_eq_mul, mul_one] at this
    exact this.symm
  rw [hcount] at hmain
  exact hmain

end

/-- Markov's inequality for an exponential. -/
theorem pr_exp_le {Ω : Type} [Fintype Ω] [Nonempty Ω] (p : Ω → Prop) (f : Ω → ℝ) {a b : ℝ} (hp : ∀ ω, p ω → a ≤ f ω) (hb : ∑ ω, Real.exp (f ω) ≤ Fintype.card Ω * Real.exp b) :
    Pr p ≤ Real.exp (b - a) := by
  classical
  have hΩ : (0 : ℝ) < Fintype.card Ω := by exact_mod_cast Fintype.card_pos
  rw [pr_eq, div_le_iff₀ hΩ]
  have h1 : ((univ.filter p).card : ℝ) * Real.exp a ≤ Fintype.card Ω * Real.exp b := by
    refine le_trans ?_ hb
    refine le_trans ?_ (sum_le_sum_of_subset_of_nonneg (filter_subset p univ) fun ω _ _ => (Real.exp_pos _).le)
    rw [← nsmul_eq_mul]
    exact card_nsmul_le_sum _ _ _ fun ω hω => Real.exp_le_exp.mpr (hp ω (mem_filter.mp hω).2)
  rw [sub_eq_add_neg, Real.exp_add, Real.exp_neg, ← div_eq_mul_inv, div_mul_eq_mul_div, le_div_iff₀ (Real.exp_pos _)]
  linarith

theorem sqrt_pow_le {ε : ℝ} (h0 : 0 ≤ ε) (h1 : ε ≤ 1) (d : Nat) : Real.sqrt (1 + ε) ^ d ≤ Real.exp (d * (ε / 2 - ε ^ 2 / 8)) := by
  rw [Real.exp_nat_mul]
  refine pow_le_pow_left₀ (Real.sqrt_nonneg _) ?_ d
  rw [Real.sqrt_le_left (Real.exp_pos _).le, ← Real.exp_nat_mul]
  have h := mul_le_mul_of_nonneg_right (one_add_mul_exp_le h0 h1) (Real.exp_pos ε).le
  rw [mul_assoc, ← Real.exp_add, neg_add_cancel, Real.exp_zero, mul_one, ← Real.exp_add] at h
  refine h.trans (le_of_eq ?_)
  congr 1
  push_cast
  ring

/-- The tails from the exponential moments. -/
theorem tails_of_mgf {Ω : Type} [Fintype Ω] [Nonempty Ω] {S : Ω → ℝ} {d : Nat} {t v δ ε : ℝ} (ht : 0 < t) (hε0 : 0 < ε) (hε1 : ε ≤ 1) (hv : 1 - δ ≤ v)
    (hup : ∀ h : ℝ, 0 ≤ h → 2 * (h * t) < 1 → ∑ ω, Real.exp (h * S ω) ≤ Fintype.card Ω / Real.sqrt (1 - 2 * (h * t)) ^ d)
    (hlo : ∀ h : ℝ, 0 ≤ h → ∑ ω, Real.exp (-(h * S ω)) ≤ Fintype.card Ω * Real.exp (d * (-(h * v * t) + 2 * (h * t) ^ 2))) :
    Pr (fun ω => (1 + ε) * t * d < S ω) ≤ Real.exp (-(d * ε ^ 2 / 8)) ∧ Pr (fun ω => S ω < (1 - ε) * t * d) ≤ Real.exp (-(d * (ε * (ε - 2 * δ)) / 8)) := by
  have hd0 : (0 : ℝ) ≤ d := Nat.cast_nonneg _
  constructor
  · have hh : 0 ≤ ε / (2 * (1 + ε) * t) := by positivity
    have e : 2 * (ε / (2 * (1 + ε) * t) * t) = ε / (1 + ε) := by field_simp
    have e2 : 1 - ε / (1 + ε) = (1 + ε)⁻¹ := by field_simp; ring
    have key := hup (ε / (2 * (1 + ε) * t)) hh (by rw [e, div_lt_one (by linarith)]; linarith)
    rw [e, e2, Real.sqrt_inv, inv_pow, div_inv_eq_mul] at key
    have := pr_exp_le (fun ω => (1 + ε) * t * d < S ω) (fun ω => ε / (2 * (1 + ε) * t) * S ω) (a := d * (ε / 2)) (b := d * (ε / 2 - ε ^ 2 / 8)) (fun ω hω => by
      refine le_trans (le_of_eq ?_) (mul_le_mul_of_nonneg_left hω.le hh)
      field_simp) (key.trans (mul_le_mul_of_nonneg_left (sqrt_pow_le hε0.le hε1 d) (Nat.cast_nonneg _)))
    refine this.trans (le_of_eq ?_)
    congr 1
    ring
  · have hh : 0 ≤ ε / (4 * t) := by positivity
    have key := hlo (ε / (4 * t)) hh
    have e : ε / (4 * t) * t = ε / 4 := by field_simp
    have e2 : ε / (4 * t) * v * t = ε / 4 * v := by field_simp
    rw [e, e2] at key
    have := pr_exp_le (fun ω => S ω < (1 - ε) * t * d) (fun ω => -(ε / (4 * t) * S ω)) (a := -(d * (ε / 4 * (1 - ε)))) (fun ω hω => by
      have h1 := mul_le_mul_of_nonneg_left hω.le hh
      have e3 : ε / (4 * t) * ((1 - ε) * t * d) = d * (ε / 4 * (1 - ε)) := by field_simp
      rw [e3] at h1
      linarith) key
    refine this.trans (Real.exp_le_exp.mpr ?_)
    have h1 := mul_le_mul_of_nonneg_left hv (show 0 ≤ (d : ℝ) * (ε / 4) by positivity)
    nlinarith

/-- The entries of `op(X)` as entries of the vectors that the generator fills, and the rows that may share words. -/
theorem dense_window [NeZero N] [Fintype W] {L : Nat} [NeZero L] {G : Gen N K W ℝ} {D : DenseDist} {seed : RNGState N K}
    (hG : G.Ok) (hD : DenseDistOk D) {A : (ZMod N × ZMod L → W) → Int → Int → ℝ} (hA : ∀ ω, Samples (fromWords G ω) (Real.sqrt 3) D seed (A ω))
    {op : Op} {d m : Nat} {ro co : Int} (hin : InOp D.nRows D.nCols (rowsOf op d m) (colsOf op d m) ro co) :
    ∃ (vec off : Nat → Nat → Int) (κ : Nat → Int),
      (∀ ω, ∀ i < d, ∀ j < m, opMat op (subMat ro co (A ω)) (i : Int) (j : Int) = rawE G D.family D.dimMajor seed ω (vec i j) (off i j)) ∧
      (∀ i < d, ∀ j < m, (0 ≤ vec i j ∧ vec i j < D.dimMinor) ∧ (0 ≤ off i j ∧ off i j < D.dimMajor)) ∧
      (∀ i < d, ∀ j < m, ∀ i' < d, ∀ j' < m, vec i' j' = vec i j → off i' j' = off i j → i' = i ∧ j' = j) ∧
      (∀ i < d, ∀ j < m, ∀ i' < d, ∀ j' < m, wordKey D.family (vec i' j') (off i' j') = wordKey D.family (vec i j) (off i j) → κ i' = κ i) ∧
      ∀ b, ((range d).filter fun i => κ i = b).card ≤ 2 := by
  obtain ⟨hR, hC, hfit, hlay⟩ := denseDist_facts hD
  let ri : Nat → Nat → Int := fun i j => match op with | .NoTrans => ro + i | .Trans => ro + j
  let ci : Nat → Nat → Int := fun i j => match op with | .NoTrans => co + j | .Trans => co + i
  have hrc : ∀ i < d, ∀ j < m, InR D.nRows D.nCols (ri i j) (ci i j) := by
    intro i hi j hj
    obtain ⟨h1, h2, h3, h4⟩ := hin
    simp only [ri, ci]
    cases op <;> simp only [rowsOf, colsOf] at h3 h4 <;> refine ⟨?_, ?_, ?_, ?_⟩ <;> dsimp only <;> omega
  let vec : Nat → Nat → Int := fun i j => match D.naturalLayout with | .ColMajor => ci i j | .RowMajor => ri i j
  let off : Nat → Nat → Int := fun i j => match D.naturalLayout with | .ColMajor => ri i j | .RowMajor => ci i j
  have hkey : ∀ q p q' p', wordKey D.family q' p' = wordKey D.family q p → q' = q ∧ p' / 2 = p / 2 := by
    intro q p q' p' h
    cases hf : D.family <;> rw [hf] at h <;> simp only [wordKey, Prod.mk.injEq] at h <;> omega
  have hfour : (∃ c c' : Int, (∀ i j, vec i j = c + i) ∧ ∀ i j, off i j = c' + j) ∨ ∃ c c' : Int, (∀ i j, vec i j = c + j) ∧ ∀ i j, off i j = c' + i := by
    simp only [vec, off, ri, ci]
    rcases hlay with ⟨a, -, -⟩ | ⟨a, -, -⟩ <;> rw [a] <;> cases op
    · exact Or.inr ⟨co, ro, fun _ _ => rfl, fun _ _ => rfl⟩
    · exact Or.inl ⟨co, ro, fun _ _ => rfl, fun _ _ => rfl⟩
    · exact Or.inl ⟨ro, co, fun _ _ => rfl, fun _ _ => rfl⟩
    · exact Or.inr ⟨ro, co, fun _ _ => rfl, fun _ _ => rfl⟩
  have hκ : ∃ κ : Nat → Int, (∀ i < d, ∀ j < m, ∀ i' < d, ∀ j' < m, wordKey D.family (vec i' j') (off i' j') = wordKey D.family (vec i j) (off i j) → κ i' = κ i) ∧
      ∀ b, ((range d).filter fun i => κ i = b).card ≤ 2 := by
    rcases hfour with ⟨c, c', h1, h2⟩ | ⟨c, c', h1, h2⟩
    · refine ⟨fun i => i, fun i _ j _ i' _ j' _ h => ?_, fun b => ?_⟩
      · have := (hkey _ _ _ _ h).1
        rw [h1, h1] at this
        dsimp only
        omega
      · refine (card_le_card (t := {b.toNat, b.toNat}) fun i hi => ?_).trans card_le_two
        have : (i : Int) = b := (mem_filter.mp hi).2
        rw [mem_insert]
        left
        omega
    · refine ⟨fun i => (c' + i) / 2, fun i _ j _ i' _ j' _ h => ?_, fun b => ?_⟩
      · have := (hkey _ _ _ _ h).2
        rwa [h2, h2] at this
      · refine (card_le_card (t := {(2 * b - c').toNat, (2 * b - c' + 1).toNat}) fun i hi => ?_).trans card_le_two
        have : (c' + (i : Int)) / 2 = b := (mem_filter.mp hi).2
        rw [mem_insert, mem_singleton]
        omega
  obtain ⟨κ, hκ1, hκ2⟩ := hκ
  refine ⟨vec, off, κ, ?_, ?_, ?_, hκ1, hκ2⟩
  · intro ω i hi j hj
    have h1 : opMat op (subMat ro co (A ω)) (i : Int) (j : Int) = A ω (ri i j) (ci i j) := by
      simp only [ri, ci]; cases op <;> rfl
    rw [h1, samples_unique (G := fromWords G ω) hG hD (hA ω) (hrc i hi j hj)]
    simp only [vec, off, rawE, denseEntry]
    cases D.naturalLayout <;> rfl
  · intro i hi j hj
    obtain ⟨h1, h2, h3, h4⟩ := hrc i hi j hj
    simp only [vec, off]
    rcases hlay with ⟨a, b, c⟩ | ⟨a, b, c⟩ <;> rw [a, b, c]
    · exact ⟨⟨h3, h4⟩, h1, h2⟩
    · exact ⟨⟨h1, h2⟩, h3, h4⟩
  · intro i _ j _ i' _ j' _ h1 h2
    rcases hfour with ⟨c, c', h3, h4⟩ | ⟨c, c', h3, h4⟩ <;> rw [h3, h3] at h1 <;> rw [h4, h4] at h2 <;> omega

/-- C94 (tails). Let `op(X)` be a `d × m` window of a dense operator, or the transpose of a window, and `alpha² = 1/d`; let the words satisfy the conditions of C82 with a
mean square of at least `1 - δ` and fourth moments of at most 1, and have the exponential moments `SubGaussianWords`. For `0 < ε ≤ 1`, the fraction of the words for which
`‖alpha * op(X) x‖²` exceeds `(1 + ε) ‖x‖²` is at most `exp (-d ε² / 8)`, and the fraction for which it is below `(1 - ε) ‖x‖²` is at most
`exp (-d ε (ε - 2 δ) / 8)`. -/
theorem C94_tails [NeZero N] [Fintype W] [Nonempty W] {L : Nat} [NeZero L] {G : Gen N K W ℝ} {D : DenseDist} {seed : RNGState N K} {v w δ : ℝ}
    (hG : G.Ok) (hL : G.len = L) (hD : DenseDistOk D) (hN : D.nRows * D.nCols ≤ N) (hwd : WordsOk G D.family v w) (hw1 : w ≤ 1) (hv1 : 1 - δ ≤ v)
    (hsub : SubGaussianWords G D.family) {A : (ZMod N × ZMod L → W) → Int → Int → ℝ} (hA : ∀ ω, Samples (fromWords G ω) (Real.sqrt 3) D seed (A ω))
    {op : Op} {d m ro co : Int} (hd : 0 < d) (hm : 0 ≤ m) (hin : InOp D.nRows D.nCols (rowsOf op d m) (colsOf op d m) ro co) {alpha : ℝ}
    (hal : alpha * alpha = 1 / d) (x : Int → ℝ) {ε : ℝ} (hε0 : 0 < ε) (hε1 : ε ≤ 1) :
    Pr (fun ω => (1 + ε) * ∑ j ∈ range m.toNat, x j ^ 2 < ∑ i ∈ range d.toNat, (alpha * ∑ j ∈ range m.toNat, opMat op (subMat ro co (A ω)) i j * x j) ^ 2) ≤
      Real.exp (-(d * ε ^ 2 / 8)) ∧
    Pr (fun ω => ∑ i ∈ range d.toNat, (alpha * ∑ j ∈ range m.toNat, opMat op (subMat ro co (A ω)) i j * x j) ^ 2 < (1 - ε) * ∑ j ∈ range m.toNat, x j ^ 2) ≤
      Real.exp (-(d * (ε * (ε - 2 * δ)) / 8)) := by
  obtain ⟨⟨τ0, τ1, hsym⟩, hv, hw, hvw⟩ := hwd
  have hL' : L = 2 ∨ L = 4 := by rcases hG with h | h <;> omega
  have hcnt := counters_le hL' hD hN
  obtain ⟨d', rfl⟩ : ∃ d' : Nat, d = d' := ⟨d.toNat, by omega⟩
  obtain ⟨m', rfl⟩ : ∃ m' : Nat, m = m' := ⟨m.toNat, by omega⟩
  have hd' : (0 : ℝ) < d' := by exact_mod_cast hd
  obtain ⟨vec, off, κ, hent, hpos, hinj, hκ, hκ2⟩ := dense_window hG hD hA hin
  have hsum : ∀ ω, ∑ i ∈ range d', (alpha * ∑ j ∈ range m', opMat op (subMat ro co (A ω)) (i : Int) (j : Int) * x j) ^ 2 =
      1 / d' * ∑ i ∈ range d', (∑ j ∈ range m', rawE G D.family D.dimMajor seed ω (vec i j) (off i j) * x j) ^ 2 := by
    intro ω
    rw [mul_sum]
    refine sum_congr rfl fun i hi => ?_
    rw [mul_pow, sq alpha, hal, Int.cast_natCast]
    congr 2
    exact sum_congr rfl fun j hj => by rw [hent ω i (mem_range.mp hi) j (mem_range.mp hj)]
  simp only [Int.toNat_natCast, hsum, Int.cast_natCast]
  rcases (sum_nonneg fun j _ => sq_nonneg (x j) : 0 ≤ ∑ j ∈ range m', x j ^ 2).eq_or_lt with ht | ht
  · have hx : ∀ j ∈ range m', x (j : Int) = 0 := by
      intro j hj
      have := (sum_eq_zero_iff_of_nonneg (s := range m') (f := fun j : Nat => x j ^ 2) (fun j _ => sq_nonneg _)).mp ht.symm j hj
      exact pow_eq_zero_iff (two_ne_zero) |>.mp this
    have hz : ∀ ω : ZMod N × ZMod L → W, ∑ i ∈ range d', (∑ j ∈ range m', rawE G D.family D.dimMajor seed ω (vec i j) (off i j) * x j) ^ 2 = 0 := by
      intro ω
      refine sum_eq_zero fun i _ => ?_
      rw [sum_eq_zero fun j hj => by rw [hx j hj, mul_zero]]
      simp
    simp only [hz, ← ht, mul_zero, lt_irrefl]
    have h0 : Pr (fun _ : ZMod N × ZMod L → W => False) = 0 := by
      classical
      rw [pr_eq]; simp
    rw [h0]
    exact ⟨(Real.exp_pos _).le, (Real.exp_pos _).le⟩
  · obtain ⟨h1, h2⟩ := tails_of_mgf (Ω := ZMod N × ZMod L → W) (d := d') ht hε0 hε1 hv1
      (fun h h0 hc => dense_upper (seed := seed) hL' hL hsub hcnt vec off hpos hinj (fun j => x j) h0 hc)
      (fun h h0 => dense_lower (seed := seed) hL' hL hsym hv hw hvw hw1 hcnt vec off hpos hinj κ hκ hκ2 (fun j => x j) h0)
    refine ⟨le_trans (le_of_eq (pr_congr fun ω => ?_)) h1, le_trans (le_of_eq (pr_congr fun ω => ?_)) h2⟩
    · rw [one_div, ← div_eq_inv_mul, lt_div_iff₀ hd']
    · rw [one_div, ← div_eq_inv_mul, div_lt_iff₀ hd']

/-- C94. The exact conversions of words have these exponential moments, for at least 64 words: the midpoints of equal intervals of [-1, 1], times `sqrt 3`, and the
Box-Muller transform with midpoints for the angle and in the radius. -/
theorem C94_words [Fintype W] {G : Gen N K W ℝ} {m8 Mw : Nat} (hm8 : 8 ≤ m8) (hMw : Mw = 4 * (2 * m8)) (e e' : W ≃ Fin Mw)
    (hmid : ∀ w, (G.uneg11 w + 1) / 2 = (((e w : Nat) : ℝ) + 1 / 2) / Mw)
    (hbm : IsBoxMuller G G.uneg11 fun w => Real.sqrt (-2 * Real.log ((((e' w : Nat) : ℝ) + 1 / 2) / Mw))) (family : ScalarDist) : SubGaussianWords G family := by
  have hcard : Fintype.card W = Mw := by rw [Fintype.card_congr e, Fintype.card_fin]
  have hM : (0 : ℝ) < Mw := by exact_mod_cast (by omega : 0 < Mw)
  have hu : ∀ w, G.uneg11 w = (2 * ((e w : Nat) : ℝ) + 1 - Mw) / Mw := by
    intro w
    have := hmid w
    field_simp at this ⊢
    linarith
  cases family with
  | Uniform =>
    intro s
    have key := mean_exp_mid_le (M := Mw) (by omega) (s * Real.sqrt 3)
    rw [mul_pow, Real.sq_sqrt (by norm_num), show s ^ 2 * 3 / 6 = s ^ 2 / 2 by ring] at key
    refine le_trans (le_of_eq ?_) key
    rw [hcard]
    congr 1
    simp only [hu, ← mul_assoc]
    rw [Equiv.sum_comp e fun j : Fin Mw => Real.exp (s * Real.sqrt 3 * ((2 * ((j : Nat) : ℝ) + 1 - Mw) / Mw)),
      Fin.sum_univ_eq_sum_range (fun j => Real.exp (s * Real.sqrt 3 * ((2 * (j : ℝ) + 1 - Mw) / Mw))) Mw]
  | Gaussian =>
    intro s1 s2
    rw [hcard, div_le_iff₀ (by positivity), mul_comm]
    have hMw2 : Mw = 2 * (4 * m8) := by omega
    have key := mean_exp_boxmuller_le (h := 4 * m8) (by omega) s1 s2 (fun j => Real.pi * ((2 * (j : ℝ) + 1 - (2 * (4 * m8) : Nat)) / (2 * (4 * m8) : Nat)))
      (fun j => Real.sqrt (-2 * Real.log (((j : ℝ) + 1 / 2) / (2 * (4 * m8) : Nat)))) (fun _ => rfl) (fun _ => rfl)
    rw [← hMw2] at key
    refine le_trans (le_of_eq ?_) key
    rw [← Fin.sum_univ_eq_sum_range (fun i => ∑ j ∈ range Mw, Real.exp (s1 * (Real.sin (Real.pi * ((2 * (i : ℝ) + 1 - Mw) / Mw)) * Real.sqrt (-2 * Real.log (((j : ℝ) + 1 / 2) / Mw))) +
      s2 * (Real.cos (Real.pi * ((2 * (i : ℝ) + 1 - Mw) / Mw)) * Real.sqrt (-2 * Real.log (((j : ℝ) + 1 / 2) / Mw))))) Mw, ← Equiv.sum_comp e]
    refine sum_congr rfl fun x _ => ?_
    rw [← Fin.sum_univ_eq_sum_range (fun j => Real.exp (s1 * (Real.sin (Real.pi * ((2 * ((e x : Nat) : ℝ) + 1 - Mw) / Mw)) * Real.sqrt (-2 * Real.log (((j : ℝ) + 1 / 2) / Mw))) +
      s2 * (Real.cos (Real.pi * ((2 * ((e x : Nat) : ℝ) + 1 - Mw) / Mw)) * Real.sqrt (-2 * Real.log (((j : ℝ) + 1 / 2) / Mw))))) Mw, ← Equiv.sum_comp e']
    refine sum_congr rfl fun y _ => ?_
    rw [hbm]
    simp only [hu]
    congr 1
    ring

/-- C94. With the assumptions of `C94_tails`, `‖alpha * op(X) x‖²` differs from `‖x‖²` by more than `ε ‖x‖²` for at most a fraction `2 exp (-d ε (ε - 2 δ) / 8)` of the
choices of the words. -/
theorem C94_distortion [NeZero N] [Fintype W] [Nonempty W] {L : Nat} [NeZero L] {G : Gen N K W ℝ} {D : DenseDist} {seed : RNGState N K} {v w δ : ℝ}
    (hG : G.Ok) (hL : G.len = L) (hD : DenseDistOk D) (hN : D.nRows * D.nCols ≤ N) (hwd : WordsOk G D.family v w) (hw1 : w ≤ 1) (hδ : 0 ≤ δ) (hv1 : 1 - δ ≤ v)
    (hsub : SubGaussianWords G D.family) {A : (ZMod N × ZMod L → W) → Int → Int → ℝ} (hA : ∀ ω, Samples (fromWords G ω) (Real.sqrt 3) D seed (A ω))
    {op : Op} {d m ro co : Int} (hd : 0 < d) (hm : 0 ≤ m) (hin : InOp D.nRows D.nCols (rowsOf op d m) (colsOf op d m) ro co) {alpha : ℝ}
    (hal : alpha * alpha = 1 / d) (x : Int → ℝ) {ε : ℝ} (hε0 : 0 < ε) (hε1 : ε ≤ 1) :
    Pr (fun ω => ε * ∑ j ∈ range m.toNat, x j ^ 2 <
      |∑ i ∈ range d.toNat, (alpha * ∑ j ∈ range m.toNat, opMat op (subMat ro co (A ω)) i j * x j) ^ 2 - ∑ j ∈ range m.toNat, x j ^ 2|) ≤
      2 * Real.exp (-(d * (ε * (ε - 2 * δ)) / 8)) := by
  obtain ⟨h1, h2⟩ := C94_tails hG hL hD hN hwd hw1 hv1 hsub hA hd hm hin hal x hε0 hε1
  have hd' : (0 : ℝ) < d := by exact_mod_cast hd
  have h3 : Real.exp (-((d : ℝ) * ε ^ 2 / 8)) ≤ Real.exp (-(d * (ε * (ε - 2 * δ)) / 8)) := by
    refine Real.exp_le_exp.mpr ?_
    have : 0 ≤ (d : ℝ) * (ε * δ) := by positivity
    nlinarith
  rw [two_mul]
  refine (pr_or_le fun ω hω => ?_).trans (add_le_add (h1.trans h3) h2)
  rcases lt_abs.mp hω with h | h
  · left; linarith
  · right; linarith

/-- Union bound. -/
theorem pr_exists_le {Ω J : Type} [Fintype Ω] (s : Finset J) {p : Ω → Prop} {q : J → Ω → Prop} {c : ℝ} (hp : ∀ ω, p ω → ∃ j ∈ s, q j ω) (hq : ∀ j ∈ s, Pr (q j) ≤ c) :
    Pr p ≤ s.card * c := by
  classical
  have h1 : Pr p ≤ ∑ j ∈ s, Pr (q j) := by
    simp only [pr_eq]
    rw [← sum_div]
    refine div_le_div_of_nonneg_right ?_ (Nat.cast_nonneg _)
    have : (univ.filter p).card ≤ ∑ j ∈ s, (univ.filter (q j)).card := by
      refine (card_le_card (t := s.biUnion fun j => univ.filter (q j)) fun ω hω => ?_).trans card_biUnion_le
      obtain ⟨j, hj, h⟩ := hp ω (mem_filter.mp hω).2
      exact mem_biUnion.mpr ⟨j, hj, mem_filter.mpr ⟨mem_univ _, h⟩⟩
    exact_mod_cast this
  refine h1.trans ((sum_le_sum hq).trans (le_of_eq ?_))
  rw [sum_const, nsmul_eq_mul]

/-- The squared distance between columns `j` and `j'` of a matrix with `rows` rows. -/
def Spec.colDist (rows : Int) (A : Int → Int → ℝ) (j j' : Int) : ℝ :=
  ∑ l ∈ range rows.toNat, (A l j - A l j') ^ 2

/-- All squared distances between the first `n` columns of `A` are those of `B` up to the relative error `ε`. -/
def Spec.PreservesDist (ε : ℝ) (m d n : Int) (A B : Int → Int → ℝ) : Prop :=
  ∀ j j' : Int, 0 ≤ j → j < n → 0 ≤ j' → j' < n → |colDist d B j j' - colDist m A j j'| ≤ ε * colDist m A j j'

theorem colDist_symm (rows : Int) (A : Int → Int → ℝ) (j j' : Int) : colDist rows A j j' = colDist rows A j' j :=
  sum_congr rfl fun l _ => by ring

/-- Distances from the bound for one vector. -/
theorem preserves_of_tails {Ω : Type} [Fintype Ω] {P : Ω → Int → Int → ℝ} {d m n : Int} {ε c : ℝ} (hn : 0 ≤ n) (hε : 0 ≤ ε) (hc : 0 ≤ c)
    (h : ∀ x : Int → ℝ, Pr (fun ω => ε * ∑ l ∈ range m.toNat, x l ^ 2 < |∑ i ∈ range d.toNat, (∑ l ∈ range m.toNat, P ω i l * x l) ^ 2 - ∑ l ∈ range m.toNat, x l ^ 2|) ≤ 2 * c)
    (A : Int → Int → ℝ) : Pr (fun ω => ¬ PreservesDist ε m d n A (fun i j => ∑ l ∈ range m.toNat, P ω i l * A l j)) ≤ n * (n - 1) * c := by
  classical
  obtain ⟨n, rfl⟩ : ∃ n' : Nat, n = n' := ⟨n.toNat, by omega⟩
  have hcard : (((range n).sigma fun b => range b).card : ℝ) * 2 = (n : ℝ) * (n - 1) := by
    rw [card_sigma]
    simp only [card_range]
    have := Finset.sum_range_id_mul_two n
    cases n with
    | zero => simp
    | succ n =>
      rw [Nat.add_one_sub_one] at this
      have h2 : (((∑ i ∈ range (n + 1), i : Nat) * 2 : Nat) : ℝ) = (((n + 1) * n : Nat) : ℝ) := by rw [this]
      rw [Nat.cast_mul, Nat.cast_mul] at h2
      push_cast at h2 ⊢
      linarith
  have := pr_exists_le ((range n).sigma fun b => range b) (p := fun ω => ¬ PreservesDist ε m d n A (fun i j => ∑ l ∈ range m.toNat, P ω i l * A l j))
    (q := fun p ω => ε * ∑ l ∈ range m.toNat, (A l p.2 - A l p.1) ^ 2 <
      |∑ i ∈ range d.toNat, (∑ l ∈ range m.toNat, P ω i l * (A l p.2 - A l p.1)) ^ 2 - ∑ l ∈ range m.toNat, (A l p.2 - A l p.1) ^ 2|) (c := 2 * c)
    (fun ω hω => by
      by_contra hcon
      push Not at hcon
      apply hω
      have hlt : ∀ a b : Nat, a < b → b < n → |colDist d (fun i j => ∑ l ∈ range m.toNat, P ω i l * A l j) a b - colDist m A a b| ≤ ε * colDist m A a b := by
        intro a b hab hb
        have := hcon ⟨b, a⟩ (mem_sigma.mpr ⟨mem_range.mpr hb, mem_range.mpr hab⟩)
        unfold colDist
        simp only [← sum_sub_distrib, ← mul_sub]
        exact this
      intro j j' h1 h2 h3 h4
      obtain ⟨a, rfl⟩ : ∃ a : Nat, j = a := ⟨j.toNat, by omega⟩
      obtain ⟨b, rfl⟩ : ∃ b : Nat, j' = b := ⟨j'.toNat, by omega⟩
      rcases lt_trichotomy a b with hab | rfl | hab
      · exact hlt a b hab (by omega)
      · simp [colDist]
      · rw [colDist_symm, colDist_symm m A]
        exact hlt b a hab (by omega))
    (fun p _ => h fun l => A l p.2 - A l p.1)
  refine this.trans (le_of_eq ?_)
  push_cast
  rw [← hcard]
  ring

/-- The product that `sketch_general` computes with a new dense operator, `alpha² = 1/d` and `beta = 0`, and the tails of the operator. -/
theorem dense_left_tails [NeZero N] [Field R] [LinearOrder R] [FloorRing R] [Fintype W] [Nonempty W] {L : Nat} [NeZero L] {E : SkEnv N K W WS R ℝ} (hE : SkEnvOk E)
    (hL : E.G.len = L) (h3 : E.sqrt3 = Real.sqrt 3) {S : DenseSkOp N K ℝ} (hnew : S.buff = none) (hD : DenseDistOk S.dist) (hR : S.nRows = S.dist.nRows)
    (hC : S.nCols = S.dist.nCols) (hN : S.nRows * S.nCols ≤ N) {v w δ : ℝ} (hwd : WordsOk E.G S.dist.family v w) (hw1 : w ≤ 1) (hδ : 0 ≤ δ) (hv1 : 1 - δ ≤ v)
    (hsub : SubGaussianWords E.G S.dist.family)
    {layout : Layout} {opS opA : Op} {d m n ro co : Int} (hin : InOp S.nRows S.nCols (rowsOf opS d m) (colsOf opS d m) ro co) (hd : 0 < d) (hm : 0 < m) (hn : 0 ≤ n)
    {alpha : ℝ} (halpha : alpha * alpha = 1 / d) {A b : Buf ℝ} {lda ldb : Int} {Am : Int → Int → ℝ} (hlda : LdOk layout lda (rowsOf opA m n) (colsOf opA m n))
    (hldb : LdOk layout ldb d n) (hA : Holds A layout lda (rowsOf opA m n) (colsOf opA m n) Am) (hal : Alloc b layout ldb d n) :
    ∃ P : (ZMod N × ZMod L → W) → Int → Int → ℝ,
      (∀ ω, M.wp (sketchGeneralL { E with G := fromWords E.G ω } layout opS opA d n m alpha ro co A lda 0 ldb) (.dense S, b)
        (fun _ s' => Holds s'.2 layout ldb d n (fun i j => ∑ l ∈ range m.toNat, P ω i l * opMat opA Am l j))) ∧
      ∀ ε : ℝ, 0 < ε → ε ≤ 1 → ∀ x : Int → ℝ, Pr (fun ω => ε * ∑ l ∈ range m.toNat, x l ^ 2 <
        |∑ i ∈ range d.toNat, (∑ l ∈ range m.toNat, P ω i l * x l) ^ 2 - ∑ l ∈ range m.toNat, x l ^ 2|) ≤ 2 * Real.exp (-(d * (ε * (ε - 2 * δ)) / 8)) := by
  have hsam : ∀ ω : ZMod N × ZMod L → W, Samples (fromWords E.G ω) (Real.sqrt 3) S.dist S.seedState (denseEntry (fromWords E.G ω) (Real.sqrt 3) S.dist S.seedState) :=
    fun ω => samples_denseEntry (G := fromWords E.G ω) hE.gen hD
  have key := fun x ε (h0 : (0 : ℝ) < ε) (h1 : ε ≤ 1) => C94_distortion hE.gen hL hD (by rw [← hR, ← hC]; exact hN) hwd hw1 hδ hv1 hsub hsam hd hm.le
    (by rw [← hR, ← hC]; exact hin) halpha x h0 h1
  refine ⟨fun ω i l => alpha * opMat opS (subMat ro co (denseEntry (fromWords E.G ω) (Real.sqrt 3) S.dist S.seedState)) i l, fun ω => ?_, fun ε h0 h1 x => ?_⟩
  · have hE' : SkEnvOk { E with G := fromWords E.G ω } := ⟨hE.env, hE.gen, hE.genS, hE.sqrt, hE.order⟩
    have hS : DenseIs { E with G := fromWords E.G ω } S (denseEntry (fromWords E.G ω) (Real.sqrt 3) S.dist S.seedState) := by
      unfold DenseIs
      rw [hnew]
      refine ⟨hD, hR, hC, ?_⟩
      simp only [h3]
      exact hsam ω
    refine M.wp_mono (C36_left_dense_partial hE' hS hin (fun _ => fillOk_dims hd hm) hd.le hn hm.le hlda hldb (fun _ => hA) hal (C := fun _ _ => 0) (fun h => absurd rfl h)) ?_
    rintro _ s' ⟨h, -⟩ i j hij
    rw [h i j hij]
    unfold prodEntry
    simp only [zero_mul, add_zero, mul_sum, mul_assoc]
  · have := key x ε h0 h1
    simp only [mul_sum, mul_assoc] at this ⊢
    exact this

/-- The same for right sketches. -/
theorem dense_right_tails [NeZero N] [Field R] [LinearOrder R] [FloorRing R] [Fintype W] [Nonempty W] {L : Nat} [NeZero L] {E : SkEnv N K W WS R ℝ} (hE : SkEnvOk E)
    (hL : E.G.len = L) (h3 : E.sqrt3 = Real.sqrt 3) {S : DenseSkOp N K ℝ} (hnew : S.buff = none) (hD : DenseDistOk S.dist) (hR : S.nRows = S.dist.nRows)
    (hC : S.nCols = S.dist.nCols) (hN : S.nRows * S.nCols ≤ N) {v w δ : ℝ} (hwd : WordsOk E.G S.dist.family v w) (hw1 : w ≤ 1) (hδ : 0 ≤ δ) (hv1 : 1 - δ ≤ v)
    (hsub : SubGaussianWords E.G S.dist.family)
    {layout : Layout} {opA opS : Op} {m d n ro co : Int} (hin : InOp S.nRows S.nCols (rowsOf opS n d) (colsOf opS n d) ro co) (hd : 0 < d) (hm : 0 ≤ m) (hn : 0 < n)
    {alpha : ℝ} (halpha : alpha * alpha = 1 / d) {A b : Buf ℝ} {lda ldb : Int} {Am : Int → Int → ℝ} (hlda : LdOk layout lda (rowsOf opA m n) (colsOf opA m n))
    (hldb : LdOk layout ldb m d) (hA : Holds A layout lda (rowsOf opA m n) (colsOf opA m n) Am) (hal : Alloc b layout ldb m d) :
    ∃ P : (ZMod N × ZMod L → W) → Int → Int → ℝ,
      (∀ ω, M.wp (sketchGeneralR { E with G := fromWords E.G ω } layout opA opS m d n alpha A lda ro co 0 ldb) (.dense S, b)
        (fun _ s' => Holds s'.2 layout ldb m d (fun i j => ∑ l ∈ range n.toNat, P ω j l * opMat opA Am i l))) ∧
      ∀ ε : ℝ, 0 < ε → ε ≤ 1 → ∀ x : Int → ℝ, Pr (fun ω => ε * ∑ l ∈ range n.toNat, x l ^ 2 <
        |∑ i ∈ range d.toNat, (∑ l ∈ range n.toNat, P ω i l * x l) ^ 2 - ∑ l ∈ range n.toNat, x l ^ 2|) ≤ 2 * Real.exp (-(d * (ε * (ε - 2 * δ)) / 8)) := by
  have hsam : ∀ ω : ZMod N × ZMod L → W, Samples (fromWords E.G ω) (Real.sqrt 3) S.dist S.seedState (denseEntry (fromWords E.G ω) (Real.sqrt 3) S.dist S.seedState) :=
    fun ω => samples_denseEntry (G := fromWords E.G ω) hE.gen hD
  have hin' : InOp S.dist.nRows S.dist.nCols (rowsOf opS.flip d n) (colsOf opS.flip d n) ro co := by
    rw [← hR, ← hC]; cases opS <;> exact hin
  have key := fun x ε (h0 : (0 : ℝ) < ε) (h1 : ε ≤ 1) => C94_distortion hE.gen hL hD (by rw [← hR, ← hC]; exact hN) hwd hw1 hδ hv1 hsub hsam hd hn.le hin' halpha x h0 h1
  simp only [opMat_flip] at key
  refine ⟨fun ω j l => alpha * opMat opS (subMat ro co (denseEntry (fromWords E.G ω) (Real.sqrt 3) S.dist S.seedState)) l j, fun ω => ?_, fun ε h0 h1 x => ?_⟩
  · have hE' : SkEnvOk { E with G := fromWords E.G ω } := ⟨hE.env, hE.gen, hE.genS, hE.sqrt, hE.order⟩
    have hS : DenseIs { E with G := fromWords E.G ω } S (denseEntry (fromWords E.G ω) (Real.sqrt 3) S.dist S.seedState) := by
      unfold DenseIs
      rw [hnew]
      refine ⟨hD, hR, hC, ?_⟩
      simp only [h3]
      exact hsam ω
    refine M.wp_mono (C36_right_dense_partial hE' hS hin (fun _ => fillOk_dims hn hd) hm hd.le hn.le hlda hldb (fun _ => hA) hal (C := fun _ _ => 0) (fun h => absurd rfl h)) ?_
    rintro _ s' ⟨h, -⟩ i j hij
    rw [h i j hij]
    unfold prodEntry
    simp only [zero_mul, add_zero]
    rw [mul_sum]
    congr 1
    exact sum_congr rfl fun l _ => by ring
  · have := key x ε h0 h1
    simp only [mul_sum, mul_assoc] at this ⊢
    exact this

/-- C95 (left). Johnson-Lindenstrauss: `sketch_general` with a dense operator that has not been filled, `alpha² = 1/d` and `beta = 0` returns and preserves all squared
distances between the `n` columns of `op(A)` up to the relative error `ε`, for all but a fraction `n (n - 1) exp (-d ε (ε - 2 δ) / 8)` of the words that a generator may
yield. -/
theorem C95_left [NeZero N] [Field R] [LinearOrder R] [FloorRing R] [Fintype W] [Nonempty W] {L : Nat} [NeZero L] {E : SkEnv N K W WS R ℝ} (hE : SkEnvOk E)
    (hL : E.G.len = L) (h3 : E.sqrt3 = Real.sqrt 3) {S : DenseSkOp N K ℝ} (hnew : S.buff = none) (hD : DenseDistOk S.dist) (hR : S.nRows = S.dist.nRows)
    (hC : S.nCols = S.dist.nCols) (hN : S.nRows * S.nCols ≤ N) {v w δ : ℝ} (hwd : WordsOk E.G S.dist.family v w) (hw1 : w ≤ 1) (hδ : 0 ≤ δ) (hv1 : 1 - δ ≤ v)
    (hsub : SubGaussianWords E.G S.dist.family)
    {layout : Layout} {opS opA : Op} {d m n ro co : Int} (hin : InOp S.nRows S.nCols (rowsOf opS d m) (colsOf opS d m) ro co) (hd : 0 < d) (hm : 0 < m) (hn : 0 ≤ n)
    {alpha : ℝ} (halpha : alpha * alpha = 1 / d) {A b : Buf ℝ} {lda ldb : Int} {Am : Int → Int → ℝ} (hlda : LdOk layout lda (rowsOf opA m n) (colsOf opA m n))
    (hldb : LdOk layout ldb d n) (hA : Holds A layout lda (rowsOf opA m n) (colsOf opA m n) Am) (hal : Alloc b layout ldb d n) {ε : ℝ} (hε0 : 0 < ε) (hε1 : ε ≤ 1) :
    Pr (fun ω : ZMod N × ZMod L → W => ¬ M.wp (sketchGeneralL { E with G := fromWords E.G ω } layout opS opA d n m alpha ro co A lda 0 ldb) (.dense S, b)
      (fun _ s' => ∃ B, Holds s'.2 layout ldb d n B ∧ PreservesDist ε m d n (opMat opA Am) B)) ≤ n * (n - 1) * Real.exp (-(d * (ε * (ε - 2 * δ)) / 8)) := by
  obtain ⟨P, hP, h⟩ := dense_left_tails hE hL h3 hnew hD hR hC hN hwd hw1 hδ hv1 hsub hin hd hm hn halpha hlda hldb hA hal
  have h1 := preserves_of_tails (n := n) hn hε0.le (Real.exp_pos _).le (h ε hε0 hε1) (opMat opA Am)
  refine le_trans ?_ h1
  have := pr_or_le (p := fun ω : ZMod N × ZMod L → W => ¬ M.wp (sketchGeneralL { E with G := fromWords E.G ω } layout opS opA d n m alpha ro co A lda 0 ldb) (.dense S, b)
      (fun _ s' => ∃ B, Holds s'.2 layout ldb d n B ∧ PreservesDist ε m d n (opMat opA Am) B))
    (q := fun ω => ¬ PreservesDist ε m d n (opMat opA Am) (fun i j => ∑ l ∈ range m.toNat, P ω i l * opMat opA Am l j)) (r := fun _ => False) (fun ω hω => by
      left
      intro hc
      exact hω (M.wp_mono (hP ω) fun _ s' h => ⟨_, h, hc⟩))
  have h0 : Pr (fun _ : ZMod N × ZMod L → W => False) = 0 := by
    classical
    rw [pr_eq]; simp
  rwa [h0, add_zero] at this

/-- C95 (right). The same for `op(A) * op(submat(S))`, and the distances between the `m` rows of `op(A)`. -/
theorem C95_right [NeZero N] [Field R] [LinearOrder R] [FloorRing R] [Fintype W] [Nonempty W] {L : Nat} [NeZero L] {E : SkEnv N K W WS R ℝ} (hE : SkEnvOk E)
    (hL : E.G.len = L) (h3 : E.sqrt3 = Real.sqrt 3) {S : DenseSkOp N K ℝ} (hnew : S.buff = none) (hD : DenseDistOk S.dist) (hR : S.nRows = S.dist.nRows)
    (hC : S.nCols = S.dist.nCols) (hN : S.nRows * S.nCols ≤ N) {v w δ : ℝ} (hwd : WordsOk E.G S.dist.family v w) (hw1 : w ≤ 1) (hδ : 0 ≤ δ) (hv1 : 1 - δ ≤ v)
    (hsub : SubGaussianWords E.G S.dist.family)
    {layout : Layout} {opA opS : Op} {m d n ro co : Int} (hin : InOp S.nRows S.nCols (rowsOf opS n d) (colsOf opS n d) ro co) (hd : 0 < d) (hm : 0 ≤ m) (hn : 0 < n)
    {alpha : ℝ} (halpha : alpha * alpha = 1 / d) {A b : Buf ℝ} {lda ldb : Int} {Am : Int → Int → ℝ} (hlda : LdOk layout lda (rowsOf opA m n) (colsOf opA m n))
    (hldb : LdOk layout ldb m d) (hA : Holds A layout lda (rowsOf opA m n) (colsOf opA m n) Am) (hal : Alloc b layout ldb m d) {ε : ℝ} (hε0 : 0 < ε) (hε1 : ε ≤ 1) :
    Pr (fun ω : ZMod N × ZMod L → W => ¬ M.wp (sketchGeneralR { E with G := fromWords E.G ω } layout opA opS m d n alpha A lda ro co 0 ldb) (.dense S, b)
      (fun _ s' => ∃ B, Holds s'.2 layout ldb m d B ∧ PreservesDist ε n d m (fun l i => opMat opA Am i l) (fun j i => B i j))) ≤
      m * (m - 1) * Real.exp (-(d * (ε * (ε - 2 * δ)) / 8)) := by
  obtain ⟨P, hP, h⟩ := dense_right_tails hE hL h3 hnew hD hR hC hN hwd hw1 hδ hv1 hsub hin hd hm hn halpha hlda hldb hA hal
  have h1 := preserves_of_tails (n := m) hm hε0.le (Real.exp_pos _).le (h ε hε0 hε1) (fun l i => opMat opA Am i l)
  refine le_trans ?_ h1
  have := pr_or_le (p := fun ω : ZMod N × ZMod L → W => ¬ M.wp (sketchGeneralR { E with G := fromWords E.G ω } layout opA opS m d n alpha A lda ro co 0 ldb) (.dense S, b)
      (fun _ s' => ∃ B, Holds s'.2 layout ldb m d B ∧ PreservesDist ε n d m (fun l i => opMat opA Am i l) (fun j i => B i j)))
    (q := fun ω => ¬ PreservesDist ε n d m (fun l i => opMat opA Am i l) (fun j i => ∑ l ∈ range n.toNat, P ω j l * opMat opA Am i l)) (r := fun _ => False) (fun ω hω => by
      left
      intro hc
      exact hω (M.wp_mono (hP ω) fun _ s' h => ⟨_, h, hc⟩))
  have h0 : Pr (fun _ : ZMod N × ZMod L → W => False) = 0 := by
    classical
    rw [pr_eq]; simp
  rwa [h0, add_zero] at this

/-- C95. If the sketch has at least `16 log (n² / η) / ε²` rows and the mean square of the entries is at least `1 - ε/4`, the bound of `C95_left` is at most `η`. -/
theorem C95_dimension {n d : Nat} {ε δ η : ℝ} (hε : 0 < ε) (hδ : δ ≤ ε / 4) (hη : 0 < η) (hd : 16 * Real.log ((n : ℝ) ^ 2 / η) ≤ d * ε ^ 2) :
    (n : ℝ) * (n - 1) * Real.exp (-(d * (ε * (ε - 2 * δ)) / 8)) ≤ η := by
  rcases Nat.eq_zero_or_pos n with rfl | hn
  · simpa using hη.le
  have hn' : (0 : ℝ) < n := by exact_mod_cast hn
  have hd0 : (0 : ℝ) ≤ d := Nat.cast_nonneg _
  have h1 : -(d * (ε * (ε - 2 * δ)) / 8) ≤ -Real.log ((n : ℝ) ^ 2 / η) := by
    have : (d : ℝ) * ε * (ε / 2) ≤ d * ε * (ε - 2 * δ) := mul_le_mul_of_nonneg_left (by linarith) (by positivity)
    nlinarith
  have h2 := Real.exp_le_exp.mpr h1
  rw [Real.exp_neg (Real.log _), Real.exp_log (by positivity)] at h2
  have h3 : (n : ℝ) * (n - 1) ≤ n ^ 2 := by nlinarith
  calc (n : ℝ) * (n - 1) * Real.exp (-(d * (ε * (ε - 2 * δ)) / 8)) ≤ (n : ℝ) ^ 2 * Real.exp (-(d * (ε * (ε - 2 * δ)) / 8)) :=
        mul_le_mul_of_nonneg_right h3 (Real.exp_pos _).le
    _ ≤ (n : ℝ) ^ 2 * ((n : ℝ) ^ 2 / η)⁻¹ := mul_le_mul_of_nonneg_left h2 (by positivity)
    _ = η := by field_simp

/-- The hypotheses are met by new 2 x 5 Gaussian and uniform operators and the exact conversions of 32-bit words, with `δ = 2⁻²⁵`; those of `C95_dimension`
by 10 columns, a sketch with 10⁶ rows, `ε = 1/2` and `η = 1/10`. -/
example : (∃ v, WordsOk midEnvR.G .Gaussian v 1 ∧ 1 - 1 / 2 ^ 25 ≤ v) ∧ (∃ v w, WordsOk midEnvR.G .Uniform v w ∧ w ≤ 1 ∧ 1 - 1 / 2 ^ 25 ≤ v) ∧
    SubGaussianWords midEnvR.G .Gaussian ∧ SubGaussianWords midEnvR.G .Uniform ∧ exGauss.family = .Gaussian ∧ exUnif.family = .Uniform ∧
    (16 * Real.log (((10 : Nat) : ℝ) ^ 2 / (1 / 10)) ≤ ((10 ^ 6 : Nat) : ℝ) * (1 / 2 : ℝ) ^ 2) := by
  obtain ⟨h1, v, h2, h3, h4⟩ := C83_words (G := midGenR) (m8 := 2 ^ 29) (Mw := 4 * 2 ^ 30) (by norm_num) (by norm_num) (Equiv.refl _) (Equiv.refl _)
    (fun w => by simp only [midGenR, Equiv.refl_apply]; ring) (fun _ _ => rfl)
  have hs := C94_words (G := midGenR) (m8 := 2 ^ 29) (Mw := 4 * 2 ^ 30) (by norm_num) (by norm_num) (Equiv.refl _) (Equiv.refl _)
    (fun w => by simp only [midGenR, Equiv.refl_apply]; ring) (fun _ _ => rfl)
  refine ⟨⟨v, h4, le_trans ?_ h2⟩, ⟨_, _, h1, ?_, ?_⟩, hs _, hs _, rfl, rfl, ?_⟩
  · have h5 : Real.log (2 * ((4 * 2 ^ 30 : Nat) : ℝ)) ≤ 33 := by
      rw [show 2 * ((4 * 2 ^ 30 : Nat) : ℝ) = 2 ^ 33 by norm_num, Real.log_pow]
      have := Real.log_le_sub_one_of_pos (show (0 : ℝ) < 2 by norm_num)
      push_cast
      linarith
    have h6 : (2 + Real.log (2 * ((4 * 2 ^ 30 : Nat) : ℝ))) / (2 * ((4 * 2 ^ 30 : Nat) : ℝ)) ≤ 35 / (2 * ((4 * 2 ^ 30 : Nat) : ℝ)) :=
      div_le_div_of_nonneg_right (by linarith) (by positivity)
    have h7 : (35 : ℝ) / (2 * ((4 * 2 ^ 30 : Nat) : ℝ)) ≤ 1 / 2 ^ 25 := by norm_num
    linarith
  · norm_num
  · norm_num
  · have := Real.log_le_sub_one_of_pos (show (0 : ℝ) < ((10 : Nat) : ℝ) ^ 2 / (1 / 10) by norm_num)
    norm_num at this ⊢
    linarith

end RB
