import Verif.Props.IsometryLong
import Verif.Props.Dense
import Mathlib.Analysis.SpecialFunctions.Trigonometric.Basic

/-!
# C61: dense operators preserve squared norms on average

The average is over all words that an ideal generator may yield.
-/

namespace RB
open Spec Finset
variable {N : Nat} {K W : Type}

theorem sum_at2 {ι W : Type} [Fintype ι] [DecidableEq ι] [Fintype W] {a b : ι} (hab : a ≠ b) (h : W → W → ℝ) :
    (Fintype.card W : ℝ) ^ 2 * ∑ ω : ι → W, h (ω a) (ω b) = (Fintype.card W : ℝ) ^ Fintype.card ι * ∑ w, ∑ w', h w w' := by
  classical
  have e := Equiv.sum_comp (Equiv.funSplitAt a W).symm fun ω => h (ω a) (ω b)
  rw [← e, Fintype.sum_prod_type]
  have : ∀ (w : W) (y : {j // j ≠ a} → W), h ((Equiv.funSplitAt a W).symm (w, y) a) ((Equiv.funSplitAt a W).symm (w, y) b) = h w (y ⟨b, hab.symm⟩) := by
    intro w y; simp [Equiv.funSplitAt, Equiv.piSplitAt, hab.symm]
  simp only [this]
  have hc := Fintype.card_congr (Equiv.funSplitAt a W)
  rw [Fintype.card_prod, Fintype.card_fun, Fintype.card_fun] at hc
  have hc' : (Fintype.card W : ℝ) ^ Fintype.card ι = Fintype.card W * (Fintype.card W : ℝ) ^ Fintype.card {j // j ≠ a} := by exact_mod_cast hc
  have hs : ∀ w, (Fintype.card W : ℝ) * ∑ y : {j // j ≠ a} → W, h w (y ⟨b, hab.symm⟩) = (Fintype.card W : ℝ) ^ Fintype.card {j // j ≠ a} * ∑ w', h w w' :=
    fun w => sum_at (⟨b, hab.symm⟩ : {j // j ≠ a}) (h w)
  rw [hc', sq, mul_assoc, mul_assoc]
  congr 1
  rw [mul_sum, mul_sum]
  exact sum_congr rfl fun w _ => hs w

/-- The sum over all outcomes of `(Σ_j e_j x_j)²`, if each `e_j` can be negated without changing the others. -/
theorem sum_sq_of_flips {Ω : Type} [Fintype Ω] {n : Nat} (e : Nat → Ω → ℝ) (Φ : Nat → Ω → Ω) (hinv : ∀ j < n, Function.Involutive (Φ j))
    (hneg : ∀ j < n, ∀ ω, e j (Φ j ω) = -e j ω) (hkeep : ∀ j < n, ∀ l < n, l ≠ j → ∀ ω, e l (Φ j ω) = e l ω) {v : ℝ}
    (hv : ∀ j < n, ∑ ω, e j ω ^ 2 = v) (x : Nat → ℝ) : ∑ ω, (∑ j ∈ range n, e j ω * x j) ^ 2 = v * ∑ j ∈ range n, x j ^ 2 := by
  have hexp : ∀ ω, (∑ j ∈ range n, e j ω * x j) ^ 2 = ∑ j ∈ range n, ∑ l ∈ range n, (e j ω * e l ω) * (x j * x l) := by
    intro ω
    rw [sq, sum_mul_sum]
    exact sum_congr rfl fun j _ => sum_congr rfl fun l _ => by ring
  simp only [hexp]
  rw [sum_comm, mul_sum]
  refine sum_congr rfl fun j hj => ?_
  rw [sum_comm]
  have hj' := mem_range.mp hj
  have : ∀ l ∈ range n, ∑ ω, (e j ω * e l ω) * (x j * x l) = if j = l then v * x j ^ 2 else 0 := by
    intro l hl
    have hl' := mem_range.mp hl
    rw [← sum_mul]
    split_ifs with h
    · subst h
      rw [← hv j hj']
      simp only [sq]
    · have e1 := Equiv.sum_comp ((hinv j hj').toPerm (Φ j)) fun ω => e j ω * e l ω
      have e2 : ∀ ω, e j ((hinv j hj').toPerm (Φ j) ω) * e l ((hinv j hj').toPerm (Φ j) ω) = -(e j ω * e l ω) := by
        intro ω
        show e j (Φ j ω) * e l (Φ j ω) = _
        rw [hneg j hj', hkeep j hj' l hl' (Ne.symm h)]; ring
      simp only [e2, sum_neg_distrib] at e1
      have : ∑ ω, e j ω * e l ω = 0 := by linarith
      rw [this, zero_mul]
  rw [sum_congr rfl this, sum_ite_eq (range n) j (fun _ => _), if_pos hj]

theorem update_involutive {ι W : Type} [DecidableEq ι] {τ : W → W} (hτ : Function.Involutive τ) (a : ι) :
    Function.Involutive fun ω : ι → W => Function.update ω a (τ (ω a)) := by
  intro ω
  simp only [Function.update_self, hτ (ω a), Function.update_idem, Function.update_eq_self]

/-- What is assumed of the conversion of words to scalars: for the uniform family there is a permutation of the words that negates the value, and for the
Gaussian family there are permutations of the first word of a pair that negate one value of the pair and keep the other. -/
structure Spec.SymmetricWords (G : Gen N K W ℝ) (τ0 τ1 : W → W) (family : ScalarDist) : Prop where
  inv0 : Function.Involutive τ0
  inv1 : Function.Involutive τ1
  uniform : family = .Uniform → ∀ w, G.uneg11 (τ0 w) = -G.uneg11 w ∧ G.uneg11 (τ1 w) = -G.uneg11 w
  gaussian : family = .Gaussian → ∀ w w', G.boxmuller (τ0 w) w' = (-(G.boxmuller w w').1, (G.boxmuller w w').2) ∧
    G.boxmuller (τ1 w) w' = ((G.boxmuller w w').1, -(G.boxmuller w w').2)

/-- `v` is the mean square of the entries, the words being uniform. -/
def Spec.MeanSquare [Fintype W] (G : Gen N K W ℝ) (family : ScalarDist) (v : ℝ) : Prop :=
  match family with
  | .Uniform => (∑ w, (Real.sqrt 3 * G.uneg11 w) ^ 2) / Fintype.card W = v
  | .Gaussian => (∑ w, ∑ w', (G.boxmuller w w').1 ^ 2) / (Fintype.card W) ^ 2 = v ∧ (∑ w, ∑ w', (G.boxmuller w w').2 ^ 2) / (Fintype.card W) ^ 2 = v

/-- The position of the (first) word of entry `p` of major-axis vector `q`. -/
def densePos {L : Nat} (seed : RNGState N K) (family : ScalarDist) (c q p : Int) : ZMod N × ZMod L :=
  (seed.counter + ((q * c + p / L : Int) : ZMod N), match family with | .Uniform => ((p % L : Int) : ZMod L) | .Gaussian => ((2 * ((p % L) / 2) : Int) : ZMod L))

theorem intCast_inj_lt {m : Nat} {a b : Int} (ha : 0 ≤ a) (ha' : a < m) (hb : 0 ≤ b) (hb' : b < m) (h : (a : ZMod m) = b) : a = b := by
  have h' := (ZMod.intCast_eq_intCast_iff _ _ _).mp h
  unfold Int.ModEq at h'
  rwa [Int.emod_eq_of_lt ha ha', Int.emod_eq_of_lt hb hb'] at h'

section
variable [NeZero N] [Fintype W] [Nonempty W] {L : Nat} [NeZero L] {G : Gen N K W ℝ} {family : ScalarDist} {seed : RNGState N K} {M r : Int}

/-- Raw entry of the operator for the words `ω`. -/
noncomputable def rawE (G : Gen N K W ℝ) (family : ScalarDist) (M : Int) (seed : RNGState N K) (ω : ZMod N × ZMod L → W) (q p : Int) : ℝ :=
  famScale family (Real.sqrt 3) (denseRaw (fromWords G ω) family M seed q p)

/-- The permutation of the words that negates entry `p` of vector `q`. -/
def flipE (G : Gen N K W ℝ) (τ0 τ1 : W → W) (family : ScalarDist) (M : Int) (seed : RNGState N K) (q p : Int) (ω : ZMod N × ZMod L → W) : ZMod N × ZMod L → W :=
  Function.update ω (densePos seed family (countersPerVector G.len M) q p)
    ((if (p % L) % 2 = 0 then τ0 else τ1) (ω (densePos seed family (countersPerVector G.len M) q p)))

omit [NeZero N] [Fintype W] [Nonempty W] [NeZero L] in
theorem flipE_inv {τ0 τ1 : W → W} (h : SymmetricWords G τ0 τ1 family) (q p : Int) :
    Function.Involutive (flipE (L := L) G τ0 τ1 family M seed q p) := by
  unfold flipE
  split_ifs
  · exact update_involutive h.inv0 _
  · exact update_involutive h.inv1 _

omit [NeZero N] [Fintype W] [Nonempty W] in
theorem second_word_ne (hL : L = 2 ∨ L = 4) {c q p q' p' : Int} :
    ((seed.counter + ((q' * c + p' / L : Int) : ZMod N), ((2 * ((p' % L) / 2) + 1 : Int) : ZMod L)) : ZMod N × ZMod L) ≠ densePos seed .Gaussian c q p := by
  intro h
  have h2 := (Prod.mk.inj h).2
  simp only at h2
  have a := Int.emod_nonneg p (show (L : Int) ≠ 0 by omega)
  have b := Int.emod_lt_of_pos p (show (0 : Int) < L by omega)
  have a' := Int.emod_nonneg p' (show (L : Int) ≠ 0 by omega)
  have b' := Int.emod_lt_of_pos p' (show (0 : Int) < L by omega)
  have := intCast_inj_lt (by omega) (by rcases hL with rfl | rfl <;> omega) (by omega) (by omega) h2
  omega

omit [NeZero N] [Fintype W] [Nonempty W] in
theorem flipE_neg {τ0 τ1 : W → W} (hL : L = 2 ∨ L = 4) (hG : G.len = L) (h : SymmetricWords G τ0 τ1 family) (q p : Int) (ω : ZMod N × ZMod L → W) :
    rawE G family M seed (flipE G τ0 τ1 family M seed q p ω) q p = -rawE G family M seed ω q p := by
  unfold rawE denseRaw genValue fromWords
  cases family with
  | Uniform =>
    simp only [famScale, hG]
    have e : flipE G τ0 τ1 .Uniform M seed q p ω (seed.counter + ((q * countersPerVector L M + p / L : Int) : ZMod N), ((p % L : Int) : ZMod L)) =
        (if (p % L) % 2 = 0 then τ0 else τ1) (ω (seed.counter + ((q * countersPerVector L M + p / L : Int) : ZMod N), ((p % L : Int) : ZMod L))) := by
      unfold flipE densePos
      rw [hG]
      exact Function.update_self _ _ _
    rw [e]
    split_ifs
    · rw [(h.uniform rfl _).1]; ring
    · rw [(h.uniform rfl _).2]; ring
  | Gaussian =>
    simp only [famScale, hG]
    have e : flipE G τ0 τ1 .Gaussian M seed q p ω (seed.counter + ((q * countersPerVector L M + p / L : Int) : ZMod N), ((2 * ((p % L) / 2) : Int) : ZMod L)) =
        (if (p % L) % 2 = 0 then τ0 else τ1) (ω (seed.counter + ((q * countersPerVector L M + p / L : Int) : ZMod N), ((2 * ((p % L) / 2) : Int) : ZMod L))) := by
      unfold flipE densePos
      rw [hG]
      exact Function.update_self _ _ _
    have e2 : flipE G τ0 τ1 .Gaussian M seed q p ω (seed.counter + ((q * countersPerVector L M + p / L : Int) : ZMod N), ((2 * ((p % L) / 2) + 1 : Int) : ZMod L)) =
        ω (seed.counter + ((q * countersPerVector L M + p / L : Int) : ZMod N), ((2 * ((p % L) / 2) + 1 : Int) : ZMod L)) := by
      unfold flipE
      rw [hG]
      exact Function.update_of_ne (second_word_ne hL) _ _
    rw [e, e2]
    split_ifs with h1
    · rw [(h.gaussian rfl _ _).1]
    · rw [(h.gaussian rfl _ _).2]

omit [NeZero N] [Fintype W] [Nonempty W] [NeZero L] in
/-- The counters of two entries are equal only if they belong to the same block of the same vector. -/
theorem dense_block (hL0 : (0 : Int) < L) (hN : r * countersPerVector L M ≤ N) {q p q' p' : Int} (hq : 0 ≤ q ∧ q < r) (hp : 0 ≤ p ∧ p < M)
    (hq' : 0 ≤ q' ∧ q' < r) (hp' : 0 ≤ p' ∧ p' < M)
    (hc : (seed.counter + ((q' * countersPerVector L M + p' / L : Int) : ZMod N)) = seed.counter + ((q * countersPerVector L M + p / L : Int) : ZMod N)) :
    q' = q ∧ p' / L = p / L := by
  have hd : ∀ z : Int, 0 ≤ z → z < M → 0 ≤ z / L ∧ z / L < countersPerVector L M := by
    intro z h0 h1
    refine ⟨Int.ediv_nonneg h0 hL0.le, ?_⟩
    unfold countersPerVector
    have e1 : (M + L - 1) / (L : Int) = (M - 1) / L + 1 := by
      rw [show M + L - 1 = (M - 1) + L by ring, Int.add_ediv_of_dvd_right (dvd_refl _), Int.ediv_self hL0.ne']
    have := Int.ediv_le_ediv hL0 (show z ≤ M - 1 by omega)
    omega
  have b := hd p hp.1 hp.2
  have b' := hd p' hp'.1 hp'.2
  have hbd : ∀ z y : Int, 0 ≤ z → z < r → 0 ≤ y → y < countersPerVector L M → 0 ≤ z * countersPerVector L M + y ∧ z * countersPerVector L M + y < N := by
    intro z y h0 h1 h2 h3
    constructor
    · nlinarith
    · nlinarith
  have := intCast_inj_lt (hbd q' _ hq'.1 hq'.2 b'.1 b'.2).1 (hbd q' _ hq'.1 hq'.2 b'.1 b'.2).2 (hbd q _ hq.1 hq.2 b.1 b.2).1
    (hbd q _ hq.1 hq.2 b.1 b.2).2 (add_left_cancel hc)
  have d1 := div_block (k := countersPerVector L M) (i := q') (j := p' / L) b'.1 b'.2
  have d2 := div_block (k := countersPerVector L M) (i := q) (j := p / L) b.1 b.2
  rw [this] at d1
  exact ⟨d1.1.symm.trans d2.1, d1.2.symm.trans d2.2⟩

omit [NeZero N] [Fintype W] [Nonempty W] in
theorem flipE_keep {τ0 τ1 : W → W} (hL : L = 2 ∨ L = 4) (hG : G.len = L) (h : SymmetricWords G τ0 τ1 family)
    (hN : r * countersPerVector L M ≤ N) {q p q' p' : Int} (hq : 0 ≤ q ∧ q < r) (hp : 0 ≤ p ∧ p < M) (hq' : 0 ≤ q' ∧ q' < r) (hp' : 0 ≤ p' ∧ p' < M)
    (hne : (q', p') ≠ (q, p)) (ω : ZMod N × ZMod L → W) :
    rawE G family M seed (flipE G τ0 τ1 family M seed q p ω) q' p' = rawE G family M seed ω q' p' := by
  have hL0 : (0 : Int) < L := by omega
  have hblock := fun hc => dense_block (seed := seed) hL0 hN hq hp hq' hp' hc
  have hpe : ∀ z : Int, 0 ≤ z % (L : Int) ∧ z % (L : Int) < L := fun z => ⟨Int.emod_nonneg _ (by omega), Int.emod_lt_of_pos _ hL0⟩
  have ep := Int.mul_ediv_add_emod p L
  have ep' := Int.mul_ediv_add_emod p' L
  unfold rawE denseRaw genValue fromWords
  cases family with
  | Uniform =>
    simp only [famScale, hG]
    have e : flipE G τ0 τ1 .Uniform M seed q p ω (seed.counter + ((q' * countersPerVector L M + p' / L : Int) : ZMod N), ((p' % L : Int) : ZMod L)) =
        ω (seed.counter + ((q' * countersPerVector L M + p' / L : Int) : ZMod N), ((p' % L : Int) : ZMod L)) := by
      unfold flipE densePos
      rw [hG]
      refine Function.update_of_ne (fun hc => hne ?_) _ _
      obtain ⟨c1, c2⟩ := Prod.mk.inj hc
      obtain ⟨d1, d2⟩ := hblock c1
      have := intCast_inj_lt (hpe p').1 (hpe p').2 (hpe p).1 (hpe p).2 c2
      rw [d2, this] at ep'
      rw [d1, show p' = p by omega]
    rw [e]
  | Gaussian =>
    simp only [famScale, hG]
    have e2 : flipE G τ0 τ1 .Gaussian M seed q p ω (seed.counter + ((q' * countersPerVector L M + p' / L : Int) : ZMod N), ((2 * ((p' % L) / 2) + 1 : Int) : ZMod L)) =
        ω (seed.counter + ((q' * countersPerVector L M + p' / L : Int) : ZMod N), ((2 * ((p' % L) / 2) + 1 : Int) : ZMod L)) := by
      unfold flipE
      rw [hG]
      exact Function.update_of_ne (second_word_ne hL) _ _
    rw [e2]
    by_cases hs : ((seed.counter + ((q' * countersPerVector L M + p' / L : Int) : ZMod N), ((2 * ((p' % L) / 2) : Int) : ZMod L)) : ZMod N × ZMod L) =
        (seed.counter + ((q * countersPerVector L M + p / L : Int) : ZMod N), ((2 * ((p % L) / 2) : Int) : ZMod L))
    · -- the other entry of the same pair
      obtain ⟨c1, c2⟩ := Prod.mk.inj hs
      obtain ⟨d1, d2⟩ := hblock c1
      have h1 := hpe p
      have h2 := hpe p'
      have := intCast_inj_lt (by omega) (by omega) (by omega) (by omega) c2
      have hpar : (p' % L) % 2 ≠ (p % L) % 2 := by
        intro hc
        apply hne
        have : p' % (L : Int) = p % L := by omega
        rw [d2, this] at ep'
        rw [d1, show p' = p by omega]
      have e : flipE G τ0 τ1 .Gaussian M seed q p ω (seed.counter + ((q' * countersPerVector L M + p' / L : Int) : ZMod N), ((2 * ((p' % L) / 2) : Int) : ZMod L)) =
          (if (p % L) % 2 = 0 then τ0 else τ1) (ω (seed.counter + ((q' * countersPerVector L M + p' / L : Int) : ZMod N), ((2 * ((p' % L) / 2) : Int) : ZMod L))) := by
        rw [hs]
        unfold flipE densePos
        rw [hG]
        exact Function.update_self _ _ _
      rw [e]
      by_cases hp0 : (p % L) % 2 = 0
      · rw [if_pos hp0, (h.gaussian rfl _ _).1, if_neg (by omega), if_neg (by omega)]
      · rw [if_neg hp0, (h.gaussian rfl _ _).2, if_pos (by omega), if_pos (by omega)]
    · have e : flipE G τ0 τ1 .Gaussian M seed q p ω (seed.counter + ((q' * countersPerVector L M + p' / L : Int) : ZMod N), ((2 * ((p' % L) / 2) : Int) : ZMod L)) =
          ω (seed.counter + ((q' * countersPerVector L M + p' / L : Int) : ZMod N), ((2 * ((p' % L) / 2) : Int) : ZMod L)) := by
        unfold flipE densePos
        rw [hG]
        exact Function.update_of_ne hs _ _
      rw [e]

theorem rawE_square {v : ℝ} (hL : L = 2 ∨ L = 4) (hG : G.len = L) (hv : MeanSquare G family v) (q p : Int) :
    ∑ ω : ZMod N × ZMod L → W, rawE G family M seed ω q p ^ 2 = Fintype.card (ZMod N × ZMod L → W) * v := by
  have hW : (0 : ℝ) < Fintype.card W := by exact_mod_cast Fintype.card_pos
  have hcard : (Fintype.card (ZMod N × ZMod L → W) : ℝ) = (Fintype.card W : ℝ) ^ Fintype.card (ZMod N × ZMod L) := by
    rw [Fintype.card_fun]; push_cast; rfl
  rw [hcard]
  unfold rawE denseRaw genValue fromWords
  cases family with
  | Uniform =>
    simp only [famScale]
    have key := sum_at (W := W) (seed.counter + ((q * countersPerVector G.len M + p / G.len : Int) : ZMod N), ((p % G.len : Int) : ZMod L)) fun w =>
      (Real.sqrt 3 * G.uneg11 w) ^ 2
    unfold MeanSquare at hv
    simp only at hv
    rw [div_eq_iff hW.ne'] at hv
    rw [hv] at key
    have := mul_left_cancel₀ hW.ne' (key.trans (show _ = (Fintype.card W : ℝ) * ((Fintype.card W : ℝ) ^ Fintype.card (ZMod N × ZMod L) * v) by ring))
    exact this
  | Gaussian =>
    simp only [famScale]
    obtain ⟨hv1, hv2⟩ := hv
    rw [div_eq_iff (by positivity)] at hv1 hv2
    have hne : ((seed.counter + ((q * countersPerVector G.len M + p / G.len : Int) : ZMod N), ((2 * ((p % G.len) / 2) : Int) : ZMod L)) : ZMod N × ZMod L) ≠
        (seed.counter + ((q * countersPerVector G.len M + p / G.len : Int) : ZMod N), ((2 * ((p % G.len) / 2) + 1 : Int) : ZMod L)) := by
      rw [hG]
      exact fun h => second_word_ne (seed := seed) (N := N) hL (c := countersPerVector L M) (q := q) (p := p) h.symm
    have hW2 : ((Fintype.card W : ℝ) ^ 2) ≠ 0 := by positivity
    split_ifs with hpar
    · have key := sum_at2 hne fun w w' => (G.boxmuller w w').1 ^ 2
      rw [hv1] at key
      exact mul_left_cancel₀ hW2 (key.trans (show _ = (Fintype.card W : ℝ) ^ 2 * ((Fintype.card W : ℝ) ^ Fintype.card (ZMod N × ZMod L) * v) by ring))
    · have key := sum_at2 hne fun w w' => (G.boxmuller w w').2 ^ 2
      rw [hv2] at key
      exact mul_left_cancel₀ hW2 (key.trans (show _ = (Fintype.card W : ℝ) ^ 2 * ((Fintype.card W : ℝ) ^ Fintype.card (ZMod N × ZMod L) * v) by ring))

end

theorem counters_le {L : Nat} (hL : L = 2 ∨ L = 4) {D : DenseDist} (hD : DenseDistOk D) (hN : D.nRows * D.nCols ≤ N) :
    D.dimMinor * countersPerVector L D.dimMajor ≤ N := by
  obtain ⟨hR, hC, hfit, hlay⟩ := denseDist_facts hD
  have hpos : 0 < D.dimMinor ∧ 0 < D.dimMajor ∧ D.dimMinor * D.dimMajor = D.nRows * D.nCols := by
    rcases hlay with ⟨_, a, b⟩ | ⟨_, a, b⟩ <;> rw [a, b]
    · exact ⟨hC, hR, mul_comm _ _⟩
    · exact ⟨hR, hC, rfl⟩
  obtain ⟨h1, h2, h3⟩ := hpos
  have : countersPerVector L D.dimMajor ≤ D.dimMajor := by
    unfold countersPerVector
    rcases hL with rfl | rfl <;> omega
  have := mul_le_mul_of_nonneg_left this h1.le
  omega

/-- C61. Average over all words that a generator may yield (`G` only fixes how words become scalars): for every vector `x` the average of `‖isometry_scale * S x‖²` is
`v * n_rows / dim_minor * ‖x‖²` and the average of `‖isometry_scale * Sᵀ x‖²` is `v * n_cols / dim_minor * ‖x‖²`, where `v` is the mean square of an entry. -/
theorem C61_dense_average [NeZero N] [Fintype W] [Nonempty W] {L : Nat} [NeZero L] {G : Gen N K W ℝ} {τ0 τ1 : W → W} {D : DenseDist} {seed : RNGState N K} {v : ℝ}
    (hG : G.Ok) (hL : G.len = L) (hD : DenseDistOk D) (hN : D.nRows * D.nCols ≤ N) (hsym : SymmetricWords G τ0 τ1 D.family) (hv : MeanSquare G D.family v) :
    ∃ A : (ZMod N × ZMod L → W) → Int → Int → ℝ,
    (∀ ω sched b, AllocTo b (D.nRows * D.nCols) → M.wp (fillDense sched (fromWords G ω) (Real.sqrt 3) D seed) b (fun _ b' =>
      Holds b' D.naturalLayout D.dimMajor D.nRows D.nCols (A ω))) ∧
    (∀ x : Int → ℝ, (∑ ω, ∑ i ∈ range D.nRows.toNat, (D.isometryScale * ∑ j ∈ range D.nCols.toNat, A ω i j * x j) ^ 2) /
      Fintype.card (ZMod N × ZMod L → W) = v * ((D.nRows : ℝ) / D.dimMinor) * ∑ j ∈ range D.nCols.toNat, x j ^ 2) ∧
    (∀ x : Int → ℝ, (∑ ω, ∑ j ∈ range D.nCols.toNat, (D.isometryScale * ∑ i ∈ range D.nRows.toNat, A ω i j * x i) ^ 2) /
      Fintype.card (ZMod N × ZMod L → W) = v * ((D.nCols : ℝ) / D.dimMinor) * ∑ i ∈ range D.nRows.toNat, x i ^ 2) := by
  have hL' : L = 2 ∨ L = 4 := by rcases hG with h | h <;> omega
  have hcnt := counters_le hL' hD hN
  obtain ⟨hR, hC, hfit, hlay⟩ := denseDist_facts hD
  have hld : tightLd D.naturalLayout D.nRows D.nCols = D.dimMajor := by
    rcases hlay with ⟨a, b, _⟩ | ⟨a, b, _⟩ <;> rw [a, b] <;> rfl
  have hmin : 0 < D.dimMinor := by rcases hlay with ⟨_, _, b⟩ | ⟨_, _, b⟩ <;> rw [b] <;> assumption
  have hmin' : (0 : ℝ) < D.dimMinor := by exact_mod_cast hmin
  have hCard : (0 : ℝ) < Fintype.card (ZMod N × ZMod L → W) := by exact_mod_cast Fintype.card_pos
  have hsc : D.isometryScale * D.isometryScale = 1 / (D.dimMinor : ℝ) := rpow_neg_half_sq hmin'
  let vec : Int → Int → Int := fun i j => match D.naturalLayout with | .ColMajor => j | .RowMajor => i
  let off : Int → Int → Int := fun i j => match D.naturalLayout with | .ColMajor => i | .RowMajor => j
  let A : (ZMod N × ZMod L → W) → Int → Int → ℝ := fun ω i j => rawE G D.family D.dimMajor seed ω (vec i j) (off i j)
  have hA : ∀ ω i j, denseEntry (fromWords G ω) (Real.sqrt 3) D seed i j = A ω i j := by
    intro ω i j
    simp only [A, vec, off, rawE, denseEntry]
    cases D.naturalLayout <;> rfl
  have hin : ∀ i j, 0 ≤ i → i < D.nRows → 0 ≤ j → j < D.nCols → (0 ≤ vec i j ∧ vec i j < D.dimMinor) ∧ (0 ≤ off i j ∧ off i j < D.dimMajor) := by
    intro i j h1 h2 h3 h4
    simp only [vec, off]
    rcases hlay with ⟨a, b, c⟩ | ⟨a, b, c⟩ <;> rw [a, b, c]
    · exact ⟨⟨h3, h4⟩, h1, h2⟩
    · exact ⟨⟨h1, h2⟩, h3, h4⟩
  have hinj : ∀ i j i' j', (vec i' j', off i' j') = (vec i j, off i j) → i' = i ∧ j' = j := by
    intro i j i' j' h
    simp only [vec, off] at h
    rcases hlay with ⟨a, -, -⟩ | ⟨a, -, -⟩ <;> rw [a] at h <;> simp only [Prod.mk.injEq] at h
    · exact ⟨h.2, h.1⟩
    · exact h
  obtain ⟨m, hm⟩ : ∃ m : Nat, D.nRows = m := ⟨D.nRows.toNat, by omega⟩
  obtain ⟨n, hn⟩ : ∃ n : Nat, D.nCols = n := ⟨D.nCols.toNat, by omega⟩
  refine ⟨A, fun ω sched b hb => ?_, fun x => ?_, fun x => ?_⟩
  · unfold fillDense
    refine M.wp_mono (C01_entry_formula (G := fromWords G ω) hG hD ⟨hR, hC, le_refl 0, le_refl 0, by omega, by omega⟩ hb) fun _ b' h => ?_
    rw [hld] at h
    simp only [add_zero, hA] at h
    exact h
  · have hrow : ∀ i ∈ range m, ∑ ω, (∑ j ∈ range n, A ω i j * x j) ^ 2 = (Fintype.card (ZMod N × ZMod L → W) * v) * ∑ j ∈ range n, x j ^ 2 := by
      intro i hi
      rw [mem_range] at hi
      refine sum_sq_of_flips (fun j ω => A ω i j) (fun j => flipE G τ0 τ1 D.family D.dimMajor seed (vec i j) (off i j)) (fun j _ => flipE_inv hsym _ _)
        (fun j _ ω => flipE_neg hL' hL hsym _ _ ω) (fun j hj l hl hlj ω => ?_) (fun j _ => rawE_square hL' hL hv _ _) fun j => x j
      refine flipE_keep hL' hL hsym hcnt (hin i j (by omega) (by omega) (by omega) (by omega)).1 (hin i j (by omega) (by omega) (by omega) (by omega)).2
        (hin i l (by omega) (by omega) (by omega) (by omega)).1 (hin i l (by omega) (by omega) (by omega) (by omega)).2 (fun hc => hlj ?_) ω
      have := (hinj _ _ _ _ hc).2
      omega
    simp only [hm, hn, Int.toNat_natCast, mul_pow, ← mul_sum]
    rw [sum_comm, sum_congr rfl hrow, sum_const, card_range, nsmul_eq_mul, sq, hsc]
    push_cast
    field_simp
  · have hcol : ∀ j ∈ range n, ∑ ω, (∑ i ∈ range m, A ω i j * x i) ^ 2 = (Fintype.card (ZMod N × ZMod L → W) * v) * ∑ i ∈ range m, x i ^ 2 := by
      intro j hj
      rw [mem_range] at hj
      refine sum_sq_of_flips (fun i ω => A ω i j) (fun i => flipE G τ0 τ1 D.family D.dimMajor seed (vec i j) (off i j)) (fun i _ => flipE_inv hsym _ _)
        (fun i _ ω => flipE_neg hL' hL hsym _ _ ω) (fun i hi l hl hli ω => ?_) (fun i _ => rawE_square hL' hL hv _ _) fun i => x i
      refine flipE_keep hL' hL hsym hcnt (hin i j (by omega) (by omega) (by omega) (by omega)).1 (hin i j (by omega) (by omega) (by omega) (by omega)).2
        (hin l j (by omega) (by omega) (by omega) (by omega)).1 (hin l j (by omega) (by omega) (by omega) (by omega)).2 (fun hc => hli ?_) ω
      have := (hinj _ _ _ _ hc).1
      omega
    simp only [hm, hn, Int.toNat_natCast, mul_pow, ← mul_sum]
    rw [sum_comm, sum_congr rfl hcol, sum_const, card_range, nsmul_eq_mul, sq, hsc]
    push_cast
    field_simp

/-- C61 (wide). A wide operator with major axis Long, scaled by `isometry_scale`, multiplies squared norms by `v` on average. -/
theorem C61_dense_wide [NeZero N] [Fintype W] [Nonempty W] {L : Nat} [NeZero L] {G : Gen N K W ℝ} {τ0 τ1 : W → W} {D : DenseDist} {seed : RNGState N K} {v : ℝ}
    (hG : G.Ok) (hL : G.len = L) (hD : DenseDistOk D) (hN : D.nRows * D.nCols ≤ N) (hsym : SymmetricWords G τ0 τ1 D.family) (hv : MeanSquare G D.family v)
    (hax : D.majorAxis = .Long) (hdim : D.nRows ≤ D.nCols) :
    ∃ A : (ZMod N × ZMod L → W) → Int → Int → ℝ,
    (∀ ω sched b, AllocTo b (D.nRows * D.nCols) → M.wp (fillDense sched (fromWords G ω) (Real.sqrt 3) D seed) b (fun _ b' =>
      Holds b' D.naturalLayout D.dimMajor D.nRows D.nCols (A ω))) ∧
    ∀ x : Int → ℝ, (∑ ω, ∑ i ∈ range D.nRows.toNat, (D.isometryScale * ∑ j ∈ range D.nCols.toNat, A ω i j * x j) ^ 2) /
      Fintype.card (ZMod N × ZMod L → W) = v * ∑ j ∈ range D.nCols.toNat, x j ^ 2 := by
  obtain ⟨hR, hC, -⟩ := denseDist_facts hD
  obtain ⟨A, h1, h2, h3⟩ := C61_dense_average (seed := seed) hG hL hD hN hsym hv
  refine ⟨A, h1, fun x => ?_⟩
  have hmin : D.dimMinor = D.nRows := by
    have h := hD.1
    rw [mkDenseDist_eq hR hC, hax] at h
    injection h with h
    rw [← h]; simp only [if_true]; omega
  have : (D.nRows : ℝ) ≠ 0 := Int.cast_ne_zero.mpr (by omega)
  rw [h2 x, hmin, div_self this, mul_one]

/-- C61 (tall). The transpose of a tall operator with major axis Long, scaled by `isometry_scale`, multiplies squared norms by `v` on average. -/
theorem C61_dense_tall [NeZero N] [Fintype W] [Nonempty W] {L : Nat} [NeZero L] {G : Gen N K W ℝ} {τ0 τ1 : W → W} {D : DenseDist} {seed : RNGState N K} {v : ℝ}
    (hG : G.Ok) (hL : G.len = L) (hD : DenseDistOk D) (hN : D.nRows * D.nCols ≤ N) (hsym : SymmetricWords G τ0 τ1 D.family) (hv : MeanSquare G D.family v)
    (hax : D.majorAxis = .Long) (hdim : D.nCols ≤ D.nRows) :
    ∃ A : (ZMod N × ZMod L → W) → Int → Int → ℝ,
    (∀ ω sched b, AllocTo b (D.nRows * D.nCols) → M.wp (fillDense sched (fromWords G ω) (Real.sqrt 3) D seed) b (fun _ b' =>
      Holds b' D.naturalLayout D.dimMajor D.nRows D.nCols (A ω))) ∧
    ∀ x : Int → ℝ, (∑ ω, ∑ j ∈ range D.nCols.toNat, (D.isometryScale * ∑ i ∈ range D.nRows.toNat, A ω i j * x i) ^ 2) /
      Fintype.card (ZMod N × ZMod L → W) = v * ∑ j ∈ range D.nRows.toNat, x j ^ 2 := by
  obtain ⟨hR, hC, -⟩ := denseDist_facts hD
  obtain ⟨A, h1, h2, h3⟩ := C61_dense_average (seed := seed) hG hL hD hN hsym hv
  refine ⟨A, h1, fun x => ?_⟩
  have hmin : D.dimMinor = D.nCols := by
    have h := hD.1
    rw [mkDenseDist_eq hR hC, hax] at h
    injection h with h
    rw [← h]; simp only [if_true]; omega
  have : (D.nCols : ℝ) ≠ 0 := Int.cast_ne_zero.mpr (by omega)
  rw [h3 x, hmin, div_self this, mul_one]

theorem sum_odd_squares (M : Nat) : ∑ j ∈ range M, (2 * (j : ℝ) + 1 - M) ^ 2 = (M : ℝ) * ((M : ℝ) ^ 2 - 1) / 3 := by
  have h : ∀ (m : Nat) (c : ℝ), ∑ j ∈ range m, (2 * (j : ℝ) + 1 - c) ^ 2 = m * (4 * (m : ℝ) ^ 2 - 1) / 3 - 2 * c * (m : ℝ) ^ 2 + m * c ^ 2 := by
    intro m c
    induction m with
    | zero => simp
    | succ m ih => rw [sum_range_succ, ih]; push_cast; ring
  rw [h]; ring

/-- C61 (uniform family). If the uniform values are the midpoints of `M` equal intervals of [-1, 1], one for each word, the mean square of an entry is `1 - 1/M²`. -/
theorem C61_uniform_mean_square [Fintype W] {G : Gen N K W ℝ} {Mw : Nat} (hM : 0 < Mw) (e : W ≃ Fin Mw)
    (hmid : ∀ w, (G.uneg11 w + 1) / 2 = (((e w : Nat) : ℝ) + 1 / 2) / Mw) : MeanSquare G .Uniform (1 - 1 / (Mw : ℝ) ^ 2) := by
  have hM' : (0 : ℝ) < Mw := by exact_mod_cast hM
  have hcard : Fintype.card W = Mw := by rw [Fintype.card_congr e, Fintype.card_fin]
  have hval : ∀ w, (Real.sqrt 3 * G.uneg11 w) ^ 2 = 3 / (Mw : ℝ) ^ 2 * (2 * ((e w : Nat) : ℝ) + 1 - Mw) ^ 2 := by
    intro w
    have h1 : G.uneg11 w = (2 * ((e w : Nat) : ℝ) + 1 - Mw) / Mw := by
      have := hmid w
      field_simp at this ⊢
      linarith
    rw [mul_pow, Real.sq_sqrt (by norm_num), h1, div_pow]; ring
  show (∑ w, (Real.sqrt 3 * G.uneg11 w) ^ 2) / (Fintype.card W : ℝ) = _
  simp only [hval]
  rw [← mul_sum, hcard, Equiv.sum_comp e fun j : Fin Mw => (2 * ((j : Nat) : ℝ) + 1 - Mw) ^ 2,
    Fin.sum_univ_eq_sum_range (fun j => (2 * (j : ℝ) + 1 - Mw) ^ 2) Mw, sum_odd_squares]
  field_simp

/-- C61 (uniform family, wide). -/
theorem C61_uniform_wide [NeZero N] [Fintype W] [Nonempty W] {L : Nat} [NeZero L] {G : Gen N K W ℝ} {D : DenseDist} {seed : RNGState N K}
    (hG : G.Ok) (hL : G.len = L) (hD : DenseDistOk D) (hN : D.nRows * D.nCols ≤ N) (hfam : D.family = .Uniform) (hax : D.majorAxis = .Long)
    (hdim : D.nRows ≤ D.nCols) {Mw : Nat} (e : W ≃ Fin Mw) (hmid : ∀ w, (G.uneg11 w + 1) / 2 = (((e w : Nat) : ℝ) + 1 / 2) / Mw) :
    ∃ A : (ZMod N × ZMod L → W) → Int → Int → ℝ,
    (∀ ω sched b, AllocTo b (D.nRows * D.nCols) → M.wp (fillDense sched (fromWords G ω) (Real.sqrt 3) D seed) b (fun _ b' =>
      Holds b' D.naturalLayout D.dimMajor D.nRows D.nCols (A ω))) ∧
    ∀ x : Int → ℝ, (∑ ω, ∑ i ∈ range D.nRows.toNat, (D.isometryScale * ∑ j ∈ range D.nCols.toNat, A ω i j * x j) ^ 2) /
      Fintype.card (ZMod N × ZMod L → W) = (1 - 1 / (Mw : ℝ) ^ 2) * ∑ j ∈ range D.nCols.toNat, x j ^ 2 := by
  have hM : 0 < Mw := by
    obtain ⟨w⟩ := ‹Nonempty W›
    exact (e w).pos
  have hM' : (0 : ℝ) < Mw := by exact_mod_cast hM
  let τ : W → W := fun w => e.symm (Fin.rev (e w))
  have hτ : Function.Involutive τ := fun w => by simp [τ]
  have hneg : ∀ w, G.uneg11 (τ w) = -G.uneg11 w := by
    intro w
    have h1 := hmid w
    have h2 := hmid (τ w)
    simp only [τ, Equiv.apply_symm_apply, Fin.val_rev] at h2
    rw [Nat.cast_sub (by have := (e w).2; omega)] at h2
    push_cast at h2
    field_simp at h1 h2
    simp only [τ]
    nlinarith
  refine C61_dense_wide (τ0 := τ) (τ1 := τ) (v := 1 - 1 / (Mw : ℝ) ^ 2) hG hL hD hN ⟨hτ, hτ, fun _ w => ⟨hneg w, hneg w⟩, fun h => ?_⟩ ?_ hax hdim
  · rw [hfam] at h; cases h
  · rw [hfam]; exact C61_uniform_mean_square hM e hmid

/-- The exact Box-Muller transform (Random123's boxmuller.hpp without rounding): `u` and `r` are the angle in half turns and the radius. -/
def Spec.IsBoxMuller (G : Gen N K W ℝ) (u r : W → ℝ) : Prop :=
  ∀ w w', G.boxmuller w w' = (r w' * Real.sin (Real.pi * u w), r w' * Real.cos (Real.pi * u w))

theorem periodic_sum (g : Nat → ℝ) (M : Nat) (hg : ∀ j, g (j + M) = g j) (m : Nat) : ∑ j ∈ range M, g (j + m) = ∑ j ∈ range M, g j := by
  induction m with
  | zero => rfl
  | succ m ih =>
    rw [← ih]
    have h1 := sum_range_succ (fun j => g (j + m)) M
    have h2 := sum_range_succ' (fun j => g (j + m)) M
    have h3 : g (M + m) = g (0 + m) := by rw [Nat.add_comm M m, hg, Nat.zero_add]
    have h4 : ∀ j, g (j + 1 + m) = g (j + (m + 1)) := fun j => by congr 1; ring
    simp only [h4] at h2
    linarith

/-- C61 (Gaussian family). The exact Box-Muller transform, with the midpoints of `M` equal intervals of [-1, 1] as angles (`4` divides `M`), has the symmetries that
`C61_dense_wide` and `C61_dense_tall` need, and the mean square of its values is half the mean of `r²`. -/
theorem C61_gaussian_words [Fintype W] {G : Gen N K W ℝ} {u r : W → ℝ} {m : Nat} (hm : 0 < m) (e : W ≃ Fin (4 * m)) (hbm : IsBoxMuller G u r)
    (hmid : ∀ w, (u w + 1) / 2 = (((e w : Nat) : ℝ) + 1 / 2) / (4 * m : Nat)) :
    (∃ τ0 τ1, SymmetricWords G τ0 τ1 .Gaussian) ∧ MeanSquare G .Gaussian ((∑ w, r w ^ 2) / (2 * (4 * m : Nat))) := by
  have hm' : (0 : ℝ) < m := by exact_mod_cast hm
  have hcard : Fintype.card W = 4 * m := by rw [Fintype.card_congr e, Fintype.card_fin]
  have hu : ∀ w, u w = (2 * ((e w : Nat) : ℝ) + 1 - 4 * m) / (4 * m) := by
    intro w
    have := hmid w
    push_cast at this
    field_simp at this ⊢
    linarith
  constructor
  · let τ1' : Fin (4 * m) → Fin (4 * m) := fun j => if h : (j : Nat) < 2 * m then ⟨2 * m - 1 - j, by omega⟩ else ⟨6 * m - 1 - j, by omega⟩
    have hτ1' : ∀ j, (τ1' j : Nat) = if (j : Nat) < 2 * m then 2 * m - 1 - (j : Nat) else 6 * m - 1 - (j : Nat) := by
      intro j; simp only [τ1']; split_ifs <;> rfl
    refine ⟨fun w => e.symm (Fin.rev (e w)), fun w => e.symm (τ1' (e w)), ⟨?_, ?_, fun h => (by cases h), fun _ w w' => ⟨?_, ?_⟩⟩⟩
    · intro w; simp
    · intro w
      simp only [Equiv.apply_symm_apply]
      have : τ1' (τ1' (e w)) = e w := by
        apply Fin.ext
        have := (e w).2
        rw [hτ1', hτ1']
        split_ifs <;> omega
      rw [this, Equiv.symm_apply_apply]
    · rw [hbm, hbm]
      have : u (e.symm (Fin.rev (e w))) = -u w := by
        rw [hu, hu, Equiv.apply_symm_apply, Fin.val_rev, Nat.cast_sub (by have := (e w).2; omega)]
        push_cast
        field_simp
        ring
      rw [this, mul_neg, Real.sin_neg, Real.cos_neg]
      simp
    · rw [hbm, hbm]
      have hlt := (e w).2
      by_cases h : ((e w : Nat)) < 2 * m
      · have : u (e.symm (τ1' (e w))) = -(u w + 1) := by
          rw [hu, hu, Equiv.apply_symm_apply, hτ1', if_pos h, Nat.cast_sub (by omega), Nat.cast_sub (by omega)]
          push_cast
          field_simp
          ring
        rw [this, show Real.pi * -(u w + 1) = -(Real.pi * u w + Real.pi) by ring, Real.sin_neg, Real.cos_neg, Real.sin_add_pi, Real.cos_add_pi]
        simp
      · have : u (e.symm (τ1' (e w))) = 1 - u w := by
          rw [hu, hu, Equiv.apply_symm_apply, hτ1', if_neg h, Nat.cast_sub (by omega), Nat.cast_sub (by omega)]
          push_cast
          field_simp
          ring
        rw [this, show Real.pi * (1 - u w) = Real.pi - Real.pi * u w by ring, Real.sin_pi_sub, Real.cos_pi_sub]
        simp
  · -- the mean squares of sine and cosine are one half
    let a : Nat → ℝ := fun j => Real.pi * ((2 * (j : ℝ) + 1 - 4 * m) / (4 * m))
    have ha : ∀ j, a (j + m) = a j + Real.pi / 2 := by
      intro j; simp only [a]; push_cast; field_simp; ring
    have hper : ∀ j, Real.sin (a (j + 4 * m)) ^ 2 = Real.sin (a j) ^ 2 := by
      intro j
      have : a (j + 4 * m) = a j + 2 * Real.pi := by
        simp only [a]; push_cast; field_simp; ring
      rw [this, Real.sin_add_two_pi]
    have hsc : ∑ j ∈ range (4 * m), Real.cos (a j) ^ 2 = ∑ j ∈ range (4 * m), Real.sin (a j) ^ 2 := by
      rw [← periodic_sum (fun j => Real.sin (a j) ^ 2) (4 * m) hper m]
      refine sum_congr rfl fun j _ => ?_
      rw [ha, Real.sin_add_pi_div_two]
    have hsum : ∑ j ∈ range (4 * m), Real.sin (a j) ^ 2 + ∑ j ∈ range (4 * m), Real.cos (a j) ^ 2 = 4 * m := by
      rw [← sum_add_distrib]
      simp only [Real.sin_sq_add_cos_sq, sum_const, card_range, nsmul_eq_mul, mul_one]
      push_cast; rfl
    have hsin : ∑ w, Real.sin (Real.pi * u w) ^ 2 = 2 * m := by
      simp only [hu]
      rw [Equiv.sum_comp e fun j : Fin (4 * m) => Real.sin (a j) ^ 2, Fin.sum_univ_eq_sum_range (fun j => Real.sin (a j) ^ 2) (4 * m)]
      linarith
    have hcos : ∑ w, Real.cos (Real.pi * u w) ^ 2 = 2 * m := by
      simp only [hu]
      rw [Equiv.sum_comp e fun j : Fin (4 * m) => Real.cos (a j) ^ 2, Fin.sum_univ_eq_sum_range (fun j => Real.cos (a j) ^ 2) (4 * m)]
      linarith
    show (∑ w, ∑ w', (G.boxmuller w w').1 ^ 2) / (Fintype.card W : ℝ) ^ 2 = _ ∧ (∑ w, ∑ w', (G.boxmuller w w').2 ^ 2) / (Fintype.card W : ℝ) ^ 2 = _
    simp only [hbm _ _, mul_pow]
    rw [sum_comm]
    simp only [← mul_sum, ← sum_mul, hsin]
    simp only [hcos, hcard]
    push_cast
    constructor <;> field_simp <;> ring

/-- A generator of 32-bit words with exact conversions. -/
noncomputable def midGenR : Gen (2 ^ 128) Nat (Fin (4 * 2 ^ 30)) ℝ :=
  { len := 4, word := fun c k i => Fin.ofNat _ (c.val + k + i.toNat)
    boxmuller := fun w w' => (Real.sqrt (-2 * Real.log ((((w' : Nat) : ℝ) + 1 / 2) / (4 * 2 ^ 30 : Nat))) * Real.sin (Real.pi * (2 * ((((w : Nat) : ℝ) + 1 / 2) / (4 * 2 ^ 30 : Nat)) - 1)), Real.sqrt (-2 * Real.log ((((w' : Nat) : ℝ) + 1 / 2) / (4 * 2 ^ 30 : Nat))) * Real.cos (Real.pi * (2 * ((((w : Nat) : ℝ) + 1 / 2) / (4 * 2 ^ 30 : Nat)) - 1)))
    uneg11 := fun w => 2 * ((((w : Nat) : ℝ) + 1 / 2) / (4 * 2 ^ 30 : Nat)) - 1, nat := fun w => w }

/-- A wide Gaussian and a wide uniform distribution. -/
def exGauss : DenseDist := ⟨2, 5, .Long, 5, 2, .Gaussian, .RowMajor⟩
/-- See `exGauss`. -/
def exUnif : DenseDist := ⟨2, 5, .Long, 5, 2, .Uniform, .RowMajor⟩

/-- The hypotheses are met by this generator and these distributions. -/
example : midGenR.Ok ∧ midGenR.len = (4 : Nat) ∧
    (∀ w, (midGenR.uneg11 w + 1) / 2 = ((((Equiv.refl (Fin (4 * 2 ^ 30))) w : Nat) : ℝ) + 1 / 2) / (4 * 2 ^ 30 : Nat)) ∧
    IsBoxMuller midGenR midGenR.uneg11 (fun w => Real.sqrt (-2 * Real.log ((((w : Nat) : ℝ) + 1 / 2) / (4 * 2 ^ 30 : Nat)))) ∧
    DenseDistOk exGauss ∧ exGauss.nRows * exGauss.nCols ≤ ((2 ^ 128 : Nat) : Int) ∧ exGauss.majorAxis = .Long ∧ exGauss.nRows ≤ exGauss.nCols ∧
    DenseDistOk exUnif ∧ exUnif.nRows * exUnif.nCols ≤ ((2 ^ 128 : Nat) : Int) ∧ exUnif.family = .Uniform :=
  ⟨Or.inr rfl, rfl, fun w => by simp only [midGenR, Equiv.refl_apply]; ring, fun _ _ => rfl, ⟨by decide, by decide⟩, by decide, rfl, by decide,
    ⟨by decide, by decide⟩, by decide, rfl⟩

end RB
