import Verif.Props.IsometryDense
import Verif.Props.Distortion
import Verif.Lemmas.Fourth
import Verif.Lemmas.LogMid
import Verif.Lemmas.Sketch

/-!
# C82: distortion of vectors by dense operators

The average is over all words that an ideal generator may yield, as in C61.
-/

namespace RB
open Spec Finset
variable {N : Nat} {K W : Type}

/-- Two functions of disjoint sets of coordinates are independent. -/
theorem sum_indep {ι W : Type} [Fintype ι] [DecidableEq ι] [Fintype W] (A : ι → Prop) [DecidablePred A] (f g : (ι → W) → ℝ)
    (hf : ∀ ω ω', (∀ a, A a → ω a = ω' a) → f ω = f ω') (hg : ∀ ω ω', (∀ a, ¬A a → ω a = ω' a) → g ω = g ω') :
    Fintype.card (ι → W) * ∑ ω, f ω * g ω = (∑ ω, f ω) * ∑ ω, g ω := by
  let mix : (ι → W) → (ι → W) → ι → W := fun ω ω' a => if A a then ω a else ω' a
  let Φ : (ι → W) × (ι → W) → (ι → W) × (ι → W) := fun p => (mix p.1 p.2, mix p.2 p.1)
  have hΦ : Function.Involutive Φ := by
    rintro ⟨a, b⟩
    apply Prod.ext <;> funext c <;> simp only [Φ, mix] <;> by_cases h : A c <;> simp [h]
  rw [sum_mul_sum, ← Fintype.sum_prod_type' fun ω ω' => f ω * g ω', ← Equiv.sum_comp (hΦ.toPerm Φ)]
  have : ∀ p, f (hΦ.toPerm Φ p).1 * g (hΦ.toPerm Φ p).2 = f p.1 * g p.1 := by
    rintro ⟨a, b⟩
    show f (mix a b) * g (mix b a) = f a * g a
    rw [hf (mix a b) a fun c hc => by simp [mix, hc], hg (mix b a) a fun c hc => by simp [mix, hc]]
  simp only [this]
  rw [Fintype.sum_prod_type]
  simp only [sum_const, card_univ, nsmul_eq_mul]
  rw [mul_sum]

/-- `w` bounds the fourth moments of the entries: the mean of the product of the squares of two entries is at most `w`, and the mean fourth power of an entry is at
most `3 w`, the words being uniform. (The square of `MeanSquare` is the mean of the product for two entries that are computed from different words.) -/
def Spec.FourthMoments [Fintype W] (G : Gen N K W ℝ) (family : ScalarDist) (w : ℝ) : Prop :=
  match family with
  | .Uniform => (∑ x, (Real.sqrt 3 * G.uneg11 x) ^ 4) / Fintype.card W ≤ 3 * w
  | .Gaussian => (∑ x, ∑ y, (G.boxmuller x y).1 ^ 4) / (Fintype.card W) ^ 2 ≤ 3 * w ∧ (∑ x, ∑ y, (G.boxmuller x y).2 ^ 4) / (Fintype.card W) ^ 2 ≤ 3 * w ∧
    (∑ x, ∑ y, (G.boxmuller x y).1 ^ 2 * (G.boxmuller x y).2 ^ 2) / (Fintype.card W) ^ 2 ≤ w

section
variable [NeZero N] [Fintype W] [Nonempty W] {L : Nat} [NeZero L] {G : Gen N K W ℝ} {family : ScalarDist} {seed : RNGState N K} {M r : Int}

theorem rawE_four {w : ℝ} (hL : L = 2 ∨ L = 4) (hG : G.len = L) (hw : FourthMoments G family w) (q p : Int) :
    ∑ ω : ZMod N × ZMod L → W, rawE G family M seed ω q p ^ 4 ≤ 3 * (Fintype.card (ZMod N × ZMod L → W) * w) := by
  have hW : (0 : ℝ) < Fintype.card W := by exact_mod_cast Fintype.card_pos
  have hcard : (Fintype.card (ZMod N × ZMod L → W) : ℝ) = (Fintype.card W : ℝ) ^ Fintype.card (ZMod N × ZMod L) := by
    rw [Fintype.card_fun]; push_cast; rfl
  rw [hcard]
  unfold rawE denseRaw genValue fromWords
  cases family with
  | Uniform =>
    simp only [famScale]
    have key := sum_at (W := W) (seed.counter + ((q * countersPerVector G.len M + p / G.len : Int) : ZMod N), ((p % G.len : Int) : ZMod L)) fun w =>
      (Real.sqrt 3 * G.uneg11 w) ^ 4
    unfold FourthMoments at hw
    simp only at hw
    rw [div_le_iff₀ hW] at hw
    refine le_of_mul_le_mul_left (key.le.trans ((mul_le_mul_of_nonneg_left hw (by positivity)).trans (le_of_eq ?_))) hW
    ring
  | Gaussian =>
    simp only [famScale]
    obtain ⟨hv1, hv2, -⟩ := hw
    rw [div_le_iff₀ (by positivity)] at hv1 hv2
    have hne : ((seed.counter + ((q * countersPerVector G.len M + p / G.len : Int) : ZMod N), ((2 * ((p % G.len) / 2) : Int) : ZMod L)) : ZMod N × ZMod L) ≠
        (seed.counter + ((q * countersPerVector G.len M + p / G.len : Int) : ZMod N), ((2 * ((p % G.len) / 2) + 1 : Int) : ZMod L)) := by
      rw [hG]
      exact fun h => second_word_ne (seed := seed) (N := N) hL (c := countersPerVector L M) (q := q) (p := p) h.symm
    have hW2 : 0 < ((Fintype.card W : ℝ) ^ 2) := by positivity
    split_ifs with hpar
    · have key := sum_at2 hne fun w w' => (G.boxmuller w w').1 ^ 4
      refine le_of_mul_le_mul_left (key.le.trans ((mul_le_mul_of_nonneg_left hv1 (by positivity)).trans (le_of_eq ?_))) hW2
      ring
    · have key := sum_at2 hne fun w w' => (G.boxmuller w w').2 ^ 4
      refine le_of_mul_le_mul_left (key.le.trans ((mul_le_mul_of_nonneg_left hv2 (by positivity)).trans (le_of_eq ?_))) hW2
      ring

/-- The positions of the words from which an entry is computed. -/
def entryPos {L : Nat} (seed : RNGState N K) (family : ScalarDist) (c q p : Int) (a : ZMod N × ZMod L) : Prop :=
  a.1 = seed.counter + ((q * c + p / L : Int) : ZMod N) ∧
    match family with
    | .Uniform => a.2 = ((p % L : Int) : ZMod L)
    | .Gaussian => a.2 = ((2 * ((p % L) / 2) : Int) : ZMod L) ∨ a.2 = ((2 * ((p % L) / 2) + 1 : Int) : ZMod L)

omit [NeZero N] [Fintype W] [Nonempty W] [NeZero L] in
theorem rawE_congr (hG : G.len = L) {q p : Int} {ω ω' : ZMod N × ZMod L → W}
    (h : ∀ a, entryPos seed family (countersPerVector L M) q p a → ω a = ω' a) : rawE G family M seed ω q p = rawE G family M seed ω' q p := by
  unfold rawE denseRaw genValue fromWords
  cases family with
  | Uniform => simp only [famScale, hG]; rw [h _ ⟨rfl, rfl⟩]
  | Gaussian => simp only [famScale, hG]; rw [h _ ⟨rfl, Or.inl rfl⟩, h _ ⟨rfl, Or.inr rfl⟩]

theorem rawE_pair {v w : ℝ} (hL : L = 2 ∨ L = 4) (hG : G.len = L) (hv : MeanSquare G family v) (hw : FourthMoments G family w) (hvw : v ^ 2 ≤ w)
    (hN : r * countersPerVector L M ≤ N) {q p q' p' : Int} (hq : 0 ≤ q ∧ q < r) (hp : 0 ≤ p ∧ p < M) (hq' : 0 ≤ q' ∧ q' < r) (hp' : 0 ≤ p' ∧ p' < M)
    (hne : (q', p') ≠ (q, p)) :
    ∑ ω : ZMod N × ZMod L → W, rawE G family M seed ω q p ^ 2 * rawE G family M seed ω q' p' ^ 2 ≤ Fintype.card (ZMod N × ZMod L → W) * w := by
  classical
  have hW : (0 : ℝ) < Fintype.card W := by exact_mod_cast Fintype.card_pos
  have hΩ : (0 : ℝ) < Fintype.card (ZMod N × ZMod L → W) := by exact_mod_cast Fintype.card_pos
  have hcard : (Fintype.card (ZMod N × ZMod L → W) : ℝ) = (Fintype.card W : ℝ) ^ Fintype.card (ZMod N × ZMod L) := by
    rw [Fintype.card_fun]; push_cast; rfl
  have hL0 : (0 : Int) < L := by omega
  have hpe : ∀ z : Int, 0 ≤ z % (L : Int) ∧ z % (L : Int) < L := fun z => ⟨Int.emod_nonneg _ (by omega), Int.emod_lt_of_pos _ hL0⟩
  have ep := Int.mul_ediv_add_emod p L
  have ep' := Int.mul_ediv_add_emod p' L
  -- two entries without a common word
  have hdisj : (∀ a : ZMod N × ZMod L, entryPos seed family (countersPerVector L M) q p a → ¬entryPos seed family (countersPerVector L M) q' p' a) →
      ∑ ω : ZMod N × ZMod L → W, rawE G family M seed ω q p ^ 2 * rawE G family M seed ω q' p' ^ 2 ≤ Fintype.card (ZMod N × ZMod L → W) * w := by
    intro hd
    have key := sum_indep (entryPos seed family (countersPerVector L M) q p) (fun ω : ZMod N × ZMod L → W => rawE G family M seed ω q p ^ 2)
      (fun ω => rawE G family M seed ω q' p' ^ 2) (fun ω ω' h => by rw [rawE_congr hG h])
      (fun ω ω' h => by rw [rawE_congr hG fun a ha => h a fun hb => hd a hb ha])
    rw [rawE_square hL hG hv, rawE_square hL hG hv] at key
    have : ∑ ω : ZMod N × ZMod L → W, rawE G family M seed ω q p ^ 2 * rawE G family M seed ω q' p' ^ 2 =
        Fintype.card (ZMod N × ZMod L → W) * v ^ 2 := by
      refine mul_left_cancel₀ hΩ.ne' (key.trans ?_)
      ring
    rw [this]
    exact mul_le_mul_of_nonneg_left hvw hΩ.le
  by_cases hs : q' = q ∧ p' / L = p / L ∧ family = .Gaussian ∧ (p' % L) / 2 = (p % L) / 2
  · -- the two entries of a pair
    obtain ⟨rfl, h1, rfl, h2⟩ := hs
    have hpar : ((p' % L) % 2 = 0 ↔ ¬(p % L) % 2 = 0) := by
      have : p' % L ≠ p % L := by
        intro hc
        apply hne
        rw [h1, hc] at ep'
        rw [show p' = p by omega]
      omega
    obtain ⟨-, -, hw3⟩ := hw
    rw [div_le_iff₀ (by positivity)] at hw3
    have hne2 : ((seed.counter + ((q' * countersPerVector L M + p / L : Int) : ZMod N), ((2 * ((p % L) / 2) : Int) : ZMod L)) : ZMod N × ZMod L) ≠
        (seed.counter + ((q' * countersPerVector L M + p / L : Int) : ZMod N), ((2 * ((p % L) / 2) + 1 : Int) : ZMod L)) :=
      fun h => second_word_ne (seed := seed) (N := N) hL (c := countersPerVector L M) (q := q') (p := p) h.symm
    have key := sum_at2 hne2 fun w w' => (G.boxmuller w w').1 ^ 2 * (G.boxmuller w w').2 ^ 2
    rw [hcard]
    refine le_of_mul_le_mul_left (le_trans (le_of_eq ?_) ((key.le.trans (mul_le_mul_of_nonneg_left hw3 (by positivity))).trans (le_of_eq ?_)))
      (show (0 : ℝ) < (Fintype.card W : ℝ) ^ 2 by positivity)
    · congr 1
      refine sum_congr rfl fun ω _ => ?_
      unfold rawE denseRaw genValue fromWords
      simp only [famScale, hG, h1, h2]
      by_cases h0 : (p % L) % 2 = 0
      · rw [if_pos h0, if_neg (by rw [hpar]; simpa using h0)]
      · rw [if_neg h0, if_pos (hpar.mpr h0)]; ring
    · ring
  · refine hdisj fun a ha hb => hs ?_
    obtain ⟨d1, d2⟩ := dense_block (seed := seed) hL0 hN hq hp hq' hp' (hb.1.symm.trans ha.1)
    have a2 := ha.2
    have b2 := hb.2
    have h1 := hpe p
    have h2 := hpe p'
    cases family with
    | Uniform =>
      exfalso
      have := intCast_inj_lt h2.1 h2.2 h1.1 h1.2 (b2.symm.trans a2)
      apply hne
      rw [d2, this] at ep'
      rw [d1, show p' = p by omega]
    | Gaussian =>
      refine ⟨d1, d2, rfl, ?_⟩
      simp only at a2 b2
      rcases a2 with a2 | a2 <;> rcases b2 with b2 | b2 <;>
        (have := intCast_inj_lt (by omega) (by rcases hL with rfl | rfl <;> omega) (by omega) (by rcases hL with rfl | rfl <;> omega) (b2.symm.trans a2); omega)

/-- Second moment of the squared norm of `E x` for a `d × n` matrix `E` of different entries of the operator. -/
theorem dense_second {τ0 τ1 : W → W} {v w : ℝ} (hL : L = 2 ∨ L = 4) (hG : G.len = L) (hsym : SymmetricWords G τ0 τ1 family) (hv : MeanSquare G family v)
    (hw : FourthMoments G family w) (hvw : v ^ 2 ≤ w) (hN : r * countersPerVector L M ≤ N) {d n : Nat} (vec off : Nat → Nat → Int)
    (hin : ∀ i < d, ∀ j < n, (0 ≤ vec i j ∧ vec i j < r) ∧ (0 ≤ off i j ∧ off i j < M))
    (hinj : ∀ i < d, ∀ j < n, ∀ i' < d, ∀ j' < n, vec i' j' = vec i j → off i' j' = off i j → i' = i ∧ j' = j) (x : Nat → ℝ) :
    ∑ ω : ZMod N × ZMod L → W, ∑ i ∈ range d, (∑ j ∈ range n, rawE G family M seed ω (vec i j) (off i j) * x j) ^ 2 =
      Fintype.card (ZMod N × ZMod L → W) * (d * v * ∑ j ∈ range n, x j ^ 2) ∧
    ∑ ω : ZMod N × ZMod L → W, (∑ i ∈ range d, (∑ j ∈ range n, rawE G family M seed ω (vec i j) (off i j) * x j) ^ 2) ^ 2 ≤
      Fintype.card (ZMod N × ZMod L → W) * ((d ^ 2 + 2 * d) * w * (∑ j ∈ range n, x j ^ 2) ^ 2) := by
  have hkeep : ∀ i < d, ∀ j < n, ∀ k < d, ∀ l < n, (k, l) ≠ (i, j) → ∀ ω : ZMod N × ZMod L → W,
      rawE G family M seed (flipE G τ0 τ1 family M seed (vec i j) (off i j) ω) (vec k l) (off k l) = rawE G family M seed ω (vec k l) (off k l) := by
    intro i hi j hj k hk l hl hne ω
    refine flipE_keep hL hG hsym hN (hin i hi j hj).1 (hin i hi j hj).2 (hin k hk l hl).1 (hin k hk l hl).2 (fun hc => hne ?_) ω
    obtain ⟨h1, h2⟩ := Prod.mk.inj hc
    obtain ⟨e1, e2⟩ := hinj i hi j hj k hk l hl h1 h2
    rw [e1, e2]
  constructor
  · rw [sum_comm]
    have : ∀ i ∈ range d, ∑ ω : ZMod N × ZMod L → W, (∑ j ∈ range n, rawE G family M seed ω (vec i j) (off i j) * x j) ^ 2 =
        (Fintype.card (ZMod N × ZMod L → W) * v) * ∑ j ∈ range n, x j ^ 2 := by
      intro i hi
      have hi' := mem_range.mp hi
      exact sum_sq_of_flips (fun j ω => rawE G family M seed ω (vec i j) (off i j)) (fun j => flipE G τ0 τ1 family M seed (vec i j) (off i j))
        (fun j _ => flipE_inv hsym _ _) (fun j _ ω => flipE_neg hL hG hsym _ _ ω)
        (fun j hj l hl hlj ω => hkeep i hi' j hj i hi' l hl (by simpa using hlj) ω) (fun j _ => rawE_square hL hG hv _ _) x
    rw [sum_congr rfl this, sum_const, card_range, nsmul_eq_mul]
    ring
  · refine (sum_quad_le (w := Fintype.card (ZMod N × ZMod L → W) * w) (fun i j ω => rawE G family M seed ω (vec i j) (off i j))
      (fun i j => flipE G τ0 τ1 family M seed (vec i j) (off i j)) (fun i _ j _ => flipE_inv hsym _ _) (fun i _ j _ ω => flipE_neg hL hG hsym _ _ ω) hkeep
      (fun i hi j hj k hk l hl hne => ?_) (fun i _ j _ => rawE_four hL hG hw _ _) x).trans (le_of_eq (by ring))
    refine rawE_pair hL hG hv hw hvw hN (hin i hi j hj).1 (hin i hi j hj).2 (hin k hk l hl).1 (hin k hk l hl).2 fun hc => hne ?_
    obtain ⟨h1, h2⟩ := Prod.mk.inj hc
    obtain ⟨e1, e2⟩ := hinj i hi j hj k hk l hl h1 h2
    rw [e1, e2]

end

/-- C82 (moments). Let `op(X)` be a `d × m` window of a dense operator, or the transpose of a window, and `alpha² = 1/d`. On average over all words that a generator
may yield (`G` only fixes how words become scalars), `‖alpha * op(X) x‖²` is `v ‖x‖²`, and its mean squared deviation from `‖x‖²` is at most
`(w (1 + 2/d) - 2 v + 1) ‖x‖⁴`. -/
theorem C82_moments [NeZero N] [Fintype W] [Nonempty W] {L : Nat} [NeZero L] {G : Gen N K W ℝ} {τ0 τ1 : W → W} {D : DenseDist} {seed : RNGState N K} {v w : ℝ}
    (hG : G.Ok) (hL : G.len = L) (hD : DenseDistOk D) (hN : D.nRows * D.nCols ≤ N) (hsym : SymmetricWords G τ0 τ1 D.family) (hv : MeanSquare G D.family v)
    (hw : FourthMoments G D.family w) (hvw : v ^ 2 ≤ w) {A : (ZMod N × ZMod L → W) → Int → Int → ℝ} (hA : ∀ ω, Samples (fromWords G ω) (Real.sqrt 3) D seed (A ω))
    {op : Op} {d m ro co : Int} (hd : 0 < d) (hm : 0 ≤ m) (hin : InOp D.nRows D.nCols (rowsOf op d m) (colsOf op d m) ro co) {alpha : ℝ}
    (hal : alpha * alpha = 1 / d) (x : Int → ℝ) :
    (∑ ω, ∑ i ∈ range d.toNat, (alpha * ∑ j ∈ range m.toNat, opMat op (subMat ro co (A ω)) i j * x j) ^ 2) / Fintype.card (ZMod N × ZMod L → W) =
      v * ∑ j ∈ range m.toNat, x j ^ 2 ∧
    (∑ ω, (∑ i ∈ range d.toNat, (alpha * ∑ j ∈ range m.toNat, opMat op (subMat ro co (A ω)) i j * x j) ^ 2 - ∑ j ∈ range m.toNat, x j ^ 2) ^ 2) /
      Fintype.card (ZMod N × ZMod L → W) ≤ (w * (1 + 2 / d) - 2 * v + 1) * (∑ j ∈ range m.toNat, x j ^ 2) ^ 2 := by
  have hL' : L = 2 ∨ L = 4 := by rcases hG with h | h <;> omega
  have hcnt := counters_le hL' hD hN
  obtain ⟨hR, hC, hfit, hlay⟩ := denseDist_facts hD
  have hCard : (0 : ℝ) < Fintype.card (ZMod N × ZMod L → W) := by exact_mod_cast Fintype.card_pos
  obtain ⟨d', rfl⟩ : ∃ d' : Nat, d = d' := ⟨d.toNat, by omega⟩
  obtain ⟨m', rfl⟩ : ∃ m' : Nat, m = m' := ⟨m.toNat, by omega⟩
  have hd' : (0 : ℝ) < d' := by exact_mod_cast hd
  -- row and column of an entry of the operator
  let ri : Nat → Nat → Int := fun i j => match op with | .NoTrans => ro + i | .Trans => ro + j
  let ci : Nat → Nat → Int := fun i j => match op with | .NoTrans => co + j | .Trans => co + i
  have hrc : ∀ i < d', ∀ j < m', InR D.nRows D.nCols (ri i j) (ci i j) := by
    intro i hi j hj
    obtain ⟨h1, h2, h3, h4⟩ := hin
    simp only [ri, ci]
    cases op <;> simp only [rowsOf, colsOf] at h3 h4 <;> refine ⟨?_, ?_, ?_, ?_⟩ <;> dsimp only <;> omega
  let vec : Nat → Nat → Int := fun i j => match D.naturalLayout with | .ColMajor => ci i j | .RowMajor => ri i j
  let off : Nat → Nat → Int := fun i j => match D.naturalLayout with | .ColMajor => ri i j | .RowMajor => ci i j
  have hent : ∀ ω, ∀ i < d', ∀ j < m', opMat op (subMat ro co (A ω)) (i : Int) (j : Int) = rawE G D.family D.dimMajor seed ω (vec i j) (off i j) := by
    intro ω i hi j hj
    have h1 : opMat op (subMat ro co (A ω)) (i : Int) (j : Int) = A ω (ri i j) (ci i j) := by
      simp only [ri, ci]; cases op <;> rfl
    rw [h1, samples_unique (G := fromWords G ω) hG hD (hA ω) (hrc i hi j hj)]
    simp only [vec, off, rawE, denseEntry]
    cases D.naturalLayout <;> rfl
  have hpos : ∀ i < d', ∀ j < m', (0 ≤ vec i j ∧ vec i j < D.dimMinor) ∧ (0 ≤ off i j ∧ off i j < D.dimMajor) := by
    intro i hi j hj
    obtain ⟨h1, h2, h3, h4⟩ := hrc i hi j hj
    simp only [vec, off]
    rcases hlay with ⟨a, b, c⟩ | ⟨a, b, c⟩ <;> rw [a, b, c]
    · exact ⟨⟨h3, h4⟩, h1, h2⟩
    · exact ⟨⟨h1, h2⟩, h3, h4⟩
  have hinj : ∀ i < d', ∀ j < m', ∀ i' < d', ∀ j' < m', vec i' j' = vec i j → off i' j' = off i j → i' = i ∧ j' = j := by
    intro i _ j _ i' _ j' _ h1 h2
    simp only [vec, off, ri, ci] at h1 h2
    rcases hlay with ⟨a, -, -⟩ | ⟨a, -, -⟩ <;> rw [a] at h1 h2 <;> cases op <;> simp only at h1 h2 <;> omega
  obtain ⟨e1, e2⟩ := dense_second (G := G) (family := D.family) (seed := seed) (r := D.dimMinor) (M := D.dimMajor) hL' hL hsym hv hw hvw hcnt vec off hpos hinj fun j => x j
  have hsum : ∀ ω, ∑ i ∈ range d', (alpha * ∑ j ∈ range m', opMat op (subMat ro co (A ω)) (i : Int) (j : Int) * x j) ^ 2 =
      1 / d' * ∑ i ∈ range d', (∑ j ∈ range m', rawE G D.family D.dimMajor seed ω (vec i j) (off i j) * x j) ^ 2 := by
    intro ω
    rw [mul_sum]
    refine sum_congr rfl fun i hi => ?_
    rw [mul_pow, sq alpha, hal, Int.cast_natCast]
    congr 2
    exact sum_congr rfl fun j hj => by rw [hent ω i (mem_range.mp hi) j (mem_range.mp hj)]
  simp only [Int.toNat_natCast, hsum]
  constructor
  · rw [← mul_sum, e1]
    field_simp
  · have hexp : ∀ ω : ZMod N × ZMod L → W, (1 / (d' : ℝ) * ∑ i ∈ range d', (∑ j ∈ range m', rawE G D.family D.dimMajor seed ω (vec i j) (off i j) * x j) ^ 2 - ∑ j ∈ range m', x j ^ 2) ^ 2 =
        1 / (d' : ℝ) ^ 2 * (∑ i ∈ range d', (∑ j ∈ range m', rawE G D.family D.dimMajor seed ω (vec i j) (off i j) * x j) ^ 2) ^ 2 -
        (2 / d' * ∑ j ∈ range m', x j ^ 2) * ∑ i ∈ range d', (∑ j ∈ range m', rawE G D.family D.dimMajor seed ω (vec i j) (off i j) * x j) ^ 2 +
        (∑ j ∈ range m', x j ^ 2) ^ 2 := by
      intro ω; field_simp; ring
    simp only [hexp]
    rw [sum_add_distrib, sum_sub_distrib, ← mul_sum, ← mul_sum, e1, sum_const, card_univ, nsmul_eq_mul, div_le_iff₀ hCard]
    have e3 := mul_le_mul_of_nonneg_left e2 (show 0 ≤ 1 / (d' : ℝ) ^ 2 by positivity)
    have e4 : 1 / (d' : ℝ) ^ 2 * (Fintype.card (ZMod N × ZMod L → W) * (((d' : ℝ) ^ 2 + 2 * d') * w * (∑ j ∈ range m', x j ^ 2) ^ 2)) =
        Fintype.card (ZMod N × ZMod L → W) * (w * (1 + 2 / d') * (∑ j ∈ range m', x j ^ 2) ^ 2) := by field_simp
    have e5 : (2 / (d' : ℝ) * ∑ j ∈ range m', x j ^ 2) * (Fintype.card (ZMod N × ZMod L → W) * (d' * v * ∑ j ∈ range m', x j ^ 2)) =
        Fintype.card (ZMod N × ZMod L → W) * (2 * v * (∑ j ∈ range m', x j ^ 2) ^ 2) := by field_simp
    rw [e4] at e3
    rw [e5]
    push_cast
    nlinarith

theorem sum_odd_fourth (M : Nat) : ∑ j ∈ range M, (2 * (j : ℝ) + 1 - M) ^ 4 = (M : ℝ) * (3 * (M : ℝ) ^ 4 - 10 * (M : ℝ) ^ 2 + 7) / 15 := by
  have h : ∀ (m : Nat) (c : ℝ), ∑ j ∈ range m, (2 * (j : ℝ) + 1 - c) ^ 4 = m * (48 * (m : ℝ) ^ 4 - 40 * (m : ℝ) ^ 2 + 7) / 15 -
      4 * c * ((m : ℝ) ^ 2 * (2 * (m : ℝ) ^ 2 - 1)) + 6 * c ^ 2 * (m * (4 * (m : ℝ) ^ 2 - 1) / 3) - 4 * c ^ 3 * (m : ℝ) ^ 2 + m * c ^ 4 := by
    intro m c
    induction m with
    | zero => simp
    | succ m ih => rw [sum_range_succ, ih]; push_cast; ring
  rw [h]; ring

/-- C82 (uniform family). If the uniform values are the midpoints of `M` equal intervals of [-1, 1], one for each word, the fourth moments are bounded by the square of
the mean square `1 - 1/M²`. -/
theorem C82_uniform_words [Fintype W] {G : Gen N K W ℝ} {Mw : Nat} (hM : 0 < Mw) (e : W ≃ Fin Mw)
    (hmid : ∀ w, (G.uneg11 w + 1) / 2 = (((e w : Nat) : ℝ) + 1 / 2) / Mw) : FourthMoments G .Uniform ((1 - 1 / (Mw : ℝ) ^ 2) ^ 2) := by
  have hM' : (0 : ℝ) < Mw := by exact_mod_cast hM
  have hM1 : (1 : ℝ) ≤ Mw := by exact_mod_cast hM
  have hcard : Fintype.card W = Mw := by rw [Fintype.card_congr e, Fintype.card_fin]
  have hval : ∀ w, (Real.sqrt 3 * G.uneg11 w) ^ 4 = 9 / (Mw : ℝ) ^ 4 * (2 * ((e w : Nat) : ℝ) + 1 - Mw) ^ 4 := by
    intro w
    have h1 : G.uneg11 w = (2 * ((e w : Nat) : ℝ) + 1 - Mw) / Mw := by
      have := hmid w
      field_simp at this ⊢
      linarith
    have h3 : Real.sqrt 3 ^ 4 = 9 := by
      rw [show 4 = 2 * 2 by rfl, pow_mul, Real.sq_sqrt (by norm_num)]; norm_num
    rw [mul_pow, h3, h1, div_pow]; ring
  show (∑ w, (Real.sqrt 3 * G.uneg11 w) ^ 4) / (Fintype.card W : ℝ) ≤ _
  simp only [hval]
  rw [← mul_sum, hcard, Equiv.sum_comp e fun j : Fin Mw => (2 * ((j : Nat) : ℝ) + 1 - Mw) ^ 4,
    Fin.sum_univ_eq_sum_range (fun j => (2 * (j : ℝ) + 1 - Mw) ^ 4) Mw, sum_odd_fourth]
  have h4 : (1 : ℝ) ≤ (Mw : ℝ) ^ 4 := one_le_pow₀ hM1
  rw [← sub_nonneg]
  have : 3 * (1 - 1 / (Mw : ℝ) ^ 2) ^ 2 - 9 / (Mw : ℝ) ^ 4 * ((Mw : ℝ) * (3 * (Mw : ℝ) ^ 4 - 10 * (Mw : ℝ) ^ 2 + 7) / 15) / Mw = 6 / 5 * ((Mw : ℝ) ^ 4 - 1) / (Mw : ℝ) ^ 4 := by
    field_simp; ring
  rw [this]
  exact div_nonneg (by linarith) (by positivity)

/-- C82 (Gaussian family). The exact Box-Muller transform with the midpoints of `M` equal intervals of [-1, 1] as angles (`8` divides `M`) and the midpoints of
`M` equal intervals of [0, 1] in the radius `sqrt (-2 log u)`: the fourth moments are at most those of the normal distribution, and the mean square lies between
`1 - (2 + log (2 M)) / (2 M)` and `1`. -/
theorem C82_gaussian_words [Fintype W] {G : Gen N K W ℝ} {u r : W → ℝ} {m : Nat} (hm : 0 < m) (e e' : W ≃ Fin (4 * (2 * m))) (hbm : IsBoxMuller G u r)
    (hmid : ∀ w, (u w + 1) / 2 = (((e w : Nat) : ℝ) + 1 / 2) / (4 * (2 * m) : Nat))
    (hr : ∀ w, r w = Real.sqrt (-2 * Real.log ((((e' w : Nat) : ℝ) + 1 / 2) / (4 * (2 * m) : Nat)))) :
    ∃ v, MeanSquare G .Gaussian v ∧ FourthMoments G .Gaussian 1 ∧ v ≤ 1 ∧ 1 - (2 + Real.log (2 * (4 * (2 * m) : Nat))) / (2 * (4 * (2 * m) : Nat)) ≤ v := by
  obtain ⟨-, hms⟩ := C61_gaussian_words (G := G) (m := 2 * m) (by omega) e hbm hmid
  have hm' : (0 : ℝ) < m := by exact_mod_cast hm
  have hM : 0 < 4 * (2 * m) := by omega
  have hM' : (0 : ℝ) < ((4 * (2 * m) : Nat) : ℝ) := by exact_mod_cast hM
  have hcard : Fintype.card W = 4 * (2 * m) := by rw [Fintype.card_congr e, Fintype.card_fin]
  have hlog : ∀ w, 0 ≤ -2 * Real.log ((((e' w : Nat) : ℝ) + 1 / 2) / (4 * (2 * m) : Nat)) := by
    intro w
    have h1 : ((e' w : Nat) : ℝ) + 1 ≤ (4 * (2 * m) : Nat) := by exact_mod_cast (e' w).2
    have := Real.log_nonpos (x := (((e' w : Nat) : ℝ) + 1 / 2) / (4 * (2 * m) : Nat)) (by positivity) (by rw [div_le_one hM']; linarith)
    linarith
  have hr2 : ∀ w, r w ^ 2 = 2 * -Real.log ((((e' w : Nat) : ℝ) + 1 / 2) / (4 * (2 * m) : Nat)) := by
    intro w; rw [hr, Real.sq_sqrt (hlog w)]; ring
  have hs2 : ∑ w, r w ^ 2 = 2 * ∑ j ∈ range (4 * (2 * m)), -Real.log (((j : ℝ) + 1 / 2) / (4 * (2 * m) : Nat)) := by
    simp only [hr2]
    rw [← mul_sum, Equiv.sum_comp e' fun j : Fin (4 * (2 * m)) => -Real.log ((((j : Nat) : ℝ) + 1 / 2) / (4 * (2 * m) : Nat)),
      Fin.sum_univ_eq_sum_range (fun j => -Real.log (((j : ℝ) + 1 / 2) / (4 * (2 * m) : Nat))) (4 * (2 * m))]
  have hs4 : ∑ w, r w ^ 4 ≤ 8 * (4 * (2 * m) : Nat) := by
    have h4 : ∀ w, r w ^ 4 = 4 * Real.log ((((e' w : Nat) : ℝ) + 1 / 2) / (4 * (2 * m) : Nat)) ^ 2 := by
      intro w; rw [show r w ^ 4 = (r w ^ 2) ^ 2 by ring, hr2]; ring
    simp only [h4]
    rw [← mul_sum, Equiv.sum_comp e' fun j : Fin (4 * (2 * m)) => Real.log ((((j : Nat) : ℝ) + 1 / 2) / (4 * (2 * m) : Nat)) ^ 2,
      Fin.sum_univ_eq_sum_range (fun j => Real.log (((j : ℝ) + 1 / 2) / (4 * (2 * m) : Nat)) ^ 2) (4 * (2 * m))]
    have := mean_log_sq_le hM
    rw [div_le_iff₀ hM'] at this
    linarith
  have hv : (∑ w, r w ^ 2) / (2 * (4 * (2 * m) : Nat)) = (∑ j ∈ range (4 * (2 * m)), -Real.log (((j : ℝ) + 1 / 2) / (4 * (2 * m) : Nat))) / (4 * (2 * m) : Nat) := by
    rw [hs2]
    exact mul_div_mul_left _ _ two_ne_zero
  refine ⟨_, hms, ?_, ?_, ?_⟩
  · -- the angles
    have hu : ∀ w, u w = (2 * ((e w : Nat) : ℝ) + 1 - 8 * m) / (8 * m) := by
      intro w
      have := hmid w
      push_cast at this
      field_simp at this ⊢
      linarith
    let a : Nat → ℝ := fun j => Real.pi * ((2 * (j : ℝ) + 1 - 8 * m) / (8 * m))
    have hperiod : ∀ j, a (j + 4 * (2 * m)) = a j + 2 * Real.pi := by
      intro j; simp only [a]; push_cast; field_simp; ring
    have hquarter : ∀ j, a (j + 2 * m) = a j + Real.pi / 2 := by
      intro j; simp only [a]; push_cast; field_simp; ring
    have hS : ∀ g : ℝ → ℝ, ∑ w, g (Real.pi * u w) = ∑ j ∈ range (4 * (2 * m)), g (a j) := by
      intro g
      simp only [hu]
      rw [Equiv.sum_comp e fun j : Fin (4 * (2 * m)) => g (a j), Fin.sum_univ_eq_sum_range (fun j => g (a j)) (4 * (2 * m))]
    have heighth : ∀ j, a (j + m) = a j + Real.pi / 4 := by
      intro j; simp only [a]; push_cast; field_simp; ring
    -- sine and cosine squared, and their product
    have hss : ∑ j ∈ range (4 * (2 * m)), Real.sin (2 * a j) ^ 2 = 4 * m := by
      have h1 : ∑ j ∈ range (4 * (2 * m)), Real.cos (2 * a j) ^ 2 = ∑ j ∈ range (4 * (2 * m)), Real.sin (2 * a j) ^ 2 := by
        rw [← periodic_sum (fun j => Real.sin (2 * a j) ^ 2) (4 * (2 * m)) (fun j => by
          rw [hperiod, show 2 * (a j + 2 * Real.pi) = 2 * a j + 2 * Real.pi + 2 * Real.pi by ring, Real.sin_add_two_pi, Real.sin_add_two_pi]) m]
        refine sum_congr rfl fun j _ => ?_
        rw [heighth, show 2 * (a j + Real.pi / 4) = 2 * a j + Real.pi / 2 by ring, Real.sin_add_pi_div_two]
      have h2 : ∑ j ∈ range (4 * (2 * m)), Real.sin (2 * a j) ^ 2 + ∑ j ∈ range (4 * (2 * m)), Real.cos (2 * a j) ^ 2 = 8 * m := by
        rw [← sum_add_distrib]
        simp only [Real.sin_sq_add_cos_sq, sum_const, card_range, nsmul_eq_mul, mul_one]
        push_cast; ring
      linarith
    have hsc : ∑ w, Real.sin (Real.pi * u w) ^ 2 * Real.cos (Real.pi * u w) ^ 2 = m := by
      rw [hS fun t => Real.sin t ^ 2 * Real.cos t ^ 2]
      have : ∀ j, Real.sin (a j) ^ 2 * Real.cos (a j) ^ 2 = 1 / 4 * Real.sin (2 * a j) ^ 2 := by
        intro j; rw [Real.sin_two_mul]; ring
      simp only [this]
      rw [← mul_sum, hss]; ring
    have hsq : ∑ j ∈ range (4 * (2 * m)), Real.cos (a j) ^ 2 = ∑ j ∈ range (4 * (2 * m)), Real.sin (a j) ^ 2 := by
      rw [← periodic_sum (fun j => Real.sin (a j) ^ 2) (4 * (2 * m)) (fun j => by rw [hperiod, Real.sin_add_two_pi]) (2 * m)]
      refine sum_congr rfl fun j _ => ?_
      rw [hquarter, Real.sin_add_pi_div_two]
    have hone : ∑ j ∈ range (4 * (2 * m)), Real.sin (a j) ^ 2 + ∑ j ∈ range (4 * (2 * m)), Real.cos (a j) ^ 2 = 8 * m := by
      rw [← sum_add_distrib]
      simp only [Real.sin_sq_add_cos_sq, sum_const, card_range, nsmul_eq_mul, mul_one]
      push_cast; ring
    have hs4' : ∑ w, Real.sin (Real.pi * u w) ^ 4 = 3 * m := by
      have : ∀ w, Real.sin (Real.pi * u w) ^ 4 = Real.sin (Real.pi * u w) ^ 2 - Real.sin (Real.pi * u w) ^ 2 * Real.cos (Real.pi * u w) ^ 2 := by
        intro w; have := Real.sin_sq_add_cos_sq (Real.pi * u w); rw [show Real.cos (Real.pi * u w) ^ 2 = 1 - Real.sin (Real.pi * u w) ^ 2 by linarith]; ring
      simp only [this]
      rw [sum_sub_distrib, hsc, hS fun t => Real.sin t ^ 2]
      linarith
    have hc4' : ∑ w, Real.cos (Real.pi * u w) ^ 4 = 3 * m := by
      have : ∀ w, Real.cos (Real.pi * u w) ^ 4 = Real.cos (Real.pi * u w) ^ 2 - Real.sin (Real.pi * u w) ^ 2 * Real.cos (Real.pi * u w) ^ 2 := by
        intro w; have := Real.sin_sq_add_cos_sq (Real.pi * u w); rw [show Real.sin (Real.pi * u w) ^ 2 = 1 - Real.cos (Real.pi * u w) ^ 2 by linarith]; ring
      simp only [this]
      rw [sum_sub_distrib, hsc, hS fun t => Real.cos t ^ 2]
      linarith
    have hb1 : ∀ x y, (G.boxmuller x y).1 ^ 4 = Real.sin (Real.pi * u x) ^ 4 * r y ^ 4 := by intro x y; rw [hbm]; ring
    have hb2 : ∀ x y, (G.boxmuller x y).2 ^ 4 = Real.cos (Real.pi * u x) ^ 4 * r y ^ 4 := by intro x y; rw [hbm]; ring
    have hb3 : ∀ x y, (G.boxmuller x y).1 ^ 2 * (G.boxmuller x y).2 ^ 2 = (Real.sin (Real.pi * u x) ^ 2 * Real.cos (Real.pi * u x) ^ 2) * r y ^ 4 := by
      intro x y; rw [hbm]; ring
    show (∑ x, ∑ y, (G.boxmuller x y).1 ^ 4) / (Fintype.card W : ℝ) ^ 2 ≤ 3 * 1 ∧ (∑ x, ∑ y, (G.boxmuller x y).2 ^ 4) / (Fintype.card W : ℝ) ^ 2 ≤ 3 * 1 ∧
      (∑ x, ∑ y, (G.boxmuller x y).1 ^ 2 * (G.boxmuller x y).2 ^ 2) / (Fintype.card W : ℝ) ^ 2 ≤ 1
    simp only [hb1, hb2, hb3, ← mul_sum, ← sum_mul, hs4', hc4', hsc, hcard]
    have hp := mul_le_mul_of_nonneg_left hs4 hm'.le
    push_cast at hp ⊢
    refine ⟨?_, ?_, ?_⟩ <;> rw [div_le_iff₀ (by positivity)] <;> nlinarith
  · rw [hv]; exact mean_neg_log_le hM
  · rw [hv]; exact le_mean_neg_log hM

/-- C82 (distortion, uniform family). With the assumptions of `C82_uniform_words`, `‖alpha * op(X) x‖²` differs from `‖x‖²` by more than `ε ‖x‖²` for at most a
fraction `(2/d + 1/M⁴) / ε²` of the choices of the words. -/
theorem C82_distortion_uniform [NeZero N] [Fintype W] [Nonempty W] {L : Nat} [NeZero L] {G : Gen N K W ℝ} {D : DenseDist} {seed : RNGState N K}
    (hG : G.Ok) (hL : G.len = L) (hD : DenseDistOk D) (hN : D.nRows * D.nCols ≤ N) (hfam : D.family = .Uniform) {Mw : Nat} (e : W ≃ Fin Mw)
    (hmid : ∀ w, (G.uneg11 w + 1) / 2 = (((e w : Nat) : ℝ) + 1 / 2) / Mw) {A : (ZMod N × ZMod L → W) → Int → Int → ℝ}
    (hA : ∀ ω, Samples (fromWords G ω) (Real.sqrt 3) D seed (A ω)) {op : Op} {d m ro co : Int} (hd : 0 < d) (hm : 0 ≤ m)
    (hin : InOp D.nRows D.nCols (rowsOf op d m) (colsOf op d m) ro co) {alpha : ℝ} (hal : alpha * alpha = 1 / d) (x : Int → ℝ) {ε : ℝ} (hε : 0 < ε) :
    ((univ.filter fun ω => ε * ∑ j ∈ range m.toNat, x j ^ 2 <
        |∑ i ∈ range d.toNat, (alpha * ∑ j ∈ range m.toNat, opMat op (subMat ro co (A ω)) i j * x j) ^ 2 - ∑ j ∈ range m.toNat, x j ^ 2|).card : ℝ) /
      Fintype.card (ZMod N × ZMod L → W) ≤ (2 / d + 1 / (Mw : ℝ) ^ 4) / ε ^ 2 := by
  have hM : 0 < Mw := by
    obtain ⟨w⟩ := ‹Nonempty W›
    exact (e w).pos
  have hM' : (0 : ℝ) < Mw := by exact_mod_cast hM
  have hM1 : (1 : ℝ) ≤ Mw := by exact_mod_cast hM
  have hd' : (0 : ℝ) < d := by exact_mod_cast hd
  let τ : W → W := fun w => e.symm (Fin.rev (e w))
  have hτ : Function.Involutive τ := fun w => by simp [τ]
  have hneg : ∀ w, G.uneg11 (τ w) = -G.uneg11 w := by
    intro w
    have h1 := hmid w
    have h2 := hmid (τ w)
    simp only [τ, Equiv.apply_symm_apply, Fin.val_rev] at h2
    rw [Nat.cast_sub (by have := (e w).2; omega)] at h2
    push_cast at h2
    field_simp at h1 h2
    simp only [τ]
    nlinarith
  have key := (C82_moments (τ0 := τ) (τ1 := τ) (v := 1 - 1 / (Mw : ℝ) ^ 2) (w := (1 - 1 / (Mw : ℝ) ^ 2) ^ 2) hG hL hD hN
    ⟨hτ, hτ, fun _ w => ⟨hneg w, hneg w⟩, fun h => absurd (hfam.symm.trans h) (by simp)⟩ (by rw [hfam]; exact C61_uniform_mean_square hM e hmid)
    (by rw [hfam]; exact C82_uniform_words hM e hmid) le_rfl hA hd hm hin hal x).2
  refine fraction_le _ (sum_nonneg fun j _ => sq_nonneg _) (by positivity) hε (key.trans (mul_le_mul_of_nonneg_right ?_ (sq_nonneg _)))
  have h1 : 0 ≤ 1 / (Mw : ℝ) ^ 2 := by positivity
  have h2 : 1 / (Mw : ℝ) ^ 2 ≤ 1 := by rw [div_le_one (by positivity)]; exact one_le_pow₀ hM1
  have h3 : 1 / (Mw : ℝ) ^ 4 = (1 / (Mw : ℝ) ^ 2) ^ 2 := by rw [div_pow, one_pow, ← pow_mul]
  rw [h3]
  have h4 : (1 - 1 / (Mw : ℝ) ^ 2) ^ 2 ≤ 1 := pow_le_one₀ (by linarith) (by linarith)
  have h5 := mul_le_mul_of_nonneg_right h4 (show 0 ≤ 2 / (d : ℝ) by positivity)
  nlinarith

/-- C82 (distortion, Gaussian family). With the assumptions of `C82_gaussian_words`, `‖alpha * op(X) x‖²` differs from `‖x‖²` by more than `ε ‖x‖²` for at most a
fraction `(2/d + (2 + log (2 M)) / M) / ε²` of the choices of the words. -/
theorem C82_distortion_gaussian [NeZero N] [Fintype W] [Nonempty W] {L : Nat} [NeZero L] {G : Gen N K W ℝ} {D : DenseDist} {seed : RNGState N K}
    (hG : G.Ok) (hL : G.len = L) (hD : DenseDistOk D) (hN : D.nRows * D.nCols ≤ N) (hfam : D.family = .Gaussian) {u r : W → ℝ} {m8 Mw : Nat} (hm8 : 0 < m8)
    (hMw : Mw = 4 * (2 * m8)) (e e' : W ≃ Fin Mw) (hbm : IsBoxMuller G u r) (hmid : ∀ w, (u w + 1) / 2 = (((e w : Nat) : ℝ) + 1 / 2) / Mw)
    (hr : ∀ w, r w = Real.sqrt (-2 * Real.log ((((e' w : Nat) : ℝ) + 1 / 2) / Mw))) {A : (ZMod N × ZMod L → W) → Int → Int → ℝ}
    (hA : ∀ ω, Samples (fromWords G ω) (Real.sqrt 3) D seed (A ω)) {op : Op} {d m ro co : Int} (hd : 0 < d) (hm : 0 ≤ m)
    (hin : InOp D.nRows D.nCols (rowsOf op d m) (colsOf op d m) ro co) {alpha : ℝ} (hal : alpha * alpha = 1 / d) (x : Int → ℝ) {ε : ℝ} (hε : 0 < ε) :
    ((univ.filter fun ω => ε * ∑ j ∈ range m.toNat, x j ^ 2 <
        |∑ i ∈ range d.toNat, (alpha * ∑ j ∈ range m.toNat, opMat op (subMat ro co (A ω)) i j * x j) ^ 2 - ∑ j ∈ range m.toNat, x j ^ 2|).card : ℝ) /
      Fintype.card (ZMod N × ZMod L → W) ≤ (2 / d + (2 + Real.log (2 * Mw)) / Mw) / ε ^ 2 := by
  subst hMw
  have hd' : (0 : ℝ) < d := by exact_mod_cast hd
  have hM1 : (1 : ℝ) ≤ (4 * (2 * m8) : Nat) := by exact_mod_cast (by omega : 1 ≤ 4 * (2 * m8))
  obtain ⟨⟨τ0, τ1, hsym⟩, -⟩ := C61_gaussian_words (G := G) (m := 2 * m8) (by omega) e hbm hmid
  obtain ⟨v, hv, hw, hv1, hv2⟩ := C82_gaussian_words (G := G) hm8 e e' hbm hmid hr
  have hlog : 0 ≤ Real.log (2 * (4 * (2 * m8) : Nat)) := Real.log_nonneg (by linarith)
  have hlow : 0 ≤ v := by
    obtain ⟨h1, -⟩ := hv
    rw [← h1]
    exact div_nonneg (sum_nonneg fun _ _ => sum_nonneg fun _ _ => sq_nonneg _) (sq_nonneg _)
  have key := (C82_moments (v := v) (w := 1) hG hL hD hN (by rw [hfam]; exact hsym) (by rw [hfam]; exact hv) (by rw [hfam]; exact hw)
    (pow_le_one₀ hlow hv1) hA hd hm hin hal x).2
  refine fraction_le _ (sum_nonneg fun j _ => sq_nonneg _) (by positivity) hε (key.trans (mul_le_mul_of_nonneg_right ?_ (sq_nonneg _)))
  have h3 : (2 + Real.log (2 * (4 * (2 * m8) : Nat))) / (4 * (2 * m8) : Nat) = 2 * ((2 + Real.log (2 * (4 * (2 * m8) : Nat))) / (2 * (4 * (2 * m8) : Nat))) := by
    field_simp
  rw [h3]
  linarith

/-- The hypotheses are met by the generator `midGenR` of 32-bit words with exact conversions, a 2 x 5 Gaussian and a 2 x 5 uniform operator and their windows
of columns 1 to 4. -/
example : midGenR.Ok ∧ midGenR.len = (4 : Nat) ∧ 4 * 2 ^ 30 = 4 * (2 * 2 ^ 29) ∧
    (∀ w, (midGenR.uneg11 w + 1) / 2 = ((((Equiv.refl (Fin (4 * 2 ^ 30))) w : Nat) : ℝ) + 1 / 2) / (4 * 2 ^ 30 : Nat)) ∧
    IsBoxMuller midGenR midGenR.uneg11 (fun w => Real.sqrt (-2 * Real.log ((((w : Nat) : ℝ) + 1 / 2) / (4 * 2 ^ 30 : Nat)))) ∧
    DenseDistOk exGauss ∧ exGauss.nRows * exGauss.nCols ≤ ((2 ^ 128 : Nat) : Int) ∧ exGauss.family = .Gaussian ∧
    DenseDistOk exUnif ∧ exUnif.nRows * exUnif.nCols ≤ ((2 ^ 128 : Nat) : Int) ∧ exUnif.family = .Uniform ∧
    InOp exGauss.nRows exGauss.nCols (rowsOf .NoTrans 2 4) (colsOf .NoTrans 2 4) 0 1 ∧ exGauss.isometryScale * exGauss.isometryScale = (1 : ℝ) / (2 : Int) ∧
    ∀ ω : ZMod (2 ^ 128) × ZMod 4 → Fin (4 * 2 ^ 30), Samples (fromWords midGenR ω) (Real.sqrt 3) exGauss ⟨0, 7⟩ (denseEntry (fromWords midGenR ω) (Real.sqrt 3) exGauss ⟨0, 7⟩) :=
  ⟨Or.inr rfl, rfl, by norm_num, fun w => by simp only [midGenR, Equiv.refl_apply]; ring, fun _ _ => rfl, ⟨by decide, by decide⟩, by decide, rfl,
    ⟨by decide, by decide⟩, by decide, rfl, by unfold InOp; decide, rpow_neg_half_sq (by norm_num [exGauss]), fun ω => samples_denseEntry (G := fromWords midGenR ω) (Or.inr rfl) ⟨by decide, by decide⟩⟩

end RB
