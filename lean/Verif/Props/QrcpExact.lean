import Verif.Model.ExQrcpRun
import Verif.Lemmas.PairsRank
import Verif.Props.FullRank
import Verif.Props.PowIter

/-!
# C123: the pivoted QR program

The program needs a random matrix whose product with the data has independent rows. Every matrix of rank at least `k` gives such a product, except for a small fraction of the words.
The program reads the sampled array in another layout than the one in which it was sampled, so the two numbers of a pair that is made by the transformation of Box and Muller are
entries of different rows; the argument of C121 does not apply.
-/

namespace RB
open Spec Finset
variable {N : Nat} {K W WS R T : Type}

/-- A pair made from two words satisfies an equation `a + b x + c y + d x y = 0` with probability at most `p`. -/
def Spec.SpreadPairs [Fintype W] (G : Gen N K W ℝ) (p : ℝ) : Prop :=
  ∀ a b c d : ℝ, ¬ (a = 0 ∧ b = 0 ∧ c = 0 ∧ d = 0) →
    Pr (fun w : W × W => a + b * (G.boxmuller w.1 w.2).1 + c * (G.boxmuller w.1 w.2).2 + d * ((G.boxmuller w.1 w.2).1 * (G.boxmuller w.1 w.2).2) = 0) ≤ p

/-! ## The sample -/

/-- The sampled array: number `f` is entry `f % m` of vector `f / m`. -/
theorem qbFill_flat [Mul T] {sched : List Nat} {G : Gen N K W T} (hG : G.Ok) {sqrt3 : T} {k m : Int} (hk : 1 ≤ k) (hkm : k ≤ m) (hfit : k * m ≤ intMax 64) (seed : RNGState N K) :
    Fills (k * m) (fun f => denseRaw G .Gaussian m seed (f / m) (f % m)) (qbFill sched G sqrt3 k m seed) := by
  intro v hv
  have hDD := mkDenseDist_eq (r := k) (c := m) (fam := .Gaussian) (ax := .Long) (by omega) (by omega)
  obtain ⟨D, hD⟩ : ∃ D, mkDenseDist k m .Gaussian .Long = .ok D := ⟨_, hDD⟩
  have hDok := denseDistOk_of_mk hD hfit
  obtain ⟨h1, h2, h3, h4, h5⟩ : D.nRows = k ∧ D.nCols = m ∧ D.family = .Gaussian ∧ D.dimMajor = m ∧ D.naturalLayout = naturalLayout .Long k m := by
    rw [hDD] at hD; cases hD
    exact ⟨rfl, rfl, rfl, by simp [hkm], rfl⟩
  unfold qbFill
  rw [M.wp_bind, M.wp_lift]
  refine ⟨D, hD, ?_⟩
  rw [M.wp_bind]
  unfold fillDense
  refine M.wp_mono (fillUnpacked_spec hG hDok (by omega) (by omega) (le_refl 0) (le_refl 0) (by omega) (by omega) (by rw [h1, h2]; exact hv)) ?_
  rintro s b' ⟨g1, g2, -⟩
  rw [M.wp_pure]
  rw [h1, h2] at g1
  rw [h1, h2] at g2
  refine ⟨fun f f0 f1 => ?_, fun f hf => g2 f (by omega)⟩
  have hm : 0 < m := by omega
  have hq0 : 0 ≤ f / m := Int.ediv_nonneg f0 hm.le
  have hq1 : f / m < k := Int.ediv_lt_of_lt_mul hm f1
  have hp0 := Int.emod_nonneg f hm.ne'
  have hp1 := Int.emod_lt_of_pos f hm
  have hf := Int.emod_add_mul_ediv f m
  by_cases hlt : k < m
  · have hl : D.naturalLayout = .RowMajor := by rw [h5]; simp [naturalLayout, hlt]
    have := g1 (f / m) (f % m) ⟨hq0, hq1, hp0, hp1⟩
    rw [hl] at this
    simp only [addr, tightLd, add_zero, denseEntry, hl, h3, h4, famScale] at this
    rw [← this]
    congr 1
    rw [mul_comm]
    omega
  · obtain rfl : k = m := by omega
    have hl : D.naturalLayout = .ColMajor := by rw [h5]; simp [naturalLayout]
    have := g1 (f % k) (f / k) ⟨hp0, hp1, hq0, hq1⟩
    rw [hl] at this
    simp only [addr, tightLd, add_zero, denseEntry, hl, h3, h4, famScale] at this
    rw [← this]
    congr 1
    rw [mul_comm (f / k)]
    exact hf.symm

section
variable [NeZero N] [Fintype W] [Nonempty W] {L : Nat} [NeZero L] {G : Gen N K W ℝ} {seed : RNGState N K}

/-- Pair `t` of vector `q`. -/
def pairOf (G : Gen N K W ℝ) (seed : RNGState N K) (c : Int) (ω : ZMod N × ZMod L → W) (q t : Int) : ℝ × ℝ :=
  G.boxmuller (ω (seed.counter + ((q * c + 2 * t / L : Int) : ZMod N), ((2 * ((2 * t % L) / 2) : Int) : ZMod L)))
    (ω (seed.counter + ((q * c + 2 * t / L : Int) : ZMod N), ((2 * ((2 * t % L) / 2) + 1 : Int) : ZMod L)))

omit [NeZero N] [Fintype W] [Nonempty W] [NeZero L] in
theorem denseRaw_pair (hL : L = 2 ∨ L = 4) (hG : G.len = L) (m : Int) (ω : ZMod N × ZMod L → W) (q p : Int) :
    denseRaw (fromWords G ω) .Gaussian m seed q p =
      if p % 2 = 0 then (pairOf G seed (countersPerVector L m) ω q (p / 2)).1 else (pairOf G seed (countersPerVector L m) ω q (p / 2)).2 := by
  have h1 : 2 * (p / 2) / (L : Int) = p / L := by rcases hL with rfl | rfl <;> push_cast <;> omega
  have h2 : 2 * (p / 2) % (L : Int) / 2 = p % L / 2 := by rcases hL with rfl | rfl <;> push_cast <;> omega
  have h3 : p % (L : Int) % 2 = p % 2 := by rcases hL with rfl | rfl <;> push_cast <;> omega
  simp only [denseRaw, genValue, fromWords, hG, pairOf, h1, h2, h3]

/-- The product of the sampled array, read column by column, with a matrix of rank at least `k`. -/
theorem flat_rank (hG : G.Ok) (hL : G.len = L) {p : ℝ} (hs : SpreadPairs G p) {k m n : Int} (hk : 1 ≤ k) (hkm : k ≤ m) (hN : k * m ≤ N) (A : Int → Int → ℝ)
    (hA : k ≤ rankOf m n A) :
    Pr (fun ω : ZMod N × ZMod L → W => ¬ FullColRank n k (fun j i => prodEntry m (fun i l => denseRaw (fromWords G ω) .Gaussian m seed ((i + l * k) / m) ((i + l * k) % m)) A i j)) ≤
      (k : ℝ) ^ 2 * p := by
  have hL' : L = 2 ∨ L = 4 := by rcases hG with h | h <;> omega
  have hm : 0 < m := by omega
  have hfit : k * countersPerVector L m ≤ N := by
    refine le_trans (mul_le_mul_of_nonneg_left ?_ (by omega)) hN
    unfold countersPerVector
    rcases hL' with rfl | rfl <;> push_cast <;> omega
  let Key := Fin k.toNat × Fin ((m.toNat + 1) / 2)
  let V : (ZMod N × ZMod L → W) → Key → ℝ × ℝ := fun ω κ => pairOf G seed (countersPerVector L m) ω (κ.1 : Nat) (κ.2 : Nat)
  let pos : Key → ZMod N × ZMod L → Prop := fun κ a => entryPos seed .Gaussian (countersPerVector L m) (κ.1 : Nat) (2 * (κ.2 : Nat)) a
  have hq : ∀ κ : Key, (0 : Int) ≤ (κ.1 : Nat) ∧ ((κ.1 : Nat) : Int) < k := fun κ => by have := κ.1.2; omega
  have hp : ∀ κ : Key, (0 : Int) ≤ 2 * (κ.2 : Nat) ∧ (2 * (κ.2 : Nat) : Int) < m := fun κ => by have := κ.2.2; omega
  have hdep : ∀ κ ω ω', (∀ a, pos κ a → ω a = ω' a) → V ω κ = V ω' κ := by
    intro κ ω ω' h
    simp only [V, pairOf]
    rw [h _ ⟨rfl, Or.inl rfl⟩, h _ ⟨rfl, Or.inr rfl⟩]
  have hdisj : ∀ κ κ' a, pos κ a → pos κ' a → κ = κ' := by
    intro κ κ' a h h'
    have := entryPos_key hL' hfit (hq κ) (hp κ) (hq κ') (hp κ') h h'
    simp only [wordKey, Prod.mk.injEq] at this
    exact Prod.ext (Fin.ext (by omega)) (Fin.ext (by omega))
  have hspread : ∀ κ (a b c d : ℝ), ¬ (a = 0 ∧ b = 0 ∧ c = 0 ∧ d = 0) → Pr (fun ω => a + b * (V ω κ).1 + c * (V ω κ).2 + d * ((V ω κ).1 * (V ω κ).2) = 0) ≤ p := by
    intro κ a b c d h0
    have hne : (seed.counter + ((((κ.1 : Nat) : Int) * countersPerVector L m + 2 * ((κ.2 : Nat) : Int) / L : Int) : ZMod N), ((2 * ((2 * ((κ.2 : Nat) : Int) % L) / 2) : Int) : ZMod L)) ≠
        (seed.counter + ((((κ.1 : Nat) : Int) * countersPerVector L m + 2 * ((κ.2 : Nat) : Int) / L : Int) : ZMod N), ((2 * ((2 * ((κ.2 : Nat) : Int) % L) / 2) + 1 : Int) : ZMod L)) := by
      intro h
      have := (Prod.ext_iff.mp h).2
      dsimp only at this
      push_cast at this
      have h1 : (1 : ZMod L) = 0 := by
        have := sub_eq_zero.mpr this
        ring_nf at this
        linear_combination -this
      have : Fact (1 < L) := ⟨by omega⟩
      exact one_ne_zero h1
    have h := pr_eval2 (W := W) hne fun w w' => a + b * (G.boxmuller w w').1 + c * (G.boxmuller w w').2 + d * ((G.boxmuller w w').1 * (G.boxmuller w w').2) = 0
    exact (le_of_eq h).trans (hs a b c d h0)
  have hp0 : 0 ≤ p := (pr_nonneg _).trans (hs 1 0 0 0 (by simp))
  -- the cell (i, j) is number `i + j k` of the array
  have hflat : ∀ (i : Fin k.toNat) (j : Fin m.toNat), (0 : Int) ≤ (i : Nat) + (j : Nat) * k ∧ ((i : Nat) + (j : Nat) * k : Int) < k * m := fun i j =>
    pos_range ⟨by omega, by have := i.2; omega, by omega, by have := j.2; omega⟩
  have hdiv : ∀ (i : Fin k.toNat) (j : Fin m.toNat), 0 ≤ ((i : Nat) + (j : Nat) * k : Int) / m ∧ ((i : Nat) + (j : Nat) * k : Int) / m < k := fun i j =>
    ⟨Int.ediv_nonneg (hflat i j).1 hm.le, Int.ediv_lt_of_lt_mul hm (hflat i j).2⟩
  have hmod : ∀ (i : Fin k.toNat) (j : Fin m.toNat), 0 ≤ ((i : Nat) + (j : Nat) * k : Int) % m ∧ ((i : Nat) + (j : Nat) * k : Int) % m < m := fun i j =>
    ⟨Int.emod_nonneg _ hm.ne', Int.emod_lt_of_pos _ hm⟩
  let key : Fin k.toNat × Fin m.toNat → Key × Bool := fun ij =>
    ((⟨(((ij.1 : Nat) + (ij.2 : Nat) * k : Int) / m).toNat, by have := hdiv ij.1 ij.2; omega⟩,
      ⟨((((ij.1 : Nat) + (ij.2 : Nat) * k : Int) % m) / 2).toNat, by have := hmod ij.1 ij.2; omega⟩), decide ((((ij.1 : Nat) + (ij.2 : Nat) * k : Int) % m) % 2 ≠ 0))
  have hkey : Function.Injective key := by
    rintro ⟨i, j⟩ ⟨i', j'⟩ h
    have e1 := congrArg (fun x : Key × Bool => (x.1.1 : Nat)) h
    have e2 := congrArg (fun x : Key × Bool => (x.1.2 : Nat)) h
    have e3 := congrArg (fun x : Key × Bool => x.2) h
    simp only [key, decide_eq_decide] at e1 e2 e3
    have a1 := hdiv i j; have a2 := hdiv i' j'; have b1 := hmod i j; have b2 := hmod i' j'
    have c1 := Int.emod_add_mul_ediv ((i : Nat) + (j : Nat) * k : Int) m
    have c2 := Int.emod_add_mul_ediv ((i' : Nat) + (j' : Nat) * k : Int) m
    have d1 : ((i : Nat) + (j : Nat) * k : Int) / m = ((i' : Nat) + (j' : Nat) * k : Int) / m := by omega
    have d2 : ((i : Nat) + (j : Nat) * k : Int) % m = ((i' : Nat) + (j' : Nat) * k : Int) % m := by omega
    have e : ((i : Nat) + (j : Nat) * k : Int) = (i' : Nat) + (j' : Nat) * k := by rw [← c1, ← c2, d1, d2]
    have f1 : (((i : Nat) + (j : Nat) * k : Int)) % k = (i : Nat) := by
      rw [Int.add_mul_emod_self_right, Int.emod_eq_of_lt (by omega) (by have := i.2; omega)]
    have f2 : (((i' : Nat) + (j' : Nat) * k : Int)) % k = (i' : Nat) := by
      rw [Int.add_mul_emod_self_right, Int.emod_eq_of_lt (by omega) (by have := i'.2; omega)]
    have g : ((i : Nat) : Int) = (i' : Nat) := by rw [← f1, ← f2, e]
    have g' : ((j : Nat) : Int) = (j' : Nat) := by
      rw [g] at e
      exact mul_right_cancel₀ (b := k) (by omega) (by linarith)
    exact Prod.ext (Fin.ext (by exact_mod_cast g)) (Fin.ext (by exact_mod_cast g'))
  have hkk : ((k.toNat : Nat) : ℝ) = k := by
    rw [← Int.cast_natCast, Int.toNat_of_nonneg (by omega)]
  have h := pairs_rank hdep hdisj hspread key hkey (Matrix.of fun (l : Fin m.toNat) (j : Fin n.toNat) => A (l : Nat) (j : Nat)) (by
    have : (rankOf m n A : Int) = ((Matrix.of fun (l : Fin m.toNat) (j : Fin n.toNat) => A (l : Nat) (j : Nat)).rank : Int) := rfl
    omega) hp0
  rw [hkk] at h
  refine le_trans (pr_mono fun ω hω => ?_) h
  intro hli
  apply hω
  intro x hx j hj0 hj1
  rw [Fintype.linearIndependent_iff] at hli
  have hent : ∀ (i : Fin k.toNat) (l : Fin m.toNat), pairMat key (V ω) i l =
      denseRaw (fromWords G ω) .Gaussian m seed (((i : Nat) + (l : Nat) * k : Int) / m) (((i : Nat) + (l : Nat) * k : Int) % m) := by
    intro i l
    rw [denseRaw_pair hL' hL]
    simp only [pairMat, Matrix.of_apply, key, V, decide_eq_true_eq, Int.toNat_of_nonneg (hdiv i l).1]
    rw [Int.toNat_of_nonneg (Int.ediv_nonneg (hmod i l).1 (by norm_num))]
    by_cases h2 : ((i : Nat) + (l : Nat) * k : Int) % m % 2 = 0
    · rw [if_neg (not_not.mpr h2), if_pos h2]
    · rw [if_pos h2, if_neg h2]
  have := hli (fun i => x (i : Nat)) (by
    ext c
    have h1 := hx (c : Nat) (by omega) (by have := c.2; omega)
    rw [← Fin.sum_univ_eq_sum_range (fun i => prodEntry m (fun i l => denseRaw (fromWords G ω) .Gaussian m seed ((i + l * k) / m) ((i + l * k) % m)) A (i : Nat) ((c : Nat) : Int) * x (i : Nat))] at h1
    rw [Finset.sum_apply, Pi.zero_apply, ← h1]
    refine sum_congr rfl fun i _ => ?_
    rw [Pi.smul_apply, smul_eq_mul, mul_comm]
    congr 1
    rw [Matrix.row_apply, Matrix.mul_apply, prodEntry, ← Fin.sum_univ_eq_sum_range (fun l => denseRaw (fromWords G ω) .Gaussian m seed
      ((((i : Nat) : Int) + (l : Nat) * k) / m) ((((i : Nat) : Int) + (l : Nat) * k) % m) * A (l : Nat) ((c : Nat) : Int))]
    exact sum_congr rfl fun l _ => by rw [hent, Matrix.of_apply]) ⟨j.toNat, by omega⟩
  simpa [Int.toNat_of_nonneg hj0] using this

end

/-! ## Powers of the Gram matrix -/

/-- Multiplication of `gramPowerR` by a row vector. -/
theorem gramPowerR_row {m n : Int} (A S : Int → Int → ℝ) (k : Int) (y : Int → ℝ) (q : Nat) (c : Int) :
    ∑ i ∈ range k.toNat, gramPowerR m n A S (q + 1) i c * y i = ∑ j ∈ range n.toNat, A c j * ∑ l ∈ range m.toNat, A l j * ∑ i ∈ range k.toNat, gramPowerR m n A S q i l * y i := by
  simp only [gramPowerR, prodEntry, sum_mul, mul_sum]
  rw [sum_comm]
  refine sum_congr rfl fun j _ => ?_
  rw [sum_comm]
  exact sum_congr rfl fun _ _ => sum_congr rfl fun _ _ => by ring

theorem prod_row {m : Int} (A B : Int → Int → ℝ) (k : Int) (y : Int → ℝ) (c : Int) :
    ∑ i ∈ range k.toNat, prodEntry m B A i c * y i = ∑ l ∈ range m.toNat, A l c * ∑ i ∈ range k.toNat, B i l * y i := by
  simp only [prodEntry, sum_mul, mul_sum]
  rw [sum_comm]
  exact sum_congr rfl fun _ _ => sum_congr rfl fun _ _ => by ring

/-- The rows of `S (A Aᵀ)^q A` are independent if those of `S A` are. -/
theorem gram_rows {m n k : Int} {A S : Int → Int → ℝ} (h : FullColRank n k (fun j i => prodEntry m S A i j)) :
    ∀ q : Nat, FullColRank n k (fun j i => prodEntry m (gramPowerR m n A S q) A i j)
  | 0 => h
  | q + 1 => by
    intro y hy
    refine gram_rows h q y fun c hc0 hc1 => ?_
    obtain ⟨c, rfl⟩ := Int.eq_ofNat_of_zero_le hc0
    rw [prod_row]
    -- `u = (S (A Aᵀ)^q)ᵀ y`, `Aᵀ A Aᵀ u = 0`
    refine gram_kernel A (fun l => ∑ i ∈ range k.toNat, gramPowerR m n A S q i l * y i) ?_ c hc1
    have h1 := gram_kernel (m := n) (n := m) (fun i j => A j i) (fun j => ∑ l ∈ range m.toNat, A l j * ∑ i ∈ range k.toNat, gramPowerR m n A S q i l * y i) fun l hl => by
      have := hy (l : Nat) (by omega) hl
      rw [prod_row] at this
      rw [← this]
      exact sum_congr rfl fun j _ => by rw [gramPowerR_row]
    intro l hl
    exact h1 l hl

/-! ## Main theorem -/

/-- What `run` computes from the matrix `Z`: the pivots of a QR decomposition with column pivoting of a matrix whose rows span the same space as those of `Z`, orthonormal columns `Q` that span the first
`k` columns of `A(:, piv)`, and the upper trapezoidal matrix `R' = Qᵀ A(:, piv)`. -/
def Spec.TruncatedQrcp (m n k : Int) (A Z : Int → Int → ℝ) (s' : TqrSt ℝ) : Prop :=
  ∃ (pi : Int → Int) (Q R R' Y : Int → Int → ℝ), RowEquiv k n Z Y ∧ (∃ F, QrcpIs k n Y F ∧ ∀ j, F.piv j = pi j + 1) ∧ HoldsVec s'.piv n (fun j => pi j + 1) ∧
    (∀ j, 0 ≤ j → j < n → 0 ≤ pi j ∧ pi j < n) ∧ (∀ i j, 0 ≤ i → i < n → 0 ≤ j → j < n → pi i = pi j → i = j) ∧
    HoldsC s'.q m m k Q ∧ OrthoCols m k Q ∧ (∀ i j, j < i → R i j = 0) ∧ (∀ i, 0 ≤ i → i < k → R i i ≠ 0) ∧
    (∀ i j, InR m k i j → A i (pi j) = prodEntry k Q R i j) ∧ HoldsC s'.y k k n R' ∧
    (∀ i j, InR k n i j → R' i j = prodEntry m (fun i j => Q j i) (fun i j => A i (pi j)) i j) ∧ (∀ i j, InR k k i j → j < i → R' i j = 0)

/-- The Gaussian k x r matrix of the program. -/
noncomputable def Spec.flatSample {L : Nat} (G : Gen N K W ℝ) (seed : RNGState N K) (k r : Int) (ω : ZMod N × ZMod L → W) (i j : Int) : ℝ :=
  denseRaw (fromWords G ω) .Gaussian r seed ((i + j * k) / r) ((i + j * k) % r)

/-- C123. If `A` has rank at least `k`, then for all but a fraction `k² p` of the words the program computes a truncated QR decomposition of `A` with the pivots of `Om (A Aᵀ)^(p/2) A` (even `p`) or
`Om Aᵀ (A Aᵀ)^(p/2) A` (odd `p`), without stabilisation or with stabilisation by LQ or by sketching. `p = 2⁻³⁰` for the exact conversions of 32-bit words (C123_words). What is
missing is stabilisation by LU, where the code has an error (C78), and 2^31 or more rows or columns. -/
theorem C123_run_partial [NeZero N] [Field R] [LinearOrder R] [IsStrictOrderedRing R] [FloorRing R] [Fintype W] [Nonempty W] {L : Nat} [NeZero L] {G : Gen N K W ℝ} (hG : G.Ok) (hL : G.len = L)
    {pr : ℝ} (hs : SpreadPairs G pr) {P : (ZMod N × ZMod L → W) → PowEnv N K W WS R ℝ} (hE : ∀ ω c, SkEnvOk ((P ω).E c)) {sqrt : ℝ → ℝ} (hsq : SqrtOk sqrt) {nb : Int} (hnb : 0 < nb)
    {qrcp : Int → Int → (Int → Int) → (Int → Int → ℝ) → Qrcp ℝ} {sched : List Nat} {sqrt3 : ℝ} {seed : RNGState N K} {k p : Int} {s : TqrSt ℝ} {A : CscMat ℝ} {E : List (Entry ℝ)}
    (hA : CscIs A E) (hb : A.indexBase = .Zero) (hr : InRange A.nRows A.nCols E) (hnd : (E.map Entry.pos).Nodup)
    (hk : 1 ≤ k) (hkm : k ≤ A.nRows) (hkn : k ≤ A.nCols) (hm : A.nRows < 2147483648) (hn : A.nCols < 2147483648) (hp : 0 ≤ p) (hPm : 1 ≤ p → ∀ ω, StabOk (P ω) k A.nRows)
    (hPn : 2 ≤ p → ∀ ω, StabOk (P ω) k A.nCols) (hqrcp : ∀ Y, QrcpFor qrcp k A.nCols Y) (hN : k * max A.nRows A.nCols ≤ N) (hrank : k ≤ rankOf A.nRows A.nCols (toMat E)) :
    Pr (fun ω : ZMod N × ZMod L → W => ¬ M.wp (qrcpProgram (P ω) sqrt nb qrcp sched (fromWords G ω) sqrt3 seed A k p) s (fun _ s' =>
      TruncatedQrcp A.nRows A.nCols k (toMat E) (prodEntry A.nRows (gramPowerR A.nRows A.nCols (toMat E) (if p % 2 = 0 then flatSample G seed k A.nRows ω
        else prodEntry A.nCols (flatSample G seed k A.nCols ω) (fun i j => toMat E j i)) (p / 2).toNat) (toMat E)) s')) ≤ (k : ℝ) ^ 2 * pr := by
  have hfitm : k * A.nRows ≤ intMax 64 := by
    have : k * A.nRows ≤ 2147483648 * 2147483648 := mul_le_mul (by omega) (by omega) (by omega) (by norm_num)
    exact this.trans (by decide)
  have hfitn : k * A.nCols ≤ intMax 64 := by
    have : k * A.nCols ≤ 2147483648 * 2147483648 := mul_le_mul (by omega) (by omega) (by omega) (by norm_num)
    exact this.trans (by decide)
  have hNm : k * A.nRows ≤ N := (mul_le_mul_of_nonneg_left (le_max_left _ _) (by omega)).trans hN
  have hNn : k * A.nCols ≤ N := (mul_le_mul_of_nonneg_left (le_max_right _ _) (by omega)).trans hN
  have run : ∀ ω, FullColRank A.nCols k (fun j i => prodEntry A.nRows (gramPowerR A.nRows A.nCols (toMat E) (if p % 2 = 0 then flatSample G seed k A.nRows ω
        else prodEntry A.nCols (flatSample G seed k A.nCols ω) (fun i j => toMat E j i)) (p / 2).toNat) (toMat E) i j) →
      M.wp (qrcpProgram (P ω) sqrt nb qrcp sched (fromWords G ω) sqrt3 seed A k p) s (fun _ s' =>
      TruncatedQrcp A.nRows A.nCols k (toMat E) (prodEntry A.nRows (gramPowerR A.nRows A.nCols (toMat E) (if p % 2 = 0 then flatSample G seed k A.nRows ω
        else prodEntry A.nCols (flatSample G seed k A.nCols ω) (fun i j => toMat E j i)) (p / 2).toNat) (toMat E)) s') := by
    intro ω h
    refine M.wp_mono (C79_run_partial (hE ω) hsq hnb hA hb hr hnd hk hkm hkn hm hn hp (fun h => hPm h ω) (fun h => hPn h ω)
      (qbFill_flat (G := fromWords G ω) hG hk hkm hfitm seed) (qbFill_flat (G := fromWords G ω) hG hk hkn hfitn seed) hqrcp (Z := _) rfl rfl h) ?_
    rintro _ s' ⟨pi, Q, R, R', Y, h1, -, h2, h3, h4, h5, h6, h7, h8, h9, h10, h11, h12, h13⟩
    exact ⟨pi, Q, R, R', Y, h1, h2, h3, h4, h5, h6, h7, h8, h9, h10, h11, h12, h13⟩
  by_cases hpe : p % 2 = 0
  · simp only [if_pos hpe] at run ⊢
    refine le_trans (pr_mono fun ω hω => ?_) (flat_rank (seed := seed) hG hL hs hk hkm hNm (toMat E) hrank)
    exact fun h => hω (run ω (gram_rows h _))
  · simp only [if_neg hpe] at run ⊢
    refine le_trans (pr_mono fun ω hω => ?_) (flat_rank (seed := seed) hG hL hs hk hkn hNn (fun i j => toMat E j i) (n := A.nRows) (by rw [rankOf_transpose]; exact hrank))
    refine fun h => hω (run ω (gram_rows (fun y hy => h y fun c hc0 hc1 => ?_) _))
    obtain ⟨c, rfl⟩ := Int.eq_ofNat_of_zero_le hc0
    have h1 := gram_kernel (m := A.nCols) (n := A.nRows) (fun i j => toMat E j i) (fun l => ∑ i ∈ range k.toNat, flatSample G seed k A.nCols ω i l * y i) (fun l hl => by
      have := hy (l : Nat) (by omega) hl
      beta_reduce at this
      rw [prod_row] at this
      rw [← this]
      exact sum_congr rfl fun j _ => by rw [prod_row]) c hc1
    beta_reduce
    rw [prod_row]
    exact h1

/-! ## The words of the library -/

/-- A curve `a + b x + c y + d x y = 0` meets a circle at most four times. -/
theorem circle_curve {ι : Type} [Fintype ι] [DecidableEq ι] {a b c d : ℝ} (h : ¬ (a = 0 ∧ b = 0 ∧ c = 0 ∧ d = 0)) {x y : ι → ℝ} (hc : ∀ i, x i ^ 2 + y i ^ 2 = 1) (hy : ∀ i, 0 < 1 + y i)
    (hinj : ∀ i j, x i = x j → y i = y j → i = j) {F : Finset ι} (hF : ∀ i ∈ F, a + b * x i + c * y i + d * (x i * y i) = 0) : F.card ≤ 4 := by
  classical
  let q : Polynomial ℝ := Polynomial.C (a + c) + Polynomial.C (2 * b + 2 * d) * Polynomial.X + Polynomial.C (2 * a) * Polynomial.X ^ 2 +
    Polynomial.C (2 * b - 2 * d) * Polynomial.X ^ 3 + Polynomial.C (a - c) * Polynomial.X ^ 4
  have hdeg : q.natDegree ≤ 4 := by
    simp only [q]
    compute_degree
  have hq : q ≠ 0 := by
    intro h0
    have e0 : q.coeff 0 = 0 := by rw [h0]; simp
    have e1 : q.coeff 1 = 0 := by rw [h0]; simp
    have e2 : q.coeff 2 = 0 := by rw [h0]; simp
    have e3 : q.coeff 3 = 0 := by rw [h0]; simp
    simp only [q, Polynomial.coeff_add, Polynomial.coeff_C_mul, Polynomial.coeff_X, Polynomial.coeff_X_pow, Polynomial.coeff_C] at e0 e1 e2 e3
    norm_num at e0 e1 e2 e3
    exact h ⟨by linarith, by linarith, by linarith, by linarith⟩
  have ht : ∀ i, x i = (1 + y i) * (x i / (1 + y i)) := fun i => by rw [mul_div_cancel₀ _ (hy i).ne']
  have hy2 : ∀ i, (1 + y i) * (1 + (x i / (1 + y i)) ^ 2) = 2 := by
    intro i
    have := (hy i).ne'
    field_simp
    nlinarith [hc i]
  have hinj2 : Set.InjOn (fun i => x i / (1 + y i)) (F : Set ι) := by
    intro i _ j _ e
    beta_reduce at e
    have e1 : y i = y j := by
      have h1 := hy2 i
      rw [e] at h1
      have h2 := hy2 j
      have h3 : (0 : ℝ) < 1 + (x j / (1 + y j)) ^ 2 := by positivity
      have := mul_right_cancel₀ h3.ne' (h1.trans h2.symm)
      linarith
    refine hinj i j ?_ e1
    rw [ht i, ht j, e, e1]
  have hroot : ∀ i ∈ F, x i / (1 + y i) ∈ q.roots.toFinset := by
    intro i hi
    rw [Multiset.mem_toFinset, Polynomial.mem_roots hq, Polynomial.IsRoot.def]
    simp only [q, Polynomial.eval_add, Polynomial.eval_mul, Polynomial.eval_C, Polynomial.eval_X, Polynomial.eval_pow]
    have h1 := hF i hi
    have h2 := (hy i).ne'
    have h3 := hc i
    have hx2 : x i ^ 2 = (1 - y i) * (1 + y i) := by linarith
    have ht2 : (x i / (1 + y i)) ^ 2 = (1 - y i) / (1 + y i) := by
      rw [div_pow, hx2, sq, mul_div_mul_right _ _ h2]
    rw [show (x i / (1 + y i)) ^ 4 = ((x i / (1 + y i)) ^ 2) ^ 2 by ring, show (x i / (1 + y i)) ^ 3 = (x i / (1 + y i)) ^ 2 * (x i / (1 + y i)) by ring, ht2]
    field_simp
    linear_combination 4 * h1
  calc F.card = (F.image fun i => x i / (1 + y i)).card := (card_image_of_injOn hinj2).symm
    _ ≤ q.roots.toFinset.card := card_le_card fun z hz => by
        obtain ⟨i, hi, rfl⟩ := mem_image.mp hz
        exact hroot i hi
    _ ≤ Multiset.card q.roots := Multiset.toFinset_card_le _
    _ ≤ q.natDegree := Polynomial.card_roots' q
    _ ≤ 4 := hdeg

/-- C123. The exact conversions of `Mw` words: `p = 4/Mw`. -/
theorem C123_words [Fintype W] [Nonempty W] {G : Gen N K W ℝ} {Mw : Nat} (e : W ≃ Fin Mw) (hmid : ∀ w, (G.uneg11 w + 1) / 2 = (((e w : Nat) : ℝ) + 1 / 2) / Mw)
    {r : W → ℝ} (hr : ∀ w, 0 < r w) (hbm : IsBoxMuller G G.uneg11 r) : SpreadPairs G (4 / Mw) := by
  classical
  have hcard : Fintype.card W = Mw := by rw [Fintype.card_congr e, Fintype.card_fin]
  have hM : 0 < Mw := by rw [← hcard]; exact Fintype.card_pos
  have hM' : (0 : ℝ) < Mw := by exact_mod_cast hM
  have hinj : Function.Injective G.uneg11 := by
    intro w w' h
    have h1 := hmid w
    rw [h, hmid w', div_left_inj' hM'.ne'] at h1
    have h2 : ((e w' : Nat) : ℝ) = (e w : Nat) := by linarith
    exact e.injective (Fin.ext (by exact_mod_cast h2.symm))
  have hrange : ∀ w, -1 < G.uneg11 w ∧ G.uneg11 w < 1 := by
    intro w
    have h1 := hmid w
    have h2 : (((e w : Nat) : ℝ) + 1 / 2) / Mw < 1 := by
      rw [div_lt_one hM']
      have : (e w : Nat) + 1 ≤ Mw := (e w).2
      have : ((e w : Nat) : ℝ) + 1 ≤ Mw := by exact_mod_cast this
      linarith
    have h3 : 0 < (((e w : Nat) : ℝ) + 1 / 2) / Mw := by positivity
    constructor <;> linarith
  intro a b c d h
  rw [pr_eq, Fintype.card_prod, hcard]
  have h1 : ∀ w', (univ.filter fun w => a + b * (G.boxmuller w w').1 + c * (G.boxmuller w w').2 + d * ((G.boxmuller w w').1 * (G.boxmuller w w').2) = 0).card ≤ 4 := by
    intro w'
    have hr' := (hr w').ne'
    refine circle_curve (a := a) (b := b * r w') (c := c * r w') (d := d * r w' ^ 2) ?_ (x := fun w => Real.sin (Real.pi * G.uneg11 w)) (y := fun w => Real.cos (Real.pi * G.uneg11 w))
      (fun w => Real.sin_sq_add_cos_sq _) ?_ (fun v v' h1 h2 => hinj (angle_inj (hrange v) (hrange v') h1 h2)) ?_
    · rintro ⟨h1, h2, h3, h4⟩
      exact h ⟨h1, (mul_eq_zero.mp h2).resolve_right hr', (mul_eq_zero.mp h3).resolve_right hr', (mul_eq_zero.mp h4).resolve_right (pow_ne_zero 2 hr')⟩
    · intro w
      have hpi := Real.pi_pos
      have h1 : 0 < Real.cos (Real.pi * G.uneg11 w / 2) := Real.cos_pos_of_mem_Ioo ⟨by nlinarith [(hrange w).1], by nlinarith [(hrange w).2]⟩
      have h2 := Real.cos_sq (Real.pi * G.uneg11 w / 2)
      rw [mul_div_cancel₀ _ (two_ne_zero)] at h2
      have := pow_pos h1 2
      linarith
    · intro w hw
      simp only [mem_filter, mem_univ, true_and, hbm _ w'] at hw
      linarith
  have h2 : (univ.filter fun w : W × W => a + b * (G.boxmuller w.1 w.2).1 + c * (G.boxmuller w.1 w.2).2 + d * ((G.boxmuller w.1 w.2).1 * (G.boxmuller w.1 w.2).2) = 0).card ≤ 4 * Mw := by
    rw [card_filter, ← univ_product_univ, sum_product_right]
    refine (sum_le_sum fun w' _ => (card_filter _ _).symm.trans_le (h1 w')).trans (le_of_eq ?_)
    rw [sum_const, card_univ, hcard, smul_eq_mul, mul_comm]
  have h3 : ((univ.filter fun w : W × W => a + b * (G.boxmuller w.1 w.2).1 + c * (G.boxmuller w.1 w.2).2 + d * ((G.boxmuller w.1 w.2).1 * (G.boxmuller w.1 w.2).2) = 0).card : ℝ) ≤ 4 * Mw := by
    exact_mod_cast h2
  push_cast
  rw [div_le_div_iff₀ (by positivity) hM']
  nlinarith

/-- The words of `midGenR`. -/
theorem midGenR_pairs : SpreadPairs midGenR (1 / 2 ^ 30) := by
  have h := C123_words (G := midGenR) (Mw := 4 * 2 ^ 30) (Equiv.refl _) (fun w => by simp only [midGenR, Equiv.refl_apply]; ring)
    (r := fun w => Real.sqrt (-2 * Real.log ((((w : Nat) : ℝ) + 1 / 2) / (4 * 2 ^ 30 : Nat)))) (fun w => by
      have h1 : (((w : Nat) : ℝ) + 1 / 2) / ((4 * 2 ^ 30 : Nat) : ℝ) < 1 := by
        rw [div_lt_one (by norm_num)]
        have : (w : Nat) + 1 ≤ 4 * 2 ^ 30 := w.2
        have h2 : ((w : Nat) : ℝ) + 1 ≤ ((4 * 2 ^ 30 : Nat) : ℝ) := by exact_mod_cast this
        exact lt_of_lt_of_le (by linarith) h2
      have := Real.log_neg (by positivity) h1
      exact Real.sqrt_pos.mpr (by linarith)) (fun _ _ => rfl)
  rw [show (4 : ℝ) / ((4 * 2 ^ 30 : Nat) : ℝ) = 1 / 2 ^ 30 by norm_num] at h
  exact h

/-- The hypotheses of C123 are met by the 2 x 2 diagonal matrix with entries 1 and 2, k = 1, p = 3 and stabilisation by LQ: the program fails for at most a fraction 2⁻³⁰ of the words. -/
example : ∃ L : RowLapack ℝ, Pr (fun ω : ZMod (2 ^ 128) × ZMod 4 → Fin (4 * 2 ^ 30) =>
    ¬ M.wp (qrcpProgram (⟨fun _ => { midEnvR with G := fromWords midEnvR.G ω }, fun _ => ⟨0, 7⟩, 1, 1, L, .LQ⟩ : PowEnv (2 ^ 128) Nat (Fin (4 * 2 ^ 30)) (Fin (2 ^ 32)) ℚ ℝ) Real.sqrt 1 rowQrcp [0]
      (fromWords midGenR ω) (Real.sqrt 3) ⟨0, 7⟩ (cscOf 2 2 [0, 1, 2] [⟨0, 0, 1⟩, ⟨1, 1, 2⟩]) 1 3) ⟨Buf.alloc ℝ 0, Buf.alloc ℝ 0, Buf.alloc Int 0, Buf.alloc ℝ 0⟩ (fun _ s' =>
      TruncatedQrcp 2 2 1 (toMat [⟨0, 0, 1⟩, ⟨1, 1, 2⟩]) (prodEntry 2 (gramPowerR 2 2 (toMat [⟨0, 0, 1⟩, ⟨1, 1, 2⟩])
        (prodEntry 2 (flatSample midGenR ⟨0, 7⟩ 1 2 ω) (fun i j => toMat [⟨0, 0, 1⟩, ⟨1, 1, 2⟩] j i)) 1) (toMat [⟨0, 0, 1⟩, ⟨1, 1, 2⟩])) s')) ≤ 1 / 2 ^ 30 := by
  obtain ⟨L, hL⟩ := exists_lqFor
  refine ⟨L, ?_⟩
  have hrk : (1 : Int) ≤ rankOf 2 2 (toMat [⟨0, 0, (1 : ℝ)⟩, ⟨1, 1, 2⟩]) := by
    have : rankOf 2 2 (toMat [⟨0, 0, (1 : ℝ)⟩, ⟨1, 1, 2⟩]) = 2 := by
      unfold rankOf
      rw [Matrix.rank_of_isUnit]
      · simp
      · rw [Matrix.isUnit_iff_isUnit_det]
        refine IsUnit.mk0 _ ?_
        have e : (Matrix.of fun (i j : Fin 2) => toMat [⟨0, 0, (1 : ℝ)⟩, ⟨1, 1, 2⟩] (i : Nat) (j : Nat)) = (!![1, 0; 0, 2] : Matrix (Fin 2) (Fin 2) ℝ) := by
          ext i j
          fin_cases i <;> fin_cases j <;> simp [toMat]
        change Matrix.det (Matrix.of fun (i j : Fin 2) => toMat [⟨0, 0, (1 : ℝ)⟩, ⟨1, 1, 2⟩] (i : Nat) (j : Nat)) ≠ 0
        rw [e]
        rw [Matrix.det_fin_two]
        simp
    omega
  have h := C123_run_partial (N := 2 ^ 128) (L := 4) (G := midGenR) (Or.inr rfl) rfl midGenR_pairs
    (P := fun ω => (⟨fun _ => { midEnvR with G := fromWords midEnvR.G ω }, fun _ => ⟨0, 7⟩, 1, 1, L, .LQ⟩ : PowEnv (2 ^ 128) Nat (Fin (4 * 2 ^ 30)) (Fin (2 ^ 32)) ℚ ℝ))
    (fun _ _ => ⟨midEnvR_ok.env, midEnvR_ok.gen, midEnvR_ok.genS, midEnvR_ok.sqrt, midEnvR_ok.order⟩) sqrtOk_real (nb := 1) (by norm_num) (qrcp := rowQrcp) (sched := [0]) (sqrt3 := Real.sqrt 3) (seed := ⟨0, 7⟩)
    (k := 1) (p := 3) (s := ⟨Buf.alloc ℝ 0, Buf.alloc ℝ 0, Buf.alloc Int 0, Buf.alloc ℝ 0⟩) (A := cscOf 2 2 [0, 1, 2] [⟨0, 0, 1⟩, ⟨1, 1, 2⟩]) (E := [⟨0, 0, 1⟩, ⟨1, 1, 2⟩])
    ⟨rfl, csIs_ofList (n := 2) rfl rfl rfl (by decide) (by decide)⟩ rfl (by simp [InRange, cscOf]) (by simp [Entry.pos]) (by decide) (by decide) (by decide) (by decide) (by decide) (by decide)
    (fun _ _ => ⟨hL 1 2 (by norm_num) (by norm_num), by decide⟩) (fun _ _ => ⟨hL 1 2 (by norm_num) (by norm_num), by decide⟩) rowQrcp_ok (by decide) hrk
  rw [show ((1 : Int) : ℝ) ^ 2 * (1 / 2 ^ 30) = 1 / 2 ^ 30 by norm_num] at h
  exact h

end RB
