import Verif.Props.Distortion
import Verif.Lemmas.FourthLong
import Verif.Lemmas.Indep

/-!
# C92: distortion of vectors by long-axis sparse operators

The average is over all words that an ideal generator may yield, as in C60.
-/

namespace RB
open Spec Finset
variable {N : Nat} {K W R : Type}

/-- Word `m` of long-axis vector `q` with `k` samples. -/
def lasoPos {L : Nat} (seed : RNGState N K) (k : Nat) (q : Nat) (m : Int) : ZMod N × ZMod L :=
  (seed.counter + (((q : Int) * ((2 * (k : Int) + L - 1) / L) : Int) : ZMod N) + ((m / L : Int) : ZMod N), ((m % L : Int) : ZMod L))

theorem stride_le {L k : Int} (hL : 2 ≤ L) (hk : 0 < k) : (2 * k + L - 1) / L ≤ k ∧ 2 * k ≤ (2 * k + L - 1) / L * L := by
  have h1 : (2 * k + L - 1) / L < k + 1 := by
    rw [Int.ediv_lt_iff_lt_mul (by omega)]
    nlinarith
  have h2 := Int.lt_ediv_add_one_mul_self (2 * k + L - 1) (b := L) (by omega)
  have : ((2 * k + L - 1) / L + 1) * L = (2 * k + L - 1) / L * L + L := by ring
  omega

/-- Different samples of the same or of different vectors use different words. -/
theorem lasoPos_inj {L : Nat} [NeZero L] {seed : RNGState N K} {k d : Nat} (hL : 2 ≤ L) (hN : k * d ≤ N) {q q' : Nat} (hq : q < d) (hq' : q' < d) {m m' : Int}
    (h0 : 0 ≤ m) (h1 : m < 2 * k) (h0' : 0 ≤ m') (h1' : m' < 2 * k) (h : (lasoPos seed k q m : ZMod N × ZMod L) = lasoPos seed k q' m') : q = q' ∧ m = m' := by
  have hL0 : (0 : Int) < L := by omega
  have hk : 0 < (k : Int) := by omega
  obtain ⟨a, b⟩ := Prod.mk.inj h
  rw [add_assoc, add_assoc] at a
  have a := add_left_cancel a
  rw [← Int.cast_add, ← Int.cast_add] at a
  have a' := (ZMod.intCast_eq_intCast_iff _ _ _).mp a
  have b' := (ZMod.intCast_eq_intCast_iff _ _ _).mp b
  unfold Int.ModEq at a' b'
  rw [Int.emod_emod_of_dvd _ (dvd_refl _), Int.emod_emod_of_dvd _ (dvd_refl _)] at b'
  obtain ⟨hs1, hs2⟩ := stride_le (L := L) (k := k) (by omega) hk
  generalize (2 * (k : Int) + L - 1) / L = s at *
  have hdiv : ∀ z : Int, 0 ≤ z → z < 2 * k → 0 ≤ z / L ∧ z / L < s := fun z h0 h1 => ⟨Int.ediv_nonneg h0 hL0.le, by
    rw [Int.ediv_lt_iff_lt_mul hL0]; omega⟩
  obtain ⟨c1, c2⟩ := hdiv m h0 h1
  obtain ⟨c1', c2'⟩ := hdiv m' h0' h1'
  have hN' : (k : Int) * d ≤ N := by exact_mod_cast hN
  have hb : ∀ (q : Nat) (z : Int), q < d → 0 ≤ z → z < s → 0 ≤ (q : Int) * s + z ∧ (q : Int) * s + z < N := by
    intro q z hq hz0 hz1
    have h1 : ((q : Int) + 1) * s ≤ d * k := mul_le_mul (by omega) hs1 (by omega) (by omega)
    have h2 : 0 ≤ (q : Int) * s := mul_nonneg (by omega) (by omega)
    have h3 : ((q : Int) + 1) * s = q * s + s := by ring
    have h4 : (d : Int) * k = k * d := by ring
    omega
  rw [Int.emod_eq_of_lt (hb q _ hq c1 c2).1 (hb q _ hq c1 c2).2, Int.emod_eq_of_lt (hb q' _ hq' c1' c2').1 (hb q' _ hq' c1' c2').2] at a'
  have hqq : (q : Int) = q' := by
    have e1 : ((q : Int) * s + m / L) / s = q := by
      rw [Int.add_comm, Int.add_mul_ediv_right _ _ (by omega), Int.ediv_eq_zero_of_lt c1 c2]; omega
    have e2 : ((q' : Int) * s + m' / L) / s = q' := by
      rw [Int.add_comm, Int.add_mul_ediv_right _ _ (by omega), Int.ediv_eq_zero_of_lt c1' c2']; omega
    rw [← e1, a', e2]
  have hqn : q = q' := by omega
  subst hqn
  refine ⟨rfl, ?_⟩
  have e := Int.mul_ediv_add_emod m L
  have e' := Int.mul_ediv_add_emod m' L
  have : m / L = m' / L := by omega
  rw [this, b'] at e
  omega

theorem lasoSample_pos [Field R] [LinearOrder R] [FloorRing R] {L : Nat} {G : Gen N K W R} {seed : RNGState N K} (hL : G.len = L) (ω : ZMod N × ZMod L → W) (n k q : Nat) :
    lasoSample (fromWords G ω) seed n k q = fun t => ⌊((n : Int) : R) * ((G.uneg11 (ω (lasoPos seed k q (2 * t))) + 1) / 2)⌋ := by
  funext t
  simp only [lasoSample, unif01, stream, advance, fromWords, lasoPos, hL]

theorem lasoSign_pos [Field R] [LinearOrder R] {L : Nat} {G : Gen N K W R} {seed : RNGState N K} (hL : G.len = L) (ω : ZMod N × ZMod L → W) (k q : Nat) (t : Int) :
    (lasoSampleSign (fromWords G ω) seed k q t : ℝ) = if 0 ≤ G.uneg11 (ω (lasoPos seed k q (2 * t + 1))) then (1 : ℝ) else -1 := by
  simp only [lasoSampleSign, stream, advance, fromWords, lasoPos, hL]
  congr

/-- The second moment of the squared norm. -/
theorem laso_second [NeZero N] [Field R] [LinearOrder R] [IsStrictOrderedRing R] [FloorRing R] [Fintype W] [Nonempty W] {L : Nat} [NeZero L]
    {G : Gen N K W R} {seed : RNGState N K} {k n d : Nat} {τ : W → W} (hL : G.len = L) (hL2 : 2 ≤ L) (hk : 0 < k) (hd : 0 < d) (hn : 0 < n) (hN : k * d ≤ N)
    (hτ : Function.Involutive τ) (hsign : ∀ w, 0 ≤ G.uneg11 (τ w) ↔ ¬ 0 ≤ G.uneg11 w) (y : Int → ℝ) (sc : ℝ)
    (hsc : sc * sc = (n : ℝ) / (k * d)) :
    (∑ ω : ZMod N × ZMod L → W, (∑ q ∈ range d, (sc * ∑ l ∈ range n, (Real.sqrt (occurrences (lasoSample (fromWords G ω) seed n k q) k l) *
      lasoSampleSign (fromWords G ω) seed k q (firstOcc (lasoSample (fromWords G ω) seed n k q) l)) * y l) ^ 2) ^ 2) /
        Fintype.card (ZMod N × ZMod L → W) ≤ (n : ℝ) ^ 2 / (d * k) * (∑ l ∈ range n, indexProb G n l * y l ^ 4) +
          (1 + 2 / d) * (n * ∑ l ∈ range n, indexProb G n l * y l ^ 2) ^ 2 := by
  have hW : (0 : ℝ) < Fintype.card W := by exact_mod_cast Fintype.card_pos
  have hk' : (0 : ℝ) < k := by exact_mod_cast hk
  have hd' : (0 : ℝ) < d := by exact_mod_cast hd
  have hC : (0 : ℝ) < Fintype.card (ZMod N × ZMod L → W) := by exact_mod_cast Fintype.card_pos
  have hcard : (Fintype.card (ZMod N × ZMod L → W) : ℝ) = (Fintype.card W : ℝ) ^ Fintype.card (ZMod N × ZMod L) := by
    rw [Fintype.card_fun]; push_cast; rfl
  have key := laso_quad (fun w => ⌊((n : Int) : R) * ((G.uneg11 w + 1) / 2)⌋) (fun w => if 0 ≤ G.uneg11 w then (1 : ℝ) else -1) τ hτ
    (fun w => by by_cases h : 0 ≤ G.uneg11 w <;> simp [hsign, h]) (fun w => by split_ifs <;> norm_num) (k := k) (n := n) (d := d)
    (fun q t => (lasoPos seed k q (2 * t) : ZMod N × ZMod L)) (fun q t => lasoPos seed k q (2 * t + 1))
    (fun q hq q' hq' t t' ht ht' h => by
      have := (lasoPos_inj hL2 hN hq hq' (by omega) (by omega) (by omega) (by omega) h).2
      omega)
    (fun q hq q' hq' t t' ht ht' h => by
      have := lasoPos_inj hL2 hN hq hq' (by omega) (by omega) (by omega) (by omega) h
      omega)
    (fun q hq q' hq' t t' ht ht' h => by
      have := lasoPos_inj hL2 hN hq hq' (by omega) (by omega) (by omega) (by omega) h
      omega) y (fun l => indexProb G n l) (fun l _ => rfl)
  rw [← hcard] at key
  simp only [lasoSample_pos hL, lasoSign_pos hL, mul_pow, ← mul_sum]
  rw [div_le_iff₀ hC, ← pow_mul, show 2 * 2 = 2 + 2 by rfl, pow_add, sq, hsc]
  generalize ∑ l ∈ range n, indexProb G n l * y l ^ 4 = κ at *
  generalize ∑ l ∈ range n, indexProb G n l * y l ^ 2 = μ at *
  refine (mul_le_mul_of_nonneg_left key (by positivity)).trans ?_
  generalize (Fintype.card (ZMod N × ZMod L → W) : ℝ) = C at *
  have : (n : ℝ) / (k * d) * (n / (k * d)) * (C * (d * k * κ + ((d : ℝ) ^ 2 * k ^ 2 + 2 * d * k ^ 2 - 3 * d * k) * μ ^ 2)) =
      ((n : ℝ) ^ 2 / (d * k) * κ + (1 + 2 / d) * (n * μ) ^ 2) * C - 3 * (n ^ 2 / (d * k)) * C * μ ^ 2 := by
    field_simp; ring
  rw [this]
  have : 0 ≤ 3 * ((n : ℝ) ^ 2 / (d * k)) * C * μ ^ 2 := by positivity
  linarith

/-- The entries that filling a long-axis operator stores, for all words. -/
theorem laso_fill [Field R] [LinearOrder R] [IsStrictOrderedRing R] [FloorRing R] {L : Nat} {G : Gen N K W R}
    {order : Int → List (Int × ℝ) → List (Int × ℝ)} {S : SparseSkOp N K ℝ} (hG : G.Ok)
    (hu : ∀ w, -1 ≤ G.uneg11 w ∧ G.uneg11 w < 1) (hord : ∀ i l, (order i l).Perm l) (hS : SparseOpOk S) (hax : S.dist.majorAxis = .Long) :
    ∃ (k d n : Nat) (A : (ZMod N × ZMod L → W) → Int → Int → ℝ), 0 < k ∧ 0 < d ∧ 0 < n ∧ S.dist.vecNnz = k ∧ S.dist.fullNnz = (k * d : Nat) ∧
      min S.nRows S.nCols = d ∧ max S.nRows S.nCols = n ∧ S.dist.isometryScale * S.dist.isometryScale = (n : ℝ) / (k * d) ∧
      (∀ ω, M.wp (fillSparse (fromWords G ω) Real.sqrt order) S (fun _ S' => ∃ E, OpHolds S' E ∧ toMat E = A ω)) ∧
      ∀ ω, ∀ q < d, ∀ l, (if S.nRows ≤ S.nCols then A ω q l else A ω l q) =
        Real.sqrt (occurrences (lasoSample (fromWords G ω) S.seedState n k q) k l) *
          lasoSampleSign (fromWords G ω) S.seedState k q (firstOcc (lasoSample (fromWords G ω) S.seedState n k q) l) := by
  obtain ⟨hR, hC, hk, hkd, hfull, hfit, hax'⟩ := sparseDist_facts hS.dist
  obtain ⟨hmaj, hmin⟩ : S.dist.dimMajor = max S.dist.nRows S.dist.nCols ∧ S.dist.dimMinor = min S.dist.nRows S.dist.nCols := by
    rcases hax' with ⟨a, b, c⟩ | ⟨a, b, c⟩
    · rw [a] at hax; cases hax
    · exact ⟨b, c⟩
  have hrun := fun ω : ZMod N × ZMod L → W => fill_laso (G := fromWords G ω) (S := S) (order := order) hG hord hS hax (fun c t => unif_fromWords hu ω _ t)
  obtain ⟨k, hk'⟩ : ∃ k : Nat, S.dist.vecNnz = k := ⟨S.dist.vecNnz.toNat, by omega⟩
  obtain ⟨d, hd⟩ : ∃ d : Nat, min S.dist.nRows S.dist.nCols = d := ⟨(min S.dist.nRows S.dist.nCols).toNat, by omega⟩
  obtain ⟨n, hn⟩ : ∃ n : Nat, max S.dist.nRows S.dist.nCols = n := ⟨(max S.dist.nRows S.dist.nCols).toNat, by omega⟩
  have hex : ∀ ω : ZMod N × ZMod L → W, ∃ E, M.wp (fillSparse (fromWords G ω) Real.sqrt order) S (fun _ S' => OpHolds S' E) ∧
      ∀ q < d, ∀ l, (if S.nRows ≤ S.nCols then toMat E q l else toMat E l q) =
        Real.sqrt (occurrences (lasoSample (fromWords G ω) S.seedState n k q) k l) *
          lasoSampleSign (fromWords G ω) S.seedState k q (firstOcc (lasoSample (fromWords G ω) S.seedState n k q) l) := by
    intro ω
    obtain ⟨a, S', h1, E, h2, h3⟩ := hrun ω
    refine ⟨E, ⟨a, S', h1, h2⟩, fun q hq l => ?_⟩
    have h3 := h3 q (by omega) (by rw [hS.nRows, hS.nCols]; omega) l
    rw [hS.nRows, hS.nCols, hn, hk'] at h3
    rw [← h3, hS.nRows, hS.nCols]
    unfold toMat shortIdx longIdx
    split_ifs with hdim
    · rfl
    · simp only [and_comm]
  choose E hE1 hE2 using hex
  refine ⟨k, d, n, fun ω => toMat (E ω), by omega, by omega, by omega, hk', ?_, by rw [hS.nRows, hS.nCols, hd], by rw [hS.nRows, hS.nCols, hn], ?_,
    fun ω => M.wp_mono (hE1 ω) fun _ S' h => ⟨_, h, rfl⟩, hE2⟩
  · rw [hfull, hk', hmin, hd]; push_cast; rfl
  · unfold SparseDist.isometryScale isometryScale
    rw [if_neg (by rw [hax]; decide), Real.mul_self_sqrt]
    · rw [hmaj, hmin, hn, hd, hk']; push_cast; rfl
    · rw [hmaj, hmin, hn, hd, hk']; push_cast; positivity

/-- The combination of the moments. -/
theorem deviation {Ω : Type} [Fintype Ω] [Nonempty Ω] (Z : Ω → ℝ) {θ V t : ℝ} (h1 : (∑ ω, Z ω) / Fintype.card Ω = θ) (h2 : (∑ ω, Z ω ^ 2) / Fintype.card Ω ≤ V) :
    (∑ ω, (Z ω - t) ^ 2) / Fintype.card Ω ≤ V - 2 * t * θ + t ^ 2 := by
  have hC : (0 : ℝ) < Fintype.card Ω := by exact_mod_cast Fintype.card_pos
  have : ∀ ω, (Z ω - t) ^ 2 = Z ω ^ 2 - 2 * t * Z ω + t ^ 2 := fun ω => by ring
  simp only [this]
  rw [sum_add_distrib, sum_sub_distrib, ← mul_sum, sum_const, nsmul_eq_mul, card_univ, add_div, sub_div, mul_div_assoc, h1, mul_div_cancel_left₀ _ hC.ne']
  linarith

theorem laso_moments [NeZero N] [Field R] [LinearOrder R] [IsStrictOrderedRing R] [FloorRing R] [Fintype W] [Nonempty W] {L : Nat} [NeZero L]
    {G : Gen N K W R} {τ : W → W} {order : Int → List (Int × ℝ) → List (Int × ℝ)} {S : SparseSkOp N K ℝ} (hG : G.Ok) (hL : G.len = L)
    (hu : ∀ w, -1 ≤ G.uneg11 w ∧ G.uneg11 w < 1) (hτ : Function.Involutive τ) (hsign : ∀ w, 0 ≤ G.uneg11 (τ w) ↔ ¬ 0 ≤ G.uneg11 w)
    (hord : ∀ i l, (order i l).Perm l) (hS : SparseOpOk S) (hax : S.dist.majorAxis = .Long) (hN : 2 * S.dist.fullNnz ≤ N) :
    ∃ (k d n : Nat) (A : (ZMod N × ZMod L → W) → Int → Int → ℝ), 0 < k ∧ 0 < d ∧ 0 < n ∧ S.dist.vecNnz = k ∧
      min S.nRows S.nCols = d ∧ max S.nRows S.nCols = n ∧
      (∀ ω, M.wp (fillSparse (fromWords G ω) Real.sqrt order) S (fun _ S' => ∃ E, OpHolds S' E ∧ toMat E = A ω)) ∧
      ∀ x : Int → ℝ,
        (∑ ω, ∑ q ∈ range d, (S.dist.isometryScale * ∑ l ∈ range n, (if S.nRows ≤ S.nCols then A ω q l else A ω l q) * x l) ^ 2) /
          Fintype.card (ZMod N × ZMod L → W) = n * ∑ l ∈ range n, indexProb G n l * x l ^ 2 ∧
        (∑ ω, (∑ q ∈ range d, (S.dist.isometryScale * ∑ l ∈ range n, (if S.nRows ≤ S.nCols then A ω q l else A ω l q) * x l) ^ 2) ^ 2) /
          Fintype.card (ZMod N × ZMod L → W) ≤ (n : ℝ) ^ 2 / (d * k) * (∑ l ∈ range n, indexProb G n l * x l ^ 4) +
            (1 + 2 / d) * (n * ∑ l ∈ range n, indexProb G n l * x l ^ 2) ^ 2 := by
  obtain ⟨k, d, n, A, hk, hd, hn, ek, ef, ed, en, hsc, hA, hent⟩ := laso_fill (L := L) hG hu hord hS hax
  have hL2 : 2 ≤ L := by rcases hG with h | h <;> omega
  rw [ef] at hN
  have hN' : 2 * (k * d) ≤ N := by exact_mod_cast hN
  have hkd : k ≤ k * d := Nat.le_mul_of_pos_right k hd
  refine ⟨k, d, n, A, hk, hd, hn, ek, ed, en, hA, fun x => ?_⟩
  have e1 : ∀ ω, ∀ q ∈ range d, (S.dist.isometryScale * ∑ l ∈ range n, (if S.nRows ≤ S.nCols then A ω q l else A ω l q) * x l) ^ 2 =
      (S.dist.isometryScale * ∑ l ∈ range n, (Real.sqrt (occurrences (lasoSample (fromWords G ω) S.seedState n k q) k l) *
        lasoSampleSign (fromWords G ω) S.seedState k q (firstOcc (lasoSample (fromWords G ω) S.seedState n k q) l)) * x l) ^ 2 := by
    intro ω q hq
    congr 2
    exact sum_congr rfl fun l _ => by rw [hent ω q (mem_range.mp hq) l]
  have e2 := fun ω => sum_congr rfl (e1 ω)
  simp only [e2]
  exact ⟨laso_total hL hk hd hn (by omega) hτ hsign x _ hsc, laso_second hL hL2 hk hd hn (by omega) hτ hsign x _ hsc⟩

/-- C92 (moments, wide). Over all words that a generator may yield (as in C60), the squared norm of the product of a wide long-axis operator, scaled by `isometry_scale`,
with a vector `x` has the average `θ = n Σ p_j x_j²` and the mean squared deviation from it is at most `(2 θ² + n²/k Σ p_j x_j⁴) / d`, where `d` is the number of rows, `n` that of
columns, `k` the number of samples per row and `p_j` the fraction of words that are mapped to column `j`. -/
theorem C92_moments_wide [NeZero N] [Field R] [LinearOrder R] [IsStrictOrderedRing R] [FloorRing R] [Fintype W] [Nonempty W] {L : Nat} [NeZero L]
    {G : Gen N K W R} {τ : W → W} {order : Int → List (Int × ℝ) → List (Int × ℝ)} {S : SparseSkOp N K ℝ} (hG : G.Ok) (hL : G.len = L)
    (hu : ∀ w, -1 ≤ G.uneg11 w ∧ G.uneg11 w < 1) (hτ : Function.Involutive τ) (hsign : ∀ w, 0 ≤ G.uneg11 (τ w) ↔ ¬ 0 ≤ G.uneg11 w)
    (hord : ∀ i l, (order i l).Perm l) (hS : SparseOpOk S) (hax : S.dist.majorAxis = .Long) (hN : 2 * S.dist.fullNnz ≤ N) (hdim : S.nRows ≤ S.nCols) :
    ∃ A : (ZMod N × ZMod L → W) → Int → Int → ℝ,
    (∀ ω, M.wp (fillSparse (fromWords G ω) Real.sqrt order) S (fun _ S' => ∃ E, OpHolds S' E ∧ toMat E = A ω)) ∧
    ∀ (x : Int → ℝ) (θ : ℝ), θ = S.nCols * ∑ j ∈ range S.nCols.toNat, indexProb G S.nCols j * x j ^ 2 →
      (∑ ω, ∑ i ∈ range S.nRows.toNat, (S.dist.isometryScale * ∑ j ∈ range S.nCols.toNat, A ω i j * x j) ^ 2) / Fintype.card (ZMod N × ZMod L → W) = θ ∧
      (∑ ω, (∑ i ∈ range S.nRows.toNat, (S.dist.isometryScale * ∑ j ∈ range S.nCols.toNat, A ω i j * x j) ^ 2 - θ) ^ 2) /
        Fintype.card (ZMod N × ZMod L → W) ≤
      (2 * θ ^ 2 + (S.nCols : ℝ) ^ 2 / S.dist.vecNnz * ∑ j ∈ range S.nCols.toNat, indexProb G S.nCols j * x j ^ 4) / S.nRows := by
  obtain ⟨k, d, n, A, hk, hd, hn, ek, ed, en, hA, h⟩ := laso_moments (τ := τ) hG hL hu hτ hsign hord hS hax hN
  rw [min_eq_left hdim] at ed
  rw [max_eq_right hdim] at en
  have hd' : (0 : ℝ) < d := by exact_mod_cast hd
  have hk' : (0 : ℝ) < k := by exact_mod_cast hk
  refine ⟨A, hA, fun x θ hθ => ?_⟩
  have hx := h x
  simp only [if_pos hdim] at hx
  rw [ek, ed, en] at *
  simp only [Int.toNat_natCast, Int.cast_natCast] at *
  rw [← hθ] at hx
  refine ⟨hx.1, (deviation _ hx.1 hx.2).trans (le_of_eq ?_)⟩
  field_simp
  ring

/-- C92 (moments, tall). The transposed statement. -/
theorem C92_moments_tall [NeZero N] [Field R] [LinearOrder R] [IsStrictOrderedRing R] [FloorRing R] [Fintype W] [Nonempty W] {L : Nat} [NeZero L]
    {G : Gen N K W R} {τ : W → W} {order : Int → List (Int × ℝ) → List (Int × ℝ)} {S : SparseSkOp N K ℝ} (hG : G.Ok) (hL : G.len = L)
    (hu : ∀ w, -1 ≤ G.uneg11 w ∧ G.uneg11 w < 1) (hτ : Function.Involutive τ) (hsign : ∀ w, 0 ≤ G.uneg11 (τ w) ↔ ¬ 0 ≤ G.uneg11 w)
    (hord : ∀ i l, (order i l).Perm l) (hS : SparseOpOk S) (hax : S.dist.majorAxis = .Long) (hN : 2 * S.dist.fullNnz ≤ N) (hdim : S.nCols < S.nRows) :
    ∃ A : (ZMod N × ZMod L → W) → Int → Int → ℝ,
    (∀ ω, M.wp (fillSparse (fromWords G ω) Real.sqrt order) S (fun _ S' => ∃ E, OpHolds S' E ∧ toMat E = A ω)) ∧
    ∀ (x : Int → ℝ) (θ : ℝ), θ = S.nRows * ∑ i ∈ range S.nRows.toNat, indexProb G S.nRows i * x i ^ 2 →
      (∑ ω, ∑ j ∈ range S.nCols.toNat, (S.dist.isometryScale * ∑ i ∈ range S.nRows.toNat, A ω i j * x i) ^ 2) / Fintype.card (ZMod N × ZMod L → W) = θ ∧
      (∑ ω, (∑ j ∈ range S.nCols.toNat, (S.dist.isometryScale * ∑ i ∈ range S.nRows.toNat, A ω i j * x i) ^ 2 - θ) ^ 2) /
        Fintype.card (ZMod N × ZMod L → W) ≤
      (2 * θ ^ 2 + (S.nRows : ℝ) ^ 2 / S.dist.vecNnz * ∑ i ∈ range S.nRows.toNat, indexProb G S.nRows i * x i ^ 4) / S.nCols := by
  obtain ⟨k, d, n, A, hk, hd, hn, ek, ed, en, hA, h⟩ := laso_moments (τ := τ) hG hL hu hτ hsign hord hS hax hN
  rw [min_eq_right hdim.le] at ed
  rw [max_eq_left hdim.le] at en
  have hd' : (0 : ℝ) < d := by exact_mod_cast hd
  have hk' : (0 : ℝ) < k := by exact_mod_cast hk
  refine ⟨A, hA, fun x θ hθ => ?_⟩
  have hx := h x
  simp only [if_neg (not_le.mpr hdim)] at hx
  rw [ek, ed, en] at *
  simp only [Int.toNat_natCast, Int.cast_natCast] at *
  rw [← hθ] at hx
  refine ⟨hx.1, (deviation _ hx.1 hx.2).trans (le_of_eq ?_)⟩
  field_simp
  ring

/-- The deviation from the squared norm of `x`. -/
theorem laso_deviation {n d k Mw : Nat} (hn : 0 < n) (hd : 0 < d) (hk : 0 < k) {p : Nat → ℝ} (hp : ∀ l < n, |p l - 1 / (n : ℝ)| ≤ 1 / Mw) (x : Nat → ℝ) {ρ : ℝ}
    (hρ : ∑ l ∈ range n, x l ^ 4 ≤ ρ * (∑ l ∈ range n, x l ^ 2) ^ 2) :
    (n : ℝ) ^ 2 / (d * k) * (∑ l ∈ range n, p l * x l ^ 4) + (1 + 2 / d) * (n * ∑ l ∈ range n, p l * x l ^ 2) ^ 2 -
      2 * (∑ l ∈ range n, x l ^ 2) * (n * ∑ l ∈ range n, p l * x l ^ 2) + (∑ l ∈ range n, x l ^ 2) ^ 2 ≤
    ((2 * (1 + (n : ℝ) / Mw) ^ 2 + (1 + (n : ℝ) / Mw) * (n * ρ / k)) / d + ((n : ℝ) / Mw) ^ 2) * (∑ l ∈ range n, x l ^ 2) ^ 2 := by
  have hn' : (0 : ℝ) < n := by exact_mod_cast hn
  have hd' : (0 : ℝ) < d := by exact_mod_cast hd
  have hk' : (0 : ℝ) < k := by exact_mod_cast hk
  have h1 := weighted_bound hn hp x
  have hb : 0 ≤ (n : ℝ) / Mw := by positivity
  have h4 : (n : ℝ) * ∑ l ∈ range n, p l * x l ^ 4 ≤ (1 + (n : ℝ) / Mw) * (ρ * (∑ l ∈ range n, x l ^ 2) ^ 2) := by
    refine le_trans ?_ (mul_le_mul_of_nonneg_left hρ (by positivity))
    rw [mul_sum, mul_sum]
    refine sum_le_sum fun l hl => ?_
    have h := (abs_le.mp (hp l (mem_range.mp hl))).2
    have : n * p l ≤ 1 + (n : ℝ) / Mw := by
      have := mul_le_mul_of_nonneg_left h hn'.le
      rw [mul_sub, mul_one_div_cancel hn'.ne', mul_one_div] at this
      linarith
    rw [← mul_assoc]
    exact mul_le_mul_of_nonneg_right this (by positivity)
  have ht : 0 ≤ ∑ l ∈ range n, x l ^ 2 := sum_nonneg fun l _ => sq_nonneg _
  generalize ∑ l ∈ range n, p l * x l ^ 4 = κ at *
  generalize (n : ℝ) * ∑ l ∈ range n, p l * x l ^ 2 = θ at *
  generalize ∑ l ∈ range n, x l ^ 2 = t at *
  generalize (n : ℝ) / Mw = b at *
  have hθ2 : (θ - t) ^ 2 ≤ b ^ 2 * t ^ 2 := by
    rw [← mul_pow, ← sq_abs]
    exact pow_le_pow_left₀ (abs_nonneg _) h1 2
  have hθ3 : θ ^ 2 ≤ (1 + b) ^ 2 * t ^ 2 := by
    rw [← mul_pow, ← sq_abs]
    refine pow_le_pow_left₀ (abs_nonneg _) ?_ 2
    have := abs_le.mp h1
    rw [abs_le]
    constructor <;> nlinarith
  have e1 : (n : ℝ) ^ 2 / (d * k) * κ = (n / (d * k)) * (n * κ) := by ring
  have h5 := mul_le_mul_of_nonneg_left h4 (show 0 ≤ (n : ℝ) / (d * k) by positivity)
  have h6 := mul_le_mul_of_nonneg_left hθ3 (show (0 : ℝ) ≤ 2 / d by positivity)
  have e2 : ((2 * (1 + b) ^ 2 + (1 + b) * (n * ρ / k)) / d + b ^ 2) * t ^ 2 = 2 / d * ((1 + b) ^ 2 * t ^ 2) + (n : ℝ) / (d * k) * ((1 + b) * (ρ * t ^ 2)) + b ^ 2 * t ^ 2 := by
    field_simp
  rw [e1, e2]
  nlinarith

/-- C92 (distortion, wide). Let the uniform values be the midpoints of `M` equal intervals of [-1, 1], one for each word, and `Σ x_j⁴ ≤ ρ ‖x‖⁴`. The squared norm of the scaled product differs from
`‖x‖²` by more than `ε ‖x‖²` for at most a fraction `((2 (1 + n/M)² + (1 + n/M) n ρ / k) / d + (n/M)²) / ε²` of the choices of the words. (`ρ` is at most `1`, and `1/n` if the
entries of `x` have the same magnitude.) -/
theorem C92_distortion_wide [NeZero N] [Field R] [LinearOrder R] [IsStrictOrderedRing R] [FloorRing R] [Fintype W] [Nonempty W] {L : Nat} [NeZero L]
    {G : Gen N K W R} {τ : W → W} {order : Int → List (Int × ℝ) → List (Int × ℝ)} {S : SparseSkOp N K ℝ} (hG : G.Ok) (hL : G.len = L)
    (hu : ∀ w, -1 ≤ G.uneg11 w ∧ G.uneg11 w < 1) (hτ : Function.Involutive τ) (hsign : ∀ w, 0 ≤ G.uneg11 (τ w) ↔ ¬ 0 ≤ G.uneg11 w)
    (hord : ∀ i l, (order i l).Perm l) (hS : SparseOpOk S) (hax : S.dist.majorAxis = .Long) (hN : 2 * S.dist.fullNnz ≤ N) (hdim : S.nRows ≤ S.nCols)
    {Mw : Nat} (e : W ≃ Fin Mw) (hmid : ∀ w, (G.uneg11 w + 1) / 2 = (((e w : Nat) : R) + 1 / 2) / Mw) :
    ∃ A : (ZMod N × ZMod L → W) → Int → Int → ℝ,
    (∀ ω, M.wp (fillSparse (fromWords G ω) Real.sqrt order) S (fun _ S' => ∃ E, OpHolds S' E ∧ toMat E = A ω)) ∧
    ∀ (x : Int → ℝ) (ρ ε : ℝ), 0 ≤ ρ → ∑ j ∈ range S.nCols.toNat, x j ^ 4 ≤ ρ * (∑ j ∈ range S.nCols.toNat, x j ^ 2) ^ 2 → 0 < ε →
      ((univ.filter fun ω => ε * ∑ j ∈ range S.nCols.toNat, x j ^ 2 <
        |∑ i ∈ range S.nRows.toNat, (S.dist.isometryScale * ∑ j ∈ range S.nCols.toNat, A ω i j * x j) ^ 2 - ∑ j ∈ range S.nCols.toNat, x j ^ 2|).card : ℝ) /
        Fintype.card (ZMod N × ZMod L → W) ≤
      ((2 * (1 + (S.nCols : ℝ) / Mw) ^ 2 + (1 + (S.nCols : ℝ) / Mw) * (S.nCols * ρ / S.dist.vecNnz)) / S.nRows + ((S.nCols : ℝ) / Mw) ^ 2) / ε ^ 2 := by
  obtain ⟨k, d, n, A, hk, hd, hn, ek, ed, en, hA, h⟩ := laso_moments (τ := τ) hG hL hu hτ hsign hord hS hax hN
  rw [min_eq_left hdim] at ed
  rw [max_eq_right hdim] at en
  have hM : 0 < Mw := by obtain ⟨w⟩ := ‹Nonempty W›; exact (e w).pos
  refine ⟨A, hA, fun x ρ ε hρ0 hρ hε => ?_⟩
  have hx := h x
  simp only [if_pos hdim] at hx
  rw [ek, ed, en] at *
  simp only [Int.toNat_natCast, Int.cast_natCast] at *
  have hp : ∀ l < n, |indexProb G n l - 1 / (n : ℝ)| ≤ 1 / Mw := by
    intro l hl
    have := C60_index_probability (G := G) e hmid hM n l (by omega) (by omega)
    rwa [Int.cast_natCast] at this
  exact fraction_le _ (sum_nonneg fun j _ => sq_nonneg _) (by positivity) hε
    ((deviation _ hx.1 hx.2).trans (laso_deviation hn hd hk hp (fun l => x l) hρ))

/-- C92 (distortion, tall). The transposed statement. -/
theorem C92_distortion_tall [NeZero N] [Field R] [LinearOrder R] [IsStrictOrderedRing R] [FloorRing R] [Fintype W] [Nonempty W] {L : Nat} [NeZero L]
    {G : Gen N K W R} {τ : W → W} {order : Int → List (Int × ℝ) → List (Int × ℝ)} {S : SparseSkOp N K ℝ} (hG : G.Ok) (hL : G.len = L)
    (hu : ∀ w, -1 ≤ G.uneg11 w ∧ G.uneg11 w < 1) (hτ : Function.Involutive τ) (hsign : ∀ w, 0 ≤ G.uneg11 (τ w) ↔ ¬ 0 ≤ G.uneg11 w)
    (hord : ∀ i l, (order i l).Perm l) (hS : SparseOpOk S) (hax : S.dist.majorAxis = .Long) (hN : 2 * S.dist.fullNnz ≤ N) (hdim : S.nCols < S.nRows)
    {Mw : Nat} (e : W ≃ Fin Mw) (hmid : ∀ w, (G.uneg11 w + 1) / 2 = (((e w : Nat) : R) + 1 / 2) / Mw) :
    ∃ A : (ZMod N × ZMod L → W) → Int → Int → ℝ,
    (∀ ω, M.wp (fillSparse (fromWords G ω) Real.sqrt order) S (fun _ S' => ∃ E, OpHolds S' E ∧ toMat E = A ω)) ∧
    ∀ (x : Int → ℝ) (ρ ε : ℝ), 0 ≤ ρ → ∑ i ∈ range S.nRows.toNat, x i ^ 4 ≤ ρ * (∑ i ∈ range S.nRows.toNat, x i ^ 2) ^ 2 → 0 < ε →
      ((univ.filter fun ω => ε * ∑ i ∈ range S.nRows.toNat, x i ^ 2 <
        |∑ j ∈ range S.nCols.toNat, (S.dist.isometryScale * ∑ i ∈ range S.nRows.toNat, A ω i j * x i) ^ 2 - ∑ i ∈ range S.nRows.toNat, x i ^ 2|).card : ℝ) /
        Fintype.card (ZMod N × ZMod L → W) ≤
      ((2 * (1 + (S.nRows : ℝ) / Mw) ^ 2 + (1 + (S.nRows : ℝ) / Mw) * (S.nRows * ρ / S.dist.vecNnz)) / S.nCols + ((S.nRows : ℝ) / Mw) ^ 2) / ε ^ 2 := by
  obtain ⟨k, d, n, A, hk, hd, hn, ek, ed, en, hA, h⟩ := laso_moments (τ := τ) hG hL hu hτ hsign hord hS hax hN
  rw [min_eq_right hdim.le] at ed
  rw [max_eq_left hdim.le] at en
  have hM : 0 < Mw := by obtain ⟨w⟩ := ‹Nonempty W›; exact (e w).pos
  refine ⟨A, hA, fun x ρ ε hρ0 hρ hε => ?_⟩
  have hx := h x
  simp only [if_neg (not_le.mpr hdim)] at hx
  rw [ek, ed, en] at *
  simp only [Int.toNat_natCast, Int.cast_natCast] at *
  have hp : ∀ l < n, |indexProb G n l - 1 / (n : ℝ)| ≤ 1 / Mw := by
    intro l hl
    have := C60_index_probability (G := G) e hmid hM n l (by omega) (by omega)
    rwa [Int.cast_natCast] at this
  exact fraction_le _ (sum_nonneg fun j _ => sq_nonneg _) (by positivity) hε
    ((deviation _ hx.1 hx.2).trans (laso_deviation hn hd hk hp (fun l => x l) hρ))

/-- No sample of any vector is the index `l`. -/
theorem laso_miss [NeZero N] [Field R] [LinearOrder R] [IsStrictOrderedRing R] [FloorRing R] [Fintype W] [Nonempty W] {L : Nat} [NeZero L]
    {G : Gen N K W R} {seed : RNGState N K} {k n d : Nat} (hL : G.len = L) (hL2 : 2 ≤ L) (hN : k * d ≤ N) (l : Int) :
    Pr (fun ω : ZMod N × ZMod L → W => ∀ q < d, occurrences (lasoSample (fromWords G ω) seed n k q) k l = 0) = (1 - indexProb G n l) ^ (k * d) := by
  classical
  have hW : (0 : ℝ) < Fintype.card W := by exact_mod_cast Fintype.card_pos
  have h1 : ∀ ω : ZMod N × ZMod L → W, (∀ q < d, occurrences (lasoSample (fromWords G ω) seed n k q) k l = 0) ↔
      ∀ z ∈ range d ×ˢ range k, ⌊((n : Int) : R) * ((G.uneg11 (ω (lasoPos seed k z.1 (2 * (z.2 : Int)))) + 1) / 2)⌋ ≠ l := by
    intro ω
    simp only [lasoSample_pos hL, occurrences, Int.toNat_natCast, card_eq_zero, filter_eq_empty_iff, mem_range, mem_product]
    exact ⟨fun h z hz => h z.1 hz.1 hz.2, fun h q hq t ht => h (q, t) ⟨hq, ht⟩⟩
  rw [pr_congr h1, pr_forall (range d ×ˢ range k) (S := fun z a => a = lasoPos seed k z.1 (2 * (z.2 : Int)))
    (p := fun z ω => ⌊((n : Int) : R) * ((G.uneg11 (ω (lasoPos seed k z.1 (2 * (z.2 : Int)))) + 1) / 2)⌋ ≠ l)]
  · have h2 : ∀ z ∈ range d ×ˢ range k, Pr (fun ω : ZMod N × ZMod L → W =>
        ⌊((n : Int) : R) * ((G.uneg11 (ω (lasoPos seed k z.1 (2 * (z.2 : Int)))) + 1) / 2)⌋ ≠ l) = 1 - indexProb G n l := by
      intro z _
      rw [pr_eval (lasoPos seed k z.1 (2 * (z.2 : Int))) fun w => ⌊((n : Int) : R) * ((G.uneg11 w + 1) / 2)⌋ ≠ l, pr_eq]
      unfold indexProb
      rw [eq_sub_iff_add_eq, ← add_div, div_eq_one_iff_eq hW.ne', add_comm]
      have := card_filter_add_card_filter_not (s := (univ : Finset W)) (p := fun w => ⌊((n : Int) : R) * ((G.uneg11 w + 1) / 2)⌋ = l)
      rw [card_univ] at this
      exact_mod_cast this
    rw [prod_congr rfl h2, prod_const, card_product, card_range, card_range, mul_comm]
  · intro z _ ω ω' h
    beta_reduce
    rw [h _ rfl]
  · rintro ⟨q, t⟩ hz ⟨q', t'⟩ hz' hne a ha ha'
    rw [mem_product, mem_range, mem_range] at hz hz'
    obtain ⟨e1, e2⟩ := lasoPos_inj hL2 hN hz.1 hz'.1 (by dsimp only at *; omega) (by dsimp only at *; omega) (by dsimp only at *; omega) (by dsimp only at *; omega) (ha.symm.trans ha')
    exact hne (by dsimp only at *; rw [e1, show t = t' by omega])

/-- C92 (blind coordinates). Column `j` of a wide long-axis operator (row `j` of a tall one), hence the product with the coordinate vector `j`, is zero for the fraction `(1 - p_j)^(k d)` of the choices of the
words. The factor `n ρ / (k d)` of the distortion bound can therefore not be replaced by one that does not depend on `x`. -/
theorem C92_blind [NeZero N] [Field R] [LinearOrder R] [IsStrictOrderedRing R] [FloorRing R] [Fintype W] [Nonempty W] {L : Nat} [NeZero L]
    {G : Gen N K W R} {order : Int → List (Int × ℝ) → List (Int × ℝ)} {S : SparseSkOp N K ℝ} (hG : G.Ok) (hL : G.len = L)
    (hu : ∀ w, -1 ≤ G.uneg11 w ∧ G.uneg11 w < 1) (hord : ∀ i l, (order i l).Perm l) (hS : SparseOpOk S) (hax : S.dist.majorAxis = .Long)
    (hN : S.dist.fullNnz ≤ N) : ∃ A : (ZMod N × ZMod L → W) → Int → Int → ℝ,
    (∀ ω, M.wp (fillSparse (fromWords G ω) Real.sqrt order) S (fun _ S' => ∃ E, OpHolds S' E ∧ toMat E = A ω)) ∧
    ∀ j, Pr (fun ω => ∀ i : Int, 0 ≤ i → i < min S.nRows S.nCols → (if S.nRows ≤ S.nCols then A ω i j else A ω j i) = 0) =
      (1 - indexProb G (max S.nRows S.nCols) j) ^ S.dist.fullNnz.toNat := by
  obtain ⟨k, d, n, A, hk, hd, hn, ek, ef, ed, en, hsc, hA, hent⟩ := laso_fill (L := L) hG hu hord hS hax
  have hL2 : 2 ≤ L := by rcases hG with h | h <;> omega
  rw [ef] at hN
  refine ⟨A, hA, fun j => ?_⟩
  rw [ed, en, ef, Int.toNat_natCast, ← laso_miss (G := G) (seed := S.seedState) (k := k) (n := n) (d := d) hL hL2 (by exact_mod_cast hN) j]
  refine pr_congr fun ω => ⟨fun h q hq => ?_, fun h i h0 h1 => ?_⟩
  · have h2 := h q (by omega) (by omega)
    rw [hent ω q hq j] at h2
    by_contra hc
    have h3 : (0 : ℝ) < occurrences (lasoSample (fromWords G ω) S.seedState n k q) k j := by exact_mod_cast Nat.pos_of_ne_zero hc
    rcases mul_eq_zero.mp h2 with h4 | h4
    · exact absurd h4 (Real.sqrt_pos.mpr h3).ne'
    · unfold lasoSampleSign at h4
      split_ifs at h4 <;> norm_num at h4
  · obtain ⟨q, rfl⟩ : ∃ q : Nat, i = q := ⟨i.toNat, by omega⟩
    rw [hent ω q (by omega) j, h q (by omega)]
    simp

/-- The hypotheses are met by the generator of 32-bit words of C60 and by a wide and a tall operator; `ρ = 1/2` is possible for `x = (1, 1, 0, ...)`. -/
example : midGen.Ok ∧ midGen.len = (4 : Nat) ∧ SparseOpOk (mkSparseSkOp 4 exLaso ⟨0, 7⟩ : SparseSkOp (2 ^ 128) Nat ℝ) ∧ exLaso.majorAxis = .Long ∧
    2 * exLaso.fullNnz ≤ ((2 ^ 128 : Nat) : Int) ∧ exLaso.nRows ≤ exLaso.nCols ∧
    SparseOpOk (mkSparseSkOp 4 exLasoTall ⟨0, 7⟩ : SparseSkOp (2 ^ 128) Nat ℝ) ∧ exLasoTall.majorAxis = .Long ∧
    2 * exLasoTall.fullNnz ≤ ((2 ^ 128 : Nat) : Int) ∧ exLasoTall.nCols < exLasoTall.nRows ∧
    ∑ j ∈ range 8, (if (j : Int) < 2 then (1 : ℝ) else 0) ^ 4 ≤ 1 / 2 * (∑ j ∈ range 8, (if (j : Int) < 2 then (1 : ℝ) else 0) ^ 2) ^ 2 := by
  refine ⟨Or.inr rfl, rfl, mkSparseSkOp_ok 4 exLaso_ok _, rfl, by decide, by decide,
    mkSparseSkOp_ok 4 (show SparseDistOk exLasoTall from ⟨by decide, by decide⟩) _, rfl, by decide, by decide, ?_⟩
  simp only [sum_range_succ, sum_range_zero]
  norm_num

end RB
