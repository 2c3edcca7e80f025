import Verif.Props.Embedding
import Verif.Props.Tls
import Verif.Lemmas.SvdExists

/-!
# C85: the solution of a sketched total least squares problem

The computation of the two example programs for total least squares: what they compute for every choice of the words, and how good a solution of the original problem it is for
all but a small fraction of the choices.
-/

namespace RB
open Spec Finset
variable {N : Nat} {K W WS R : Type}

/-! ## Perturbations and residuals -/

/-- The vector `(x, -1)`. -/
def aug (n : Int) (x : Int → ℝ) : Int → ℝ := fun j => if j < n then x j else -1

/-- Its squared norm. -/
def augSq (n : Int) (x : Int → ℝ) : ℝ := ∑ j ∈ range (n + 1).toNat, aug n x j ^ 2

theorem augSq_pos {n : Int} (hn : 0 ≤ n) (x : Int → ℝ) : 0 < augSq n x := by
  have h1 : (aug n x ((n.toNat : Nat) : Int)) ^ 2 ≤ augSq n x := by
    unfold augSq
    exact single_le_sum (f := fun j : Nat => aug n x j ^ 2) (fun _ _ => sq_nonneg _) (mem_range.mpr (by omega))
  rw [aug, if_neg (by omega)] at h1
  linarith

theorem solves_iff {m n : Int} (hn : 0 ≤ n) {AB E : Int → Int → ℝ} {x : Int → ℝ} :
    SolvesPerturbed m n AB E x ↔ ∀ i, 0 ≤ i → i < m → ∑ j ∈ range (n + 1).toNat, AB i j * aug n x j = -∑ j ∈ range (n + 1).toNat, E i j * aug n x j := by
  have hN : (n + 1).toNat = n.toNat + 1 := by omega
  have hnn : ((n.toNat : Nat) : Int) = n := Int.toNat_of_nonneg hn
  have hs : ∀ (C : Int → Int → ℝ) i, ∑ j ∈ range (n + 1).toNat, C i j * aug n x j = ∑ j ∈ range n.toNat, C i j * x j - C i n := by
    intro C i
    rw [hN, sum_range_succ, hnn, aug, if_neg (lt_irrefl _)]
    rw [sum_congr rfl fun (j : Nat) hj => by rw [aug, if_pos (by rw [mem_range] at hj; omega)]]
    ring
  constructor
  · intro h i h0 h1
    have := h i h0 h1
    simp only [add_mul, sum_add_distrib] at this
    rw [hs AB, hs E]
    linarith
  · intro h i h0 h1
    have := h i h0 h1
    rw [hs AB, hs E] at this
    simp only [add_mul, sum_add_distrib]
    linarith

theorem exists_perturbation {m n : Int} (hn : 0 ≤ n) (AB : Int → Int → ℝ) (x : Int → ℝ) :
    ∃ E, SolvesPerturbed m n AB E x ∧ frobSq m (n + 1) E * augSq n x = sqNorm m (n + 1) AB (aug n x) := by
  have hp := augSq_pos hn x
  refine ⟨fun i j => -(∑ k ∈ range (n + 1).toNat, AB i k * aug n x k) * aug n x j / augSq n x, (solves_iff hn).mpr fun i _ _ => ?_, ?_⟩
  · have : ∀ j : Nat, -(∑ k ∈ range (n + 1).toNat, AB i k * aug n x k) * aug n x j / augSq n x * aug n x j =
        -(∑ k ∈ range (n + 1).toNat, AB i k * aug n x k) / augSq n x * aug n x j ^ 2 := fun j => by ring
    simp only [this, ← mul_sum]
    rw [show ∑ j ∈ range (n + 1).toNat, aug n x j ^ 2 = augSq n x from rfl]
    field_simp
  · unfold frobSq sqNorm
    rw [sum_mul]
    refine sum_congr rfl fun i _ => ?_
    have : ∀ j : Nat, -(∑ k ∈ range (n + 1).toNat, AB i k * aug n x k) * aug n x j / augSq n x * (-(∑ k ∈ range (n + 1).toNat, AB i k * aug n x k) * aug n x j / augSq n x) =
        (∑ k ∈ range (n + 1).toNat, AB i k * aug n x k) ^ 2 / augSq n x ^ 2 * aug n x j ^ 2 := fun j => by ring
    simp only [this, ← mul_sum]
    rw [show ∑ j ∈ range (n + 1).toNat, aug n x j ^ 2 = augSq n x from rfl]
    field_simp

theorem residual_le {m n : Int} (hn : 0 ≤ n) {AB E : Int → Int → ℝ} {x : Int → ℝ} (h : SolvesPerturbed m n AB E x) :
    sqNorm m (n + 1) AB (aug n x) ≤ frobSq m (n + 1) E * augSq n x := by
  rw [solves_iff hn] at h
  unfold sqNorm frobSq
  rw [sum_mul]
  refine sum_le_sum fun i hi => ?_
  rw [mem_range] at hi
  rw [h i (by omega) (by omega), neg_sq]
  refine (sum_mul_sq_le_sq_mul_sq _ _ _).trans (le_of_eq ?_)
  unfold augSq
  simp only [sq]

/-- If a multiple of `B` is an embedding of `[A, b]`, then the solution of the total least squares problem for `B` is nearly a solution for `[A, b]`. -/
theorem near_tls {ε c : ℝ} (hε0 : 0 ≤ ε) (hε : ε < 1) {m d n : Int} (hn : 0 ≤ n) {AB B : Int → Int → ℝ}
    (h : Embeds ε m d (n + 1) AB (fun i j => c * B i j)) {x : Int → ℝ} (hx : IsTls d n B x) : IsNearTls ((1 + ε) / (1 - ε)) m n AB x := by
  have hc : ∀ z, sqNorm d (n + 1) (fun i j => c * B i j) z = c ^ 2 * sqNorm d (n + 1) B z := by
    intro z
    unfold sqNorm
    rw [mul_sum]
    refine sum_congr rfl fun i _ => ?_
    simp only [mul_assoc]
    rw [← mul_sum, mul_pow]
  obtain ⟨E0, h1, hmin⟩ := hx
  obtain ⟨E, hE, hfE⟩ := exists_perturbation (m := m) hn AB x
  refine ⟨E, hE, fun E' x' hE' => ?_⟩
  obtain ⟨F, hF, hfF⟩ := exists_perturbation (m := d) hn B x'
  have p := augSq_pos hn x
  have p' := augSq_pos hn x'
  have r1 : sqNorm d (n + 1) B (aug n x) * augSq n x' ≤ sqNorm d (n + 1) B (aug n x') * augSq n x := by
    calc sqNorm d (n + 1) B (aug n x) * augSq n x' ≤ frobSq d (n + 1) E0 * augSq n x * augSq n x' := mul_le_mul_of_nonneg_right (residual_le hn h1) p'.le
      _ ≤ frobSq d (n + 1) F * augSq n x * augSq n x' := mul_le_mul_of_nonneg_right (mul_le_mul_of_nonneg_right (hmin F x' hF) p.le) p'.le
      _ = frobSq d (n + 1) F * augSq n x' * augSq n x := by ring
      _ = _ := by rw [hfF]
  have e1 := (abs_le.mp (h (aug n x))).1
  have e2 := (abs_le.mp (h (aug n x'))).2
  rw [hc] at e1 e2
  have r2 := residual_le hn hE'
  have r3 : c ^ 2 * (sqNorm d (n + 1) B (aug n x) * augSq n x') ≤ c ^ 2 * (sqNorm d (n + 1) B (aug n x') * augSq n x) :=
    mul_le_mul_of_nonneg_left r1 (sq_nonneg c)
  have r4 : (1 - ε) * sqNorm m (n + 1) AB (aug n x) * augSq n x' ≤ c ^ 2 * sqNorm d (n + 1) B (aug n x) * augSq n x' :=
    mul_le_mul_of_nonneg_right (by linarith) p'.le
  have r5 : c ^ 2 * sqNorm d (n + 1) B (aug n x') * augSq n x ≤ (1 + ε) * sqNorm m (n + 1) AB (aug n x') * augSq n x :=
    mul_le_mul_of_nonneg_right (by linarith) p.le
  have hpos : 0 < augSq n x * augSq n x' := mul_pos p p'
  rw [div_mul_eq_mul_div, le_div_iff₀ (by linarith)]
  refine le_of_mul_le_mul_right (a := augSq n x * augSq n x') ?_ hpos
  have l1 : frobSq m (n + 1) E * (1 - ε) * (augSq n x * augSq n x') = (1 - ε) * sqNorm m (n + 1) AB (aug n x) * augSq n x' := by rw [← hfE]; ring
  rw [l1]
  have l2 : (1 - ε) * sqNorm m (n + 1) AB (aug n x) * augSq n x' ≤ (1 + ε) * sqNorm m (n + 1) AB (aug n x') * augSq n x := by
    linarith [r3, r4, r5]
  refine l2.trans ?_
  calc (1 + ε) * sqNorm m (n + 1) AB (aug n x') * augSq n x ≤ (1 + ε) * (frobSq m (n + 1) E' * augSq n x') * augSq n x :=
      mul_le_mul_of_nonneg_right (mul_le_mul_of_nonneg_left r2 (by linarith)) p.le
    _ = _ := by ring

/-! ## The two programs -/

/-- The assumption of C68 about the problem [A, b] with `d` rows: the last entry of the singular vector that is computed is not 0. -/
def Spec.Generic (svd : Int → Int → (Int → Int → ℝ) → Svd ℝ) (d n : Int) (B : Int → Int → ℝ) : Prop :=
  ∀ F, (∀ i j, InR d (n + 1) i j → F i j = B i j) → (svd d (n + 1) F).vt n n ≠ 0

/-- The m x (n+1) problem `AB = [A, b]` has a gap: some vector `z` is mapped by [A, b] to a shorter one, relative to its length, than every vector is by A; with the
factor `(1+ε)/(1-ε)` between the squares of the two ratios. (The smallest singular value of [A, b] is less than that of A; this is the condition under which the total least
squares problem has a unique solution.) -/
def Spec.Gap (ε : ℝ) (m n : Int) (AB : Int → Int → ℝ) : Prop :=
  ∃ z : Int → ℝ, ∀ y : Int → ℝ, y n = 0 → ∑ j ∈ range n.toNat, y j ^ 2 = 1 →
    (1 + ε) * sqNorm m (n + 1) AB z < (1 - ε) * sqNorm m (n + 1) AB y * ∑ j ∈ range (n + 1).toNat, z j ^ 2

/-- A problem with a gap is generic. -/
theorem generic_of_gap {svd : Int → Int → (Int → Int → ℝ) → Svd ℝ} {m n : Int} (hn : 0 ≤ n) (hm : n + 1 ≤ m) {AB : Int → Int → ℝ} (hsvd : SvdFor svd m (n + 1) AB)
    (hgap : Gap 0 m n AB) : Generic svd m n AB := by
  intro G hG hlast
  have hF := hsvd G hG
  generalize svd m (n + 1) G = F at hF hlast
  obtain ⟨hU, hV, hnn, hsort, hprod⟩ := hF
  rw [min_eq_right hm] at hU hV hnn hsort hprod
  have hV' := ortho_square (V := F.vt) hV
  have hmin : ∀ l, 0 ≤ l → l ≤ n → F.s n ≤ F.s l := by
    intro l h0 hl
    obtain ⟨k, rfl⟩ : ∃ k : Nat, l = n - k := ⟨(n - l).toNat, by omega⟩
    clear hl
    induction k with
    | zero => simp
    | succ k ih =>
      refine (ih (by push_cast at h0; omega)).trans ?_
      have := hsort (n - (k + 1 : Nat)) h0 (by omega)
      rwa [show n - ((k + 1 : Nat) : Int) + 1 = n - k by push_cast; ring] at this
  have hABz : ∀ (z : Int → ℝ) i, 0 ≤ i → i < m → ∑ j ∈ range (n + 1).toNat, AB i j * z j =
      ∑ l ∈ range (n + 1).toNat, F.u i l * (F.s l * ∑ j ∈ range (n + 1).toNat, F.vt l j * z j) := by
    intro z i h0 hi
    have : ∑ j ∈ range (n + 1).toNat, AB i j * z j = prodEntry (n + 1) (prodEntry (n + 1) (fun i l => F.u i l * F.s l) F.vt) (fun j _ => z j) i 0 := by
      unfold prodEntry
      refine sum_congr rfl fun j hj => ?_
      have hj := mem_range.1 hj
      rw [← hprod i j ⟨h0, hi, by omega, by omega⟩, prodEntry]
    rw [this, prodEntry_assoc]
    unfold prodEntry
    exact sum_congr rfl fun l _ => by ring
  have hnorm : ∀ z, sqNorm m (n + 1) AB z = ∑ l ∈ range (n + 1).toNat, (F.s l * ∑ j ∈ range (n + 1).toNat, F.vt l j * z j) ^ 2 := by
    intro z
    have h1 := ortho_norm hU fun l => F.s l * ∑ j ∈ range (n + 1).toNat, F.vt l j * z j
    unfold dotV at h1
    simp only [sq]
    rw [← h1]
    unfold sqNorm
    refine sum_congr rfl fun i hi => ?_
    rw [mem_range] at hi
    rw [hABz z i (by omega) (by omega), sq]
  have hVn : ∀ z : Int → ℝ, ∑ l ∈ range (n + 1).toNat, (∑ j ∈ range (n + 1).toNat, F.vt l j * z j) ^ 2 = ∑ j ∈ range (n + 1).toNat, z j ^ 2 := by
    intro z
    have h1 := ortho_norm hV' z
    unfold dotV at h1
    simpa only [sq] using h1
  have hray : ∀ z : Int → ℝ, F.s n ^ 2 * ∑ j ∈ range (n + 1).toNat, z j ^ 2 ≤ sqNorm m (n + 1) AB z := by
    intro z
    rw [hnorm, ← hVn, mul_sum]
    refine sum_le_sum fun l hl => ?_
    rw [mem_range] at hl
    rw [mul_pow]
    exact mul_le_mul_of_nonneg_right (pow_le_pow_left₀ (hnn n hn (by omega)) (hmin l (by omega) (by omega)) 2) (sq_nonneg _)
  have hy : sqNorm m (n + 1) AB (fun j => F.vt n j) = F.s n ^ 2 := by
    rw [hnorm, sum_eq_single n.toNat]
    · have := hV n n ⟨hn, by omega, hn, by omega⟩
      rw [if_pos rfl] at this
      unfold prodEntry at this
      rw [Int.toNat_of_nonneg hn, this, mul_one]
    · intro l hl hne
      rw [mem_range] at hl
      have := hV l n ⟨by omega, by omega, hn, by omega⟩
      rw [if_neg (by omega)] at this
      unfold prodEntry at this
      rw [this, mul_zero, sq, mul_zero]
    · intro h; exact absurd (mem_range.2 (by omega)) h
  obtain ⟨z, hz⟩ := hgap
  have h1 := hz (fun j => F.vt n j) hlast (by
    have := hV n n ⟨hn, by omega, hn, by omega⟩
    rw [if_pos rfl] at this
    unfold prodEntry at this
    rw [sum_succ' hn (fun j => F.vt n j * F.vt n j), Int.toNat_of_nonneg hn, hlast, mul_zero, add_zero] at this
    simpa only [sq] using this)
  rw [hy] at h1
  have := hray z
  linarith

/-- An embedding of a problem with a gap has a gap. -/
theorem gap_of_embeds {ε c : ℝ} {m d n : Int} {AB B : Int → Int → ℝ} (h : Embeds ε m d (n + 1) AB (fun i j => c * B i j)) (hg : Gap ε m n AB) : Gap 0 d n B := by
  have hc : ∀ z, sqNorm d (n + 1) (fun i j => c * B i j) z = c ^ 2 * sqNorm d (n + 1) B z := by
    intro z
    unfold sqNorm
    rw [mul_sum]
    refine sum_congr rfl fun i _ => ?_
    rw [← mul_pow, mul_sum]
    simp only [mul_assoc]
  obtain ⟨z, hz⟩ := hg
  refine ⟨z, fun y h0 h1 => ?_⟩
  have g := hz y h0 h1
  have a := (abs_le.1 (h z)).2
  have b := (abs_le.1 (h y)).1
  rw [hc] at a b
  have hzn : 0 ≤ ∑ j ∈ range (n + 1).toNat, z j ^ 2 := sum_nonneg fun _ _ => sq_nonneg _
  have k1 : c ^ 2 * sqNorm d (n + 1) B z < c ^ 2 * (sqNorm d (n + 1) B y * ∑ j ∈ range (n + 1).toNat, z j ^ 2) := by
    calc c ^ 2 * sqNorm d (n + 1) B z ≤ (1 + ε) * sqNorm m (n + 1) AB z := by linarith
      _ < _ := g
      _ ≤ c ^ 2 * sqNorm d (n + 1) B y * ∑ j ∈ range (n + 1).toNat, z j ^ 2 := mul_le_mul_of_nonneg_right (by linarith) hzn
      _ = _ := by ring
  have k2 := lt_of_mul_lt_mul_left k1 (sq_nonneg c)
  linarith

/-- The arrays of the program: SAB has `d (n+1)` elements, sketch_x n, svals n+1 and VT (n+1)^2. -/
structure Spec.TlsAlloc (d n : Int) (t : TlsSt ℝ) : Prop where
  ab : Alloc t.ab .ColMajor d d (n + 1)
  x : ∀ i, 0 ≤ i → i < n → t.x i ≠ .none
  s : ∀ i, 0 ≤ i → i < n + 1 → t.s i ≠ .none
  vt : Alloc t.vt .ColMajor (n + 1) (n + 1) (n + 1)

section
variable [Field R] [LinearOrder R] [FloorRing R]

/-- C85 (dense operator, every choice of the words). The program computes a solution of the total least squares problem for `S [A, b]`, where `S` is the matrix that
the distribution and the seed determine. -/
theorem C85_dense {E : SkEnv N K W WS R ℝ} (hE : SkEnvOk E) {svd : Int → Int → (Int → Int → ℝ) → Svd ℝ} {seed : RNGState N K} {d m n : Int} {D : DenseDist}
    (hD : mkDenseDist d m .Gaussian .Long = .ok D) (hfit : d * m ≤ intMax 64) {Sm : Int → Int → ℝ} (hSm : Samples E.G E.sqrt3 D seed Sm) (hn : 0 ≤ n) (hd : n < d)
    {AB : Buf ℝ} {ABm : Int → Int → ℝ} (hAB : HoldsC AB m m (n + 1) ABm) {t : TlsSt ℝ} (ht : TlsAlloc d n t)
    (hsvd : SvdFor svd d (n + 1) (prodEntry m Sm ABm)) (hgen : Generic svd d n (prodEntry m Sm ABm)) :
    M.wp (tlsSketchedDense E svd seed d m n AB) t (fun _ t' => ∃ x, HoldsVec t'.x n x ∧ IsTls d n (prodEntry m Sm ABm) x) := by
  have hDok := denseDistOk_of_mk hD hfit
  obtain ⟨-, hm⟩ := mkDenseDist_pos hD
  have hDD := mkDenseDist_eq (r := d) (c := m) (fam := .Gaussian) (ax := .Long) (by omega) hm
  have hDr : D.nRows = d ∧ D.nCols = m := by
    rw [hDD] at hD; cases hD; exact ⟨rfl, rfl⟩
  unfold tlsSketchedDense
  rw [M.wp_bind, M.wp_lift]
  refine ⟨D, hD, ?_⟩
  obtain ⟨S, hS⟩ : ∃ S : DenseSkOp N K ℝ, mkDenseSkOp E.G.len D seed = .ok S := by
    have hlen : 0 < E.G.len := by rcases hE.gen with h | h <;> rw [h] <;> decide
    exact ⟨_, by unfold mkDenseSkOp; rw [denseNextState_eq hlen hDok]; rfl⟩
  obtain ⟨hok, h1, h2, h3, h4⟩ := mkDenseSkOp_ok hDok hS
  rw [M.wp_bind, M.wp_lift]
  refine ⟨S, hS, ?_⟩
  rw [M.wp_bind, M.wp_onLocal]
  refine M.wp_mono (denseIs_filled hE.gen hok (Or.inl h4) (by rw [h1, h2]; exact hSm)) ?_
  rintro _ S' ⟨hS', b', rfl⟩
  dsimp only
  have hr : S.nRows = d := by rw [hok.rows, h1]; exact hDr.1
  have hc : S.nCols = m := by rw [hok.cols, h1]; exact hDr.2
  rw [M.wp_bind, M.wp_zoom]
  refine M.wp_mono (C36_left_full_partial hE (S := .dense { S with buff := some b' }) (Sm := Sm) (alpha := 1) (beta := 0) (C := fun _ _ => 0) (Am := ABm) ⟨hS', ?_, ?_⟩ ?_ ?_ (by omega)
    (by omega) hm.le ?_ ?_ (fun _ => hAB) ht.ab (fun h => absurd rfl h)) ?_
  · exact ⟨le_rfl, le_rfl, by simp [rowsOf, hr], by simp [colsOf, hc]⟩
  · intro h; cases h
  · exact hr
  · exact hc
  · simp [LdOk, rowsOf]
  · simp [LdOk]
  rintro _ ⟨S1, sab⟩ ⟨g1, g2, -⟩
  have hB : HoldsC sab d d (n + 1) (prodEntry m Sm ABm) := fun i j hij => by
    have := g1 i j hij
    dsimp only [opMat] at this
    simpa using this
  refine M.wp_mono (C68_total_least_squares hn hd le_rfl hB ht.x ht.s ht.vt hsvd hgen) ?_
  rintro _ t' ⟨h, -⟩
  exact h

/-- C85 (short-axis operator, every choice of the words). -/
theorem C85_sparse [IsStrictOrderedRing R] {E : SkEnv N K W WS R ℝ} (hE : SkEnvOk E) {svd : Int → Int → (Int → Int → ℝ) → Svd ℝ} {seed : RNGState N K} {d m n k : Int} {D : SparseDist}
    (hD : mkSparseDist d m k .Short = .ok D) (hfit : 2 * (k * m) ≤ intMax 64) (hdm : d ≤ m) {Sm : Int → Int → ℝ} (hSm : SparseSamples E.GS E.sqrt D seed Sm)
    (hn : 0 ≤ n) (hd : n < d) {AB : Buf ℝ} {ABm : Int → Int → ℝ} (hAB : HoldsC AB m m (n + 1) ABm) {t : TlsSt ℝ} (ht : TlsAlloc d n t)
    (hsvd : SvdFor svd d (n + 1) (prodEntry m Sm ABm)) (hgen : Generic svd d n (prodEntry m Sm ABm)) :
    M.wp (tlsSketchedSparse E svd seed d m n k AB) t (fun _ t' => ∃ x, HoldsVec t'.x n x ∧ IsTls d n (prodEntry m Sm ABm) x) := by
  obtain ⟨h1, h2, h3, h4, h5, h6⟩ := sparseDist_of_mk hD
  rw [if_neg (by simp), max_eq_right hdm] at h5
  have hDok := h6 (by rw [h5]; exact hfit)
  have hok : SparseOpOk (mkSparseSkOp E.GS.len D seed : SparseSkOp N K ℝ) := mkSparseSkOp_ok _ hDok seed
  unfold tlsSketchedSparse
  rw [M.wp_bind, M.wp_lift]
  refine ⟨D, hD, ?_⟩
  obtain ⟨-, S', hfill, -, hS', -, -⟩ := fill_run hE hok
  rw [M.wp_bind, M.wp_onLocal]
  refine ⟨_, _, hfill, ?_⟩
  dsimp only
  have hr : S'.nRows = d := by rw [hS']; exact h1
  have hc : S'.nCols = m := by rw [hS']; exact h2
  rw [M.wp_bind, M.wp_zoom]
  unfold sketchGeneralLFull
  simp only [M.wp_bind, M.wp_get, M.wp_require]
  refine ⟨hr, hc, ?_⟩
  refine M.wp_mono (C37_left_short_axis hE hok (by show (-1 : Int) < 0; decide) h4 hSm (Or.inr hfill) (opS := .NoTrans) (opA := .NoTrans) (d := d) (n := n + 1) (m := m) (ro := 0) (co := 0)
    (Am := ABm) (C := fun _ _ => 0) (Or.inl ⟨rfl, ?_, h1.symm, rfl, le_rfl, by rw [add_zero]; exact h2.ge⟩) (by omega) (by omega) ?_ ?_ (fun _ => hAB) ht.ab (fun h => absurd rfl h)) ?_
  · show D.nRows ≤ D.nCols
    omega
  · simp [LdOk, rowsOf]
  · simp [LdOk]
  rintro _ ⟨S1, sab⟩ ⟨g1, -⟩
  have hB : HoldsC sab d d (n + 1) (prodEntry m Sm ABm) := fun i j hij => by
    have := g1 i j hij
    rw [subMat_zero] at this
    dsimp only [opMat] at this
    simpa using this
  refine M.wp_mono (C68_total_least_squares hn hd le_rfl hB ht.x ht.s ht.vt hsvd hgen) ?_
  rintro _ t' ⟨h, -⟩
  exact h

end

/-! ## How good the solution is -/

theorem near_fraction {Ω : Type} [Fintype Ω] [Nonempty Ω] {d m n : Int} (hn : 0 ≤ n) {S : Ω → Int → Int → ℝ} {c V : ℝ} (hV0 : 0 ≤ V)
    (hV : ∀ x : Int → ℝ, (∑ ω, (∑ i ∈ range d.toNat, (c * ∑ l ∈ range m.toNat, S ω i l * x l) ^ 2 - ∑ l ∈ range m.toNat, x l ^ 2) ^ 2) / Fintype.card Ω ≤
      V * (∑ l ∈ range m.toNat, x l ^ 2) ^ 2)
    (AB : Int → Int → ℝ) {ε : ℝ} (hε : 0 < ε) (bad : Set Ω)
    (hbad : ∀ ω ∈ bad, ¬ Embeds ε m d (n + 1) AB (fun i j => c * prodEntry m (S ω) AB i j)) :
    (bad.ncard : ℝ) / Fintype.card Ω ≤ ((n : ℝ) + 1) ^ 2 * V / ε ^ 2 := by
  have key := embeds_of_moments (P := fun ω i l => c * S ω i l) (d := d) (m := m) (by omega : 0 ≤ n + 1) hV0
    (fun x => by simpa only [mul_assoc, ← mul_sum] using hV x) (rankLe_cols m (n + 1) AB) hε
  push_cast at key
  refine le_trans (div_le_div_of_nonneg_right ?_ (Nat.cast_nonneg _)) key
  rw [Nat.cast_le]
  refine Set.ncard_le_ncard (fun ω hω => ?_) (Set.toFinite _)
  intro hemb
  refine hbad ω hω ?_
  have e : (fun i j => c * prodEntry m (S ω) AB i j) = fun i j => ∑ l ∈ range m.toNat, c * S ω i l * AB l j := by
    funext i j
    unfold prodEntry
    simp only [mul_sum, mul_assoc]
  rw [e]
  exact hemb

theorem dense_near [NeZero N] [Field R] [LinearOrder R] [FloorRing R] [Fintype W] [Nonempty W] {L : Nat} [NeZero L] {E : SkEnv N K W WS R ℝ} (hE : SkEnvOk E) (hL : E.G.len = L)
    (h3 : E.sqrt3 = Real.sqrt 3) {v w : ℝ} (hwd : WordsOk E.G .Gaussian v w) {svd : Int → Int → (Int → Int → ℝ) → Svd ℝ} {seed : RNGState N K} {d m n : Int} {D : DenseDist}
    (hD : mkDenseDist d m .Gaussian .Long = .ok D) (hfit : d * m ≤ intMax 64) (hN : d * m ≤ N) {Sm : (ZMod N × ZMod L → W) → Int → Int → ℝ}
    (hSm : ∀ ω, Samples (fromWords E.G ω) E.sqrt3 D seed (Sm ω)) (hn : 0 ≤ n) (hd : n < d)
    {AB : Buf ℝ} {ABm : Int → Int → ℝ} (hAB : HoldsC AB m m (n + 1) ABm) {t : TlsSt ℝ} (ht : TlsAlloc d n t)
    (hsvd : ∀ ω, SvdFor svd d (n + 1) (prodEntry m (Sm ω) ABm)) {ε : ℝ} (hε : 0 < ε) (hε1 : ε < 1) (bad : Set (ZMod N × ZMod L → W))
    (hbad : ∀ ω ∈ bad, (Generic svd d n (prodEntry m (Sm ω) ABm) ∨ Gap ε m n ABm) ∧ ¬ M.wp (tlsSketchedDense { E with G := fromWords E.G ω } svd seed d m n AB) t
      (fun _ t' => ∃ x, HoldsVec t'.x n x ∧ IsNearTls ((1 + ε) / (1 - ε)) m n ABm x)) : (bad.ncard : ℝ) / Fintype.card (ZMod N × ZMod L → W) ≤
    ((n : ℝ) + 1) ^ 2 * (w * (1 + 2 / d) - 2 * v + 1) / ε ^ 2 := by
  have hDok := denseDistOk_of_mk hD hfit
  have hd0 : 0 < d := by omega
  have hm : 0 < m := (mkDenseDist_pos hD).2
  have hDr : D.nRows = d ∧ D.nCols = m ∧ D.family = .Gaussian := by
    rw [mkDenseDist_eq hd0 hm] at hD; cases hD; exact ⟨rfl, rfl, rfl⟩
  obtain ⟨⟨τ0, τ1, hsym⟩, hv, hw, hvw⟩ := hwd
  have hd' : (0 : ℝ) < d := by exact_mod_cast hd0
  have hal : (1 / Real.sqrt d) * (1 / Real.sqrt d) = 1 / (d : ℝ) := by
    rw [div_mul_div_comm, one_mul, Real.mul_self_sqrt hd'.le]
  have key := fun x => C82_moments (op := .NoTrans) (d := d) (m := m) (ro := 0) (co := 0) hE.gen hL hDok (by rw [hDr.1, hDr.2.1]; exact hN) (by rw [hDr.2.2]; exact hsym)
    (by rw [hDr.2.2]; exact hv) (by rw [hDr.2.2]; exact hw) hvw (A := Sm) (seed := seed) (fun ω => by rw [← h3]; exact hSm ω) hd0 hm.le
    (by rw [hDr.1, hDr.2.1]; exact ⟨le_rfl, le_rfl, by simp [rowsOf], by simp [colsOf]⟩) hal x
  simp only [subMat_zero, opMat] at key
  have hV0 : 0 ≤ w * (1 + 2 / d) - 2 * v + 1 := by
    have h1 : 0 ≤ w := (sq_nonneg v).trans hvw
    have h2 : 0 ≤ w * (2 / d) := mul_nonneg h1 (by positivity)
    nlinarith [sq_nonneg (v - 1)]
  refine near_fraction hn hV0 (fun x => (key x).2) ABm hε _ fun ω hω hemb => ?_
  obtain ⟨h1, h2⟩ := hbad ω hω
  have h1 : Generic svd d n (prodEntry m (Sm ω) ABm) := h1.elim id fun g => generic_of_gap hn (by omega) (hsvd ω) (gap_of_embeds hemb g)
  have hE' : SkEnvOk { E with G := fromWords E.G ω } := ⟨hE.env, hE.gen, hE.genS, hE.sqrt, hE.order⟩
  have hrun := C85_dense hE' (svd := svd) hD hfit (hSm ω) hn hd hAB ht (hsvd ω) h1
  exact h2 (M.wp_mono hrun fun _ t' ⟨x, hx1, hx2⟩ => ⟨x, hx1, near_tls hε.le hε1 hn hemb hx2⟩)

/-- C85 (dense operator). If the problem [A, b] has a gap, then except for a fraction of at most `(n+1)² (w (1 + 2/d) - 2 v + 1) / ε²` of the choices of the words, about
`2 (n+1)² / (d ε²)`, the program returns a solution of it up to the factor `(1+ε)/(1-ε)`. -/
theorem C85_dense_near [NeZero N] [Field R] [LinearOrder R] [FloorRing R] [Fintype W] [Nonempty W] {L : Nat} [NeZero L] {E : SkEnv N K W WS R ℝ} (hE : SkEnvOk E) (hL : E.G.len = L)
    (h3 : E.sqrt3 = Real.sqrt 3) {v w : ℝ} (hwd : WordsOk E.G .Gaussian v w) {svd : Int → Int → (Int → Int → ℝ) → Svd ℝ} {seed : RNGState N K} {d m n : Int} {D : DenseDist}
    (hD : mkDenseDist d m .Gaussian .Long = .ok D) (hfit : d * m ≤ intMax 64) (hN : d * m ≤ N) (hn : 0 ≤ n) (hd : n < d)
    {AB : Buf ℝ} {ABm : Int → Int → ℝ} (hAB : HoldsC AB m m (n + 1) ABm) {t : TlsSt ℝ} (ht : TlsAlloc d n t)
    (hsvd : ∀ B, SvdFor svd d (n + 1) B) {ε : ℝ} (hε : 0 < ε) (hε1 : ε < 1) (hgap : Gap ε m n ABm) :
    ({ω : ZMod N × ZMod L → W | ¬ M.wp (tlsSketchedDense { E with G := fromWords E.G ω } svd seed d m n AB) t
      (fun _ t' => ∃ x, HoldsVec t'.x n x ∧ IsNearTls ((1 + ε) / (1 - ε)) m n ABm x)}.ncard : ℝ) / Fintype.card (ZMod N × ZMod L → W) ≤
    ((n : ℝ) + 1) ^ 2 * (w * (1 + 2 / d) - 2 * v + 1) / ε ^ 2 :=
  dense_near hE hL h3 hwd hD hfit hN (fun ω => samples_denseEntry (G := fromWords E.G ω) hE.gen (denseDistOk_of_mk hD hfit)) hn hd hAB ht (fun _ => hsvd _) hε hε1 _ fun _ h => ⟨Or.inr hgap, h⟩

/-- C85 (dense operator). Without the assumption of a gap this holds for the choices for which the sketched problem is generic. -/
theorem C85_dense_near_generic [NeZero N] [Field R] [LinearOrder R] [FloorRing R] [Fintype W] [Nonempty W] {L : Nat} [NeZero L] {E : SkEnv N K W WS R ℝ} (hE : SkEnvOk E) (hL : E.G.len = L)
    (h3 : E.sqrt3 = Real.sqrt 3) {v w : ℝ} (hwd : WordsOk E.G .Gaussian v w) {svd : Int → Int → (Int → Int → ℝ) → Svd ℝ} {seed : RNGState N K} {d m n : Int} {D : DenseDist}
    (hD : mkDenseDist d m .Gaussian .Long = .ok D) (hfit : d * m ≤ intMax 64) (hN : d * m ≤ N) {Sm : (ZMod N × ZMod L → W) → Int → Int → ℝ}
    (hSm : ∀ ω, Samples (fromWords E.G ω) E.sqrt3 D seed (Sm ω)) (hn : 0 ≤ n) (hd : n < d)
    {AB : Buf ℝ} {ABm : Int → Int → ℝ} (hAB : HoldsC AB m m (n + 1) ABm) {t : TlsSt ℝ} (ht : TlsAlloc d n t)
    (hsvd : ∀ ω, SvdFor svd d (n + 1) (prodEntry m (Sm ω) ABm)) {ε : ℝ} (hε : 0 < ε) (hε1 : ε < 1) :
    ({ω | Generic svd d n (prodEntry m (Sm ω) ABm) ∧ ¬ M.wp (tlsSketchedDense { E with G := fromWords E.G ω } svd seed d m n AB) t
      (fun _ t' => ∃ x, HoldsVec t'.x n x ∧ IsNearTls ((1 + ε) / (1 - ε)) m n ABm x)}.ncard : ℝ) / Fintype.card (ZMod N × ZMod L → W) ≤
    ((n : ℝ) + 1) ^ 2 * (w * (1 + 2 / d) - 2 * v + 1) / ε ^ 2 :=
  dense_near hE hL h3 hwd hD hfit hN hSm hn hd hAB ht hsvd hε hε1 _ fun _ h => ⟨Or.inl h.1, h.2⟩

theorem sparse_near [NeZero N] [Field R] [LinearOrder R] [IsStrictOrderedRing R] [FloorRing R] [Fintype WS] {L : Nat} [NeZero L] {E : SkEnv N K W WS R ℝ} (hE : SkEnvOk E)
    (hL : E.GS.len = L) {Mw : Nat} (e : WS ≃ Fin Mw) (he : ∀ w, E.GS.nat w = e w) (hM2 : Even Mw)
    {svd : Int → Int → (Int → Int → ℝ) → Svd ℝ} {seed : RNGState N K} {d m n k : Int} {D : SparseDist} (hM : d ≤ Mw)
    (hD : mkSparseDist d m k .Short = .ok D) (hfit : 2 * (k * m) ≤ intMax 64) (hN : k * m ≤ N) (hdm : d ≤ m) {Sm : (ZMod N × ZMod L → WS) → Int → Int → ℝ}
    (hSm : ∀ ω, SparseSamples (fromWords E.GS ω) E.sqrt D seed (Sm ω)) (hn : 0 ≤ n) (hd : n < d)
    {AB : Buf ℝ} {ABm : Int → Int → ℝ} (hAB : HoldsC AB m m (n + 1) ABm) {t : TlsSt ℝ} (ht : TlsAlloc d n t)
    (hsvd : ∀ ω, SvdFor svd d (n + 1) (prodEntry m (Sm ω) ABm)) {ε : ℝ} (hε : 0 < ε) (hε1 : ε < 1) (bad : Set (ZMod N × ZMod L → WS))
    (hbad : ∀ ω ∈ bad, (Generic svd d n (prodEntry m (Sm ω) ABm) ∨ Gap ε m n ABm) ∧ ¬ M.wp (tlsSketchedSparse { E with GS := fromWords E.GS ω } svd seed d m n k AB) t
      (fun _ t' => ∃ x, HoldsVec t'.x n x ∧ IsNearTls ((1 + ε) / (1 - ε)) m n ABm x)) : (bad.ncard : ℝ) / Fintype.card (ZMod N × ZMod L → WS) ≤
    ((n : ℝ) + 1) ^ 2 * (2 / d * (1 + (d : ℝ) / Mw) ^ k.toNat) / ε ^ 2 := by
  obtain ⟨h1, h2, h3, h4, h5, h6⟩ := sparseDist_of_mk hD
  rw [if_neg (by simp), max_eq_right hdm] at h5
  have hDok := h6 (by rw [h5]; exact hfit)
  have hok : SparseOpOk (mkSparseSkOp E.GS.len D seed : SparseSkOp N K ℝ) := mkSparseSkOp_ok _ hDok seed
  obtain ⟨k', n', r, hk, hkn, ek, en, er, hn', hr, hf⟩ := saso_setup hok h4
  have e1 : (mkSparseSkOp E.GS.len D seed : SparseSkOp N K ℝ).dist = D := rfl
  have e2 : (mkSparseSkOp E.GS.len D seed : SparseSkOp N K ℝ).nRows = D.nRows := rfl
  have e3 : (mkSparseSkOp E.GS.len D seed : SparseSkOp N K ℝ).nCols = D.nCols := rfl
  rw [e1] at ek en er hf
  rw [e2, e3, h1, h2] at hn' hr
  obtain ⟨rfl, rfl, rfl⟩ : d = n' ∧ m = r ∧ k = k' := ⟨by omega, by omega, by omega⟩
  have hL2 : 2 ≤ L := by have := hE.genS; rcases this with h | h <;> omega
  have hsc := scale_short h4 (by omega : 0 < D.vecNnz)
  rw [ek, Int.cast_natCast] at hsc
  have hmat : ∀ ω i l, Sm ω i l = tripMat (sasoTriples (T := ℝ) (fromWords E.GS ω) seed k' n' r) i l := by
    intro ω i l
    obtain ⟨L1, g1, g2⟩ := sparseSamples_run (G := fromWords E.GS ω) hE.genS hE.sqrt hDok (hSm ω)
    rw [← g2]
    rcases g1 with ⟨-, rfl⟩ | ⟨a, -⟩
    · rw [ek, en, er]
      exact toMat_mkEntry_wide (by omega) _ i l
    · rw [a] at h4; cases h4
  have : Nonempty WS := ⟨e.symm ⟨0, by omega⟩⟩
  have hd' : (0 : ℝ) < n' := by have : 0 < n' := by omega
                                exact_mod_cast this
  refine near_fraction (d := (n' : Int)) (m := (r : Int)) hn (by simp only [Int.cast_natCast]; positivity) (c := D.isometryScale) (S := Sm) (fun x => ?_) ABm hε _ fun ω hω hemb => ?_
  · obtain ⟨-, g⟩ := saso_scaled (G := E.GS) (seed := seed) hL2 e he hM2 (by exact_mod_cast hM) hk hkn (by rw [Nat.mul_comm]; exact_mod_cast hN) hsc x
    simp only [Int.toNat_natCast, Int.cast_natCast, hmat]
    exact g.trans (mul_le_mul_of_nonneg_left (fourth_le x _) (by positivity))
  · obtain ⟨g1, g2⟩ := hbad ω hω
    have g1 : Generic svd n' n (prodEntry r (Sm ω) ABm) := g1.elim id fun g => generic_of_gap hn (by omega) (hsvd ω) (gap_of_embeds hemb g)
    have hE' : SkEnvOk { E with GS := fromWords E.GS ω } := ⟨hE.env, hE.gen, hE.genS, hE.sqrt, hE.order⟩
    have hrun := C85_sparse hE' (svd := svd) hD hfit hdm (hSm ω) hn hd hAB ht (hsvd ω) g1
    exact g2 (M.wp_mono hrun fun _ t' ⟨x, hx1, hx2⟩ => ⟨x, hx1, near_tls hε.le hε1 hn hemb hx2⟩)

/-- C85 (short-axis operator). The same with the fraction `2 (n+1)² (1 + d/M)^k / (d ε²)`. -/
theorem C85_sparse_near [NeZero N] [Field R] [LinearOrder R] [IsStrictOrderedRing R] [FloorRing R] [Fintype WS] {L : Nat} [NeZero L] {E : SkEnv N K W WS R ℝ} (hE : SkEnvOk E)
    (hL : E.GS.len = L) {Mw : Nat} (e : WS ≃ Fin Mw) (he : ∀ w, E.GS.nat w = e w) (hM2 : Even Mw)
    {svd : Int → Int → (Int → Int → ℝ) → Svd ℝ} {seed : RNGState N K} {d m n k : Int} {D : SparseDist} (hM : d ≤ Mw)
    (hD : mkSparseDist d m k .Short = .ok D) (hfit : 2 * (k * m) ≤ intMax 64) (hN : k * m ≤ N) (hdm : d ≤ m) (hn : 0 ≤ n) (hd : n < d)
    {AB : Buf ℝ} {ABm : Int → Int → ℝ} (hAB : HoldsC AB m m (n + 1) ABm) {t : TlsSt ℝ} (ht : TlsAlloc d n t)
    (hsvd : ∀ B, SvdFor svd d (n + 1) B) {ε : ℝ} (hε : 0 < ε) (hε1 : ε < 1) (hgap : Gap ε m n ABm) :
    ({ω : ZMod N × ZMod L → WS | ¬ M.wp (tlsSketchedSparse { E with GS := fromWords E.GS ω } svd seed d m n k AB) t
      (fun _ t' => ∃ x, HoldsVec t'.x n x ∧ IsNearTls ((1 + ε) / (1 - ε)) m n ABm x)}.ncard : ℝ) / Fintype.card (ZMod N × ZMod L → WS) ≤
    ((n : ℝ) + 1) ^ 2 * (2 / d * (1 + (d : ℝ) / Mw) ^ k.toNat) / ε ^ 2 := by
  obtain ⟨-, -, -, h4, h5, h6⟩ := sparseDist_of_mk hD
  rw [if_neg (by simp), max_eq_right hdm] at h5
  exact sparse_near hE hL e he hM2 hM hD hfit hN hdm (fun ω => samples_saso (G := fromWords E.GS ω) hE.genS hE.sqrt (h6 (by rw [h5]; exact hfit)) h4) hn hd hAB ht (fun _ => hsvd _) hε hε1 _ fun _ h => ⟨Or.inr hgap, h⟩

/-- C85 (short-axis operator). Without the assumption of a gap this holds for the choices for which the sketched problem is generic. -/
theorem C85_sparse_near_generic [NeZero N] [Field R] [LinearOrder R] [IsStrictOrderedRing R] [FloorRing R] [Fintype WS] {L : Nat} [NeZero L] {E : SkEnv N K W WS R ℝ} (hE : SkEnvOk E)
    (hL : E.GS.len = L) {Mw : Nat} (e : WS ≃ Fin Mw) (he : ∀ w, E.GS.nat w = e w) (hM2 : Even Mw)
    {svd : Int → Int → (Int → Int → ℝ) → Svd ℝ} {seed : RNGState N K} {d m n k : Int} {D : SparseDist} (hM : d ≤ Mw)
    (hD : mkSparseDist d m k .Short = .ok D) (hfit : 2 * (k * m) ≤ intMax 64) (hN : k * m ≤ N) (hdm : d ≤ m) {Sm : (ZMod N × ZMod L → WS) → Int → Int → ℝ}
    (hSm : ∀ ω, SparseSamples (fromWords E.GS ω) E.sqrt D seed (Sm ω)) (hn : 0 ≤ n) (hd : n < d)
    {AB : Buf ℝ} {ABm : Int → Int → ℝ} (hAB : HoldsC AB m m (n + 1) ABm) {t : TlsSt ℝ} (ht : TlsAlloc d n t)
    (hsvd : ∀ ω, SvdFor svd d (n + 1) (prodEntry m (Sm ω) ABm)) {ε : ℝ} (hε : 0 < ε) (hε1 : ε < 1) :
    ({ω | Generic svd d n (prodEntry m (Sm ω) ABm) ∧ ¬ M.wp (tlsSketchedSparse { E with GS := fromWords E.GS ω } svd seed d m n k AB) t
      (fun _ t' => ∃ x, HoldsVec t'.x n x ∧ IsNearTls ((1 + ε) / (1 - ε)) m n ABm x)}.ncard : ℝ) / Fintype.card (ZMod N × ZMod L → WS) ≤
    ((n : ℝ) + 1) ^ 2 * (2 / d * (1 + (d : ℝ) / Mw) ^ k.toNat) / ε ^ 2 :=
  sparse_near hE hL e he hM2 hM hD hfit hN hdm hSm hn hd hAB ht hsvd hε hε1 _ fun _ h => ⟨Or.inl h.1, h.2⟩

/-! The hypotheses are met by 5000 points on a line, A = (0, 1, 2, ...) and b = 2 A, and a sketch with 1000 rows. -/

theorem exLine_gap : Gap (1 / 2) 5000 1 (fun i j => (i * (j + 1) : Int)) := by
  refine ⟨fun j => if j = 0 then 2 else -1, fun y h0 h1 => ?_⟩
  have e1 : sqNorm 5000 (1 + 1) (fun i j => ((i * (j + 1) : Int) : ℝ)) (fun j => if j = 0 then 2 else -1) = 0 :=
    sum_eq_zero fun i _ => by simp [sum_range_succ]; ring
  have hy : y 0 ^ 2 = 1 := by simpa using h1
  have e2 : 1 ≤ sqNorm 5000 (1 + 1) (fun i j => ((i * (j + 1) : Int) : ℝ)) y := by
    unfold sqNorm
    refine le_trans (le_of_eq ?_) (single_le_sum (f := fun i : Nat => (∑ j ∈ range (1 + 1 : Int).toNat, (((i : Int) * ((j : Int) + 1) : Int) : ℝ) * y j) ^ 2) (fun _ _ => sq_nonneg _)
      (mem_range.2 (by decide : 1 < (5000 : Int).toNat)))
    simp [sum_range_succ, h0, hy]
  rw [e1, show ∑ j ∈ range (1 + 1 : Int).toNat, ((fun j : Int => if j = 0 then (2 : ℝ) else -1) j) ^ 2 = 5 by simp [sum_range_succ]; norm_num]
  generalize sqNorm 5000 (1 + 1) _ y = q at e2 ⊢
  norm_num
  linarith

theorem exLine_holds : HoldsC (Buf.ofFn 10000 fun p => ((p % 5000 * (p / 5000 + 1) : Int) : ℝ)) 5000 5000 (1 + 1) (fun i j => (i * (j + 1) : Int)) := by
  rintro i j ⟨h1, h2, h3, h4⟩
  simp only [addr]
  simp only [Buf.ofFn]
  rw [if_pos (by omega), show (i + j * 5000) % 5000 = i by omega, show (i + j * 5000) / 5000 = j by omega]

theorem exLine_alloc : TlsAlloc 1000 1 ⟨Buf.alloc ℝ 2000, Buf.alloc ℝ 1, Buf.alloc ℝ 2, Buf.alloc ℝ 4⟩ := by
  refine ⟨?_, fun i h0 h1 => ?_, fun i h0 h1 => ?_, ?_⟩
  · rintro i j ⟨h1, h2, h3, h4⟩
    simp only [addr]
    simp only [Buf.alloc]
    rw [if_pos (by omega)]; simp
  · simp only [Buf.alloc]
    rw [if_pos (by omega)]; simp
  · simp only [Buf.alloc]
    rw [if_pos (by omega)]; simp
  · rintro i j ⟨h1, h2, h3, h4⟩
    simp only [addr]
    simp only [Buf.alloc]
    rw [if_pos (by omega)]; simp

theorem midEnvR_ok : SkEnvOk midEnvR := ⟨⟨mergeSort_sortOk, by norm_num [midEnvR]⟩, Or.inr rfl, Or.inr rfl, Real.sqrt_one, fun _ l => List.Perm.refl l⟩

/-- At most a tenth of the choices of the words makes the program with the sparse operator fail to return a solution up to the factor 3. -/
example : ∃ svd, ({ω : ZMod (2 ^ 128) × ZMod 4 → Fin (2 ^ 32) | ¬ M.wp (tlsSketchedSparse { midEnvR with GS := fromWords midEnvR.GS ω } svd ⟨0, 7⟩ 1000 5000 1 8
      (Buf.ofFn 10000 fun p => ((p % 5000 * (p / 5000 + 1) : Int) : ℝ))) ⟨Buf.alloc ℝ 2000, Buf.alloc ℝ 1, Buf.alloc ℝ 2, Buf.alloc ℝ 4⟩
      (fun _ t' => ∃ x, HoldsVec t'.x 1 x ∧ IsNearTls (3 : ℝ) 5000 1 (fun i j => (i * (j + 1) : Int)) x)}.ncard : ℝ) / Fintype.card (ZMod (2 ^ 128) × ZMod 4 → Fin (2 ^ 32)) ≤ 1 / 10 := by
  obtain ⟨svd, hsvd⟩ := exists_svdFor
  refine ⟨svd, ?_⟩
  have h := C85_sparse_near (N := 2 ^ 128) (L := 4) (E := midEnvR) (seed := ⟨0, 7⟩) midEnvR_ok rfl (Equiv.refl (Fin (2 ^ 32))) (fun _ => rfl) (by decide) (svd := svd) (d := 1000) (m := 5000) (n := 1) (k := 8)
    (D := ⟨1000, 5000, .Short, 1000, 5000, 8, 40000⟩) (by decide) (by decide) (by decide) (by decide) (by decide) (by decide) (by decide) exLine_holds exLine_alloc
    (fun B => hsvd _ _ B) (ε := 1 / 2) (by norm_num) (by norm_num) exLine_gap
  rw [show ((1 : ℝ) + 1 / 2) / (1 - 1 / 2) = 3 by norm_num] at h
  refine h.trans ?_
  rw [show (8 : Int).toNat = 8 from rfl]
  norm_num

/-- The same for the dense operator. -/
example : ∃ svd, ({ω : ZMod (2 ^ 128) × ZMod 4 → Fin (4 * 2 ^ 30) | ¬ M.wp (tlsSketchedDense { midEnvR with G := fromWords midEnvR.G ω } svd ⟨0, 7⟩ 1000 5000 1
      (Buf.ofFn 10000 fun p => ((p % 5000 * (p / 5000 + 1) : Int) : ℝ))) ⟨Buf.alloc ℝ 2000, Buf.alloc ℝ 1, Buf.alloc ℝ 2, Buf.alloc ℝ 4⟩
      (fun _ t' => ∃ x, HoldsVec t'.x 1 x ∧ IsNearTls (3 : ℝ) 5000 1 (fun i j => (i * (j + 1) : Int)) x)}.ncard : ℝ) / Fintype.card (ZMod (2 ^ 128) × ZMod 4 → Fin (4 * 2 ^ 30)) ≤ 1 / 10 := by
  obtain ⟨svd, hsvd⟩ := exists_svdFor
  refine ⟨svd, ?_⟩
  obtain ⟨-, v, hv1, hv2, hw⟩ := C83_words (G := midGenR) (m8 := 2 ^ 29) (Mw := 4 * 2 ^ 30) (by norm_num) (by norm_num) (Equiv.refl _) (Equiv.refl _)
      (fun w => by simp only [midGenR, Equiv.refl_apply]; ring) (fun _ _ => rfl)
  have h := C85_dense_near (N := 2 ^ 128) (L := 4) (E := midEnvR) (seed := ⟨0, 7⟩) midEnvR_ok rfl rfl hw (svd := svd) (d := 1000) (m := 5000) (n := 1)
    (D := ⟨1000, 5000, .Long, 5000, 1000, .Gaussian, .RowMajor⟩) (by decide) (by decide) (by decide) (by decide) (by decide) exLine_holds exLine_alloc
    (fun B => hsvd _ _ B) (ε := 1 / 2) (by norm_num) (by norm_num) exLine_gap
  rw [show ((1 : ℝ) + 1 / 2) / (1 - 1 / 2) = 3 by norm_num] at h
  refine h.trans ?_
  have hl : Real.log (2 * ((4 * 2 ^ 30 : Nat) : ℝ)) ≤ 33 := by
    rw [show (2 : ℝ) * ((4 * 2 ^ 30 : Nat) : ℝ) = 2 ^ 33 by norm_num, Real.log_pow]
    have := Real.log_le_sub_one_of_pos (by norm_num : (0 : ℝ) < 2)
    push_cast
    linarith
  have hv3 : 1 - (2 + 33) / (2 * ((4 * 2 ^ 30 : Nat) : ℝ)) ≤ v := by
    refine le_trans (sub_le_sub_left (div_le_div_of_nonneg_right (by linarith) (by positivity)) _) hv1
  norm_num at hv3 ⊢
  linarith

end RB
