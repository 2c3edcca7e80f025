import Verif.Props.Oblivious
import Verif.Props.TlsSketch
import Verif.Props.LowRank

/-!
# C97: the example programs with dense operators fail with exponentially small probability

C85 and C86 with the probabilities of C96.
-/

namespace RB
open Spec Finset
variable {N : Nat} {K W WS R : Type}

theorem pr_mono {Ω : Type} [Fintype Ω] {p q : Ω → Prop} (h : ∀ ω, p ω → q ω) : Pr p ≤ Pr q := by
  have := pr_or_le (p := p) (q := q) (r := fun _ => False) fun ω hω => Or.inl (h ω hω)
  have h0 : Pr (fun _ : Ω => False) = 0 := by
    classical
    rw [pr_eq]; simp
  rwa [h0, add_zero] at this

/-- The samples of a distribution embed a subspace. -/
theorem samples_embed [NeZero N] [Fintype W] [Nonempty W] {L : Nat} [NeZero L] {G : Gen N K W ℝ} {D : DenseDist} {seed : RNGState N K} {v w δ : ℝ}
    (hG : G.Ok) (hL : G.len = L) (hD : DenseDistOk D) (hN : D.nRows * D.nCols ≤ N) (hwd : WordsOk G D.family v w) (hw1 : w ≤ 1) (hδ : 0 ≤ δ) (hv1 : 1 - δ ≤ v)
    (hsub : SubGaussianWords G D.family) {A : (ZMod N × ZMod L → W) → Int → Int → ℝ} (hA : ∀ ω, Samples (fromWords G ω) (Real.sqrt 3) D seed (A ω))
    {op : Op} {d m : Int} (hd : 0 < d) (hm : 0 ≤ m) (hin : InOp D.nRows D.nCols (rowsOf op d m) (colsOf op d m) 0 0) {alpha : ℝ}
    (hal : alpha * alpha = 1 / d) {n : Int} {r : Nat} {X : Int → Int → ℝ} (hrank : RankLe r m n X) {ε : ℝ} (hε0 : 0 < ε) (hε1 : ε ≤ 2) :
    Pr (fun ω => ¬ Embeds ε m d n X (fun i j => ∑ l ∈ range m.toNat, alpha * opMat op (A ω) i l * X l j)) ≤ 2 * 9 ^ r * Real.exp (-(d * (ε * (ε - 4 * δ)) / 32)) := by
  have key := fun x => C94_distortion hG hL hD hN hwd hw1 hδ hv1 hsub hA hd hm hin hal x (ε := ε / 2) (by linarith) (by linarith)
  simp only [mul_sum, ← mul_assoc, subMat_zero] at key
  have h1 := embeds_of_tails (P := fun ω i l => alpha * opMat op (A ω) i l) (d := d) (c := 2 * Real.exp (-(d * (ε / 2) * (ε / 2 - 2 * δ) / 8))) hε0.le
    (by positivity) (fun x => by rw [mul_sum]; exact key x) hrank
  have e : (9 : ℝ) ^ (r : Int).toNat * (2 * Real.exp (-(d * (ε / 2 * (ε / 2 - 2 * δ)) / 8))) = 2 * 9 ^ r * Real.exp (-(d * (ε * (ε - 4 * δ)) / 32)) := by
    rw [Int.toNat_natCast]
    ring_nf
  refine h1.trans (le_of_eq ?_)
  rw [← e]
  ring_nf

/-- One run of the total least squares program, if its sketch is an embedding. -/
theorem tls_of_embeds [Field R] [LinearOrder R] [FloorRing R] {E : SkEnv N K W WS R ℝ} (hE : SkEnvOk E)
    {svd : Int → Int → (Int → Int → ℝ) → Svd ℝ} {seed : RNGState N K} {d m n : Int} {D : DenseDist}
    (hD : mkDenseDist d m .Gaussian .Long = .ok D) (hfit : d * m ≤ intMax 64) (hn : 0 ≤ n) (hd : n < d) {Sm : Int → Int → ℝ} (hS : Samples E.G E.sqrt3 D seed Sm)
    {AB : Buf ℝ} {ABm : Int → Int → ℝ} (hAB : HoldsC AB m m (n + 1) ABm) {t : TlsSt ℝ} (ht : TlsAlloc d n t)
    (hsvd : ∀ B, SvdFor svd d (n + 1) B) {ε c : ℝ} (hε : 0 < ε) (hε1 : ε < 1) (hgap : Gap ε m n ABm)
    (hemb : Embeds ε m d (n + 1) ABm (fun i j => ∑ l ∈ range m.toNat, c * opMat .NoTrans Sm i l * ABm l j)) :
    M.wp (tlsSketchedDense E svd seed d m n AB) t (fun _ t' => ∃ x, HoldsVec t'.x n x ∧ IsNearTls ((1 + ε) / (1 - ε)) m n ABm x) := by
  have hemb : Embeds ε m d (n + 1) ABm (fun i j => c * prodEntry m Sm ABm i j) := by
    have e : (fun i j => c * prodEntry m Sm ABm i j) = fun i j => ∑ l ∈ range m.toNat, c * opMat .NoTrans Sm i l * ABm l j := by
      funext i j
      unfold prodEntry
      simp only [mul_sum, mul_assoc, opMat]
    rw [e]
    exact hemb
  have hgen : Generic svd d n (prodEntry m Sm ABm) := generic_of_gap hn (by omega) (hsvd _) (gap_of_embeds hemb hgap)
  exact M.wp_mono (C85_dense hE hD hfit hS hn hd hAB ht (hsvd _) hgen) fun _ t' ⟨x, hx1, hx2⟩ => ⟨x, hx1, near_tls hε.le hε1 hn hemb hx2⟩

/-- C97 (total least squares with a dense operator). If the problem [A, b] has a gap, then for all but a fraction `2 9^(n+1) exp (-d ε (ε - 4 δ) / 32)` of the words the
program returns a solution of it up to the factor `(1+ε)/(1-ε)`. -/
theorem C97_tls [NeZero N] [Field R] [LinearOrder R] [FloorRing R] [Fintype W] [Nonempty W] {L : Nat} [NeZero L] {E : SkEnv N K W WS R ℝ} (hE : SkEnvOk E) (hL : E.G.len = L)
    (h3 : E.sqrt3 = Real.sqrt 3) {v w δ : ℝ} (hwd : WordsOk E.G .Gaussian v w) (hw1 : w ≤ 1) (hδ : 0 ≤ δ) (hv1 : 1 - δ ≤ v) (hsub : SubGaussianWords E.G .Gaussian)
    {svd : Int → Int → (Int → Int → ℝ) → Svd ℝ} {seed : RNGState N K} {d m : Int} {n : Nat} {D : DenseDist}
    (hD : mkDenseDist d m .Gaussian .Long = .ok D) (hfit : d * m ≤ intMax 64) (hN : d * m ≤ N) (hd : n < d)
    {AB : Buf ℝ} {ABm : Int → Int → ℝ} (hAB : HoldsC AB m m (n + 1) ABm) {t : TlsSt ℝ} (ht : TlsAlloc d n t)
    (hsvd : ∀ B, SvdFor svd d (n + 1) B) {ε : ℝ} (hε : 0 < ε) (hε1 : ε < 1) (hgap : Gap ε m n ABm) :
    Pr (fun ω : ZMod N × ZMod L → W => ¬ M.wp (tlsSketchedDense { E with G := fromWords E.G ω } svd seed d m n AB) t
      (fun _ t' => ∃ x, HoldsVec t'.x n x ∧ IsNearTls ((1 + ε) / (1 - ε)) m n ABm x)) ≤ 2 * 9 ^ (n + 1) * Real.exp (-(d * (ε * (ε - 4 * δ)) / 32)) := by
  have hDok := denseDistOk_of_mk hD hfit
  have hd0 : 0 < d := by omega
  have hm : 0 < m := (mkDenseDist_pos hD).2
  have hDr : D.nRows = d ∧ D.nCols = m ∧ D.family = .Gaussian := by
    rw [mkDenseDist_eq hd0 hm] at hD; cases hD; exact ⟨rfl, rfl, rfl⟩
  have hd' : (0 : ℝ) < d := by exact_mod_cast hd0
  have hal : (1 / Real.sqrt d) * (1 / Real.sqrt d) = 1 / (d : ℝ) := by
    rw [div_mul_div_comm, one_mul, Real.mul_self_sqrt hd'.le]
  have hsam : ∀ ω : ZMod N × ZMod L → W, Samples (fromWords E.G ω) (Real.sqrt 3) D seed (denseEntry (fromWords E.G ω) (Real.sqrt 3) D seed) :=
    fun ω => samples_denseEntry (G := fromWords E.G ω) hE.gen hDok
  have hrk : RankLe ((n + 1 : Nat) : Int) m (n + 1) ABm := by push_cast; exact rankLe_cols m (n + 1) ABm
  have key := samples_embed (op := .NoTrans) (d := d) (m := m) hE.gen hL hDok (by rw [hDr.1, hDr.2.1]; exact hN) (by rw [hDr.2.2]; exact hwd) hw1 hδ hv1
    (by rw [hDr.2.2]; exact hsub) hsam hd0 hm.le
    (by rw [hDr.1, hDr.2.1]; exact ⟨le_rfl, le_rfl, by simp [rowsOf], by simp [colsOf]⟩) hal hrk hε (by linarith)
  refine le_trans (pr_mono fun ω hω => ?_) key
  intro hemb
  refine hω ?_
  have hE' : SkEnvOk { E with G := fromWords E.G ω } := ⟨hE.env, hE.gen, hE.genS, hE.sqrt, hE.order⟩
  have hS : Samples (fromWords E.G ω) E.sqrt3 D seed (denseEntry (fromWords E.G ω) (Real.sqrt 3) D seed) := by rw [h3]; exact hsam ω
  exact tls_of_embeds hE' hD hfit (Int.natCast_nonneg n) hd hS hAB ht hsvd hε hε1 hgap hemb

/-- The samples in C86 are an embedding. -/
theorem qb_embed [NeZero N] [Fintype W] [Nonempty W] {Lw : Nat} [NeZero Lw] {G : Gen N K W ℝ} (hG : G.Ok) (hL : G.len = Lw) {v w δ : ℝ}
    (hwd : WordsOk G .Gaussian v w) (hw1 : w ≤ 1) (hδ : 0 ≤ δ) (hv1 : 1 - δ ≤ v) (hsub : SubGaussianWords G .Gaussian) {seed : RNGState N K} {rows k c : Int} {D : DenseDist}
    {X : Int → Int → ℝ} (hk : 1 ≤ k) (hr : 1 ≤ rows) (hfit : rows * k ≤ intMax 64) (hN : rows * k ≤ N) (hD : mkDenseDist rows k .Gaussian .Long = .ok D) {r : Nat}
    (hrank : RankLe r rows c X) {ε : ℝ} (hε : 0 < ε) (hε1 : ε < 1) :
    Pr (fun ω : ZMod N × ZMod Lw → W => ¬ Embeds ε rows k c X (fun i j => ∑ l ∈ range rows.toNat, Real.sqrt (1 / k) * denseEntry (fromWords G ω) (Real.sqrt 3) D seed l i * X l j)) ≤
      2 * 9 ^ r * Real.exp (-(k * (ε * (ε - 4 * δ)) / 32)) := by
  have hk' : (0 : ℝ) < k := by exact_mod_cast (by omega : (0 : Int) < k)
  have hDok := denseDistOk_of_mk hD hfit
  obtain ⟨e1, e2, e3⟩ : D.nRows = rows ∧ D.nCols = k ∧ D.family = .Gaussian := by
    rw [mkDenseDist_eq (by omega) (by omega)] at hD; cases hD; exact ⟨rfl, rfl, rfl⟩
  exact samples_embed (op := .Trans) hG hL hDok (by rw [e1, e2]; exact hN) (by rw [e3]; exact hwd) hw1 hδ hv1 (by rw [e3]; exact hsub)
    (fun ω => samples_denseEntry (G := fromWords G ω) hG hDok) (by omega) (by omega) (by rw [e1, e2]; simp [InOp, rowsOf, colsOf])
    (Real.mul_self_sqrt (by positivity)) hrank hε (by linarith)

/-- One run of the low rank computation, if the sample is an embedding. -/
theorem low_rank_of_embeds {sched : List Nat} {G : Gen N K W ℝ} (hG : G.Ok)
    {env : Int → Env ℝ} (henv : ∀ i, EnvOk (env i)) {orth : Int → Int → (Int → Int → ℝ) → (Int → Int → ℝ)} {svd : Int → Int → (Int → Int → ℝ) → Svd ℝ} {tau : ℝ}
    {seed : RNGState N K} {m n k p wk : Int} {t : LrSt ℝ} {L : List (Entry ℝ)}
    (hA : LowRankData t.A L m n) (ht : LrAlloc m n k t) (hk : 1 ≤ k) (hkm : k ≤ m) (hkn : k < n) (hp : 0 ≤ p) (hfit : max m n * k ≤ intMax 64)
    (hom : OrthFor orth m k) (hon : OrthFor orth n k) (hsvd : ∀ B, SvdFor svd k n B) (hw : k * k ≤ wk) (hw2 : wk < m * k + k * k ∨ m * k + k * k + k ≤ wk)
    {ε c : ℝ} (hε1 : ε < 1) {D : DenseDist} (hD : mkDenseDist (if p % 2 = 0 then n else m) k .Gaussian .Long = .ok D)
    (he : p % 2 = 0 → Embeds ε n k m (fun j i => toMat L i j) (fun i j => ∑ l ∈ range n.toNat, c * denseEntry G (Real.sqrt 3) D seed l i * toMat L j l))
    (ho : ¬ p % 2 = 0 → Embeds ε m k n (toMat L) (fun i j => ∑ l ∈ range m.toNat, c * denseEntry G (Real.sqrt 3) D seed l i * toMat L l j)) :
    M.wp (lowRankSvd sched G (Real.sqrt 3) env orth svd tau seed m n k p wk) t (fun _ t' =>
        ∃ F, RankSvdIs m n k (toMat L) F ∧ HoldsC t'.u m m k F.u ∧ HoldsVec t'.s k F.s ∧ HoldsC t'.vt k k n F.vt) := by
  refine M.wp_mono (C86_run_partial hG henv hA ht hk hkm hkn hp hfit hom hon hsvd hw hw2 hD rfl) ?_
  rintro _ t' ⟨F, Q, g1, g2, g3, -, -, -, g4, -⟩
  refine ⟨F, g4 ?_, g1, g2, g3⟩
  by_cases hpe : p % 2 = 0
  · simp only [if_pos hpe]
    exact factor_even hε1 (he hpe)
  · simp only [if_neg hpe]
    exact factor_odd hε1 (ho hpe)

/-- C97 (low rank). If `A` has rank at most `r`, then for all but a fraction `2 9^r exp (-k ε (ε - 4 δ) / 32)` of the words, for each `ε < 1`, the computation returns a
singular value decomposition of rank `k` of `A` itself. It is partial because of the size of the work array (C86). -/
theorem C97_low_rank_partial [NeZero N] [Fintype W] [Nonempty W] {Lw : Nat} [NeZero Lw] {sched : List Nat} {G : Gen N K W ℝ} (hG : G.Ok) (hL : G.len = Lw) {v w δ : ℝ}
    (hwd : WordsOk G .Gaussian v w) (hw1 : w ≤ 1) (hδ : 0 ≤ δ) (hv1 : 1 - δ ≤ v) (hsub : SubGaussianWords G .Gaussian)
    {env : Int → Env ℝ} (henv : ∀ i, EnvOk (env i)) {orth : Int → Int → (Int → Int → ℝ) → (Int → Int → ℝ)} {svd : Int → Int → (Int → Int → ℝ) → Svd ℝ} {tau : ℝ}
    {seed : RNGState N K} {m n k p wk : Int} {t : LrSt ℝ} {L : List (Entry ℝ)}
    (hA : LowRankData t.A L m n) (ht : LrAlloc m n k t) (hk : 1 ≤ k) (hkm : k ≤ m) (hkn : k < n) (hp : 0 ≤ p) (hfit : max m n * k ≤ intMax 64) (hN : max m n * k ≤ N)
    (hom : OrthFor orth m k) (hon : OrthFor orth n k) (hsvd : ∀ B, SvdFor svd k n B) (hw : k * k ≤ wk) (hw2 : wk < m * k + k * k ∨ m * k + k * k + k ≤ wk)
    {r : Nat} (hrank : RankLe r m n (toMat L)) {ε : ℝ} (hε : 0 < ε) (hε1 : ε < 1) :
    Pr (fun ω : ZMod N × ZMod Lw → W => ¬ M.wp (lowRankSvd sched (fromWords G ω) (Real.sqrt 3) env orth svd tau seed m n k p wk) t (fun _ t' =>
        ∃ F, RankSvdIs m n k (toMat L) F ∧ HoldsC t'.u m m k F.u ∧ HoldsVec t'.s k F.s ∧ HoldsC t'.vt k k n F.vt)) ≤
      2 * 9 ^ r * Real.exp (-(k * (ε * (ε - 4 * δ)) / 32)) := by
  have hm1 : m * k ≤ max m n * k := mul_le_mul_of_nonneg_right (le_max_left _ _) (by omega)
  have hn1 : n * k ≤ max m n * k := mul_le_mul_of_nonneg_right (le_max_right _ _) (by omega)
  by_cases hpe : p % 2 = 0
  · obtain ⟨D, hD⟩ : ∃ D, mkDenseDist n k .Gaussian .Long = .ok D := ⟨_, mkDenseDist_eq (by omega) (by omega)⟩
    refine le_trans (pr_mono fun ω hω => ?_) (qb_embed (seed := seed) hG hL hwd hw1 hδ hv1 hsub hk (by omega) (hn1.trans hfit) (hn1.trans hN) hD (rankLe_T hrank) hε hε1)
    intro hemb
    exact hω (low_rank_of_embeds (G := fromWords G ω) hG henv hA ht hk hkm hkn hp hfit hom hon hsvd hw hw2 hε1 (by rw [if_pos hpe]; exact hD) (fun _ => hemb) (fun h => absurd hpe h))
  · obtain ⟨D, hD⟩ : ∃ D, mkDenseDist m k .Gaussian .Long = .ok D := ⟨_, mkDenseDist_eq (by omega) (by omega)⟩
    refine le_trans (pr_mono fun ω hω => ?_) (qb_embed (seed := seed) hG hL hwd hw1 hδ hv1 hsub hk (by omega) (hm1.trans hfit) (hm1.trans hN) hD hrank hε hε1)
    intro hemb
    exact hω (low_rank_of_embeds (G := fromWords G ω) hG henv hA ht hk hkm hkn hp hfit hom hon hsvd hw hw2 hε1 (by rw [if_neg hpe]; exact hD) (fun h => absurd h hpe) (fun _ => hemb))

/-- The words of `midGenR`. -/
theorem midGenR_words : ∃ v, WordsOk midGenR .Gaussian v 1 ∧ 1 - 1 / 2 ^ 25 ≤ v := by
  obtain ⟨-, v, h2, h3, h4⟩ := C83_words (G := midGenR) (m8 := 2 ^ 29) (Mw := 4 * 2 ^ 30) (by norm_num) (by norm_num) (Equiv.refl _) (Equiv.refl _)
    (fun w => by simp only [midGenR, Equiv.refl_apply]; ring) (fun _ _ => rfl)
  refine ⟨v, h4, le_trans ?_ h2⟩
  have h5 : Real.log (2 * ((4 * 2 ^ 30 : Nat) : ℝ)) ≤ 33 := by
    rw [show 2 * ((4 * 2 ^ 30 : Nat) : ℝ) = 2 ^ 33 by norm_num, Real.log_pow]
    have := Real.log_le_sub_one_of_pos (show (0 : ℝ) < 2 by norm_num)
    push_cast
    linarith
  have h6 : (2 + Real.log (2 * ((4 * 2 ^ 30 : Nat) : ℝ))) / (2 * ((4 * 2 ^ 30 : Nat) : ℝ)) ≤ 35 / (2 * ((4 * 2 ^ 30 : Nat) : ℝ)) :=
    div_le_div_of_nonneg_right (by linarith) (by positivity)
  have h7 : (35 : ℝ) / (2 * ((4 * 2 ^ 30 : Nat) : ℝ)) ≤ 1 / 2 ^ 25 := by norm_num
  linarith

theorem midGenR_sub : SubGaussianWords midGenR .Gaussian :=
  C94_words (G := midGenR) (m8 := 2 ^ 29) (Mw := 4 * 2 ^ 30) (by norm_num) (by norm_num) (Equiv.refl _) (Equiv.refl _)
    (fun w => by simp only [midGenR, Equiv.refl_apply]; ring) (fun _ _ => rfl) _

theorem exp_neg_seven {x : ℝ} (h : 7 ≤ x) : Real.exp (-x) ≤ 1 / 600 := by
  have h1 := Real.quadratic_le_exp_of_nonneg (show (0 : ℝ) ≤ 1 by norm_num)
  have h2 : Real.exp 7 = Real.exp 1 ^ 7 := by rw [← Real.exp_nat_mul]; norm_num
  have h3 : (5 / 2 : ℝ) ^ 7 ≤ Real.exp 1 ^ 7 := pow_le_pow_left₀ (by norm_num) (by linarith) 7
  have h4 : (600 : ℝ) ≤ Real.exp 7 := by rw [h2]; refine le_trans ?_ h3; norm_num
  rw [Real.exp_neg, one_div]
  exact inv_anti₀ (by norm_num) (h4.trans (Real.exp_le_exp.mpr h))

/-- An instance of the total least squares theorem: the problem of the example of C85, with `d = 1000`. -/
example : ∃ svd, Pr (fun ω : ZMod (2 ^ 128) × ZMod 4 → Fin (4 * 2 ^ 30) => ¬ M.wp (tlsSketchedDense { midEnvR with G := fromWords midEnvR.G ω } svd ⟨0, 7⟩ 1000 5000 1
      (Buf.ofFn 10000 fun p => ((p % 5000 * (p / 5000 + 1) : Int) : ℝ))) ⟨Buf.alloc ℝ 2000, Buf.alloc ℝ 1, Buf.alloc ℝ 2, Buf.alloc ℝ 4⟩
      (fun _ t' => ∃ x, HoldsVec t'.x 1 x ∧ IsNearTls (3 : ℝ) 5000 1 (fun i j => (i * (j + 1) : Int)) x)) ≤ 1 / 3 := by
  obtain ⟨svd, hsvd⟩ := exists_svdFor
  refine ⟨svd, ?_⟩
  obtain ⟨v, hw, hv⟩ := midGenR_words
  have h := C97_tls (N := 2 ^ 128) (L := 4) (E := midEnvR) (seed := ⟨0, 7⟩) midEnvR_ok rfl rfl hw le_rfl (by norm_num) hv midGenR_sub (svd := svd) (d := 1000) (m := 5000) (n := 1)
    (D := ⟨1000, 5000, .Long, 5000, 1000, .Gaussian, .RowMajor⟩) (by decide) (by decide) (by decide) (by decide) exLine_holds exLine_alloc
    (fun B => hsvd _ _ B) (ε := 1 / 2) (by norm_num) (by norm_num) exLine_gap
  rw [show ((1 : ℝ) + 1 / 2) / (1 - 1 / 2) = 3 by norm_num] at h
  refine h.trans ?_
  have := exp_neg_seven (x := (1000 : Int) * (1 / 2 * (1 / 2 - 4 * (1 / 2 ^ 25))) / 32) (by norm_num)
  refine (mul_le_mul_of_nonneg_left this (by norm_num)).trans (by norm_num)

/-- An instance of the low rank theorem: a 400 x 500 matrix of rank 1, `k = 300`. -/
example : ∃ orth svd, Pr (fun ω : ZMod (2 ^ 128) × ZMod 4 → Fin (4 * 2 ^ 30) => ¬ M.wp (lowRankSvd [3, 1] (fromWords midGenR ω) (Real.sqrt 3)
        (fun _ => ⟨fun lt l => l.mergeSort fun a b => !lt b a, [], 4⟩) orth svd 0 ⟨0, 7⟩ 400 500 300 2 90000)
        ⟨.coo (cooOf 400 500 .Zero [⟨2, 1, 5⟩, ⟨2, 3, (4 : ℝ)⟩]), Buf.alloc ℝ 120000, Buf.alloc ℝ 150000, Buf.alloc ℝ 300⟩ (fun _ t' =>
        ∃ F, RankSvdIs 400 500 300 (toMat [⟨2, 1, 5⟩, ⟨2, 3, (4 : ℝ)⟩]) F ∧ HoldsC t'.u 400 400 300 F.u ∧ HoldsVec t'.s 300 F.s ∧ HoldsC t'.vt 300 300 500 F.vt)) ≤ 1 / 30 := by
  obtain ⟨svd, hsvd⟩ := exists_svdFor
  obtain ⟨orth, ho⟩ := exists_orthFor
  refine ⟨orth, svd, ?_⟩
  obtain ⟨v, hw, hv⟩ := midGenR_words
  have hdata : LowRankData (.coo (cooOf 400 500 .Zero [⟨2, 1, 5⟩, ⟨2, 3, (4 : ℝ)⟩])) [⟨2, 1, 5⟩, ⟨2, 3, 4⟩] 400 500 := by
    refine ⟨⟨cooOf_is _ _ _ _, trivial⟩, rfl, by simp [InRange], rfl, rfl, Or.inl ⟨by decide, fun _ _ => ?_⟩, Or.inl ⟨by decide, fun _ _ => ?_⟩⟩
    · exact ⟨⟨2, 1, 5⟩, by simp, by decide⟩
    · exact ⟨⟨1, 2, 5⟩, by simp [Entry.swap], by decide⟩
  have hal : ∀ N : Int, ∀ i, 0 ≤ i → i < N → Buf.alloc ℝ N i ≠ .none := fun N i h0 h1 => by simp [Buf.alloc, h0, h1]
  have h := C97_low_rank_partial (N := 2 ^ 128) (Lw := 4) (sched := [3, 1]) (G := midGenR) (Or.inr rfl) rfl hw le_rfl (by norm_num) hv midGenR_sub
    (env := fun _ => ⟨fun lt l => l.mergeSort fun a b => !lt b a, [], 4⟩) (fun _ => ⟨mergeSort_sortOk, by norm_num⟩) (tau := 0) (seed := ⟨0, 7⟩) (p := 2) (wk := 90000)
    (t := ⟨.coo (cooOf 400 500 .Zero [⟨2, 1, 5⟩, ⟨2, 3, (4 : ℝ)⟩]), Buf.alloc ℝ 120000, Buf.alloc ℝ 150000, Buf.alloc ℝ 300⟩) hdata
    (k := 300) ⟨hal _, hal _, hal _⟩ (by decide) (by decide) (by decide) (by decide) (by decide) (by decide) (ho _ _ (by decide)) (ho _ _ (by decide)) (fun B => hsvd _ _ B)
    (by decide) (by decide) (r := 1)
    ⟨fun i _ => if i = 2 then 1 else 0, fun _ j => toMat [⟨2, 1, 5⟩, ⟨2, 3, 4⟩] 2 j, fun i j _ => by
      by_cases h : i = 2
      · simp [h]
      · simp [h, toMat, Ne.symm h]⟩ (ε := 9 / 10) (by norm_num) (by norm_num)
  refine h.trans ?_
  have := exp_neg_seven (x := (300 : Int) * (9 / 10 * (9 / 10 - 4 * (1 / 2 ^ 25))) / 32) (by norm_num)
  refine (mul_le_mul_of_nonneg_left this (by norm_num)).trans (by norm_num)

end RB
