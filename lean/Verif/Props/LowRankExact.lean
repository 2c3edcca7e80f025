import Verif.Props.FullRank

/-!
# C122: the low-rank programs with the smallest number of columns

The programs of C86 recover a matrix of rank at most `k` from a sketch with `k` columns, without oversampling and for every matrix: only the words for which the
sketch has a smaller rank than the matrix are excluded (C121).
-/

namespace RB
open Spec Finset
variable {N : Nat} {K W WS R T : Type}

/-- If `P B` has the rank of `B`, then `P B y = 0` only if `B y = 0`. -/
theorem ker_of_rank {a b c : Nat} {P : Matrix (Fin a) (Fin b) ℝ} {B : Matrix (Fin b) (Fin c) ℝ} (h : (P * B).rank = B.rank) {y : Fin c → ℝ}
    (hy : (P * B).mulVec y = 0) : B.mulVec y = 0 := by
  have hle : LinearMap.ker B.mulVecLin ≤ LinearMap.ker (P * B).mulVecLin := by
    intro z hz
    rw [LinearMap.mem_ker, Matrix.mulVecLin_apply] at hz ⊢
    rw [← Matrix.mulVec_mulVec, hz, Matrix.mulVec_zero]
  have h1 := LinearMap.finrank_range_add_finrank_ker B.mulVecLin
  have h2 := LinearMap.finrank_range_add_finrank_ker (P * B).mulVecLin
  have h3 : Module.finrank ℝ (LinearMap.ker B.mulVecLin) = Module.finrank ℝ (LinearMap.ker (P * B).mulVecLin) := by
    unfold Matrix.rank at h
    omega
  have h4 := Submodule.eq_of_le_of_finrank_eq hle h3
  have h5 : y ∈ LinearMap.ker (P * B).mulVecLin := by rw [LinearMap.mem_ker, Matrix.mulVecLin_apply]; exact hy
  rw [← h4, LinearMap.mem_ker, Matrix.mulVecLin_apply] at h5
  exact h5

/-- The same with sums. -/
theorem ker_of_rank_sums {k n m : Int} {S B : Int → Int → ℝ}
    (h : ((Matrix.of fun (i : Fin k.toNat) (j : Fin n.toNat) => opMat .Trans (subMat 0 0 S) (i : Nat) (j : Nat)) * (Matrix.of fun (l : Fin n.toNat) (j : Fin m.toNat) => B (l : Nat) (j : Nat))).rank =
      (Matrix.of fun (l : Fin n.toNat) (j : Fin m.toNat) => B (l : Nat) (j : Nat)).rank) {y : Int → ℝ}
    (hy : ∀ i : Nat, (i : Int) < k → ∑ l ∈ range n.toNat, S l i * ∑ j ∈ range m.toNat, B l j * y j = 0) :
    ∀ l : Nat, (l : Int) < n → ∑ j ∈ range m.toNat, B l j * y j = 0 := by
  have h1 : (Matrix.of fun (l : Fin n.toNat) (j : Fin m.toNat) => B (l : Nat) (j : Nat)).mulVec (fun j : Fin m.toNat => y (j : Nat)) = fun l : Fin n.toNat => ∑ j ∈ range m.toNat, B (l : Nat) j * y j := by
    funext l
    rw [← Fin.sum_univ_eq_sum_range (fun j => B ((l : Nat) : Int) (j : Nat) * y (j : Nat))]
    rfl
  have h2 := ker_of_rank h (y := fun j : Fin m.toNat => y (j : Nat)) (by
    rw [← Matrix.mulVec_mulVec, h1]
    funext i
    have := hy i (by have := i.2; omega)
    rw [← Fin.sum_univ_eq_sum_range (fun l => S (l : Nat) ((i : Nat) : Int) * ∑ j ∈ range m.toNat, B (l : Nat) j * y j)] at this
    rw [Pi.zero_apply, ← this]
    simp only [Matrix.mulVec, dotProduct, Matrix.of_apply, opMat, subMat, zero_add])
  intro l hl
  rw [h1] at h2
  exact congrFun h2 ⟨l, by omega⟩

/-- `A = (A S) X` if `Sᵀ Aᵀ` has the rank of `A`. -/
theorem factor_even_rank {m n k : Int} {A S : Int → Int → ℝ}
    (h : ((Matrix.of fun (i : Fin k.toNat) (j : Fin n.toNat) => opMat .Trans (subMat 0 0 S) (i : Nat) (j : Nat)) * (Matrix.of fun (l : Fin n.toNat) (j : Fin m.toNat) => A (j : Nat) (l : Nat))).rank =
      (Matrix.of fun (l : Fin n.toNat) (j : Fin m.toNat) => A (j : Nat) (l : Nat)).rank) : ∃ X, ∀ i j, InR m n i j → A i j = prodEntry k (prodEntry n A S) X i j := by
  refine exists_factor fun y hy => ker_of_rank_sums (B := fun l j => A j l) h fun i hi => ?_
  rw [← hy i hi]
  simp only [prodEntry, mul_sum, sum_mul]
  rw [sum_comm]
  exact sum_congr rfl fun _ _ => sum_congr rfl fun _ _ => by ring

/-- `A = (A Aᵀ S) X` if `Sᵀ A` has the rank of `A`. -/
theorem factor_odd_rank {m n k : Int} {A S : Int → Int → ℝ}
    (h : ((Matrix.of fun (i : Fin k.toNat) (j : Fin m.toNat) => opMat .Trans (subMat 0 0 S) (i : Nat) (j : Nat)) * (Matrix.of fun (l : Fin m.toNat) (j : Fin n.toNat) => A (l : Nat) (j : Nat))).rank =
      (Matrix.of fun (l : Fin m.toNat) (j : Fin n.toNat) => A (l : Nat) (j : Nat)).rank) :
    ∃ X, ∀ i j, InR m n i j → A i j = prodEntry k (prodEntry n A (prodEntry m (fun i j => A j i) S)) X i j := by
  refine exists_factor fun y hy => gram_kernel A y (ker_of_rank_sums (B := A) (y := fun j => ∑ i ∈ range m.toNat, A i j * y i) h fun i hi => ?_)
  rw [← hy i hi]
  simp only [prodEntry, mul_sum, sum_mul]
  rw [sum_comm]
  rw [sum_comm]
  simp only [sum_comm (s := range n.toNat)]
  rw [sum_comm]
  exact sum_congr rfl fun _ _ => sum_congr rfl fun _ _ => sum_congr rfl fun _ _ => by ring

/-- C122. If `A` has rank at most `k`, then for all but a fraction `rank (A) * p` of the words the computation returns a singular value decomposition of rank `k` of `A`
itself; with the exact conversions of 32-bit words `p = 2⁻³¹` (C121_words). It is partial because of the size of the work array (C86). -/
theorem C122_exact_partial [NeZero N] [Fintype W] [Nonempty W] {Lw : Nat} [NeZero Lw] {sched : List Nat} {G : Gen N K W ℝ} (hG : G.Ok) (hL : G.len = Lw) {p' : ℝ}
    (hs : SpreadWords G .Gaussian p')
    {env : Int → Env ℝ} (henv : ∀ i, EnvOk (env i)) {orth : Int → Int → (Int → Int → ℝ) → (Int → Int → ℝ)} {svd : Int → Int → (Int → Int → ℝ) → Svd ℝ} {tau : ℝ}
    {seed : RNGState N K} {m n k p wk : Int} {t : LrSt ℝ} {L : List (Entry ℝ)}
    (hA : LowRankData t.A L m n) (ht : LrAlloc m n k t) (hk : 1 ≤ k) (hkm : k ≤ m) (hkn : k < n) (hp : 0 ≤ p) (hfit : max m n * k ≤ intMax 64) (hN : max m n * k ≤ N)
    (hom : OrthFor orth m k) (hon : OrthFor orth n k) (hsvd : ∀ B, SvdFor svd k n B) (hw : k * k ≤ wk) (hw2 : wk < m * k + k * k ∨ m * k + k * k + k ≤ wk)
    (hrank : rankOf m n (toMat L) ≤ k) :
    Pr (fun ω : ZMod N × ZMod Lw → W => ¬ M.wp (lowRankSvd sched (fromWords G ω) (Real.sqrt 3) env orth svd tau seed m n k p wk) t (fun _ t' =>
        ∃ F, RankSvdIs m n k (toMat L) F ∧ HoldsC t'.u m m k F.u ∧ HoldsVec t'.s k F.s ∧ HoldsC t'.vt k k n F.vt)) ≤
      rankOf m n (toMat L) * p' := by
  have hmn : m * k ≤ max m n * k ∧ n * k ≤ max m n * k := ⟨mul_le_mul_of_nonneg_right (le_max_left _ _) (by omega), mul_le_mul_of_nonneg_right (le_max_right _ _) (by omega)⟩
  have run : ∀ (D : DenseDist) (ω : ZMod N × ZMod Lw → W), mkDenseDist (if p % 2 = 0 then n else m) k .Gaussian .Long = .ok D →
      (∃ X, ∀ i j, InR m n i j → toMat L i j = prodEntry k (prodEntry n (toMat L) (if p % 2 = 0 then denseEntry (fromWords G ω) (Real.sqrt 3) D seed
        else prodEntry m (fun i j => toMat L j i) (denseEntry (fromWords G ω) (Real.sqrt 3) D seed))) X i j) →
      M.wp (lowRankSvd sched (fromWords G ω) (Real.sqrt 3) env orth svd tau seed m n k p wk) t (fun _ t' =>
        ∃ F, RankSvdIs m n k (toMat L) F ∧ HoldsC t'.u m m k F.u ∧ HoldsVec t'.s k F.s ∧ HoldsC t'.vt k k n F.vt) := by
    intro D ω hD h
    refine M.wp_mono (C86_run_partial (G := fromWords G ω) hG henv hA ht hk hkm hkn hp hfit hom hon hsvd hw hw2 hD rfl) ?_
    rintro _ t' ⟨F, Q, g1, g2, g3, -, -, -, g4, -⟩
    exact ⟨F, g4 h, g1, g2, g3⟩
  have facts : ∀ (rows : Int) (D : DenseDist), k ≤ rows → mkDenseDist rows k .Gaussian .Long = .ok D → D.nRows = rows ∧ D.nCols = k ∧ D.family = .Gaussian := by
    intro rows D hkr hD
    rw [mkDenseDist_eq (by omega) (by omega)] at hD
    cases hD
    exact ⟨rfl, rfl, rfl⟩
  by_cases hpe : p % 2 = 0
  · simp only [if_pos hpe] at run
    obtain ⟨D, hD⟩ : ∃ D, mkDenseDist n k .Gaussian .Long = .ok D := ⟨_, mkDenseDist_eq (by omega) (by omega)⟩
    obtain ⟨e1, e2, e3⟩ := facts n D hkn.le hD
    have hDok := denseDistOk_of_mk hD (hmn.2.trans hfit)
    have h := window_rank (seed := seed) hG hL hDok (by rw [e1, e2]; exact hmn.2.trans hN) (by rw [e3]; exact hs)
      (X := fun ω => denseEntry (fromWords G ω) (Real.sqrt 3) D seed) (fun ω => samples_denseEntry (G := fromWords G ω) hG hDok) (op := .Trans) (d := k.toNat) (m := n.toNat) (ro := 0) (co := 0)
      (by rw [e1, e2]; simp only [rowsOf, colsOf, InOp]; omega) (Matrix.of fun (l : Fin n.toNat) (j : Fin m.toNat) => toMat L (j : Nat) (l : Nat))
    have hr : (Matrix.of fun (l : Fin n.toNat) (j : Fin m.toNat) => toMat L (j : Nat) (l : Nat)).rank = rankOf m n (toMat L) := rankOf_transpose m n (toMat L)
    rw [hr, min_eq_right (by omega)] at h
    refine le_trans (pr_mono fun ω hω => ?_) h
    intro hrk
    exact hω (run D ω hD (factor_even_rank (hrk.trans hr.symm)))
  · simp only [if_neg hpe] at run
    obtain ⟨D, hD⟩ : ∃ D, mkDenseDist m k .Gaussian .Long = .ok D := ⟨_, mkDenseDist_eq (by omega) (by omega)⟩
    obtain ⟨e1, e2, e3⟩ := facts m D hkm hD
    have hDok := denseDistOk_of_mk hD (hmn.1.trans hfit)
    have h := window_rank (seed := seed) hG hL hDok (by rw [e1, e2]; exact hmn.1.trans hN) (by rw [e3]; exact hs)
      (X := fun ω => denseEntry (fromWords G ω) (Real.sqrt 3) D seed) (fun ω => samples_denseEntry (G := fromWords G ω) hG hDok) (op := .Trans) (d := k.toNat) (m := m.toNat) (ro := 0) (co := 0)
      (by rw [e1, e2]; simp only [rowsOf, colsOf, InOp]; omega) (Matrix.of fun (l : Fin m.toNat) (j : Fin n.toNat) => toMat L (l : Nat) (j : Nat))
    have hr : (Matrix.of fun (l : Fin m.toNat) (j : Fin n.toNat) => toMat L (l : Nat) (j : Nat)).rank = rankOf m n (toMat L) := rfl
    rw [hr, min_eq_right (by omega)] at h
    refine le_trans (pr_mono fun ω hω => ?_) h
    intro hrk
    exact hω (run D ω hD (factor_odd_rank hrk))

/-- An instance: a 40 x 50 matrix of rank 1 with `k = 1`, for all but a fraction 2⁻³¹ of the words. -/
example : ∃ orth svd, Pr (fun ω : ZMod (2 ^ 128) × ZMod 4 → Fin (4 * 2 ^ 30) => ¬ M.wp (lowRankSvd [3, 1] (fromWords midGenR ω) (Real.sqrt 3)
        (fun _ => ⟨fun lt l => l.mergeSort fun a b => !lt b a, [], 4⟩) orth svd 0 ⟨0, 7⟩ 40 50 1 2 1)
        ⟨.coo (cooOf 40 50 .Zero [⟨2, 1, 5⟩, ⟨2, 3, (4 : ℝ)⟩]), Buf.alloc ℝ 40, Buf.alloc ℝ 50, Buf.alloc ℝ 1⟩ (fun _ t' =>
        ∃ F, RankSvdIs 40 50 1 (toMat [⟨2, 1, 5⟩, ⟨2, 3, (4 : ℝ)⟩]) F ∧ HoldsC t'.u 40 40 1 F.u ∧ HoldsVec t'.s 1 F.s ∧ HoldsC t'.vt 1 1 50 F.vt)) ≤ 1 / 2 ^ 31 := by
  obtain ⟨svd, hsvd⟩ := exists_svdFor
  obtain ⟨orth, ho⟩ := exists_orthFor
  refine ⟨orth, svd, ?_⟩
  have hdata : LowRankData (.coo (cooOf 40 50 .Zero [⟨2, 1, 5⟩, ⟨2, 3, (4 : ℝ)⟩])) [⟨2, 1, 5⟩, ⟨2, 3, 4⟩] 40 50 := by
    refine ⟨⟨cooOf_is _ _ _ _, trivial⟩, rfl, by simp [InRange], rfl, rfl, Or.inl ⟨by decide, fun _ _ => ?_⟩, Or.inl ⟨by decide, fun _ _ => ?_⟩⟩
    · exact ⟨⟨2, 1, 5⟩, by simp, by decide⟩
    · exact ⟨⟨1, 2, 5⟩, by simp [Entry.swap], by decide⟩
  have hal : ∀ N : Int, ∀ i, 0 ≤ i → i < N → Buf.alloc ℝ N i ≠ .none := fun N i h0 h1 => by simp [Buf.alloc, h0, h1]
  have hrk : rankOf 40 50 (toMat [⟨2, 1, 5⟩, ⟨2, 3, (4 : ℝ)⟩]) ≤ 1 := by
    have e : (Matrix.of fun (i : Fin (40 : Int).toNat) (j : Fin (50 : Int).toNat) => toMat [⟨2, 1, 5⟩, ⟨2, 3, (4 : ℝ)⟩] (i : Nat) (j : Nat)) =
        Matrix.vecMulVec (fun i : Fin (40 : Int).toNat => if (i : Nat) = 2 then 1 else 0) fun j : Fin (50 : Int).toNat => toMat [⟨2, 1, 5⟩, ⟨2, 3, (4 : ℝ)⟩] 2 (j : Nat) := by
      ext i j
      rw [Matrix.vecMulVec_apply, Matrix.of_apply]
      by_cases h : (i : Nat) = 2
      · simp [h]
      · have h' : ¬ (2 : Int) = ((i : Nat) : Int) := by omega
        simp [h, toMat, h']
    rw [rankOf, e]
    exact Matrix.rank_vecMulVec_le _ _
  have h := C122_exact_partial (N := 2 ^ 128) (Lw := 4) (sched := [3, 1]) (G := midGenR) (Or.inr rfl) rfl midGenR_spread.2
    (env := fun _ => ⟨fun lt l => l.mergeSort fun a b => !lt b a, [], 4⟩) (fun _ => ⟨mergeSort_sortOk, by norm_num⟩) (tau := 0) (seed := ⟨0, 7⟩) (p := 2) (wk := 1)
    (t := ⟨.coo (cooOf 40 50 .Zero [⟨2, 1, 5⟩, ⟨2, 3, (4 : ℝ)⟩]), Buf.alloc ℝ 40, Buf.alloc ℝ 50, Buf.alloc ℝ 1⟩) hdata
    (k := 1) ⟨hal _, hal _, hal _⟩ (by decide) (by decide) (by decide) (by decide) (by decide) (by decide) (ho _ _ (by decide)) (ho _ _ (by decide)) (fun B => hsvd _ _ B)
    (by decide) (by decide) (by exact_mod_cast hrk)
  refine h.trans (mul_le_of_le_one_left (by norm_num) ?_)
  exact_mod_cast hrk

end RB
