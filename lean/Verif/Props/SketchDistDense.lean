import Verif.Props.DistortionDense
import Verif.Props.SketchDist

/-!
# C83: sketching with a dense operator preserves the squared norms of columns or rows

C82 through the sketching functions.
-/

namespace RB
open Spec Finset
variable {N : Nat} {K W WS R : Type}

/-- What C82 assumes of the conversion of words to the entries of an operator: symmetry, mean square `v` and fourth moments bounded by `w`. -/
structure Spec.WordsOk [Fintype W] (G : Gen N K W ℝ) (family : ScalarDist) (v w : ℝ) : Prop where
  symmetric : ∃ τ0 τ1, SymmetricWords G τ0 τ1 family
  meanSquare : MeanSquare G family v
  fourth : FourthMoments G family w
  le : v ^ 2 ≤ w

/-- The product that `sketch_general` computes with a new dense operator, `alpha² = 1/d` and `beta = 0`, and the moments of the operator. -/
theorem dense_left_map [NeZero N] [Field R] [LinearOrder R] [FloorRing R] [Fintype W] [Nonempty W] {L : Nat} [NeZero L] {E : SkEnv N K W WS R ℝ} (hE : SkEnvOk E)
    (hL : E.G.len = L) (h3 : E.sqrt3 = Real.sqrt 3) {S : DenseSkOp N K ℝ} (hnew : S.buff = none) (hD : DenseDistOk S.dist) (hR : S.nRows = S.dist.nRows)
    (hC : S.nCols = S.dist.nCols) (hN : S.nRows * S.nCols ≤ N) {v w : ℝ} (hwd : WordsOk E.G S.dist.family v w)
    {layout : Layout} {opS opA : Op} {d m n ro co : Int} (hin : InOp S.nRows S.nCols (rowsOf opS d m) (colsOf opS d m) ro co) (hd : 0 < d) (hm : 0 < m) (hn : 0 ≤ n)
    {alpha : ℝ} (halpha : alpha * alpha = 1 / d) {A b : Buf ℝ} {lda ldb : Int} {Am : Int → Int → ℝ} (hlda : LdOk layout lda (rowsOf opA m n) (colsOf opA m n))
    (hldb : LdOk layout ldb d n) (hA : Holds A layout lda (rowsOf opA m n) (colsOf opA m n) Am) (hal : Alloc b layout ldb d n) :
    ∃ P : (ZMod N × ZMod L → W) → Int → Int → ℝ,
      (∀ ω, M.wp (sketchGeneralL { E with G := fromWords E.G ω } layout opS opA d n m alpha ro co A lda 0 ldb) (.dense S, b)
        (fun _ s' => Holds s'.2 layout ldb d n (fun i j => ∑ l ∈ range m.toNat, P ω i l * opMat opA Am l j))) ∧
      0 ≤ w * (1 + 2 / d) - 2 * v + 1 ∧
      ∀ x : Int → ℝ, (∑ ω, ∑ i ∈ range d.toNat, (∑ l ∈ range m.toNat, P ω i l * x l) ^ 2) / Fintype.card (ZMod N × ZMod L → W) = v * ∑ l ∈ range m.toNat, x l ^ 2 ∧
        (∑ ω, (∑ i ∈ range d.toNat, (∑ l ∈ range m.toNat, P ω i l * x l) ^ 2 - ∑ l ∈ range m.toNat, x l ^ 2) ^ 2) / Fintype.card (ZMod N × ZMod L → W) ≤
          (w * (1 + 2 / d) - 2 * v + 1) * (∑ l ∈ range m.toNat, x l ^ 2) ^ 2 := by
  obtain ⟨⟨τ0, τ1, hsym⟩, hv, hw, hvw⟩ := hwd
  have hsam : ∀ ω : ZMod N × ZMod L → W, Samples (fromWords E.G ω) (Real.sqrt 3) S.dist S.seedState (denseEntry (fromWords E.G ω) (Real.sqrt 3) S.dist S.seedState) :=
    fun ω => samples_denseEntry (G := fromWords E.G ω) hE.gen hD
  have key := fun x => C82_moments hE.gen hL hD (by rw [← hR, ← hC]; exact hN) hsym hv hw hvw hsam hd hm.le (by rw [← hR, ← hC]; exact hin) halpha x
  have hd' : (0 : ℝ) < d := by exact_mod_cast hd
  simp only [mul_sum, ← mul_assoc] at key
  refine ⟨fun ω i l => alpha * opMat opS (subMat ro co (denseEntry (fromWords E.G ω) (Real.sqrt 3) S.dist S.seedState)) i l, fun ω => ?_, ?_, fun x => ?_⟩
  · have hE' : SkEnvOk { E with G := fromWords E.G ω } := ⟨hE.env, hE.gen, hE.genS, hE.sqrt, hE.order⟩
    have hS : DenseIs { E with G := fromWords E.G ω } S (denseEntry (fromWords E.G ω) (Real.sqrt 3) S.dist S.seedState) := by
      unfold DenseIs
      rw [hnew]
      refine ⟨hD, hR, hC, ?_⟩
      simp only [h3]
      exact hsam ω
    refine M.wp_mono (C36_left_dense_partial hE' hS hin (fun _ => fillOk_dims hd hm) hd.le hn hm.le hlda hldb (fun _ => hA) hal (C := fun _ _ => 0) (fun h => absurd rfl h)) ?_
    rintro _ s' ⟨h, -⟩ i j hij
    rw [h i j hij]
    unfold prodEntry
    simp only [zero_mul, add_zero, mul_sum, mul_assoc]
  · have h1 : 0 ≤ w := (sq_nonneg v).trans hvw
    have h2 : 0 ≤ w * (2 / d) := mul_nonneg h1 (by positivity)
    nlinarith [sq_nonneg (v - 1)]
  · have := key x
    simp only [mul_sum] at this ⊢
    exact this

/-- C83 (left). `sketch_general` with a dense operator that has not been filled, `alpha² = 1/d` and `beta = 0` returns for all words that a generator may yield. For
every column `j` of `op(A)`, the squared norm of column `j` of the result is on average `v` times that of column `j` of `op(A)`, and it differs from it by more than
the factor `ε` for at most a fraction `(w (1 + 2/d) - 2 v + 1) / ε²` of the choices of the words. -/
theorem C83_left [NeZero N] [Field R] [LinearOrder R] [FloorRing R] [Fintype W] [Nonempty W] {L : Nat} [NeZero L] {E : SkEnv N K W WS R ℝ} (hE : SkEnvOk E)
    (hL : E.G.len = L) (h3 : E.sqrt3 = Real.sqrt 3) {S : DenseSkOp N K ℝ} (hnew : S.buff = none) (hD : DenseDistOk S.dist) (hR : S.nRows = S.dist.nRows)
    (hC : S.nCols = S.dist.nCols) (hN : S.nRows * S.nCols ≤ N) {v w : ℝ} (hwd : WordsOk E.G S.dist.family v w)
    {layout : Layout} {opS opA : Op} {d m n ro co : Int} (hin : InOp S.nRows S.nCols (rowsOf opS d m) (colsOf opS d m) ro co) (hd : 0 < d) (hm : 0 < m) (hn : 0 ≤ n)
    {alpha : ℝ} (halpha : alpha * alpha = 1 / d) {A b : Buf ℝ} {lda ldb : Int} {Am : Int → Int → ℝ} (hlda : LdOk layout lda (rowsOf opA m n) (colsOf opA m n))
    (hldb : LdOk layout ldb d n) (hA : Holds A layout lda (rowsOf opA m n) (colsOf opA m n) Am) (hal : Alloc b layout ldb d n) :
    ∃ B : (ZMod N × ZMod L → W) → Int → Int → ℝ,
      (∀ ω, M.wp (sketchGeneralL { E with G := fromWords E.G ω } layout opS opA d n m alpha ro co A lda 0 ldb) (.dense S, b)
        (fun _ s' => Holds s'.2 layout ldb d n (B ω))) ∧
      ∀ j, (∑ ω, ∑ i ∈ range d.toNat, B ω i j ^ 2) / Fintype.card (ZMod N × ZMod L → W) = v * ∑ l ∈ range m.toNat, opMat opA Am l j ^ 2 ∧
        ∀ ε : ℝ, 0 < ε → ((univ.filter fun ω => ε * ∑ l ∈ range m.toNat, opMat opA Am l j ^ 2 <
            |∑ i ∈ range d.toNat, B ω i j ^ 2 - ∑ l ∈ range m.toNat, opMat opA Am l j ^ 2|).card : ℝ) / Fintype.card (ZMod N × ZMod L → W) ≤
          (w * (1 + 2 / d) - 2 * v + 1) / ε ^ 2 := by
  obtain ⟨P, hP, h0, h⟩ := dense_left_map hE hL h3 hnew hD hR hC hN hwd hin hd hm hn halpha hlda hldb hA hal
  exact ⟨_, hP, fun j => ⟨(h fun l => opMat opA Am l j).1, fun ε hε => fraction_le _ (sum_nonneg fun l _ => sq_nonneg _) h0 hε (h fun l => opMat opA Am l j).2⟩⟩

theorem opMat_flip (op : Op) (A : Int → Int → ℝ) (i j : Int) : opMat op.flip A i j = opMat op A j i := by
  cases op <;> rfl

/-- The same for right sketches. -/
theorem dense_right_map [NeZero N] [Field R] [LinearOrder R] [FloorRing R] [Fintype W] [Nonempty W] {L : Nat} [NeZero L] {E : SkEnv N K W WS R ℝ} (hE : SkEnvOk E)
    (hL : E.G.len = L) (h3 : E.sqrt3 = Real.sqrt 3) {S : DenseSkOp N K ℝ} (hnew : S.buff = none) (hD : DenseDistOk S.dist) (hR : S.nRows = S.dist.nRows)
    (hC : S.nCols = S.dist.nCols) (hN : S.nRows * S.nCols ≤ N) {v w : ℝ} (hwd : WordsOk E.G S.dist.family v w)
    {layout : Layout} {opA opS : Op} {m d n ro co : Int} (hin : InOp S.nRows S.nCols (rowsOf opS n d) (colsOf opS n d) ro co) (hd : 0 < d) (hm : 0 ≤ m) (hn : 0 < n)
    {alpha : ℝ} (halpha : alpha * alpha = 1 / d) {A b : Buf ℝ} {lda ldb : Int} {Am : Int → Int → ℝ} (hlda : LdOk layout lda (rowsOf opA m n) (colsOf opA m n))
    (hldb : LdOk layout ldb m d) (hA : Holds A layout lda (rowsOf opA m n) (colsOf opA m n) Am) (hal : Alloc b layout ldb m d) :
    ∃ P : (ZMod N × ZMod L → W) → Int → Int → ℝ,
      (∀ ω, M.wp (sketchGeneralR { E with G := fromWords E.G ω } layout opA opS m d n alpha A lda ro co 0 ldb) (.dense S, b)
        (fun _ s' => Holds s'.2 layout ldb m d (fun i j => ∑ l ∈ range n.toNat, P ω j l * opMat opA Am i l))) ∧
      0 ≤ w * (1 + 2 / d) - 2 * v + 1 ∧
      ∀ x : Int → ℝ, (∑ ω, ∑ i ∈ range d.toNat, (∑ l ∈ range n.toNat, P ω i l * x l) ^ 2) / Fintype.card (ZMod N × ZMod L → W) = v * ∑ l ∈ range n.toNat, x l ^ 2 ∧
        (∑ ω, (∑ i ∈ range d.toNat, (∑ l ∈ range n.toNat, P ω i l * x l) ^ 2 - ∑ l ∈ range n.toNat, x l ^ 2) ^ 2) / Fintype.card (ZMod N × ZMod L → W) ≤
          (w * (1 + 2 / d) - 2 * v + 1) * (∑ l ∈ range n.toNat, x l ^ 2) ^ 2 := by
  obtain ⟨⟨τ0, τ1, hsym⟩, hv, hw, hvw⟩ := hwd
  have hsam : ∀ ω : ZMod N × ZMod L → W, Samples (fromWords E.G ω) (Real.sqrt 3) S.dist S.seedState (denseEntry (fromWords E.G ω) (Real.sqrt 3) S.dist S.seedState) :=
    fun ω => samples_denseEntry (G := fromWords E.G ω) hE.gen hD
  have hin' : InOp S.dist.nRows S.dist.nCols (rowsOf opS.flip d n) (colsOf opS.flip d n) ro co := by
    rw [← hR, ← hC]; cases opS <;> exact hin
  have key := fun x => C82_moments hE.gen hL hD (by rw [← hR, ← hC]; exact hN) hsym hv hw hvw hsam hd hn.le hin' halpha x
  simp only [opMat_flip] at key
  have hd' : (0 : ℝ) < d := by exact_mod_cast hd
  simp only [mul_sum, ← mul_assoc] at key
  refine ⟨fun ω j l => alpha * opMat opS (subMat ro co (denseEntry (fromWords E.G ω) (Real.sqrt 3) S.dist S.seedState)) l j, fun ω => ?_, ?_, fun x => ?_⟩
  · have hE' : SkEnvOk { E with G := fromWords E.G ω } := ⟨hE.env, hE.gen, hE.genS, hE.sqrt, hE.order⟩
    have hS : DenseIs { E with G := fromWords E.G ω } S (denseEntry (fromWords E.G ω) (Real.sqrt 3) S.dist S.seedState) := by
      unfold DenseIs
      rw [hnew]
      refine ⟨hD, hR, hC, ?_⟩
      simp only [h3]
      exact hsam ω
    refine M.wp_mono (C36_right_dense_partial hE' hS hin (fun _ => fillOk_dims hn hd) hm hd.le hn.le hlda hldb (fun _ => hA) hal (C := fun _ _ => 0) (fun h => absurd rfl h)) ?_
    rintro _ s' ⟨h, -⟩ i j hij
    rw [h i j hij]
    unfold prodEntry
    simp only [zero_mul, add_zero]
    rw [mul_sum]
    congr 1
    exact sum_congr rfl fun l _ => by ring
  · have h1 : 0 ≤ w := (sq_nonneg v).trans hvw
    have h2 : 0 ≤ w * (2 / d) := mul_nonneg h1 (by positivity)
    nlinarith [sq_nonneg (v - 1)]
  · have := key x
    simp only [mul_sum] at this ⊢
    exact this

/-- C83 (right). The same for `op(A) * op(submat(S))`, and the rows of the result. -/
theorem C83_right [NeZero N] [Field R] [LinearOrder R] [FloorRing R] [Fintype W] [Nonempty W] {L : Nat} [NeZero L] {E : SkEnv N K W WS R ℝ} (hE : SkEnvOk E)
    (hL : E.G.len = L) (h3 : E.sqrt3 = Real.sqrt 3) {S : DenseSkOp N K ℝ} (hnew : S.buff = none) (hD : DenseDistOk S.dist) (hR : S.nRows = S.dist.nRows)
    (hC : S.nCols = S.dist.nCols) (hN : S.nRows * S.nCols ≤ N) {v w : ℝ} (hwd : WordsOk E.G S.dist.family v w)
    {layout : Layout} {opA opS : Op} {m d n ro co : Int} (hin : InOp S.nRows S.nCols (rowsOf opS n d) (colsOf opS n d) ro co) (hd : 0 < d) (hm : 0 ≤ m) (hn : 0 < n)
    {alpha : ℝ} (halpha : alpha * alpha = 1 / d) {A b : Buf ℝ} {lda ldb : Int} {Am : Int → Int → ℝ} (hlda : LdOk layout lda (rowsOf opA m n) (colsOf opA m n))
    (hldb : LdOk layout ldb m d) (hA : Holds A layout lda (rowsOf opA m n) (colsOf opA m n) Am) (hal : Alloc b layout ldb m d) :
    ∃ B : (ZMod N × ZMod L → W) → Int → Int → ℝ,
      (∀ ω, M.wp (sketchGeneralR { E with G := fromWords E.G ω } layout opA opS m d n alpha A lda ro co 0 ldb) (.dense S, b)
        (fun _ s' => Holds s'.2 layout ldb m d (B ω))) ∧
      ∀ i, (∑ ω, ∑ j ∈ range d.toNat, B ω i j ^ 2) / Fintype.card (ZMod N × ZMod L → W) = v * ∑ l ∈ range n.toNat, opMat opA Am i l ^ 2 ∧
        ∀ ε : ℝ, 0 < ε → ((univ.filter fun ω => ε * ∑ l ∈ range n.toNat, opMat opA Am i l ^ 2 <
            |∑ j ∈ range d.toNat, B ω i j ^ 2 - ∑ l ∈ range n.toNat, opMat opA Am i l ^ 2|).card : ℝ) / Fintype.card (ZMod N × ZMod L → W) ≤
          (w * (1 + 2 / d) - 2 * v + 1) / ε ^ 2 := by
  obtain ⟨P, hP, h0, h⟩ := dense_right_map hE hL h3 hnew hD hR hC hN hwd hin hd hm hn halpha hlda hldb hA hal
  exact ⟨_, hP, fun i => ⟨(h fun l => opMat opA Am i l).1, fun ε hε => fraction_le _ (sum_nonneg fun l _ => sq_nonneg _) h0 hε (h fun l => opMat opA Am i l).2⟩⟩

/-- C83. The exact conversions of words satisfy `WordsOk`: for the uniform family with `v = 1 - 1/M²` and `w = v²`, for the Gaussian family with `w = 1` and `v`
between `1 - (2 + log (2 M)) / (2 M)` and 1. -/
theorem C83_words [Fintype W] [Nonempty W] {G : Gen N K W ℝ} {m8 Mw : Nat} (hm8 : 0 < m8) (hMw : Mw = 4 * (2 * m8)) (e e' : W ≃ Fin Mw)
    (hmid : ∀ w, (G.uneg11 w + 1) / 2 = (((e w : Nat) : ℝ) + 1 / 2) / Mw)
    (hbm : IsBoxMuller G G.uneg11 fun w => Real.sqrt (-2 * Real.log ((((e' w : Nat) : ℝ) + 1 / 2) / Mw))) :
    WordsOk G .Uniform (1 - 1 / (Mw : ℝ) ^ 2) ((1 - 1 / (Mw : ℝ) ^ 2) ^ 2) ∧
    ∃ v, 1 - (2 + Real.log (2 * Mw)) / (2 * Mw) ≤ v ∧ v ≤ 1 ∧ WordsOk G .Gaussian v 1 := by
  subst hMw
  constructor
  · have hM : 0 < 4 * (2 * m8) := by omega
    have hM' : (0 : ℝ) < ((4 * (2 * m8) : Nat) : ℝ) := by exact_mod_cast hM
    refine ⟨⟨fun w => e.symm (Fin.rev (e w)), fun w => e.symm (Fin.rev (e w)), fun w => by simp, fun w => by simp, fun _ w => ?_, fun h => absurd h (by simp)⟩,
      C61_uniform_mean_square hM e hmid, C82_uniform_words hM e hmid, le_rfl⟩
    have hneg : G.uneg11 (e.symm (Fin.rev (e w))) = -G.uneg11 w := by
      have h1 := hmid w
      have h2 := hmid (e.symm (Fin.rev (e w)))
      simp only [Equiv.apply_symm_apply, Fin.val_rev] at h2
      rw [Nat.cast_sub (by have := (e w).2; omega)] at h2
      push_cast at h1 h2
      field_simp at h1 h2
      have hm' : (m8 : ℝ) ≠ 0 := by exact_mod_cast hm8.ne'
      have h3 : (m8 : ℝ) * (G.uneg11 (e.symm (Fin.rev (e w))) + G.uneg11 w) = 0 := by linarith
      have := (mul_eq_zero.mp h3).resolve_left hm'
      linarith
    exact ⟨hneg, hneg⟩
  · obtain ⟨hsym, -⟩ := C61_gaussian_words (G := G) (m := 2 * m8) (by omega) e hbm hmid
    obtain ⟨v, hv, hw, hv1, hv2⟩ := C82_gaussian_words (G := G) hm8 e e' hbm hmid fun _ => rfl
    have hlow : 0 ≤ v := by
      obtain ⟨h1, -⟩ := hv
      rw [← h1]
      exact div_nonneg (sum_nonneg fun _ _ => sum_nonneg fun _ _ => sq_nonneg _) (sq_nonneg _)
    exact ⟨v, hv2, hv1, hsym, hv, hw, pow_le_one₀ hlow hv1⟩

/-- An environment with real numbers and exact conversions of 32-bit words. -/
noncomputable def midEnvR : SkEnv (2 ^ 128) Nat (Fin (4 * 2 ^ 30)) (Fin (2 ^ 32)) ℚ ℝ :=
  ⟨⟨fun lt l => l.mergeSort fun a b => !lt b a, [], 4⟩, midGenR, Real.sqrt 3, midGen, Real.sqrt, fun _ l => l⟩

/-- The hypotheses are met by a new 2 x 5 Gaussian operator, its window of columns 1 to 4 and the 4 x 2 matrix with entries i + j. -/
example : SkEnvOk midEnvR ∧ midEnvR.G.len = (4 : Nat) ∧ midEnvR.sqrt3 = Real.sqrt 3 ∧
    (∃ S : DenseSkOp (2 ^ 128) Nat ℝ, mkDenseSkOp 4 exGauss ⟨0, 7⟩ = .ok S ∧ S.buff = none ∧ DenseDistOk S.dist ∧ S.nRows = S.dist.nRows ∧ S.nCols = S.dist.nCols ∧
      S.nRows * S.nCols ≤ ((2 ^ 128 : Nat) : Int) ∧ (∃ v, WordsOk midEnvR.G S.dist.family v 1) ∧
      InOp S.nRows S.nCols (rowsOf .NoTrans 2 4) (colsOf .NoTrans 2 4) 0 1 ∧ InOp S.nRows S.nCols (rowsOf .Trans 4 2) (colsOf .Trans 4 2) 0 1) ∧
    LdOk .ColMajor 4 (rowsOf .NoTrans 4 2) (colsOf .NoTrans 4 2) ∧ LdOk .ColMajor 2 2 2 ∧
    Holds (Buf.ofFn 8 fun p => ((p % 4 + p / 4 : Int) : ℝ)) .ColMajor 4 4 2 (fun i j => (i + j : Int)) ∧ Alloc (Buf.alloc ℝ 4) .ColMajor 2 2 2 := by
  refine ⟨⟨⟨mergeSort_sortOk, by norm_num [midEnvR]⟩, Or.inr rfl, Or.inr rfl, Real.sqrt_one, fun _ l => List.Perm.refl l⟩, rfl, rfl,
    ⟨_, rfl, rfl, ⟨by decide, by decide⟩, rfl, rfl, by decide, ?_, by unfold InOp; decide, by unfold InOp; decide⟩, by simp [LdOk, rowsOf], by simp [LdOk], ?_, ?_⟩
  · obtain ⟨-, v, -, -, h⟩ := C83_words (G := midGenR) (m8 := 2 ^ 29) (Mw := 4 * 2 ^ 30) (by norm_num) (by norm_num) (Equiv.refl _) (Equiv.refl _)
      (fun w => by simp only [midGenR, Equiv.refl_apply]; ring) (fun _ _ => rfl)
    exact ⟨v, h⟩
  · rintro i j ⟨h1, h2, h3, h4⟩
    simp only [addr]
    simp only [Buf.ofFn]
    rw [if_pos (by omega), show (i + j * 4) % 4 = i by omega, show (i + j * 4) / 4 = j by omega]
  · rintro i j ⟨h1, h2, h3, h4⟩
    simp only [addr]
    simp only [Buf.alloc]
    rw [if_pos (by omega)]; simp

end RB
