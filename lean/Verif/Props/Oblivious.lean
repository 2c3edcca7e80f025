import Verif.Lemmas.Net
import Verif.Props.JL
import Verif.Props.Embedding

/-!
# C96: dense operators embed subspaces with exponentially small probability of failure

C84 bounds the probability that a sketch fails to be a subspace embedding by means of second moments, with a bound that decreases like `1/d`. For the dense operators the
tail bounds of C94 give a bound that decreases exponentially with the number `d` of rows of the sketch.
-/

namespace RB
open Spec Finset Module
variable {N : Nat} {K W WS R : Type}

/-- From a tail bound for each vector to a bound for all vectors of a subspace at once. -/
theorem embeds_of_tails {Ω : Type} [Fintype Ω] {P : Ω → Int → Int → ℝ} {d m n r : Int} {ε c : ℝ} (hε : 0 ≤ ε) (hc : 0 ≤ c)
    (h : ∀ x : Int → ℝ, Pr (fun ω => ε / 2 * ∑ l ∈ range m.toNat, x l ^ 2 <
      |∑ i ∈ range d.toNat, (∑ l ∈ range m.toNat, P ω i l * x l) ^ 2 - ∑ l ∈ range m.toNat, x l ^ 2|) ≤ c)
    {A : Int → Int → ℝ} (hrank : RankLe r m n A) :
    Pr (fun ω => ¬ Embeds ε m d n A (fun i j => ∑ l ∈ range m.toNat, P ω i l * A l j)) ≤ 9 ^ r.toNat * c := by
  obtain ⟨F, C, hFC⟩ := hrank
  let V : Submodule ℝ (EuclideanSpace ℝ (Fin m.toNat)) := Submodule.span ℝ (Set.range fun k : Fin r.toNat => (WithLp.toLp 2 fun l : Fin m.toNat => F l k : EuclideanSpace ℝ (Fin m.toNat)))
  have hfin : finrank ℝ V ≤ r.toNat := by
    have := finrank_range_le_card (R := ℝ) (fun k : Fin r.toNat => (WithLp.toLp 2 fun l : Fin m.toNat => F l k : EuclideanSpace ℝ (Fin m.toNat)))
    rw [Fintype.card_fin] at this
    exact this
  obtain ⟨s, hcard, hs, hnet⟩ := exists_net V
  let f : Ω → Nat → V →ₗ[ℝ] ℝ := fun ω i =>
    { toFun := fun v => ∑ l : Fin m.toNat, P ω i l * v.1 l
      map_add' := fun v w => by simp [mul_add, sum_add_distrib]
      map_smul' := fun a v => by simp only [Submodule.coe_smul, PiLp.smul_apply, smul_eq_mul, RingHom.id_apply, mul_sum]; exact sum_congr rfl fun _ _ => by ring }
  have hf : ∀ ω i v, f ω i v = ∑ l : Fin m.toNat, P ω i l * v.1 l := fun _ _ _ => rfl
  have hnorm : ∀ v : V, ‖v‖ ^ 2 = ∑ l : Fin m.toNat, v.1 l ^ 2 := by
    intro v
    rw [Submodule.coe_norm, EuclideanSpace.norm_sq_eq]
    exact sum_congr rfl fun l _ => by rw [Real.norm_eq_abs, sq_abs]
  have hbd : ∀ ω (v : V), |qform (range d.toNat) (f ω) v| ≤ (∑ i ∈ range d.toNat, ∑ l : Fin m.toNat, P ω i l ^ 2 + 1) * ‖v‖ ^ 2 := by
    intro ω v
    have h1 : ∑ i ∈ range d.toNat, f ω i v ^ 2 ≤ (∑ i ∈ range d.toNat, ∑ l : Fin m.toNat, P ω i l ^ 2) * ‖v‖ ^ 2 := by
      rw [sum_mul]
      refine sum_le_sum fun i _ => ?_
      rw [hf, hnorm]
      exact sum_mul_sq_le_sq_mul_sq _ _ _
    have h2 : 0 ≤ ∑ i ∈ range d.toNat, f ω i v ^ 2 := sum_nonneg fun _ _ => sq_nonneg _
    have h3 := sq_nonneg ‖v‖
    unfold qform
    rw [abs_le]
    constructor <;> nlinarith
  let X : V → Int → ℝ := fun v l => if h : l.toNat < m.toNat then v.1 ⟨l.toNat, h⟩ else 0
  have hX : ∀ (v : V) (l : Fin m.toNat), X v l = v.1 l := by
    intro v l
    simp only [X, Int.toNat_natCast]
    rw [dif_pos l.2]
  have hXn : ∀ v : V, ∑ l ∈ range m.toNat, X v l ^ 2 = ‖v‖ ^ 2 := by
    intro v
    rw [hnorm, sum_range]
    exact sum_congr rfl fun l _ => by rw [hX]
  have hXq : ∀ ω (v : V), ∑ i ∈ range d.toNat, (∑ l ∈ range m.toNat, P ω i l * X v l) ^ 2 - ∑ l ∈ range m.toNat, X v l ^ 2 = qform (range d.toNat) (f ω) v := by
    intro ω v
    unfold qform
    rw [hXn]
    congr 1
    refine sum_congr rfl fun i _ => ?_
    rw [hf, sum_range]
    congr 1
    exact sum_congr rfl fun l _ => by rw [hX]
  have hmain := pr_exists_le s (p := fun ω => ¬ Embeds ε m d n A (fun i j => ∑ l ∈ range m.toNat, P ω i l * A l j))
    (q := fun v ω => ε / 2 * ∑ l ∈ range m.toNat, X v l ^ 2 < |∑ i ∈ range d.toNat, (∑ l ∈ range m.toNat, P ω i l * X v l) ^ 2 - ∑ l ∈ range m.toNat, X v l ^ 2|)
    (c := c) (fun ω hω => by
      by_contra hcon
      push Not at hcon
      refine hω fun z => ?_
      have hall := qform_le (range d.toNat) (f ω) hs hnet (ε := ε / 2) (by linarith) (by positivity)
        (fun v hv => by have := hcon v hv; rwa [hXq, hXn] at this) (hbd ω)
      let g : Fin m.toNat → ℝ := fun l => ∑ j ∈ range n.toNat, A l j * z j
      have hAz : (WithLp.toLp 2 g : EuclideanSpace ℝ (Fin m.toNat)) ∈ V := by
        have : (WithLp.toLp 2 g : EuclideanSpace ℝ (Fin m.toNat)) = ∑ k : Fin r.toNat, (∑ j ∈ range n.toNat, C k j * z j) • (WithLp.toLp 2 fun l : Fin m.toNat => F l k : EuclideanSpace ℝ (Fin m.toNat)) := by
          ext l
          rw [WithLp.ofLp_sum, Finset.sum_apply]
          simp only [PiLp.smul_apply, smul_eq_mul, g]
          rw [sum_congr rfl fun (j : Nat) hj => by rw [hFC l j ⟨by omega, by omega, by omega, by rw [mem_range] at hj; omega⟩]]
          simp only [sum_mul]
          rw [sum_comm, sum_range (fun k => ∑ j ∈ range n.toNat, F l k * C k j * z j)]
          exact sum_congr rfl fun _ _ => sum_congr rfl fun _ _ => by ring
        rw [this]
        exact Submodule.sum_mem _ fun k _ => Submodule.smul_mem _ _ (Submodule.subset_span ⟨k, rfl⟩)
      have hq := hall ⟨_, hAz⟩
      have e1 : ‖(⟨_, hAz⟩ : V)‖ ^ 2 = sqNorm m n A z := by
        rw [hnorm]
        unfold sqNorm
        rw [sum_range]
      have e2 : ∑ i ∈ range d.toNat, f ω i ⟨_, hAz⟩ ^ 2 = sqNorm d n (fun i j => ∑ l ∈ range m.toNat, P ω i l * A l j) z := by
        unfold sqNorm
        refine sum_congr rfl fun i _ => ?_
        rw [hf]
        congr 1
        simp only [g, mul_sum, sum_mul]
        rw [sum_comm (s := range n.toNat), ← sum_range (fun l => ∑ j ∈ range n.toNat, P ω i l * (A l j * z j))]
        exact sum_congr rfl fun l _ => sum_congr rfl fun j _ => by ring
      unfold qform at hq
      rw [e1, e2] at hq
      linarith) (fun v _ => h (X v))
  refine hmain.trans (mul_le_mul_of_nonneg_right ?_ hc)
  have : s.card ≤ 9 ^ r.toNat := hcard.trans (Nat.pow_le_pow_right (by norm_num) hfin)
  exact_mod_cast this

/-- C96 (left). `sketch_general` with a dense operator that has not been filled, `alpha² = 1/d` and `beta = 0` returns and embeds the column space of `op(A)`, of dimension
at most `r`, with distortion `ε`, for all but a fraction `2 9^r exp (-d ε (ε - 4 δ) / 32)` of the words that a generator may yield. -/
theorem C96_left [NeZero N] [Field R] [LinearOrder R] [FloorRing R] [Fintype W] [Nonempty W] {L : Nat} [NeZero L] {E : SkEnv N K W WS R ℝ} (hE : SkEnvOk E)
    (hL : E.G.len = L) (h3 : E.sqrt3 = Real.sqrt 3) {S : DenseSkOp N K ℝ} (hnew : S.buff = none) (hD : DenseDistOk S.dist) (hR : S.nRows = S.dist.nRows)
    (hC : S.nCols = S.dist.nCols) (hN : S.nRows * S.nCols ≤ N) {v w δ : ℝ} (hwd : WordsOk E.G S.dist.family v w) (hw1 : w ≤ 1) (hδ : 0 ≤ δ) (hv1 : 1 - δ ≤ v)
    (hsub : SubGaussianWords E.G S.dist.family)
    {layout : Layout} {opS opA : Op} {d m n ro co : Int} (hin : InOp S.nRows S.nCols (rowsOf opS d m) (colsOf opS d m) ro co) (hd : 0 < d) (hm : 0 < m) (hn : 0 ≤ n)
    {alpha : ℝ} (halpha : alpha * alpha = 1 / d) {A b : Buf ℝ} {lda ldb : Int} {Am : Int → Int → ℝ} (hlda : LdOk layout lda (rowsOf opA m n) (colsOf opA m n))
    (hldb : LdOk layout ldb d n) (hA : Holds A layout lda (rowsOf opA m n) (colsOf opA m n) Am) (hal : Alloc b layout ldb d n) {r : Nat}
    (hrank : RankLe r m n (opMat opA Am)) {ε : ℝ} (hε0 : 0 < ε) (hε1 : ε ≤ 2) :
    Pr (fun ω : ZMod N × ZMod L → W => ¬ M.wp (sketchGeneralL { E with G := fromWords E.G ω } layout opS opA d n m alpha ro co A lda 0 ldb) (.dense S, b)
      (fun _ s' => ∃ B, Holds s'.2 layout ldb d n B ∧ Embeds ε m d n (opMat opA Am) B)) ≤ 2 * 9 ^ r * Real.exp (-(d * (ε * (ε - 4 * δ)) / 32)) := by
  obtain ⟨P, hP, h⟩ := dense_left_tails hE hL h3 hnew hD hR hC hN hwd hw1 hδ hv1 hsub hin hd hm hn halpha hlda hldb hA hal
  have h1 := embeds_of_tails hε0.le (by positivity) (h (ε / 2) (by linarith) (by linarith)) hrank
  have e : (9 : ℝ) ^ (r : Int).toNat * (2 * Real.exp (-(d * (ε / 2 * (ε / 2 - 2 * δ)) / 8))) = 2 * 9 ^ r * Real.exp (-(d * (ε * (ε - 4 * δ)) / 32)) := by
    rw [Int.toNat_natCast]
    ring_nf
  rw [e] at h1
  refine le_trans ?_ h1
  have := pr_or_le (p := fun ω : ZMod N × ZMod L → W => ¬ M.wp (sketchGeneralL { E with G := fromWords E.G ω } layout opS opA d n m alpha ro co A lda 0 ldb) (.dense S, b)
      (fun _ s' => ∃ B, Holds s'.2 layout ldb d n B ∧ Embeds ε m d n (opMat opA Am) B))
    (q := fun ω => ¬ Embeds ε m d n (opMat opA Am) (fun i j => ∑ l ∈ range m.toNat, P ω i l * opMat opA Am l j)) (r := fun _ => False) (fun ω hω => by
      left
      intro hc
      exact hω (M.wp_mono (hP ω) fun _ s' h => ⟨_, h, hc⟩))
  have h0 : Pr (fun _ : ZMod N × ZMod L → W => False) = 0 := by
    classical
    rw [pr_eq]; simp
  rwa [h0, add_zero] at this

/-- C96 (right). The same for `op(A) * op(submat(S))` and the row space of `op(A)`. -/
theorem C96_right [NeZero N] [Field R] [LinearOrder R] [FloorRing R] [Fintype W] [Nonempty W] {L : Nat} [NeZero L] {E : SkEnv N K W WS R ℝ} (hE : SkEnvOk E)
    (hL : E.G.len = L) (h3 : E.sqrt3 = Real.sqrt 3) {S : DenseSkOp N K ℝ} (hnew : S.buff = none) (hD : DenseDistOk S.dist) (hR : S.nRows = S.dist.nRows)
    (hC : S.nCols = S.dist.nCols) (hN : S.nRows * S.nCols ≤ N) {v w δ : ℝ} (hwd : WordsOk E.G S.dist.family v w) (hw1 : w ≤ 1) (hδ : 0 ≤ δ) (hv1 : 1 - δ ≤ v)
    (hsub : SubGaussianWords E.G S.dist.family)
    {layout : Layout} {opA opS : Op} {m d n ro co : Int} (hin : InOp S.nRows S.nCols (rowsOf opS n d) (colsOf opS n d) ro co) (hd : 0 < d) (hm : 0 ≤ m) (hn : 0 < n)
    {alpha : ℝ} (halpha : alpha * alpha = 1 / d) {A b : Buf ℝ} {lda ldb : Int} {Am : Int → Int → ℝ} (hlda : LdOk layout lda (rowsOf opA m n) (colsOf opA m n))
    (hldb : LdOk layout ldb m d) (hA : Holds A layout lda (rowsOf opA m n) (colsOf opA m n) Am) (hal : Alloc b layout ldb m d) {r : Nat}
    (hrank : RankLe r n m (fun l i => opMat opA Am i l)) {ε : ℝ} (hε0 : 0 < ε) (hε1 : ε ≤ 2) :
    Pr (fun ω : ZMod N × ZMod L → W => ¬ M.wp (sketchGeneralR { E with G := fromWords E.G ω } layout opA opS m d n alpha A lda ro co 0 ldb) (.dense S, b)
      (fun _ s' => ∃ B, Holds s'.2 layout ldb m d B ∧ Embeds ε n d m (fun l i => opMat opA Am i l) (fun j i => B i j))) ≤
      2 * 9 ^ r * Real.exp (-(d * (ε * (ε - 4 * δ)) / 32)) := by
  obtain ⟨P, hP, h⟩ := dense_right_tails hE hL h3 hnew hD hR hC hN hwd hw1 hδ hv1 hsub hin hd hm hn halpha hlda hldb hA hal
  have h1 := embeds_of_tails hε0.le (by positivity) (h (ε / 2) (by linarith) (by linarith)) hrank
  have e : (9 : ℝ) ^ (r : Int).toNat * (2 * Real.exp (-(d * (ε / 2 * (ε / 2 - 2 * δ)) / 8))) = 2 * 9 ^ r * Real.exp (-(d * (ε * (ε - 4 * δ)) / 32)) := by
    rw [Int.toNat_natCast]
    ring_nf
  rw [e] at h1
  refine le_trans ?_ h1
  have := pr_or_le (p := fun ω : ZMod N × ZMod L → W => ¬ M.wp (sketchGeneralR { E with G := fromWords E.G ω } layout opA opS m d n alpha A lda ro co 0 ldb) (.dense S, b)
      (fun _ s' => ∃ B, Holds s'.2 layout ldb m d B ∧ Embeds ε n d m (fun l i => opMat opA Am i l) (fun j i => B i j)))
    (q := fun ω => ¬ Embeds ε n d m (fun l i => opMat opA Am i l) (fun j i => ∑ l ∈ range n.toNat, P ω j l * opMat opA Am i l)) (r := fun _ => False) (fun ω hω => by
      left
      intro hc
      exact hω (M.wp_mono (hP ω) fun _ s' h => ⟨_, h, hc⟩))
  have h0 : Pr (fun _ : ZMod N × ZMod L → W => False) = 0 := by
    classical
    rw [pr_eq]; simp
  rwa [h0, add_zero] at this

/-- C96. A sketch with `64 (3 r + log (2/η)) / ε²` rows suffices for the probability of failure `η`, if the mean square of the entries is at least `1 - ε/8`. -/
theorem C96_dimension {r d : Nat} {ε δ η : ℝ} (hε : 0 < ε) (hδ : δ ≤ ε / 8) (hη : 0 < η) (hd : 64 * (3 * r + Real.log (2 / η)) ≤ d * ε ^ 2) :
    2 * 9 ^ r * Real.exp (-(d * (ε * (ε - 4 * δ)) / 32)) ≤ η := by
  have hd0 : (0 : ℝ) ≤ d := Nat.cast_nonneg _
  have h1 : -(d * (ε * (ε - 4 * δ)) / 32) ≤ -(3 * r) + -Real.log (2 / η) := by
    have : (d : ℝ) * ε * (ε / 2) ≤ d * ε * (ε - 4 * δ) := mul_le_mul_of_nonneg_left (by linarith) (by positivity)
    nlinarith
  have h2 := Real.exp_le_exp.mpr h1
  rw [Real.exp_add, Real.exp_neg (Real.log _), Real.exp_log (by positivity), Real.exp_neg (3 * (r : ℝ)), mul_comm (3 : ℝ), Real.exp_nat_mul] at h2
  have h9 : (9 : ℝ) ≤ Real.exp 3 := by
    have := Real.quadratic_le_exp_of_nonneg (show (0 : ℝ) ≤ 3 by norm_num)
    have h4 : Real.exp 3 = Real.exp (3 / 2) ^ 2 := by rw [← Real.exp_nat_mul]; norm_num
    have := Real.quadratic_le_exp_of_nonneg (show (0 : ℝ) ≤ 3 / 2 by norm_num)
    rw [h4]
    nlinarith
  have h5 : (9 : ℝ) ^ r ≤ Real.exp 3 ^ r := pow_le_pow_left₀ (by norm_num) h9 r
  have h6 : 0 < Real.exp 3 ^ r := by positivity
  calc 2 * 9 ^ r * Real.exp (-(d * (ε * (ε - 4 * δ)) / 32)) ≤ 2 * Real.exp 3 ^ r * ((Real.exp 3 ^ r)⁻¹ * (2 / η)⁻¹) :=
        mul_le_mul (by linarith) h2 (Real.exp_pos _).le (by positivity)
    _ = η := by field_simp

/-- The bound is less than 1/100 for an operator with 10⁵ rows, a subspace of dimension 50 and `ε = 1/2`, with the words of `midEnvR` (`δ = 2⁻²⁵`, see the example of C95);
the matrix with the entries `i + j` has rank 2 with any number of columns. -/
example : (2 : ℝ) * 9 ^ 50 * Real.exp (-(((10 ^ 5 : Nat) : ℝ) * (1 / 2 * (1 / 2 - 4 * (1 / 2 ^ 25))) / 32)) ≤ 1 / 100 ∧ RankLe (2 : Nat) 5000 300 (fun i j => i + j) := by
  refine ⟨C96_dimension (r := 50) (d := 10 ^ 5) (by norm_num) (by norm_num) (by norm_num) ?_, fun i k => if k = 0 then i else 1, fun k j => if k = 0 then 1 else j, fun i j _ => ?_⟩
  · have := Real.log_le_sub_one_of_pos (show (0 : ℝ) < 2 / (1 / 100) by norm_num)
    norm_num at this ⊢
    linarith
  · simp [sum_range_succ]

end RB
