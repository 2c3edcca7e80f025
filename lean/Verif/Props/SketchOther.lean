import Verif.Props.FullRank
import Verif.Props.Oblivious

/-!
# C132: the other entry points preserve geometry as `sketch_general` does

`sketch_sparse`, `sketch_vector` and `sketch_symmetric` with dense operators that have not been filled, and `sketch_vector` with sparse operators. The assumptions about the words and the
bounds are those of C81, C93, C95 and C96.
-/

namespace RB
open Spec Finset
variable {N : Nat} {K W WS R : Type}

section
variable [NeZero N] [Field R] [LinearOrder R] [FloorRing R] [Fintype W] [Nonempty W] {L : Nat} [NeZero L] {E : SkEnv N K W WS R ℝ} {S : DenseSkOp N K ℝ} {v w δ : ℝ}

omit [NeZero N] [Field R] [LinearOrder R] [FloorRing R] [Fintype W] [Nonempty W] [NeZero L] in
/-- A new operator is its sample for all words. -/
theorem new_denseIs (hE : SkEnvOk E) (h3 : E.sqrt3 = Real.sqrt 3) (hnew : S.buff = none) (hD : DenseDistOk S.dist) (hR : S.nRows = S.dist.nRows) (hC : S.nCols = S.dist.nCols)
    (ω : ZMod N × ZMod L → W) : SkEnvOk { E with G := fromWords E.G ω } ∧
      DenseIs { E with G := fromWords E.G ω } S (denseEntry (fromWords E.G ω) (Real.sqrt 3) S.dist S.seedState) := by
  refine ⟨⟨hE.env, hE.gen, hE.genS, hE.sqrt, hE.order⟩, ?_⟩
  unfold DenseIs
  rw [hnew]
  refine ⟨hD, hR, hC, ?_⟩
  simp only [h3]
  exact samples_denseEntry (G := fromWords E.G ω) hE.gen hD

omit [Field R] [LinearOrder R] [FloorRing R] in
/-- The operator `P = alpha * op(submat(S))` and its tails. -/
theorem new_tails (hE : SkEnvOk E) (hL : E.G.len = L) (hD : DenseDistOk S.dist) (hR : S.nRows = S.dist.nRows) (hC : S.nCols = S.dist.nCols) (hN : S.nRows * S.nCols ≤ N)
    (hwd : WordsOk E.G S.dist.family v w) (hw1 : w ≤ 1) (hδ : 0 ≤ δ) (hv1 : 1 - δ ≤ v) (hsub : SubGaussianWords E.G S.dist.family) {opS : Op} {d m ro co : Int}
    (hin : InOp S.nRows S.nCols (rowsOf opS d m) (colsOf opS d m) ro co) (hd : 0 < d) (hm : 0 ≤ m) {alpha : ℝ} (halpha : alpha * alpha = 1 / d) :
    ∃ P : (ZMod N × ZMod L → W) → Int → Int → ℝ,
      (∀ ω i l, P ω i l = alpha * opMat opS (subMat ro co (denseEntry (fromWords E.G ω) (Real.sqrt 3) S.dist S.seedState)) i l) ∧
      ∀ ε : ℝ, 0 < ε → ε ≤ 1 → ∀ x : Int → ℝ, Pr (fun ω => ε * ∑ l ∈ range m.toNat, x l ^ 2 <
        |∑ i ∈ range d.toNat, (∑ l ∈ range m.toNat, P ω i l * x l) ^ 2 - ∑ l ∈ range m.toNat, x l ^ 2|) ≤ 2 * Real.exp (-(d * (ε * (ε - 2 * δ)) / 8)) := by
  refine ⟨_, fun _ _ _ => rfl, fun ε h0 h1 x => ?_⟩
  have := C94_distortion hE.gen hL hD (by rw [← hR, ← hC]; exact hN) hwd hw1 hδ hv1 hsub (fun ω : ZMod N × ZMod L → W => samples_denseEntry (G := fromWords E.G ω) (seed := S.seedState) hE.gen hD)
    hd hm (by rw [← hR, ← hC]; exact hin) halpha x h0 h1
  simp only [mul_sum, mul_assoc] at this ⊢
  exact this

end

/-- The sketch `B = P A` preserves all distances between the columns of `A` and its whole column space. -/
def Spec.PreservesGeometry (ε : ℝ) (m d n : Int) (A B : Int → Int → ℝ) : Prop :=
  PreservesDist ε m d n A B ∧ Embeds (2 * ε) m d n A B

/-- The bounds for all distances and for whole subspaces, from the tails. -/
theorem geometry_of_tails {Ω : Type} [Fintype Ω] {P : Ω → Int → Int → ℝ} {d m n : Int} {δ : ℝ} (hn : 0 ≤ n)
    (h : ∀ ε : ℝ, 0 < ε → ε ≤ 1 → ∀ x : Int → ℝ, Pr (fun ω => ε * ∑ l ∈ range m.toNat, x l ^ 2 <
        |∑ i ∈ range d.toNat, (∑ l ∈ range m.toNat, P ω i l * x l) ^ 2 - ∑ l ∈ range m.toNat, x l ^ 2|) ≤ 2 * Real.exp (-(d * (ε * (ε - 2 * δ)) / 8)))
    {A : Int → Int → ℝ} {r : Nat} (hrank : RankLe r m n A) {ε : ℝ} (h0 : 0 < ε) (h1 : ε ≤ 1) {Q : Ω → Prop}
    (hQ : ∀ ω, PreservesGeometry ε m d n A (fun i j => ∑ l ∈ range m.toNat, P ω i l * A l j) → Q ω) :
    Pr (fun ω => ¬ Q ω) ≤ (n * (n - 1) + 2 * 9 ^ r) * Real.exp (-(d * (ε * (ε - 2 * δ)) / 8)) := by
  have a := preserves_of_tails (n := n) hn h0.le (Real.exp_pos _).le (h ε h0 h1) A
  have e : 2 * ε / 2 = ε := by ring
  have b := embeds_of_tails (ε := 2 * ε) (c := 2 * Real.exp (-(d * (ε * (ε - 2 * δ)) / 8))) (by linarith) (by positivity) (by rw [e]; exact h ε h0 h1) hrank
  rw [Int.toNat_natCast] at b
  refine (pr_or_le (p := fun ω => ¬ Q ω) fun ω hω => ?_).trans ((add_le_add a b).trans (le_of_eq (by ring)))
  by_contra hc
  push Not at hc
  exact hω (hQ ω hc)

section
variable [NeZero N] [Field R] [LinearOrder R] [FloorRing R] [Fintype W] [Nonempty W] {L : Nat} [NeZero L] {E : SkEnv N K W WS R ℝ} {S : DenseSkOp N K ℝ} {v w δ : ℝ}

omit [Field R] [LinearOrder R] [FloorRing R] in
/-- C132 (sparse data, left). `sketch_sparse` with a new dense operator, `alpha² = 1/d` and `beta = 0` returns, and preserves all squared distances between columns of `op(A)` up to `ε` and all
squared norms of its column space up to `2 ε`, for all but the stated fraction of the words that a generator may yield. `r` is any bound for the rank of `op(A)`. The products are the supported
ones of C41. -/
theorem C132_sparse_left (hE : SkEnvOk E) (hL : E.G.len = L) (h3 : E.sqrt3 = Real.sqrt 3) (hnew : S.buff = none) (hD : DenseDistOk S.dist) (hR : S.nRows = S.dist.nRows)
    (hC : S.nCols = S.dist.nCols) (hN : S.nRows * S.nCols ≤ N) (hwd : WordsOk E.G S.dist.family v w) (hw1 : w ≤ 1) (hδ : 0 ≤ δ) (hv1 : 1 - δ ≤ v)
    (hsub : SubGaussianWords E.G S.dist.family)
    {A : SpMat ℝ} {Ls : List (Entry ℝ)} (hA : SpHolds A Ls) (hb : spBase A = .Zero) (hr : InRange (spRows A) (spCols A) Ls)
    {layout : Layout} {opS opA : Op} {d m n ro co : Int} (hin : InOp S.nRows S.nCols (rowsOf opS d m) (colsOf opS d m) ro co) (hd : 0 < d) (hm : 0 < m) (hn : 0 ≤ n)
    {alpha : ℝ} (halpha : alpha * alpha = 1 / d) {b : Buf ℝ} {ldb : Int} (hwA : WindowOk A (rowsOf opA m n) (colsOf opA m n) 0 0)
    (hK : Supported A opA.flip layout.flip (if S.layout = layout then opS else opS.flip) n m (opEntries opA.flip (window 0 0 (rowsOf opA m n) (colsOf opA m n) Ls)))
    (hldb : LdOk layout ldb d n) (hal : Alloc b layout ldb d n) {r : Nat} (hrank : RankLe r m n (opMat opA (toMat Ls))) {ε : ℝ} (h0 : 0 < ε) (h1 : ε ≤ 1) :
    Pr (fun ω : ZMod N × ZMod L → W => ¬ M.wp (sketchSparseL { E with G := fromWords E.G ω } layout opS opA d n m alpha S ro co 0 ldb) (A, b)
      (fun _ s' => ∃ B, Holds s'.2 layout ldb d n B ∧ PreservesGeometry ε m d n (opMat opA (toMat Ls)) B)) ≤ (n * (n - 1) + 2 * 9 ^ r) * Real.exp (-(d * (ε * (ε - 2 * δ)) / 8)) := by
  obtain ⟨P, hP, t⟩ := new_tails (E := E) (S := S) hE hL hD hR hC hN hwd hw1 hδ hv1 hsub hin hd hm.le halpha
  refine geometry_of_tails hn t hrank h0 h1 fun ω hg => ?_
  obtain ⟨hE', hS⟩ := new_denseIs hE h3 hnew hD hR hC ω
  refine M.wp_mono (C41_left_partial (E := { E with G := fromWords E.G ω }) hE.env hE.gen hS hA hb hr hin (fun _ => fillOk_dims hd hm) hwA (fun _ => hK) hd.le hn hm.le hldb hal
    (C := fun _ _ => 0) (fun h => absurd rfl h)) ?_
  rintro _ s' ⟨h, -⟩
  refine ⟨_, fun i j hij => ?_, hg⟩
  rw [h i j hij]
  unfold prodEntry
  simp only [hP, zero_mul, add_zero, mul_sum, mul_assoc]

omit [Field R] [LinearOrder R] [FloorRing R] in
/-- C132 (sparse data, right): the rows of `op(A)` and its row space. -/
theorem C132_sparse_right (hE : SkEnvOk E) (hL : E.G.len = L) (h3 : E.sqrt3 = Real.sqrt 3) (hnew : S.buff = none) (hD : DenseDistOk S.dist) (hR : S.nRows = S.dist.nRows)
    (hC : S.nCols = S.dist.nCols) (hN : S.nRows * S.nCols ≤ N) (hwd : WordsOk E.G S.dist.family v w) (hw1 : w ≤ 1) (hδ : 0 ≤ δ) (hv1 : 1 - δ ≤ v)
    (hsub : SubGaussianWords E.G S.dist.family)
    {A : SpMat ℝ} {Ls : List (Entry ℝ)} (hA : SpHolds A Ls) (hb : spBase A = .Zero) (hr : InRange (spRows A) (spCols A) Ls)
    {layout : Layout} {opA opS : Op} {m d n ro co : Int} (hin : InOp S.nRows S.nCols (rowsOf opS n d) (colsOf opS n d) ro co) (hd : 0 < d) (hm : 0 ≤ m) (hn : 0 < n)
    {alpha : ℝ} (halpha : alpha * alpha = 1 / d) {b : Buf ℝ} {ldb : Int} (hwA : WindowOk A (rowsOf opA m n) (colsOf opA m n) 0 0)
    (hK : Supported A opA layout (if S.layout = layout then opS else opS.flip) m n (opEntries opA (window 0 0 (rowsOf opA m n) (colsOf opA m n) Ls)))
    (hldb : LdOk layout ldb m d) (hal : Alloc b layout ldb m d) {r : Nat} (hrank : RankLe r n m (fun l i => opMat opA (toMat Ls) i l)) {ε : ℝ} (h0 : 0 < ε) (h1 : ε ≤ 1) :
    Pr (fun ω : ZMod N × ZMod L → W => ¬ M.wp (sketchSparseR { E with G := fromWords E.G ω } layout opA opS m d n alpha S ro co 0 ldb) (A, b)
      (fun _ s' => ∃ B, Holds s'.2 layout ldb m d B ∧ PreservesGeometry ε n d m (fun l i => opMat opA (toMat Ls) i l) (fun j i => B i j))) ≤
      (m * (m - 1) + 2 * 9 ^ r) * Real.exp (-(d * (ε * (ε - 2 * δ)) / 8)) := by
  have hin' : InOp S.nRows S.nCols (rowsOf opS.flip d n) (colsOf opS.flip d n) ro co := by cases opS <;> exact hin
  obtain ⟨P, hP, t⟩ := new_tails (E := E) (S := S) hE hL hD hR hC hN hwd hw1 hδ hv1 hsub hin' hd hn.le halpha
  refine geometry_of_tails hm t hrank h0 h1 fun ω hg => ?_
  obtain ⟨hE', hS⟩ := new_denseIs hE h3 hnew hD hR hC ω
  refine M.wp_mono (C41_right_partial (E := { E with G := fromWords E.G ω }) hE.env hE.gen hS hA hb hr hin (fun _ => fillOk_dims hn hd) hwA (fun _ => hK) hm hd.le hn.le hldb hal
    (C := fun _ _ => 0) (fun h => absurd rfl h)) ?_
  rintro _ s' ⟨h, -⟩
  refine ⟨fun i j => ∑ l ∈ range n.toNat, P ω j l * opMat opA (toMat Ls) i l, fun i j hij => ?_, hg⟩
  rw [h i j hij]
  unfold prodEntry
  simp only [hP, opMat_flip, zero_mul, add_zero]
  rw [mul_sum]
  congr 1
  exact sum_congr rfl fun l _ => by ring

/-- C132 (vectors). `sketch_vector` with a new dense operator, `alpha² = 1/rows` and `beta = 0` returns, and the squared norm of the result is that of `x` up to the relative error `ε`, for all
but the stated fraction of the words. `rows × cols` is the shape of `op(submat(S))`. -/
theorem C132_vector (hE : SkEnvOk E) (hL : E.G.len = L) (h3 : E.sqrt3 = Real.sqrt 3) (hnew : S.buff = none) (hD : DenseDistOk S.dist) (hR : S.nRows = S.dist.nRows)
    (hC : S.nCols = S.dist.nCols) (hN : S.nRows * S.nCols ≤ N) (hwd : WordsOk E.G S.dist.family v w) (hw1 : w ≤ 1) (hδ : 0 ≤ δ) (hv1 : 1 - δ ≤ v)
    (hsub : SubGaussianWords E.G S.dist.family) {opS : Op} {d m ro co rows cols : Int} (hdim : (opS = .NoTrans ∧ rows = d ∧ cols = m) ∨ (opS = .Trans ∧ rows = m ∧ cols = d))
    (hin : InOp S.nRows S.nCols (rowsOf opS rows cols) (colsOf opS rows cols) ro co) (hd : 0 < d) (hm : 0 < m) {alpha : ℝ} (halpha : alpha * alpha = 1 / rows)
    {x y : Buf ℝ} {incx incy : Int} {xv : Int → ℝ} (hincx : 1 ≤ incx) (hincy : 1 ≤ incy) (hx : ∀ j, 0 ≤ j → j < cols → x (j * incx) = .val (xv j))
    (hal : ∀ i, 0 ≤ i → i < rows → y (i * incy) ≠ .none) {ε : ℝ} (h0 : 0 < ε) (h1 : ε ≤ 1) :
    Pr (fun ω : ZMod N × ZMod L → W => ¬ M.wp (sketchVector { E with G := fromWords E.G ω } opS d m alpha ro co x incx 0 incy) (.dense S, y)
      (fun _ s' => ∃ y' : Int → ℝ, (∀ i, 0 ≤ i → i < rows → s'.2 (i * incy) = .val (y' i)) ∧
        |∑ i ∈ range rows.toNat, y' i ^ 2 - ∑ l ∈ range cols.toNat, xv l ^ 2| ≤ ε * ∑ l ∈ range cols.toNat, xv l ^ 2)) ≤ 2 * Real.exp (-(rows * (ε * (ε - 2 * δ)) / 8)) := by
  have hrows : 0 < rows := by omega
  have hcols : 0 < cols := by omega
  obtain ⟨P, hP, t⟩ := new_tails (E := E) (S := S) hE hL hD hR hC hN hwd hw1 hδ hv1 hsub hin hrows hcols.le halpha
  refine (pr_mono fun ω hω => ?_).trans (t ε h0 h1 xv)
  by_contra hc
  obtain ⟨hE', hS⟩ := new_denseIs hE h3 hnew hD hR hC ω
  refine hω (M.wp_mono (C39_sketch_vector_partial (yv := fun _ => 0) hE' hdim ⟨hS, hin, fun _ => fillOk_dims hrows hcols⟩ hd.le hm.le hincx hincy (fun _ => hx) hal (fun h => absurd rfl h)) ?_)
  rintro _ s' ⟨h, -, -⟩
  refine ⟨fun i => ∑ l ∈ range cols.toNat, P ω i l * xv l, fun i i0 i1 => ?_, not_lt.mp hc⟩
  rw [h i i0 i1]
  simp only [hP, zero_mul, add_zero, mul_sum, mul_assoc]

/-- C132 (symmetric data, left). The same for `sketch_symmetric`, if the data passes the test of symmetry. -/
theorem C132_symmetric_left (hE : SkEnvOk E) (hL : E.G.len = L) (h3 : E.sqrt3 = Real.sqrt 3) (hnew : S.buff = none) (hD : DenseDistOk S.dist) (hR : S.nRows = S.dist.nRows)
    (hC : S.nCols = S.dist.nCols) (hN : S.nRows * S.nCols ≤ N) (hwd : WordsOk E.G S.dist.family v w) (hw1 : w ≤ 1) (hδ : 0 ≤ δ) (hv1 : 1 - δ ≤ v)
    (hsub : SubGaussianWords E.G S.dist.family) {layout : Layout} {d n ro co : Int} (hin : InOp S.nRows S.nCols d n ro co) (hd : 0 < d) (hn : 0 < n)
    {alpha tol : ℝ} (halpha : alpha * alpha = 1 / d) {A b : Buf ℝ} {lda ldb : Int} {Am : Int → Int → ℝ} (hlda : n ≤ lda) (hldb : LdOk layout ldb d n)
    (hA : Holds A layout lda n n Am) (hsym : NearlySymmetric n Am tol) (hal : Alloc b layout ldb d n) {r : Nat} (hrank : RankLe r n n Am) {ε : ℝ} (h0 : 0 < ε) (h1 : ε ≤ 1) :
    Pr (fun ω : ZMod N × ZMod L → W => ¬ M.wp (sketchSymmetricL { E with G := fromWords E.G ω } layout d n alpha ro co A lda 0 ldb tol) (.dense S, b)
      (fun _ s' => ∃ B, Holds s'.2 layout ldb d n B ∧ PreservesGeometry ε n d n Am B)) ≤ (n * (n - 1) + 2 * 9 ^ r) * Real.exp (-(d * (ε * (ε - 2 * δ)) / 8)) := by
  obtain ⟨P, hP, t⟩ := new_tails (E := E) (S := S) (opS := .NoTrans) hE hL hD hR hC hN hwd hw1 hδ hv1 hsub hin hd hn.le halpha
  refine geometry_of_tails hn.le t hrank h0 h1 fun ω hg => ?_
  obtain ⟨hE', hS⟩ := new_denseIs hE h3 hnew hD hR hC ω
  refine M.wp_mono ((C40_left_partial (S := .dense S) (alpha := alpha) (C := fun _ _ => 0) (tol := tol) hE' ⟨hS, hin, fun _ => fillOk_dims hd hn⟩ hd.le hn.le hlda hldb hA hal (fun h => absurd rfl h)).1 hsym) ?_
  rintro _ s' ⟨h, -⟩
  refine ⟨_, fun i j hij => ?_, hg⟩
  rw [h i j hij]
  unfold prodEntry
  simp only [hP, zero_mul, add_zero, mul_sum, mul_assoc, opMat]

/-- C132 (symmetric data, right): the rows of the data and its row space. -/
theorem C132_symmetric_right (hE : SkEnvOk E) (hL : E.G.len = L) (h3 : E.sqrt3 = Real.sqrt 3) (hnew : S.buff = none) (hD : DenseDistOk S.dist) (hR : S.nRows = S.dist.nRows)
    (hC : S.nCols = S.dist.nCols) (hN : S.nRows * S.nCols ≤ N) (hwd : WordsOk E.G S.dist.family v w) (hw1 : w ≤ 1) (hδ : 0 ≤ δ) (hv1 : 1 - δ ≤ v)
    (hsub : SubGaussianWords E.G S.dist.family) {layout : Layout} {n d ro co : Int} (hin : InOp S.nRows S.nCols n d ro co) (hd : 0 < d) (hn : 0 < n)
    {alpha tol : ℝ} (halpha : alpha * alpha = 1 / d) {A b : Buf ℝ} {lda ldb : Int} {Am : Int → Int → ℝ} (hlda : n ≤ lda) (hldb : LdOk layout ldb n d)
    (hA : Holds A layout lda n n Am) (hsym : NearlySymmetric n Am tol) (hal : Alloc b layout ldb n d) {r : Nat} (hrank : RankLe r n n (fun l i => Am i l)) {ε : ℝ} (h0 : 0 < ε)
    (h1 : ε ≤ 1) :
    Pr (fun ω : ZMod N × ZMod L → W => ¬ M.wp (sketchSymmetricR { E with G := fromWords E.G ω } layout n d alpha A lda ro co 0 ldb tol) (.dense S, b)
      (fun _ s' => ∃ B, Holds s'.2 layout ldb n d B ∧ PreservesGeometry ε n d n (fun l i => Am i l) (fun j i => B i j))) ≤
      (n * (n - 1) + 2 * 9 ^ r) * Real.exp (-(d * (ε * (ε - 2 * δ)) / 8)) := by
  obtain ⟨P, hP, t⟩ := new_tails (E := E) (S := S) (opS := .Trans) hE hL hD hR hC hN hwd hw1 hδ hv1 hsub hin hd hn.le halpha
  refine geometry_of_tails hn.le t hrank h0 h1 fun ω hg => ?_
  obtain ⟨hE', hS⟩ := new_denseIs hE h3 hnew hD hR hC ω
  refine M.wp_mono ((C40_right_partial (S := .dense S) (alpha := alpha) (C := fun _ _ => 0) (tol := tol) hE' ⟨hS, hin, fun _ => fillOk_dims hn hd⟩ hd.le hn.le hlda hldb hA hal (fun h => absurd rfl h)).1 hsym) ?_
  rintro _ s' ⟨h, -⟩
  refine ⟨fun i j => ∑ l ∈ range n.toNat, P ω j l * Am i l, fun i j hij => ?_, hg⟩
  rw [h i j hij]
  unfold prodEntry
  simp only [hP, zero_mul, add_zero, opMat]
  rw [mul_sum]
  congr 1
  exact sum_congr rfl fun l _ => by ring

end

/-- `sketch_vector` is `sketch_general` with a row-major data matrix of one column and leading dimensions `incx`, `incy`. -/
theorem sketchVector_general [Field R] [LinearOrder R] [FloorRing R] {E : SkEnv N K W WS R ℝ} {opS : Op} {nR nC d m ro co incx incy : Int} {alpha beta : ℝ} {x : Buf ℝ}
    (hop : opS = .NoTrans ∧ d = nR ∧ m = nC ∨ opS = .Trans ∧ d = nC ∧ m = nR) :
    sketchVector E opS nR nC alpha ro co x incx beta incy = (sketchGeneralL E .RowMajor opS .NoTrans d 1 m alpha ro co x incx beta incy : M (SkOp N K ℝ × Buf ℝ) Unit) := by
  unfold sketchVector
  rcases hop with ⟨rfl, rfl, rfl⟩ | ⟨rfl, rfl, rfl⟩ <;> rfl

theorem vector_holds {x : Buf ℝ} {incx m : Int} {xv : Int → ℝ} (hx : ∀ j, 0 ≤ j → j < m → x (j * incx) = .val (xv j)) : Holds x .RowMajor incx m 1 (fun j _ => xv j) := by
  rintro i j ⟨a, b, c, d⟩
  obtain rfl : j = 0 := by omega
  simpa [addr] using hx i a b

theorem vector_alloc {y : Buf ℝ} {incy d : Int} (hy : ∀ i, 0 ≤ i → i < d → y (i * incy) ≠ .none) : Alloc y .RowMajor incy d 1 := by
  rintro i j ⟨a, b, c, e⟩
  obtain rfl : j = 0 := by omega
  simpa [addr] using hy i a b

/-- C132 (vectors, short-axis sparse operators). `sketch_vector` with a whole short-axis operator that has not been filled and `alpha` = its isometry scale returns for all words; the squared norm
of the result is that of `x` on average, and differs by more than `ε` times that for at most the stated fraction of the words. -/
theorem C132_vector_short_axis [NeZero N] [Field R] [LinearOrder R] [IsStrictOrderedRing R] [FloorRing R] [Fintype WS] {L : Nat} [NeZero L] {E : SkEnv N K W WS R ℝ} (hE : SkEnvOk E)
    (hL : E.GS.len = L) {Mw : Nat} (e : WS ≃ Fin Mw) (he : ∀ w, E.GS.nat w = e w) (hM2 : Even Mw) {S : SparseSkOp N K ℝ} (hS : SparseOpOk S) (hnew : S.nnz < 0)
    (hax : S.dist.majorAxis = .Short) (hN : S.dist.fullNnz ≤ N) {opS : Op} {d m : Int}
    (hop : opS = .NoTrans ∧ S.nRows ≤ S.nCols ∧ d = S.nRows ∧ m = S.nCols ∨ opS = .Trans ∧ S.nCols < S.nRows ∧ d = S.nCols ∧ m = S.nRows) (hM : d ≤ Mw)
    {x y : Buf ℝ} {incx incy : Int} {xv : Int → ℝ} (hincx : 1 ≤ incx) (hincy : 1 ≤ incy) (hx : ∀ j, 0 ≤ j → j < m → x (j * incx) = .val (xv j))
    (hal : ∀ i, 0 ≤ i → i < d → y (i * incy) ≠ .none) :
    ∃ y' : (ZMod N × ZMod L → WS) → Int → ℝ,
      (∀ ω, M.wp (sketchVector { E with GS := fromWords E.GS ω } opS S.nRows S.nCols S.dist.isometryScale 0 0 x incx 0 incy) (.sparse S, y)
        (fun _ s' => ∀ i, 0 ≤ i → i < d → s'.2 (i * incy) = .val (y' ω i))) ∧
      (∑ ω, ∑ i ∈ range d.toNat, y' ω i ^ 2) / Fintype.card (ZMod N × ZMod L → WS) = ∑ l ∈ range m.toNat, xv l ^ 2 ∧
      ∀ ε : ℝ, 0 < ε → Pr (fun ω => ε * ∑ l ∈ range m.toNat, xv l ^ 2 < |∑ i ∈ range d.toNat, y' ω i ^ 2 - ∑ l ∈ range m.toNat, xv l ^ 2|) ≤
        2 / d * (1 + (d : ℝ) / Mw) ^ S.dist.vecNnz.toNat / ε ^ 2 := by
  classical
  obtain ⟨B, hB, h⟩ := C81_sketch_general (layout := .RowMajor) (opA := .NoTrans) (n := 1) hE hL e he hM2 hS hnew hax hN hop hM (by decide) (by simpa [LdOk, colsOf] using hincx)
    (by simpa [LdOk] using hincy) (vector_holds hx) (vector_alloc hal)
  refine ⟨fun ω i => B ω i 0, fun ω => ?_, (h 0).1, fun ε hε => ?_⟩
  · rw [sketchVector_general (d := d) (m := m) (by rcases hop with ⟨a, -, b⟩ | ⟨a, -, b⟩; exacts [Or.inl ⟨a, b⟩, Or.inr ⟨a, b⟩])]
    refine M.wp_mono (hB ω) ?_
    rintro _ s' hs i i0 i1
    simpa [addr] using hs i 0 ⟨i0, i1, le_rfl, by decide⟩
  · rw [pr_eq]
    exact (h 0).2 ε hε

/-- C132 (vectors, long-axis sparse operators). The same for long-axis operators, up to the probability of the failure described in C93 and with the coherence `ρ` of the vector. -/
theorem C132_vector_long_axis [NeZero N] [Field R] [LinearOrder R] [IsStrictOrderedRing R] [FloorRing R] [Fintype WS] [Nonempty WS] {L : Nat} [NeZero L] {E : SkEnv N K W WS R ℝ}
    (hE : SkEnvOk E) (hsq : E.sqrt = Real.sqrt) (hL : E.GS.len = L) (hu : ∀ w, -1 ≤ E.GS.uneg11 w ∧ E.GS.uneg11 w < 1) {τ : WS → WS} (hτ : Function.Involutive τ)
    (hsign : ∀ w, 0 ≤ E.GS.uneg11 (τ w) ↔ ¬ 0 ≤ E.GS.uneg11 w) {Mw : Nat} (e : WS ≃ Fin Mw) (hmid : ∀ w, (E.GS.uneg11 w + 1) / 2 = (((e w : Nat) : R) + 1 / 2) / Mw)
    {S : SparseSkOp N K ℝ} (hS : SparseOpOk S) (hnew : S.nnz < 0) (hax : S.dist.majorAxis = .Long) (hN : 2 * S.dist.fullNnz ≤ N) {opS : Op} {d m : Int}
    (hop : opS = .NoTrans ∧ S.nRows ≤ S.nCols ∧ d = S.nRows ∧ m = S.nCols ∨ opS = .Trans ∧ S.nCols < S.nRows ∧ d = S.nCols ∧ m = S.nRows) (hm2 : 2 ≤ m)
    {x y : Buf ℝ} {incx incy : Int} {xv : Int → ℝ} (hincx : 1 ≤ incx) (hincy : 1 ≤ incy) (hx : ∀ j, 0 ≤ j → j < m → x (j * incx) = .val (xv j))
    (hal : ∀ i, 0 ≤ i → i < d → y (i * incy) ≠ .none) {ρ ε : ℝ} (hρ0 : 0 ≤ ρ)
    (hρ : ∑ l ∈ range m.toNat, xv l ^ 4 ≤ ρ * (∑ l ∈ range m.toNat, xv l ^ 2) ^ 2) (hε : 0 < ε) :
    Pr (fun ω : ZMod N × ZMod L → WS => ¬ M.wp (sketchVector { E with GS := fromWords E.GS ω } opS S.nRows S.nCols S.dist.isometryScale 0 0 x incx 0 incy) (.sparse S, y)
      (fun _ s' => ∃ y' : Int → ℝ, (∀ i, 0 ≤ i → i < d → s'.2 (i * incy) = .val (y' i)) ∧
        |∑ i ∈ range d.toNat, y' i ^ 2 - ∑ l ∈ range m.toNat, xv l ^ 2| ≤ ε * ∑ l ∈ range m.toNat, xv l ^ 2)) ≤
    ((2 * (1 + (m : ℝ) / Mw) ^ 2 + (1 + (m : ℝ) / Mw) * (m * ρ / S.dist.vecNnz)) / d + ((m : ℝ) / Mw) ^ 2) / ε ^ 2 + indexProb E.GS m 0 ^ S.dist.fullNnz.toNat := by
  refine le_trans (pr_mono ?_) (C93_left_distortion (layout := .RowMajor) (opA := .NoTrans) (n := 1) (j := 0) hE hsq hL hu hτ hsign e hmid hS hnew hax hN hop hm2 (by decide)
    (by simpa [LdOk, colsOf] using hincx) (by simpa [LdOk] using hincy) (vector_holds hx) (vector_alloc hal) hρ0 hρ hε)
  intro ω hω hc
  refine hω ?_
  rw [sketchVector_general (d := d) (m := m) (by rcases hop with ⟨a, -, b⟩ | ⟨a, -, b⟩; exacts [Or.inl ⟨a, b⟩, Or.inr ⟨a, b⟩])]
  refine M.wp_mono hc ?_
  rintro _ s' ⟨B, hs, hn⟩
  exact ⟨fun i => B i 0, fun i i0 i1 => by simpa [addr] using hs i 0 ⟨i0, i1, le_rfl, by decide⟩, hn⟩

/-- The hypotheses about sparse operators and vectors are met: a 3 x 8 operator and a vector of eight entries stored at stride two (those about the words are as in C81 and C93). -/
example : SparseOpOk (mkSparseSkOp 4 exSaso ⟨0, 7⟩ : SparseSkOp (2 ^ 128) Nat ℝ) ∧ (mkSparseSkOp 4 exSaso ⟨0, 7⟩ : SparseSkOp (2 ^ 128) Nat ℝ).nnz < 0 ∧ exSaso.majorAxis = .Short ∧
    exSaso.nRows ≤ exSaso.nCols ∧ exSaso.nCols = 8 ∧ (∀ j : Int, 0 ≤ j → j < 8 → (Buf.ofFn 16 fun p => ((p / 2 : Int) : ℝ)) (j * 2) = .val (j : ℝ)) ∧
    (∀ i : Int, 0 ≤ i → i < 3 → Buf.alloc ℝ 3 (i * 1) ≠ .none) := by
  refine ⟨mkSparseSkOp_ok 4 exSaso_ok _, by simp [mkSparseSkOp], rfl, by decide, rfl, ?_, ?_⟩
  · intro j h0 h1
    rw [Buf.ofFn, if_pos (by omega)]
    have : j * 2 / 2 = j := by omega
    rw [this]
  · intro i h0 h1
    rw [Buf.alloc, if_pos (by omega)]
    exact fun h => by cases h

/-- A tall distribution. -/
def exTall : DenseDist := ⟨1000, 3, .Long, 1000, 3, .Uniform, .ColMajor⟩

/-- A 3 x 3 matrix with a repeated and an isolated nonzero. -/
noncomputable def exRealE : List (Entry ℝ) := [⟨0, 2, 7⟩, ⟨1, 0, 3⟩, ⟨1, 0, 2⟩, ⟨2, 1, -1⟩]

theorem exRealWords : WordsOk midEnvR.G .Uniform (1 - 1 / ((4 * 2 ^ 30 : Nat) : ℝ) ^ 2) ((1 - 1 / ((4 * 2 ^ 30 : Nat) : ℝ) ^ 2) ^ 2) ∧ SubGaussianWords midEnvR.G .Uniform := by
  obtain ⟨h1, -⟩ := C83_words (G := midGenR) (m8 := 2 ^ 29) (Mw := 4 * 2 ^ 30) (by norm_num) (by norm_num) (Equiv.refl _) (Equiv.refl _)
    (fun w => by simp only [midGenR, Equiv.refl_apply]; ring) (fun _ _ => rfl)
  exact ⟨h1, C94_words (G := midGenR) (m8 := 2 ^ 29) (Mw := 4 * 2 ^ 30) (by norm_num) (by norm_num) (Equiv.refl _) (Equiv.refl _)
    (fun w => by simp only [midGenR, Equiv.refl_apply]; ring) (fun _ _ => rfl) _⟩

/-- With 1000 rows the norm of a vector is preserved up to a factor of two, with a probability of failure of at most 2 exp (-100). -/
example : ∃ S : DenseSkOp (2 ^ 128) Nat ℝ, mkDenseSkOp 4 exTall ⟨0, 7⟩ = .ok S ∧
    Pr (fun ω : ZMod (2 ^ 128) × ZMod 4 → Fin (4 * 2 ^ 30) => ¬ M.wp (sketchVector { midEnvR with G := fromWords midEnvR.G ω } .NoTrans 1000 3 (Real.sqrt (1 / 1000)) 0 0
      (Buf.ofFn 6 fun p => (p : ℝ)) 2 0 1) (.dense S, Buf.alloc ℝ 1000)
      (fun _ s' => ∃ y' : Int → ℝ, (∀ i, 0 ≤ i → i < 1000 → s'.2 (i * 1) = .val (y' i)) ∧ |∑ i ∈ range 1000, y' i ^ 2 - 20| ≤ 20)) ≤ 2 * Real.exp (-100) := by
  obtain ⟨S, hS, hnew, hdist, hR, hC⟩ : ∃ S : DenseSkOp (2 ^ 128) Nat ℝ, mkDenseSkOp 4 exTall ⟨0, 7⟩ = .ok S ∧ S.buff = none ∧ S.dist = exTall ∧ S.nRows = 1000 ∧ S.nCols = 3 :=
    ⟨_, rfl, rfl, rfl, rfl, rfl⟩
  refine ⟨S, hS, ?_⟩
  have h := C132_vector (N := 2 ^ 128) (L := 4) (E := midEnvR) (δ := 1 / 100) (S := S) (opS := .NoTrans) (d := 1000) (m := 3) (ro := 0) (co := 0) (rows := 1000) (cols := 3)
    (alpha := Real.sqrt (1 / 1000)) (x := Buf.ofFn 6 fun p => (p : ℝ)) (y := Buf.alloc ℝ 1000) (incx := 2) (incy := 1) (xv := fun j => 2 * j) (ε := 1) midEnvR_ok rfl rfl hnew
    (hdist ▸ ⟨by decide, by decide⟩) (by rw [hR, hdist]; rfl) (by rw [hC, hdist]; rfl) (by rw [hR, hC]; decide) (by rw [hdist]; exact exRealWords.1) (by norm_num) (by norm_num) (by norm_num)
    (by rw [hdist]; exact exRealWords.2) (Or.inl ⟨rfl, rfl, rfl⟩) (by rw [hR, hC]; exact ⟨by decide, by decide, by decide, by decide⟩) (by decide) (by decide)
    (by rw [Real.mul_self_sqrt (by norm_num)]; norm_num) (by decide) (by decide) (fun j j0 j1 => by interval_cases j <;> norm_num [Buf.ofFn])
    (fun i i0 i1 => by simp [Buf.alloc, i0, i1]) one_pos le_rfl
  refine le_trans (pr_mono ?_) (h.trans ?_)
  · intro ω hω hc
    refine hω (M.wp_mono hc ?_)
    rintro _ s' ⟨y', hy, hn⟩
    refine ⟨y', hy, ?_⟩
    have e : ∑ l ∈ range (Int.toNat 3), (2 * (((l : Nat) : Int) : ℝ)) ^ 2 = 20 := by
      rw [show Int.toNat 3 = 3 from rfl, sum_range_succ, sum_range_succ, sum_range_succ]; norm_num
    rw [e, one_mul] at hn
    exact hn
  · refine mul_le_mul_of_nonneg_left (Real.exp_le_exp.mpr ?_) (by norm_num)
    norm_num

/-- The other hypotheses of the theorem about sparse data are met as well. -/
example : SpHolds (.coo (cooOf 3 3 .Zero exRealE)) exRealE ∧ InRange 3 3 exRealE ∧ RankLe (3 : Nat) 3 3 (opMat .NoTrans (toMat exRealE)) ∧
    WindowOk (.coo (cooOf 3 3 .Zero exRealE)) (rowsOf .NoTrans 3 3) (colsOf .NoTrans 3 3) 0 0 ∧
    Supported (.coo (cooOf 3 3 .Zero exRealE)) .Trans .ColMajor .NoTrans 3 3 (opEntries .Trans (window 0 0 3 3 exRealE)) := by
  refine ⟨⟨cooOf_is _ _ _ _, trivial⟩, by simp [InRange, exRealE], ?_, by simp [WindowOk, cooOf, rowsOf, colsOf], ?_⟩
  · exact rankLe_cols 3 3 _
  · exact Or.inl ⟨by decide, fun _ _ => ⟨⟨0, 1, 3⟩, by simp [exRealE, opEntries, window, Entry.swap], by decide⟩⟩

end RB
