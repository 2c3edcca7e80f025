import Verif.Lemmas.Embed
import Verif.Props.SketchDistDense

/-!
# C84: sketches preserve the geometry of a whole subspace

C81 and C83 bound the distortion of one vector. Here the same calls of `sketch_general` are shown to preserve, for all but a small fraction of the choices of the words,
the norms of all the vectors of the column (or row) space of the matrix at once, and hence the rank and the solutions of least squares problems.
-/

namespace RB
open Spec Finset
variable {N : Nat} {K W WS R : Type}

/-- The squared Euclidean norm of the product of the `rows x cols` matrix `A` with the vector `z`. -/
def Spec.sqNorm (rows cols : Int) (A : Int → Int → ℝ) (z : Int → ℝ) : ℝ :=
  ∑ i ∈ range rows.toNat, (∑ j ∈ range cols.toNat, A i j * z j) ^ 2

/-- The `d x n` matrix `B` is an embedding of the column space of the `m x n` matrix `A` with distortion `ε`. -/
def Spec.Embeds (ε : ℝ) (m d n : Int) (A B : Int → Int → ℝ) : Prop :=
  ∀ z : Int → ℝ, |sqNorm d n B z - sqNorm m n A z| ≤ ε * sqNorm m n A z

/-- The `m x n` matrix `A` has rank at most `r`: it is the product of an `m x r` and an `r x n` matrix. -/
def Spec.RankLe (r m n : Int) (A : Int → Int → ℝ) : Prop :=
  ∃ F C : Int → Int → ℝ, ∀ i j, InR m n i j → A i j = ∑ k ∈ range r.toNat, F i k * C k j

theorem rankLe_cols (m n : Int) (A : Int → Int → ℝ) : RankLe n m n A := by
  refine ⟨A, fun k j => if k = j then 1 else 0, fun i j ⟨_, _, h0, h1⟩ => ?_⟩
  simp only [mul_ite, mul_one, mul_zero]
  rw [sum_eq_single j.toNat]
  · rw [if_pos (by omega), Int.toNat_of_nonneg h0]
  · intro b _ hb
    rw [if_neg (by omega)]
  · intro h
    exact absurd (mem_range.mpr (by omega)) h

theorem sqNorm_nonneg (rows cols : Int) (A : Int → Int → ℝ) (z : Int → ℝ) : 0 ≤ sqNorm rows cols A z := sum_nonneg fun _ _ => sq_nonneg _

/-- C84 (least squares). If `B` is an embedding of `A`, then a vector `z'` for which `‖B z'‖ ≤ ‖B z‖` satisfies `‖A z'‖² ≤ (1 + ε)/(1 - ε) ‖A z‖²`. With the right hand
side as the last column of `A`, and `z`, `z'` with the last entry -1, this is the guarantee for the solution of a least squares problem from its sketch. -/
theorem C84_least_squares {ε : ℝ} {m d n : Int} {A B : Int → Int → ℝ} (h : Embeds ε m d n A B) (hε : ε < 1) {z z' : Int → ℝ} (hle : sqNorm d n B z' ≤ sqNorm d n B z) :
    sqNorm m n A z' ≤ (1 + ε) / (1 - ε) * sqNorm m n A z := by
  have h1 := abs_le.mp (h z)
  have h2 := abs_le.mp (h z')
  rw [div_mul_eq_mul_div, le_div_iff₀ (by linarith)]
  nlinarith [h1.2, h2.1]

/-- C84 (kernel). If `B` is an embedding of `A` with `ε < 1`, then `B z = 0` if and only if `A z = 0`. In particular the two matrices have the same rank. -/
theorem C84_kernel {ε : ℝ} {m d n : Int} {A B : Int → Int → ℝ} (h : Embeds ε m d n A B) (hε : ε < 1) (z : Int → ℝ) :
    (∀ i : Nat, (i : Int) < d → ∑ j ∈ range n.toNat, B i j * z j = 0) ↔ ∀ l : Nat, (l : Int) < m → ∑ j ∈ range n.toNat, A l j * z j = 0 := by
  have hz : ∀ (rows : Int) (C : Int → Int → ℝ), sqNorm rows n C z = 0 ↔ ∀ i : Nat, (i : Int) < rows → ∑ j ∈ range n.toNat, C i j * z j = 0 := by
    intro rows C
    unfold sqNorm
    rw [sum_eq_zero_iff_of_nonneg fun _ _ => sq_nonneg _]
    simp only [pow_eq_zero_iff two_ne_zero, mem_range]
    exact ⟨fun h i hi => h i (by omega), fun h i hi => h i (by omega)⟩
  rw [← hz, ← hz]
  have h1 := abs_le.mp (h z)
  have h2 := sqNorm_nonneg m n A z
  have h3 := sqNorm_nonneg d n B z
  constructor <;> intro h0
  · nlinarith [h1.1]
  · rw [h0] at h1
    linarith [h1.2]

theorem embeds_of_moments {Ω : Type} [Fintype Ω] [Nonempty Ω] {d m n r : Int} (hr : 0 ≤ r) {P : Ω → Int → Int → ℝ} {V : ℝ} (hV0 : 0 ≤ V)
    (hV : ∀ x : Int → ℝ, (∑ ω, (∑ i ∈ range d.toNat, (∑ l ∈ range m.toNat, P ω i l * x l) ^ 2 - ∑ l ∈ range m.toNat, x l ^ 2) ^ 2) / Fintype.card Ω ≤
      V * (∑ l ∈ range m.toNat, x l ^ 2) ^ 2)
    {A : Int → Int → ℝ} (hrank : RankLe r m n A) {ε : ℝ} (hε : 0 < ε) :
    (({ω | ¬ Embeds ε m d n A (fun i j => ∑ l ∈ range m.toNat, P ω i l * A l j)} : Set Ω).ncard : ℝ) / Fintype.card Ω ≤ (r : ℝ) ^ 2 * V / ε ^ 2 := by
  classical
  rw [Set.ncard_eq_toFinset_card', Set.toFinset_ofPred]
  obtain ⟨F, C, hFC⟩ := hrank
  have hr' : ((r.toNat : Nat) : ℝ) = r := by exact_mod_cast congrArg (Int.cast (R := ℝ)) (Int.toNat_of_nonneg hr)
  rw [← hr']
  refine embed_le (d := d.toNat) (m := m.toNat) (fun ω i l => P ω i l) hV0 (fun x => ?_) r.toNat (fun l j => F l j) hε _ fun ω hω => ?_
  · have := hV fun l => x l.toNat
    simpa only [Int.toNat_natCast] using this
  · simp only [Embeds, not_forall, not_le] at hω
    obtain ⟨z, hz⟩ := hω
    have hAz : ∀ l ∈ range m.toNat, ∑ j ∈ range n.toNat, A l j * z j = ∑ k ∈ range r.toNat, F l k * ∑ j ∈ range n.toNat, C k j * z j := by
      intro l hl
      rw [mem_range] at hl
      rw [sum_congr rfl fun (j : Nat) hj => by rw [hFC l j ⟨by omega, by omega, by omega, by rw [mem_range] at hj; omega⟩]]
      simp only [mul_sum, sum_mul]
      rw [sum_comm]
      exact sum_congr rfl fun _ _ => sum_congr rfl fun _ _ => by ring
    have e1 : ∑ l ∈ range m.toNat, (∑ k ∈ range r.toNat, F l k * ∑ j ∈ range n.toNat, C k j * z j) ^ 2 = sqNorm m n A z :=
      sum_congr rfl fun l hl => by rw [hAz l hl]
    refine ⟨fun k => ∑ j ∈ range n.toNat, C k j * z j, ?_⟩
    rw [e1]
    refine hz.trans_le (le_of_eq ?_)
    congr 2
    unfold sqNorm
    refine sum_congr rfl fun i _ => ?_
    congr 1
    have e2 : ∑ l ∈ range m.toNat, P ω i l * ∑ k ∈ range r.toNat, F l k * ∑ j ∈ range n.toNat, C k j * z j =
        ∑ l ∈ range m.toNat, P ω i l * ∑ j ∈ range n.toNat, A l j * z j := sum_congr rfl fun l hl => by rw [hAz l hl]
    rw [e2]
    simp only [mul_sum, sum_mul]
    rw [sum_comm]
    exact sum_congr rfl fun l _ => sum_congr rfl fun j _ => by ring

/-- C84 (short-axis operators, left). `sketch_general` as in C81 returns for all words that a generator may yield, and its result fails to be an embedding of the
column space of `op(A)` with distortion `ε` for at most a fraction `2 r² (1 + d/M)^k / (d ε²)` of the choices of the words, where `r`
is a bound of the rank of `op(A)`, for example its number of columns (`rankLe_cols`). -/
theorem C84_short_axis_left [NeZero N] [Field R] [LinearOrder R] [IsStrictOrderedRing R] [FloorRing R] [Fintype WS] {L : Nat} [NeZero L] {E : SkEnv N K W WS R ℝ} (hE : SkEnvOk E)
    (hL : E.GS.len = L) {Mw : Nat} (e : WS ≃ Fin Mw) (he : ∀ w, E.GS.nat w = e w) (hM2 : Even Mw) {S : SparseSkOp N K ℝ} (hS : SparseOpOk S) (hnew : S.nnz < 0)
    (hax : S.dist.majorAxis = .Short) (hN : S.dist.fullNnz ≤ N) {layout : Layout} {opS opA : Op} {d m n : Int}
    (hop : opS = .NoTrans ∧ S.nRows ≤ S.nCols ∧ d = S.nRows ∧ m = S.nCols ∨ opS = .Trans ∧ S.nCols < S.nRows ∧ d = S.nCols ∧ m = S.nRows)
    (hM : d ≤ Mw) {A b : Buf ℝ} {lda ldb : Int} {Am : Int → Int → ℝ} (hn : 0 ≤ n) (hlda : LdOk layout lda (rowsOf opA m n) (colsOf opA m n))
    (hldb : LdOk layout ldb d n) (hA : Holds A layout lda (rowsOf opA m n) (colsOf opA m n) Am) (hal : Alloc b layout ldb d n) :
    ∃ B : (ZMod N × ZMod L → WS) → Int → Int → ℝ,
      (∀ ω, M.wp (sketchGeneralL { E with GS := fromWords E.GS ω } layout opS opA d n m S.dist.isometryScale 0 0 A lda 0 ldb) (.sparse S, b)
        (fun _ s' => Holds s'.2 layout ldb d n (B ω))) ∧
      ∀ (r : Int) (ε : ℝ), 0 ≤ r → RankLe r m n (opMat opA Am) → 0 < ε → ({ω | ¬ Embeds ε m d n (opMat opA Am) (B ω)}.ncard : ℝ) / Fintype.card (ZMod N × ZMod L → WS) ≤
        (r : ℝ) ^ 2 * (2 / d * (1 + (d : ℝ) / Mw) ^ S.dist.vecNnz.toNat) / ε ^ 2 := by
  obtain ⟨P, hP, h⟩ := saso_left_map hE hL e he hM2 hS hnew hax hN hop hM hn hlda hldb hA hal
  have hd0 : 0 < d := by
    obtain ⟨h1, h2, -⟩ := sparseDist_facts hS.dist
    rw [← hS.nRows] at h1; rw [← hS.nCols] at h2
    rcases hop with ⟨-, -, a, -⟩ | ⟨-, -, a, -⟩ <;> omega
  have hd' : (0 : ℝ) < d := by exact_mod_cast hd0
  have : Nonempty WS := ⟨e.symm ⟨0, by omega⟩⟩
  refine ⟨_, hP, fun r ε hr hrank hε => ?_⟩
  exact embeds_of_moments hr (by positivity) (fun x => (h x).2) hrank hε

/-- C84 (short-axis operators, right). The same for right sketches, whose results are embeddings of the row space of `op(A)`. -/
theorem C84_short_axis_right [NeZero N] [Field R] [LinearOrder R] [IsStrictOrderedRing R] [FloorRing R] [Fintype WS] {L : Nat} [NeZero L] {E : SkEnv N K W WS R ℝ} (hE : SkEnvOk E)
    (hL : E.GS.len = L) {Mw : Nat} (e : WS ≃ Fin Mw) (he : ∀ w, E.GS.nat w = e w) (hM2 : Even Mw) {S : SparseSkOp N K ℝ} (hS : SparseOpOk S) (hnew : S.nnz < 0)
    (hax : S.dist.majorAxis = .Short) (hN : S.dist.fullNnz ≤ N) {layout : Layout} {opA opS : Op} {m d n : Int}
    (hop : opS = .Trans ∧ S.nRows ≤ S.nCols ∧ d = S.nRows ∧ n = S.nCols ∨ opS = .NoTrans ∧ S.nCols < S.nRows ∧ d = S.nCols ∧ n = S.nRows)
    (hM : d ≤ Mw) {A b : Buf ℝ} {lda ldb : Int} {Am : Int → Int → ℝ} (hm : 0 ≤ m) (hlda : LdOk layout lda (rowsOf opA m n) (colsOf opA m n))
    (hldb : LdOk layout ldb m d) (hA : Holds A layout lda (rowsOf opA m n) (colsOf opA m n) Am) (hal : Alloc b layout ldb m d) :
    ∃ B : (ZMod N × ZMod L → WS) → Int → Int → ℝ,
      (∀ ω, M.wp (sketchGeneralR { E with GS := fromWords E.GS ω } layout opA opS m d n S.dist.isometryScale A lda 0 0 0 ldb) (.sparse S, b)
        (fun _ s' => Holds s'.2 layout ldb m d (B ω))) ∧
      ∀ (r : Int) (ε : ℝ), 0 ≤ r → RankLe r n m (fun l i => opMat opA Am i l) → 0 < ε → ({ω | ¬ Embeds ε n d m (fun l i => opMat opA Am i l) (fun j i => B ω i j)}.ncard : ℝ) / Fintype.card (ZMod N × ZMod L → WS) ≤
        (r : ℝ) ^ 2 * (2 / d * (1 + (d : ℝ) / Mw) ^ S.dist.vecNnz.toNat) / ε ^ 2 := by
  obtain ⟨P, hP, h⟩ := saso_right_map hE hL e he hM2 hS hnew hax hN hop hM hm hlda hldb hA hal
  have hd0 : 0 < d := by
    obtain ⟨h1, h2, -⟩ := sparseDist_facts hS.dist
    rw [← hS.nRows] at h1; rw [← hS.nCols] at h2
    rcases hop with ⟨-, -, a, -⟩ | ⟨-, -, a, -⟩ <;> omega
  have hd' : (0 : ℝ) < d := by exact_mod_cast hd0
  have : Nonempty WS := ⟨e.symm ⟨0, by omega⟩⟩
  refine ⟨_, hP, fun r ε hr hrank hε => ?_⟩
  exact embeds_of_moments hr (by positivity) (fun x => (h x).2) hrank hε

/-- C84 (dense operators, left). The same for `sketch_general` as in C83, with the fraction `r² (w (1 + 2/d) - 2 v + 1) / ε²`: about `2 r² / (d ε²)` for the exact
conversions of words (C83_words). -/
theorem C84_dense_left [NeZero N] [Field R] [LinearOrder R] [FloorRing R] [Fintype W] [Nonempty W] {L : Nat} [NeZero L] {E : SkEnv N K W WS R ℝ} (hE : SkEnvOk E)
    (hL : E.G.len = L) (h3 : E.sqrt3 = Real.sqrt 3) {S : DenseSkOp N K ℝ} (hnew : S.buff = none) (hD : DenseDistOk S.dist) (hR : S.nRows = S.dist.nRows)
    (hC : S.nCols = S.dist.nCols) (hN : S.nRows * S.nCols ≤ N) {v w : ℝ} (hwd : WordsOk E.G S.dist.family v w)
    {layout : Layout} {opS opA : Op} {d m n ro co : Int} (hin : InOp S.nRows S.nCols (rowsOf opS d m) (colsOf opS d m) ro co) (hd : 0 < d) (hm : 0 < m) (hn : 0 ≤ n)
    {alpha : ℝ} (halpha : alpha * alpha = 1 / d) {A b : Buf ℝ} {lda ldb : Int} {Am : Int → Int → ℝ} (hlda : LdOk layout lda (rowsOf opA m n) (colsOf opA m n))
    (hldb : LdOk layout ldb d n) (hA : Holds A layout lda (rowsOf opA m n) (colsOf opA m n) Am) (hal : Alloc b layout ldb d n) :
    ∃ B : (ZMod N × ZMod L → W) → Int → Int → ℝ,
      (∀ ω, M.wp (sketchGeneralL { E with G := fromWords E.G ω } layout opS opA d n m alpha ro co A lda 0 ldb) (.dense S, b)
        (fun _ s' => Holds s'.2 layout ldb d n (B ω))) ∧
      ∀ (r : Int) (ε : ℝ), 0 ≤ r → RankLe r m n (opMat opA Am) → 0 < ε → ({ω | ¬ Embeds ε m d n (opMat opA Am) (B ω)}.ncard : ℝ) / Fintype.card (ZMod N × ZMod L → W) ≤
        (r : ℝ) ^ 2 * (w * (1 + 2 / d) - 2 * v + 1) / ε ^ 2 := by
  obtain ⟨P, hP, h0, h⟩ := dense_left_map hE hL h3 hnew hD hR hC hN hwd hin hd hm hn halpha hlda hldb hA hal
  refine ⟨_, hP, fun r ε hr hrank hε => ?_⟩
  exact embeds_of_moments hr h0 (fun x => (h x).2) hrank hε

/-- C84 (dense operators, right). -/
theorem C84_dense_right [NeZero N] [Field R] [LinearOrder R] [FloorRing R] [Fintype W] [Nonempty W] {L : Nat} [NeZero L] {E : SkEnv N K W WS R ℝ} (hE : SkEnvOk E)
    (hL : E.G.len = L) (h3 : E.sqrt3 = Real.sqrt 3) {S : DenseSkOp N K ℝ} (hnew : S.buff = none) (hD : DenseDistOk S.dist) (hR : S.nRows = S.dist.nRows)
    (hC : S.nCols = S.dist.nCols) (hN : S.nRows * S.nCols ≤ N) {v w : ℝ} (hwd : WordsOk E.G S.dist.family v w)
    {layout : Layout} {opA opS : Op} {m d n ro co : Int} (hin : InOp S.nRows S.nCols (rowsOf opS n d) (colsOf opS n d) ro co) (hd : 0 < d) (hm : 0 ≤ m) (hn : 0 < n)
    {alpha : ℝ} (halpha : alpha * alpha = 1 / d) {A b : Buf ℝ} {lda ldb : Int} {Am : Int → Int → ℝ} (hlda : LdOk layout lda (rowsOf opA m n) (colsOf opA m n))
    (hldb : LdOk layout ldb m d) (hA : Holds A layout lda (rowsOf opA m n) (colsOf opA m n) Am) (hal : Alloc b layout ldb m d) :
    ∃ B : (ZMod N × ZMod L → W) → Int → Int → ℝ,
      (∀ ω, M.wp (sketchGeneralR { E with G := fromWords E.G ω } layout opA opS m d n alpha A lda ro co 0 ldb) (.dense S, b)
        (fun _ s' => Holds s'.2 layout ldb m d (B ω))) ∧
      ∀ (r : Int) (ε : ℝ), 0 ≤ r → RankLe r n m (fun l i => opMat opA Am i l) → 0 < ε → ({ω | ¬ Embeds ε n d m (fun l i => opMat opA Am i l) (fun j i => B ω i j)}.ncard : ℝ) / Fintype.card (ZMod N × ZMod L → W) ≤
        (r : ℝ) ^ 2 * (w * (1 + 2 / d) - 2 * v + 1) / ε ^ 2 := by
  obtain ⟨P, hP, h0, h⟩ := dense_right_map hE hL h3 hnew hD hR hC hN hwd hin hd hm hn halpha hlda hldb hA hal
  refine ⟨_, hP, fun r ε hr hrank hε => ?_⟩
  exact embeds_of_moments hr h0 (fun x => (h x).2) hrank hε

/-- The hypotheses of C84_least_squares and C84_kernel are met by a 3 x 1 matrix and a 2 x 1 sketch of it, with distortion 1/2: the squared norms are 4 and 5 per unit. -/
example : Embeds (1 / 2) 3 2 1 (fun i _ => if i = 0 then 2 else 0) (fun i _ => if i = 0 then 1 else 2) := by
  intro z
  simp [sqNorm, sum_range_succ]
  nlinarith [sq_nonneg (z 0)]

/-- The bounds are less than 1 for useful sizes: an operator with 1000 rows, 5000 columns and 8 nonzeros per column, and a matrix of rank 2 with ε = 1/2. -/
example : SparseOpOk (mkSparseSkOp 4 ⟨1000, 5000, .Short, 1000, 5000, 8, 40000⟩ ⟨0, 7⟩ : SparseSkOp (2 ^ 128) Nat ℝ) ∧
    (2 : ℝ) ^ 2 * (2 / 1000 * (1 + 1000 / (2 ^ 32 : Nat)) ^ 8) / (1 / 2) ^ 2 < 1 / 10 ∧
    RankLe 2 5000 3 (fun i j => i + j) := by
  refine ⟨mkSparseSkOp_ok 4 ⟨by decide, by decide⟩ _, by norm_num, fun i k => if k = 0 then i else 1, fun k j => if k = 0 then 1 else j, fun i j _ => ?_⟩
  simp [sum_range_succ]

end RB
