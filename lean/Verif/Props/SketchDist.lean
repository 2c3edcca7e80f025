import Verif.Props.Distortion
import Verif.Props.Sketch

/-!
# C81: sketching preserves the squared norms of columns

C80 through the sketching function: what a user gets who calls `sketch_general` with a new short-axis operator and `alpha = isometry_scale`.
-/

namespace RB
open Spec Finset
variable {N : Nat} {K W WS R : Type}

theorem samples_saso [Field R] [LinearOrder R] [FloorRing R] {G : Gen N K WS R} {sqrt : ℝ → ℝ} {D : SparseDist} {seed : RNGState N K} (hG : G.Ok)
    (hsqrt : sqrt 1 = 1) (hD : SparseDistOk D) (hax : D.majorAxis = .Short) :
    SparseSamples G sqrt D seed (toMat ((sasoTriples G seed D.vecNnz D.dimMajor D.dimMinor).map (mkEntry D))) :=
  sparseSamples_of_run hG hsqrt hD fun E hE i j => by
    rcases hE with ⟨-, rfl⟩ | ⟨a, -⟩
    · rfl
    · rw [a] at hax; cases hax

theorem prodEntry_nat (m : Nat) (f g : Int → Int → ℝ) (i j : Int) : prodEntry m f g i j = ∑ l ∈ range m, f i l * g l j := by
  unfold prodEntry
  rw [Int.toNat_natCast]

/-- C37 (right) for a short-axis operator that has not been filled and `beta = 0`. -/
theorem C37_right_short_axis_new [Field R] [LinearOrder R] [IsStrictOrderedRing R] [FloorRing R] {E : SkEnv N K W WS R ℝ} (hE : SkEnvOk E)
    {S : SparseSkOp N K ℝ} (hok : SparseOpOk S) (hnew : S.nnz < 0) (hax : S.dist.majorAxis = .Short) {Sm : Int → Int → ℝ}
    (hSm : SparseSamples E.GS E.sqrt S.dist S.seedState Sm) {layout : Layout} {opA opS : Op} {m d n ro co : Int} {alpha : ℝ} {A b : Buf ℝ} {lda ldb : Int}
    {Am : Int → Int → ℝ} (hw : opS = .Trans ∧ S.nRows ≤ S.nCols ∧ d = S.nRows ∧ ro = 0 ∧ 0 ≤ co ∧ n + co ≤ S.nCols ∨
      opS = .NoTrans ∧ S.nCols < S.nRows ∧ d = S.nCols ∧ co = 0 ∧ 0 ≤ ro ∧ n + ro ≤ S.nRows)
    (hm : 0 ≤ m) (hn : 1 ≤ n) (hlda : LdOk layout lda (rowsOf opA m n) (colsOf opA m n)) (hldb : LdOk layout ldb m d)
    (hA : alpha ≠ 0 → Holds A layout lda (rowsOf opA m n) (colsOf opA m n) Am) (hal : Alloc b layout ldb m d) :
    M.wp (sketchGeneralR E layout opA opS m d n alpha A lda ro co 0 ldb) (.sparse S, b) (fun _ s' =>
      Holds s'.2 layout ldb m d (fun i j => alpha * prodEntry n (opMat opA Am) (opMat opS (subMat ro co Sm)) i j) ∧ SameOutside b s'.2 layout ldb m d) := by
  obtain ⟨hR, hC', -⟩ := sparseDist_facts hok.dist
  have hr := hok.nRows; have hc := hok.nCols
  obtain ⟨L1, g1, g2⟩ := sparseSamples_run hE.genS hE.sqrt hok.dist hSm
  have hmat : toMat (L1.map (mkEntry S.dist)) = Sm := by funext i j; exact g2 i j
  obtain ⟨_, hSL, L0, rfl, hrun⟩ := sparseIs_of_dist hE hok.dist hok.nRows hok.nCols hnew
  rw [← hmat, show toMat (L1.map (mkEntry S.dist)) = toMat (L0.map (mkEntry S.dist)) from
    funext fun i => funext fun j => toMat_perm ((sparseRun_perm g1 hrun).map _) i j]
  have hin := sparseRun_inRange hok.dist hrun (by rw [hax]; intro h; cases h)
  have hreg := regularOk_saso hok.dist hax hrun (ro := ro) (co := co) hn
  refine M.wp_mono (C37_right_unfilled hE hnew hok (L := L0.map (mkEntry S.dist)) hSL (by rw [hr, hc]; exact hin) (beta := 0) (C := fun _ _ => 0) ?_ (fun _ => ?_) hm ?_
    (by omega) hlda hldb hA hal (fun h => absurd rfl h)) ?_
  · rcases hw with ⟨rfl, a, rfl, rfl, b, c⟩ | ⟨rfl, a, rfl, rfl, b, c⟩
    · exact ⟨le_rfl, b, by simp [rowsOf], by simpa [colsOf] using c⟩
    · exact ⟨b, le_rfl, by simpa [rowsOf] using c, by simp [colsOf]⟩
  · rcases hw with ⟨rfl, a, rfl, rfl, b, c⟩ | ⟨rfl, a, rfl, rfl, b, c⟩
    · simp only [opEntries, rowsOf, colsOf, Op.flip]; rw [hr]
      exact Or.inl (hreg.1 (by omega) b (by omega))
    · simp only [opEntries, rowsOf, colsOf, Op.flip]; rw [hc]
      exact Or.inl (hreg.2 (by omega) b (by omega))
  · rcases hw with ⟨-, -, rfl, -⟩ | ⟨-, -, rfl, -⟩ <;> omega
  · rintro _ s' ⟨P, rfl, h1, h2, -⟩
    refine ⟨fun i j hij => ?_, h2⟩
    rw [h1 i j hij]
    simp only [zero_mul, add_zero]

/-- The product that `sketch_general` computes with a new short-axis operator, `alpha = isometry_scale` and `beta = 0`, and the moments of the operator. -/
theorem saso_left_map [NeZero N] [Field R] [LinearOrder R] [IsStrictOrderedRing R] [FloorRing R] [Fintype WS] {L : Nat} [NeZero L] {E : SkEnv N K W WS R ℝ} (hE : SkEnvOk E)
    (hL : E.GS.len = L) {Mw : Nat} (e : WS ≃ Fin Mw) (he : ∀ w, E.GS.nat w = e w) (hM2 : Even Mw) {S : SparseSkOp N K ℝ} (hS : SparseOpOk S) (hnew : S.nnz < 0)
    (hax : S.dist.majorAxis = .Short) (hN : S.dist.fullNnz ≤ N) {layout : Layout} {opS opA : Op} {d m n : Int}
    (hop : opS = .NoTrans ∧ S.nRows ≤ S.nCols ∧ d = S.nRows ∧ m = S.nCols ∨ opS = .Trans ∧ S.nCols < S.nRows ∧ d = S.nCols ∧ m = S.nRows)
    (hM : d ≤ Mw) {A b : Buf ℝ} {lda ldb : Int} {Am : Int → Int → ℝ} (hn : 0 ≤ n) (hlda : LdOk layout lda (rowsOf opA m n) (colsOf opA m n))
    (hldb : LdOk layout ldb d n) (hA : Holds A layout lda (rowsOf opA m n) (colsOf opA m n) Am) (hal : Alloc b layout ldb d n) :
    ∃ P : (ZMod N × ZMod L → WS) → Int → Int → ℝ,
      (∀ ω, M.wp (sketchGeneralL { E with GS := fromWords E.GS ω } layout opS opA d n m S.dist.isometryScale 0 0 A lda 0 ldb) (.sparse S, b)
        (fun _ s' => Holds s'.2 layout ldb d n (fun i j => ∑ l ∈ range m.toNat, P ω i l * opMat opA Am l j))) ∧
      ∀ x : Int → ℝ, (∑ ω, ∑ i ∈ range d.toNat, (∑ l ∈ range m.toNat, P ω i l * x l) ^ 2) / Fintype.card (ZMod N × ZMod L → WS) = ∑ l ∈ range m.toNat, x l ^ 2 ∧
        (∑ ω, (∑ i ∈ range d.toNat, (∑ l ∈ range m.toNat, P ω i l * x l) ^ 2 - ∑ l ∈ range m.toNat, x l ^ 2) ^ 2) / Fintype.card (ZMod N × ZMod L → WS) ≤
          2 / d * (1 + (d : ℝ) / Mw) ^ S.dist.vecNnz.toNat * (∑ l ∈ range m.toNat, x l ^ 2) ^ 2 := by
  obtain ⟨k, n', r, hk, hkn, ek, en, er, hn', hr, hf⟩ := saso_setup hS hax
  obtain ⟨rfl, rfl⟩ : d = n' ∧ m = r := by
    rcases hop with ⟨-, a, b, c⟩ | ⟨-, a, b, c⟩ <;> omega
  rw [hf] at hN
  have hL2 : 2 ≤ L := by have := hE.genS; rcases this with h | h <;> omega
  have hsc := scale_short hax (by omega : 0 < S.dist.vecNnz)
  rw [ek, Int.cast_natCast] at hsc
  have hmat : ∀ (ω : ZMod N × ZMod L → WS) i l, opMat opS (toMat ((sasoTriples (T := ℝ) (fromWords E.GS ω) S.seedState S.dist.vecNnz S.dist.dimMajor S.dist.dimMinor).map
      (mkEntry S.dist))) i l = tripMat (sasoTriples (fromWords E.GS ω) S.seedState k n' r) i l := by
    intro ω i l
    rw [ek, en, er]
    rcases hop with ⟨rfl, a, -⟩ | ⟨rfl, a, -⟩
    · show toMat _ i l = _
      exact toMat_mkEntry_wide (by rw [← hS.nRows, ← hS.nCols]; exact a) _ i l
    · show toMat _ l i = _
      exact toMat_mkEntry_tall (by rw [← hS.nRows, ← hS.nCols]; exact a) _ l i
  refine ⟨fun ω i l => S.dist.isometryScale * tripMat (sasoTriples (fromWords E.GS ω) S.seedState k n' r) i l, fun ω => ?_, fun x => ?_⟩
  · have hE' : SkEnvOk { E with GS := fromWords E.GS ω } := ⟨hE.env, hE.gen, hE.genS, hE.sqrt, hE.order⟩
    have hSm := samples_saso (G := fromWords E.GS ω) (sqrt := E.sqrt) (seed := S.seedState) hE.genS hE.sqrt hS.dist hax
    refine M.wp_mono (C37_left_short_axis hE' hS hnew hax hSm (Or.inl rfl) (opS := opS) (opA := opA) (d := n') (n := n) (m := r) (ro := 0) (co := 0) ?_
      (by omega) hn hlda hldb (fun _ => hA) hal (C := fun _ _ => 0) (fun h => absurd rfl h)) ?_
    · rcases hop with ⟨rfl, a, b, c⟩ | ⟨rfl, a, b, c⟩
      · exact Or.inl ⟨rfl, a, b, rfl, le_rfl, by omega⟩
      · exact Or.inr ⟨rfl, a, b, rfl, le_rfl, by omega⟩
    · rintro _ s' ⟨h, -⟩ i j hij
      rw [h i j hij]
      dsimp only
      rw [prodEntry_nat, subMat_zero]
      simp only [hmat, zero_mul, add_zero, Int.toNat_natCast]
      rw [mul_sum]
      simp only [mul_assoc]
  · obtain ⟨h1, h2⟩ := saso_scaled (G := E.GS) (seed := S.seedState) hL2 e he hM2 (by exact_mod_cast hM) hk hkn (by exact_mod_cast hN) hsc x
    simp only [Int.toNat_natCast, Int.cast_natCast, ek, mul_assoc (S.dist.isometryScale), ← mul_sum]
    have hn0 : (0 : ℝ) < n' := by have : 0 < n' := by omega
                                  exact_mod_cast this
    exact ⟨h1, h2.trans (mul_le_mul_of_nonneg_left (fourth_le x _) (by positivity))⟩

/-- C81. `sketch_general` with a new short-axis operator that is applied as it is (if it is wide) or transposed (if it is tall), `alpha = isometry_scale` and
`beta = 0` returns for all words that a generator may yield. For every column `j` of `op(A)`, the squared norm of column `j` of the result is on average that of
column `j` of `op(A)`, and it differs from it by more than the factor `ε` for at most a fraction `2 (1 + d/M)^k / (d ε²)` of the choices of the words. -/
theorem C81_sketch_general [NeZero N] [Field R] [LinearOrder R] [IsStrictOrderedRing R] [FloorRing R] [Fintype WS] {L : Nat} [NeZero L] {E : SkEnv N K W WS R ℝ} (hE : SkEnvOk E)
    (hL : E.GS.len = L) {Mw : Nat} (e : WS ≃ Fin Mw) (he : ∀ w, E.GS.nat w = e w) (hM2 : Even Mw) {S : SparseSkOp N K ℝ} (hS : SparseOpOk S) (hnew : S.nnz < 0)
    (hax : S.dist.majorAxis = .Short) (hN : S.dist.fullNnz ≤ N) {layout : Layout} {opS opA : Op} {d m n : Int}
    (hop : opS = .NoTrans ∧ S.nRows ≤ S.nCols ∧ d = S.nRows ∧ m = S.nCols ∨ opS = .Trans ∧ S.nCols < S.nRows ∧ d = S.nCols ∧ m = S.nRows)
    (hM : d ≤ Mw) {A b : Buf ℝ} {lda ldb : Int} {Am : Int → Int → ℝ} (hn : 0 ≤ n) (hlda : LdOk layout lda (rowsOf opA m n) (colsOf opA m n))
    (hldb : LdOk layout ldb d n) (hA : Holds A layout lda (rowsOf opA m n) (colsOf opA m n) Am) (hal : Alloc b layout ldb d n) :
    ∃ B : (ZMod N × ZMod L → WS) → Int → Int → ℝ,
      (∀ ω, M.wp (sketchGeneralL { E with GS := fromWords E.GS ω } layout opS opA d n m S.dist.isometryScale 0 0 A lda 0 ldb) (.sparse S, b)
        (fun _ s' => Holds s'.2 layout ldb d n (B ω))) ∧
      ∀ j, (∑ ω, ∑ i ∈ range d.toNat, B ω i j ^ 2) / Fintype.card (ZMod N × ZMod L → WS) = ∑ l ∈ range m.toNat, opMat opA Am l j ^ 2 ∧
        ∀ ε : ℝ, 0 < ε → ((univ.filter fun ω => ε * ∑ l ∈ range m.toNat, opMat opA Am l j ^ 2 <
            |∑ i ∈ range d.toNat, B ω i j ^ 2 - ∑ l ∈ range m.toNat, opMat opA Am l j ^ 2|).card : ℝ) / Fintype.card (ZMod N × ZMod L → WS) ≤
          2 / d * (1 + (d : ℝ) / Mw) ^ S.dist.vecNnz.toNat / ε ^ 2 := by
  obtain ⟨P, hP, h⟩ := saso_left_map hE hL e he hM2 hS hnew hax hN hop hM hn hlda hldb hA hal
  refine ⟨_, hP, fun j => ⟨(h fun l => opMat opA Am l j).1, fun ε hε => ?_⟩⟩
  have hd0 : 0 < d := by
    obtain ⟨h1, h2, -⟩ := sparseDist_facts hS.dist
    rw [← hS.nRows] at h1; rw [← hS.nCols] at h2
    rcases hop with ⟨-, -, a, -⟩ | ⟨-, -, a, -⟩ <;> omega
  have hd' : (0 : ℝ) < d := by exact_mod_cast hd0
  have : Nonempty WS := ⟨e.symm ⟨0, by omega⟩⟩
  exact fraction_le _ (sum_nonneg fun l _ => sq_nonneg _) (by positivity) hε (h fun l => opMat opA Am l j).2

/-- The same for right sketches. -/
theorem saso_right_map [NeZero N] [Field R] [LinearOrder R] [IsStrictOrderedRing R] [FloorRing R] [Fintype WS] {L : Nat} [NeZero L] {E : SkEnv N K W WS R ℝ} (hE : SkEnvOk E)
    (hL : E.GS.len = L) {Mw : Nat} (e : WS ≃ Fin Mw) (he : ∀ w, E.GS.nat w = e w) (hM2 : Even Mw) {S : SparseSkOp N K ℝ} (hS : SparseOpOk S) (hnew : S.nnz < 0)
    (hax : S.dist.majorAxis = .Short) (hN : S.dist.fullNnz ≤ N) {layout : Layout} {opA opS : Op} {m d n : Int}
    (hop : opS = .Trans ∧ S.nRows ≤ S.nCols ∧ d = S.nRows ∧ n = S.nCols ∨ opS = .NoTrans ∧ S.nCols < S.nRows ∧ d = S.nCols ∧ n = S.nRows)
    (hM : d ≤ Mw) {A b : Buf ℝ} {lda ldb : Int} {Am : Int → Int → ℝ} (hm : 0 ≤ m) (hlda : LdOk layout lda (rowsOf opA m n) (colsOf opA m n))
    (hldb : LdOk layout ldb m d) (hA : Holds A layout lda (rowsOf opA m n) (colsOf opA m n) Am) (hal : Alloc b layout ldb m d) :
    ∃ P : (ZMod N × ZMod L → WS) → Int → Int → ℝ,
      (∀ ω, M.wp (sketchGeneralR { E with GS := fromWords E.GS ω } layout opA opS m d n S.dist.isometryScale A lda 0 0 0 ldb) (.sparse S, b)
        (fun _ s' => Holds s'.2 layout ldb m d (fun i j => ∑ l ∈ range n.toNat, P ω j l * opMat opA Am i l))) ∧
      ∀ x : Int → ℝ, (∑ ω, ∑ j ∈ range d.toNat, (∑ l ∈ range n.toNat, P ω j l * x l) ^ 2) / Fintype.card (ZMod N × ZMod L → WS) = ∑ l ∈ range n.toNat, x l ^ 2 ∧
        (∑ ω, (∑ j ∈ range d.toNat, (∑ l ∈ range n.toNat, P ω j l * x l) ^ 2 - ∑ l ∈ range n.toNat, x l ^ 2) ^ 2) / Fintype.card (ZMod N × ZMod L → WS) ≤
          2 / d * (1 + (d : ℝ) / Mw) ^ S.dist.vecNnz.toNat * (∑ l ∈ range n.toNat, x l ^ 2) ^ 2 := by
  obtain ⟨k, n', r, hk, hkn, ek, en, er, hn', hr, hf⟩ := saso_setup hS hax
  obtain ⟨rfl, rfl⟩ : d = n' ∧ n = r := by
    rcases hop with ⟨-, a, b, c⟩ | ⟨-, a, b, c⟩ <;> omega
  rw [hf] at hN
  have hL2 : 2 ≤ L := by have := hE.genS; rcases this with h | h <;> omega
  have hsc := scale_short hax (by omega : 0 < S.dist.vecNnz)
  rw [ek, Int.cast_natCast] at hsc
  have hmat : ∀ (ω : ZMod N × ZMod L → WS) l j, opMat opS (toMat ((sasoTriples (T := ℝ) (fromWords E.GS ω) S.seedState S.dist.vecNnz S.dist.dimMajor S.dist.dimMinor).map
      (mkEntry S.dist))) l j = tripMat (sasoTriples (fromWords E.GS ω) S.seedState k n' r) j l := by
    intro ω l j
    rw [ek, en, er]
    rcases hop with ⟨rfl, a, -⟩ | ⟨rfl, a, -⟩
    · show toMat _ j l = _
      exact toMat_mkEntry_wide (by rw [← hS.nRows, ← hS.nCols]; exact a) _ j l
    · show toMat _ l j = _
      exact toMat_mkEntry_tall (by rw [← hS.nRows, ← hS.nCols]; exact a) _ l j
  refine ⟨fun ω j l => S.dist.isometryScale * tripMat (sasoTriples (fromWords E.GS ω) S.seedState k n' r) j l, fun ω => ?_, fun x => ?_⟩
  · have hE' : SkEnvOk { E with GS := fromWords E.GS ω } := ⟨hE.env, hE.gen, hE.genS, hE.sqrt, hE.order⟩
    have hSm := samples_saso (G := fromWords E.GS ω) (sqrt := E.sqrt) (seed := S.seedState) hE.genS hE.sqrt hS.dist hax
    refine M.wp_mono (C37_right_short_axis_new hE' hS hnew hax hSm (opA := opA) (opS := opS) (m := m) (d := n') (n := r) (ro := 0) (co := 0) ?_
      hm (by omega) hlda hldb (fun _ => hA) hal) ?_
    · rcases hop with ⟨rfl, a, b, c⟩ | ⟨rfl, a, b, c⟩
      · exact Or.inl ⟨rfl, a, b, rfl, le_rfl, by omega⟩
      · exact Or.inr ⟨rfl, a, b, rfl, le_rfl, by omega⟩
    · rintro _ s' ⟨h, -⟩ i j hij
      rw [h i j hij]
      dsimp only
      rw [prodEntry_nat, subMat_zero]
      simp only [hmat, Int.toNat_natCast]
      rw [mul_sum]
      congr 1
      exact sum_congr rfl fun l _ => by ring
  · obtain ⟨h1, h2⟩ := saso_scaled (G := E.GS) (seed := S.seedState) hL2 e he hM2 (by exact_mod_cast hM) hk hkn (by exact_mod_cast hN) hsc x
    simp only [Int.toNat_natCast, Int.cast_natCast, ek, mul_assoc (S.dist.isometryScale), ← mul_sum]
    have hn0 : (0 : ℝ) < n' := by have : 0 < n' := by omega
                                  exact_mod_cast this
    exact ⟨h1, h2.trans (mul_le_mul_of_nonneg_left (fourth_le x _) (by positivity))⟩

/-- C81 (right). The same for right sketches, with the transpose of a wide operator or a tall operator, and the rows of the result. -/
theorem C81_sketch_right [NeZero N] [Field R] [LinearOrder R] [IsStrictOrderedRing R] [FloorRing R] [Fintype WS] {L : Nat} [NeZero L] {E : SkEnv N K W WS R ℝ} (hE : SkEnvOk E)
    (hL : E.GS.len = L) {Mw : Nat} (e : WS ≃ Fin Mw) (he : ∀ w, E.GS.nat w = e w) (hM2 : Even Mw) {S : SparseSkOp N K ℝ} (hS : SparseOpOk S) (hnew : S.nnz < 0)
    (hax : S.dist.majorAxis = .Short) (hN : S.dist.fullNnz ≤ N) {layout : Layout} {opA opS : Op} {m d n : Int}
    (hop : opS = .Trans ∧ S.nRows ≤ S.nCols ∧ d = S.nRows ∧ n = S.nCols ∨ opS = .NoTrans ∧ S.nCols < S.nRows ∧ d = S.nCols ∧ n = S.nRows)
    (hM : d ≤ Mw) {A b : Buf ℝ} {lda ldb : Int} {Am : Int → Int → ℝ} (hm : 0 ≤ m) (hlda : LdOk layout lda (rowsOf opA m n) (colsOf opA m n))
    (hldb : LdOk layout ldb m d) (hA : Holds A layout lda (rowsOf opA m n) (colsOf opA m n) Am) (hal : Alloc b layout ldb m d) :
    ∃ B : (ZMod N × ZMod L → WS) → Int → Int → ℝ,
      (∀ ω, M.wp (sketchGeneralR { E with GS := fromWords E.GS ω } layout opA opS m d n S.dist.isometryScale A lda 0 0 0 ldb) (.sparse S, b)
        (fun _ s' => Holds s'.2 layout ldb m d (B ω))) ∧
      ∀ i, (∑ ω, ∑ j ∈ range d.toNat, B ω i j ^ 2) / Fintype.card (ZMod N × ZMod L → WS) = ∑ l ∈ range n.toNat, opMat opA Am i l ^ 2 ∧
        ∀ ε : ℝ, 0 < ε → ((univ.filter fun ω => ε * ∑ l ∈ range n.toNat, opMat opA Am i l ^ 2 <
            |∑ j ∈ range d.toNat, B ω i j ^ 2 - ∑ l ∈ range n.toNat, opMat opA Am i l ^ 2|).card : ℝ) / Fintype.card (ZMod N × ZMod L → WS) ≤
          2 / d * (1 + (d : ℝ) / Mw) ^ S.dist.vecNnz.toNat / ε ^ 2 := by
  obtain ⟨P, hP, h⟩ := saso_right_map hE hL e he hM2 hS hnew hax hN hop hM hm hlda hldb hA hal
  refine ⟨_, hP, fun i => ⟨(h fun l => opMat opA Am i l).1, fun ε hε => ?_⟩⟩
  have hd0 : 0 < d := by
    obtain ⟨h1, h2, -⟩ := sparseDist_facts hS.dist
    rw [← hS.nRows] at h1; rw [← hS.nCols] at h2
    rcases hop with ⟨-, -, a, -⟩ | ⟨-, -, a, -⟩ <;> omega
  have hd' : (0 : ℝ) < d := by exact_mod_cast hd0
  have : Nonempty WS := ⟨e.symm ⟨0, by omega⟩⟩
  exact fraction_le _ (sum_nonneg fun l _ => sq_nonneg _) (by positivity) hε (h fun l => opMat opA Am i l).2

/-- An environment with real numbers and 32-bit words. -/
noncomputable def midEnv : SkEnv (2 ^ 128) Nat Int (Fin (2 ^ 32)) ℚ ℝ :=
  ⟨⟨fun lt l => l.mergeSort fun a b => !lt b a, [], 4⟩, ⟨4, fun _ _ i => i, fun a b => (a, b), fun w => w, fun w => w.toNat⟩, Real.sqrt 3, midGen, Real.sqrt, fun _ l => l⟩

/-- The hypotheses are met by a new 3 x 8 operator with 2 nonzeros per column and the 8 x 2 matrix with entries i + j (for right sketches: its transpose). -/
example : SkEnvOk midEnv ∧ midEnv.GS.len = (4 : Nat) ∧ (∀ w, midEnv.GS.nat w = (Equiv.refl (Fin (2 ^ 32))) w) ∧ Even (2 ^ 32) ∧
    SparseOpOk (mkSparseSkOp 4 exSaso ⟨0, 7⟩ : SparseSkOp (2 ^ 128) Nat ℝ) ∧ (mkSparseSkOp 4 exSaso ⟨0, 7⟩ : SparseSkOp (2 ^ 128) Nat ℝ).nnz < 0 ∧
    exSaso.majorAxis = .Short ∧ exSaso.fullNnz ≤ ((2 ^ 128 : Nat) : Int) ∧ exSaso.nRows ≤ exSaso.nCols ∧ exSaso.nRows = 3 ∧ exSaso.nCols = 8 ∧
    LdOk .ColMajor 8 (rowsOf .NoTrans 8 2) (colsOf .NoTrans 8 2) ∧ LdOk .ColMajor 3 3 2 ∧
    Holds (Buf.ofFn 16 fun p => ((p % 8 + p / 8 : Int) : ℝ)) .ColMajor 8 8 2 (fun i j => (i + j : Int)) ∧ Alloc (Buf.alloc ℝ 6) .ColMajor 3 3 2 := by
  refine ⟨⟨⟨mergeSort_sortOk, by norm_num [midEnv]⟩, Or.inr rfl, Or.inr rfl, Real.sqrt_one, fun _ l => List.Perm.refl l⟩, rfl, fun _ => rfl, by decide,
    mkSparseSkOp_ok 4 exSaso_ok _, by simp [mkSparseSkOp], rfl, by decide, by decide, rfl, rfl, by simp [LdOk, rowsOf], by simp [LdOk], ?_, ?_⟩
  · rintro i j ⟨h1, h2, h3, h4⟩
    simp only [addr]
    simp only [Buf.ofFn]
    rw [if_pos (by omega), show (i + j * 8) % 8 = i by omega, show (i + j * 8) / 8 = j by omega]
  · rintro i j ⟨h1, h2, h3, h4⟩
    simp only [addr]
    simp only [Buf.alloc]
    rw [if_pos (by omega)]; simp

end RB
