import Verif.Props.Embedding
import Verif.Props.Qb
import Verif.Props.QbSvd
import Verif.Lemmas.SvdExists
import Mathlib.LinearAlgebra.Basis.VectorSpace

/-!
# C86: the low-rank approximation programs

The two example programs compute a singular value decomposition of a sparse matrix from a random sketch of it. With the sizes of the work arrays that the programs use they always
write past the end of an array. With a different size the result is exact for matrices of low rank, for all but a small fraction of the choices of the words.
-/

namespace RB
open Spec Finset
variable {N : Nat} {K W WS R T : Type}

/-! ## The sample -/

theorem qbFill_fills [Mul T] {sched : List Nat} {G : Gen N K W T} (hG : G.Ok) {sqrt3 : T} {rows k : Int} (hk : 1 ≤ k) (hkr : k ≤ rows) (hfit : rows * k ≤ intMax 64) {D : DenseDist}
    (hD : mkDenseDist rows k .Gaussian .Long = .ok D) (seed : RNGState N K) :
    Fills (rows * k) (fun p => denseEntry G sqrt3 D seed (p % rows) (p / rows)) (qbFill sched G sqrt3 rows k seed) := by
  intro v hv
  have hDok := denseDistOk_of_mk hD hfit
  have hDD := mkDenseDist_eq (r := rows) (c := k) (fam := .Gaussian) (ax := .Long) (by omega) (by omega)
  obtain ⟨h1, h2, h3⟩ : D.nRows = rows ∧ D.nCols = k ∧ D.naturalLayout = .ColMajor := by
    rw [hDD] at hD; cases hD
    refine ⟨rfl, rfl, ?_⟩
    simp [naturalLayout, show ¬ rows < k by omega]
  unfold qbFill
  rw [M.wp_bind, M.wp_lift]
  refine ⟨D, hD, ?_⟩
  rw [M.wp_bind]
  unfold fillDense
  refine M.wp_mono (fillUnpacked_spec hG hDok (by omega) (by omega) (le_refl 0) (le_refl 0) (by omega) (by omega) (by rw [h1, h2]; exact hv)) ?_
  rintro s b' ⟨g1, g2, -⟩
  rw [M.wp_pure]
  rw [h3, h1, h2] at g1
  rw [h1, h2] at g2
  refine ⟨fun p p0 p1 => ?_, fun p hp => g2 p (by omega)⟩
  have hr : 0 < rows := by omega
  have := g1 (p % rows) (p / rows) ⟨Int.emod_nonneg _ hr.ne', Int.emod_lt_of_pos _ hr, Int.ediv_nonneg p0 hr.le, by
    rw [Int.ediv_lt_iff_lt_mul hr, mul_comm]; exact p1⟩
  simp only [addr, tightLd, add_zero] at this
  rw [← this]
  congr 1
  have := Int.emod_add_mul_ediv p rows
  rw [mul_comm] at this
  exact this.symm

/-! ## Linear algebra -/

/-- If every vector that is orthogonal to the columns of `M` is orthogonal to those of `A`, then `A = M X` for some `X`. -/
theorem exists_factor {m k n : Int} {A B : Int → Int → ℝ} (h : ∀ y : Int → ℝ, (∀ j : Nat, (j : Int) < k → ∑ i ∈ range m.toNat, B i j * y i = 0) →
    ∀ j : Nat, (j : Int) < n → ∑ i ∈ range m.toNat, A i j * y i = 0) : ∃ X, ∀ i j, InR m n i j → A i j = prodEntry k B X i j := by
  let col : (Int → Int → ℝ) → Nat → Fin m.toNat → ℝ := fun C j i => C (i : Nat) j
  let V : Submodule ℝ (Fin m.toNat → ℝ) := Submodule.span ℝ (Set.range fun j : Fin k.toNat => col B j)
  have key : ∀ j : Nat, (j : Int) < n → col A j ∈ V := by
    intro j hj
    by_contra hmem
    obtain ⟨f, hf, hV⟩ := Submodule.exists_le_ker_of_notMem hmem
    have hf' : ∀ v : Fin m.toNat → ℝ, f v = ∑ i, v i * f (Pi.single i 1) := fun v => by
      conv_lhs => rw [← Finset.univ_sum_single v, map_sum]
      refine sum_congr rfl fun i _ => ?_
      rw [show (Pi.single i (v i) : Fin m.toNat → ℝ) = v i • Pi.single i 1 by rw [← Pi.single_smul, smul_eq_mul, mul_one], map_smul, smul_eq_mul]
    let y : Int → ℝ := fun i => if hi : i.toNat < m.toNat then f (Pi.single ⟨i.toNat, hi⟩ 1) else 0
    have hy : ∀ (C : Int → Int → ℝ) (j : Nat), ∑ i ∈ range m.toNat, C i j * y i = f (col C j) := fun C j => by
      rw [hf', ← Fin.sum_univ_eq_sum_range (fun i => C (i : Nat) j * y (i : Nat))]
      refine sum_congr rfl fun i _ => ?_
      simp only [y, Int.toNat_natCast, dif_pos i.2, col]
    refine hf ?_
    rw [← hy]
    refine h y (fun l hl => ?_) j hj
    rw [hy]
    exact hV (Submodule.subset_span ⟨⟨l, by omega⟩, rfl⟩)
  have key2 : ∀ j : Nat, ∃ c : Fin k.toNat → ℝ, (j : Int) < n → ∑ l, c l • col B l = col A j := fun j => by
    by_cases hj : (j : Int) < n
    · obtain ⟨c, hc⟩ := (Submodule.mem_span_range_iff_exists_fun ℝ).1 (key j hj)
      exact ⟨c, fun _ => hc⟩
    · exact ⟨0, fun h => absurd h hj⟩
  choose c hc using key2
  refine ⟨fun l j => if hl : l.toNat < k.toNat then c j.toNat ⟨l.toNat, hl⟩ else 0, ?_⟩
  rintro i j ⟨h1, h2, h3, h4⟩
  have := congrFun (hc j.toNat (by omega)) ⟨i.toNat, by omega⟩
  simp only [Finset.sum_apply, Pi.smul_apply, smul_eq_mul, col, Int.toNat_of_nonneg h1, Int.toNat_of_nonneg h3] at this
  rw [← this, prodEntry, ← Fin.sum_univ_eq_sum_range (fun l => B i (l : Nat) * (if hl : ((l : Nat) : Int).toNat < k.toNat then c j.toNat ⟨((l : Nat) : Int).toNat, hl⟩ else 0))]
  refine sum_congr rfl fun l _ => ?_
  simp only [Int.toNat_natCast, dif_pos l.2]
  ring

/-- The sums of `A (B y)`. -/
theorem apply_prod {n : Int} (A B : Int → Int → ℝ) (y : Int → ℝ) (k : Int) (i : Int) :
    ∑ j ∈ range n.toNat, prodEntry k A B i j * y j = ∑ l ∈ range k.toNat, A i l * ∑ j ∈ range n.toNat, B l j * y j := by
  simp only [prodEntry, sum_mul, mul_sum]
  rw [sum_comm]
  exact sum_congr rfl fun _ _ => sum_congr rfl fun _ _ => by ring

/-- If `Aᵀ y` is in the kernel of `A`, then it is 0. -/
theorem gram_kernel {m n : Int} (A : Int → Int → ℝ) (y : Int → ℝ) (h : ∀ l : Nat, (l : Int) < m → ∑ j ∈ range n.toNat, A l j * ∑ i ∈ range m.toNat, A i j * y i = 0) :
    ∀ j : Nat, (j : Int) < n → ∑ i ∈ range m.toNat, A i j * y i = 0 := by
  have h0 : ∑ j ∈ range n.toNat, (∑ i ∈ range m.toNat, A i j * y i) ^ 2 = 0 := by
    have e : ∑ j ∈ range n.toNat, (∑ i ∈ range m.toNat, A i j * y i) ^ 2 = ∑ l ∈ range m.toNat, y l * ∑ j ∈ range n.toNat, A l j * ∑ i ∈ range m.toNat, A i j * y i := by
      have e1 : ∀ j : Nat, (∑ i ∈ range m.toNat, A i j * y i) ^ 2 = ∑ l ∈ range m.toNat, y l * (A l j * ∑ i ∈ range m.toNat, A i j * y i) := fun j => by
        rw [sq, sum_mul]
        exact sum_congr rfl fun _ _ => by ring
      simp only [e1, mul_sum]
      rw [sum_comm]
    rw [e]
    exact sum_eq_zero fun l hl => by rw [h l (by rw [mem_range] at hl; omega), mul_zero]
  intro j hj
  have := (sum_eq_zero_iff_of_nonneg fun _ _ => sq_nonneg _).1 h0 j (mem_range.2 (by omega))
  exact pow_eq_zero_iff (two_ne_zero) |>.1 this

/-- If `Sᵀ` embeds the row space of `A`, then `A = (A S) X`. -/
theorem factor_even {m n k : Int} {A S : Int → Int → ℝ} {c ε : ℝ} (hε : ε < 1)
    (h : Embeds ε n k m (fun l i => A i l) (fun i j => ∑ l ∈ range n.toNat, c * S l i * A j l)) : ∃ X, ∀ i j, InR m n i j → A i j = prodEntry k (prodEntry n A S) X i j := by
  refine exists_factor fun y hy => (C84_kernel h hε y).1 fun i hi => ?_
  have e : ∑ j ∈ range m.toNat, (∑ l ∈ range n.toNat, c * S l i * A j l) * y j = c * ∑ j ∈ range m.toNat, prodEntry n A S j i * y j := by
    rw [mul_sum]
    refine sum_congr rfl fun j _ => ?_
    rw [prodEntry, ← mul_assoc, mul_sum]
    exact congrArg (· * y j) (sum_congr rfl fun _ _ => by ring)
  rw [e, hy i hi, mul_zero]

/-- If `Sᵀ` embeds the column space of `A`, then `A = (A Aᵀ S) X`. -/
theorem factor_odd {m n k : Int} {A S : Int → Int → ℝ} {c ε : ℝ} (hε : ε < 1)
    (h : Embeds ε m k n A (fun i j => ∑ l ∈ range m.toNat, c * S l i * A l j)) :
    ∃ X, ∀ i j, InR m n i j → A i j = prodEntry k (prodEntry n A (prodEntry m (fun i j => A j i) S)) X i j := by
  refine exists_factor fun y hy => gram_kernel A y ((C84_kernel h hε fun j => ∑ i ∈ range m.toNat, A i j * y i).1 fun i hi => ?_)
  have e : ∑ j ∈ range n.toNat, (∑ l ∈ range m.toNat, c * S l i * A l j) * ∑ q ∈ range m.toNat, A q j * y q =
      c * ∑ q ∈ range m.toNat, prodEntry n A (prodEntry m (fun i j => A j i) S) q i * y q := by
    simp only [prodEntry, mul_sum, sum_mul]
    rw [sum_comm]
    exact sum_congr rfl fun _ _ => sum_congr rfl fun _ _ => sum_congr rfl fun _ _ => by ring
  rw [e, hy i hi, mul_zero]

/-! ## The programs -/

section
variable [Field T] [LinearOrder T]

/-- The sparse matrix `A` holds the m x n matrix with the entries `L`, with indices from 0, and both products with it are among the supported cases of C25. -/
structure Spec.LowRankData (A : SpMat T) (L : List (Entry T)) (m n : Int) : Prop where
  holds : SpHolds A L
  base : spBase A = .Zero
  range : InRange m n L
  rows : spRows A = m
  cols : spCols A = n
  sup : Supported A .NoTrans .ColMajor .NoTrans m n L
  supT : Supported A .Trans .ColMajor .NoTrans n m (L.map Entry.swap)

/-- The arrays U, VT and svals. -/
structure Spec.LrAlloc (m n k : Int) (t : LrSt T) : Prop where
  u : ∀ i, 0 ≤ i → i < m * k → t.u i ≠ .none
  vt : ∀ i, 0 ≤ i → i < n * k → t.vt i ≠ .none
  s : ∀ i, 0 ≤ i → i < k → t.s i ≠ .none

omit [LinearOrder T] in
theorem prod_congr_rows {m n : Int} {A S S' : Int → Int → T} (h : ∀ i j, 0 ≤ i → i < n → S i j = S' i j) (q : Nat) :
    prodEntry n A (gramPower m n A S q) = prodEntry n A (gramPower m n A S' q) := by
  induction q with
  | zero => funext i j; exact sum_congr rfl fun l hl => by rw [mem_range] at hl; simp only [gramPower]; rw [h l j (by omega) (by omega)]
  | succ q ih => simp only [gramPower, ih]

theorem qb_part {sched : List Nat} {G : Gen N K W T} (hG : G.Ok) {sqrt3 : T} {env : Int → Env T} (henv : ∀ i, EnvOk (env i))
    {orth : Int → Int → (Int → Int → T) → (Int → Int → T)} {tau : T} {seed : RNGState N K} {m n k p : Int} {t : LrSt T} {L : List (Entry T)}
    (hA : LowRankData t.A L m n) (ht : LrAlloc m n k t) (hk : 1 ≤ k) (hkm : k ≤ m) (hkn : k < n) (hp : 0 ≤ p) (hfit : max m n * k ≤ intMax 64) (hom : OrthFor orth m k)
    (hon : OrthFor orth n k) {D : DenseDist} (hD : mkDenseDist (if p % 2 = 0 then n else m) k .Gaussian .Long = .ok D) {S0 : Int → Int → T}
    (hS0 : S0 = if p % 2 = 0 then denseEntry G sqrt3 D seed else prodEntry m (fun i j => toMat L j i) (denseEntry G sqrt3 D seed)) :
    M.wp (qbDecompose env orth tau (qbFill sched G sqrt3 n k seed) (qbFill sched G sqrt3 m k seed) m n k p (max m n)) ⟨t.A, t.u, t.vt, Buf.alloc T (max m n)⟩ (fun _ t' =>
      ∃ Q B, HoldsC t'.q m m k Q ∧ HoldsC t'.b k k n B ∧ OrthoCols m k Q ∧
      (∀ i j, InR k n i j → B i j = prodEntry m (fun i j => Q j i) (toMat L) i j) ∧
      (∃ R, ∀ i j, InR m k i j → prodEntry n (toMat L) (gramPower m n (toMat L) S0 (p / 2).toNat) i j = prodEntry k Q R i j) ∧
      ((∃ X, ∀ i j, InR m n i j → toMat L i j = prodEntry k (prodEntry n (toMat L) S0) X i j) → ∀ i j, InR m n i j → prodEntry k Q B i j = toMat L i j) ∧
      SameObject t.A t'.A ∧ (∃ L', SpHolds t'.A L' ∧ L'.Perm L)) := by
  have hmn : m * k ≤ max m n * k ∧ n * k ≤ max m n * k := ⟨mul_le_mul_of_nonneg_right (le_max_left _ _) (by omega), mul_le_mul_of_nonneg_right (le_max_right _ _) (by omega)⟩
  have hn0 : 0 < n := by omega
  have hm0 : 0 < m := by omega
  obtain ⟨DB, hDB⟩ : ∃ D, mkDenseDist n k .Gaussian .Long = .ok D := ⟨_, mkDenseDist_eq hn0 (by omega)⟩
  obtain ⟨DQ, hDQ⟩ : ∃ D, mkDenseDist m k .Gaussian .Long = .ok D := ⟨_, mkDenseDist_eq hm0 (by omega)⟩
  have fB := qbFill_fills (sched := sched) hG (sqrt3 := sqrt3) hk hkn.le (by omega) hDB seed
  have fQ := qbFill_fills (sched := sched) hG (sqrt3 := sqrt3) hk hkm (by omega) hDQ seed
  have hread : ∀ (D' : DenseDist) (r : Int), 0 < r → ∀ i j, 0 ≤ i → i < r → denseEntry G sqrt3 D' seed ((i + j * r) % r) ((i + j * r) / r) = denseEntry G sqrt3 D' seed i j := by
    intro D' r hr i j h0 h1
    rw [Int.add_mul_emod_self_right, Int.emod_eq_of_lt h0 h1, Int.add_mul_ediv_right _ _ hr.ne', Int.ediv_eq_zero_of_lt h0 h1, zero_add]
  refine M.wp_mono (C71_qb_partial henv (t := ⟨t.A, t.u, t.vt, Buf.alloc T (max m n)⟩) hA.holds hA.base hA.range hA.rows hA.cols hA.sup hA.supT hk hkm hkn.le hp le_rfl hom hon fB fQ ht.u ht.vt
    (fun i h0 h1 => by dsimp only; rw [Buf.alloc, if_pos ⟨h0, h1⟩]; simp) _ rfl) ?_
  rintro _ t' ⟨Q, B, h1, h2, h3, h4, h5, h6, h7, h8, -⟩
  have hrow : ∀ i j, 0 ≤ i → i < n → (if p % 2 = 0 then fun i j => denseEntry G sqrt3 DB seed ((i + j * n) % n) ((i + j * n) / n)
      else prodEntry m (fun i j => toMat L j i) fun i j => denseEntry G sqrt3 DQ seed ((i + j * m) % m) ((i + j * m) / m)) i j = S0 i j := by
    intro i j hi hj
    rw [hS0]
    by_cases hp : p % 2 = 0
    · simp only [if_pos hp] at hD ⊢
      rw [hDB] at hD; cases hD
      exact hread D n hn0 i j hi hj
    · simp only [if_neg hp] at hD ⊢
      rw [hDQ] at hD; cases hD
      exact sum_congr rfl fun l hl => by rw [mem_range] at hl; exact congrArg _ (hread D m hm0 l j (by omega) (by omega))
  rw [prod_congr_rows hrow] at h5
  rw [show ∀ S : Int → Int → T, prodEntry n (toMat L) S = prodEntry n (toMat L) (gramPower m n (toMat L) S 0) from fun _ => rfl, prod_congr_rows hrow] at h6
  exact ⟨Q, B, h1, h2, h3, h4, h5, h6, h7, h8⟩

/-- C86 (the computation). For all words that a generator may yield, `qb_decompose_sparse_matrix` followed by `qb_to_svd` with a work array of a suitable size returns a singular value
decomposition of rank k of `Q Qᵀ A`, where `Q` has orthonormal columns whose span contains that of `A (AᵀA)^q S0`. Here `S0` is the sample, or its product with
`Aᵀ`. The decomposition is one of `A` itself if the columns of `A S0` span those of `A`. -/
theorem C86_run_partial {sched : List Nat} {G : Gen N K W T} (hG : G.Ok) {sqrt3 : T} {env : Int → Env T} (henv : ∀ i, EnvOk (env i))
    {orth : Int → Int → (Int → Int → T) → (Int → Int → T)} {svd : Int → Int → (Int → Int → T) → Svd T} {tau : T} {seed : RNGState N K} {m n k p wk : Int} {t : LrSt T} {L : List (Entry T)}
    (hA : LowRankData t.A L m n) (ht : LrAlloc m n k t) (hk : 1 ≤ k) (hkm : k ≤ m) (hkn : k < n) (hp : 0 ≤ p) (hfit : max m n * k ≤ intMax 64) (hom : OrthFor orth m k)
    (hon : OrthFor orth n k) (hsvd : ∀ B, SvdFor svd k n B) (hw : k * k ≤ wk) (hw2 : wk < m * k + k * k ∨ m * k + k * k + k ≤ wk)
    {D : DenseDist} (hD : mkDenseDist (if p % 2 = 0 then n else m) k .Gaussian .Long = .ok D) {S0 : Int → Int → T}
    (hS0 : S0 = if p % 2 = 0 then denseEntry G sqrt3 D seed else prodEntry m (fun i j => toMat L j i) (denseEntry G sqrt3 D seed)) :
    M.wp (lowRankSvd sched G sqrt3 env orth svd tau seed m n k p wk) t (fun _ t' =>
      ∃ F Q, HoldsC t'.u m m k F.u ∧ HoldsVec t'.s k F.s ∧ HoldsC t'.vt k k n F.vt ∧ OrthoCols m k Q ∧
      RankSvdIs m n k (prodEntry k Q (prodEntry m (fun i j => Q j i) (toMat L))) F ∧
      (∃ R, ∀ i j, InR m k i j → prodEntry n (toMat L) (gramPower m n (toMat L) S0 (p / 2).toNat) i j = prodEntry k Q R i j) ∧
      ((∃ X, ∀ i j, InR m n i j → toMat L i j = prodEntry k (prodEntry n (toMat L) S0) X i j) → RankSvdIs m n k (toMat L) F) ∧
      SameObject t.A t'.A ∧ (∃ L', SpHolds t'.A L' ∧ L'.Perm L)) := by
  unfold lowRankSvd
  rw [M.wp_bind, M.wp_zoom]
  refine M.wp_mono (qb_part hG henv hA ht hk hkm hkn hp hfit hom hon hD hS0) ?_
  rintro _ ⟨A', q', b', w'⟩ ⟨Q, B, h1, h2, h3, h4, h5, h6, h7, h8⟩
  rw [M.wp_zoom]
  refine M.wp_mono (C72_qb_to_svd_partial (t := ⟨q', t.s, b', Buf.alloc T wk⟩) hk hkn (by omega) le_rfl le_rfl h1 h2 h3 ht.s
    (fun i h0 h1 => by dsimp only; rw [Buf.alloc, if_pos ⟨h0, h1⟩]; simp) (hsvd B) hw hw2) ?_
  rintro _ ⟨u'', s'', b'', w''⟩ ⟨F, g1, g2, g3, g4, -⟩
  have hQB : ∀ i j, InR m n i j → prodEntry k Q B i j = prodEntry k Q (prodEntry m (fun i j => Q j i) (toMat L)) i j := fun i j hij =>
    sum_congr rfl fun l hl => by rw [mem_range] at hl; rw [h4 l j ⟨by omega, by omega, hij.2.2.1, hij.2.2.2⟩]
  exact ⟨F, Q, g1, g2, g3, h3, ⟨g4.orthoU, g4.orthoV, g4.nonneg, g4.sorted, fun i j hij => (g4.prod i j hij).trans (hQB i j hij)⟩, h5,
    fun hX => ⟨g4.orthoU, g4.orthoV, g4.nonneg, g4.sorted, fun i j hij => (g4.prod i j hij).trans (h6 hX i j hij)⟩, h7, h8⟩

/-- C86 (the programs as they are). The work array for `qb_to_svd` has m k + k² elements in both programs: for all words the programs write past its end. -/
theorem C86_main_undefined {sched : List Nat} {G : Gen N K W T} (hG : G.Ok) {sqrt3 : T} {env : Int → Env T} (henv : ∀ i, EnvOk (env i))
    {orth : Int → Int → (Int → Int → T) → (Int → Int → T)} {svd : Int → Int → (Int → Int → T) → Svd T} {tau : T} {seed : RNGState N K} {m n k p : Int} {t : LrSt T} {L : List (Entry T)}
    (hA : LowRankData t.A L m n) (ht : LrAlloc m n k t) (hk : 1 ≤ k) (hkm : k ≤ m) (hkn : k < n) (hp : 0 ≤ p) (hfit : max m n * k ≤ intMax 64) (hom : OrthFor orth m k)
    (hon : OrthFor orth n k) : M.Undef (lowRankSvd sched G sqrt3 env orth svd tau seed m n k p (m * k + k * k)) t := by
  unfold lowRankSvd
  refine M.Undef.after ?_
  rw [M.wp_zoom]
  refine M.wp_mono (qb_part (sqrt3 := sqrt3) hG henv hA ht hk hkm hkn hp hfit hom hon (mkDenseDist_eq (by split_ifs <;> omega) (by omega)) rfl) ?_
  rintro _ ⟨A', q', b', w'⟩ ⟨Q, B, h1, h2, -⟩
  refine M.Undef.zoom ?_
  exact C72_main_undefined hk hkn (by omega) h1 h2 ht.s

end

/-! ## The fraction of the words -/

theorem le_of_forall_eps {c K : ℝ} (hK : 0 ≤ K) (h : ∀ ε : ℝ, 0 < ε → ε < 1 → c ≤ K / ε ^ 2) : c ≤ K := by
  by_contra hlt
  push Not at hlt
  have hc0 : 0 < c := lt_of_le_of_lt hK hlt
  have h1 : K / c < 1 := (div_lt_one hc0).2 hlt
  have h0 : 0 ≤ K / c := by positivity
  have h2 := h ((K / c + 1) / 2) (by linarith) (by linarith)
  rw [le_div_iff₀ (by positivity)] at h2
  have hx : K = K / c * c := by field_simp
  generalize K / c = x at *
  have h3 : x < ((x + 1) / 2) ^ 2 := by nlinarith [sq_nonneg (x - 1), sq_pos_of_pos (sub_pos.2 h1)]
  nlinarith

theorem rankLe_T {r m n : Int} {A : Int → Int → ℝ} (h : RankLe r m n A) : RankLe r n m (fun j i => A i j) := by
  obtain ⟨F, C, h⟩ := h
  exact ⟨fun j k => C k j, fun k i => F i k, fun i j hij => (h j i ⟨hij.2.2.1, hij.2.2.2, hij.1, hij.2.1⟩).trans (sum_congr rfl fun _ _ => mul_comm _ _)⟩

/-- The samples embed the column space of an `rows x c` matrix of rank `r`, for most choices of the words. -/
theorem sample_embeds [NeZero N] [Fintype W] [Nonempty W] {L : Nat} [NeZero L] {G : Gen N K W ℝ} (hG : G.Ok) (hL : G.len = L) {v w : ℝ} (hwd : WordsOk G .Gaussian v w)
    {rows k : Int} (hk : 1 ≤ k) (hr : 1 ≤ rows) (hfit : rows * k ≤ intMax 64) (hN : rows * k ≤ N) {D : DenseDist} (hD : mkDenseDist rows k .Gaussian .Long = .ok D) (seed : RNGState N K)
    {c r : Int} (hr0 : 0 ≤ r) {A : Int → Int → ℝ} (hrank : RankLe r rows c A) {ε : ℝ} (hε : 0 < ε) :
    (({ω | ¬ Embeds ε rows k c A (fun i j => ∑ l ∈ range rows.toNat, Real.sqrt (1 / k) * denseEntry (fromWords G ω) (Real.sqrt 3) D seed l i * A l j)} : Set (ZMod N × ZMod L → W)).ncard : ℝ) /
      Fintype.card (ZMod N × ZMod L → W) ≤ (r : ℝ) ^ 2 * (w * (1 + 2 / k) - 2 * v + 1) / ε ^ 2 ∧ 0 ≤ w * (1 + 2 / k) - 2 * v + 1 := by
  obtain ⟨⟨τ0, τ1, hsym⟩, hv, hw, hvw⟩ := hwd
  have hDok := denseDistOk_of_mk hD hfit
  obtain ⟨e1, e2, e3⟩ : D.nRows = rows ∧ D.nCols = k ∧ D.family = .Gaussian := by
    rw [mkDenseDist_eq (by omega) (by omega)] at hD; cases hD; exact ⟨rfl, rfl, rfl⟩
  have hk' : (0 : ℝ) < k := by exact_mod_cast (by omega : (0 : Int) < k)
  have hsam : ∀ ω : ZMod N × ZMod L → W, Samples (fromWords G ω) (Real.sqrt 3) D seed (denseEntry (fromWords G ω) (Real.sqrt 3) D seed) :=
    fun ω => samples_denseEntry (G := fromWords G ω) hG hDok
  have h0 : 0 ≤ w * (1 + 2 / k) - 2 * v + 1 := by
    have h1 : 0 ≤ w := (sq_nonneg v).trans hvw
    have h2 : 0 ≤ w * (2 / k) := mul_nonneg h1 (by positivity)
    nlinarith [sq_nonneg (v - 1)]
  rw [← e3] at hsym hv hw
  have key := fun x => (C82_moments (op := .Trans) (ro := 0) (co := 0) hG hL hDok (by rw [e1, e2]; exact hN) hsym hv hw hvw hsam (d := k) (m := rows) (by omega) (by omega)
    (by rw [e1, e2]; simp [InOp, rowsOf, colsOf]) (alpha := Real.sqrt (1 / k)) (Real.mul_self_sqrt (by positivity)) x).2
  simp only [mul_sum, ← mul_assoc, subMat_zero] at key
  refine ⟨embeds_of_moments hr0 h0 (P := fun ω i l => Real.sqrt (1 / k) * denseEntry (fromWords G ω) (Real.sqrt 3) D seed l i) (fun x => ?_) hrank hε, h0⟩
  exact key x

/-- C86 (exactness). If `A` has rank at most `r`, then for all but a fraction `r² (w (1 + 2/k) - 2 v + 1)` of the choices of the words, the computation returns a singular value
decomposition of rank k of `A` itself. For the exact conversions of words (C83_words) this is about `2 r² / k`. -/
theorem C86_exact_partial [NeZero N] [Fintype W] [Nonempty W] {Lw : Nat} [NeZero Lw] {sched : List Nat} {G : Gen N K W ℝ} (hG : G.Ok) (hL : G.len = Lw) {v w : ℝ} (hwd : WordsOk G .Gaussian v w)
    {env : Int → Env ℝ} (henv : ∀ i, EnvOk (env i)) {orth : Int → Int → (Int → Int → ℝ) → (Int → Int → ℝ)} {svd : Int → Int → (Int → Int → ℝ) → Svd ℝ} {tau : ℝ}
    {seed : RNGState N K} {m n k p wk : Int} {t : LrSt ℝ} {L : List (Entry ℝ)}
    (hA : LowRankData t.A L m n) (ht : LrAlloc m n k t) (hk : 1 ≤ k) (hkm : k ≤ m) (hkn : k < n) (hp : 0 ≤ p) (hfit : max m n * k ≤ intMax 64) (hN : max m n * k ≤ N)
    (hom : OrthFor orth m k) (hon : OrthFor orth n k) (hsvd : ∀ B, SvdFor svd k n B) (hw : k * k ≤ wk) (hw2 : wk < m * k + k * k ∨ m * k + k * k + k ≤ wk)
    {r : Int} (hr : 0 ≤ r) (hrank : RankLe r m n (toMat L)) :
    ({ω : ZMod N × ZMod Lw → W | ¬ M.wp (lowRankSvd sched (fromWords G ω) (Real.sqrt 3) env orth svd tau seed m n k p wk) t (fun _ t' =>
        ∃ F, RankSvdIs m n k (toMat L) F ∧ HoldsC t'.u m m k F.u ∧ HoldsVec t'.s k F.s ∧ HoldsC t'.vt k k n F.vt)}.ncard : ℝ) / Fintype.card (ZMod N × ZMod Lw → W) ≤
      (r : ℝ) ^ 2 * (w * (1 + 2 / k) - 2 * v + 1) := by
  have hmn : m * k ≤ max m n * k ∧ n * k ≤ max m n * k := ⟨mul_le_mul_of_nonneg_right (le_max_left _ _) (by omega), mul_le_mul_of_nonneg_right (le_max_right _ _) (by omega)⟩
  obtain ⟨D, hD⟩ : ∃ D, mkDenseDist (if p % 2 = 0 then n else m) k .Gaussian .Long = .ok D := ⟨_, mkDenseDist_eq (by split_ifs <;> omega) (by omega)⟩
  have hcard : (0 : ℝ) < Fintype.card (ZMod N × ZMod Lw → W) := by exact_mod_cast Fintype.card_pos
  have main : ∀ (bad : ℝ → Set (ZMod N × ZMod Lw → W)),
      (∀ ε, 0 < ε → ((bad ε).ncard : ℝ) / Fintype.card (ZMod N × ZMod Lw → W) ≤ (r : ℝ) ^ 2 * (w * (1 + 2 / k) - 2 * v + 1) / ε ^ 2 ∧ 0 ≤ w * (1 + 2 / k) - 2 * v + 1) →
      (∀ ε ω, ε < 1 → ω ∉ bad ε → ∃ X, ∀ i j, InR m n i j → toMat L i j = prodEntry k (prodEntry n (toMat L) (if p % 2 = 0 then denseEntry (fromWords G ω) (Real.sqrt 3) D seed
        else prodEntry m (fun i j => toMat L j i) (denseEntry (fromWords G ω) (Real.sqrt 3) D seed))) X i j) →
      ({ω : ZMod N × ZMod Lw → W | ¬ M.wp (lowRankSvd sched (fromWords G ω) (Real.sqrt 3) env orth svd tau seed m n k p wk) t (fun _ t' =>
        ∃ F, RankSvdIs m n k (toMat L) F ∧ HoldsC t'.u m m k F.u ∧ HoldsVec t'.s k F.s ∧ HoldsC t'.vt k k n F.vt)}.ncard : ℝ) / Fintype.card (ZMod N × ZMod Lw → W) ≤
      (r : ℝ) ^ 2 * (w * (1 + 2 / k) - 2 * v + 1) := by
    intro bad h1 h2
    refine le_of_forall_eps (mul_nonneg (sq_nonneg _) (h1 1 one_pos).2) fun ε h0 h1' => le_trans ?_ (h1 ε h0).1
    refine div_le_div_of_nonneg_right ?_ hcard.le
    rw [Nat.cast_le]
    refine Set.ncard_le_ncard (fun ω hω => ?_) (Set.toFinite _)
    by_contra hg
    refine hω (M.wp_mono (C86_run_partial (G := fromWords G ω) hG henv hA ht hk hkm hkn hp hfit hom hon hsvd hw hw2 hD rfl) ?_)
    rintro _ t' ⟨F, Q, g1, g2, g3, -, -, -, g4, -⟩
    exact ⟨F, g4 (h2 ε ω h1' hg), g1, g2, g3⟩
  by_cases hpe : p % 2 = 0
  · simp only [if_pos hpe] at hD main
    refine main _ (fun ε hε => sample_embeds hG hL hwd hk (by omega) (by omega) (by omega) hD seed hr (rankLe_T hrank) hε) fun ε ω hε hω => ?_
    simp only [Set.mem_ofPred_eq, not_not] at hω
    exact factor_even hε hω
  · simp only [if_neg hpe] at hD main
    refine main _ (fun ε hε => sample_embeds hG hL hwd hk (by omega) (by omega) (by omega) hD seed hr hrank hε) fun ε ω hε hω => ?_
    simp only [Set.mem_ofPred_eq, not_not] at hω
    exact factor_odd hε hω

/-- A 40 x 50 COO matrix of rank 1 with two entries. -/
theorem exLowRank_data : LowRankData (.coo (cooOf 40 50 .Zero [⟨2, 1, 5⟩, ⟨2, 3, (4 : ℝ)⟩])) [⟨2, 1, 5⟩, ⟨2, 3, 4⟩] 40 50 := by
  refine ⟨⟨cooOf_is _ _ _ _, trivial⟩, rfl, by simp [InRange], rfl, rfl, Or.inl ⟨by decide, fun _ _ => ?_⟩, Or.inl ⟨by decide, fun _ _ => ?_⟩⟩
  · exact ⟨⟨2, 1, 5⟩, by simp, by decide⟩
  · exact ⟨⟨1, 2, 5⟩, by simp [Entry.swap], by decide⟩

theorem exLowRank_alloc (A : SpMat ℝ) : LrAlloc 40 50 30 ⟨A, Buf.alloc ℝ 1200, Buf.alloc ℝ 1500, Buf.alloc ℝ 30⟩ :=
  have hal : ∀ N : Int, ∀ i, 0 ≤ i → i < N → Buf.alloc ℝ N i ≠ .none := fun N i h0 h1 => by simp [Buf.alloc, h0, h1]
  ⟨hal _, hal _, hal _⟩

/-- The hypotheses of C86 are met by this matrix, k = 30, p = 2 and a work array of 900 elements, and the fraction is less than 1/10. With the size that the programs use, 2100, the
behaviour is undefined. -/
example : ∃ orth svd, ({ω : ZMod (2 ^ 128) × ZMod 4 → Fin (4 * 2 ^ 30) | ¬ M.wp (lowRankSvd [3, 1] (fromWords midGenR ω) (Real.sqrt 3)
        (fun _ => ⟨fun lt l => l.mergeSort fun a b => !lt b a, [], 4⟩) orth svd 0 ⟨0, 7⟩ 40 50 30 2 900)
        ⟨.coo (cooOf 40 50 .Zero [⟨2, 1, 5⟩, ⟨2, 3, (4 : ℝ)⟩]), Buf.alloc ℝ 1200, Buf.alloc ℝ 1500, Buf.alloc ℝ 30⟩ (fun _ t' =>
        ∃ F, RankSvdIs 40 50 30 (toMat [⟨2, 1, 5⟩, ⟨2, 3, (4 : ℝ)⟩]) F ∧ HoldsC t'.u 40 40 30 F.u ∧ HoldsVec t'.s 30 F.s ∧ HoldsC t'.vt 30 30 50 F.vt)}.ncard : ℝ) /
        Fintype.card (ZMod (2 ^ 128) × ZMod 4 → Fin (4 * 2 ^ 30)) ≤ 1 / 10 ∧
      ∀ ω : ZMod (2 ^ 128) × ZMod 4 → Fin (4 * 2 ^ 30), M.Undef (lowRankSvd [3, 1] (fromWords midGenR ω) (Real.sqrt 3)
        (fun _ => ⟨fun lt l => l.mergeSort fun a b => !lt b a, [], 4⟩) orth svd 0 ⟨0, 7⟩ 40 50 30 2 2100)
        ⟨.coo (cooOf 40 50 .Zero [⟨2, 1, 5⟩, ⟨2, 3, (4 : ℝ)⟩]), Buf.alloc ℝ 1200, Buf.alloc ℝ 1500, Buf.alloc ℝ 30⟩ := by
  obtain ⟨svd, hsvd⟩ := exists_svdFor
  obtain ⟨orth, ho⟩ := exists_orthFor
  refine ⟨orth, svd, ?_, fun ω => C86_main_undefined (G := fromWords midGenR ω) (Or.inr rfl) (fun _ => ⟨mergeSort_sortOk, by norm_num⟩) exLowRank_data (exLowRank_alloc _) (by decide) (by decide)
    (by decide) (by decide) (by decide) (ho _ _ (by decide)) (ho _ _ (by decide))⟩
  obtain ⟨-, v, hv1, hv2, hw⟩ := C83_words (G := midGenR) (m8 := 2 ^ 29) (Mw := 4 * 2 ^ 30) (by norm_num) (by norm_num) (Equiv.refl _) (Equiv.refl _)
      (fun w => by simp only [midGenR, Equiv.refl_apply]; ring) (fun _ _ => rfl)
  refine (C86_exact_partial (N := 2 ^ 128) (Lw := 4) (G := midGenR) (Or.inr rfl) rfl hw (fun _ => ⟨mergeSort_sortOk, by norm_num⟩) exLowRank_data (exLowRank_alloc _) (by decide) (by decide)
    (by decide) (by decide) (by decide) (by decide) (ho _ _ (by decide)) (ho _ _ (by decide)) (fun B => hsvd _ _ B) (by decide) (by decide) (r := 1) (by decide)
    ⟨fun i _ => if i = 2 then 1 else 0, fun _ j => toMat [⟨2, 1, 5⟩, ⟨2, 3, 4⟩] 2 j, fun i j _ => ?_⟩).trans ?_
  · by_cases h : i = 2
    · simp [h]
    · simp [h, toMat, Ne.symm h]
  have hl : Real.log (2 * ((4 * 2 ^ 30 : Nat) : ℝ)) ≤ 33 := by
    rw [show (2 : ℝ) * ((4 * 2 ^ 30 : Nat) : ℝ) = 2 ^ 33 by norm_num, Real.log_pow]
    have := Real.log_le_sub_one_of_pos (by norm_num : (0 : ℝ) < 2)
    push_cast
    linarith
  have hv3 : 1 - (2 + 33) / (2 * ((4 * 2 ^ 30 : Nat) : ℝ)) ≤ v := by
    refine le_trans (sub_le_sub_left (div_le_div_of_nonneg_right (by linarith) (by positivity)) _) hv1
  norm_num at hv3 ⊢
  linarith

end RB
