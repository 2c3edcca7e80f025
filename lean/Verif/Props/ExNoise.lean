import Verif.Props.ExSignal
import Verif.Props.Dense
import Verif.Props.DenseSparse
import Verif.Props.SumCoo
import Verif.Props.Independence
import Verif.Props.IsometryLong
import Verif.Props.IsometryDense

/-! # C107 and C108: the noise matrix of the low-rank example, and the whole test matrix -/

namespace RB
open Spec Finset

variable {N L : Nat} {K W R T : Type}

section
variable [Field T]

/-- The operator that `iid_sparsify_random_dense` samples: what `fill_dense` writes, position by position. -/
theorem fillUnif_spec {sched : List Nat} {G : Gen N K W T} {sqrt3 : T} {m n : Int} {seed : RNGState N K} {b : Buf T} {D : DenseDist} (hG : G.Ok) (hm : 0 < m)
    (hn : 0 < n) (hmn : m * n ≤ intMax 64) (hD : mkDenseDist m n .Uniform .Long = .ok D) (hal : ∀ p, 0 ≤ p → p < m * n → b p ≠ .none) :
    M.wp (fillDense sched G sqrt3 D seed) b (fun s b' => s = afterDense G m n seed ∧
      ∀ p, 0 ≤ p → p < m * n → b' p = .val (sqrt3 * flatUnif G m n seed p)) := by
  rw [mkDenseDist_eq hm hn] at hD
  have hD := Res.ok.inj hD
  simp only [if_true] at hD
  have hok : DenseDistOk D := by
    rw [← hD]
    exact ⟨by rw [mkDenseDist_eq hm hn]; rfl, hmn⟩
  have e1 : D.nRows = m := by rw [← hD]
  have e2 : D.nCols = n := by rw [← hD]
  have e3 : D.dimMajor = max m n := by rw [← hD]
  have e4 : D.family = .Uniform := by rw [← hD]
  have e5 : D.naturalLayout = if m < n then .RowMajor else .ColMajor := by
    rw [← hD]
    simp only [naturalLayout, and_true, if_true]
    split_ifs <;> rfl
  unfold fillDense
  rw [e1, e2]
  refine M.wp_mono (fillUnpacked_spec hG hok hm hn (le_refl 0) (le_refl 0) (by omega) (by omega) hal) ?_
  rintro ⟨c, k⟩ b' ⟨h1, -, h2, h3⟩
  simp only at h2 h3
  by_cases hlt : m < n
  · rw [if_pos hlt] at e5
    simp only [e5, e3, Int.zero_ediv, add_zero, zero_add] at h1 h3
    refine ⟨?_, fun p p0 p1 => ?_⟩
    · unfold afterDense
      rw [h2, h3, min_eq_left hlt.le]
    · unfold tightLd at h1
      rw [holds_rowMajor_tight hn] at h1
      rw [h1 p p0 p1]
      unfold denseEntry flatUnif
      simp only [e5, e4, famScale, e3]
      rw [max_eq_right hlt.le]
  · rw [if_neg hlt] at e5
    simp only [e5, e3, Int.zero_ediv, add_zero, zero_add] at h1 h3
    refine ⟨?_, fun p p0 p1 => ?_⟩
    · unfold afterDense
      rw [h2, h3, min_eq_right (by omega)]
    · unfold tightLd at h1
      rw [show Layout.ColMajor = Layout.RowMajor.flip from rfl, holds_flip, show Layout.RowMajor.flip = Layout.ColMajor from rfl] at h1
      simp only at h1
      rw [holds_rowMajor_tight hm] at h1
      rw [h1 p p0 (by rwa [mul_comm])]
      unfold denseEntry flatUnif
      simp only [e5, e4, famScale, e3]
      rw [max_eq_left (by omega)]

variable [LinearOrder T]

/-- One entry of `iid_sparsify_random_dense`. -/
theorem sparsifyEntry_spec [IsStrictOrderedRing T] {sqrt3 p x y : T} {m sr sc i j : Int} {spar temp b : Buf T} (h3 : sqrt3 * sqrt3 = 3) (hx : spar (i + j * m) = .val (sqrt3 * x))
    (hy : temp (i + j * m) = .val (sqrt3 * y)) (hb : b (i * sr + j * sc) ≠ .none) :
    M.wp (sparsifyEntry sqrt3 p m sr sc spar temp i j) b (fun _ b' =>
      b' = b.set (i * sr + j * sc) (if 3 * ((x + 1) / 2) < p then 0 else sqrt3 * y)) := by
  unfold sparsifyEntry
  have e : (sqrt3 * x + sqrt3) / 2 * sqrt3 = 3 * ((x + 1) / 2) := by
    rw [← h3]; ring
  simp only [M.wp_bind, M.wp_lift]
  refine ⟨_, Buf.rd_val hx, ?_⟩
  rw [e]
  split_ifs with h
  · rw [M.wp_wr]
    exact ⟨hb, rfl⟩
  · simp only [M.wp_bind, M.wp_lift]
    refine ⟨_, Buf.rd_val hy, ?_⟩
    rw [M.wp_wr]
    exact ⟨hb, rfl⟩

/-- The matrix that `iid_sparsify_random_dense` makes. -/
def Spec.sparsified (G : Gen N K W T) (sqrt3 p : T) (m n : Int) (seed : RNGState N K) (i j : Int) : T :=
  if 3 * ((flatUnif G m n seed (i + j * m) + 1) / 2) < p then 0 else sqrt3 * flatUnif G m n (afterDense G m n seed) (i + j * m)

theorem flat_bounds {m n i j : Int} (h : InR m n i j) : 0 ≤ i + j * m ∧ i + j * m < m * n := by
  obtain ⟨h0, h1, h2, h3⟩ := h
  exact ⟨add_nonneg h0 (mul_nonneg h2 (by omega)), by nlinarith⟩

/-- C107. `iid_sparsify_random_dense` samples two uniform operators, one after the other. Entry (i, j) is zero if `(x + 1) / 2` from the first is below a
THIRD of `prob_of_zero`, and otherwise it is the entry of the second. Nothing outside the matrix changes. Missing: the threshold is `prob_of_zero`. -/
theorem C107_entries_partial [IsStrictOrderedRing T] {s1 s2 : List Nat} {G : Gen N K W T} {sqrt3 p : T} {m n sr sc : Int} {seed : RNGState N K} {b : Buf T} (hG : G.Ok)
    (h3 : sqrt3 * sqrt3 = 3) (hm : 0 < m) (hn : 0 < n) (hmn : m * n ≤ intMax 64) (hi : StrInj sr sc m n) (hal : StrAlloc b sr sc m n) :
    M.wp (iidSparsify s1 s2 G sqrt3 m n sr sc p seed) b (fun _ b' => StrHolds b' sr sc m n (sparsified G sqrt3 p m n seed) ∧ StrSame b b' sr sc m n) := by
  unfold iidSparsify
  rw [if_neg (not_lt.mpr (mul_pos hm hn).le)]
  have hfr : ∀ p, 0 ≤ p → p < m * n → Buf.alloc T (m * n) p ≠ .none := fun p h0 h1 => by
    unfold Buf.alloc
    rw [if_pos ⟨h0, h1⟩]
    exact fun h => nomatch h
  simp only [M.wp_bind, M.wp_lift]
  refine ⟨_, mkDenseDist_eq hm hn, ?_⟩
  rw [M.wp_onLocal]
  refine M.wp_mono (fillUnif_spec hG hm hn hmn (mkDenseDist_eq hm hn) hfr) ?_
  rintro _ spar ⟨rfl, hx⟩
  simp only
  rw [M.wp_onLocal]
  refine M.wp_mono (fillUnif_spec hG hm hn hmn (mkDenseDist_eq hm hn) hfr) ?_
  rintro _ temp ⟨-, hy⟩
  simp only
  refine M.wp_forI (fun i0 b' => (∀ i j, InR m n i j → b' (i * sr + j * sc) = if i < i0 then .val (sparsified G sqrt3 p m n seed i j) else b (i * sr + j * sc)) ∧
    StrSame b b' sr sc m n) hm.le ⟨fun i j h => by rw [if_neg (by have := h.1; omega)], fun _ _ => rfl⟩ ?_ ?_
  · rintro i0 b1 i00 i01 ⟨g1, g2⟩
    refine M.wp_forI (fun j0 b' => (∀ i j, InR m n i j → b' (i * sr + j * sc) =
      if i < i0 ∨ (i = i0 ∧ j < j0) then .val (sparsified G sqrt3 p m n seed i j) else b (i * sr + j * sc)) ∧ StrSame b b' sr sc m n) hn.le ?_ ?_ ?_
    · refine ⟨fun i j h => ?_, g2⟩
      rw [g1 i j h]
      refine if_congr ?_ rfl rfl
      have := h.2.2.1
      omega
    · rintro j0 b2 j00 j01 ⟨f1, f2⟩
      have hij : InR m n i0 j0 := ⟨i00, i01, j00, j01⟩
      obtain ⟨q0, q1⟩ := flat_bounds hij
      have hb2 : b2 (i0 * sr + j0 * sc) ≠ .none := by
        rw [f1 i0 j0 hij, if_neg (by omega)]
        exact hal i0 j0 hij
      refine M.wp_mono (sparsifyEntry_spec h3 (hx _ q0 q1) (hy _ q0 q1) hb2) ?_
      rintro - _ rfl
      refine ⟨fun i j h => ?_, fun q hq => ?_⟩
      · by_cases he : i = i0 ∧ j = j0
        · obtain ⟨rfl, rfl⟩ := he
          exact Buf.set_same.trans (if_pos (Or.inr ⟨rfl, by omega⟩)).symm
        · rw [Buf.set_ne (fun e => he (hi _ _ _ _ h hij e)), f1 i j h]
          exact if_congr (by omega) rfl rfl
      · rw [Buf.set_ne (hq i0 j0 hij)]
        exact f2 q hq
    · rintro b3 ⟨f1, f2⟩
      refine ⟨fun i j h => ?_, f2⟩
      rw [f1 i j h]
      refine if_congr ?_ rfl rfl
      have := h.2.2.2
      omega
  · rintro b' ⟨g1, g2⟩
    refine ⟨fun i j h => ?_, g2⟩
    rw [g1 i j h, if_pos h.2.1]

omit [Field T] [LinearOrder T] in
/-- The array that the noise is kept in. -/
theorem strHolds_col {b : Buf T} {m n : Int} {F : Int → Int → T} (h : StrHolds b 1 m m n F) {p : Int} (hm : 0 < m) (h0 : 0 ≤ p) (h1 : p < m * n) :
    b (0 + p * 1) = .val (F (p % m) (p / m)) := by
  have e := Int.mul_ediv_add_emod p m
  rw [← h (p % m) (p / m) ⟨Int.emod_nonneg _ hm.ne', Int.emod_lt_of_pos _ hm, Int.ediv_nonneg h0 hm.le, Int.ediv_lt_of_lt_mul hm (by rwa [mul_comm])⟩]
  congr 1
  rw [mul_comm (p / m)]
  omega

theorem strInj_col {m n : Int} : StrInj 1 m m n := by
  rintro i j i' j' ⟨h0, h1, h2, h3⟩ ⟨g0, g1, g2, g3⟩ e
  rw [mul_one, mul_one] at e
  have a : ∀ x y : Int, 0 ≤ x → x < m → (x + y * m) / m = y := fun x y x0 x1 => by
    rw [Int.add_mul_ediv_right _ _ (by omega), Int.ediv_eq_zero_of_lt x0 x1, zero_add]
  have b := a i j h0 h1
  rw [e, a i' j' g0 g1] at b
  subst b
  exact ⟨by omega, rfl⟩

/-- C107. `make_noise_matrix`: the dense and the sparse noise are the same matrix, `noise_scale` times that of `iid_sparsify_random_dense` with
`prob_of_zero = 1 - prob_of_nonzero`. The sparse matrix holds exactly its nonzeros, each once. -/
theorem C107_noise [IsStrictOrderedRing T] {s1 s2 : List Nat} {G : Gen N K W T} {sqrt3 scale q : T} {m n : Int} {seed : RNGState N K}
    {t : Buf T × CooMat T} (hG : G.Ok) (h3 : sqrt3 * sqrt3 = 3) (hm : 0 < m) (hn : 0 < n) (hmn : m * n ≤ intMax 64)
    (hal : ∀ p, 0 ≤ p → p < m * n → t.1 p ≠ .none) (hs : t.2 = mkCoo m n) :
    M.wp (makeNoise s1 s2 G sqrt3 scale m n q seed) t (fun _ t' => ∃ E, Holds t'.1 .ColMajor m m n (fun i j => scale * sparsified G sqrt3 (1 - q) m n seed i j) ∧
      (∀ p, ¬ (0 ≤ p ∧ p < m * n) → t'.1 p = t.1 p) ∧
      CooIs t'.2 E ∧ t'.2.nRows = m ∧ t'.2.nCols = n ∧ t'.2.indexBase = .Zero ∧ SortedBy .CSR E ∧ (E.map Entry.pos).Nodup ∧ InRange m n E ∧
      (∀ e ∈ E, e.val ≠ 0) ∧ ∀ i j, InR m n i j → toMat E i j = scale * sparsified G sqrt3 (1 - q) m n seed i j) := by
  obtain ⟨b, A⟩ := t
  simp only at hal hs
  subst hs
  unfold makeNoise
  simp only [M.wp_bind, M.wp_zoom, M.wp_get]
  have hal' : StrAlloc b 1 m m n := fun i j h => by
    obtain ⟨a0, a1⟩ := flat_bounds h
    rw [mul_one]
    exact hal _ a0 a1
  refine M.wp_mono (C107_entries_partial hG h3 hm hn hmn strInj_col hal') ?_
  rintro - b1 ⟨f1, f2⟩
  refine M.wp_mono (blasScal_spec (mul_pos hm hn).le one_pos fun p h0 h1 => strHolds_col f1 hm h0 h1) ?_
  rintro - b2 ⟨g1, g2⟩
  have hb2 : StrHolds b2 1 m m n (fun i j => scale * sparsified G sqrt3 (1 - q) m n seed i j) := by
    intro i j h
    obtain ⟨a0, a1⟩ := flat_bounds h
    have := g1 _ a0 a1
    rw [zero_add, mul_one] at this
    rw [mul_one, this]
    have e1 : (i + j * m) % m = i := by rw [Int.add_mul_emod_self_right, Int.emod_eq_of_lt h.1 h.2.1]
    have e2 : (i + j * m) / m = j := by rw [Int.add_mul_ediv_right _ _ hm.ne', Int.ediv_eq_zero_of_lt h.1 h.2.1, zero_add]
    rw [e1, e2]
  have hout : ∀ p, ¬ (0 ≤ p ∧ p < m * n) → b2 p = b p := by
    intro p hp
    rw [g2 p fun i h0 h1 e => hp (by omega), f2 p fun i j h e => hp (by have := flat_bounds h; omega)]
  show M.wp (denseToCoo .ColMajor b2 0) (mkCoo m n) _
  unfold denseToCoo
  simp only [M.wp_bind, M.wp_get, if_true]
  refine M.wp_mono (C28_dense_to_coo (A := mkCoo m n) ⟨rfl, rfl, rfl, rfl, rfl⟩ hm.le hn.le 0 hb2) ?_
  rintro - A' ⟨E, k1, k2, k3, k4, k5, k6, -⟩
  refine ⟨E, ?_, hout, k2, k4, k5, k6, k3, k1.nodup, ?_, ?_, ?_⟩
  · intro i j h
    have := hb2 i j h
    rw [mul_one] at this
    exact this
  · intro e he
    exact ((k1.mem e).mp he).1
  · intro e he h0
    have := ((k1.mem e).mp he).2.2
    rw [h0, abs_zero] at this
    exact lt_irrefl _ this
  · intro i j h
    rw [← overwrite_eq_toMat k1.nodup, C28_kept_matrix k1 h]
    split_ifs with h'
    · rfl
    · exact (abs_eq_zero.mp (le_antisymm (not_lt.mp h') (abs_nonneg _))).symm

end

/-! ## Probabilities -/

section
variable [NeZero N] [NeZero L] [Fintype W]

/-- The place that the word for position `p` comes from. -/
def flatPt (L : Nat) (m n : Int) (seed : RNGState N K) (p : Int) : ZMod N × ZMod L :=
  (seed.counter + ((p / max m n * countersPerVector L (max m n) + p % max m n / L : Int) : ZMod N), ((p % max m n % L : Int) : ZMod L))

omit [NeZero N] [NeZero L] [Fintype W] in
theorem flatUnif_words {G : Gen N K W T} {m n : Int} {seed : RNGState N K} (hl : G.len = L) (ω : ZMod N × ZMod L → W) (p : Int) :
    flatUnif (fromWords G ω) m n seed p = G.uneg11 (ω (flatPt L m n seed p)) := by
  unfold flatUnif denseRaw genValue fromWords flatPt
  simp only [hl]

omit [Fintype W] in
theorem flatPt_inj {m n : Int} {seed : RNGState N K} (hm : 0 < m) (hN : min m n * countersPerVector L (max m n) ≤ N) {p p' : Int} (h0 : 0 ≤ p)
    (h1 : p < m * n) (h0' : 0 ≤ p') (h1' : p' < m * n) (e : flatPt L m n seed p = flatPt L m n seed p') : p = p' := by
  have hL0 := NeZero.pos L
  have hM : 0 < max m n := lt_max_of_lt_left hm
  have hq : ∀ p, 0 ≤ p → p < m * n → p / max m n < min m n := fun p h0 h1 =>
    Int.ediv_lt_of_lt_mul hM (by rw [mul_comm, max_mul_min]; exact h1)
  obtain ⟨e1, e2⟩ := Prod.mk.inj e
  let D : DenseDist := ⟨m, n, .Long, max m n, min m n, .Uniform, .ColMajor⟩
  obtain ⟨a, b⟩ := denseCtr_inj (D := D) (s := seed) hL0 hN (Int.ediv_nonneg h0 hM.le) (hq p h0 h1) (Int.emod_nonneg _ hM.ne') (Int.emod_lt_of_pos _ hM)
    (Int.ediv_nonneg h0' hM.le) (hq p' h0' h1') (Int.emod_nonneg _ hM.ne') (Int.emod_lt_of_pos _ hM) e1
  have e3 := (ZMod.intCast_eq_intCast_iff _ _ _).mp e2
  unfold Int.ModEq at e3
  rw [Int.emod_emod_of_dvd _ (dvd_refl _), Int.emod_emod_of_dvd _ (dvd_refl _)] at e3
  have t1 := Int.mul_ediv_add_emod (p % max m n) L
  have t2 := Int.mul_ediv_add_emod (p' % max m n) L
  rw [b, e3, t2] at t1
  have t3 := Int.mul_ediv_add_emod p (max m n)
  have t4 := Int.mul_ediv_add_emod p' (max m n)
  rw [a, ← t1, t4] at t3
  exact t3.symm

/-- C107. If all words of the generator are independent and uniform, then the events that entries of the matrix are zero are independent, and each has
the probability that `3 * (x + 1) / 2 < prob_of_zero` for the value `x` of one word. -/
theorem C107_zero_events [Nonempty W] {s1 s2 : List Nat} {G : Gen N K W ℝ} {p : ℝ} {m n sr sc : Int} {seed : RNGState N K} {b : Buf ℝ} (hG : G.Ok) (hl : G.len = L)
    (hm : 0 < m) (hn : 0 < n) (hmn : m * n ≤ intMax 64) (hi : StrInj sr sc m n) (hal : StrAlloc b sr sc m n) (hnz : ∀ w, G.uneg11 w ≠ 0)
    (hN : min m n * countersPerVector L (max m n) ≤ N) :
    ∃ A : (ZMod N × ZMod L → W) → Int → Int → ℝ,
      (∀ ω, M.wp (iidSparsify s1 s2 (fromWords G ω) (Real.sqrt 3) m n sr sc p seed) b (fun _ b' => StrHolds b' sr sc m n (A ω))) ∧
      ∀ Z : Finset (Int × Int), (∀ z ∈ Z, InR m n z.1 z.2) →
        Pr (fun ω => ∀ z ∈ Z, A ω z.1 z.2 = 0) = ∏ _z ∈ Z, Pr (fun w : W => 3 * ((G.uneg11 w + 1) / 2) < p) := by
  have h3 : Real.sqrt 3 * Real.sqrt 3 = 3 := Real.mul_self_sqrt (by norm_num)
  refine ⟨fun ω => sparsified (fromWords G ω) (Real.sqrt 3) p m n seed, fun ω => ?_, fun Z hZ => ?_⟩
  · exact M.wp_mono (C107_entries_partial (show (fromWords G ω).Ok from hG) h3 hm hn hmn hi hal) fun _ _ h => h.1
  · have hev : ∀ ω i j, sparsified (fromWords G ω) (Real.sqrt 3) p m n seed i j = 0 ↔
        3 * ((G.uneg11 (ω (flatPt L m n seed (i + j * m))) + 1) / 2) < p := by
      intro ω i j
      unfold sparsified
      rw [flatUnif_words hl, flatUnif_words hl]
      split_ifs with h
      · exact ⟨fun _ => h, fun _ => rfl⟩
      · exact ⟨fun e => absurd e (mul_ne_zero (by positivity) (hnz _)), fun e => absurd e h⟩
    simp only [hev]
    rw [pr_forall (W := W) Z (S := fun z x => x = flatPt L m n seed (z.1 + z.2 * m))
      (p := fun z ω => 3 * ((G.uneg11 (ω (flatPt L m n seed (z.1 + z.2 * m))) + 1) / 2) < p)]
    · exact prod_congr rfl fun z _ => pr_eval (flatPt L m n seed (z.1 + z.2 * m)) fun w => 3 * ((G.uneg11 w + 1) / 2) < p
    · intro z _ ω ω' h
      beta_reduce
      rw [h _ rfl]
    · intro z hz z' hz' hne x hx hx'
      obtain ⟨a0, a1⟩ := flat_bounds (hZ z hz)
      obtain ⟨b0, b1⟩ := flat_bounds (hZ z' hz')
      have e := flatPt_inj hm hN a0 a1 b0 b1 (hx.symm.trans hx')
      obtain ⟨c1, c2⟩ := strInj_col _ _ _ _ (hZ z hz) (hZ z' hz') (by rw [mul_one, mul_one]; exact e)
      exact hne (Prod.ext c1 c2)

end

/-- The number of midpoints `(k + 1/2) / M` below `c`. -/
theorem card_midpoints {M : Nat} {c : ℝ} (hM : 0 < M) (h0 : 0 ≤ c) (h1 : c ≤ 1) :
    |((univ.filter fun k : Fin M => ((k : ℕ) + 1 / 2 : ℝ) / M < c).card : ℝ) - M * c| ≤ 1 / 2 := by
  have hMr : (0 : ℝ) < M := by exact_mod_cast hM
  have hset : (univ.filter fun k : Fin M => ((k : ℕ) + 1 / 2 : ℝ) / M < c) = univ.filter fun k : Fin M => (k : ℕ) < ⌈(M : ℝ) * c - 1 / 2⌉₊ := by
    ext k
    simp only [mem_filter, mem_univ, true_and]
    rw [Nat.lt_ceil, div_lt_iff₀ hMr]
    constructor <;> intro h <;> linarith
  have hle : ⌈(M : ℝ) * c - 1 / 2⌉₊ ≤ M := by
    rw [Nat.ceil_le]
    nlinarith
  rw [hset, Fin.card_filter_val_lt, min_eq_right hle, abs_le]
  constructor
  · have := Nat.le_ceil ((M : ℝ) * c - 1 / 2)
    linarith
  · by_cases hx : (M : ℝ) * c - 1 / 2 ≤ 0
    · rw [Nat.ceil_eq_zero.mpr hx]
      have := mul_nonneg hMr.le h0
      push_cast
      linarith
    · have := Nat.ceil_lt_add_one (not_le.mp hx).le
      linarith

/-- The probability of a zero if the words are mapped to the midpoints of `M` intervals of [-1, 1]: within 1 / (2 M) of a THIRD of `prob_of_zero`. -/
theorem zeroProb_near {W : Type} [Fintype W] {G : Gen N K W ℝ} {M : Nat} (hM : 0 < M) (e : W ≃ Fin M)
    (hw : ∀ w, (G.uneg11 w + 1) / 2 = ((e w : ℕ) + 1 / 2 : ℝ) / M) {p : ℝ} (h0 : 0 ≤ p) (h1 : p ≤ 3) :
    |Pr (fun w : W => 3 * ((G.uneg11 w + 1) / 2) < p) - p / 3| ≤ 1 / (2 * M) := by
  have hMr : (0 : ℝ) < M := by exact_mod_cast hM
  have hpr : Pr (fun w : W => 3 * ((G.uneg11 w + 1) / 2) < p) = Pr (fun k : Fin M => ((k : ℕ) + 1 / 2 : ℝ) / M < p / 3) := by
    rw [← pr_equiv e]
    refine pr_congr fun w => ?_
    rw [hw w]
    constructor <;> intro h <;> linarith
  have hc := card_midpoints (c := p / 3) hM (by linarith) (by linarith)
  rw [hpr, pr_eq, Fintype.card_fin]
  rw [show ∀ x : ℝ, x / M - p / 3 = (x - M * (p / 3)) / M from fun x => by field_simp, abs_div, abs_of_pos hMr, div_le_iff₀ hMr]
  refine le_trans (le_of_eq ?_) (le_trans hc (le_of_eq (by field_simp)))
  congr!

/-- C107 (counterexample, for all sizes and all strides). If all words of the generator are independent and uniform and give the midpoints of `B` intervals
of [-1, 1], then every entry is zero with a probability within 1 / (2 B) of `prob_of_zero / 3`. This is less than `prob_of_zero`, except if that is
below 3 / (4 B). -/
theorem C107_probability_counterexample [NeZero N] [NeZero L] [Fintype W] [Nonempty W] {s1 s2 : List Nat} {G : Gen N K W ℝ} {p : ℝ} {m n sr sc : Int}
    {seed : RNGState N K} {b : Buf ℝ} (hG : G.Ok) (hl : G.len = L) (hm : 0 < m) (hn : 0 < n) (hmn : m * n ≤ intMax 64) (hi : StrInj sr sc m n)
    (hal : StrAlloc b sr sc m n) (hnz : ∀ w, G.uneg11 w ≠ 0) (hN : min m n * countersPerVector L (max m n) ≤ N) {B : Nat} (hB : 0 < B) (e : W ≃ Fin B)
    (hw : ∀ w, (G.uneg11 w + 1) / 2 = ((e w : ℕ) + 1 / 2 : ℝ) / B) (h0 : 0 ≤ p) (h1 : p ≤ 1) :
    ∃ A : (ZMod N × ZMod L → W) → Int → Int → ℝ,
      (∀ ω, M.wp (iidSparsify s1 s2 (fromWords G ω) (Real.sqrt 3) m n sr sc p seed) b (fun _ b' => StrHolds b' sr sc m n (A ω))) ∧
      ∀ i j, InR m n i j → |Pr (fun ω => A ω i j = 0) - p / 3| ≤ 1 / (2 * B) ∧ (3 / (4 * B) < p → Pr (fun ω => A ω i j = 0) < p) := by
  obtain ⟨A, hA, hP⟩ := C107_zero_events (s1 := s1) (s2 := s2) (p := p) (seed := seed) hG hl hm hn hmn hi hal hnz hN
  refine ⟨A, hA, fun i j hij => ?_⟩
  have h := hP {(i, j)} (fun z hz => by rw [mem_singleton] at hz; subst hz; exact hij)
  simp only [mem_singleton, forall_eq, prod_singleton] at h
  have hn := zeroProb_near hB e hw h0 (by linarith)
  rw [h]
  refine ⟨hn, fun hp => ?_⟩
  have hBr : (0 : ℝ) < B := by exact_mod_cast hB
  have := (abs_le.mp hn).2
  rw [div_lt_iff₀ (by positivity)] at hp
  have h2 : 1 / (2 * (B : ℝ)) < 2 * p / 3 := by
    rw [div_lt_iff₀ (by positivity)]
    linarith
  linarith

/-! ## The test matrix -/

section
variable [Field T]

omit [Field T] in
theorem blasCopy_flat {n : Int} {src b : Buf T} {x : Int → T} (hn : 0 ≤ n) (hs : VecIs src n x) (hb : ∀ p, 0 ≤ p → p < n → b p ≠ .none) :
    M.wp (blasCopy n src 0 1 0 1) b (fun _ b' => VecIs b' n x) := by
  unfold blasCopy
  rw [M.wp_bind, wp_blasCheck]
  refine ⟨hn, M.wp_forI (fun i b' => VecIs b' i x ∧ ∀ p, 0 ≤ p → p < n → b' p ≠ .none) hn ⟨fun p h0 h1 => by omega, hb⟩ ?_ fun b' h => h.1⟩
  rintro i b' i0 i1 ⟨h, ha⟩
  simp only [M.wp_bind, M.wp_lift, zero_add, mul_one]
  refine ⟨_, Buf.rd_val (hs i i0 i1), ?_⟩
  rw [M.wp_wr]
  refine ⟨ha i i0 i1, fun p h0 h1 => ?_, fun p h0 h1 => ?_⟩
  · by_cases hp : p = i
    · subst hp
      exact Buf.set_same
    · rw [Buf.set_ne hp]
      exact h p h0 (by omega)
  · by_cases hp : p = i
    · subst hp
      rw [Buf.set_same]
      exact fun e => nomatch e
    · rw [Buf.set_ne hp]
      exact ha p h0 h1

theorem blasAxpy_flat {n : Int} {a : T} {src b : Buf T} {x y : Int → T} (hn : 0 ≤ n) (hs : VecIs src n x) (hb : VecIs b n y) :
    M.wp (blasAxpy n a src 0 1 0 1) b (fun _ b' => VecIs b' n (fun p => y p + a * x p)) := by
  unfold blasAxpy
  rw [M.wp_bind, wp_blasCheck]
  refine ⟨hn, M.wp_forI (fun i b' => VecIs b' n (fun p => if p < i then y p + a * x p else y p)) hn ?_ ?_ ?_⟩
  · intro p h0 h1
    beta_reduce
    rw [if_neg (by omega)]
    exact hb p h0 h1
  · rintro i b' i0 i1 h
    simp only [M.wp_bind, M.wp_lift, zero_add, mul_one]
    refine ⟨_, Buf.rd_val (hs i i0 i1), ?_⟩
    rw [M.wp_rd]
    refine ⟨_, h i i0 i1, ?_⟩
    rw [M.wp_wr]
    refine ⟨h i i0 i1 ▸ (fun e => nomatch e), fun p h0 h1 => ?_⟩
    beta_reduce
    rw [if_neg (lt_irrefl i)]
    by_cases hp : p = i
    · subst hp
      rw [Buf.set_same, if_pos (by omega)]
    · rw [Buf.set_ne hp, h p h0 h1]
      refine congrArg Cell.val ?_
      exact if_congr (by omega) rfl rfl
  · intro b' h p h0 h1
    rw [h p h0 h1]
    exact congrArg Cell.val (if_pos h1)

omit [Field T] in
theorem nnz_le {m n : Int} {E : List (Entry T)} (hm : 0 ≤ m) (hn : 0 ≤ n) (hd : (E.map Entry.pos).Nodup) (hr : InRange m n E) : (E.length : Int) ≤ m * n := by
  have h : (E.map Entry.pos).toFinset ⊆ Ico 0 m ×ˢ Ico 0 n := by
    intro z hz
    rw [List.mem_toFinset, List.mem_map] at hz
    obtain ⟨e, he, rfl⟩ := hz
    obtain ⟨h0, h1, h2, h3⟩ := hr e he
    exact mem_product.mpr ⟨mem_Ico.mpr ⟨h0, h1⟩, mem_Ico.mpr ⟨h2, h3⟩⟩
  have hc := card_le_card h
  rw [List.toFinset_card_of_nodup hd, List.length_map, card_product, Int.card_Ico, Int.card_Ico] at hc
  have : ((m - 0).toNat : Int) * ((n - 0).toNat : Int) = m * n := by rw [Int.toNat_of_nonneg (by omega), Int.toNat_of_nonneg (by omega), sub_zero, sub_zero]
  rw [← this]
  exact_mod_cast hc

variable [LinearOrder T]

/-- C108. The test matrix of `svd_rank1_plus_noise`, in dense and in sparse form: the same noise matrix plus a multiple of the same `u v^T`, where `u` and
`v` are unit vectors. The multiple is `signal_scale` in the dense form and `vec_nnz` in the sparse form. Missing: the two forms are the same matrix. They
are only if `signal_scale = vec_nnz`. -/
theorem C108_test_matrix_partial [IsStrictOrderedRing T] {s1 s2 : List Nat} {GS : Gen N K W R} {G : Gen N K W T}
    {order : List (Coord × T) → List (Coord × T)} {sqrt : T → T} {sqrt3 scale noise q : T} {m n k : Int} {seed0 seed1 : RNGState N K} (hGS : GS.Ok) (hG : G.Ok)
    (ho : ∀ l, (order l).Perm l) (hk : 0 < k) (hkm : k ≤ m) (hkn : k ≤ n) (hmn : m * n < 2147483648) (hsqrt : sqrt k * sqrt k = k) (h3 : sqrt3 * sqrt3 = 3) :
    M.wp (rank1Data s1 s2 GS G order sqrt sqrt3 scale noise q m n k seed0 seed1) () (fun r _ => ∃ U V E, UnitSign k m U ∧ UnitSign k n V ∧
      VecIs r.signal.u m U ∧ VecIs r.signal.v n V ∧
      Holds r.matDense .ColMajor m m n (fun i j => noise * sparsified G sqrt3 (1 - q) m n seed1 i j + scale * (U i * V j)) ∧
      CooIs r.matSparse E ∧ r.matSparse.nRows = m ∧ r.matSparse.nCols = n ∧ r.matSparse.indexBase = .Zero ∧ (E.map Entry.pos).Nodup ∧
      (∀ i j, InR m n i j → toMat E i j = noise * sparsified G sqrt3 (1 - q) m n seed1 i j + k * (U i * V j)) ∧
      ((∀ i j, InR m n i j → r.matDense (i + j * m) = .val (toMat E i j)) ↔ scale = k)) := by
  have hm : 0 < m := by omega
  have hn : 0 < n := by omega
  have h64 : (2147483648 : Int) ≤ intMax 64 := by decide
  have hkk : k * k ≤ m * n := mul_le_mul hkm hkn hk.le hm.le
  have hmn0 : 0 ≤ m * n := (mul_pos hm hn).le
  unfold rank1Data
  rw [M.wp_bind, M.wp_onLocal]
  have hz : Holds (Buf.fill (m * n) (0 : T)) .ColMajor m m n fun _ _ => 0 := fun i j h => if_pos (flat_bounds h)
  refine M.wp_mono (C106_signal_partial (D := fun _ _ => 0) hGS hk hkm hkn (by omega) hsqrt rfl (fun p h0 h1 => if_pos ⟨h0, h1⟩)
    (fun p h0 h1 => if_pos ⟨h0, h1⟩) hz) ?_
  rintro - sg ⟨U, V, ES, a1, a2, a3, a4, a5, a6, a7, a8, a9, a10, a11, a12, a13, a14⟩
  simp only
  rw [M.wp_bind, M.wp_onLocal]
  refine M.wp_mono (C107_noise (t := (Buf.alloc T (m * n), mkCoo m n)) hG h3 hm hn (by omega) (fun p h0 h1 => by
    show (if _ then _ else _) ≠ _
    rw [if_pos ⟨h0, h1⟩]
    exact fun h => nomatch h) rfl) ?_
  rintro - ns ⟨EN, b1, -, b3, b4, b5, b6, -, b8, b9, -, b11⟩
  simp only
  rw [M.wp_bind, M.wp_onLocal]
  have hEN := nnz_le hm.le hn.le b8 b9
  refine M.wp_mono (C70_sum_partial ho b3 a9 b6 a8 (b4.trans a6.symm) (b5.trans a7.symm) b8 (by omega) (by omega)) ?_
  rintro - sp ⟨E, c1, c2, c3, c4, -, c6, -, c8⟩
  simp only
  have flat : ∀ {b : Buf T} {F : Int → Int → T}, Holds b .ColMajor m m n F → VecIs b (m * n) fun p => F (p % m) (p / m) := by
    intro b F h p h0 h1
    have := strHolds_col (b := b) (F := F) (fun i j hij => by rw [mul_one]; exact h i j hij) hm h0 h1
    rwa [zero_add, mul_one] at this
  rw [M.wp_bind, M.wp_onLocal]
  refine M.wp_mono (blasCopy_flat hmn0 (flat b1) fun p h0 h1 => ?_) ?_
  · show (if _ then _ else _) ≠ _
    rw [if_pos ⟨h0, h1⟩]
    exact fun h => nomatch h
  rintro - d1 e1
  simp only
  rw [M.wp_bind, M.wp_onLocal]
  refine M.wp_mono (blasAxpy_flat hmn0 (flat a5) e1) ?_
  rintro - d2 e2
  simp only [M.wp_pure]
  have hd : Holds d2 .ColMajor m m n (fun i j => noise * sparsified G sqrt3 (1 - q) m n seed1 i j + scale * (U i * V j)) := by
    intro i j h
    obtain ⟨q0, q1⟩ := flat_bounds h
    have f1 : (i + j * m) % m = i := by rw [Int.add_mul_emod_self_right, Int.emod_eq_of_lt h.1 h.2.1]
    have f2 : (i + j * m) / m = j := by rw [Int.add_mul_ediv_right _ _ hm.ne', Int.ediv_eq_zero_of_lt h.1 h.2.1, zero_add]
    have := e2 _ q0 q1
    beta_reduce at this
    rw [f1, f2, zero_add, one_mul] at this
    exact this
  have hsp : ∀ i j, InR m n i j → toMat E i j = noise * sparsified G sqrt3 (1 - q) m n seed1 i j + k * (U i * V j) := by
    intro i j h
    rw [c8, b11 i j h, a13]
  refine ⟨U, V, E, a3, a4, a1, a2, hd, c1, c2.trans b4, c3.trans b5, c4, c6, hsp, ?_⟩
  rw [← a14]
  refine forall_congr' fun i => forall_congr' fun j => imp_congr_right fun h => ?_
  have := hd i j h
  rw [show d2 (i + j * m) = d2 (addr .ColMajor m i j) from rfl, this, hsp i j h, a13]
  simp only [Cell.val.injEq, add_right_inj]
  exact eq_comm

end

/-! ## Matrix Market files -/

/-- What the reader returns for a file of an m x n matrix with the entries `E`. -/
def Spec.tripletsOf (m n : Int) (E : List (Entry T)) : Triplets T := ⟨m, n, E.map Entry.row, E.map Entry.col, E.map Entry.val⟩

theorem tripletAt_map {X : Type} {E : List (Entry T)} {g : Entry T → X} {i : Int} (h0 : 0 ≤ i) (h1 : i.toNat < E.length) :
    tripletAt (E.map g) i = .ok (g E[i.toNat]) := by
  unfold tripletAt
  rw [if_pos h0, List.getElem?_map, List.getElem?_eq_getElem h1]
  rfl

theorem tripletLoop_spec {m n l : Int} {E : List (Entry T)} {b : CooBufs T} (h0 : 0 ≤ l) (hl : l ≤ E.length) (h1 : AllocTo b.vals l) (h2 : AllocTo b.rows l)
    (h3 : AllocTo b.cols l) :
    M.wp (tripletLoop (tripletsOf m n E) l) b (fun _ b' => ∀ (p : Nat) (h : p < E.length), (p : Int) < l →
      b'.vals p = .val E[p].val ∧ b'.rows p = .val E[p].row ∧ b'.cols p = .val E[p].col) := by
  unfold tripletLoop
  refine M.wp_forI (fun i b' => (∀ (p : Nat) (h : p < E.length), (p : Int) < i → b'.vals p = .val E[p].val ∧ b'.rows p = .val E[p].row ∧ b'.cols p = .val E[p].col) ∧
    AllocTo b'.vals l ∧ AllocTo b'.rows l ∧ AllocTo b'.cols l) h0 ⟨fun p _ hp => by omega, h1, h2, h3⟩ ?_ fun b' h => h.1
  rintro i b' i0 i1 ⟨g, g1, g2, g3⟩
  have hi : i.toNat < E.length := by omega
  simp only [M.wp_bind, M.wp_lift, onCRows, onCCols, onCVals, M.wp_zoom, M.wp_wr]
  refine ⟨_, tripletAt_map i0 hi, g2 i i0 i1, _, tripletAt_map i0 hi, g3 i i0 i1, _, tripletAt_map i0 hi, g1 i i0 i1, fun p hp hpi => ?_, allocTo_set g1,
    allocTo_set g2, allocTo_set g3⟩
  by_cases he : (p : Int) = i
  · subst he
    simp only [Int.toNat_natCast]
    exact ⟨Buf.set_same, Buf.set_same, Buf.set_same⟩
  · rw [Buf.set_ne he, Buf.set_ne he, Buf.set_ne he]
    exact g p hp (by omega)

/-- The matrix right before the loop. -/
theorem marketReserve {m n : Int} {E : List (Entry T)} (t : CooMat T) {P : Unit → CooMat T → Prop} (h : P () (if 0 < E.length then
      ⟨m, n, true, E.length, .Zero, some (Buf.alloc T E.length), some (Buf.alloc Int E.length), some (Buf.alloc Int E.length), .None⟩
      else ⟨m, n, true, 0, .Zero, none, none, none, .None⟩)) :
    M.wp (M.set (mkCoo m n)) t fun _ s => M.wp (reserveCoo (E.length : Int)) s P := by
  unfold reserveCoo
  simp only [M.wp_bind, M.wp_set, M.wp_get, M.wp_require, M.wp_modify, M.wp_when]
  refine ⟨rfl, rfl, rfl, rfl, ?_⟩
  by_cases hE : 0 < E.length
  · rw [if_pos hE] at h
    refine ⟨fun _ => h, fun hn => absurd (show (E.length : Int) > 0 by omega) hn⟩
  · rw [if_neg hE] at h
    refine ⟨fun hp => absurd hp (by omega), fun _ => ?_⟩
    have : (E.length : Int) = 0 := by omega
    simp only [this]
    exact h

/-- The loop on the reserved matrix. -/
theorem marketLoop {m n l : Int} {E : List (Entry T)} (h0 : 0 ≤ l) (hl : l ≤ E.length) {A : CooMat T} (hA : A = if 0 < E.length then
      ⟨m, n, true, E.length, .Zero, some (Buf.alloc T E.length), some (Buf.alloc Int E.length), some (Buf.alloc Int E.length), .None⟩
      else ⟨m, n, true, 0, .Zero, none, none, none, .None⟩) :
    M.wp (M.zoom CooMat.bufs CooMat.withBufs (tripletLoop (tripletsOf m n E) l)) A (fun _ A' => A'.nRows = m ∧ A'.nCols = n ∧ A'.indexBase = .Zero ∧
      A'.ownMemory = true ∧ A'.sort = .None ∧ A'.nnz = E.length ∧ (l = E.length → CooIs A' E)) := by
  rw [M.wp_zoom]
  by_cases hE : 0 < E.length
  · rw [if_pos hE] at hA
    subst hA
    have al : ∀ {X : Type}, AllocTo (Buf.alloc X E.length) l := fun p q0 q1 => allocTo_alloc _ p q0 (by omega)
    refine M.wp_mono (tripletLoop_spec h0 hl al al al) ?_
    rintro - b' h
    refine ⟨rfl, rfl, rfl, rfl, rfl, rfl, fun e => ⟨rfl, ?_⟩⟩
    show CooHolds b'.vals b'.rows b'.cols (rebase 0 E)
    rw [rebase_zero]
    exact fun p hp => h p hp (by omega)
  · rw [if_neg hE] at hA
    subst hA
    obtain rfl : E = [] := by cases E with | nil => rfl | cons => simp at hE
    obtain rfl : l = 0 := by simp at hl; omega
    unfold tripletLoop
    rw [M.forI_empty (le_refl 0), M.wp_pure]
    exact ⟨rfl, rfl, rfl, rfl, rfl, rfl, fun _ => ⟨rfl, fun p hp => by simp [rebase] at hp⟩⟩

/-- C109. `from_matrix_market` returns the matrix in the file, entry by entry in the order of the file, zero-based and not marked as sorted. Missing: files
with 2^31 or more entries. -/
theorem C109_matrix_market_partial {m n : Int} {E : List (Entry T)} (hn : E.length < 2147483648) (t : CooMat T) :
    M.wp (fromMatrixMarket (tripletsOf m n E)) t (fun _ A => A.nRows = m ∧ A.nCols = n ∧ A.indexBase = .Zero ∧ A.ownMemory = true ∧ A.sort = .None ∧
      CooIs A E) := by
  unfold fromMatrixMarket
  have e : ((tripletsOf m n E).vals.length : Int) = E.length := by simp [tripletsOf]
  rw [e, min_eq_left (by omega)]
  simp only [M.wp_bind]
  refine marketReserve t ?_
  refine M.wp_mono (marketLoop (by omega) (le_refl _) rfl) ?_
  rintro - A ⟨h1, h2, h3, h4, h5, -, h6⟩
  rw [M.wp_ubIf]
  exact ⟨by omega, h1, h2, h3, h4, h5, h6 rfl⟩

/-- C109. With 2^31 or more entries the loop counter overflows. -/
theorem C109_int_undefined {m n : Int} {E : List (Entry T)} (hn : 2147483648 ≤ E.length) (t : CooMat T) : M.Undef (fromMatrixMarket (tripletsOf m n E)) t := by
  unfold fromMatrixMarket
  have e : ((tripletsOf m n E).vals.length : Int) = E.length := by simp [tripletsOf]
  rw [e]
  refine M.Undef.after (M.wp_mono (marketReserve (m := m) (n := n) (E := E) t (P := fun _ s => _) ?_) fun _ s h => M.Undef.after h)
  refine M.Undef.after (M.wp_mono (marketLoop (by omega) (by omega) rfl) fun _ A _ => ?_)
  unfold M.ubIf
  rw [if_pos (by omega)]
  rfl

/-! ## Examples -/

/-- A file with three entries. -/
example (t : CooMat ℚ) : M.wp (fromMatrixMarket (tripletsOf 3 2 [⟨0, 0, 1⟩, ⟨2, 1, -5⟩, ⟨0, 1, 7 / 2⟩])) t (fun _ A => CooIs A [⟨0, 0, 1⟩, ⟨2, 1, -5⟩, ⟨0, 1, 7 / 2⟩]) :=
  M.wp_mono (C109_matrix_market_partial (by decide) t) fun _ _ h => h.2.2.2.2.2

/-- A file that is too long. -/
example (t : CooMat ℚ) : M.Undef (fromMatrixMarket (tripletsOf 1 1 (List.replicate 2147483648 ⟨0, 0, 1⟩))) t :=
  C109_int_undefined (by rw [List.length_replicate]) t

/-- The hypotheses of C107 hold for a 10000 x 500 matrix with a 32-bit generator and the probability in `main`. -/
example (seed : RNGState (2 ^ 128) Nat) : ∃ A : (ZMod (2 ^ 128) × ZMod 4 → Fin (4 * 2 ^ 30)) → Int → Int → ℝ,
    (∀ ω, M.wp (iidSparsify [] [] (fromWords midGenR ω) (Real.sqrt 3) 10000 500 1 10000 (1 - 1 / 10000) seed) (Buf.alloc ℝ 5000000)
      (fun _ b' => StrHolds b' 1 10000 10000 500 (A ω))) ∧ ∀ i j, InR 10000 500 i j → Pr (fun ω => A ω i j = 0) < 34 / 100 := by
  have hG : midGenR.Ok := Or.inr rfl
  obtain ⟨A, h1, h2⟩ := C107_probability_counterexample (L := 4) (s1 := []) (s2 := []) (G := midGenR) (p := 1 - 1 / 10000) (m := 10000) (n := 500) (sr := 1) (sc := 10000)
    (seed := seed) (b := Buf.alloc ℝ 5000000) hG rfl (by norm_num) (by norm_num) (by decide) strInj_col (fun i j h => by
      obtain ⟨q0, q1⟩ := flat_bounds h
      rw [mul_one]
      show (if _ then _ else _) ≠ _
      rw [if_pos ⟨q0, by simpa using q1⟩]
      exact fun h => nomatch h) (fun w => by
      intro h
      have h' : (2 * (((w : ℕ) : ℝ) + 1 / 2) : ℝ) = ((4 * 2 ^ 30 : ℕ) : ℝ) := by
        have : (2 : ℝ) * ((((w : ℕ) : ℝ) + 1 / 2) / ((4 * 2 ^ 30 : ℕ) : ℝ)) = 1 := by
          have h2 : midGenR.uneg11 w = 2 * ((((w : ℕ) : ℝ) + 1 / 2) / ((4 * 2 ^ 30 : ℕ) : ℝ)) - 1 := rfl
          linarith
        field_simp at this
        push_cast at this ⊢
        linarith
      have h3 : 2 * (w : ℕ) + 1 = 4 * 2 ^ 30 := by
        have : ((2 * (w : ℕ) + 1 : ℕ) : ℝ) = ((4 * 2 ^ 30 : ℕ) : ℝ) := by rw [← h']; push_cast; ring
        exact_mod_cast this
      omega) (by norm_num [countersPerVector]) (B := 4 * 2 ^ 30) (by norm_num) (Equiv.refl _) (fun w => by
      have h2 : midGenR.uneg11 w = 2 * ((((w : ℕ) : ℝ) + 1 / 2) / ((4 * 2 ^ 30 : ℕ) : ℝ)) - 1 := rfl
      rw [h2, Equiv.refl_apply]
      ring) (by norm_num) (by norm_num)
  refine ⟨A, h1, fun i j hij => ?_⟩
  have := (abs_le.mp (h2 i j hij).1).2
  have h3 : (1 : ℝ) / (2 * ((4 * 2 ^ 30 : ℕ) : ℝ)) ≤ 1 / 1000 := by norm_num
  linarith

/-- The test matrix in `main`: the two forms differ. -/
theorem C108_counterexample (order : List (Coord × ℝ) → List (Coord × ℝ)) (ho : ∀ l, (order l).Perm l) (seed0 seed1 : RNGState (2 ^ 128) Nat) :
    M.wp (rank1Data [] [] midGenR midGenR order Real.sqrt (Real.sqrt 3) 100 (1 / 1000000) (1 / 10000) 10000 500 4 seed0 seed1) () (fun r _ => ∃ E, CooIs r.matSparse E ∧
      ¬ ∀ i j, InR 10000 500 i j → r.matDense (i + j * 10000) = .val (toMat E i j)) := by
  refine M.wp_mono (C108_test_matrix_partial (Or.inr rfl) (Or.inr rfl) ho (by norm_num) (by norm_num) (by norm_num) (by norm_num) (Real.mul_self_sqrt (by norm_num))
    (Real.mul_self_sqrt (by norm_num))) ?_
  rintro r - ⟨U, V, E, -, -, -, -, -, h1, -, -, -, -, -, h2⟩
  refine ⟨E, h1, fun h => ?_⟩
  have := h2.1 h
  norm_num at this

end RB
