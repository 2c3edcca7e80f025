import Verif.Lemmas.Sketch
import Verif.Lemmas.SafeInt
import Verif.Core.ParOutcome

/-! # Filling windows that start before the operator's first row and column

`first_block_start` is a truncated remainder: it is negative if the position of the window's first entry is, and then `fill_dense_submat_impl` reads
before the start of a block of random numbers. -/

namespace RB
open Spec
variable {N : Nat} {K W T : Type}

/-- The array returned by `OP::generate` has no elements at negative positions. -/
theorem generate_neg {G : Gen N K W T} (hG : G.Ok) (family : ScalarDist) (c : ZMod N) (k : K) :
    ∃ b, G.generate family c k = .ok b ∧ ∀ i < 0, ∀ v, b i ≠ .val v := by
  have hlen : 0 ≤ G.len ∧ G.len % 2 = 0 := by rcases hG with h | h <;> rw [h] <;> decide
  cases family with
  | Uniform =>
    refine ⟨_, rfl, fun i h0 v => ?_⟩
    simp [Buf.ofFn, show ¬ 0 ≤ i by omega]
  | Gaussian =>
    obtain ⟨u, b, hb, hrow⟩ := boxmulall_spec (T := T) (bm := G.boxmuller) (w := G.word c k) hlen.1 hlen.2
    refine ⟨b, ?_, fun i h0 v => ?_⟩
    · simp only [Gen.generate, Gen.boxmulGenerate, Gen.words]; rw [hb]
    · rw [hrow i, if_neg (by omega)]
      unfold Buf.alloc
      rw [if_neg (by omega)]
      simp

/-- A vector whose first number would be read before the start of its block. -/
theorem fillRow_bad {gen : ZMod N → K → Res (Buf T)} {L : Int} {c : ZMod N} {k : K} {lda stride fs fl cs ce ls row : Int} {one : Prop} [Decidable one]
    (hgen : ∀ c, ∃ a, gen c k = .ok a ∧ ∀ i < 0, ∀ v, a i ≠ .val v) (hs : ∃ v, safeIntProduct stride row = .ok v) (hfs : fs < 0) (hfl : 0 < fl) :
    (fillRow gen L c k lda stride fs fl cs ce ls one row).All fun _ => False := by
  obtain ⟨v, hv⟩ := hs
  obtain ⟨a, ha, hneg⟩ := hgen (ctrIncr c v)
  unfold fillRow
  refine Prog.All.bind (P := fun w => w = v) (Prog.All.lift (fun w h => ?_) (fun e => by rw [hv]; simp)) ?_
  · rw [hv] at h; exact (Res.ok.inj h).symm
  rintro w rfl
  refine Prog.All.bind (P := fun b => b = a) (Prog.All.lift (fun w h => ?_) (fun e => by rw [ha]; simp)) ?_
  · rw [ha] at h; exact (Res.ok.inj h).symm
  rintro w rfl
  refine Prog.All.bind (P := fun _ => False) (Prog.All.forI_bad (i := 0) (fun i _ _ => ?_) le_rfl hfl ?_) (fun _ h => h.elim)
  · exact Prog.All.bind Prog.All.liftRd fun _ _ => Prog.All.store trivial
  · exact Prog.All.bind (P := fun _ => False) (Prog.All.bad (hneg _ (by omega))) fun _ h => h.elim

/-- The first block of a vector is not empty. -/
theorem firstLen_pos {L p n : Int} (hL : 0 < L) (hn : 0 < n) :
    0 < (if p.tdiv L = (p + n - 1).tdiv L then (p + n - 1).tmod L + 1 else L) - p.tmod L := by
  have h1 := Int.mul_tdiv_add_tmod p L
  have h2 := Int.mul_tdiv_add_tmod (p + n - 1) L
  split_ifs with h
  · rw [h] at h1; omega
  · have := Int.tmod_lt_of_pos p hL; omega

/-- The position of the first entry in the padded order, if neither offset is positive. -/
theorem padded_neg {L nCols v o : Int} (hL : 0 < L) (hn : 0 < nCols) (hv : v ≤ 0) (ho : o ≤ 0) (ho' : -nCols < o) :
    v * nCols + o + (v * nCols + o).tdiv nCols * (if nCols.tmod L ≠ 0 then L - nCols.tmod L else 0) = L * (countersPerVector L nCols * v) + o := by
  have hpad := pad_div (n := nCols) hL
  rw [Int.tmod_eq_emod_of_nonneg hn.le]
  have hd : (v * nCols + o).tdiv nCols = v := by
    have e : v * nCols + o = -((-o) + nCols * (-v)) := by ring
    rw [e, Int.neg_tdiv, Int.tdiv_eq_ediv_of_nonneg (by nlinarith), Int.add_mul_ediv_left _ _ (by omega), Int.ediv_eq_zero_of_lt (by omega) (by omega)]
    omega
  rw [hd]
  generalize (if nCols % L ≠ 0 then L - nCols % L else 0) = pad at hpad
  rw [show v * nCols + o + v * pad = (nCols + pad) * v + o by ring, hpad]; ring

/-- Filling a window with entries whose first entry is at a negative position that is not a multiple of the block length: undefined. -/
theorem fillSubmat_neg_undef {sched : List Nat} {gen : ZMod N → K → Res (Buf T)} {L nCols nSrows nScols v o : Int} {seed : RNGState N K} {b : Buf T} (hL : 0 < L)
    (hgen : ∀ c, ∃ a, gen c seed.key = .ok a ∧ ∀ i < 0, ∀ v, a i ≠ .val v) (hn : 0 < nCols) (hr : 0 < nSrows) (hc : 0 < nScols) (hfit' : nScols ≤ nCols)
    (hfit : countersPerVector L nCols * nSrows ≤ intMax 64) (hv : v ≤ 0) (ho : o ≤ 0) (ho' : -nCols < o) (hd : ¬ L ∣ o) :
    M.Undef (fillDenseSubmatImpl sched gen L nCols nSrows nScols (v * nCols + o) seed 0) b := by
  unfold fillDenseSubmatImpl
  refine M.Undef.after (M.wp_require.mpr ⟨Or.inl (le_refl 0), ?_⟩)
  refine M.Undef.after (M.wp_require.mpr ⟨by omega, ?_⟩)
  refine M.Undef.after (M.wp_ubIf.mpr ⟨by omega, ?_⟩)
  rw [padded_neg hL hn hv ho ho']
  refine M.Undef.bind ?_
  have hneg : (L * (countersPerVector L nCols * v) + o).tmod L < 0 := by
    have hcv := countersPerVector_nonneg (n := nCols) hL hn.le
    have h0 : countersPerVector L nCols * v ≤ 0 := mul_nonpos_of_nonneg_of_nonpos hcv hv
    have h1 : 0 ≤ (-(L * (countersPerVector L nCols * v) + o)) := by nlinarith
    have h2 : (L * (countersPerVector L nCols * v) + o).tmod L = -((-(L * (countersPerVector L nCols * v) + o)).tmod L) := by rw [Int.neg_tmod, neg_neg]
    rw [h2, Int.tmod_eq_emod_of_nonneg h1]
    have h3 := Int.emod_nonneg (-(L * (countersPerVector L nCols * v) + o)) (show L ≠ 0 by omega)
    have h4 : (-(L * (countersPerVector L nCols * v) + o)) % L ≠ 0 := by
      intro h
      have := Int.dvd_of_emod_eq_zero h
      rw [dvd_neg] at this
      exact hd ((Int.dvd_add_right (dvd_mul_right L _)).mp this)
    omega
  generalize L * (countersPerVector L nCols * v) + o = p at hneg ⊢
  refine parForI_undef (j := 0) (fun j h0 h1 => Prog.All.mono (P := fun _ => False) ?_ fun _ h => h.elim) le_rfl hr ?_ sched b
  · exact fillRow_bad hgen (stride_ok hL hn hfit h0 h1) hneg (firstLen_pos hL hc)
  · exact fillRow_bad hgen (stride_ok hL hn hfit le_rfl hr) hneg (firstLen_pos hL hc)

/-- The offset along the vectors of an operator: the column offset if its natural layout is row-major, the row offset otherwise. -/
def majorOffset (D : DenseDist) (ro co : Int) : Int := if D.naturalLayout = .ColMajor then ro else co

theorem fillUnpacked_neg_undef [Mul T] {sched : List Nat} {G : Gen N K W T} {sqrt3 : T} {layout : Layout} {D : DenseDist} {m n ro co : Int} {seed : RNGState N K}
    {b : Buf T} (hG : G.Ok) (hD : DenseDistOk D) (hm : 0 < m) (hn : 0 < n) (hmR : m ≤ D.nRows) (hnC : n ≤ D.nCols) (hro : -D.nRows < ro) (hro0 : ro ≤ 0)
    (hco : -D.nCols < co) (hco0 : co ≤ 0) (hd : ¬ G.len ∣ majorOffset D ro co) : M.Undef (fillDenseUnpacked sched G sqrt3 layout D m n ro co seed) b := by
  obtain ⟨hR, hC, hfit, hlay⟩ := denseDist_facts hD
  have hlen : 0 < G.len := by rcases hG with h | h <;> rw [h] <;> decide
  have hgen : ∀ c, ∃ a, G.generate D.family c seed.key = .ok a ∧ ∀ i < 0, ∀ v, a i ≠ .val v := fun c => generate_neg hG D.family c seed.key
  have hmin : intMin 64 = -intMax 64 - 1 := by decide
  unfold fillDenseUnpacked
  refine M.Undef.after (M.wp_require.mpr ⟨by omega, ?_⟩)
  refine M.Undef.after (M.wp_require.mpr ⟨by omega, ?_⟩)
  refine M.Undef.after ?_
  rw [M.wp_lift]
  have hRmax : D.nRows ≤ intMax 64 := by nlinarith
  have hCmax : D.nCols ≤ intMax 64 := by nlinarith
  unfold majorOffset at hd
  rcases hlay with ⟨hl, hmaj, -⟩ | ⟨hl, hmaj, -⟩
  · simp only [hl, if_true, hmaj] at hd ⊢
    refine ⟨_, safeIntProductM_ok ⟨by omega, by omega⟩ ⟨by omega, by omega⟩ ⟨by nlinarith, by nlinarith⟩, ?_⟩
    rw [show ro + co * D.nRows = co * D.nRows + ro by ring]
    refine M.Undef.bind (fillSubmat_neg_undef hlen hgen hR hn hm hmR ?_ hco0 hro0 hro hd)
    have h1 := countersPerVector_le (n := D.nRows) (L := G.len) (by omega) (by omega)
    have h0 := countersPerVector_nonneg (n := D.nRows) (L := G.len) (by omega) (by omega)
    nlinarith
  · simp only [hl, reduceCtorEq, if_false, hmaj] at hd ⊢
    refine ⟨_, safeIntProductM_ok ⟨by omega, by omega⟩ ⟨by omega, by omega⟩ ⟨by nlinarith, by nlinarith⟩, ?_⟩
    refine M.Undef.bind (fillSubmat_neg_undef hlen hgen hC hm hn hnC ?_ hro0 hco0 hco hd)
    have h1 := countersPerVector_le (n := D.nCols) (L := G.len) (by omega) (by omega)
    have h0 := countersPerVector_nonneg (n := D.nCols) (L := G.len) (by omega) (by omega)
    nlinarith

theorem submatrixAsBlackbox_neg_undef [Mul T] {sched : List Nat} {G : Gen N K W T} {sqrt3 : T} {S : DenseSkOp N K T} {r c ro co : Int}
    (hG : G.Ok) (hD : DenseDistOk S.dist) (hr : S.nRows = S.dist.nRows) (hc : S.nCols = S.dist.nCols) (hr0 : 0 < r) (hc0 : 0 < c) (hrR : r ≤ S.nRows) (hcC : c ≤ S.nCols)
    (hro : -S.nRows < ro) (hro0 : ro ≤ 0) (hco : -S.nCols < co) (hco0 : co ≤ 0) (hd : ¬ G.len ∣ majorOffset S.dist ro co) :
    submatrixAsBlackbox sched G sqrt3 S r c ro co = .ub := by
  have hu := fillUnpacked_neg_undef (sched := sched) (sqrt3 := sqrt3) (layout := S.layout) (seed := S.seedState) (b := Buf.alloc T (r * c)) hG hD hr0 hc0
    (by omega) (by omega) (by omega) hro0 (by omega) hco0 hd
  unfold M.Undef at hu
  unfold submatrixAsBlackbox
  have := mul_pos hr0 hc0
  rw [if_neg (by omega)]
  rcases hf : fillDenseUnpacked sched G sqrt3 S.layout S.dist r c ro co S.seedState (Buf.alloc T (r * c)) with ⟨x, b⟩
  rw [hf] at hu
  simp only at hu
  subst hu
  simp [Res.require, show ro + r ≤ S.nRows by omega, show co + c ≤ S.nCols by omega]

end RB
