import Verif.Lemmas.Dense
import Verif.Lemmas.Util
import Verif.Core.Doom
import Verif.Model.TestDenseskop
import Verif.Props.Messages
import Verif.Props.TestCompare

/-!
# Lemmas about the tests of dense operators
-/

namespace RB
open Spec
variable {N : Nat} {K W T : Type}

/-- `fillSubmat_spec` for a window that may run past the end of the rows of the parent matrix: the entries there are the words that follow. -/
theorem fillSubmat_wide {sched : List Nat} {gen : ZMod N → K → Res (Buf T)} {g : ZMod N → Int → T} {L : Int}
    {nCols nSrows nScols ro co : Int} {seed : RNGState N K} {b : Buf T} (hL : 0 < L) (hL2 : L < 2 ^ 63)
    (hgen : ∀ c, ∃ a, gen c seed.key = .ok a ∧ ∀ i, 0 ≤ i → i < L → a i = .val (g c i))
    (hro : 0 ≤ ro) (hco : 0 ≤ co) (hn : 0 < nScols) (hr : 0 ≤ nSrows) (hin1 : co < nCols) (hin : nScols ≤ nCols)
    (hfit : countersPerVector L nCols * (ro + nSrows) ≤ intMax 64)
    (hfit2 : ro * nCols + co ≤ intMax 64)
    (hal : ∀ p, 0 ≤ p → p < nSrows * nScols → b p ≠ .none) :
    M.wp (fillDenseSubmatImpl sched gen L nCols nSrows nScols (ro * nCols + co) seed 0) b (fun s b' =>
      (∀ r j, InR nSrows nScols r j → b' (r * nScols + j) =
        .val (g (seed.counter + (((ro + r) * countersPerVector L nCols + (co + j) / L : Int) : ZMod N)) ((co + j) % L))) ∧
      (∀ p, ¬ (0 ≤ p ∧ p < nSrows * nScols) → b' p = b p) ∧
      s.counter = seed.counter + (((ro + nSrows) * countersPerVector L nCols + co / L : Int) : ZMod N) ∧ s.key = seed.key) := by
  set cv := countersPerVector L nCols with hcv
  have hcv0 : 0 ≤ cv := countersPerVector_nonneg hL (by omega)
  have hmax : intMax 64 = 2 ^ 63 - 1 := by decide
  have hpad := pad_div (n := nCols) hL
  have hptr0 : 0 ≤ ro * nCols + co := by
    have := mul_nonneg hro (show 0 ≤ nCols by omega); omega
  have hptrdiv : (ro * nCols + co).tdiv nCols = ro := by
    rw [Int.tdiv_eq_ediv_of_nonneg hptr0, show ro * nCols + co = co + nCols * ro by ring,
      Int.add_mul_ediv_left _ _ (by omega), Int.ediv_eq_zero_of_lt hco (by omega), zero_add]
  unfold fillDenseSubmatImpl
  simp only [M.wp_bind, M.wp_require, M.wp_ubIf]
  refine ⟨Or.inl (le_refl 0), by omega, by omega, ?_⟩
  rw [if_pos (le_refl (0 : Int)), hptrdiv, Int.tmod_eq_emod_of_nonneg (show 0 ≤ nCols by omega)]
  set pad := (if nCols % L ≠ 0 then L - nCols % L else 0) with hpadd
  set pp := ro * nCols + co + ro * pad with hpp
  have epp : pp = co + L * (ro * cv) := by
    rw [hpp, show ro * nCols + co + ro * pad = co + ro * (nCols + pad) by ring, hpad]; ring
  have hpp0 : 0 ≤ pp := by
    have : 0 ≤ L * (ro * cv) := mul_nonneg (by omega) (mul_nonneg hro hcv0)
    omega
  have estride : (nCols + pad).tdiv L = cv := by
    have hnn : 0 ≤ nCols + pad := by rw [hpad]; exact mul_nonneg (by omega) hcv0
    rw [Int.tdiv_eq_ediv_of_nonneg hnn, hpad, Int.mul_ediv_cancel_left _ (by omega)]
  rw [estride, Int.tdiv_eq_ediv_of_nonneg hpp0, Int.tmod_eq_emod_of_nonneg hpp0,
    Int.tdiv_eq_ediv_of_nonneg (show 0 ≤ pp + nScols - 1 by omega),
    Int.tmod_eq_emod_of_nonneg (show 0 ≤ pp + nScols - 1 by omega)]
  have estart : pp / L = ro * cv + co / L := by
    rw [epp, Int.add_mul_ediv_left _ _ (by omega)]; ring
  have hcoL0 : 0 ≤ co / L := Int.ediv_nonneg hco (by omega)
  have hcoL1 : co / L ≤ co := Int.ediv_le_self _ hco
  have hro_cv : 0 ≤ ro * cv := mul_nonneg hro hcv0
  have hsplit : cv * (ro + nSrows) = ro * cv + nSrows * cv := by ring
  have hns_cv : 0 ≤ nSrows * cv := mul_nonneg hr hcv0
  have hco_le : co ≤ ro * nCols + co := by
    have := mul_nonneg hro (show 0 ≤ nCols by omega); omega
  have hstart_nonneg : 0 ≤ pp / L := by rw [estart]; omega
  have hstart_lt : pp / L < 2 ^ 64 := by rw [estart]; omega
  rw [ctrIncr_eq hstart_nonneg hstart_lt]
  have hval : ∀ r j, InR nSrows nScols r j →
      rowVal g L (seed.counter + ((pp / L : Int) : ZMod N) + ((cv * r : Int) : ZMod N)) (pp % L) j =
      g (seed.counter + (((ro + r) * cv + (co + j) / L : Int) : ZMod N)) ((co + j) % L) := by
    intro r j hrj
    unfold rowVal
    have e1 : pp % L = co % L := by rw [epp, Int.add_mul_emod_self_left]
    have hco := Int.mul_ediv_add_emod co L
    have e2 : co + j = (co % L + j) + L * (co / L) := by omega
    have e3 : (co + j) / L = co / L + (co % L + j) / L := by
      rw [e2, Int.add_mul_ediv_left _ _ (by omega)]; ring
    have e4 : (co + j) % L = (co % L + j) % L := by
      conv_lhs => rw [e2]
      rw [Int.add_mul_emod_self_left]
    rw [e1, e3, e4, estart]
    congr 1
    push_cast; ring
  refine wp_parForI (F := fun r p => r * nScols ≤ p ∧ p < r * nScols + nScols)
    (f := fun r c => ∀ j, 0 ≤ j → j < nScols → c (r * nScols + j) =
        .val (g (seed.counter + (((ro + r) * cv + (co + j) / L : Int) : ZMod N)) ((co + j) % L)))
    ?_ ?_ ?_ ?_ sched ?_
  · intro i j hi0 hi1 hj0 hj1 hij p hp hq
    apply hij
    rcases lt_trichotomy i j with h | h | h
    · nlinarith
    · exact h
    · nlinarith
  · intro i hi0 hi1
    exact fillRow_foot hL hn
  · intro i hi0 hi1 c c' hcc h j hj0 hj1
    rw [← hcc _ ⟨by omega, by omega⟩, h j hj0 hj1]
  · intro r hr0 hr1
    refine M.wp_mono (fillRow_spec hL hgen hpp0 hn hr0 hcv0 ?_ ?_) ?_
    · have h1 : cv * r ≤ cv * (ro + nSrows) := Int.mul_le_mul_of_nonneg_left (by omega) hcv0
      omega
    · intro j hj0 hj1
      apply hal
      · have := mul_nonneg hr0 (show 0 ≤ nScols by omega); omega
      · nlinarith
    · intro _ b' hb' j hj0 hj1
      rw [hb' _, if_pos (by omega), show r * nScols + j - r * nScols = j by ring, hval r j ⟨hr0, hr1, hj0, hj1⟩]
  · intro b' h1 h2
    simp only [M.wp_pure]
    refine ⟨fun r j hrj => h1 r hrj.1 hrj.2.1 j hrj.2.2.1 hrj.2.2.2, fun p hp => ?_, ?_, trivial⟩
    · apply h2
      intro i hi0 hi1 hip
      apply hp
      constructor
      · have := mul_nonneg hi0 (show 0 ≤ nScols by omega); omega
      · nlinarith
    · rw [ctrIncr_eq hns_cv (by omega), estart]
      push_cast; ring


/-- Entry (r, q) of the reference matrix of the tests. -/
def refVal (g : ZMod N → Int → T) (L nCols : Int) (c : ZMod N) (r q : Int) : T :=
  g (c + ((r * countersPerVector L nCols + q / L : Int) : ZMod N)) (q % L)

theorem flat_row {nCols r q : Int} (h0 : 0 ≤ q) (h1 : q < nCols) : (r * nCols + q) / nCols = r ∧ (r * nCols + q) % nCols = q := by
  constructor
  · rw [show r * nCols + q = q + nCols * r by ring, Int.add_mul_ediv_left _ _ (by omega), Int.ediv_eq_zero_of_lt h0 h1, zero_add]
  · rw [show r * nCols + q = q + nCols * r by ring, Int.add_mul_emod_self_left, Int.emod_eq_of_lt h0 h1]

theorem cpv_eq {L n : Int} (hL : 0 < L) : countersPerVector L n = n / L + (if n % L = 0 then 0 else 1) := by
  have h := pad_div (n := n) hL
  have h2 := Int.mul_ediv_add_emod n L
  have : L * countersPerVector L n = L * (n / L + (if n % L = 0 then 0 else 1)) := by
    rw [← h, mul_add]
    split_ifs with h1 h3
    · omega
    · omega
    · omega
  exact mul_left_cancel₀ (by omega) this

/-- What `fill_dense_rmat_trunc` writes. -/
theorem fillRmatTrunc_spec {gen : ZMod N → K → Res (Buf T)} {g : ZMod N → Int → T} {L nRows nCols : Int} {seed : RNGState N K} {b : Buf T} (hL : 0 < L)
    (hgen : ∀ c, ∃ a, gen c seed.key = .ok a ∧ ∀ i, 0 ≤ i → i < L → a i = .val (g c i)) (hr : 0 ≤ nRows) (hc : 0 < nCols)
    (hal : ∀ p, 0 ≤ p → p < nRows * nCols → b p ≠ .none) :
    M.wp (fillRmatTrunc gen L nRows nCols seed) b (fun _ b' => (∀ r q, InR nRows nCols r q → b' (r * nCols + q) = .val (refVal g L nCols seed.counter r q)) ∧
      ∀ p, ¬ (0 ≤ p ∧ p < nRows * nCols) → b' p = b p) := by
  set cv := countersPerVector L nCols with hcv
  set v : Int → T := fun p => refVal g L nCols seed.counter (p / nCols) (p % nCols) with hv
  have vrow : ∀ r q, 0 ≤ q → q < nCols → v (r * nCols + q) = g (seed.counter + ((r * cv + q / L : Int) : ZMod N)) (q % L) := by
    intro r q h0 h1
    rw [hv]; simp only [(flat_row (r := r) h0 h1).1, (flat_row (r := r) h0 h1).2]; rfl
  have hdm := Int.mul_ediv_add_emod nCols L
  have hm0 := Int.emod_nonneg nCols (show L ≠ 0 by omega)
  have hm1 := Int.emod_lt_of_pos nCols hL
  have hd0 : 0 ≤ nCols / L := Int.ediv_nonneg hc.le hL.le
  have inc : ∀ c : ZMod N, ctrIncr c 1 = c + 1 := fun c => by rw [ctrIncr_eq (by omega) (by norm_num)]; simp
  unfold fillRmatTrunc
  simp only [Int.tdiv_eq_ediv_of_nonneg hc.le, Int.tmod_eq_emod_of_nonneg hc.le, M.wp_bind]
  refine M.wp_foldI (fun i st s => st = (seed.counter + ((i * cv : Int) : ZMod N), i * nCols) ∧ RowSt b 0 (i * nCols) v s) hr ⟨by simp, by simpa using RowSt.init b 0 v⟩ ?_ ?_
  · rintro i st s i0 i1 ⟨rfl, hs⟩
    have hi0 : 0 ≤ i * nCols := mul_nonneg i0 hc.le
    have hi1 : i * nCols + nCols ≤ nRows * nCols := by nlinarith
    rw [M.wp_bind]
    refine M.wp_foldI (fun t st s => st = (seed.counter + ((i * cv + t : Int) : ZMod N), i * nCols + t * L) ∧ RowSt b 0 (i * nCols + t * L) v s) hd0
      ⟨by simp, by simpa using hs⟩ ?_ ?_
    · rintro t st s t0 t1 ⟨rfl, hs⟩
      have ht0 : 0 ≤ t * L := mul_nonneg t0 hL.le
      have ht1 : t * L + L ≤ nCols := by nlinarith
      simp only [M.wp_bind, M.wp_lift]
      obtain ⟨a, ha, hav⟩ := hgen (seed.counter + ((i * cv + t : Int) : ZMod N))
      refine ⟨a, ha, ?_⟩
      refine M.wp_foldI (fun j ind s => ind = i * nCols + t * L + j ∧ RowSt b 0 (i * nCols + t * L + j) v s) hL.le ⟨by ring, by simpa using hs⟩ ?_ ?_
      · rintro j ind s j0 j1 ⟨rfl, hs⟩
        simp only [M.wp_bind, M.wp_lift, M.wp_pure]
        refine ⟨_, Buf.rd_val (hav j j0 j1), ?_⟩
        rw [M.wp_wr]
        refine ⟨hs.alloc (hal _ (by omega) (by omega)), by ring, ?_⟩
        have := hs.step (by omega)
        rw [zero_add, show i * nCols + t * L + j = i * nCols + (t * L + j) by ring, vrow i (t * L + j) (by omega) (by omega),
          show t * L + j = j + L * t by ring, Int.add_mul_ediv_left _ _ (by omega), Int.add_mul_emod_self_left, Int.ediv_eq_zero_of_lt j0 j1, Int.emod_eq_of_lt j0 j1, zero_add] at this
        rw [show i * nCols + t * L + (j + 1) = i * nCols + (j + L * t) + 1 by ring, show i * nCols + t * L + j = i * nCols + (j + L * t) by ring]
        exact this
      · rintro ind s ⟨rfl, hs⟩
        rw [M.wp_pure]
        refine ⟨?_, by rw [show i * nCols + (t + 1) * L = i * nCols + t * L + L by ring]; exact hs⟩
        simp only [inc]
        refine Prod.ext ?_ ?_
        · push_cast; ring
        · show _ = _; ring
    · rintro st s ⟨rfl, hs⟩
      by_cases hres : nCols % L = 0
      · rw [if_neg (by simpa using hres), M.wp_pure]
        have e : nCols / L * L = nCols := by rw [mul_comm]; omega
        have ec : cv = nCols / L := by rw [hcv, cpv_eq hL, if_pos hres, add_zero]
        refine ⟨?_, ?_⟩
        · rw [← ec]; refine Prod.ext ?_ ?_
          · push_cast; ring
          · show i * nCols + cv * L = (i + 1) * nCols
            rw [ec, e]; ring
        · rw [show (i + 1) * nCols = i * nCols + nCols / L * L by rw [e]; ring]; exact hs
      · rw [if_pos hres]
        have ec : cv = nCols / L + 1 := by rw [hcv, cpv_eq hL, if_neg hres]
        have e : nCols / L * L + nCols % L = nCols := by rw [mul_comm]; omega
        simp only [M.wp_bind]
        refine M.wp_foldI (fun j ind s => ind = i * nCols + nCols / L * L + j ∧ RowSt b 0 (i * nCols + nCols / L * L + j) v s) hm0 ⟨by ring, by simpa using hs⟩ ?_ ?_
        · rintro j ind s j0 j1 ⟨rfl, hs⟩
          have ht0 : 0 ≤ nCols / L * L := mul_nonneg hd0 hL.le
          simp only [M.wp_bind, M.wp_lift, M.wp_pure]
          obtain ⟨a, ha, hav⟩ := hgen (seed.counter + ((i * cv + nCols / L : Int) : ZMod N))
          refine ⟨a, ha, _, Buf.rd_val (hav j j0 (by omega)), ?_⟩
          rw [M.wp_wr]
          refine ⟨hs.alloc (hal _ (by omega) (by omega)), by ring, ?_⟩
          have := hs.step (by omega)
          rw [zero_add, show i * nCols + nCols / L * L + j = i * nCols + (nCols / L * L + j) by ring, vrow i (nCols / L * L + j) (by omega) (by omega),
            show nCols / L * L + j = j + L * (nCols / L) by ring, Int.add_mul_ediv_left _ _ (by omega), Int.add_mul_emod_self_left, Int.ediv_eq_zero_of_lt j0 (by omega),
            Int.emod_eq_of_lt j0 (by omega), zero_add] at this
          rw [show i * nCols + nCols / L * L + (j + 1) = i * nCols + (j + L * (nCols / L)) + 1 by ring, show i * nCols + nCols / L * L + j = i * nCols + (j + L * (nCols / L)) by ring]
          exact this
        · rintro ind s ⟨rfl, hs⟩
          rw [M.wp_pure]
          rw [show i * nCols + nCols / L * L + nCols % L = (i + 1) * nCols by rw [add_assoc, e]; ring] at hs ⊢
          refine ⟨?_, hs⟩
          simp only [inc]
          refine Prod.ext ?_ rfl
          show _ = _
          rw [ec]; push_cast; ring
  · rintro st s ⟨-, hs⟩
    rw [M.wp_pure]
    refine ⟨fun r q hrq => ?_, fun p hp => by rw [hs p, if_neg (by omega)]⟩
    have h0 := mul_nonneg hrq.1 hc.le
    have h1 : r * nCols + nCols ≤ nRows * nCols := by have := hrq.2.1; nlinarith
    have h2 := hrq.2.2
    rw [hs _, if_pos (by omega), sub_zero, vrow r q h2.1 h2.2]
    rfl

theorem findI_none {α : Type} {lo hi : Int} {body : Int → Res (Option α)} (h : ∀ i, lo ≤ i → i < hi → body i = .ok none) : findI lo hi body = .ok none := by
  rcases findI_search (P := fun _ _ => False) (Q := fun _ => True) (fun i h0 h1 => Or.inr ⟨h i h0 h1, trivial⟩) with ⟨i, a, -, -, hf, -⟩ | ⟨-, h⟩
  · exact hf.elim
  · exact h

theorem firstDiff_none [DecidableEq T] {smat mat : Buf T} {nptr nCols nSrows nScols : Int} {v : Int → Int → T} (h1 : ∀ i j, InR nSrows nScols i j → smat (i * nScols + j) = .val (v i j))
    (h2 : ∀ i j, InR nSrows nScols i j → mat (nptr + i * nCols + j) = .val (v i j)) : firstDiff smat mat nptr nCols nSrows nScols = .ok none := by
  refine findI_none fun i i0 i1 => findI_none fun j j0 j1 => ?_
  simp [Buf.rd_val (h1 i j ⟨i0, i1, j0, j1⟩), Buf.rd_val (h2 i j ⟨i0, i1, j0, j1⟩)]

/-- A window is accepted if the reference matrix has the same words there: it lies within the rows, or the rows have no padding. -/
theorem windowCheck_none [DecidableEq T] {sched : List Nat} {gen : ZMod N → K → Res (Buf T)} {g : ZMod N → Int → T} {L nRows nCols nSrows nScols p : Int} {seed : RNGState N K}
    {mat smat : Buf T} (hL : 0 < L) (hL2 : L < 2 ^ 63) (hgen : ∀ c, ∃ a, gen c seed.key = .ok a ∧ ∀ i, 0 ≤ i → i < L → a i = .val (g c i))
    (hp : 0 ≤ p) (hp1 : p ≤ intMax 64) (hn : 0 < nScols) (hr : 0 ≤ nSrows) (hle : nScols ≤ nCols) (hin : p % nCols + nScols ≤ nCols ∨ nCols % L = 0 ∧ p / nCols + nSrows < nRows)
    (hrow : p / nCols + nSrows ≤ nRows) (hfit : nRows * nCols ≤ intMax 32)
    (hmat : ∀ r q, InR nRows nCols r q → mat (r * nCols + q) = .val (refVal g L nCols seed.counter r q)) (hal : ∀ q, 0 ≤ q → q < nSrows * nScols → smat q ≠ .none) :
    M.wp (windowCheck sched gen L nCols nSrows nScols seed mat p) smat (fun r s' => r = none ∧ ∀ q, smat q ≠ .none → s' q ≠ .none) := by
  have hc : 0 < nCols := by omega
  have hdm := Int.mul_ediv_add_emod p nCols
  have hm0 := Int.emod_nonneg p (show nCols ≠ 0 by omega)
  have hm1 := Int.emod_lt_of_pos p hc
  have hd0 : 0 ≤ p / nCols := Int.ediv_nonneg hp hc.le
  have hmax : intMax 32 ≤ intMax 64 := by decide
  have hcv := countersPerVector_le (n := nCols) hL hc.le
  have hcv0 := countersPerVector_nonneg (n := nCols) hL hc.le
  have hprow : p / nCols * nCols + p % nCols = p := by rw [mul_comm]; exact hdm
  unfold windowCheck
  rw [M.wp_bind]
  have hspec := fillSubmat_wide (sched := sched) (seed := seed) (b := smat) hL hL2 hgen hd0 hm0 hn hr hm1 hle
    (by
      have h1 : countersPerVector L nCols * (p / nCols + nSrows) ≤ nCols * (p / nCols + nSrows) := Int.mul_le_mul_of_nonneg_right hcv (by omega)
      have h2 : nCols * (p / nCols + nSrows) ≤ nCols * nRows := Int.mul_le_mul_of_nonneg_left hrow hc.le
      rw [mul_comm nCols nRows] at h2; omega)
    (by rw [hprow]; exact hp1) hal
  rw [hprow] at hspec
  refine M.wp_mono hspec ?_
  rintro st s' ⟨h1, h2, -, -⟩
  simp only [M.wp_bind, M.wp_get, M.wp_lift]
  refine ⟨none, firstDiff_none h1 ?_, rfl, ?_⟩
  · rintro i j ⟨i0, i1, j0, j1⟩
    by_cases hw : p % nCols + j < nCols
    · rw [show p + i * nCols + j = (p / nCols + i) * nCols + (p % nCols + j) by rw [add_mul]; omega, hmat _ _ ⟨by omega, by omega, by omega, hw⟩]
      rfl
    · obtain ⟨hdiv, hlt⟩ := hin.resolve_left (by omega)
      rw [show p + i * nCols + j = (p / nCols + i + 1) * nCols + (p % nCols + j - nCols) by rw [add_mul, add_mul]; omega, hmat _ _ ⟨by omega, by omega, by omega, by omega⟩]
      have e : nCols = L * (nCols / L) := by have := Int.mul_ediv_add_emod nCols L; omega
      have ec : countersPerVector L nCols = nCols / L := by rw [cpv_eq hL, if_pos hdiv, add_zero]
      unfold refVal
      have e1 : (p % nCols + j - nCols) / L = (p % nCols + j) / L - nCols / L := by
        rw [show p % nCols + j - nCols = p % nCols + j + L * (-(nCols / L)) by rw [mul_neg, ← e]; ring, Int.add_mul_ediv_left _ _ (by omega)]; ring
      have e2 : (p % nCols + j - nCols) % L = (p % nCols + j) % L := by
        rw [show p % nCols + j - nCols = p % nCols + j + L * (-(nCols / L)) by rw [mul_neg, ← e]; ring, Int.add_mul_emod_self_left]
      rw [e1, e2, ec]
      congr 3
      push_cast; ring
  · intro q hq
    by_cases h : 0 ≤ q ∧ q < nSrows * nScols
    · have hd := Int.mul_ediv_add_emod q nScols
      rw [show q = q / nScols * nScols + q % nScols by rw [mul_comm]; omega, h1 _ _ ⟨Int.ediv_nonneg h.1 hn.le, Int.ediv_lt_of_lt_mul hn h.2, Int.emod_nonneg q (by omega), Int.emod_lt_of_pos q hn⟩]
      simp
    · rw [h2 q h]; exact hq

theorem windowLoop_none {check : Int → M (Buf T) (Option (Int × Int))} {bound step : Int} {Inv : Buf T → Prop} (hs : 0 < step) (hfit : bound + step ≤ intMax 32) (p0 : Int)
    (hcheck : ∀ t : Nat, p0 + t * step < bound → ∀ s, Inv s → M.wp (check (p0 + t * step)) s (fun r s' => r = none ∧ Inv s')) :
    ∀ (k t : Nat), (bound - (p0 + t * step)).toNat ≤ k → ∀ s, Inv s → M.wp (windowLoop check bound step (p0 + t * step)) s (fun r _ => r = none) := by
  intro k
  induction k with
  | zero =>
    intro t ht s _
    unfold windowLoop
    rw [dif_neg (by omega), M.wp_pure]
  | succ k ih =>
    intro t ht s hI
    unfold windowLoop
    by_cases hb : p0 + t * step < bound
    · rw [dif_pos hb, M.wp_bind]
      refine M.wp_mono (hcheck t hb s hI) ?_
      rintro r s' ⟨rfl, hI'⟩
      dsimp only
      rw [dif_neg (by omega), show p0 + t * step + step = p0 + ((t + 1 : Nat) : Int) * step by push_cast; ring]
      exact ih (t + 1) (by push_cast; rw [add_mul]; omega) s' hI'
    · rw [dif_neg hb, M.wp_pure]

end RB
