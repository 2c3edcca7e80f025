import Verif.Model.ExTls
import Verif.Lemmas.ExLapack
import Verif.Core.Doom
import Verif.Lemmas.Sketch

/-! # C68, C69: the total least squares programs -/

namespace RB
open Spec

variable {T : Type}

/-! ## C68 -/

section
variable [Field T] [LinearOrder T] [IsStrictOrderedRing T]

/-- C68. For m > n the vector x computed by `total_least_squares` solves the total least squares problem for [A, b], provided the
last component of the last right singular vector is not 0. On exit AB holds the left singular vectors, `work_s` the singular values and `work_vt` the
transposed right singular vectors; no memory outside the four arrays' documented parts changes. -/
theorem C68_total_least_squares {svd : Int → Int → (Int → Int → T) → Svd T} {m n ldab : Int} {AB : Int → Int → T} {t : TlsSt T}
    (hn : 0 ≤ n) (hm : n < m) (hl : m ≤ ldab) (hAB : HoldsC t.ab ldab m (n + 1) AB)
    (hx : ∀ i, 0 ≤ i → i < n → t.x i ≠ .none) (hs : ∀ i, 0 ≤ i → i < n + 1 → t.s i ≠ .none) (hvt : Alloc t.vt .ColMajor (n + 1) (n + 1) (n + 1))
    (hsvd : SvdFor svd m (n + 1) AB) (hgen : ∀ F, (∀ i j, InR m (n + 1) i j → F i j = AB i j) → (svd m (n + 1) F).vt n n ≠ 0) :
    M.wp (totalLeastSquares svd m n ldab) t (fun _ t' =>
      (∃ x, HoldsVec t'.x n x ∧ IsTls m n AB x) ∧ SameOutsideVec t.x t'.x n ∧
      ∃ F, SvdIs m (n + 1) AB F ∧ HoldsC t'.ab ldab m (n + 1) F.u ∧ SameOutside t.ab t'.ab .ColMajor ldab m (n + 1) ∧
        HoldsVec t'.s (n + 1) F.s ∧ SameOutsideVec t.s t'.s (n + 1) ∧
        HoldsC t'.vt (n + 1) (n + 1) (n + 1) F.vt ∧ SameOutside t.vt t'.vt .ColMajor (n + 1) (n + 1) (n + 1)) := by
  unfold totalLeastSquares
  rw [M.wp_bind, M.wp_zoom]
  refine M.wp_mono (gesdd_tall (A := AB) (by omega) (by omega) hl le_rfl le_rfl (fun i j hij => by rw [← addr_colMajor]; exact hAB i j hij) hs
    (fun i j hij => by rw [← addr_colMajor]; exact hvt i j hij)) ?_
  rintro _ ⟨ab, s1, u1, vt⟩ ⟨F0, F, hF0, hF, h1, ⟨h2, h3⟩, h4, -⟩
  have hSF := hsvd F0 hF0
  have hG := hgen F0 hF0
  rw [← hF] at hSF hG
  dsimp only at h1 h2 h3 h4 ⊢
  have hv : ∀ i, 0 ≤ i → i ≤ n → vt (n + i * (n + 1)) = .val (F.vt n i) := fun i h0 hi => h4.cells n i ⟨hn, by omega, h0, by omega⟩
  simp only [M.wp_bind, M.wp_get, M.wp_lift, M.wp_zoom]
  refine ⟨F.vt n n, Buf.rd_val (by rw [show (n + 1) * (n + 1) - 1 = n + n * (n + 1) by ring]; exact hv n hn le_rfl), ?_⟩
  refine M.wp_mono (Q := fun _ b' => HoldsVec b' n (fun j => -F.vt n j / F.vt n n) ∧ SameOutsideVec t.x b' n) ?_ ?_
  · refine M.wp_forI (fun k b' => HoldsVec b' k (fun j => -F.vt n j / F.vt n n) ∧ SameOutsideVec t.x b' k) hn
      ⟨fun i h0 h1 => by omega, fun _ _ => rfl⟩ ?_ (fun _ h => h)
    rintro i b' h0 hi ⟨h5, h6⟩
    simp only [M.wp_bind, M.wp_lift]
    refine ⟨_, Buf.rd_val (hv i h0 hi.le), ?_⟩
    rw [M.wp_wr]
    refine ⟨by rw [h6 i (by omega)]; exact hx i h0 hi, fun p hp0 hp => ?_, fun p hp => ?_⟩
    · by_cases he : p = i
      · subst he; rw [Buf.set_same]
      · rw [Buf.set_ne he]; exact h5 p hp0 (by omega)
    · rw [Buf.set_ne (by omega)]; exact h6 p (by omega)
  · rintro _ b' ⟨h5, h6⟩
    refine ⟨⟨_, h5, tls_math hn (by omega) hSF hG⟩, h6, F, hSF, ?_, ?_, h2, h3, ?_, ?_⟩
    · intro i j hij; rw [addr_colMajor]; exact h1.cells i j hij
    · intro p hp; exact h1.outside p (fun i j hij => by rw [← addr_colMajor]; exact hp i j hij)
    · intro i j hij; rw [addr_colMajor]; exact h4.cells i j hij
    · intro p hp; exact h4.outside p (fun i j hij => by rw [← addr_colMajor]; exact hp i j hij)

end

/-- A 2 x 2 matrix [A, b] over the rational numbers and its singular value decomposition meet the hypotheses of C68. -/
def exTlsAB : Int → Int → ℚ := fun i j => if i = 0 then (if j = 0 then 6 else 8) else (if j = 0 then -4 else 3)

/-- See above. -/
def exTlsSvd : Svd ℚ :=
  { u := fun i j => if i = j then 1 else 0
    s := fun l => if l = 0 then 10 else 5
    vt := fun i j => if i = 0 then (if j = 0 then 3 / 5 else 4 / 5) else (if j = 0 then -4 / 5 else 3 / 5) }

example : SvdFor (fun _ _ _ => exTlsSvd) 2 (1 + 1) exTlsAB ∧ exTlsSvd.vt 1 1 ≠ 0 ∧
    HoldsC (Buf.ofList ([6, -4, 8, 3] : List ℚ)) 2 2 (1 + 1) exTlsAB ∧ Alloc (Buf.alloc ℚ 4) .ColMajor (1 + 1) (1 + 1) (1 + 1) := by
  have two : ∀ i : Int, 0 ≤ i → i < 2 → i = 0 ∨ i = 1 := fun i h1 h2 => by omega
  suffices h : SvdIs 2 (1 + 1) exTlsAB exTlsSvd by
    refine ⟨fun _ _ => h, by norm_num [exTlsSvd], ?_, ?_⟩
    · rintro i j ⟨h1, h2, h3, h4⟩
      rcases two i h1 h2 with rfl | rfl <;> rcases two j h3 (by omega) with rfl | rfl <;> rfl
    · rintro i j ⟨h1, h2, h3, h4⟩
      rcases two i h1 (by omega) with rfl | rfl <;> rcases two j h3 (by omega) with rfl | rfl <;> decide
  refine ⟨?_, ?_, ?_, ?_, ?_⟩
  · rintro i j ⟨h1, h2, h3, h4⟩
    rcases two i h1 (by simpa using h2) with rfl | rfl <;> rcases two j h3 (by simpa using h4) with rfl | rfl <;>
      decide +kernel
  · rintro i j ⟨h1, h2, h3, h4⟩
    rcases two i h1 (by simpa using h2) with rfl | rfl <;> rcases two j h3 (by simpa using h4) with rfl | rfl <;>
      decide +kernel
  · intro l _ _
    unfold exTlsSvd; dsimp only; split <;> norm_num
  · intro l h0 h1
    obtain rfl : l = 0 := by have : min (2 : Int) (1 + 1) = 2 := by decide
                             omega
    norm_num [exTlsSvd]
  · rintro i j ⟨h1, h2, h3, h4⟩
    rcases two i h1 h2 with rfl | rfl <;> rcases two j h3 (by omega) with rfl | rfl <;>
      decide +kernel

/-- C68. With at most as many rows as columns of A there is an exception (the null pointer for U comes with leading dimension 1). The programs
only check that n ≤ m, so `n = m` is accepted and ends this way after the sketched problem has been solved. -/
theorem C68_wide_error [Field T] {svd : Int → Int → (Int → Int → T) → Svd T} {m n ldab : Int} (t : TlsSt T) (hm : 2 ≤ m) (hmn : m ≤ n) :
    (totalLeastSquares svd m n ldab t).1 = .throw .blas := by
  have h : ∀ s : SvdSt T, gesddOverwrite svd m (n + 1) ldab 1 (n + 1) s = (.throw .blas, s) := by
    intro s
    unfold gesddOverwrite
    have e1 : (blasCheck (0 ≤ m) : M (SvdSt T) Unit) = pure () := by unfold blasCheck; rw [if_pos (by omega)]
    have e2 : (blasCheck (0 ≤ n + 1) : M (SvdSt T) Unit) = pure () := by unfold blasCheck; rw [if_pos (by omega)]
    have e3 : (blasCheck (1 ≤ (1 : Int) ∧ (m < n + 1 → m ≤ 1)) : M (SvdSt T) Unit) = M.throw .blas := by unfold blasCheck; rw [if_neg (by omega)]
    rw [e1, e2, e3]
    by_cases hl : max 1 m ≤ ldab
    · have e4 : (blasCheck (max 1 m ≤ ldab) : M (SvdSt T) Unit) = pure () := by unfold blasCheck; rw [if_pos hl]
      rw [e4]; rfl
    · have e4 : (blasCheck (max 1 m ≤ ldab) : M (SvdSt T) Unit) = M.throw .blas := by unfold blasCheck; rw [if_neg hl]
      rw [e4]; rfl
  unfold totalLeastSquares
  rw [M.bind_throw (e := .blas) (s' := { t with ab := t.ab, s := t.s, vt := t.vt })]
  unfold M.zoom
  rw [h]

/-- C68. With a single row (and n ≥ 1) `gesdd` writes through the null pointer. -/
theorem C68_one_row_undefined [Field T] {svd : Int → Int → (Int → Int → T) → Svd T} {n ldab : Int} {AB : Int → Int → T} {t : TlsSt T}
    (hn : 1 ≤ n) (hl : 1 ≤ ldab) (hAB : HoldsC t.ab ldab 1 (n + 1) AB) (hs : t.s 0 ≠ .none) :
    M.Undef (totalLeastSquares svd 1 n ldab) t := by
  unfold totalLeastSquares
  refine M.Undef.bind (M.Undef.zoom ?_)
  have hA : ∀ i j, InR 1 (n + 1) i j → t.ab (i + j * ldab) = .val (AB i j) := fun i j hij => by rw [← addr_colMajor]; exact hAB i j hij
  unfold gesddOverwrite
  refine M.Undef.after (wp_blasCheck.2 ⟨by omega, M.Undef.after (wp_blasCheck.2 ⟨by omega, M.Undef.after (wp_blasCheck.2 ⟨by omega,
    M.Undef.after (wp_blasCheck.2 ⟨by omega, M.Undef.after (wp_blasCheck.2 ⟨by omega, M.Undef.after ?_⟩)⟩)⟩)⟩)⟩)
  rw [SvdSt.wp_onA]
  refine M.wp_mono (readMat_spec (by omega) (by omega) hA) ?_
  rintro F0 _ ⟨rfl, hF0⟩
  refine M.Undef.after ?_
  rw [SvdSt.wp_onA]
  refine M.wp_mono (writeMat_spec (by omega) (by omega) hl (fun i j hij => by dsimp only; rw [hA i j hij]; simp)) ?_
  intro _ a1 _
  refine M.Undef.after ?_
  rw [SvdSt.wp_onS, min_eq_left (by omega)]
  refine M.wp_mono (writeVec_spec (by omega) (fun i h0 h1 => by obtain rfl : i = 0 := by omega
                                                                exact hs)) ?_
  intro _ s1 _
  rw [if_neg (by omega)]
  refine M.Undef.zoom (M.Undef.forI (j := 0) (fun k b => k = 0 → b = fun _ => .none) le_rfl one_pos (fun _ => rfl) (fun i _ h0 h1 => by omega) ?_)
  intro b hb
  obtain rfl := hb rfl
  refine M.Undef.forI (j := 0) (fun k b => k = 0 → b = fun _ => .none) le_rfl one_pos (fun _ => rfl) (fun i _ h0 h1 => by omega) ?_
  intro b hb
  obtain rfl := hb rfl
  rfl

/-! ## C69 -/

section
variable [CommRing T] [DecidableEq T]

/-- C69. For one right-hand side, `init_noisy_data` stores the sampled matrix A (the first mn numbers, column-major) and the vector
`A (1, ..., 1)^T + eps`.

Missing: more than one right-hand side, where the code is undefined (below). -/
theorem C69_init_noisy_data_partial {fillA fillEps : M (Buf T) Unit} {m n : Int} {a e : Int → T} {ab : Buf T} (hm : 0 ≤ m) (hn : 0 ≤ n)
    (hA : Fills (m * n) a fillA) (hE : Fills m e fillEps) (hab : ∀ p, 0 ≤ p → p < m * n + m → ab p ≠ .none) :
    M.wp (initNoisyData fillA fillEps m n 1) ab (fun _ ab' =>
      (∀ i j, InR m n i j → ab' (i + j * m) = .val (a (i + j * m))) ∧
      (∀ i, 0 ≤ i → i < m → ab' (m * n + i) = .val (∑ j ∈ Finset.range n.toNat, a (i + j * m) + e i)) ∧
      ∀ p, p < 0 ∨ m * n + m ≤ p → ab' p = ab p) := by
  have hmn : 0 ≤ m * n := mul_nonneg hm hn
  unfold initNoisyData
  rw [M.wp_bind, M.wp_onLocal]
  refine M.wp_mono (writeVec_spec (x := fun _ => (1 : T)) hn (fun i h0 h1 => by simp [Buf.alloc, h0, h1])) ?_
  rintro _ x ⟨hx, -⟩
  dsimp only
  rw [M.wp_bind]
  refine M.wp_mono (hA ab (fun i h0 h1 => hab i h0 (by omega))) ?_
  rintro _ ab1 ⟨h1, h2⟩
  rw [M.wp_bind, M.wp_onLocal]
  refine M.wp_mono (hE _ (fun i h0 h1 => by simp [Buf.alloc, h0, h1])) ?_
  rintro _ eps ⟨h3, -⟩
  dsimp only
  rw [M.wp_bind, M.wp_get, M.wp_bind, M.wp_at]
  have hcol : ∀ i l, InR m n i l → 0 ≤ i + l * m ∧ i + l * m < m * n := fun i l hil => pos_range hil
  refine M.wp_mono (blasGemm_spec (Am := fun i l => a (i + l * m)) (Bm := fun _ _ => 1) (C := fun _ _ => 0) hm zero_le_one hn le_rfl le_rfl le_rfl ?_ ?_ ?_
    (fun h => absurd rfl h)) ?_
  · intro _ i l hil
    rw [show 0 + opIndex .ColMajor m .NoTrans i l = i + l * m by simp [opIndex, strides_at, addr_colMajor]]
    exact h1 _ (hcol i l hil).1 (hcol i l hil).2
  · intro _ l j hlj
    obtain ⟨g1, g2, g3, g4⟩ := hlj
    obtain rfl : j = 0 := by omega
    rw [show 0 + opIndex .ColMajor n .NoTrans l 0 = l by simp [opIndex, strides_at, addr_colMajor]]
    exact hx l g1 g2
  · intro i j hij
    obtain ⟨g1, g2, g3, g4⟩ := hij
    obtain rfl : j = 0 := by omega
    rw [addr_colMajor, Buf.shift, h2 _ (by omega)]
    exact hab _ (by omega) (by omega)
  intro _ b1 hb1
  have hcell : ∀ i, 0 ≤ i → i < m → b1 i = .val (∑ j ∈ Finset.range n.toNat, a (i + j * m)) := by
    intro i g1 g2
    have := hb1.cells i 0 ⟨g1, g2, le_rfl, one_pos⟩
    rw [addr_colMajor] at this
    simpa [prodEntry] using this
  have hout : ∀ p, p < 0 ∨ m ≤ p → b1 p = ab1 (m * n + p) := by
    intro p hp
    refine hb1.outside p (fun i j hij he => ?_)
    obtain ⟨g1, g2, g3, g4⟩ := hij
    obtain rfl : j = 0 := by omega
    rw [addr_colMajor] at he
    omega
  rw [mul_one]
  have hcell' : ∀ i, 0 ≤ i → i < m → (b1.shift (-(m * n))) (m * n + i) = .val (∑ j ∈ Finset.range n.toNat, a (i + j * m)) := by
    intro i g1 g2
    rw [Buf.shift, show -(m * n) + (m * n + i) = i by ring]; exact hcell i g1 g2
  have hout' : ∀ p, p < m * n ∨ m * n + m ≤ p → (b1.shift (-(m * n))) p = ab1 p := by
    intro p hp
    rw [Buf.shift, hout _ (by omega)]; congr 1; ring
  generalize b1.shift (-(m * n)) = b2 at hcell' hout'
  refine M.wp_forI (fun k b => (∀ i, 0 ≤ i → i < k → b (m * n + i) = .val (∑ j ∈ Finset.range n.toNat, a (i + j * m) + e i)) ∧
    ∀ p, p < m * n ∨ m * n + k ≤ p → b p = b2 p) hm ⟨fun i g1 g2 => by omega, fun _ _ => rfl⟩ ?_ ?_
  · rintro i b g0 gi ⟨g1, g2⟩
    simp only [M.wp_bind, M.wp_rd, M.wp_lift]
    refine ⟨_, (g2 _ (by omega)).trans (hcell' i g0 gi), _, Buf.rd_val (h3 i g0 gi), ?_⟩
    rw [M.wp_wr]
    refine ⟨by rw [g2 _ (by omega), hcell' i g0 gi]; simp, fun r hr0 hr => ?_, fun p hp => ?_⟩
    · by_cases he : r = i
      · subst he; rw [Buf.set_same]
      · rw [Buf.set_ne (by omega)]; exact g1 r hr0 (by omega)
    · rw [Buf.set_ne (by omega)]; exact g2 p (by omega)
  · rintro b ⟨g1, g2⟩
    refine ⟨fun i j hij => ?_, g1, fun p hp => ?_⟩
    · have := hcol i j hij
      rw [g2 _ (by omega), hout' _ (by omega)]
      exact h1 _ this.1 this.2
    · rw [g2 _ (by omega), hout' _ (by omega), h2 _ (by omega)]

/-- C69. With two or more right-hand sides the target matrix is only partly initialised, and the product reads the rest. -/
theorem C69_several_undefined {fillA fillEps : M (Buf T) Unit} {m n d : Int} {a e : Int → T} {ab : Buf T} (hm : 1 ≤ m) (hn : 1 ≤ n) (hd : 2 ≤ d)
    (h10 : (1 : T) ≠ 0) (hA : Fills (m * n) a fillA) (hE : Fills (m * d) e fillEps) (hab : ∀ p, 0 ≤ p → p < m * n + m * d → ab p ≠ .none) :
    M.Undef (initNoisyData fillA fillEps m n d) ab := by
  have hmn : 0 ≤ m * n := mul_nonneg (by omega) (by omega)
  have hnd : n * 2 ≤ n * d := mul_le_mul_of_nonneg_left hd (by omega)
  have hmd : m * 2 ≤ m * d := mul_le_mul_of_nonneg_left hd (by omega)
  unfold initNoisyData
  refine M.Undef.after ?_
  rw [M.wp_onLocal]
  refine M.wp_mono (writeVec_spec (x := fun _ => (1 : T)) (by omega : 0 ≤ n) (fun i h0 h1 => by
    rw [Buf.alloc, if_pos ⟨h0, by omega⟩]; simp)) ?_
  rintro _ x ⟨hx, hx'⟩
  have hxn : x n = .uninit := by rw [hx' n (by omega), Buf.alloc, if_pos ⟨by omega, by omega⟩]
  refine M.Undef.after (M.wp_mono (hA ab (fun i h0 h1 => hab i h0 (by omega))) ?_)
  rintro _ ab1 ⟨h1, h2⟩
  refine M.Undef.after ?_
  rw [M.wp_onLocal]
  refine M.wp_mono (hE _ (fun i h0 h1 => by simp [Buf.alloc, h0, h1])) ?_
  rintro _ eps ⟨h3, -⟩
  refine M.Undef.after ?_
  rw [M.wp_get]
  refine M.Undef.bind (M.Undef.zoom ?_)
  have hb : (ab1.shift (m * n)) 0 ≠ .none := by rw [Buf.shift, h2 _ (by omega)]; exact hab _ (by omega) (by omega)
  have hA1 : ∀ l, 0 ≤ l → l < n → ab1 (l * m) = .val (a (l * m)) := fun l g1 g2 => by
    have := pos_range (i := 0) (j := l) (n := m) (c := n) ⟨le_rfl, by omega, g1, g2⟩
    exact h1 _ (by omega) (by omega)
  generalize ab1.shift (m * n) = b at hb
  unfold blasGemm
  dsimp only [dimsBeforeOp]
  refine M.Undef.after (wp_blasCheck.2 ⟨by omega, M.Undef.after (wp_blasCheck.2 ⟨by omega, M.Undef.after (wp_blasCheck.2 ⟨by omega,
    M.Undef.after (wp_blasCheck.2 ⟨by simp, M.Undef.after (wp_blasCheck.2 ⟨by simp, M.Undef.after (wp_blasCheck.2 ⟨by simp, ?_⟩)⟩)⟩)⟩)⟩)⟩)
  have h10' : ((1 : T) == 0) = false := by simpa using h10
  refine M.Undef.forI (j := 0) (fun _ b' => b' 0 ≠ .none) le_rfl (by omega) hb (fun i _ g1 g2 => by omega) ?_
  intro b1 hb1
  refine M.Undef.forI (j := 1) (fun j b' => b' 0 ≠ .none) zero_le_one (by omega) hb1 ?_ ?_
  · intro j b2 g1 g2 hb2
    obtain rfl : j = 0 := by omega
    rw [h10']
    simp only [Bool.false_eq_true, if_false, M.wp_bind]
    refine M.wp_foldI (fun _ _ b' => b' = b2) (by omega) rfl ?_ ?_
    · rintro l acc _ g1 g2 rfl
      simp only [M.wp_bind, M.wp_lift]
      refine ⟨a (l * m), Buf.rd_val ?_, 1, Buf.rd_val ?_, ?_⟩
      · rw [show 0 + opIndex .ColMajor m .NoTrans 0 l = l * m by simp [opIndex, strides_at, addr_colMajor]]; exact hA1 l g1 g2
      · rw [show 0 + opIndex .ColMajor n .NoTrans l 0 = l by simp [opIndex, strides_at, addr_colMajor]]; exact hx l g1 g2
      · rw [M.wp_pure]
    · rintro acc _ rfl
      rw [M.wp_pure, if_pos (by simp), M.wp_wr]
      refine ⟨by simpa [strides_at, addr_colMajor] using hb2, ?_⟩
      simp [strides_at, addr_colMajor]
  · intro b2 _
    rw [h10']
    simp only [Bool.false_eq_true, if_false]
    refine M.Undef.bind (M.Undef.foldI (hi := n) (j := 0) (fun _ _ _ => True) le_rfl (by omega) trivial (fun i _ _ g1 g2 => by omega) ?_)
    intro acc b3 _
    refine M.Undef.after ?_
    rw [M.wp_lift]
    refine ⟨a 0, Buf.rd_val ?_, M.Undef.bind ?_⟩
    · rw [show 0 + opIndex .ColMajor m .NoTrans 0 0 = 0 * m by simp [opIndex, strides_at, addr_colMajor]]
      rw [hA1 0 le_rfl (by omega)]; simp
    · have : x.rd (0 + opIndex .ColMajor n .NoTrans 0 1) = .ub := by
        rw [show 0 + opIndex .ColMajor n .NoTrans 0 1 = n by simp [opIndex, strides_at, addr_colMajor]]
        unfold Buf.rd; rw [hxn]
      rw [this]
      exact M.Undef.lift

/-- The sampling routines of C69 exist: a loop that stores the numbers is one. -/
example {n : Int} {a : Int → T} (hn : 0 ≤ n) : Fills n a (forI 0 n fun i => M.wr i (a i)) :=
  fun _ hb => writeVec_spec hn hb

example : ∀ p : Int, 0 ≤ p → p < 3 * 2 + 3 * 2 → (Buf.alloc ℚ 12) p ≠ .none := by
  intro p h0 h1
  rw [Buf.alloc, if_pos ⟨h0, by omega⟩]; simp

end

end RB
