import Verif.Props.Stab
import Verif.Props.SpmmExact

/-! # C77: the cases in which `sketch_orthogonalize_rows` is undefined -/

namespace RB
open Spec

variable {T : Type} {N : Nat} {K W WS R : Type} [Field T] [LinearOrder T] [IsStrictOrderedRing T] [Field R] [LinearOrder R] [IsStrictOrderedRing R] [FloorRing R]

omit [IsStrictOrderedRing T] in
/-- C77: if all nonzeros of the operator are in its first row (and it has another), the call is undefined. -/
theorem C77_first_row_undefined {E : SkEnv N K W WS R T} (hE : SkEnvOk E) {tol : T} {L : RowLapack T} {seed : RNGState N K} {m n d : Int} {D : SparseDist}
    {Sm : Int → Int → T} {s : StabSt T} (hm : 1 ≤ m) (hmd : m ≤ d) (hd : 2 ≤ d) (hn2 : 2 ≤ n) (hn : n < 2 ^ 60) (hd' : d < 2 ^ 60)
    (hD : mkSparseDist n d (min (d / 2) 4) .Short = .ok D) (hSm : SparseSamples E.GS E.sqrt D seed Sm) (hz : ∀ i j, InR n d i j → i ≠ 0 → Sm i j = 0)
    (hal : Alloc s.sk .ColMajor m m d) : (sketchOrthRows E tol L seed m n d s).1 = .ub := by
  obtain ⟨d1, d2, d3, d4, d5, d6⟩ := sparseDist_of_mk hD
  obtain ⟨hok, hop, L0, h1, hrun, hmat⟩ := rowSketch_op hE hd hn hd' hD hSm
  obtain ⟨hR, hC, hk, hkd, -, -, hax'⟩ := sparseDist_facts hok
  have hin := sparseRun_inRange hok hrun (by rw [d4]; intro h; cases h)
  rw [d1, d2] at hin
  rcases hax' with ⟨-, hmaj, hmin⟩ | ⟨a, -, -⟩
  swap
  · rw [a] at d4; cases d4
  have hne : L0 ≠ [] := by
    rintro rfl
    obtain ⟨e, he, -⟩ := sparseRun_long_mem hok d4 hrun (q := 0) le_rfl (by omega)
    cases he
  -- every entry is in the first row
  have hrow : ∀ e ∈ L0.map (mkEntry D), e.row = 0 := by
    intro e he
    by_contra h0
    have hr := hin e he
    have hv : toMat (L0.map (mkEntry D)) e.row e.col = e.val ∧ e.val ≠ 0 := by
      rcases hrun with ⟨-, rfl⟩ | ⟨a, -⟩
      swap
      · rw [a] at d4; cases d4
      refine ⟨toMat_mem (mkEntry_nodup D (saso_nodup hk hkd)) he, ?_⟩
      obtain ⟨x, hx, rfl⟩ := List.mem_map.1 he
      rw [mkEntry_val]
      rcases (saso_mem hk hkd hx).2.2.2.2 with h | h <;> rw [h] <;> simp
    rw [hmat, hz _ _ ⟨hr.1, hr.2.1, hr.2.2.1, hr.2.2.2⟩ h0] at hv
    exact hv.2 hv.1.symm
  have hwin : window 0 0 n d (L0.map (mkEntry D)) = L0.map (mkEntry D) := by
    unfold window
    rw [List.filter_eq_self.2 fun e he => by have := hin e he; simp only [decide_eq_true_eq]; omega]
    conv_rhs => rw [← List.map_id (L0.map (mkEntry D))]
    refine List.map_congr_left fun e _ => ?_
    cases e; simp
  show M.Undef _ _
  unfold sketchOrthRows
  refine M.Undef.after ?_
  rw [M.wp_require]
  refine ⟨hd, M.Undef.after ?_⟩
  rw [M.wp_require]
  refine ⟨hmd, M.Undef.bind ?_⟩
  unfold rowSketch
  refine M.Undef.after ?_
  rw [M.wp_lift]
  refine ⟨D, hD, M.Undef.after ?_⟩
  rw [M.wp_get]
  refine M.Undef.zoom ?_
  unfold sketchGeneralRFull
  refine M.Undef.after ?_
  rw [M.wp_get]
  refine M.Undef.after ?_
  rw [M.wp_require]
  refine ⟨by simp [SkOp.nRows, mkSparseSkOp, d1], M.Undef.after ?_⟩
  rw [M.wp_require]
  refine ⟨by simp [SkOp.nCols, mkSparseSkOp, d2], ?_⟩
  refine C37_right_sparse_undefined (C := fun _ _ => 0) hE h1 ?_ one_ne_zero ?_ hm (by omega) (by omega) ?_ ?_ hal (fun h => absurd rfl h)
  · exact ⟨le_rfl, le_rfl, by simp [rowsOf, mkSparseSkOp, d1], by simp [colsOf, mkSparseSkOp, d2]⟩
  · simp only [opEntries, rowsOf, colsOf, Op.flip]
    rw [hwin]
    rintro (⟨-, h⟩ | ⟨h, -⟩ | ⟨-, h, -⟩)
    · obtain ⟨e, he, hc⟩ := h hn2 (by simpa using hne)
      obtain ⟨x, hx, rfl⟩ := List.mem_map.1 he
      exact hc (hrow x hx)
    · omega
    · simp only [List.length_map] at h
      have hl : 0 < L0.length := List.length_pos_iff.2 hne
      nlinarith
  · simp [LdOk, rowsOf]
  · simp [LdOk]

omit [Field T] [LinearOrder T] [IsStrictOrderedRing T] in
theorem M.Undef.onLocal {σ τ α : Type} {m : M τ α} {t : τ} {s : σ} (h : M.Undef m t) : M.Undef (M.onLocal m t : M σ (α × τ)) s := by
  unfold M.Undef at h ⊢
  unfold M.onLocal
  rcases hm : m t with ⟨r, t'⟩
  rw [hm] at h
  dsimp only at h
  subst h
  rfl

omit [IsStrictOrderedRing T] in
/-- C77: for 2^31 rows or more, the call is undefined if the first 2^31 diagonal entries of the triangular factor pass the test. -/
theorem C77_int_undefined {E : SkEnv N K W WS R T} (hE : SkEnvOk E) {tol : T} {L : RowLapack T} {seed : RNGState N K} {m n d : Int} {D : SparseDist}
    {A Sm : Int → Int → T} {s : StabSt T} (hm' : 2 ^ 31 ≤ m) (hmd : m ≤ d) (hmn : m < n) (hn : n < 2 ^ 60) (hd' : d < 2 ^ 60)
    (hD : mkSparseDist n d (min (d / 2) 4) .Short = .ok D) (hSm : SparseSamples E.GS E.sqrt D seed Sm) (hA : HoldsC s.a m m n A) (hal : Alloc s.sk .ColMajor m m d)
    (hbig : ∀ F : Int → Int → T, (∀ i j, InR m d i j → F i j = prodEntry n A Sm i j) → ∀ i, 0 ≤ i → i < 2 ^ 31 → tol ≤ |(L.lq m d F).f i i|) :
    (sketchOrthRows E tol L seed m n d s).1 = .ub := by
  show M.Undef _ _
  unfold sketchOrthRows
  refine M.Undef.after ?_
  rw [M.wp_require]
  refine ⟨by omega, M.Undef.after ?_⟩
  rw [M.wp_require]
  refine ⟨hmd, M.Undef.after ?_⟩
  refine M.wp_mono (rowSketch_spec hE (by omega) (by omega) (by omega) hn hd' hD hSm
    (C77_off_first hE.genS hE.sqrt (by omega) hn hd' hD hSm (Or.inr (by omega))) hA hal) ?_
  rintro _ s1 ⟨h1, -, -⟩
  refine M.Undef.after ?_
  rw [M.wp_get]
  refine M.Undef.after ?_
  rw [M.wp_onLocal]
  refine M.wp_mono (gelqf_spec (s := (s1.sk, Buf.fill d 0)) (by omega) hmd (holdsC_cells h1) (fun i h0 h1 => by
    simp only [Buf.fill]; rw [if_pos ⟨h0, by omega⟩]; simp)) ?_
  rintro _ ⟨k2, t2⟩ ⟨F, hF, hk2, -, -⟩
  dsimp only at hk2 ⊢
  refine M.Undef.after ?_
  rw [M.wp_modify]
  refine M.Undef.bind (M.Undef.onLocal ?_)
  unfold smallDiag
  refine M.Undef.after ?_
  refine M.wp_findI (fun _ b' => b' = k2) (by omega) rfl ?_ ?_
  · rintro i _ h0 h1 rfl
    rw [M.wp_bind, M.wp_rd]
    have hi : i < m := by omega
    refine ⟨(L.lq m d F).f i i, by rw [add_comm]; exact hk2.cells i i ⟨h0, hi, h0, by omega⟩, ?_⟩
    rw [M.wp_pure, if_neg (not_lt.2 (hbig F hF i h0 (by omega)))]
    exact ⟨fun _ => rfl, fun h => absurd rfl h⟩
  · rintro _ rfl
    refine M.Undef.bind ?_
    unfold M.ubIf
    rw [if_pos ⟨rfl, by omega⟩]
    rfl

/-- The hypotheses of `C77_first_row_undefined` are met for n = d = 2: with the seed (0, 2) of the example generator both columns have their nonzero in the first row. -/
example : ∃ (D : SparseDist) (Sm : Int → Int → ℝ), mkSparseDist 2 2 (min (2 / 2) 4) .Short = .ok D ∧ SparseSamples exSkEnvR.GS exSkEnvR.sqrt D ⟨0, 2⟩ Sm ∧
    (∀ i j, InR 2 2 i j → i ≠ 0 → Sm i j = 0) ∧ Alloc (Buf.alloc ℝ 2) .ColMajor 1 1 2 := by
  have hD : mkSparseDist 2 2 (min (2 / 2) 4) .Short = .ok ⟨2, 2, .Short, 2, 2, 1, 2⟩ := by decide
  have hok : SparseDistOk ⟨2, 2, .Short, 2, 2, 1, 2⟩ := ⟨by decide, by decide⟩
  obtain ⟨Sm, hSm, -⟩ := C14_well_defined (G := exGenQ) (sqrt := Real.sqrt) (D := ⟨2, 2, .Short, 2, 2, 1, 2⟩) (seed := ⟨0, 2⟩) (Or.inr rfl) Real.sqrt_one hok
  refine ⟨_, Sm, hD, hSm, fun i j hij hi => ?_, ?_⟩
  · obtain ⟨L, g1, g2⟩ := sparseSamples_run (G := exGenQ) (Or.inr rfl) Real.sqrt_one hok hSm
    rcases g1 with ⟨-, rfl⟩ | ⟨a, -⟩
    swap
    · cases a
    rw [← g2]
    refine toMat_none fun e he h => hi ?_
    rw [← h.1]
    obtain ⟨x, hx, rfl⟩ := List.mem_map.1 he
    obtain ⟨p, hp, rfl⟩ := List.mem_map.1 hx
    have hp2 : p < 2 := by simpa using hp
    have : ∀ p : Nat, p < 2 → fyIdx exGenQ ⟨0, 2⟩ 1 2 p = 0 := by decide +kernel
    unfold mkEntry
    rw [if_pos le_rfl]
    exact this p hp2
  · rintro i j ⟨h1, h2, h3, h4⟩
    rw [addr_colMajor]
    simp only [Buf.alloc]
    rw [if_pos (by omega)]; simp

/-- The hypotheses of `C77_int_undefined` are met for m = d = 2^31, n = 2^31 + 1, a matrix of zeros and a tolerance of 0. (Then every factor passes the test.) -/
example (L : RowLapack ℝ) : ∃ (D : SparseDist) (Sm : Int → Int → ℝ), mkSparseDist (2 ^ 31 + 1) (2 ^ 31) (min (2 ^ 31 / 2) 4) .Short = .ok D ∧
    SparseSamples exSkEnvR.GS exSkEnvR.sqrt D ⟨0, 2⟩ Sm ∧ HoldsC (Buf.fill (2 ^ 31 * (2 ^ 31 + 1)) (0 : ℝ)) (2 ^ 31) (2 ^ 31) (2 ^ 31 + 1) (fun _ _ => 0) ∧
    Alloc (Buf.alloc ℝ (2 ^ 31 * 2 ^ 31)) .ColMajor (2 ^ 31) (2 ^ 31) (2 ^ 31) ∧ ∀ (F : Int → Int → ℝ) (i : Int), 0 ≤ |(L.lq (2 ^ 31) (2 ^ 31) F).f i i| := by
  have hD : mkSparseDist (2 ^ 31 + 1) (2 ^ 31) (min (2 ^ 31 / 2) 4) .Short = .ok ⟨2 ^ 31 + 1, 2 ^ 31, .Short, 2 ^ 31, 2 ^ 31 + 1, 4, 4 * (2 ^ 31 + 1)⟩ := by decide
  obtain ⟨Sm, hSm, -⟩ := C14_well_defined (G := exGenQ) (sqrt := Real.sqrt) (D := ⟨2 ^ 31 + 1, 2 ^ 31, .Short, 2 ^ 31, 2 ^ 31 + 1, 4, 4 * (2 ^ 31 + 1)⟩) (seed := ⟨0, 2⟩)
    (Or.inr rfl) Real.sqrt_one ⟨by decide, by decide⟩
  refine ⟨_, Sm, hD, hSm, ?_, ?_, fun F i => abs_nonneg _⟩
  · rintro i j ⟨h1, h2, h3, h4⟩
    rw [addr_colMajor]
    simp only [Buf.fill]
    rw [if_pos (by omega)]
  · rintro i j ⟨h1, h2, h3, h4⟩
    rw [addr_colMajor]
    simp only [Buf.alloc]
    rw [if_pos (by omega)]; simp

end RB
