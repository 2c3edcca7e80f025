import Verif.Lemmas.Stab
import Verif.Props.Sketch
import Verif.Lemmas.LqExists

/-! # C75, C76, C77: stabilisation of the rows of a sketch -/

namespace RB
open Spec

variable {T : Type}

theorem upd_holdsC {ld m n : Int} {X : Int → Int → T} {b b' : Buf T} (h : Upd ld (InR m n) X b b') :
    HoldsC b' ld m n X ∧ SameOutside b b' .ColMajor ld m n :=
  ⟨fun i j hij => by rw [addr_colMajor]; exact h.cells i j hij, fun p hp => h.outside p fun i j hij he => hp i j hij (by rw [addr_colMajor]; exact he)⟩

theorem holdsC_cells {ld m n : Int} {X : Int → Int → T} {b : Buf T} (h : HoldsC b ld m n X) : ∀ i j, InR m n i j → b (i + j * ld) = .val (X i j) :=
  fun i j hij => by rw [← addr_colMajor]; exact h i j hij

/-! ## C75 -/

section
variable [Field T] [LinearOrder T]

theorem luRow_prefix {tol : T} {L : RowLapack T} {m n : Int} {A : Int → Int → T} {s : StabSt T} (hm : 1 ≤ m) (hn : m < n)
    (hA : HoldsC s.a m m n A) (hp : ∀ i, 0 ≤ i → i < m → s.piv i ≠ .none) :
    ∃ (F : Int → Int → T) (ok : Bool) (s' : StabSt T), (∀ i j, InR m n i j → F i j = A i j) ∧
      (ok = true ↔ ∀ j, 0 ≤ j → j < m - 1 → tol < |(L.lu m n F).2 j j|) ∧
      (ok = true → Upd m (InR m n) (fun i j => if i ≤ j then (L.lu m n F).2 i j else 0) s.a s'.a) ∧ SameOutsideVec s.piv s'.piv m ∧
      s' = { s with a := s'.a, piv := s'.piv } ∧ HoldsVec s'.piv m (L.lu m n F).1 ∧ ∀ {α : Type} (k : Bool → M (StabSt T) α), (do
        M.require (m < n)
        StabSt.onPiv (forI 0 m fun i => M.wr i 0)
        getrf L m n
        let ok ← StabSt.onA (foldI 0 (m - 1) (fun j (ok : Bool) => if ok then luClearCol tol m j else pure false) true)
        k ok) s = k ok s' := by
  have h1 : M.wp (do
      M.require (m < n)
      StabSt.onPiv (forI 0 m fun i => M.wr i 0)
      getrf L m n
      StabSt.onA (foldI 0 (m - 1) (fun j (ok : Bool) => if ok then luClearCol tol m j else pure false) true)) s (fun ok s' =>
      ∃ F : Int → Int → T, (∀ i j, InR m n i j → F i j = A i j) ∧ (ok = true ↔ ∀ j, 0 ≤ j → j < m - 1 → tol < |(L.lu m n F).2 j j|) ∧
      (ok = true → Upd m (InR m n) (fun i j => if i ≤ j then (L.lu m n F).2 i j else 0) s.a s'.a) ∧ SameOutsideVec s.piv s'.piv m ∧
      s' = { s with a := s'.a, piv := s'.piv } ∧ HoldsVec s'.piv m (L.lu m n F).1) := by
    rw [M.wp_bind, M.wp_require]
    refine ⟨hn, ?_⟩
    rw [M.wp_bind, StabSt.wp_onPiv]
    refine M.wp_mono (writeVec_spec (x := fun _ => (0 : Int)) (by omega) hp) ?_
    rintro _ p1 ⟨hp1, hp1'⟩
    rw [M.wp_bind]
    refine M.wp_mono (getrf_spec (A := A) hm hn.le (holdsC_cells hA) (fun i h0 h1 => by dsimp only; rw [hp1 i h0 h1]; simp)) ?_
    rintro _ s2 ⟨F, hF, ha, hv, hp2, e2⟩
    rw [StabSt.wp_onA]
    refine M.wp_mono (luClear_spec (b0 := s.a) hm hn.le ha) ?_
    rintro ok b3 ⟨g1, g2⟩
    exact ⟨F, hF, g1, g2, fun x hx => (hp2 x hx).trans (hp1' x hx), by rw [e2], hv⟩
  obtain ⟨ok, s', e, F, hF, g1, g2, g3, g4, g5⟩ := h1
  refine ⟨F, ok, s', hF, g1, g2, g3, g4, g5, fun {α} k => ?_⟩
  have : (do
      let ok ← (do
        M.require (m < n)
        StabSt.onPiv (forI 0 m fun i => M.wr i 0)
        getrf L m n
        StabSt.onA (foldI 0 (m - 1) (fun j (ok : Bool) => if ok then luClearCol tol m j else pure false) true))
      k ok : M (StabSt T) α) s = k ok s' := by rw [M.bind_ok e]
  simpa only [bind_assoc] using this

/-- C75. `lu_row_stabilize` for an m x n matrix A (m < n): let U be the upper triangular factor of the LU decomposition with partial pivoting. If the first m - 1
diagonal entries of U are larger in absolute value than the tolerance, and the last one is not 0, then the function returns 0 and A has been replaced by
a matrix X whose rows span the same space (`X = P A` and `A = P' X`), and which is unit upper triangular: it is 0 below the diagonal and 1 on it. Only the entries of A and
the first m elements of `piv_work` have changed.

Missing: matrices whose last pivot is 0, see `C75_last_pivot_counterexample`. -/
theorem C75_lu_partial {tol : T} {L : RowLapack T} {m n : Int} {A : Int → Int → T} {s : StabSt T} (hm : 1 ≤ m) (hn : m < n) (htol : 0 ≤ tol)
    (hA : HoldsC s.a m m n A) (hp : ∀ i, 0 ≤ i → i < m → s.piv i ≠ .none) (hL : LuFor L m n A)
    (hd : ∀ F : Int → Int → T, (∀ i j, InR m n i j → F i j = A i j) →
      (∀ j, 0 ≤ j → j < m - 1 → tol < |(L.lu m n F).2 j j|) ∧ (L.lu m n F).2 (m - 1) (m - 1) ≠ 0) :
    M.wp (luRowStabilize tol L m n) s (fun r s' => r = 0 ∧ ∃ X : Int → Int → T, HoldsC s'.a m m n X ∧ RowEquiv m n A X ∧
      (∀ i j, InR m n i j → j < i → X i j = 0) ∧ (∀ i, 0 ≤ i → i < m → X i i = 1) ∧
      SameOutside s.a s'.a .ColMajor m m n ∧ SameOutsideVec s.piv s'.piv m ∧ s'.tau = s.tau ∧ s'.sk = s.sk) := by
  unfold luRowStabilize
  obtain ⟨F, ok, s', hF, h1, h2, h3, h4, -, hrun⟩ := luRow_prefix (tol := tol) (L := L) hm hn hA hp
  unfold M.wp
  rw [hrun]
  obtain ⟨d1, d2⟩ := hd F hF
  have hok := h1.2 d1
  subst hok
  have hne : ∀ j, 0 ≤ j → j < m → (L.lu m n F).2 j j ≠ 0 := fun j h0 h1 => by
    rcases eq_or_ne j (m - 1) with rfl | hne
    · exact d2
    · intro h
      have := d1 j h0 (by omega)
      rw [h, abs, neg_zero, sup_idem] at this
      exact absurd this (not_lt.2 htol)
  show M.wp _ s' _
  rw [M.wp_bind, M.wp_when]
  refine ⟨fun h => absurd h (by simp), fun _ => ?_⟩
  rw [M.wp_bind, StabSt.wp_onA]
  refine M.wp_mono (luScale_spec (b0 := s.a) hm hn.le (h2 rfl)) ?_
  intro _ b hb
  rw [M.wp_pure]
  obtain ⟨g1, g2⟩ := upd_holdsC hb
  refine ⟨rfl, _, g1, lu_rowEquiv (hL F hF) hne, fun i j _ hji => by rw [if_neg (by omega), zero_div], fun i h0 h1 => ?_, g2, h3, by rw [h4], by rw [h4]⟩
  rw [if_pos le_rfl, div_self (hne i h0 h1)]

/-- C75 (small pivots). If one of the first m - 1 diagonal entries of U is not larger in absolute value than the tolerance, the function throws `std::runtime_error`. -/
theorem C75_lu_small_pivot {tol : T} {L : RowLapack T} {m n : Int} {A : Int → Int → T} {s : StabSt T} (hm : 1 ≤ m) (hn : m < n)
    (hA : HoldsC s.a m m n A) (hp : ∀ i, 0 ≤ i → i < m → s.piv i ≠ .none)
    (hd : ∀ F : Int → Int → T, (∀ i j, InR m n i j → F i j = A i j) → ∃ j, 0 ≤ j ∧ j < m - 1 ∧ |(L.lu m n F).2 j j| ≤ tol) :
    (luRowStabilize tol L m n s).1 = .throw .runtime := by
  unfold luRowStabilize
  obtain ⟨F, ok, s', hF, h1, -, -, -, -, hrun⟩ := luRow_prefix (tol := tol) (L := L) hm hn hA hp
  rw [hrun]
  obtain ⟨j, h0, hj, hle⟩ := hd F hF
  have hok : ok = false := by
    cases ok
    · rfl
    · exact absurd (h1.1 rfl j h0 hj) (not_lt.2 hle)
  subst hok
  rw [M.bind_throw (e := .runtime) (s' := s') (by simp [M.when, M.throw]; rfl)]

/-- C75 (shape). A matrix that is not wider than high is rejected before anything is changed. -/
theorem C75_lu_shape {tol : T} {L : RowLapack T} {m n : Int} {s : StabSt T} (h : n ≤ m) : luRowStabilize tol L m n s = (.throw .require, s) := by
  unfold luRowStabilize
  rw [M.bind_throw (e := .require) (s' := s) (by unfold M.require; rw [Res.require, if_neg (by omega)]; rfl)]

/-- A decomposition routine for matrices with one row: the matrix itself is the upper triangular factor. -/
def rowLu : RowLapack ℚ := ⟨fun _ _ A => (fun _ => 1, A), fun _ _ A => ⟨A, fun _ => 0⟩, fun _ _ F => F.f⟩

theorem rowLu_ok {n : Int} (A : Int → Int → ℚ) : LuFor rowLu 1 n A := by
  intro F hF
  refine ⟨⟨fun i => i, fun i h0 h1 => ⟨h0, h1⟩, fun i j _ _ _ _ h => h, fun i j hij => ?_⟩, fun i j hij hji => by have := hij.2.1; have := hij.2.2.1; omega⟩
  obtain ⟨h1, h2, h3, h4⟩ := hij
  have : i = 0 := by omega
  subst this
  simp [prodEntry, rowLu, h3, hF 0 j ⟨le_rfl, by omega, h3, h4⟩]

/-- C75 fails if the last pivot is 0: the loop that checks the pivots stops before it. For the 1 x 2 matrix (0 1), which has independent rows, and any positive
tolerance the function returns 0, but the row space is lost (with floating-point numbers the entries become NaN and infinity). -/
theorem C75_last_pivot_counterexample : ∃ (s : StabSt ℚ), HoldsC s.a 1 1 2 (fun _ j => j) ∧ (∀ i, 0 ≤ i → i < 1 → s.piv i ≠ .none) ∧ LuFor rowLu 1 2 (fun _ j => (j : ℚ)) ∧
    M.wp (luRowStabilize (1 / 1000) rowLu 1 2) s (fun r s' => r = 0 ∧ ∀ X : Int → Int → ℚ, HoldsC s'.a 1 1 2 X → ¬ RowEquiv 1 2 (fun _ j => (j : ℚ)) X) := by
  refine ⟨⟨Buf.ofList [0, 1], Buf.alloc Int 1, fun _ => .none, fun _ => .none⟩, ?_, ?_, rowLu_ok _, ?_⟩
  · rintro i j ⟨h1, h2, h3, h4⟩
    rw [addr_colMajor]
    have : i = 0 := by omega
    subst this
    rcases (by omega : j = 0 ∨ j = 1) with rfl | rfl <;> simp [Buf.ofList]
  · intro i h0 h1
    simp [Buf.alloc, h0, h1]
  · have h1 : (luRowStabilize (1 / 1000 : ℚ) rowLu 1 2 ⟨Buf.ofList [0, 1], Buf.alloc Int 1, fun _ => .none, fun _ => .none⟩).1 = .ok 0 := by decide +kernel
    have h2 : (luRowStabilize (1 / 1000 : ℚ) rowLu 1 2 ⟨Buf.ofList [0, 1], Buf.alloc Int 1, fun _ => .none, fun _ => .none⟩).2.a 1 = .val 0 := by decide +kernel
    refine ⟨0, _, Prod.ext h1 rfl, rfl, ?_⟩
    rintro X hX ⟨⟨P, hP⟩, -⟩
    have e := hX 0 1 ⟨le_rfl, by norm_num, by norm_num, by norm_num⟩
    have e' : X 0 1 = 0 := by
      have := h2.symm.trans e
      injection this with e; exact e.symm
    have := hP 0 1 ⟨le_rfl, by norm_num, by norm_num, by norm_num⟩
    simp [prodEntry, e'] at this

/-- The hypotheses of C75 are met by the matrix with rows (1, 2, 3) and (2, 2, 2), where the rows have to be exchanged. -/
example : ∃ (L : RowLapack ℚ) (A : Int → Int → ℚ) (s : StabSt ℚ), HoldsC s.a 2 2 3 A ∧ (∀ i, 0 ≤ i → i < 2 → s.piv i ≠ .none) ∧ LuFor L 2 3 A ∧
    ∀ F : Int → Int → ℚ, (∀ i j, InR 2 3 i j → F i j = A i j) → (∀ j, 0 ≤ j → j < 2 - 1 → 1 / 1000 < |(L.lu 2 3 F).2 j j|) ∧ (L.lu 2 3 F).2 (2 - 1) (2 - 1) ≠ 0 := by
  have h2 : ∀ i : Int, 0 ≤ i → i < 2 → i = 0 ∨ i = 1 := fun i h0 h1 => by omega
  have h3 : ∀ i : Int, 0 ≤ i → i < 3 → i = 0 ∨ i = 1 ∨ i = 2 := fun i h0 h1 => by omega
  refine ⟨⟨fun _ _ _ => (fun _ => 2, fun i j => if i = 0 then 2 else if j = 0 then 1 / 2 else if j = 1 then 1 else 2), fun _ _ A => ⟨A, fun _ => 0⟩, fun _ _ F => F.f⟩,
    fun i j => if i = 0 then (j : ℚ) + 1 else 2, ⟨Buf.ofList [1, 2, 2, 2, 3, 2], Buf.alloc Int 2, fun _ => .none, fun _ => .none⟩, ?_, fun i h0 h1 => by
      simp [Buf.alloc, h0, h1], ?_, ?_⟩
  · rintro i j ⟨a, b, c, d⟩
    rw [addr_colMajor]
    rcases h2 i a b with rfl | rfl <;> rcases h3 j c d with rfl | rfl | rfl <;> decide +kernel
  · intro F _
    refine ⟨⟨fun i => 1 - i, fun i h0 h1 => by dsimp only; omega, fun i j _ _ _ _ h => by dsimp only at h; omega, ?_⟩, ?_⟩
    · rintro i j ⟨a, b, c, d⟩
      dsimp only
      rcases h2 i a b with rfl | rfl <;> rcases h3 j c d with rfl | rfl | rfl <;> decide +kernel
    · rintro i j ⟨a, b, c, d⟩ hji
      rcases h2 i a b with rfl | rfl <;> rcases h2 j c d with rfl | rfl <;> first | omega | norm_num [abs_le]
  · intro F _
    refine ⟨fun j h0 h1 => ?_, by norm_num⟩
    have : j = 0 := by omega
    subst this
    norm_num

end

/-! ## C76 -/

/-- C76. `qr_row_stabilize` for an m x n matrix A (m < n) returns 0, and A has been replaced by a matrix X with orthonormal rows such that `A = L X` for a lower triangular
matrix L; if the rows of A are independent, the rows of X span the same space. Only the entries of A and the first m elements of `tau` have changed. -/
theorem C76_lq [Field T] {L : RowLapack T} {m n : Int} {A : Int → Int → T} {s : Buf T × Buf T} (hL : LqFor L m n) (hm : 1 ≤ m) (hn : m < n)
    (hA : HoldsC s.1 m m n A) (ht : ∀ i, 0 ≤ i → i < m → s.2 i ≠ .none) :
    M.wp (qrRowStabilize L m n) s (fun r s' => r = 0 ∧ ∃ X Lw : Int → Int → T, HoldsC s'.1 m m n X ∧ OrthoCols n m (fun i j => X j i) ∧ (∀ i j, i < j → Lw i j = 0) ∧
      (∀ i j, InR m n i j → A i j = prodEntry m Lw X i j) ∧ (FullColRank n m (fun i j => A j i) → RowEquiv m n A X) ∧
      SameOutside s.1 s'.1 .ColMajor m m n ∧ SameOutsideVec s.2 s'.2 m) := by
  refine M.wp_mono (qrRowStabilize_spec hL hm hn (holdsC_cells hA) ht) ?_
  rintro r s' ⟨rfl, Lw, Q, hQ, hlo, hfac, hu, -, ht'⟩
  obtain ⟨g1, g2⟩ := upd_holdsC hu
  exact ⟨rfl, Q, Lw, g1, hQ, hlo, hfac, rowEquiv_of_factor hfac, g2, ht'⟩

/-- C76 (shape). A matrix that is not wider than high is rejected, but only after it has been overwritten by `gelqf`. -/
theorem C76_lq_shape [Zero T] {L : RowLapack T} {m n : Int} {A : Int → Int → T} {s : Buf T × Buf T} (hm : 1 ≤ m) (hn : 0 ≤ n) (h : n ≤ m)
    (hA : HoldsC s.1 m m n A) (ht : ∀ i, 0 ≤ i → i < n → s.2 i ≠ .none) : (qrRowStabilize L m n s).1 = .throw .require := by
  have h1 : M.wp (gelqf L m n) s (fun _ _ => True) := by
    unfold gelqf
    simp only [M.wp_bind, wp_blasCheck, onFst, onSnd, M.wp_zoom]
    refine ⟨by omega, by omega, hm, ?_⟩
    refine M.wp_mono (readMat_spec (by omega) (by omega) (holdsC_cells hA)) ?_
    rintro F _ ⟨rfl, hF⟩
    refine M.wp_mono (writeMat_spec (by omega) (by omega) le_rfl (fun i j hij => by rw [holdsC_cells hA i j hij]; simp)) ?_
    intro _ b hb
    rw [min_eq_right h]
    exact M.wp_mono (writeVec_spec (by omega) ht) fun _ _ _ => trivial
  obtain ⟨_, s1, e, -⟩ := h1
  unfold qrRowStabilize
  rw [M.bind_ok e, M.bind_throw (e := .require) (s' := s1) (by unfold M.require; rw [Res.require, if_neg (by omega)]; rfl)]

/-- The hypotheses of C76 are met by the real 2 x 3 matrix with entries i + j. -/
example : ∃ (L : RowLapack ℝ) (s : Buf ℝ × Buf ℝ), LqFor L 2 3 ∧ HoldsC s.1 2 2 3 (fun i j => (i + j : Int)) ∧ (∀ i, 0 ≤ i → i < 2 → s.2 i ≠ .none) := by
  obtain ⟨L, hL⟩ := exists_lqFor
  refine ⟨L, (Buf.ofFn 6 fun p => ((p % 2 + p / 2 : Int) : ℝ), Buf.alloc ℝ 2), hL 2 3 (by norm_num) (by norm_num), ?_, fun i h0 h1 => by simp [Buf.alloc, h0, h1]⟩
  rintro i j ⟨h1, h2, h3, h4⟩
  rw [addr_colMajor]
  simp only [Buf.ofFn]
  rw [if_pos (by omega), show (i + j * 2) % 2 = i by omega, show (i + j * 2) / 2 = j by omega]

/-! ## C77 -/

section
variable {N : Nat} {K W WS R : Type} [Field T] [LinearOrder T] [IsStrictOrderedRing T] [Field R] [LinearOrder R] [IsStrictOrderedRing R] [FloorRing R]

omit [LinearOrder T] [IsStrictOrderedRing T] in
theorem toMat_mem {L : List (Entry T)} (h : (L.map Entry.pos).Nodup) {e : Entry T} (he : e ∈ L) : toMat L e.row e.col = e.val := by
  obtain ⟨a, b, rfl⟩ := List.append_of_mem he
  rw [List.map_append, List.map_cons, List.nodup_append, List.nodup_cons] at h
  obtain ⟨-, ⟨h2, -⟩, h3⟩ := h
  rw [toMat_append, toMat_none (E := a), zero_add, show e :: b = [e] ++ b from rfl, toMat_append, toMat_none (E := b), add_zero]
  · simp [toMat]
  · rintro x hx ⟨hr, hc⟩
    exact h2 (List.mem_map.2 ⟨x, hx, Prod.ext hr hc⟩)
  · rintro x hx ⟨hr, hc⟩
    exact h3 _ (List.mem_map_of_mem hx) _ List.mem_cons_self (Prod.ext hr hc)

omit [LinearOrder T] [IsStrictOrderedRing T] in
/-- A short-axis operator that is taller than wide, or has two or more nonzeros per short-axis vector, has a nonzero outside its first row. -/
theorem saso_offFirst {GS : Gen N K WS R} {sqrt : T → T} (hG : GS.Ok) (h1 : sqrt 1 = 1) {D : SparseDist} (hok : SparseDistOk D) (hax : D.majorAxis = .Short) {seed : RNGState N K}
    {Sm : Int → Int → T} (hSm : SparseSamples GS sqrt D seed Sm) (h : D.nCols < D.nRows ∨ 2 ≤ D.vecNnz) : ∃ i j, InR D.nRows D.nCols i j ∧ i ≠ 0 ∧ Sm i j ≠ 0 := by
  obtain ⟨L, g1, g2⟩ := sparseSamples_run hG h1 hok hSm
  obtain ⟨hR, hC, hk, hkd, -, -, hax'⟩ := sparseDist_facts hok
  rcases hax' with ⟨-, hmaj, hmin⟩ | ⟨a, -, -⟩
  swap
  · rw [a] at hax; cases hax
  have hin := sparseRun_inRange hok g1 (by rw [hax]; intro h; cases h)
  obtain ⟨e, he, hrow⟩ : ∃ e ∈ L, (mkEntry D e).row ≠ 0 := by
    rcases Classical.em (D.nCols < D.nRows) with ht | ht
    · obtain ⟨e, he, hq⟩ := sparseRun_long_mem hok hax g1 (q := 1) (by omega) (by omega)
      exact ⟨e, he, by unfold mkEntry; rw [if_neg (by omega)]; dsimp only; omega⟩
    · have h2 : 2 ≤ D.vecNnz := by omega
      rcases g1 with ⟨-, rfl⟩ | ⟨a, -⟩
      swap
      · rw [a] at hax; cases hax
      by_contra hall
      push Not at hall
      have hcnt := saso_count (T := T) (G := GS) (seed := seed) hk hkd D.dimMinor.toNat 0 le_rfl (by omega)
      rw [show ((D.dimMinor.toNat : Nat) : Int) = D.dimMinor by omega] at hcnt
      have hnd' := (saso_nodup (T := T) (G := GS) (seed := seed) (r := D.dimMinor) hk hkd)
      have hsub : ((sasoTriples (T := T) GS seed D.vecNnz D.dimMajor D.dimMinor).filter fun e => e.2.1 = 0).map (fun e => (e.1, e.2.1)) =
          ((sasoTriples (T := T) GS seed D.vecNnz D.dimMajor D.dimMinor).filter fun e => e.2.1 = 0).map (fun _ => ((0, 0) : Int × Int)) := by
        refine List.map_congr_left fun e he => ?_
        simp only [List.mem_filter, decide_eq_true_eq] at he
        have := hall e he.1
        unfold mkEntry at this
        rw [if_pos (by omega)] at this
        exact Prod.ext this he.2
      have hn2 : (((sasoTriples (T := T) GS seed D.vecNnz D.dimMajor D.dimMinor).filter fun e => e.2.1 = 0).map (fun e => (e.1, e.2.1))).Nodup :=
        hnd'.sublist (List.filter_sublist.map _)
      rw [hsub, List.map_const', List.nodup_replicate] at hn2
      omega
  have hm := List.mem_map_of_mem (f := mkEntry D) he
  refine ⟨(mkEntry D e).row, (mkEntry D e).col, hin _ hm, hrow, ?_⟩
  rw [← g2]
  rcases g1 with ⟨-, rfl⟩ | ⟨a, -⟩
  swap
  · rw [a] at hax; cases hax
  rw [toMat_mem (mkEntry_nodup D (saso_nodup hk hkd)) hm, mkEntry_val]
  rcases (saso_mem hk hkd he).2.2.2.2 with h | h <;> rw [h] <;> simp

omit [LinearOrder T] [IsStrictOrderedRing T] [IsStrictOrderedRing R] in
/-- The operator of `sketch_orthogonalize_rows` and its entries. -/
theorem rowSketch_op {E : SkEnv N K W WS R T} (hE : SkEnvOk E) {seed : RNGState N K} {n d : Int} {D : SparseDist} {Sm : Int → Int → T}
    (hd : 2 ≤ d) (hn : n < 2 ^ 60) (hd' : d < 2 ^ 60) (hD : mkSparseDist n d (min (d / 2) 4) .Short = .ok D)
    (hSm : SparseSamples E.GS E.sqrt D seed Sm) : SparseDistOk D ∧ SparseOpOk (mkSparseSkOp E.GS.len D seed : SparseSkOp N K T) ∧
      ∃ L0, SparseIs E (mkSparseSkOp E.GS.len D seed : SparseSkOp N K T) (L0.map (mkEntry D)) ∧ SparseRun E.GS E.sqrt D seed L0 ∧ toMat (L0.map (mkEntry D)) = Sm := by
  obtain ⟨d1, d2, d3, d4, d5, d6⟩ := sparseDist_of_mk hD
  have hok : SparseDistOk D := d6 (by
    rw [d5]
    have : min (d / 2) 4 * (max n d) ≤ 4 * max n d := mul_le_mul_of_nonneg_right (min_le_right _ _) (by omega)
    simp only [reduceCtorEq, if_false, intMax]
    omega)
  obtain ⟨L1, g1, g2⟩ := sparseSamples_run hE.genS hE.sqrt hok hSm
  have hmat : toMat (L1.map (mkEntry D)) = Sm := by funext i j; exact g2 i j
  obtain ⟨L, h1, L0, rfl, hrun⟩ := sparseIs_of_dist (E := E) (S := (mkSparseSkOp E.GS.len D seed : SparseSkOp N K T)) hE hok rfl rfl (by simp [mkSparseSkOp])
  refine ⟨hok, mkSparseSkOp_ok E.GS.len hok seed, L0, h1, hrun, ?_⟩
  rw [← hmat]; funext i j; exact toMat_perm ((sparseRun_perm hrun g1).map _) i j

omit [IsStrictOrderedRing T] in
theorem rowSketch_spec {E : SkEnv N K W WS R T} (hE : SkEnvOk E) {seed : RNGState N K} {m n d : Int} {D : SparseDist} {A Sm : Int → Int → T} {s : StabSt T}
    (hm : 0 ≤ m) (hd : 2 ≤ d) (hn1 : 1 ≤ n) (hn : n < 2 ^ 60) (hd' : d < 2 ^ 60) (hD : mkSparseDist n d (min (d / 2) 4) .Short = .ok D)
    (hSm : SparseSamples E.GS E.sqrt D seed Sm) (hreg : ∃ i j, InR n d i j ∧ i ≠ 0 ∧ Sm i j ≠ 0) (hA : HoldsC s.a m m n A) (hal : Alloc s.sk .ColMajor m m d) :
    M.wp (rowSketch E seed m n d) s (fun _ s' => HoldsC s'.sk m m d (prodEntry n A Sm) ∧ SameOutside s.sk s'.sk .ColMajor m m d ∧ s' = { s with sk := s'.sk }) := by
  obtain ⟨d1, d2, d3, d4, d5, d6⟩ := sparseDist_of_mk hD
  obtain ⟨hok, hop, L0, h1, hrun, hmat'⟩ := rowSketch_op hE hd hn hd' hD hSm
  have hin := sparseRun_inRange hok hrun (by rw [d4]; intro h; cases h)
  have hex : ∃ e ∈ window 0 0 n d (L0.map (mkEntry D)), e.row ≠ 0 := by
    obtain ⟨i, j, hij, hi, hne⟩ := hreg
    by_contra hno
    push Not at hno
    refine hne ?_
    rw [← hmat']
    rw [show toMat (L0.map (mkEntry D)) i j = subMat 0 0 (toMat (L0.map (mkEntry D))) i j by simp [subMat], ← toMat_window _ hij]
    exact toMat_none fun e he h => hi (by rw [← h.1]; exact hno e he)
  unfold rowSketch
  simp only [M.wp_bind, M.wp_lift, M.wp_get, M.wp_zoom]
  refine ⟨D, hD, ?_⟩
  unfold sketchGeneralRFull
  simp only [M.wp_bind, M.wp_get, M.wp_require]
  refine ⟨by simp [SkOp.nRows, mkSparseSkOp, d1], by simp [SkOp.nCols, mkSparseSkOp, d2], ?_⟩
  refine M.wp_mono (C37_right_unfilled (C := fun _ _ => 0) (Am := A) hE (S := mkSparseSkOp E.GS.len D seed) (by simp [mkSparseSkOp]) hop h1
    (by simpa [mkSparseSkOp] using hin) ?_ ?_ hm (by omega) (by omega) ?_ ?_ (fun _ => hA) hal (fun h => absurd rfl h)) ?_
  · exact ⟨le_rfl, le_rfl, by simp [rowsOf, mkSparseSkOp, d1], by simp [colsOf, mkSparseSkOp, d2]⟩
  · intro _
    obtain ⟨e, he, her⟩ := hex
    refine Or.inl ⟨hn1, fun _ _ => ?_⟩
    simp only [opEntries, rowsOf, colsOf, Op.flip]
    exact ⟨e.swap, List.mem_map_of_mem he, her⟩
  · simp [LdOk, rowsOf]
  · simp [LdOk]
  · rintro _ ⟨S', b'⟩ ⟨P, rfl, k1, k2, -⟩
    refine ⟨fun i j hij => ?_, k2, trivial⟩
    dsimp only at k1 ⊢
    rw [k1 i j hij, hmat']
    simp only [zero_mul, add_zero, one_mul]
    congr 2
    funext i j; simp [opMat, subMat]

omit [IsStrictOrderedRing T] in
theorem smallDiag_spec {tol : T} {m : Int} {Lf : Int → T} {b : Buf T} (hm : 0 ≤ m) (hm' : m < 2147483648)
    (h : ∀ i, 0 ≤ i → i < m → b (i * m + i) = .val (Lf i)) :
    M.wp (smallDiag tol m) b (fun r b' => b' = b ∧ (r = true ↔ ∃ i, 0 ≤ i ∧ i < m ∧ |Lf i| < tol)) := by
  unfold smallDiag
  rw [M.wp_bind, min_eq_left (by omega)]
  refine M.wp_findI (fun i b' => b' = b ∧ ∀ l, 0 ≤ l → l < i → ¬ |Lf l| < tol) hm ⟨rfl, fun l h0 h1 => by omega⟩ ?_ ?_
  · rintro i _ h0 h1 ⟨rfl, hi⟩
    rw [M.wp_bind, M.wp_rd]
    refine ⟨Lf i, h i h0 h1, ?_⟩
    rw [M.wp_pure]
    by_cases hs : |Lf i| < tol
    · rw [if_pos hs]
      refine ⟨fun h => absurd h (by simp), fun _ => ?_⟩
      rw [M.wp_bind, M.wp_ubIf]
      refine ⟨by simp, ?_⟩
      rw [M.wp_pure]
      exact ⟨rfl, fun _ => ⟨i, h0, h1, hs⟩, fun _ => rfl⟩
    · rw [if_neg hs]
      refine ⟨fun _ => ⟨rfl, fun l l0 l1 => ?_⟩, fun h => absurd rfl h⟩
      rcases eq_or_ne l i with rfl | hne
      · exact hs
      · exact hi l l0 (by omega)
  · rintro _ ⟨rfl, hall⟩
    rw [M.wp_bind, M.wp_ubIf]
    refine ⟨by omega, ?_⟩
    rw [M.wp_pure]
    refine ⟨rfl, fun h => absurd h (by simp), ?_⟩
    rintro ⟨i, h0, h1, hs⟩
    exact absurd hs (hall i h0 h1)

/-- C77. `sketch_orthogonalize_rows` for an m x n matrix A, where `m <= d`, `m < n` and `2 <= d`. Let S be the n x d sparse operator that the distribution (min(d/2, 4) nonzeros per row) and
the seed determine. The function replaces A by a matrix X such that `A = L X` with a lower triangular matrix L, and
* it returns 0, all diagonal entries of L have absolute value at least the tolerance, the rows of X span the same space as those of A, and the rows of `X S` are orthonormal, or
* it returns 1, A S has an LQ decomposition where some diagonal entry of the triangular factor is smaller than the tolerance, and the rows of X are orthonormal
  (and span the same space as those of A if these are independent).
Only the entries of A and the m x d matrix in the work array have changed.

Missing: operators whose nonzeros are all in the first row, which can occur only if `d` is 2 or 3 and `d >= n` (`C77_off_first`) and for which the call is undefined
(`C77_first_row_undefined`), and m >= 2^31, for which the `int` counter overflows (`C77_int_undefined`). -/
theorem C77_sketch_orth_partial {E : SkEnv N K W WS R T} (hE : SkEnvOk E) {tol : T} {L : RowLapack T} {seed : RNGState N K} {m n d : Int} {D : SparseDist}
    {A Sm : Int → Int → T} {s : StabSt T} (htol : 0 < tol) (hm : 1 ≤ m) (hm' : m < 2147483648) (hmd : m ≤ d) (hd : 2 ≤ d) (hmn : m < n) (hn : n < 2 ^ 60) (hd' : d < 2 ^ 60)
    (hLd : LqFor L m d) (hLn : LqFor L m n) (hD : mkSparseDist n d (min (d / 2) 4) .Short = .ok D)
    (hSm : SparseSamples E.GS E.sqrt D seed Sm) (hreg : ∃ i j, InR n d i j ∧ i ≠ 0 ∧ Sm i j ≠ 0) (hA : HoldsC s.a m m n A) (hal : Alloc s.sk .ColMajor m m d) :
    M.wp (sketchOrthRows E tol L seed m n d) s (fun r s' => ∃ X Lw : Int → Int → T, HoldsC s'.a m m n X ∧ (∀ i j, i < j → Lw i j = 0) ∧
      (∀ i j, InR m n i j → A i j = prodEntry m Lw X i j) ∧
      (r = 0 ∧ (∀ i, 0 ≤ i → i < m → tol ≤ |Lw i i|) ∧ RowEquiv m n A X ∧ OrthoCols d m (fun i j => prodEntry n X Sm j i) ∨
       r = 1 ∧ (∃ L0 Q0 : Int → Int → T, (∀ i j, i < j → L0 i j = 0) ∧ OrthoCols d m (fun i j => Q0 j i) ∧
          (∀ i j, InR m d i j → prodEntry n A Sm i j = prodEntry m L0 Q0 i j) ∧ ∃ i, 0 ≤ i ∧ i < m ∧ |L0 i i| < tol) ∧
        OrthoCols n m (fun i j => X j i) ∧ (FullColRank n m (fun i j => A j i) → RowEquiv m n A X)) ∧
      SameOutside s.a s'.a .ColMajor m m n ∧ SameOutside s.sk s'.sk .ColMajor m m d ∧ Alloc s'.sk .ColMajor m m d ∧ s'.piv = s.piv ∧ s'.tau = s.tau) := by
  unfold sketchOrthRows
  rw [M.wp_bind, M.wp_require]
  refine ⟨hd, ?_⟩
  rw [M.wp_bind, M.wp_require]
  refine ⟨hmd, ?_⟩
  rw [M.wp_bind]
  refine M.wp_mono (rowSketch_spec hE (by omega) hd (by omega) hn hd' hD hSm hreg hA hal) ?_
  rintro _ s1 ⟨h1, h1', e1⟩
  obtain ⟨a1, e1a⟩ : s1.a = s.a ∧ s1.piv = s.piv ∧ s1.tau = s.tau := by rw [e1]; exact ⟨rfl, rfl, rfl⟩
  rw [M.wp_bind, M.wp_get, M.wp_bind, M.wp_onLocal]
  refine M.wp_mono (gelqf_spec (s := (s1.sk, Buf.fill d 0)) hm hmd (holdsC_cells h1) (fun i h0 h1 => by
    simp only [Buf.fill]; rw [if_pos ⟨h0, by omega⟩]; simp)) ?_
  rintro _ ⟨k2, t2⟩ ⟨F, hF, hk2, ht2, -⟩
  dsimp only at hk2 ht2 ⊢
  obtain ⟨Q, hQ, hfac, -⟩ := hLd F
  obtain ⟨Lw, hLw⟩ : ∃ Lw : Int → Int → T, Lw = fun i l => if l ≤ i then (L.lq m d F).f i l else 0 := ⟨_, rfl⟩
  rw [← hLw] at hfac
  have hlo : ∀ i j, i < j → Lw i j = 0 := fun i j h => by rw [hLw]; exact if_neg (by omega)
  have hdiag : ∀ i, Lw i i = (L.lq m d F).f i i := fun i => by rw [hLw]; exact if_pos le_rfl
  have hfac' : ∀ i j, InR m d i j → prodEntry n A Sm i j = prodEntry m Lw Q i j := fun i j hij => by rw [← hF i j hij, hfac i j hij]
  have hsk := upd_holdsC hk2
  rw [M.wp_bind, M.wp_modify, M.wp_bind, M.wp_onLocal]
  refine M.wp_mono (smallDiag_spec (Lf := fun i => Lw i i) (by omega) hm' (fun i h0 h1 => by
    rw [hdiag, ← hk2.cells i i ⟨h0, h1, h0, by omega⟩, add_comm])) ?_
  rintro small k3 ⟨-, hsmall⟩
  have hskout : SameOutside s.sk k2 .ColMajor m m d := fun x hx => by rw [hsk.2 x hx, h1' x hx]
  have hskal : Alloc k2 .ColMajor m m d := fun i j hij => by rw [hsk.1 i j hij]; simp
  cases small with
  | true =>
    obtain hs := hsmall.1 rfl
    dsimp only
    rw [if_pos rfl, M.wp_bind, M.wp_onLocal]
    refine M.wp_mono (C76_lq (s := (s1.a, t2)) hLn hm (by omega) (by rw [a1]; exact hA) (fun i h0 h1 => by dsimp only; rw [ht2 i h0 h1]; simp)) ?_
    rintro r ⟨a3, t3⟩ ⟨rfl, X, Lw', g1, g2, g3, g4, g5, g6, -⟩
    rw [M.wp_bind, M.wp_modify, M.wp_pure]
    exact ⟨X, Lw', g1, g3, g4, Or.inr ⟨rfl, ⟨Lw, Q, hlo, hQ, hfac', hs⟩, g2, g5⟩, by rw [← a1]; exact g6, hskout, hskal, e1a.1, e1a.2⟩
  | false =>
    have hbig : ∀ i, 0 ≤ i → i < m → tol ≤ |Lw i i| := fun i h0 h1 => by
      by_contra h
      exact absurd (hsmall.2 ⟨i, h0, h1, not_le.1 h⟩) (by simp)
    have hne : ∀ i, 0 ≤ i → i < m → Lw i i ≠ 0 := fun i h0 h1 h => by
      have := hbig i h0 h1
      rw [h, abs_zero] at this
      exact absurd htol (not_lt.2 this)
    dsimp only
    rw [if_neg (by simp), M.wp_bind, StabSt.wp_onA]
    dsimp only
    refine M.wp_mono (trsmLeftLower_spec (L := Lw) (B := A) (b0 := s.a) (by omega) (by omega) le_rfl le_rfl (fun i j h0 h1 h2 => by
      rw [zero_add, hk2.cells i j ⟨by omega, h2, h0, by omega⟩, hLw]; dsimp only; rw [if_pos h1]) (by rw [a1]; exact Upd.refl (holdsC_cells hA))) ?_
    intro _ b hb
    rw [M.wp_pure]
    obtain ⟨X, hX⟩ : ∃ X : Int → Int → T, X = fun i j => rsubF (fun r c => Lw c r) (fun r c => A c r) i.toNat j := ⟨_, rfl⟩
    rw [← hX] at hb
    have hAX : ∀ i j, InR m n i j → A i j = prodEntry m Lw X i j := fun i j hij => by rw [hX, lsub_mul hlo hne hij.1 hij.2.1]
    have hu := lower_unit hlo hne
    obtain ⟨g1, g2⟩ := upd_holdsC hb
    refine ⟨X, Lw, g1, hlo, hAX, Or.inl ⟨rfl, hbig, rowEquiv_of_unit hAX hu, ?_⟩, g2, hskout, hskal, e1a.1, e1a.2⟩
    have hXS : asM m d (prodEntry n X Sm) = asM m d Q := by
      have e : asM m m Lw * asM m d (prodEntry n X Sm) = asM m m Lw * asM m d Q := by
        rw [← asM_mul, ← asM_mul, asM_eq]
        intro i j hij
        rw [← hfac' i j hij, ← prodEntry_assoc]
        exact prodEntry_ext (fun l l0 l1 => (hAX i l ⟨hij.1, hij.2.1, l0, l1⟩).symm) (fun _ _ _ => rfl)
      have := congrArg (fun Z => (asM m m Lw)⁻¹ * Z) e
      simpa only [Matrix.nonsing_inv_mul_cancel_left _ _ ((Matrix.isUnit_iff_isUnit_det _).1 hu)] using this
    rw [asM_eq] at hXS
    intro i j hij
    rw [← hQ i j hij]
    exact prodEntry_ext (fun l l0 l1 => hXS i l ⟨hij.1, hij.2.1, l0, l1⟩) (fun l l0 l1 => hXS j l ⟨hij.2.2.1, hij.2.2.2, l0, l1⟩)

end

/-- An environment with real numbers. -/
noncomputable def exSkEnvR : SkEnv (2 ^ 128) Nat Int Int ℚ ℝ :=
  ⟨⟨fun lt l => l.mergeSort fun a b => !lt b a, [], 4⟩, ⟨4, fun _ _ i => i, fun a b => (a, b), fun w => w, fun w => w.toNat⟩, Real.sqrt 3, exGenQ, Real.sqrt, fun _ l => l⟩

theorem exSkEnvR_ok : SkEnvOk exSkEnvR := ⟨⟨mergeSort_sortOk, by norm_num [exSkEnvR]⟩, Or.inr rfl, Or.inr rfl, Real.sqrt_one, fun _ l => List.Perm.refl l⟩

section
variable {N : Nat} {K WS R : Type} [Field T] [Field R] [LinearOrder R] [IsStrictOrderedRing R] [FloorRing R]

/-- The condition of C77 on the operator holds for all seeds if `d < n` or `d >= 4`. -/
theorem C77_off_first {GS : Gen N K WS R} {sqrt : T → T} (hG : GS.Ok) (h1 : sqrt 1 = 1) {n d : Int} {D : SparseDist} (hd : 2 ≤ d) (hn : n < 2 ^ 60) (hd' : d < 2 ^ 60)
    (hD : mkSparseDist n d (min (d / 2) 4) .Short = .ok D) {seed : RNGState N K} {Sm : Int → Int → T} (hSm : SparseSamples GS sqrt D seed Sm) (h : d < n ∨ 4 ≤ d) :
    ∃ i j, InR n d i j ∧ i ≠ 0 ∧ Sm i j ≠ 0 := by
  obtain ⟨d1, d2, d3, d4, d5, d6⟩ := sparseDist_of_mk hD
  have hok : SparseDistOk D := d6 (by
    rw [d5]
    have : min (d / 2) 4 * (max n d) ≤ 4 * max n d := mul_le_mul_of_nonneg_right (min_le_right _ _) (by omega)
    simp only [reduceCtorEq, if_false, intMax]
    omega)
  have := saso_offFirst hG h1 hok d4 hSm (by rw [d1, d2, d3]; omega)
  rwa [d1, d2] at this

end

/-- The hypotheses of C77 are met by the real 2 x 5 matrix with entries i + j and d = 3. -/
example : ∃ (L : RowLapack ℝ) (D : SparseDist) (Sm : Int → Int → ℝ) (s : StabSt ℝ), SkEnvOk exSkEnvR ∧ LqFor L 2 3 ∧ LqFor L 2 5 ∧
    mkSparseDist 5 3 (min (3 / 2) 4) .Short = .ok D ∧ SparseSamples exSkEnvR.GS exSkEnvR.sqrt D ⟨0, 7⟩ Sm ∧ (∃ i j, InR 5 3 i j ∧ i ≠ 0 ∧ Sm i j ≠ 0) ∧
    HoldsC s.a 2 2 5 (fun i j => (i + j : Int)) ∧ Alloc s.sk .ColMajor 2 2 3 := by
  obtain ⟨L, hL⟩ := exists_lqFor
  have hD : mkSparseDist 5 3 (min (3 / 2) 4) .Short = .ok ⟨5, 3, .Short, 3, 5, 1, 5⟩ := by decide
  obtain ⟨Sm, hSm, -⟩ := C14_well_defined (G := exGenQ) (sqrt := Real.sqrt) (D := ⟨5, 3, .Short, 3, 5, 1, 5⟩) (seed := ⟨0, 7⟩) (Or.inr rfl) Real.sqrt_one ⟨by decide, by decide⟩
  refine ⟨L, _, Sm, ⟨Buf.ofFn 10 fun p => ((p % 2 + p / 2 : Int) : ℝ), fun _ => .none, fun _ => .none, Buf.alloc ℝ 6⟩, exSkEnvR_ok, hL 2 3 (by norm_num) (by norm_num),
    hL 2 5 (by norm_num) (by norm_num), hD, hSm, C77_off_first (Or.inr rfl) Real.sqrt_one (by norm_num) (by norm_num) (by norm_num) hD hSm (Or.inl (by norm_num)), ?_, ?_⟩
  · rintro i j ⟨h1, h2, h3, h4⟩
    rw [addr_colMajor]
    simp only [Buf.ofFn]
    rw [if_pos (by omega), show (i + j * 2) % 2 = i by omega, show (i + j * 2) / 2 = j by omega]
  · rintro i j ⟨h1, h2, h3, h4⟩
    rw [addr_colMajor]
    simp only [Buf.alloc]
    rw [if_pos (by omega)]; simp

end RB
