import Verif.Props.TestHrLapack
import Verif.Lemmas.MatBridge

/-!
# C135, continued: the tests of the eigenvalue routines
-/

namespace RB
open Spec
variable {N : Nat} {K W WS R T : Type}

/-! ## Specification -/

/-- The n x n matrix `S` is symmetric and positive definite, and its eigenvalues are the numbers `ev 0`, ..., `ev (n - 1)`. -/
structure Spec.HasEigvals [Field T] [LinearOrder T] (n : Int) (S : Int → Int → T) (ev : Int → T) : Prop where
  symm : ∀ i j, InR n n i j → S i j = S j i
  posDef : PosDefU n S
  eigvals : ∀ lam, IsEigval n S lam ↔ ∃ i, 0 ≤ i ∧ i < n ∧ lam = ev i
  trace : ∑ i ∈ Finset.range n.toNat, S i i = ∑ i ∈ Finset.range n.toNat, ev i

section
variable [Field T] [LinearOrder T]

/-! ## The diagonal test -/

/-- C135 (eigenvalues of diagonal matrices). Whatever the routine under test: if, given the diagonal matrix with the entries 1, 1/2, 1/3, ..., it returns `code` and the numbers e, then `run_diag` reports
the code if it is not zero, and otherwise the first number that is not close to the corresponding diagonal entry. -/
theorem C135_eig_diag_compares {tol : T} {eig : M (Buf T × Buf T) Int} {n : Int} (hn : 0 ≤ n) (hnn : n * n ≤ intMax 32) {P : Int → (Int → T) → Prop}
    (heig : ∀ a, Holds a .ColMajor n n n (fun i j => if i = j then 1 / (1 + (i : T)) else 0) → M.wp eig (a, zeroVec n) (fun code s => ∃ e, P code e ∧ HoldsVec s.2 n e)) :
    M.wp (testEigDiag tol eig n) () (fun r _ => ∃ code e, P code e ∧
      (r = none ↔ code = 0 ∧ ∀ i, 0 ≤ i → i < n → Close tol tol (e i) (1 / (1 + (i : T)))) ∧
      (∀ c, r = some (.iters c) ↔ c = code ∧ code ≠ 0) ∧
      ∀ i, r = some (.eigval i) → 0 ≤ i ∧ i < n ∧ ¬ Close tol tol (e i) (1 / (1 + (i : T))) ∧ ∀ j, 0 ≤ j → j < i → Close tol tol (e j) (1 / (1 + (j : T)))) := by
  unfold testEigDiag
  rw [M.wp_bind]
  refine ubIf_no (by omega) ?_
  rw [M.wp_bind, M.wp_onLocal]
  refine M.wp_mono (M.wp_forI (fun q s => Holds s.1 .ColMajor n n n (fun i j => if i = j ∧ i < q then 1 / (1 + (i : T)) else 0) ∧
    ∀ i, 0 ≤ i → i < n → s.2 i = .val (if i < q then 1 / (1 + (i : T)) else 0)) (Q := fun _ s => Holds s.1 .ColMajor n n n (fun i j => if i = j then 1 / (1 + (i : T)) else 0) ∧
    HoldsVec s.2 n (fun i => 1 / (1 + (i : T)))) hn ?_ ?_ ?_) ?_
  · refine ⟨fun i j hij => ?_, fun i h0 h1 => ?_⟩
    · dsimp only; rw [zeroVec_holds n n i j hij, if_neg (by have := hij.1; omega)]
    · dsimp only; rw [zeroVec_val h0 h1, if_neg (by omega)]
  · rintro q ⟨a, b⟩ q0 q1 ⟨h1, h2⟩
    dsimp only at h1 h2
    obtain ⟨e1, e2⟩ := diag_step (d := fun i => 1 / (1 + (i : T))) h1 q0 q1
    unfold onFst onSnd
    simp only [M.wp_bind, M.wp_zoom, M.wp_wr, M.wp_rd]
    refine ⟨by rw [h2 q q0 q1]; simp, _, by rw [Buf.set_apply, if_pos rfl], e1, e2, fun i h0 hi => ?_⟩
    rw [Buf.set_apply]
    by_cases h : i = q
    · subst h; rw [if_pos rfl, if_pos (by omega)]
    · rw [if_neg h, h2 i h0 hi]
      congr 1
      by_cases h' : i < q
      · rw [if_pos h', if_pos (by omega)]
      · rw [if_neg h', if_neg (by omega)]
  · rintro s ⟨h1, h2⟩
    refine ⟨fun i j hij => ?_, fun i h0 hi => ?_⟩
    · rw [h1 i j hij]; simp [hij.2.1]
    · rw [h2 i h0 hi, if_pos hi]
  · rintro _ ⟨a, b⟩ ⟨h1, h2⟩
    dsimp only at h1 h2 ⊢
    rw [M.wp_bind, M.wp_onLocal]
    refine M.wp_mono (heig a h1) ?_
    rintro code ⟨a', ev⟩ ⟨e, hP, he⟩
    dsimp only at he ⊢
    by_cases hc : code = 0
    · rw [if_neg (by simpa using hc), M.wp_bind, M.wp_lift]
      have hfl : ∀ {b : Buf T} {x : Int → T}, HoldsVec b n x → ∀ i, 0 ≤ i → i < n → fltBuf b i = .val (.fin (x i)) := fun h i h0 hi => by
        unfold fltBuf; rw [h i h0 hi]
      rcases C118_buffs_partial hn (hfl he) (hfl h2) tol tol with ⟨hr, hall⟩ | ⟨i, hr, h0, hi, hbad, hpre⟩
      · refine ⟨none, hr, ?_⟩
        rw [M.wp_pure]
        exact ⟨code, e, hP, ⟨fun _ => ⟨hc, hall⟩, fun _ => rfl⟩, fun c => ⟨fun h => by simp at h, fun h => absurd hc h.2⟩, fun i h => by simp at h⟩
      · refine ⟨some i, hr, ?_⟩
        rw [M.wp_pure]
        refine ⟨code, e, hP, ⟨fun h => by simp at h, fun h => absurd (h.2 i h0 hi) hbad⟩, fun c => ⟨fun h => by simp at h, fun h => absurd hc h.2⟩, fun j h => ?_⟩
        simp at h
        subst h
        exact ⟨h0, hi, hbad, hpre⟩
    · rw [if_pos (by simpa using hc), M.wp_pure]
      exact ⟨code, e, hP, ⟨fun h => by simp at h, fun h => absurd h.1 hc⟩, fun c => ⟨fun h => ⟨by simpa using h.symm, hc⟩, fun h => by rw [h.1]⟩, fun i h => by simp at h⟩

section
variable [IsStrictOrderedRing T]

/-- One round of the Cholesky iteration for a diagonal matrix converges and returns its diagonal. -/
theorem cholIter_diag {sqrt : T → T} (hs : SqrtOk sqrt) {n b iter : Int} {tol : T} {d : Int → T} (hd : ∀ i, 0 ≤ i → i < n → 0 < d i) {a e g : Buf T} (hn : 1 ≤ n) (hb : 0 < b) (ht : 0 ≤ tol)
    (ha : Holds a .ColMajor n n n (fun i j => if i = j then d i else 0)) (he : ∀ p, 0 ≤ p → p < n → e p ≠ .none) (hg : Holds g .ColMajor n n n (fun _ _ => 0)) :
    M.wp (cholIterBody sqrt n b tol iter) ⟨a, e, g⟩ (fun o s => o = some iter ∧ HoldsVec s.eig n d) := by
  have hn0 : 0 ≤ n := by omega
  unfold cholIterBody
  rw [M.wp_bind, wp_eigA]
  refine M.wp_mono (potrf_posDef hs hn0 (le_refl n) hb (A := fun i j => if i = j then d i else 0) (fun i j hij => by
      rw [← addr_colMajor]; exact ha i j ⟨hij.1, by have := hij.2; omega, by have := hij.1; have := hij.2; omega, hij.2.2⟩) (diag_posDef hd)) ?_
  rintro _ a1 ⟨R, hR, hRA, hu⟩
  have hdR := diag_chol hs hd hR (fun i j hij => by
      rw [hRA i j hij]
      unfold symU
      split
      · rfl
      · rename_i h; dsimp only; rw [if_neg (by omega), if_neg (by omega)])
  have h1 := holds_after_chol ha (upd_holdsUpper hu) (upd_sameOutsideUpper hu)
  dsimp only
  rw [M.wp_bind, wp_eigA]
  refine M.wp_mono (overwrite_lower_spec (A := fun i j => .val (if i ≤ j then R i j else if i = j then d i else 0)) (b0 := a1) hn0 (by omega) (show LdOk .ColMajor n n n from le_refl _)
    (MatSt.of_holds h1) (fun i j _ => by simp)) ?_
  intro _ a2 h2
  have h2' : Holds a2 .ColMajor n n n R := fun i j hij => by
    rw [h2.cells i j hij]
    by_cases h : j < i
    · rw [if_pos (by omega), hR.1 i j h]
    · rw [if_neg (by omega), if_pos (by omega)]
  dsimp only
  rw [M.wp_bind, M.wp_get, M.wp_bind, wp_eigG]
  refine M.wp_mono (syrkUpperNoTrans_spec (A := R) (C := fun _ _ => 0) (b0 := g) hn0 hn0 (le_refl _) (le_refl _)
    (fun i j hij => by rw [zero_add, ← addr_colMajor]; exact h2' i j hij) (Upd.refl fun i j hij => by
      rw [← addr_colMajor]; exact hg i j ⟨hij.1, by have := hij.2; omega, by have := hij.1; have := hij.2; omega, hij.2.2⟩)) ?_
  intro _ g1 h3
  dsimp only at h3 ⊢
  rw [M.wp_bind, wp_eigG]
  have h3' := holds_after_chol hg (upd_holdsUpper h3) (upd_sameOutsideUpper h3)
  refine M.wp_mono (symmetrize_upper_spec (b0 := g1) hn0 (show LdOk .ColMajor n n n from le_refl _) (MatSt.of_holds h3')) ?_
  intro _ g2 h4
  have hprod : ∀ i j, InR n n i j → prodEntry n R (fun r c => R c r) i j = if i = j then d i else 0 := by
    rintro i j ⟨h0, h1, h2, h3⟩
    unfold prodEntry
    rw [Finset.sum_eq_single i.toNat]
    · dsimp only
      rw [Int.toNat_of_nonneg h0, hdR i i ⟨h0, h1, h0, h1⟩, hdR j i ⟨h2, h3, h0, h1⟩, if_pos rfl]
      by_cases h : i = j
      · subst h; rw [if_pos rfl, if_pos rfl]; exact (hs _ (hd i h0 h1)).2
      · rw [if_neg (fun h' => h h'.symm), if_neg h, mul_zero]
    · intro l hl hne
      have := Finset.mem_range.1 hl
      rw [hdR i l ⟨h0, h1, by omega, by omega⟩, if_neg (by omega), zero_mul]
    · intro h; exact absurd (Finset.mem_range.2 (by omega)) h
  have h4' : Holds g2 .ColMajor n n n (fun i j => if i = j then d i else 0) := fun i j hij => by
    rw [h4.cells i j hij]
    congr 1
    by_cases h : j < i
    · rw [if_pos h, if_pos (by omega), hprod j i ⟨hij.2.2.1, hij.2.2.2, hij.1, hij.2.1⟩, if_neg (by omega)]
      exact (if_neg (by omega)).symm
    · rw [if_neg h, if_pos (by omega), hprod i j hij]
  dsimp only
  rw [M.wp_bind, M.wp_get, M.wp_bind, wp_eigE]
  refine M.wp_mono (diag_spec hn0 (G := fun i j => if i = j then d i else 0) (fun i j hij => by rw [← addr_colMajor]; exact h4' i j hij) he) ?_
  rintro _ e1 ⟨h5, -⟩
  dsimp only at h5 ⊢
  rw [M.wp_bind, wp_eigG]
  refine M.wp_mono (C65_diagonal hn ht h4' (fun i j _ h => if_neg h) (fun i h0 h1 => by rw [if_pos rfl]; exact (hd i h0 h1).le)) ?_
  rintro _ g3 rfl
  rw [if_pos rfl, M.wp_pure]
  exact ⟨rfl, fun i h0 h1 => (h5 i h0 h1).trans (by rw [if_pos rfl])⟩

/-- C135 (eigenvalues of diagonal matrices). `run_diag` accepts `posdef_eig_chol_iteration`, in exact arithmetic, for every order and block size: the first round returns the diagonal. -/
theorem C135_eig_diag {sqrt : T → T} (hs : SqrtOk sqrt) {tol : T} (ht : 0 ≤ tol) {n b : Int} (hn : 1 ≤ n) (hb : 0 < b) (hnn : n * n ≤ intMax 32) :
    M.wp (testEigDiag tol (posdefEigChol sqrt n tol 1 b) n) () (fun r _ => r = none) := by
  have hpos : ∀ i : Int, 0 ≤ i → i < n → (0 : T) < 1 / (1 + (i : T)) := fun i h0 _ => by
    have : (0 : T) ≤ i := by exact_mod_cast h0
    exact one_div_pos.2 (by linarith)
  refine M.wp_mono (C135_eig_diag_compares (tol := tol) (by omega) hnn (P := fun code e => code = 0 ∧ ∀ i, 0 ≤ i → i < n → e i = 1 / (1 + (i : T))) fun a ha => ?_) ?_
  · unfold posdefEigChol
    rw [M.wp_zoom, M.wp_bind]
    have hbody := cholIter_diag (iter := 0) hs hpos hn (b := min b n) (by omega) ht ha (e := zeroVec n) (fun p p0 p1 => by rw [zeroVec_val p0 p1]; simp) (zeroVec_holds n n)
    refine M.wp_mono (M.wp_findI (fun q s => (q = 0 ∧ s = (⟨a, zeroVec n, zeroVec (n * n)⟩ : EigSt T))) (Q := fun o s => o = some 0 ∧ HoldsVec s.eig n (fun i => 1 / (1 + (i : T)))) (by norm_num) ⟨rfl, rfl⟩ ?_ ?_) ?_
    · rintro q s - - ⟨rfl, rfl⟩
      refine M.wp_mono hbody ?_
      rintro o s ⟨rfl, h⟩
      exact ⟨fun h => by simp at h, fun _ => ⟨rfl, h⟩⟩
    · rintro s ⟨h, -⟩; omega
    · rintro o s ⟨rfl, h⟩
      rw [M.wp_pure]
      exact ⟨_, ⟨rfl, fun i _ _ => rfl⟩, h⟩
  · rintro r _ ⟨code, e, ⟨rfl, he⟩, h1, -⟩
    exact h1.2 ⟨rfl, fun i h0 hi => by rw [he i h0 hi]; exact close_same ht _⟩

/-! ## Matrices with given eigenvalues -/

omit [LinearOrder T] [IsStrictOrderedRing T] in
/-- The rows of a square matrix with orthonormal columns are orthonormal. -/
theorem ortho_rows {n : Int} {Q : Int → Int → T} (h : OrthoCols n n Q) : ∀ i j, InR n n i j → prodEntry n Q (fun r c => Q c r) i j = if i = j then 1 else 0 := by
  have h1 := mul_eq_one_comm.1 (ortho_asM.1 h)
  rw [← asM_T, ← asM_mul, show (1 : Matrix (Fin n.toNat) (Fin n.toNat) T) = asM n n (fun i j => if i = j then 1 else 0) by
    ext i j; simp [asM, Matrix.one_apply, Fin.ext_iff], asM_eq] at h1
  exact h1

omit [LinearOrder T] [IsStrictOrderedRing T] in
/-- x = Q (Q^T x). -/
theorem ortho_expand {n : Int} {Q : Int → Int → T} (h : OrthoCols n n Q) (x : Int → T) {i : Int} (h0 : 0 ≤ i) (h1 : i < n) :
    x i = ∑ l ∈ Finset.range n.toNat, Q i l * ∑ j ∈ Finset.range n.toNat, Q j l * x j := by
  have hr := ortho_rows h
  unfold prodEntry at hr
  have : x i = ∑ j ∈ Finset.range n.toNat, (∑ l ∈ Finset.range n.toNat, Q i l * Q j l) * x j := by
    rw [Finset.sum_eq_single i.toNat]
    · rw [Int.toNat_of_nonneg h0, hr i i ⟨h0, h1, h0, h1⟩, if_pos rfl, one_mul]
    · intro j hj hne
      have := Finset.mem_range.1 hj
      rw [hr i j ⟨h0, h1, by omega, by omega⟩, if_neg (by omega), zero_mul]
    · intro h; exact absurd (Finset.mem_range.2 (by omega)) h
  rw [this]
  simp only [Finset.sum_mul, Finset.mul_sum]
  rw [Finset.sum_comm]
  exact Finset.sum_congr rfl fun l _ => Finset.sum_congr rfl fun j _ => by ring

omit [LinearOrder T] [IsStrictOrderedRing T] in
/-- Q^T Q y = y. -/
theorem ortho_contract {n : Int} {Q : Int → Int → T} (h : OrthoCols n n Q) (y : Int → T) {m : Int} (h0 : 0 ≤ m) (h1 : m < n) :
    ∑ i ∈ Finset.range n.toNat, Q i m * ∑ l ∈ Finset.range n.toNat, Q i l * y l = y m := by
  simp only [Finset.mul_sum]
  rw [Finset.sum_comm]
  have hc : ∀ a b, InR n n a b → ∑ i ∈ Finset.range n.toNat, Q i a * Q i b = if a = b then 1 else 0 := h
  simp only [← mul_assoc, ← Finset.sum_mul]
  rw [Finset.sum_eq_single m.toNat]
  · rw [Int.toNat_of_nonneg h0, hc m m ⟨h0, h1, h0, h1⟩, if_pos rfl, one_mul]
  · intro j hj hne
    have := Finset.mem_range.1 hj
    rw [hc m j ⟨h0, h1, by omega, by omega⟩, if_neg (by omega), zero_mul]
  · intro h; exact absurd (Finset.mem_range.2 (by omega)) h

/-- The matrix `Q diag(ev) Q^T` has the eigenvalues ev. -/
theorem hasEigvals_of_ortho {sqrt : T → T} (hs : SqrtOk sqrt) {n : Int} {Q : Int → Int → T} {ev : Int → T} (hQ : OrthoCols n n Q) (hev : ∀ i, 0 ≤ i → i < n → 0 < ev i) :
    HasEigvals n (prodEntry n (fun i l => sqrt (ev l) * Q i l) (fun l j => sqrt (ev l) * Q j l)) ev := by
  have hS : ∀ i j, prodEntry n (fun i l => sqrt (ev l) * Q i l) (fun l j => sqrt (ev l) * Q j l) i j = ∑ l ∈ Finset.range n.toNat, ev l * Q i l * Q j l := by
    intro i j
    refine Finset.sum_congr rfl fun l hl => ?_
    have := Finset.mem_range.1 hl
    have := (hs _ (hev l (by omega) (by omega))).2
    calc sqrt (ev l) * Q i l * (sqrt (ev l) * Q j l) = (sqrt (ev l) * sqrt (ev l)) * Q i l * Q j l := by ring
      _ = _ := by rw [this]
  have hSx : ∀ (x : Int → T) (i : Int), ∑ j ∈ Finset.range n.toNat, prodEntry n (fun i l => sqrt (ev l) * Q i l) (fun l j => sqrt (ev l) * Q j l) i j * x j =
      ∑ l ∈ Finset.range n.toNat, Q i l * (ev l * ∑ j ∈ Finset.range n.toNat, Q j l * x j) := by
    intro x i
    simp only [hS, Finset.sum_mul, Finset.mul_sum]
    rw [Finset.sum_comm]
    exact Finset.sum_congr rfl fun l _ => Finset.sum_congr rfl fun j _ => by ring
  have hc : ∀ a b, InR n n a b → ∑ i ∈ Finset.range n.toNat, Q i a * Q i b = if a = b then 1 else 0 := hQ
  refine ⟨fun i j _ => ?_, ?_, fun lam => ⟨?_, ?_⟩, ?_⟩
  · rw [hS, hS]; exact Finset.sum_congr rfl fun l _ => by ring
  · refine gram_posDef (A := fun l j => sqrt (ev l) * Q j l) fun x hx i h0 h1 => ?_
    rw [ortho_expand hQ x h0 h1]
    refine Finset.sum_eq_zero fun l hl => ?_
    have := Finset.mem_range.1 hl
    have hz := hx l (by omega) (by omega)
    simp only [mul_assoc, ← Finset.mul_sum] at hz
    rw [(mul_eq_zero.1 hz).resolve_left (hs _ (hev l (by omega) (by omega))).1.ne', mul_zero]
  · rintro ⟨x, ⟨i, h0, h1, hx⟩, hlam⟩
    by_contra hno
    refine hx ?_
    rw [ortho_expand hQ x h0 h1]
    refine Finset.sum_eq_zero fun m hm => ?_
    have hm := Finset.mem_range.1 hm
    have e1 := ortho_contract hQ (fun l => ev l * ∑ j ∈ Finset.range n.toNat, Q j l * x j) (m := m) (by omega) (by omega)
    have e2 : ∑ i ∈ Finset.range n.toNat, Q i m * ∑ l ∈ Finset.range n.toNat, Q i l * (ev l * ∑ j ∈ Finset.range n.toNat, Q j l * x j) = lam * ∑ j ∈ Finset.range n.toNat, Q j m * x j := by
      rw [Finset.mul_sum]
      refine Finset.sum_congr rfl fun j hj => ?_
      have hj := Finset.mem_range.1 hj
      rw [← hSx, hlam j (by omega) (by omega)]; ring
    rw [e2] at e1
    have : (lam - ev m) * ∑ j ∈ Finset.range n.toNat, Q j m * x j = 0 := by rw [sub_mul, e1, sub_self]
    rw [(mul_eq_zero.1 this).resolve_left fun h => hno ⟨m, by omega, by omega, sub_eq_zero.1 h⟩, mul_zero]
  · rintro ⟨m, h0, h1, rfl⟩
    refine ⟨fun j => Q j m, ?_, fun i hi0 hi => ?_⟩
    · by_contra hno
      have := hc m m ⟨h0, h1, h0, h1⟩
      rw [if_pos rfl, Finset.sum_eq_zero fun i hi => ?_] at this
      · exact zero_ne_one this
      · have hi := Finset.mem_range.1 hi
        by_contra hne
        exact hno ⟨i, by omega, by omega, fun h => hne (by dsimp only at h; rw [h, zero_mul])⟩
    · rw [hSx (fun j => Q j m) i, Finset.sum_eq_single m.toNat]
      · rw [Int.toNat_of_nonneg h0, hc m m ⟨h0, h1, h0, h1⟩, if_pos rfl, mul_one, mul_comm]
      · intro l hl hne
        have := Finset.mem_range.1 hl
        rw [hc l m ⟨by omega, by omega, h0, h1⟩, if_neg (by omega), mul_zero, mul_zero]
      · intro h; exact absurd (Finset.mem_range.2 (by omega)) h
  · simp only [hS]
    rw [Finset.sum_comm]
    refine Finset.sum_congr rfl fun l hl => ?_
    have := Finset.mem_range.1 hl
    simp only [mul_assoc, ← Finset.mul_sum]
    rw [hc l l ⟨by omega, by omega, by omega, by omega⟩, if_pos rfl, mul_one]

/-- C135 (random matrices with given eigenvalues). `posdef_with_random_eigvecs` returns a symmetric positive definite matrix with exactly the given eigenvalues, in exact arithmetic, if the random
matrix is invertible. -/
theorem C135_posdef {E : SkEnv N K W WS R T} (hG : E.G.Ok) {sqrt : T → T} (hs : SqrtOk sqrt) {n : Int} {eigvals : Buf T} {ev : Int → T} {seed : RNGState N K} (hn : 1 ≤ n) (hfit : n * n ≤ intMax 64)
    (hv : HoldsVec eigvals n ev) (hpos : ∀ i, 0 ≤ i → i < n → 0 < ev i) (hX : FullColRank n n (gaussOf E.G seed n n)) :
    M.wp (posdefRandom E sqrt n eigvals seed) () (fun A _ => ∃ S, HasEigvals n S ev ∧ Holds A .ColMajor n n n S) := by
  have hn0 : 0 ≤ n := by omega
  obtain ⟨D, hD, hfill⟩ := fill_flat hG (m := n) (n := n) (by omega) (by omega) hfit seed
  unfold posdefRandom
  rw [M.wp_bind]
  refine M.wp_mono (M.wp_forI (fun _ _ => True) (Q := fun _ _ => True) hn0 trivial (fun i _ h0 h1 _ => ?_) (fun _ _ => trivial)) ?_
  · rw [M.wp_bind, M.wp_lift]
    refine ⟨ev i, Buf.rd_val (hv i h0 h1), ?_⟩
    rw [M.wp_require]
    exact ⟨hpos i h0 h1, trivial⟩
  intro _ _ _
  rw [M.wp_bind, M.wp_lift]
  refine ⟨D, hD, ?_⟩
  rw [M.wp_bind, M.wp_onLocal]
  refine M.wp_mono hfill ?_
  rintro _ _ rfl
  dsimp only
  rw [M.wp_bind, M.wp_onLocal]
  refine M.wp_mono (cgs2Fresh_spec hs hn (le_refl n) (by norm_num) hX (gauss_holds E.G seed n n) (fun p p0 p1 => by rw [zeroVec_val p0 p1]; simp)) ?_
  rintro _ ⟨q, r⟩ ⟨Q, Rm, ⟨hQ, -⟩, hq, -⟩
  dsimp only at hq ⊢
  rw [M.wp_bind, M.wp_onLocal]
  refine M.wp_mono (M.wp_forI (fun k b => Holds b .ColMajor n n n (fun i l => if l < k then sqrt (ev l) * Q i l else Q i l))
    (Q := fun _ b => Holds b .ColMajor n n n (fun i l => sqrt (ev l) * Q i l)) hn0 ?_ ?_ ?_) ?_
  · intro i j hij
    dsimp only; rw [hq i j hij, if_neg (by have := hij.2.2; omega)]
  · intro k b k0 k1 hb
    rw [M.wp_bind, M.wp_lift]
    refine ⟨ev k, Buf.rd_val (hv k k0 k1), ?_⟩
    refine M.wp_mono (blasScal_spec (x := k * n) (incx := 1) (a := sqrt (ev k)) (v := fun i => Q i k) hn0 (by norm_num) (fun i h0 h1 => ?_)) ?_
    · have := hb i k ⟨h0, h1, k0, k1⟩
      dsimp only at this
      rw [addr_colMajor, if_neg (by omega)] at this
      rw [← this]; congr 1; ring
    · rintro _ b' ⟨h1, h2⟩ i j hij
      dsimp only
      by_cases h : j = k
      · subst h
        rw [if_pos (by omega), addr_colMajor]
        have := h1 i hij.1 hij.2.1
        rw [← this]; congr 1; ring
      · rw [h2 _ (fun i' h0 h1 he => ?_), hb i j hij]
        · congr 1
          dsimp only
          by_cases h' : j < k
          · rw [if_pos h', if_pos (by omega)]
          · rw [if_neg h', if_neg (by omega)]
        · refine h (addr_inj (show LdOk .ColMajor n n n from le_refl _) hij ⟨h0, h1, k0, k1⟩ ?_).2
          rw [he, addr_colMajor]; ring
  · intro b hb i j hij
    rw [hb i j hij]; dsimp only; rw [if_pos hij.2.2.2]
  · intro _ w hw
    dsimp only
    rw [M.wp_bind, M.wp_onLocal, M.wp_bind]
    refine M.wp_mono (syrkUpperNoTrans_spec (A := fun i l => sqrt (ev l) * Q i l) (C := fun _ _ => 0) (b0 := zeroVec (n * n)) hn0 hn0 (le_refl _) (le_refl _)
      (fun i j hij => by rw [zero_add, ← addr_colMajor]; exact hw i j hij) (Upd.refl fun i j hij => by
        rw [← addr_colMajor]; exact zeroVec_holds n n i j ⟨hij.1, by have := hij.2; omega, by have := hij.1; have := hij.2; omega, hij.2.2⟩)) ?_
    intro _ g1 h3
    have h3' := holds_after_chol (zeroVec_holds n n) (upd_holdsUpper h3) (upd_sameOutsideUpper h3)
    refine M.wp_mono (symmetrize_upper_spec (b0 := g1) hn0 (show LdOk .ColMajor n n n from le_refl _) (MatSt.of_holds h3')) ?_
    intro _ g2 h4
    rw [M.wp_pure]
    have hE := hasEigvals_of_ortho hs hQ hpos
    refine ⟨_, hE, fun i j hij => ?_⟩
    refine (h4.cells i j hij).trans ?_
    congr 1
    by_cases h : j < i
    · rw [if_pos h, if_pos (by omega)]
      exact (hE.symm i j hij).symm
    · rw [if_neg h, if_pos (by omega)]

omit [IsStrictOrderedRing T] in
/-- C135 (random matrices with given eigenvalues). An eigenvalue that is not positive is rejected with an error. -/
theorem C135_posdef_error {E : SkEnv N K W WS R T} {sqrt : T → T} {n i : Int} {eigvals : Buf T} {ev : Int → T} {seed : RNGState N K} (hv : HoldsVec eigvals n ev) (h0 : 0 ≤ i) (h1 : i < n)
    (hneg : ev i ≤ 0) : (posdefRandom E sqrt n eigvals seed ()).1 = .throw .require := by
  have key : ∀ k : Nat, (k : Int) ≤ n → ((∀ j, 0 ≤ j → j < (k : Int) → 0 < ev j) ∨
      (forN k (fun i => do let v ← M.lift (eigvals.rd (0 + i)); M.require (v > 0)) : M Unit Unit) () = (Res.throw .require, ())) := by
    intro k
    induction k with
    | zero => exact fun _ => Or.inl fun j _ _ => by omega
    | succ k ih =>
      intro hk
      rcases ih (by omega) with h | h
      · by_cases hp : 0 < ev k
        · refine Or.inl fun j j0 j1 => ?_
          rcases (show j < (k : Int) ∨ j = k by omega) with h' | rfl
          · exact h j j0 h'
          · exact hp
        · refine Or.inr ?_
          have hok : M.wp (forN k (fun i => do let v ← M.lift (eigvals.rd (0 + i)); M.require (v > 0)) : M Unit Unit) () (fun _ _ => True) :=
            M.wp_forN (fun _ _ => True) trivial (fun i _ hi _ => by
              rw [M.wp_bind, M.wp_lift]
              refine ⟨ev i, by rw [zero_add]; exact Buf.rd_val (hv i (by omega) (by omega)), ?_⟩
              rw [M.wp_require]
              exact ⟨h i (by omega) (by omega), trivial⟩) (fun _ _ => trivial)
          obtain ⟨u, s, e, -⟩ := hok
          rw [forN]
          refine (M.bind_ok e).trans ?_
          refine (M.bind_ok (a := ev k) (s' := ()) ?_).trans ?_
          · unfold M.lift; rw [zero_add, Buf.rd_val (hv k (by omega) (by omega))]
          · unfold M.require M.lift Res.require; rw [if_neg hp]
      · refine Or.inr ?_
        rw [forN]
        exact M.bind_throw h
  unfold posdefRandom
  rw [M.bind_throw (e := .require) (s' := ())]
  unfold forI
  rcases key (n - 0).toNat (by omega) with h | h
  · exact absurd (h i h0 (by omega)) (not_lt.2 hneg)
  · exact h

/-- C135 (power method). Whatever the routine under test: if, for every matrix with the eigenvalues 2, 2/sqrt 2, 2/sqrt 3, ..., 2/sqrt n, it returns two numbers `r` (with the property `P`), then
`run_power_general_posdef` compares the second with the smallest and the first with the largest eigenvalue. -/
theorem C135_power_compares {E : SkEnv N K W WS R T} (hG : E.G.Ok) {sqrt : T → T} (hs : SqrtOk sqrt) {tol : T} {eigs : Buf T → M (Buf T) (T × T)} {n : Int} {seed : RNGState N K} (hn : 1 ≤ n)
    (h32 : 2 * n ≤ intMax 32) (hX : FullColRank n n (gaussOf E.G seed n n)) {P : T × T → Prop}
    (heigs : ∀ A S, HasEigvals n S (fun i => 2 / sqrt (1 + (i : T))) → Holds A .ColMajor n n n S → M.wp (eigs A) (zeroVec (2 * n)) (fun r _ => P r)) :
    M.wp (testPower E sqrt tol eigs n seed) () (fun flags _ => ∃ r, P r ∧
      (flags.1 = false ↔ Close tol tol r.2 (2 / sqrt (n : T))) ∧ (flags.2 = false ↔ Close tol tol r.1 (2 / sqrt 1))) := by
  have hn0 : 0 ≤ n := by omega
  have hi : intMax 32 = 2147483647 := by norm_num [intMax]
  have hi' : intMax 64 = 9223372036854775807 := by norm_num [intMax]
  unfold testPower
  rw [M.wp_bind, M.wp_onLocal]
  refine M.wp_mono (M.wp_forI (fun k b => (∀ i, 0 ≤ i → i < k → b i = .val (2 / sqrt (1 + (i : T)))) ∧ ∀ i, 0 ≤ i → i < n → b i ≠ .none)
    (Q := fun _ b => HoldsVec b n (fun i => 2 / sqrt (1 + (i : T)))) hn0 ?_ ?_ ?_) ?_
  · exact ⟨fun i _ _ => by omega, fun i h0 h1 => by rw [zeroVec_val h0 h1]; simp⟩
  · rintro k b k0 k1 ⟨h1, h2⟩
    rw [M.wp_wr]
    refine ⟨h2 k k0 k1, fun i i0 hi => ?_, fun i i0 hi => ?_⟩ <;> rw [Buf.set_apply]
    · by_cases h : i = k
      · subst h; rw [if_pos rfl]
      · rw [if_neg h]; exact h1 i i0 (by omega)
    · split
      · simp
      · exact h2 i i0 hi
  · exact fun b h => h.1
  · intro _ ev hev
    dsimp only
    rw [M.wp_bind]
    have hpos : ∀ i : Int, 0 ≤ i → i < n → (0 : T) < 2 / sqrt (1 + (i : T)) := fun i h0 _ => by
      have : (0 : T) ≤ i := by exact_mod_cast h0
      exact div_pos (by norm_num) (hs _ (by linarith)).1
    refine M.wp_mono (C135_posdef hG hs hn (by nlinarith) hev hpos hX) ?_
    rintro A _ ⟨S, hS, hA⟩
    rw [M.wp_bind]
    refine ubIf_no (by omega) ?_
    rw [M.wp_bind, M.wp_onLocal]
    refine M.wp_mono (heigs A S hS hA) ?_
    intro r _ hP
    dsimp only
    rw [M.wp_bind, M.wp_lift]
    refine ⟨_, Buf.rd_val (hev (n - 1) (by omega) (by omega)), ?_⟩
    rw [M.wp_bind, M.wp_lift]
    refine ⟨_, Buf.rd_val (hev 0 (by omega) (by omega)), ?_⟩
    rw [M.wp_pure]
    refine ⟨r, hP, ?_, ?_⟩ <;> dsimp only
    · rw [show (1 + ((n - 1 : Int) : T)) = (n : T) by push_cast; ring]
      exact C118_approx_equal_fails _ _ _ _
    · rw [show (1 + ((0 : Int) : T)) = (1 : T) by simp]
      exact C118_approx_equal_fails _ _ _ _


end
end

/-! ## The hypotheses are met -/

/-- The size and block size of one of the tests. -/
example : M.wp (testEigDiag (1 / 1000) (posdefEigChol Real.sqrt 8 (1 / 1000) 1 3) 8) () (fun r _ => r = none) :=
  C135_eig_diag sqrtOk_real (by norm_num) (by norm_num) (by norm_num) (by norm_num [intMax])

/-- The 2 x 2 matrix (0 1; 1 2). -/
theorem exHr_square : FullColRank 2 2 (gaussOf exHrEnv.G ⟨0, 7⟩ 2 2) := by
  intro x hx j h0 h1
  have e : ∀ i j, gaussOf exHrEnv.G ⟨0, 7⟩ 2 2 i j = ((gaussOf (exHrGen Int) ⟨0, 7⟩ 2 2 i j : Int) : ℝ) := exHr_cast _ _ _
  have r0 := hx 0 (by norm_num) (by norm_num)
  have r1 := hx 1 (by norm_num) (by norm_num)
  have e1 : gaussOf (exHrGen Int) ⟨0, 7⟩ 2 2 0 0 = 0 := by decide +kernel
  have e2 : gaussOf (exHrGen Int) ⟨0, 7⟩ 2 2 0 1 = 1 := by decide +kernel
  have e3 : gaussOf (exHrGen Int) ⟨0, 7⟩ 2 2 1 0 = 1 := by decide +kernel
  have e4 : gaussOf (exHrGen Int) ⟨0, 7⟩ 2 2 1 1 = 2 := by decide +kernel
  simp only [e] at r0 r1
  simp [Finset.sum_range_succ, e1, e2, e3, e4] at r0 r1
  have : j = 0 ∨ j = 1 := by omega
  rcases this with rfl | rfl
  · linarith
  · exact r0

/-- A matrix with the eigenvalues 3 and 5. -/
example : M.wp (posdefRandom exHrEnv Real.sqrt 2 (Buf.ofFn 2 fun i => 3 + 2 * (i : ℝ)) ⟨0, 7⟩) () (fun A _ => ∃ S, HasEigvals 2 S (fun i => 3 + 2 * (i : ℝ)) ∧ Holds A .ColMajor 2 2 2 S) :=
  C135_posdef (Or.inr rfl) sqrtOk_real (by norm_num) (by norm_num [intMax]) (fun i h0 h1 => by unfold Buf.ofFn; rw [if_pos ⟨h0, h1⟩])
    (fun i h0 _ => by have : (0 : ℝ) ≤ i := by exact_mod_cast h0
                      linarith) exHr_square

example : (posdefRandom exHrEnv Real.sqrt 2 (Buf.ofFn 2 fun i => 1 - (i : ℝ)) ⟨0, 7⟩ ()).1 = .throw .require :=
  C135_posdef_error (i := 1) (fun i h0 h1 => by unfold Buf.ofFn; rw [if_pos ⟨h0, h1⟩]) (by norm_num) (by norm_num) (by norm_num)

/-- A routine that finds the extreme eigenvalues passes. -/
example : M.wp (testPower exHrEnv Real.sqrt (1 / 1000) (fun _ => pure (2 / Real.sqrt 1, 2 / Real.sqrt 2)) 2 ⟨0, 7⟩) () (fun flags _ => flags = (false, false)) := by
  refine M.wp_mono (C135_power_compares (Or.inr rfl) sqrtOk_real (by norm_num) (by norm_num [intMax]) exHr_square (P := fun r => r = (2 / Real.sqrt 1, 2 / Real.sqrt 2)) fun A S _ _ => by
    rw [M.wp_pure]) ?_
  rintro ⟨f1, f2⟩ _ ⟨r, rfl, h1, h2⟩
  have e1 := h1.2 (close_same (by norm_num) _)
  have e2 := h2.2 (close_same (by norm_num) _)
  dsimp only at e1 e2
  rw [e1, e2]

/-- One that exchanges them does not. -/
example : M.wp (testPower exHrEnv Real.sqrt (1 / 1000) (fun _ => pure (1, 2)) 2 ⟨0, 7⟩) () (fun flags _ => flags.2 = true) := by
  refine M.wp_mono (C135_power_compares (Or.inr rfl) sqrtOk_real (by norm_num) (by norm_num [intMax]) exHr_square (P := fun r => r = (1, 2)) fun A S _ _ => by rw [M.wp_pure]) ?_
  rintro ⟨f1, f2⟩ _ ⟨r, rfl, -, h2⟩
  cases f2
  · have := h2.1 rfl
    unfold Close at this
    rw [Real.sqrt_one] at this
    norm_num [abs_of_neg] at this
  · rfl

end RB
