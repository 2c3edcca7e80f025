import Verif.Lemmas.Power
import Verif.Props.Qr

/-! # C65-C67: the eigenvalue routines of test/handrolled_lapack.hh

C65: "The Gershgorin test does not modify the matrix and compares, for the discs that reach lowest and highest, the radius with `tol` times the
centre; if it succeeds for a symmetric matrix, every eigenvalue lies between (1 - tol) times one diagonal entry and (1 + tol) times another one."

C66: "The Cholesky iteration for a positive definite matrix terminates without error; the entries of `eigvals` have the sum of the diagonal
of A; if it reports convergence, the extreme entries enclose all eigenvalues up to the tolerance."

C67: "The power method returns the Rayleigh quotient of A^(k-1) x and the normalised vector A^k x, for the k iterations it does from the
random vector x; the estimate is between the extreme eigenvalues, and more iterations do not decrease it.  The routine for both extreme
eigenvalues does so with A and its inverse and rejects matrices that are not symmetric." -/

namespace RB
open Spec

variable {T : Type} [Field T] [LinearOrder T] [IsStrictOrderedRing T]

/-! ## C65 -/

/-- What the test computes. -/
theorem C65_gershgorin {n : Int} {tol : T} {G : Int → Int → T} {b : Buf T} (hn : 1 ≤ n) (hG : Holds b .ColMajor n n n G) :
    M.wp (gershgorin n tol) b (fun res b' => b' = b ∧ ∃ l u, 0 ≤ l ∧ l < n ∧ 0 ≤ u ∧ u < n ∧
      (∀ i, 0 ≤ i → i < n → G l l - discRadius n G l ≤ G i i - discRadius n G i) ∧
      (∀ i, 0 ≤ i → i < n → G i i + discRadius n G i ≤ G u u + discRadius n G u) ∧
      (res = true ↔ discRadius n G l ≤ tol * G l l ∧ discRadius n G u ≤ tol * G u u)) :=
  gershgorin_spec hn fun i j hij => by rw [← addr_colMajor]; exact hG i j hij

/-- If the test succeeds for a symmetric matrix, two diagonal entries enclose all eigenvalues up to the tolerance. -/
theorem C65_enclosure {n : Int} {tol : T} {G : Int → Int → T} {b : Buf T} (hn : 1 ≤ n) (hG : Holds b .ColMajor n n n G)
    (hsym : ∀ i j, InR n n i j → G i j = G j i) :
    M.wp (gershgorin n tol) b (fun res _ => res = true → ∃ l u, 0 ≤ l ∧ l < n ∧ 0 ≤ u ∧ u < n ∧
      ∀ lam, IsEigval n G lam → (1 - tol) * G l l ≤ lam ∧ lam ≤ (1 + tol) * G u u) := by
  refine M.wp_mono (C65_gershgorin (tol := tol) hn hG) ?_
  rintro res b' ⟨-, l, u, hl0, hl, hu0, hu, h1, h2, h3⟩ hres
  obtain ⟨h4, h5⟩ := h3.1 hres
  refine ⟨l, u, hl0, hl, hu0, hu, fun lam hlam => ?_⟩
  obtain ⟨i, hi0, hi, hdisc⟩ := gersh_disc hsym hlam
  have h6 := abs_le.1 hdisc
  have h7 := h1 i hi0 hi
  have h8 := h2 i hi0 hi
  rw [sub_mul, add_mul, one_mul, one_mul]
  constructor <;> linarith

/-- The test succeeds for diagonal matrices with a nonnegative diagonal. -/
theorem C65_diagonal {n : Int} {tol : T} {G : Int → Int → T} {b : Buf T} (hn : 1 ≤ n) (ht : 0 ≤ tol) (hG : Holds b .ColMajor n n n G)
    (hdiag : ∀ i j, InR n n i j → i ≠ j → G i j = 0) (hpos : ∀ i, 0 ≤ i → i < n → 0 ≤ G i i) :
    M.wp (gershgorin n tol) b (fun res _ => res = true) := by
  refine M.wp_mono (C65_gershgorin (tol := tol) hn hG) ?_
  rintro res b' ⟨-, l, u, hl0, hl, hu0, hu, h1, h2, h3⟩
  have hr : ∀ i, 0 ≤ i → i < n → discRadius n G i = 0 := by
    intro i h0 hi
    refine Finset.sum_eq_zero fun j hj => ?_
    have := Finset.mem_range.1 hj
    split
    · rfl
    · rename_i hne
      rw [hdiag j i ⟨by omega, by omega, h0, hi⟩ hne, abs_zero]
  rw [h3, hr l hl0 hl, hr u hu0 hu]
  exact ⟨mul_nonneg ht (hpos l hl0 hl), mul_nonneg ht (hpos u hu0 hu)⟩

omit [IsStrictOrderedRing T] in
/-- For n = 0 the test reads the first element although there is none. -/
theorem C65_empty_counterexample (tol : T) : gershgorin 0 tol (fun _ => .none) = (.ub, fun _ => .none) := rfl

/-- Non-vacuity: the matrix (2 1; 1 3) with eigenvalue (5 + sqrt 5) / 2. -/
example : Holds (Buf.ofList [2, 1, 1, 3]) .ColMajor 2 2 2 (fun i j => if i ≠ j then (1 : ℝ) else if i = 0 then 2 else 3) ∧
    IsEigval 2 (fun i j => if i ≠ j then (1 : ℝ) else if i = 0 then 2 else 3) ((5 + Real.sqrt 5) / 2) := by
  constructor
  · rintro i j ⟨h0, h1, h2, h3⟩
    have : (i = 0 ∨ i = 1) ∧ (j = 0 ∨ j = 1) := by omega
    rcases this with ⟨rfl | rfl, rfl | rfl⟩ <;> simp [Buf.ofList, addr]
  · refine ⟨fun i => if i = 0 then 1 else (1 + Real.sqrt 5) / 2, ⟨0, le_refl _, by norm_num, by norm_num⟩, fun i h0 h1 => ?_⟩
    have h5 : Real.sqrt 5 * Real.sqrt 5 = 5 := Real.mul_self_sqrt (by norm_num)
    have : i = 0 ∨ i = 1 := by omega
    rcases this with rfl | rfl <;> simp [Finset.sum_range_succ] <;> nlinarith

/-! ## C66 -/

/-- The Cholesky iteration.  Missing for the full claim: only the extreme eigenvalues are enclosed, and with `max_iters = 0` the
result 0 does not mean convergence. -/
theorem C66_chol_iteration_partial {sqrt : T → T} (hs : SqrtOk sqrt) {n b maxIters : Int} {tol : T} {A : Int → Int → T} {a0 e0 : Buf T}
    (hn : 1 ≤ n) (hb : 0 < b) (hm : 1 ≤ maxIters) (hA : HoldsUpper a0 n n A) (hpd : PosDefU n A)
    (hal : ∀ p, 0 ≤ p → p < n * n → a0 p ≠ .none) (hale : ∀ p, 0 ≤ p → p < n → e0 p ≠ .none) :
    M.wp (posdefEigChol sqrt n tol maxIters b) (a0, e0) (fun code s =>
      (∀ p, (p < 0 ∨ n * n ≤ p) → s.1 p = a0 p) ∧ SameOutsideVec e0 s.2 n ∧
      ∃ e : Int → T, HoldsVec s.2 n e ∧ ∑ i ∈ Finset.range n.toNat, e i = ∑ i ∈ Finset.range n.toNat, A i i ∧
        (code = - maxIters ∨ (0 ≤ code ∧ code < maxIters ∧
          (∃ l u, 0 ≤ l ∧ l < n ∧ 0 ≤ u ∧ u < n ∧ ∀ lam, IsEigval n (symU A) lam → (1 - tol) * e l ≤ lam ∧ lam ≤ (1 + tol) * e u) ∧
          ∀ c i, 0 ≤ i → i < n → (RayleighGe n A c → c ≤ e i) ∧ (RayleighLe n A c → e i ≤ c)))) := by
  refine M.wp_mono (posdefEigChol_spec (tol := tol) (maxIters := maxIters) hs hn hb (fun i j hij => by
    rw [← addr_colMajor]; exact hA i j hij.1 hij.2.1 hij.2.2) hpd hal hale) ?_
  rintro code s (⟨t, hc0, hc, rfl, ho, hoE, e, he, htr, l, u, hl0, hl, hu0, hu, henc, hray⟩ | ⟨t, hc, rfl, hinv⟩)
  · exact ⟨ho, hoE, e, he, htr, Or.inr ⟨hc0, hc, ⟨l, u, hl0, hl, hu0, hu, henc⟩, hray⟩⟩
  · obtain ⟨e, he, htr⟩ := hinv.eig (by omega)
    exact ⟨hinv.outA, hinv.outE, e, he, htr, Or.inl (by rw [hc, max_eq_right (by omega)])⟩

omit [IsStrictOrderedRing T] in
/-- With `max_iters = 0` nothing is computed and the result is 0, as if the iteration had converged at once. -/
theorem C66_no_iterations_counterexample (sqrt : T → T) (n b : Int) (tol : T) (s : Buf T × Buf T) :
    posdefEigChol sqrt n tol 0 b s = (.ok 0, s) := rfl

theorem findN_throw {σ α : Type} {body : Nat → M σ (Option α)} {s s' : σ} {e : Err} (h : body 0 s = (.throw e, s')) :
    ∀ k, findN (k + 1) body s = (.throw e, s')
  | 0 => by
    rw [findN]
    exact (M.bind_ok (m := findN 0 body) (a := none) (s' := s) rfl).trans h
  | k + 1 => by
    rw [findN]
    exact M.bind_throw (findN_throw h k)

omit [IsStrictOrderedRing T] in
/-- The empty matrix is rejected: the block size is cut to 0. -/
theorem C66_empty_error (sqrt : T → T) (b maxIters : Int) (tol : T) (hb : 0 ≤ b) (hm : 1 ≤ maxIters) (s : Buf T × Buf T) :
    posdefEigChol sqrt 0 tol maxIters b s = (.throw .require, s) := by
  have h1 : ∀ t : EigSt T, cholIterBody sqrt 0 (min b 0) tol 0 t = (.throw .require, t) := by
    intro t
    unfold cholIterBody
    refine M.bind_throw ?_
    unfold EigSt.onA M.zoom
    rw [min_eq_right hb, C62_block_size_error (le_refl _)]
  obtain ⟨k, hk⟩ : ∃ k, (maxIters - 0).toNat = k + 1 := ⟨maxIters.toNat - 1, by omega⟩
  have h2 : ∀ t : EigSt T, findI 0 maxIters (cholIterBody sqrt 0 (min b 0) tol) t = (.throw .require, t) := by
    intro t
    unfold findI
    rw [hk]
    exact findN_throw (h1 t) k
  unfold posdefEigChol M.zoom
  rw [M.bind_throw (h2 _)]

/-- Square roots of the squares that occur below. -/
def sqrtEx (x : ℚ) : ℚ := if x = 4 then 2 else if x = 9 then 3 else if x = 25 then 5 else 1

/-- The matrix diag(1, (4 2; 2 10), 25). -/
def innerEx (i j : Int) : ℚ :=
  if i = j then (if i = 0 then 1 else if i = 1 then 4 else if i = 2 then 10 else 25)
  else if (i = 1 ∧ j = 2) ∨ (i = 2 ∧ j = 1) then 2 else 0

/-- Convergence is reported although an inner eigenvalue is wrong: for diag(1, (4 2; 2 10), 25) and tolerance 0 the result contains 5,
but the inner eigenvalues are 7 - sqrt 13 and 7 + sqrt 13. -/
theorem C66_inner_counterexample :
    let A : Buf ℚ := Buf.ofList [1, 0, 0, 0, 0, 4, 2, 0, 0, 2, 10, 0, 0, 0, 0, 25]
    let r := posdefEigChol sqrtEx 4 0 10 8 (A, Buf.ofList [0, 0, 0, 0])
    Holds A .ColMajor 4 4 4 innerEx ∧ r.1 = .ok 0 ∧ r.2.2 1 = .val 5 ∧ ¬ IsEigval 4 innerEx 5 := by
  intro A r
  have h : r.1 = .ok 0 ∧ r.2.2 1 = .val 5 := by decide +kernel
  refine ⟨?_, h.1, h.2, ?_⟩
  · rintro i j ⟨h0, h1, h2, h3⟩
    have : (i = 0 ∨ i = 1 ∨ i = 2 ∨ i = 3) ∧ (j = 0 ∨ j = 1 ∨ j = 2 ∨ j = 3) := by omega
    rcases this with ⟨rfl | rfl | rfl | rfl, rfl | rfl | rfl | rfl⟩ <;> decide +kernel
  · rintro ⟨x, ⟨i, h0, h1, hx⟩, hev⟩
    have e0 := hev 0 (by norm_num) (by norm_num)
    have e1 := hev 1 (by norm_num) (by norm_num)
    have e2 := hev 2 (by norm_num) (by norm_num)
    have e3 := hev 3 (by norm_num) (by norm_num)
    simp [Finset.sum_range_succ, innerEx] at e0 e1 e2 e3
    have : i = 0 ∨ i = 1 ∨ i = 2 ∨ i = 3 := by omega
    rcases this with rfl | rfl | rfl | rfl <;> exact hx (by linarith)

/-! ## C67 -/

/-- The vector at the start of the buffer has norm one and the direction of `u`. -/
def HoldsUnit (b : Buf T) (n : Int) (u : Int → T) : Prop :=
  ∃ s : T, 0 < s ∧ s * s = dotV n u u ∧ HoldsVec b n (fun i => u i / s)

omit [IsStrictOrderedRing T] in
theorem opSpec_gemv {n a0 : Int} {A : Int → Int → T} {Ab : Buf T} (hn : 0 ≤ n)
    (hA : ∀ i j, InR n n i j → Ab (a0 + (i + j * n)) = .val (A i j)) : OpSpec n A (fun x => blasGemv n Ab a0 x) :=
  fun _ _ _ hx hy => blasGemv_spec hn hA hx hy

/-- The power method: Rayleigh quotient and normalised vector. -/
theorem C67_power_method {sqrt : T → T} (hs : SqrtOk sqrt) {n iters : Int} {A : Int → Int → T} {fill : M (Buf T) Unit}
    {op : Buf T → M (Buf T) Unit} {v : Buf T} {x : Int → T} (hn : 1 ≤ n) (hit : 1 ≤ iters) (hop : OpSpec n A op)
    (hsym : ∀ i j, InR n n i j → A i j = A j i) (hpd : PosDefU n A)
    (hfill : Fills n x fill) (hx : ∃ i, 0 ≤ i ∧ i < n ∧ x i ≠ 0) (hv : ∀ i, 0 ≤ i → i < n → v i ≠ .none) :
    M.wp (powerMethod sqrt n iters fill op) v (fun lam v' =>
      lam * dotV n (powVec n A x (iters.toNat - 1)) (powVec n A x (iters.toNat - 1)) =
        dotV n (powVec n A x (iters.toNat - 1)) (powVec n A x iters.toNat) ∧
      HoldsUnit v' n (powVec n A x iters.toNat) ∧ SameOutsideVec v v' n ∧
      (∀ c, RayleighGe n A c → c ≤ lam) ∧ ∀ c, RayleighLe n A c → lam ≤ c) := by
  refine M.wp_mono (powerMethod_spec hs (by omega) (by omega) hop (mulVec_nz hsym hpd) (hfill v hv) hx) ?_
  rintro lam v' ⟨-, h1, h2⟩
  have h1 := h1 (by omega)
  refine ⟨h1, h2.cells, h2.out, ?_⟩
  obtain ⟨k, hk⟩ : ∃ k, iters.toNat = k + 1 := ⟨iters.toNat - 1, by omega⟩
  rw [hk, Nat.add_sub_cancel] at h1
  exact rayleigh_self hsym (powVec_nz (mulVec_nz hsym hpd) hx k) h1

/-- More iterations do not decrease the estimate. -/
theorem C67_monotone {sqrt : T → T} (hs : SqrtOk sqrt) {n iters : Int} {A : Int → Int → T} {fill : M (Buf T) Unit}
    {op : Buf T → M (Buf T) Unit} {v : Buf T} {x : Int → T} (hn : 1 ≤ n) (hit : 1 ≤ iters) (hop : OpSpec n A op)
    (hsym : ∀ i j, InR n n i j → A i j = A j i) (hpd : PosDefU n A)
    (hfill : Fills n x fill) (hx : ∃ i, 0 ≤ i ∧ i < n ∧ x i ≠ 0) (hv : ∀ i, 0 ≤ i → i < n → v i ≠ .none) :
    ∃ lam mu, (powerMethod sqrt n iters fill op v).1 = .ok lam ∧ (powerMethod sqrt n (iters + 1) fill op v).1 = .ok mu ∧ lam ≤ mu := by
  obtain ⟨lam, v1, e1, h1, -⟩ := C67_power_method hs hn hit hop hsym hpd hfill hx hv
  obtain ⟨mu, v2, e2, h2, -⟩ := C67_power_method hs hn (show 1 ≤ iters + 1 by omega) hop hsym hpd hfill hx hv
  refine ⟨lam, mu, by rw [e1], by rw [e2], ?_⟩
  obtain ⟨k, hk⟩ : ∃ k, iters.toNat = k + 1 := ⟨iters.toNat - 1, by omega⟩
  rw [show (iters + 1).toNat = k + 1 + 1 by omega, Nat.add_sub_cancel] at h2
  rw [hk, Nat.add_sub_cancel] at h1
  exact rayleigh_mono hsym hpd (powVec_nz (mulVec_nz hsym hpd) hx k) (powVec_nz (mulVec_nz hsym hpd) hx (k + 1)) h1 h2

/-- Both extreme eigenvalues. -/
theorem C67_exeigs {sqrt : T → T} (hs : SqrtOk sqrt) {n iters : Int} {a : Int → Int → T} {A v : Buf T} {work : Vec T}
    {fill1 fill2 : M (Buf T) Unit} {x1 x2 : Int → T} (hn : 1 ≤ n) (hit : 1 ≤ iters) (hA : Holds A .ColMajor n n n a)
    (hsym : ∀ i j, InR n n i j → a i j = a j i) (hpd : PosDefU n a) (hwork : ∀ p, 0 ≤ p → p < work.size → work.buf p ≠ .none)
    (hf1 : Fills n x1 fill1) (hf2 : Fills n x2 fill2) (hx1 : ∃ i, 0 ≤ i ∧ i < n ∧ x1 i ≠ 0) (hx2 : ∃ i, 0 ≤ i ∧ i < n ∧ x2 i ≠ 0)
    (hv : ∀ i, 0 ≤ i → i < 2 * n → v i ≠ .none) :
    M.wp (exeigs sqrt n iters A work fill1 fill2) v (fun r v' => ∃ X : Int → Int → T,
      (∀ i j, InR n n i j → prodEntry n a X i j = if i = j then 1 else 0) ∧
      r.1 * dotV n (powVec n a x1 (iters.toNat - 1)) (powVec n a x1 (iters.toNat - 1)) =
        dotV n (powVec n a x1 (iters.toNat - 1)) (powVec n a x1 iters.toNat) ∧
      dotV n (powVec n X x2 (iters.toNat - 1)) (powVec n X x2 (iters.toNat - 1)) =
        r.2 * dotV n (powVec n X x2 (iters.toNat - 1)) (powVec n X x2 iters.toNat) ∧
      HoldsUnit v' n (powVec n a x1 iters.toNat) ∧ HoldsUnit (v'.shift n) n (powVec n X x2 iters.toNat) ∧ SameOutsideVec v v' (2 * n) ∧
      (∀ c, RayleighGe n a c → c ≤ r.1 ∧ c ≤ r.2) ∧ ∀ c, RayleighLe n a c → r.1 ≤ c ∧ r.2 ≤ c) := by
  have hA' : ∀ i j, InR n n i j → A (i + j * n) = .val (a i j) := fun i j hij => by rw [← addr_colMajor]; exact hA i j hij
  unfold exeigs
  rw [M.wp_bind, M.wp_lift]
  refine ⟨(), (C21_exact_symmetry hA).2 hsym, ?_⟩
  rw [M.wp_bind]
  refine M.wp_mono (C67_power_method hs hn hit (opSpec_gemv (by omega) (fun i j hij => by rw [zero_add]; exact hA' i j hij)) hsym hpd hf1 hx1
    (fun i h0 hi => hv i h0 (by omega))) ?_
  rintro lmax v1 ⟨h1, h2, h3, h4, h5⟩
  dsimp only
  rw [M.wp_bind, M.wp_onLocal]
  refine M.wp_mono (invPart_spec hs (by omega) hA' hsym hpd (fun p h0 hp => ?_)) ?_
  · split
    · unfold Vec.resize
      dsimp only
      rw [if_pos ⟨h0, hp⟩]
      split
      · exact hwork p h0 (by assumption)
      · simp
    · exact hwork p h0 (by omega)
  rintro _ w ⟨X, hX, hw⟩
  dsimp only
  rw [M.wp_bind, M.wp_at]
  refine M.wp_mono (powerMethod_spec hs (by omega) (by omega) (opSpec_gemv (by omega) hw) (inv_nz hX) (hf2 _ (fun i h0 hi => ?_)) hx2) ?_
  · rw [Buf.shift, h3 _ (by omega)]
    exact hv _ (by omega) (by omega)
  rintro mu v2 ⟨-, h6, h7⟩
  have h6 := h6 (by omega)
  rw [M.wp_pure]
  obtain ⟨k, hk⟩ : ∃ k, iters.toNat = k + 1 := ⟨iters.toNat - 1, by omega⟩
  rw [hk, Nat.add_sub_cancel] at h1 h6 ⊢
  obtain ⟨h8, h9, h10⟩ := rayleigh_inv hsym hpd hX (powVec_nz (inv_nz hX) hx2 k) h6
  refine ⟨X, hX, h1, ?_, ?_, ?_, ?_, fun c hc => ⟨h4 c hc, h9 c hc⟩, fun c hc => ⟨h5 c hc, h10 c hc⟩⟩
  · dsimp only
    rw [← h6]; field_simp
  · obtain ⟨s, hs0, hss, hc⟩ := h2
    rw [hk] at hss hc
    refine ⟨s, hs0, hss, fun i h0 hi => ?_⟩
    rw [Buf.shift, h7.out _ (by omega), Buf.shift, ← hc i h0 hi]
    congr 1; ring
  · rw [shift_shift_neg]
    have := h7.cells
    rw [hk] at this
    exact this
  · intro p hp
    rw [Buf.shift, h7.out _ (by omega), Buf.shift, show n + (-n + p) = p by ring]
    exact h3 p (by omega)

/-- A matrix that is not exactly symmetric is an error, and nothing is written. -/
theorem C67_symmetry_error {sqrt : T → T} {n iters : Int} {a : Int → Int → T} {A v : Buf T} {work : Vec T} {fill1 fill2 : M (Buf T) Unit}
    (hA : Holds A .ColMajor n n n a) (hsym : ¬ ∀ i j, InR n n i j → a i j = a j i) :
    exeigs sqrt n iters A work fill1 fill2 v = (.throw .errorIf, v) := by
  rcases (C21_require_symmetric (le_refl (0 : T)) hA).2 with h | h
  · exact absurd ((C21_exact_symmetry hA).1 h) hsym
  · unfold exeigs
    exact M.bind_throw (by rw [M.lift, h])

/-- Non-vacuity of the hypotheses about the random vectors: a loop that writes ones. -/
example : Fills 3 (fun _ => (1 : ℝ)) (forI 0 3 fun i => M.wr i 1) ∧ ∃ i : Int, 0 ≤ i ∧ i < 3 ∧ (fun _ => (1 : ℝ)) i ≠ 0 := by
  refine ⟨fun v hv => ?_, 0, le_refl _, by norm_num, one_ne_zero⟩
  refine M.wp_forI (fun k b => (∀ i, 0 ≤ i → i < k → b i = .val 1) ∧ ∀ p, (p < 0 ∨ k ≤ p) → b p = v p) (by norm_num)
    ⟨fun i h0 h1 => by omega, fun _ _ => rfl⟩ ?_ (fun _ h => h)
  rintro k b hk0 hk ⟨h1, h2⟩
  rw [M.wp_wr]
  refine ⟨by rw [h2 k (by omega)]; exact hv k hk0 hk, fun i h0 hi => ?_, fun p hp => ?_⟩
  · by_cases h : i = k
    · subst h; rw [Buf.set_same]
    · rw [Buf.set_ne h]; exact h1 i h0 (by omega)
  · rw [Buf.set_ne (by omega)]; exact h2 p (by omega)

end RB
