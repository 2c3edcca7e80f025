import Verif.Model.TestHrLapack
import Verif.Props.Eig
import Verif.Props.TestEye

/-!
# C135: the tests of the handrolled linear algebra accept correct routines and find every difference
-/

namespace RB
open Spec
variable {N : Nat} {K W WS R T : Type}

/-! ## Specification -/

/-- The m x n column-major matrix of the numbers that `fill_dense` writes for an m x n Gaussian distribution (C01, `testData`), whichever the layout of the distribution. -/
def Spec.gaussOf (G : Gen N K W T) (seed : RNGState N K) (m n : Int) (i j : Int) : T := testData G seed m n (i + j * m)

/-- The Gram matrix `A^T A` of an m x n matrix. -/
def Spec.gram [NonUnitalNonAssocSemiring T] (m : Int) (A : Int → Int → T) : Int → Int → T := prodEntry m (fun r c => A c r) A

/-- The upper triangle of a matrix, with zeros below. -/
def Spec.upperPart [Zero T] (U : Int → Int → T) (i j : Int) : T := if j < i then 0 else U i j

/-- A comparison of two n x n matrices reports nothing if all entries are close, and otherwise an entry that is not. -/
def Spec.FindsFar [Field T] [LinearOrder T] (r : Option (Int × Int)) (m n : Int) (atol rtol : T) (X Y : Int → Int → T) : Prop :=
  (r = none ↔ ∀ i j, InR m n i j → Close atol rtol (X i j) (Y i j)) ∧ ∀ i j, r = some (i, j) → InR m n i j ∧ ¬ Close atol rtol (X i j) (Y i j)

section
variable [Field T] [LinearOrder T]

/-! ## Helpers -/

omit [LinearOrder T] in
theorem fill_flat {E : SkEnv N K W WS R T} (hG : E.G.Ok) {m n : Int} (hm : 0 < m) (hn : 0 < n) (hfit : m * n ≤ intMax 64) (seed : RNGState N K) :
    ∃ D, mkDenseDist m n .Gaussian .Long = .ok D ∧ M.wp (fillDense E.env.sched E.G E.sqrt3 D seed) (zeroVec (m * n)) (fun _ b => b = Buf.ofFn (m * n) (testData E.G seed m n)) := by
  have h : M.wp (randomMatrix E m n seed) (zeroVec (m * n)) (fun _ b => b = Buf.ofFn (m * n) (testData E.G seed m n)) := ⟨_, _, randomMatrix_flat hG hm hn hfit seed, rfl⟩
  unfold randomMatrix at h
  rw [M.wp_bind, M.wp_lift] at h
  obtain ⟨D, hD, h⟩ := h
  rw [M.wp_bind] at h
  exact ⟨D, hD, M.wp_mono h fun _ _ h => by rwa [M.wp_pure] at h⟩

omit [Field T] [LinearOrder T] in
theorem gauss_holds (G : Gen N K W T) (seed : RNGState N K) (m n : Int) : Holds (Buf.ofFn (m * n) (testData G seed m n)) .ColMajor m m n (gaussOf G seed m n) := by
  have h := ofFn_holds (m := m) (n := n) .ColMajor (testData G seed m n)
  intro i j hij
  have := h i j hij
  simpa [addr_colMajor, tightLd, gaussOf] using this

omit [LinearOrder T] in
theorem holds_of_full {b : Buf T} {n s : Int} (hs : n * n ≤ s) (h : ∀ p, 0 ≤ p → p < s → ∃ v, b p = .val v) : ∃ X, Holds b .ColMajor n n n X := by
  choose! v hv using h
  refine ⟨fun i j => v (addr .ColMajor n i j), fun i j hij => ?_⟩
  have := pos_range hij
  rw [addr_colMajor]
  exact hv _ this.1 (by omega)

omit [LinearOrder T] in
theorem zeroVec_val {n p : Int} (h0 : 0 ≤ p) (h1 : p < n) : (zeroVec n : Buf T) p = .val 0 := by unfold zeroVec Buf.ofFn; rw [if_pos ⟨h0, h1⟩]

omit [LinearOrder T] in
theorem zeroVec_holds (m n : Int) : Holds (zeroVec (m * n) : Buf T) .ColMajor m m n (fun _ _ => 0) := by
  have h := ofFn_holds (m := m) (n := n) .ColMajor (fun _ => (0 : T))
  intro i j hij
  have := h i j hij
  simpa [tightLd, zeroVec] using this

omit [LinearOrder T] in
theorem gram_symm (m : Int) (A : Int → Int → T) (i j : Int) : gram m A i j = gram m A j i := by
  unfold gram
  rw [← prodEntry_trans]

theorem gramOf_spec {m n : Int} {scale : T} {B b : Buf T} {A X : Int → Int → T} (hm : 0 ≤ m) (hn : 0 ≤ n) (hB : Holds B .ColMajor m m n A) (hb : Holds b .ColMajor n n n X) :
    M.wp (gramOf m n scale B) b (fun _ b' => Holds b' .ColMajor n n n (fun i j => scale * gram m A i j) ∧ SameOutside b b' .ColMajor n n n) := by
  unfold gramOf
  rw [M.wp_bind]
  have hup : ∀ {i j}, Up n i j → InR n n i j := fun h => ⟨h.1, by have := h.2; omega, by have := h.1; have := h.2; omega, h.2.2⟩
  refine M.wp_mono (syrkUpperTrans_spec (A := A) (C := X) (b0 := b) hn hm (le_refl _) (le_refl _) (fun i j hij => by
    rw [zero_add, ← addr_colMajor]; exact hB i j hij) (Upd.refl fun i j hij => by rw [← addr_colMajor]; exact hb i j (hup hij))) ?_
  intro _ b1 h1
  refine M.wp_mono (symmetrize_upper_spec (A := fun i j => if i ≤ j then scale * gram m A i j else X i j) (b0 := b) hn (show LdOk .ColMajor n n n from le_refl _)
    ⟨fun i j hij => ?_, fun p hp => h1.outside p fun i j hij => by rw [← addr_colMajor]; exact hp i j (hup hij)⟩) ?_
  · by_cases h : i ≤ j
    · rw [if_pos h, addr_colMajor, h1.cells i j ⟨hij.1, h, hij.2.2.2⟩, zero_mul, add_zero]; rfl
    · rw [if_neg h, addr_colMajor, h1.other (up_rows (le_refl n)) ⟨hij.1, hij.2.1⟩ (fun h' => h h'.2.1), ← addr_colMajor]
      exact hb i j hij
  · intro _ b2 h2
    refine ⟨fun i j hij => ?_, h2.sameOutside⟩
    rw [h2.cells i j hij]
    by_cases h : j < i
    · rw [if_pos h, if_pos h.le, gram_symm]
    · rw [if_neg h, if_pos (by omega)]

theorem matrices_finds {A B : Buf T} {m n lda ldb : Int} {X Y : Int → Int → T} (hm : 0 ≤ m) (hn : 0 ≤ n) (hA : Holds A .ColMajor lda m n X) (hB : Holds B .ColMajor ldb m n Y)
    (atol rtol : T) : ∃ r, matricesApproxEqual1 .ColMajor .NoTrans m n (fltBuf A) lda (fltBuf B) ldb (.fin atol) (.fin rtol) = .ok r ∧ FindsFar r m n atol rtol X Y := by
  unfold matricesApproxEqual1
  rcases C118_matrices_partial (op := .NoTrans) hm hn (fltBuf_holds hA) (fltBuf_holds (m := rowsOf .NoTrans m n) (n := colsOf .NoTrans m n) hB) atol rtol with ⟨e, h⟩ | ⟨i, j, e, h1, h2⟩
  · exact ⟨_, e, ⟨fun _ => h, fun _ => rfl⟩, fun i j h => (by cases h)⟩
  · exact ⟨_, e, ⟨fun h => (by cases h), fun h => absurd (h i j h1) h2⟩, fun i' j' h => (by cases h; exact ⟨h1, h2⟩)⟩

theorem ubIf_no {σ : Type} {c : Prop} [Decidable c] (h : ¬ c) {s : σ} {Q : Unit → σ → Prop} (hQ : Q () s) : M.wp (M.ubIf c) s Q := by
  unfold M.ubIf
  rw [if_neg h, M.wp_lift]
  exact ⟨(), rfl, hQ⟩

/-! ## Cholesky -/

/-- C135 (Gram matrices). Whatever the Cholesky routine under test: if, given the Gram matrix of the random matrix X (scaled), it leaves the matrix U (with the property `P`), then
`run_factor_gram_matrix` runs without undefined behaviour and compares `triu(U)^T triu(U)` with the Gram matrix, entry by entry. What is below the diagonal of U does not matter. -/
theorem C135_gram_compares {E : SkEnv N K W WS R T} (hG : E.G.Ok) {iso atol rtol : T} {chol : Int → M (Buf T) Int} {n : Int} {seed : RNGState N K} (hn : 0 < n)
    (h32 : 2 * n ≤ intMax 32) (hnn : n * n ≤ intMax 32) {P : (Int → Int → T) → Prop}
    (hchol : ∀ a, Holds a .ColMajor n n n (fun i j => iso * iso * gram (2 * n) (gaussOf E.G seed (2 * n) n) i j) → M.wp (chol n) a (fun _ a' => ∃ U, P U ∧ Holds a' .ColMajor n n n U)) :
    M.wp (testGram E iso atol rtol chol n seed) () (fun r _ => ∃ U, P U ∧
      FindsFar r n n atol rtol (gram n (upperPart U)) (fun i j => iso * iso * gram (2 * n) (gaussOf E.G seed (2 * n) n) i j)) := by
  have hn0 := hn.le
  have hi : intMax 32 = 2147483647 := by norm_num [intMax]
  have hi' : intMax 64 = 9223372036854775807 := by norm_num [intMax]
  obtain ⟨D, hD, hfill⟩ := fill_flat hG (m := 2 * n) (by omega) hn (by rw [mul_assoc]; omega) seed
  unfold testGram
  rw [M.wp_bind]
  refine ubIf_no (by omega) ?_
  rw [M.wp_bind, M.wp_lift]
  refine ⟨D, hD, ?_⟩
  rw [M.wp_bind]
  refine ubIf_no (by omega) ?_
  rw [M.wp_bind, M.wp_onLocal]
  refine M.wp_mono hfill ?_
  rintro _ _ rfl
  have hX := gauss_holds E.G seed (2 * n) n
  dsimp only
  rw [M.wp_bind, M.wp_onLocal, M.wp_bind]
  refine M.wp_mono (gramOf_spec (by omega) hn0 hX (zeroVec_holds n n)) ?_
  rintro _ a1 ⟨h1, -⟩
  rw [M.wp_bind]
  refine M.wp_mono (hchol a1 h1) ?_
  rintro _ a2 ⟨U, hP, h2⟩
  refine M.wp_mono (overwrite_lower_spec (A := fun i j => .val (U i j)) (b0 := a2) hn0 (by omega) (show LdOk .ColMajor n n n from le_refl _) (MatSt.of_holds h2) (fun i j _ => by simp)) ?_
  intro _ a3 h3
  have h3' : Holds a3 .ColMajor n n n (upperPart U) := fun i j hij => by
    rw [h3.cells i j hij]
    unfold upperPart
    by_cases h : j < i
    · rw [if_pos h, if_pos (by omega)]
    · rw [if_neg h, if_neg (by omega)]
  obtain ⟨X0, hX0⟩ := holds_of_full (b := Buf.ofFn (2 * n * n) (testData E.G seed (2 * n) n)) (n := n) (s := 2 * n * n) (by nlinarith) (fun p p0 p1 => ⟨_, by
    unfold Buf.ofFn; rw [if_pos ⟨p0, p1⟩]⟩)
  rw [M.wp_bind, M.wp_onLocal]
  refine M.wp_mono (gramOf_spec (scale := 1) hn0 hn0 h3' hX0) ?_
  rintro _ b1 ⟨h4, -⟩
  dsimp only
  rw [M.wp_bind, M.wp_onLocal]
  refine M.wp_mono (gramOf_spec (scale := iso * iso) (by omega) hn0 hX h3') ?_
  rintro _ a4 ⟨h5, -⟩
  rw [M.wp_lift]
  obtain ⟨r, e, hr⟩ := matrices_finds hn0 hn0 h4 h5 atol rtol
  refine ⟨r, e, U, hP, ?_⟩
  simpa only [one_mul] using hr

section
variable [IsStrictOrderedRing T]

theorem gram_scaled_posDef {m n : Int} {iso : T} (hi : iso ≠ 0) {A : Int → Int → T} (h : FullColRank m n A) : PosDefU n (fun i j => iso * iso * gram m A i j) := by
  intro x hx
  have h1 := gram_posDef h x hx
  have h2 : quadU n (fun i j => iso * iso * gram m A i j) x = iso * iso * quadU n (prodEntry m (fun r c => A c r) A) x := by
    unfold quadU
    rw [Finset.mul_sum]
    refine Finset.sum_congr rfl fun i _ => ?_
    rw [Finset.mul_sum]
    refine Finset.sum_congr rfl fun j _ => ?_
    unfold symU gram
    split <;> ring
  rw [h2]
  exact mul_pos (mul_self_pos.mpr hi) h1

omit [LinearOrder T] [IsStrictOrderedRing T] in
theorem gram_upper {n : Int} {R U A : Int → Int → T} (h0 : ∀ i j, j < i → R i j = 0) (hU : ∀ i j, Up n i j → U i j = R i j) (hA : ∀ i j, A i j = A j i)
    (hR : ∀ i j, 0 ≤ i → i ≤ j → j < n → prodEntry n (fun r c => R c r) R i j = A i j) : ∀ i j, InR n n i j → gram n (upperPart U) i j = A i j := by
  intro i j hij
  have e : gram n (upperPart U) i j = gram n R i j := by
    unfold gram
    have : ∀ k j, 0 ≤ k → k < n → 0 ≤ j → j < n → upperPart U k j = R k j := fun k j k0 k1 j0 j1 => by
      unfold upperPart
      by_cases h : j < k
      · rw [if_pos h, h0 k j h]
      · rw [if_neg h]; exact hU k j ⟨k0, by omega, j1⟩
    exact prodEntry_ext (fun k k0 k1 => this k i k0 k1 hij.1 hij.2.1) (fun k k0 k1 => this k j k0 k1 hij.2.2.1 hij.2.2.2)
  rw [e]
  by_cases h : i ≤ j
  · exact hR i j hij.1 h hij.2.2.2
  · rw [gram_symm, hA]; exact hR j i hij.2.2.1 (by omega) hij.2.1

omit [IsStrictOrderedRing T] in
theorem finds_none {r : Option (Int × Int)} {m n : Int} {atol rtol : T} {X Y : Int → Int → T} (h : FindsFar r m n atol rtol X Y) (hc : ∀ i j, InR m n i j → Close atol rtol (X i j) (Y i j)) :
    r = none := h.1.2 hc

theorem close_same {atol rtol : T} (ha : 0 ≤ atol) (x : T) : Close atol rtol x x := Or.inl (by rw [sub_self, abs_zero]; exact ha)

omit [Field T] [LinearOrder T] [IsStrictOrderedRing T] in
theorem holds_after_chol {a a' : Buf T} {n : Int} {A R : Int → Int → T} (ha : Holds a .ColMajor n n n A) (h1 : HoldsUpper a' n n R) (h2 : SameOutsideUpper a a' n n) :
    Holds a' .ColMajor n n n (fun i j => if i ≤ j then R i j else A i j) := by
  intro i j hij
  dsimp only
  by_cases h : i ≤ j
  · rw [if_pos h]; exact h1 i j hij.1 h hij.2.2.2
  · rw [if_neg h, h2 _ (fun i' j' h0 h1 h2 he => ?_)]
    · exact ha i j hij
    · obtain ⟨rfl, rfl⟩ := addr_inj (show LdOk .ColMajor n n n from le_refl _) hij ⟨h0, by omega, by omega, h2⟩ he
      exact h h1

/-- C135 (sequential Cholesky). `run_sequential_factor_gram_matrix` accepts `potrf_upper_sequential`, in exact arithmetic, if the random matrix has independent columns. -/
theorem C135_gram_sequential {E : SkEnv N K W WS R T} (hG : E.G.Ok) {sqrt : T → T} (hs : SqrtOk sqrt) {iso atol rtol : T} (hi : iso ≠ 0) (ha : 0 ≤ atol) {n : Int} {seed : RNGState N K} (hn : 0 < n)
    (h32 : 2 * n ≤ intMax 32) (hnn : n * n ≤ intMax 32) (hX : FullColRank (2 * n) n (gaussOf E.G seed (2 * n) n)) :
    M.wp (testGramSeq E sqrt iso atol rtol n seed) () (fun r _ => r = none) := by
  unfold testGramSeq
  have hpd := gram_scaled_posDef hi hX
  refine M.wp_mono (C135_gram_compares hG (iso := iso) (atol := atol) (rtol := rtol) hn h32 hnn (P := fun U => ∀ i j, InR n n i j →
    gram n (upperPart U) i j = iso * iso * gram (2 * n) (gaussOf E.G seed (2 * n) n) i j) fun a ha => ?_) fun r _ h => ?_
  · refine M.wp_mono (C62_sequential hs hn.le (le_refl n) (fun i j h0 h1 h2 => ha i j ⟨h0, by omega, by omega, h2⟩)) ?_
    rintro code a' ⟨h1, h2, h3, -⟩
    obtain ⟨R, hR, hRA, hold⟩ := h3 (h2.2 hpd)
    exact ⟨_, gram_upper hR.1 (fun i j hij => if_pos hij.2.1) (fun i j => by rw [gram_symm]) hRA, holds_after_chol ha hold h1⟩
  · obtain ⟨U, hU, h⟩ := h
    exact finds_none h fun i j hij => by rw [hU i j hij]; exact close_same ha _

/-- C135 (blocked Cholesky). `run_blocked_factor_gram_matrix` accepts `potrf_upper`, in exact arithmetic, for every block size, if the random matrix has independent columns. -/
theorem C135_gram_blocked {E : SkEnv N K W WS R T} (hG : E.G.Ok) {sqrt : T → T} (hs : SqrtOk sqrt) {iso atol rtol : T} (hi : iso ≠ 0) (ha : 0 ≤ atol) {n b : Int} {seed : RNGState N K} (hn : 0 < n)
    (hb : 0 < b) (h32 : 2 * n ≤ intMax 32) (hnn : n * n ≤ intMax 32) (hX : FullColRank (2 * n) n (gaussOf E.G seed (2 * n) n)) :
    M.wp (testGramBlocked E sqrt iso atol rtol n b seed) () (fun r _ => r = none) := by
  unfold testGramBlocked
  have hpd := gram_scaled_posDef hi hX
  refine M.wp_mono (C135_gram_compares hG (iso := iso) (atol := atol) (rtol := rtol) hn h32 hnn (P := fun U => ∀ i j, InR n n i j →
    gram n (upperPart U) i j = iso * iso * gram (2 * n) (gaussOf E.G seed (2 * n) n) i j) fun a ha => ?_) fun r _ h => ?_
  · refine M.wp_mono (C62_potrf hs hn.le (le_refl n) hb (fun i j h0 h1 h2 => ha i j ⟨h0, by omega, by omega, h2⟩) hpd) ?_
    rintro code a' ⟨-, R, hR, hRA, hold, h1⟩
    exact ⟨_, gram_upper hR.1 (fun i j hij => if_pos hij.2.1) (fun i j => by rw [gram_symm]) hRA, holds_after_chol ha hold h1⟩
  · obtain ⟨U, hU, h⟩ := h
    exact finds_none h fun i j hij => by rw [hU i j hij]; exact close_same ha _

/-! ### The diagonal matrix -/

/-- The only Cholesky factor of a diagonal matrix is the diagonal of the square roots. -/
theorem diag_chol {sqrt : T → T} (hs : SqrtOk sqrt) {n : Int} {a : Int → T} (ha : ∀ i, 0 ≤ i → i < n → 0 < a i) {R : Int → Int → T} (hR : UpperPos n R)
    (hRA : ∀ i j, InR n n i j → prodEntry n (fun r c => R c r) R i j = if i = j then a i else 0) : ∀ i j, InR n n i j → R i j = if i = j then sqrt (a i) else 0 := by
  have hd : ∀ i, 0 ≤ i → i < n → sqrt (a i) ≠ 0 := fun i h0 h1 => (hs _ (ha i h0 h1)).1.ne'
  let Dg : Int → Int → T := fun i j => if i = j then (if 0 ≤ i ∧ i < n then sqrt (a i) else 1) else 0
  have h1 : OrthoCols n n (fun i j : Int => if i = j then (1 : T) else 0) := by
    intro i j hij
    have e := prodEntry_one_left (fun i j : Int => if i = j then (1 : T) else 0) (m := n) j hij.1 hij.2.1
    rw [← e]
    exact prodEntry_ext (fun k _ _ => by simp only [eq_comm]) (fun k _ _ => rfl)
  have h2 : UpperPos n Dg := by
    refine ⟨fun i j h => if_neg (by omega), fun i h0 h1 => ?_⟩
    simp only [Dg, if_true, h0, h1, and_self]
    exact (hs _ (ha i h0 h1)).1
  have h3 : OrthoCols n n (fun i j => R i j / sqrt (a j)) := by
    intro i j hij
    have e : prodEntry n (fun r c => R c r / sqrt (a r)) (fun i j => R i j / sqrt (a j)) i j = prodEntry n (fun r c => R c r) R i j / (sqrt (a i) * sqrt (a j)) := by
      unfold prodEntry
      rw [div_eq_mul_inv, Finset.sum_mul]
      exact Finset.sum_congr rfl fun k _ => by rw [div_mul_div_comm, div_eq_mul_inv]
    rw [e, hRA i j hij]
    by_cases h : i = j
    · subst h
      rw [if_pos rfl, if_pos rfl, (hs _ (ha i hij.1 hij.2.1)).2, div_self (ha i hij.1 hij.2.1).ne']
    · rw [if_neg h, if_neg h, zero_div]
  have h4 : ∀ i j, InR n n i j → prodEntry n (fun i j => R i j / sqrt (a j)) Dg i j = R i j := by
    intro i j hij
    obtain ⟨q, rfl⟩ := Int.eq_ofNat_of_zero_le hij.2.2.1
    unfold prodEntry
    rw [Finset.sum_eq_single q]
    · simp only [Dg, if_true, hij.2.2.1, hij.2.2.2, and_self]
      exact div_mul_cancel₀ _ (hd _ hij.2.2.1 hij.2.2.2)
    · intro k _ hk
      have : (k : Int) ≠ q := by exact_mod_cast hk
      simp only [Dg, if_neg this, mul_zero]
    · intro h; exact absurd (Finset.mem_range.2 (by have := hij.2.2.2; omega)) h
  have := (C63_unique h1 hR (fun i j hij => prodEntry_one_left R j hij.1 hij.2.1) h3 h2 h4).1
  intro i j hij
  rw [this i j hij]
  simp only [Dg, hij.1, hij.2.1, and_self, if_true]

theorem diag_posDef {n : Int} {a : Int → T} (ha : ∀ i, 0 ≤ i → i < n → 0 < a i) : PosDefU n (fun i j => if i = j then a i else 0) := by
  rintro x ⟨i, h0, h1, hx⟩
  have e : quadU n (fun i j => if i = j then a i else 0) x = ∑ i ∈ Finset.range n.toNat, a i * (x i * x i) := by
    unfold quadU
    refine Finset.sum_congr rfl fun k hk => ?_
    rw [Finset.sum_eq_single k]
    · simp [symU]; ring
    · intro l _ hl
      have : (k : Int) ≠ l := by exact_mod_cast (Ne.symm hl)
      simp [symU, this, Ne.symm this]
    · intro h; exact absurd hk h
  rw [e]
  obtain ⟨q, rfl⟩ := Int.eq_ofNat_of_zero_le h0
  refine Finset.sum_pos' (fun k hk => ?_) ⟨q, Finset.mem_range.2 (by omega), mul_pos (ha _ h0 h1) (mul_self_pos.mpr hx)⟩
  have := Finset.mem_range.1 hk
  exact mul_nonneg (ha _ (by omega) (by omega)).le (mul_self_nonneg _)
end

omit [Field T] [LinearOrder T] in
theorem addr_diag_iff {n i j q : Int} (hij : InR n n i j) (hq : InR n n q q) : i + j * n = q + q * n ↔ i = q ∧ j = q := by
  constructor
  · intro h
    exact addr_inj (show LdOk .ColMajor n n n from le_refl _) hij hq (by rw [addr_colMajor, addr_colMajor]; exact h)
  · rintro ⟨rfl, rfl⟩; rfl

omit [LinearOrder T] in
/-- Writing the next diagonal entry. -/
theorem diag_step {n q : Int} {d : Int → T} {b : Buf T} (h : Holds b .ColMajor n n n (fun i j => if i = j ∧ i < q then d i else 0)) (h0 : 0 ≤ q) (h1 : q < n) :
    b (q + q * n) ≠ .none ∧ Holds (b.set (q + q * n) (d q)) .ColMajor n n n (fun i j => if i = j ∧ i < q + 1 then d i else 0) := by
  refine ⟨by rw [← addr_colMajor, h q q ⟨h0, h1, h0, h1⟩]; simp, fun i j hij => ?_⟩
  dsimp only
  rw [addr_colMajor, Buf.set_apply]
  have e := addr_diag_iff hij (q := q) ⟨h0, h1, h0, h1⟩
  by_cases he : i = q ∧ j = q
  · rw [if_pos (e.2 he), if_pos ⟨by omega, by omega⟩, he.1]
  · rw [if_neg (fun h => he (e.1 h)), ← addr_colMajor, h i j hij]
    dsimp only
    congr 1
    by_cases h2 : i = j ∧ i < q
    · rw [if_pos h2, if_pos ⟨h2.1, by omega⟩]
    · rw [if_neg h2, if_neg (by omega)]

/-- C135 (diagonal matrices). Whatever the Cholesky routine under test: if, given the diagonal matrix with the entries 1, 1/2, 1/3, ..., it leaves the matrix U, then
`run_blocked_factor_diagonal` compares U with the diagonal matrix of the square roots, entry by entry. Here what is below the diagonal of U matters. -/
theorem C135_diagonal_compares {sqrt : T → T} {atol rtol : T} {chol : M (Buf T) Int} {n : Int} (hn : 0 ≤ n) (hnn : n * n ≤ intMax 32) {P : (Int → Int → T) → Prop}
    (hchol : ∀ a, Holds a .ColMajor n n n (fun i j => if i = j then 1 / ((i : T) + 1) else 0) → M.wp chol a (fun _ a' => ∃ U, P U ∧ Holds a' .ColMajor n n n U)) :
    M.wp (testCholDiag sqrt atol rtol chol n) () (fun r _ => ∃ U, P U ∧ FindsFar r n n atol rtol (fun i j => if i = j then sqrt (1 / ((i : T) + 1)) else 0) U) := by
  unfold testCholDiag
  rw [M.wp_bind]
  refine ubIf_no (by omega) ?_
  rw [M.wp_bind, M.wp_onLocal]
  refine M.wp_mono (M.wp_forI (fun q s => Holds s.1 .ColMajor n n n (fun i j => if i = j ∧ i < q then 1 / ((i : T) + 1) else 0) ∧
    Holds s.2 .ColMajor n n n (fun i j => if i = j ∧ i < q then sqrt (1 / ((i : T) + 1)) else 0)) (Q := fun _ s => Holds s.1 .ColMajor n n n (fun i j => if i = j then 1 / ((i : T) + 1) else 0) ∧
    Holds s.2 .ColMajor n n n (fun i j => if i = j then sqrt (1 / ((i : T) + 1)) else 0)) hn ?_ ?_ ?_) ?_
  · refine ⟨fun i j hij => ?_, fun i j hij => ?_⟩ <;> dsimp only <;> rw [zeroVec_holds n n i j hij, if_neg (by have := hij.1; omega)]
  · rintro q ⟨a, b⟩ q0 q1 ⟨h1, h2⟩
    obtain ⟨e1, e2⟩ := diag_step (d := fun i => 1 / ((i : T) + 1)) h1 q0 q1
    obtain ⟨e3, e4⟩ := diag_step (d := fun i => sqrt (1 / ((i : T) + 1))) h2 q0 q1
    unfold onFst onSnd
    simp only [M.wp_bind, M.wp_zoom, M.wp_wr, M.wp_rd]
    exact ⟨e1, _, by rw [Buf.set_apply, if_pos rfl], e3, e2, e4⟩
  · rintro s ⟨h1, h2⟩
    refine ⟨fun i j hij => ?_, fun i j hij => ?_⟩
    · rw [h1 i j hij]; simp [hij.2.1]
    · rw [h2 i j hij]; simp [hij.2.1]
  · rintro _ ⟨a, b⟩ ⟨h1, h2⟩
    dsimp only at h1 h2 ⊢
    rw [M.wp_bind, M.wp_onLocal]
    refine M.wp_mono (hchol a h1) ?_
    rintro _ a' ⟨U, hP, h3⟩
    rw [M.wp_lift]
    obtain ⟨r, e, hr⟩ := matrices_finds hn hn h2 h3 atol rtol
    exact ⟨r, e, U, hP, hr⟩

/-- C135 (diagonal matrices). `run_blocked_factor_diagonal` accepts `potrf_upper`, in exact arithmetic, for every order and every block size. -/
theorem C135_diagonal [IsStrictOrderedRing T] {sqrt : T → T} (hs : SqrtOk sqrt) {atol rtol : T} (ha : 0 ≤ atol) {n b : Int} (hn : 0 ≤ n) (hb : 0 < b) (hnn : n * n ≤ intMax 32) :
    M.wp (testCholDiag sqrt atol rtol (potrfUpper sqrt n n b) n) () (fun r _ => r = none) := by
  have hpos : ∀ i : Int, 0 ≤ i → i < n → (0 : T) < 1 / ((i : T) + 1) := fun i h0 _ => by
    have : (0 : T) ≤ i := by exact_mod_cast h0
    exact one_div_pos.2 (by linarith)
  refine M.wp_mono (C135_diagonal_compares (atol := atol) (rtol := rtol) hn hnn (P := fun U => ∀ i j, InR n n i j → U i j = if i = j then sqrt (1 / ((i : T) + 1)) else 0) fun a ha => ?_)
    fun r _ h => ?_
  · refine M.wp_mono (potrf_posDef hs hn (le_refl n) hb (A := fun i j => if i = j then 1 / ((i : T) + 1) else 0) (fun i j hij => by
      rw [← addr_colMajor]; exact ha i j ⟨hij.1, by have := hij.2; omega, by have := hij.1; have := hij.2; omega, hij.2.2⟩) (diag_posDef hpos)) ?_
    rintro _ a' ⟨R, hR, hRA, hu⟩
    have hd := diag_chol hs hpos hR (fun i j hij => by
      rw [hRA i j hij]
      unfold symU
      split
      · rfl
      · rename_i h; dsimp only; rw [if_neg (by omega), if_neg (by omega)])
    refine ⟨_, fun i j hij => ?_, holds_after_chol ha (upd_holdsUpper hu) (upd_sameOutsideUpper hu)⟩
    by_cases h : i ≤ j
    · rw [if_pos h, hd i j hij]
    · rw [if_neg h, if_neg (by omega), if_neg (by omega)]
  · obtain ⟨U, hU, h⟩ := h
    exact finds_none h fun i j hij => by rw [hU i j hij]; exact close_same ha _

/-! ## QR -/

theorem absCopy_spec {size : Int} {A b : Buf T} {x : Int → T} (h0 : 0 ≤ size) (hA : ∀ p, 0 ≤ p → p < size → A p = .val (x p)) (hb : ∀ p, 0 ≤ p → p < size → b p ≠ .none) :
    M.wp (absCopy size A) b (fun _ b' => ∀ p, 0 ≤ p → p < size → b' p = .val |x p|) := by
  unfold absCopy blasCopy
  rw [M.wp_bind, M.wp_bind, wp_blasCheck]
  refine ⟨h0, M.wp_mono (M.wp_forI (fun i b' => (∀ p, 0 ≤ p → p < i → b' p = .val (x p)) ∧ ∀ p, i ≤ p → p < size → b' p ≠ .none) (Q := fun _ b' => ∀ p, 0 ≤ p → p < size → b' p = .val (x p)) h0
    ⟨fun p p0 p1 => by omega, hb⟩ ?_ fun b' h => h.1) ?_⟩
  · rintro i b' i0 i1 ⟨h1, h2⟩
    simp only [M.wp_bind, M.wp_lift, zero_add, mul_one, M.wp_wr]
    refine ⟨_, Buf.rd_val (hA i i0 i1), h2 i (le_refl _) i1, fun p p0 p1 => ?_, fun p p0 p1 => ?_⟩
    · rw [Buf.set_apply]
      by_cases h : p = i
      · rw [if_pos h, h]
      · rw [if_neg h]; exact h1 p p0 (by omega)
    · rw [Buf.set_apply, if_neg (by omega)]; exact h2 p (by omega) p1
  · intro _ b1 h1
    refine M.wp_forI (fun i b' => (∀ p, 0 ≤ p → p < i → b' p = .val |x p|) ∧ ∀ p, i ≤ p → p < size → b' p = .val (x p)) h0 ⟨fun p p0 p1 => by omega, fun p p0 p1 => h1 p p0 p1⟩ ?_ fun b' h => h.1
    rintro i b' i0 i1 ⟨h1, h2⟩
    simp only [M.wp_bind, M.wp_rd, M.wp_wr]
    refine ⟨_, h2 i (le_refl _) i1, by rw [h2 i (le_refl _) i1]; simp, fun p p0 p1 => ?_, fun p p0 p1 => ?_⟩
    · rw [Buf.set_apply]
      by_cases h : p = i
      · rw [if_pos h, h]
      · rw [if_neg h]; exact h1 p p0 (by omega)
    · rw [Buf.set_apply, if_neg (by omega)]; exact h2 p (by omega) p1

theorem absCopy_holds {m n : Int} (hm : 0 < m) (hn : 0 < n) {A : Buf T} {X : Int → Int → T} (hA : Holds A .ColMajor m m n X) :
    M.wp (absCopy (m * n) A) (zeroVec (m * n)) (fun _ b' => Holds b' .ColMajor m m n (fun i j => |X i j|)) := by
  have hv : ∀ p, 0 ≤ p → p < m * n → ∃ v, A p = .val v := fun p p0 p1 => by
    obtain ⟨i, j, hij, rfl⟩ := tight_pos (layout := .ColMajor) hm hn p0 p1
    exact ⟨_, hA i j hij⟩
  choose! v hv using hv
  refine M.wp_mono (absCopy_spec (mul_pos hm hn).le hv (fun p p0 p1 => by rw [zeroVec_val p0 p1]; simp)) ?_
  intro _ b' h i j hij
  have hb := addr_bound (show LdOk .ColMajor m m n from le_refl _) hij
  have e : extent .ColMajor m m n = m * n := extent_tight .ColMajor m n
  rw [e] at hb
  rw [h _ hb.1 hb.2]
  have := hv _ hb.1 hb.2
  rw [hA i j hij] at this
  have : X i j = v (addr .ColMajor m i j) := by injection this
  rw [← this]

omit [LinearOrder T] in
theorem opIndex_no (ld i j : Int) : opIndex .ColMajor ld .NoTrans i j = addr .ColMajor ld i j := by rw [opIndex_eq]

/-- C135 (products). `verify_product` accepts exactly if each entry of C is within `2 k eps (|A| |B|)` of the product `A B`, and otherwise reports an entry that is not. -/
theorem C135_product {eps : T} {m n k : Int} (hm : 0 < m) (hn : 0 < n) (hk : 0 < k) {A B C : Buf T} {Am Bm Cm : Int → Int → T} (hA : Holds A .ColMajor m m k Am)
    (hB : Holds B .ColMajor k k n Bm) (hC : Holds C .ColMajor m m n Cm) :
    M.wp (verifyProduct eps m n k A B C) () (fun r _ =>
      (r = none ↔ ∀ i j, InR m n i j → |prodEntry k Am Bm i j - Cm i j| ≤ 2 * (k : T) * eps * prodEntry k (fun i l => |Am i l|) (fun l j => |Bm l j|) i j) ∧
      ∀ p, r = some p → ∃ i j, InR m n i j ∧ p = i + j * m ∧ 2 * (k : T) * eps * prodEntry k (fun i l => |Am i l|) (fun l j => |Bm l j|) i j < |prodEntry k Am Bm i j - Cm i j|) := by
  unfold verifyProduct
  have gemm : ∀ {A B : Buf T} {Am Bm : Int → Int → T} (alpha : T), Holds A .ColMajor m m k Am → Holds B .ColMajor k k n Bm →
      M.wp (blasGemm .ColMajor .NoTrans .NoTrans m n k alpha A 0 m B 0 k 0 0 m) (zeroVec (m * n)) (fun _ b => Holds b .ColMajor m m n (fun i j => alpha * prodEntry k Am Bm i j)) := by
    intro A B Am Bm alpha hA hB
    refine M.wp_mono (blasGemm_spec (Am := Am) (Bm := Bm) (C := fun _ _ => 0) hm.le hn.le hk.le (le_refl _) (le_refl _) (le_refl _) (fun _ i l hil => by
      rw [zero_add, opIndex_no]; exact hA i l hil) (fun _ l j hlj => by rw [zero_add, opIndex_no]; exact hB l j hlj) (fun i j hij => by rw [zeroVec_holds m n i j hij]; simp)
      (fun _ => zeroVec_holds m n)) ?_
    intro _ b hb i j hij
    rw [hb.cells i j hij, zero_mul, add_zero]
  rw [M.wp_bind, M.wp_onLocal]
  refine M.wp_mono (gemm 1 hA hB) ?_
  intro _ c1 h1
  dsimp only
  rw [M.wp_bind, M.wp_onLocal]
  refine M.wp_mono (absCopy_holds hm hk hA) ?_
  intro _ a1 h2
  dsimp only
  rw [M.wp_bind, M.wp_onLocal]
  refine M.wp_mono (absCopy_holds hk hn hB) ?_
  intro _ b1 h3
  dsimp only
  rw [M.wp_bind, M.wp_onLocal]
  refine M.wp_mono (gemm _ h2 h3) ?_
  intro _ e1 h4
  rw [M.wp_lift]
  obtain ⟨r, e, hr1, hr2⟩ := within_tight (layout := .ColMajor) hm hn h1 hC h4
  simp only [one_mul] at hr1 hr2
  refine ⟨r, e, hr1, fun p hp => ?_⟩
  obtain ⟨i, j, hij, hp', hlt⟩ := hr2 p hp
  exact ⟨i, j, hij, by rw [hp', addr_colMajor]; rfl, hlt⟩

/-- C135 (orthonormal columns). `verify_orthonormal_componentwise` compares `Q^T Q` with the identity, with the tolerance `max_cond * sqrt(m) * eps`. -/
theorem C135_orthonormal {sqrt : T → T} {eps maxCond : T} {m n : Int} (hm : 0 ≤ m) (hn : 0 ≤ n) (hnn : n * n ≤ intMax 32) {Q : Buf T} {Qm : Int → Int → T} (hQ : Holds Q .ColMajor m m n Qm) :
    M.wp (verifyOrtho sqrt eps m n Q maxCond) () (fun r _ => FindsFar r n n (maxCond * sqrt (m : T) * eps) (maxCond * sqrt (m : T) * eps) (gram m Qm) (fun i j => if i = j then 1 else 0)) := by
  unfold verifyOrtho
  rw [M.wp_bind]
  refine ubIf_no (by omega) ?_
  rw [M.wp_bind, M.wp_onLocal]
  refine M.wp_mono (M.wp_forI (fun q s => Holds s .ColMajor n n n (fun i j => if i = j ∧ i < q then 1 else 0)) (Q := fun _ s => Holds s .ColMajor n n n (fun i j => if i = j then (1 : T) else 0)) hn
    (fun i j hij => ?_) (fun q b q0 q1 h => ?_) (fun b h i j hij => ?_)) ?_
  · dsimp only; rw [zeroVec_holds n n i j hij, if_neg (by have := hij.1; omega)]
  · rw [M.wp_wr]; exact diag_step (d := fun _ => (1 : T)) h q0 q1
  · rw [h i j hij]; simp [hij.2.1]
  · intro _ I hI
    dsimp only
    rw [M.wp_bind, M.wp_onLocal]
    refine M.wp_mono (blasGemm_spec (Am := fun i l => Qm l i) (Bm := Qm) (C := fun _ _ => 0) hn hn hm (show LdOk .ColMajor m (rowsOf .Trans n m) (colsOf .Trans n m) from le_refl _) (le_refl _) (le_refl _)
      (fun _ i l hil => ?_) (fun _ l j hlj => by rw [zero_add, opIndex_no]; exact hQ l j hlj) (fun i j hij => by rw [zeroVec_holds n n i j hij]; simp) (fun _ => zeroVec_holds n n)) ?_
    · have := hQ l i ⟨hil.2.2.1, hil.2.2.2, hil.1, hil.2.1⟩
      rw [zero_add, opIndex_eq]
      simpa using this
    · intro _ g hg
      have hg' : Holds g .ColMajor n n n (gram m Qm) := fun i j hij => by
        rw [hg.cells i j hij, zero_mul, add_zero, one_mul]; rfl
      rw [M.wp_lift]
      exact matrices_finds hn hn hg' hI _ _

/-- C135 (QR). Whatever the QR routine under test: if, given the random matrix X (scaled) in the buffer of Q, it leaves Q and R, then the test runs without undefined behaviour; the first check
compares `Q^T Q` with the identity, the second `Q R` with the random matrix. R counts as it stands in memory, with what is below the diagonal. -/
theorem C135_qr_compares {E : SkEnv N K W WS R T} (hG : E.G.Ok) {sqrt : T → T} {iso eps : T} {rsize m n : Int} {qr : M (Buf T × Buf T) Unit} {seed : RNGState N K} (hm : 0 < m) (hn : 0 < n)
    (hmn : m * n ≤ intMax 32) (hrs : rsize ≤ intMax 32) (hnn : n * n ≤ rsize) {P : (Int → Int → T) → (Int → Int → T) → Prop}
    (hqr : ∀ a, Holds a .ColMajor m m n (fun i j => iso * gaussOf E.G seed m n i j) →
      M.wp qr (a, zeroVec rsize) (fun _ s => ∃ Q R, P Q R ∧ Holds s.1 .ColMajor m m n Q ∧ Holds s.2 .ColMajor n n n R)) :
    M.wp (testQr E sqrt iso eps rsize qr m n seed) () (fun r _ => ∃ Q R, P Q R ∧
      FindsFar r.1 n n (10 * sqrt (m : T) * eps) (10 * sqrt (m : T) * eps) (gram m Q) (fun i j => if i = j then 1 else 0) ∧
      (r.2 = none ↔ ∀ i j, InR m n i j → |prodEntry n Q R i j - iso * gaussOf E.G seed m n i j| ≤ 2 * (n : T) * eps * prodEntry n (fun i l => |Q i l|) (fun l j => |R l j|) i j) ∧
      ∀ p, r.2 = some p → ∃ i j, InR m n i j ∧ p = i + j * m ∧
        2 * (n : T) * eps * prodEntry n (fun i l => |Q i l|) (fun l j => |R l j|) i j < |prodEntry n Q R i j - iso * gaussOf E.G seed m n i j|) := by
  have hi : intMax 32 = 2147483647 := by norm_num [intMax]
  have hi' : intMax 64 = 9223372036854775807 := by norm_num [intMax]
  obtain ⟨D, hD, hfill⟩ := fill_flat hG hm hn (by omega) seed
  unfold testQr
  rw [M.wp_bind, M.wp_lift]
  refine ⟨D, hD, ?_⟩
  rw [M.wp_bind]
  refine ubIf_no (by omega) ?_
  rw [M.wp_bind, M.wp_onLocal, M.wp_bind]
  refine M.wp_mono hfill ?_
  rintro _ _ rfl
  refine M.wp_mono (blasScal_spec (x := 0) (incx := 1) (a := iso) (v := testData E.G seed m n) (mul_pos hm hn).le (by norm_num) (fun p p0 p1 => by
    unfold Buf.ofFn; rw [zero_add, mul_one, if_pos ⟨p0, p1⟩])) ?_
  rintro _ a ⟨ha, -⟩
  have hA : Holds a .ColMajor m m n (fun i j => iso * gaussOf E.G seed m n i j) := by
    intro i j hij
    have hb := addr_bound (show LdOk .ColMajor m m n from le_refl _) hij
    have e : extent .ColMajor m m n = m * n := extent_tight .ColMajor m n
    rw [e] at hb
    have := ha _ hb.1 hb.2
    rw [zero_add, mul_one] at this
    rw [this, addr_colMajor]; rfl
  dsimp only
  rw [M.wp_bind]
  refine ubIf_no (by omega) ?_
  rw [M.wp_bind, M.wp_onLocal]
  refine M.wp_mono (hqr a hA) ?_
  rintro _ ⟨q, r⟩ ⟨Q, Rm, hP, hQ, hR⟩
  dsimp only at hQ hR ⊢
  rw [M.wp_bind]
  refine M.wp_mono (C135_orthonormal hm.le hn.le (by omega) hQ) ?_
  intro r1 _ h1
  rw [M.wp_bind]
  refine M.wp_mono (C135_product hm hn hn hQ hR hA) ?_
  intro r2 _ h2
  rw [M.wp_pure]
  exact ⟨Q, Rm, hP, h1, h2.1, h2.2⟩

section
variable [IsStrictOrderedRing T]

omit [LinearOrder T] [IsStrictOrderedRing T] in
theorem fullColRank_scale {m n : Int} {iso : T} (hi : iso ≠ 0) {A : Int → Int → T} (h : FullColRank m n A) : FullColRank m n (fun i j => iso * A i j) := by
  intro x hx
  refine h x fun i h0 h1 => ?_
  have := hx i h0 h1
  simp only [mul_assoc, ← Finset.mul_sum] at this
  exact (mul_eq_zero.1 this).resolve_left hi

/-- A routine that computes a QR decomposition passes both checks. -/
theorem qr_passes {E : SkEnv N K W WS R T} (hG : E.G.Ok) {sqrt : T → T} {iso eps : T} {rsize m n : Int} {qr : M (Buf T × Buf T) Unit} {seed : RNGState N K} (hm : 0 < m) (hn : 0 < n)
    (hmn : m * n ≤ intMax 32) (hrs : rsize ≤ intMax 32) (hnn : n * n ≤ rsize) (he : 0 ≤ eps) (hsq : 0 ≤ sqrt (m : T))
    (hqr : ∀ a, Holds a .ColMajor m m n (fun i j => iso * gaussOf E.G seed m n i j) → M.wp qr (a, zeroVec rsize) (fun _ s => ∃ Q R, (OrthoCols m n Q ∧
      ∀ i j, InR m n i j → prodEntry n Q R i j = iso * gaussOf E.G seed m n i j) ∧ Holds s.1 .ColMajor m m n Q ∧ Holds s.2 .ColMajor n n n R)) :
    M.wp (testQr E sqrt iso eps rsize qr m n seed) () (fun r _ => r = (none, none)) := by
  refine M.wp_mono (C135_qr_compares hG (sqrt := sqrt) (eps := eps) hm hn hmn hrs hnn hqr) ?_
  rintro ⟨r1, r2⟩ _ ⟨Q, Rm, ⟨h1, h2⟩, h3, h4, -⟩
  have htol : 0 ≤ 10 * sqrt (m : T) * eps := by positivity
  have e1 : r1 = none := finds_none h3 fun i j hij => by
    rw [show gram m Q i j = _ from h1 i j hij]; exact close_same htol _
  have e2 : r2 = none := h4.2 fun i j hij => by
    rw [h2 i j hij, sub_self, abs_zero]
    refine mul_nonneg (mul_nonneg (mul_nonneg (by norm_num) ?_) he) (Finset.sum_nonneg fun l _ => mul_nonneg (abs_nonneg _) (abs_nonneg _))
    exact_mod_cast hn.le
  rw [e1, e2]

/-- C135 (Cholesky QR). `run_cholqr_gaussian` accepts `chol_qr`, in exact arithmetic, for every block size, if the random matrix has independent columns. -/
theorem C135_cholqr {E : SkEnv N K W WS R T} (hG : E.G.Ok) {sqrt : T → T} (hs : SqrtOk sqrt) {iso eps : T} (hi : iso ≠ 0) (he : 0 ≤ eps) {m n b : Int} {seed : RNGState N K} (hm : 0 < m) (hn : 0 < n)
    (hb : 0 < b) (hmn : m * n ≤ intMax 32) (hnn : 2 * n * n ≤ intMax 32) (hX : FullColRank m n (gaussOf E.G seed m n)) :
    M.wp (testCholQr E sqrt iso eps m n b seed) () (fun r _ => r = (none, none)) := by
  have hp : 0 < n * n := mul_pos hn hn
  have hpm : (0 : T) < m := by exact_mod_cast hm
  refine qr_passes hG hm hn hmn hnn (by rw [mul_assoc]; omega) he (hs _ hpm).1.le fun a ha => ?_
  refine M.wp_mono (C63_chol_qr_twice hs hm.le hn.le hb (fullColRank_scale hi hX) ha (fun p p0 p1 => by rw [zeroVec_val p0 (by rw [mul_assoc]; exact p1)]; simp)) ?_
  rintro _ s ⟨Q, Rm, h1, -, h3, h4, -, h5, -⟩
  exact ⟨Q, Rm, ⟨h1, h3⟩, h4, h5⟩

theorem cgs2Fresh_spec {sqrt : T → T} (hs : SqrtOk sqrt) {m n b : Int} {A : Int → Int → T} {a r : Buf T} (hn : 1 ≤ n) (hnm : n ≤ m)
    (hb : 0 < b) (hA : FullColRank m n A) (ha : Holds a .ColMajor m m n A) (hr : ∀ p, 0 ≤ p → p < n * n → r p ≠ .none) :
    M.wp (cgs2Fresh sqrt m n b) (a, r) (fun _ s => ∃ Q R, (OrthoCols m n Q ∧ ∀ i j, InR m n i j → prodEntry n Q R i j = A i j) ∧ Holds s.1 .ColMajor m m n Q ∧ Holds s.2 .ColMajor n n n R) := by
  unfold cgs2Fresh
  rw [M.wp_zoom]
  refine M.wp_mono (C64_qr_block_cgs2_partial hs hn hnm hb hA ha hr (fun p p0 p1 => by dsimp only at p1; omega)) ?_
  rintro _ s ⟨Q, Rm, h1, -, h3, h4, -, h5, -⟩
  exact ⟨Q, Rm, ⟨h1, h3⟩, h4, h5⟩

/-- C135 (block Gram-Schmidt). `run_qr_blocked_cgs` accepts `qr_block_cgs2`, in exact arithmetic, for every block size, if the random matrix has independent columns (so it is not wide). -/
theorem C135_cgs2 {E : SkEnv N K W WS R T} (hG : E.G.Ok) {sqrt : T → T} (hs : SqrtOk sqrt) {iso eps : T} (hi : iso ≠ 0) (he : 0 ≤ eps) {m n b : Int} {seed : RNGState N K} (hnm : n ≤ m) (hn : 0 < n)
    (hb : 0 < b) (hmn : m * n ≤ intMax 32) (hX : FullColRank m n (gaussOf E.G seed m n)) :
    M.wp (testCgs2 E sqrt iso eps m n b seed) () (fun r _ => r = (none, none)) := by
  have hm : 0 < m := by omega
  have hnn : n * n ≤ m * n := by nlinarith
  have hpm : (0 : T) < m := by exact_mod_cast hm
  exact qr_passes hG hm hn hmn (hnn.trans hmn) (le_refl _) he (hs _ hpm).1.le fun a ha =>
    cgs2Fresh_spec hs hn hnm hb (fullColRank_scale hi hX) ha (fun p p0 p1 => by rw [zeroVec_val p0 p1]; simp)

end

end

/-! ## The hypotheses are met -/

/-- The generator whose word i for the counter c is c + i, with the numbers of a pair unchanged. -/
def exHrGen (T : Type) [IntCast T] : Gen (2 ^ 128) Nat Int T := ⟨4, fun c _ i => c.val + i, fun a b => (a, b), fun w => w, fun w => w.toNat⟩

/-- An environment with this generator. -/
noncomputable def exHrEnv : SkEnv (2 ^ 128) Nat Int Int ℚ ℝ :=
  ⟨⟨fun lt l => l.mergeSort fun a b => !lt b a, [], 4⟩, exHrGen ℝ, Real.sqrt 3, exGenQ, Real.sqrt, fun _ l => l⟩

theorem exHr_cast (seed : RNGState (2 ^ 128) Nat) (m n i j : Int) : gaussOf (exHrGen ℝ) seed m n i j = ((gaussOf (exHrGen Int) seed m n i j : Int) : ℝ) := by
  unfold gaussOf testData denseRaw genValue exHrGen
  dsimp only
  split <;> simp

/-- The 4 x 2 matrix with the columns (0, 1, 2, 3) and (1, 2, 3, 4). -/
theorem exHr_rank : FullColRank 4 2 (gaussOf exHrEnv.G ⟨0, 7⟩ 4 2) := by
  intro x hx j h0 h1
  have e : ∀ i j, gaussOf exHrEnv.G ⟨0, 7⟩ 4 2 i j = ((gaussOf (exHrGen Int) ⟨0, 7⟩ 4 2 i j : Int) : ℝ) := exHr_cast _ _ _
  have r0 := hx 0 (by norm_num) (by norm_num)
  have r1 := hx 1 (by norm_num) (by norm_num)
  have e1 : gaussOf (exHrGen Int) ⟨0, 7⟩ 4 2 0 0 = 0 := by decide +kernel
  have e2 : gaussOf (exHrGen Int) ⟨0, 7⟩ 4 2 0 1 = 1 := by decide +kernel
  have e3 : gaussOf (exHrGen Int) ⟨0, 7⟩ 4 2 1 0 = 1 := by decide +kernel
  have e4 : gaussOf (exHrGen Int) ⟨0, 7⟩ 4 2 1 1 = 2 := by decide +kernel
  simp only [e] at r0 r1
  simp [Finset.sum_range_succ, e1, e2, e3, e4] at r0 r1
  have : j = 0 ∨ j = 1 := by omega
  rcases this with rfl | rfl
  · linarith
  · exact r0

example : M.wp (testGramSeq exHrEnv Real.sqrt (1 / 2) (1 / 1000) (1 / 1000) 2 ⟨0, 7⟩) () (fun r _ => r = none) :=
  C135_gram_sequential (Or.inr rfl) sqrtOk_real (by norm_num) (by norm_num) (by norm_num) (by norm_num [intMax]) (by norm_num [intMax]) exHr_rank

example : M.wp (testGramBlocked exHrEnv Real.sqrt (1 / 2) (1 / 1000) (1 / 1000) 2 1 ⟨0, 7⟩) () (fun r _ => r = none) :=
  C135_gram_blocked (Or.inr rfl) sqrtOk_real (by norm_num) (by norm_num) (by norm_num) (by norm_num) (by norm_num [intMax]) (by norm_num [intMax]) exHr_rank

/-- The size and block size of one of the tests. -/
example : M.wp (testCholDiag Real.sqrt (1 / 1000) (1 / 1000) (potrfUpper Real.sqrt 8 8 3) 8) () (fun r _ => r = none) :=
  C135_diagonal sqrtOk_real (by norm_num) (by norm_num) (by norm_num) (by norm_num [intMax])

example : M.wp (testCholQr exHrEnv Real.sqrt (1 / 2) (1 / 1000) 4 2 1 ⟨0, 7⟩) () (fun r _ => r = (none, none)) :=
  C135_cholqr (Or.inr rfl) sqrtOk_real (by norm_num) (by norm_num) (by norm_num) (by norm_num) (by norm_num) (by norm_num [intMax]) (by norm_num [intMax]) exHr_rank

example : M.wp (testCgs2 exHrEnv Real.sqrt (1 / 2) (1 / 1000) 4 2 1 ⟨0, 7⟩) () (fun r _ => r = (none, none)) :=
  C135_cgs2 (Or.inr rfl) sqrtOk_real (by norm_num) (by norm_num) (by norm_num) (by norm_num) (by norm_num) (by norm_num [intMax]) exHr_rank

/-- A wrong routine is found: one that writes 1 everywhere instead of the factor of diag(1, 1/2). -/
example : M.wp (testCholDiag Real.sqrt (1 / 1000) (1 / 1000) (do M.modify (fun _ => Buf.ofFn 4 fun _ => 1); pure 0) 2) () (fun r _ => r ≠ none) := by
  refine M.wp_mono (C135_diagonal_compares (by norm_num) (by norm_num [intMax]) (P := fun U => U = fun _ _ => 1) fun a _ => ?_) ?_
  · rw [M.wp_bind, M.wp_modify, M.wp_pure]
    refine ⟨_, rfl, fun i j hij => ?_⟩
    have := hij.1; have := hij.2.1; have := hij.2.2
    rw [addr_colMajor]
    unfold Buf.ofFn
    rw [if_pos (by omega)]
  · rintro r _ ⟨U, rfl, h⟩ hr
    have := h.1.1 hr 0 1 ⟨by norm_num, by norm_num, by norm_num, by norm_num⟩
    dsimp only at this
    rw [if_neg (by norm_num)] at this
    unfold Close at this
    norm_num at this

end RB
