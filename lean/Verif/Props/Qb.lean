import Verif.Lemmas.Qb
import Verif.Lemmas.OrthExists
import Verif.Props.Spmm
import Verif.Props.Tls

/-! # C71: the QB decomposition -/

namespace RB
open Spec

variable {T : Type}

section
variable [CommRing T] [DecidableEq T]

omit [DecidableEq T] in
theorem asM_gramPower (m n k : Int) (A S : Int → Int → T) (q : Nat) :
    asM n k (gramPower m n A S (q + 1)) = (asM m n A).transpose * (asM m n A * asM n k (gramPower m n A S q)) := by
  rw [gramPower, asM_mul n m k, asM_T, asM_mul m n k]

/-- What the loop maintains about the n x k matrix S: it spans `(A^T A)^q S0`, and the range of A if the range of `A S0` does. -/
def QbSpan (m n k : Int) (A S0 : Int → Int → T) (q : Nat) (S : Int → Int → T) : Prop :=
  (∃ R, asM n k (gramPower m n A S0 q) = asM n k S * asM k k R) ∧
  ((∃ X, asM m n A = asM m n A * asM n k S0 * asM k n X) → ∃ X, asM m n A = asM m n A * asM n k S * asM k n X)

omit [DecidableEq T] in
theorem qbSpan_step {m n k : Int} {A S0 S Q S' R1 R2 : Int → Int → T} {q : Nat} (h : QbSpan m n k A S0 q S)
    (hQ : (asM m k Q).transpose * asM m k Q = 1) (h1 : asM m n A * asM n k S = asM m k Q * asM k k R1)
    (hS : (asM n k S').transpose * asM n k S' = 1) (h2 : (asM m n A).transpose * asM m k Q = asM n k S' * asM k k R2) :
    QbSpan m n k A S0 (q + 1) S' := by
  obtain ⟨⟨R, hR⟩, hX⟩ := h
  constructor
  · refine ⟨ofM (asM k k R2 * (asM k k R1 * asM k k R)), ?_⟩
    rw [asM_ofM, asM_gramPower, hR, ← Matrix.mul_assoc (asM m n A), h1, Matrix.mul_assoc, ← Matrix.mul_assoc _ (asM m k Q), h2, Matrix.mul_assoc]
  · intro hc
    obtain ⟨X, hX⟩ := hX hc
    have e1 : asM m k Q * ((asM m k Q).transpose * asM m n A) = asM m n A := by
      conv_lhs => rw [hX, h1]
      conv_rhs => rw [hX, h1]
      rw [Matrix.mul_assoc (asM m k Q) (asM k k R1), ← Matrix.mul_assoc _ (asM m k Q), hQ, Matrix.one_mul]
    have e2 : (asM m k Q).transpose * asM m n A = (asM k k R2).transpose * (asM n k S').transpose := by
      have := congrArg Matrix.transpose h2
      rw [Matrix.transpose_mul, Matrix.transpose_mul, Matrix.transpose_transpose] at this
      exact this
    refine ⟨ofM (asM n k S').transpose, ?_⟩
    rw [asM_ofM]
    conv_rhs => rw [← e1, e2]
    conv_lhs => rw [← e1, e2]
    rw [Matrix.mul_assoc (asM m k Q), Matrix.mul_assoc (asM m k Q), Matrix.mul_assoc (asM k k R2).transpose, hS, Matrix.mul_one]

theorem qbPass_spec {A : SpMat T} {E : List (Entry T)} {m n k : Int} {t0 t : QbSt T} {env1 env2 : Env T} (he1 : EnvOk env1) (he2 : EnvOk env2)
    {orth : Int → Int → (Int → Int → T) → (Int → Int → T)} {tau : T} (hD : QbData A E m n) (hk : 0 ≤ k) (hkm : k ≤ m) (hkn : k ≤ n)
    (hm : 1 ≤ m) (hn : 1 ≤ n) (hom : OrthFor orth m k) (hon : OrthFor orth n k) {S0 : Int → Int → T} {q : Nat}
    (h : QbInv A E m n k t0 t ∧ ∃ S, HoldsC t.b n n k S ∧ QbSpan m n k (toMat E) S0 q S) :
    M.wp (qbPass env1 env2 orth tau m n k) t (fun _ t' => QbInv A E m n k t0 t' ∧ ∃ S, HoldsC t'.b n n k S ∧ QbSpan m n k (toMat E) S0 (q + 1) S) := by
  obtain ⟨h, S, hS, hsp⟩ := h
  unfold qbPass
  simp only [M.wp_bind]
  refine M.wp_mono (qbMulA_spec he1 hD hm hn hk h hS) ?_
  rintro _ t1 ⟨i1, -, Q1, q1, e1⟩
  refine M.wp_mono (qbOrthQ_spec hm hk hkm hom i1 q1) ?_
  rintro _ t2 ⟨i2, -, Q2, R1, q2, o2, e2⟩
  refine M.wp_mono (qbMulAT_spec he2 hD hm hn hk i2 q2) ?_
  rintro _ t3 ⟨i3, -, S3, s3, e3⟩
  refine M.wp_mono (qbOrthB_spec hn hk hkn hon i3 s3) ?_
  rintro _ t4 ⟨i4, -, S4, R2, s4, o4, e4⟩
  exact ⟨i4, S4, s4, qbSpan_step hsp o2 (e1.symm.trans e2) o4 (e3.symm.trans e4)⟩

/-- C71. `qb_decompose_sparse_matrix` for an m x n matrix A, rank 1 ≤ k ≤ min(m, n) and any number p of passes. `S0` is the matrix from which the power
iteration starts: the sampled n x k matrix if p is even and `A^T` times the sampled m x k matrix if p is odd. On exit
* the columns of the m x k matrix Q are orthonormal,
* `B = Q^T A`,
* the range of Q contains the range of `A (A^T A)^(p/2) S0`,
* if the range of `A S0` is the whole range of A, then `Q B = A`,
* A has the same entries as before, and only the first m k, n k and k elements of the three arrays change.

The hypotheses `Supported` exclude matrices for which the products fail (C31). -/
theorem C71_qb_partial {env : Int → Env T} (henv : ∀ i, EnvOk (env i)) {orth : Int → Int → (Int → Int → T) → (Int → Int → T)} {tau : T}
    {fillB fillQ : M (Buf T) Unit} {sB sQ : Int → T} {m n k p lwork : Int} {t : QbSt T} {E : List (Entry T)}
    (hA : SpHolds t.A E) (hb : spBase t.A = .Zero) (hr : InRange m n E) (hrows : spRows t.A = m) (hcols : spCols t.A = n)
    (hsup : Supported t.A .NoTrans .ColMajor .NoTrans m n E) (hsupT : Supported t.A .Trans .ColMajor .NoTrans n m (E.map Entry.swap))
    (hk : 1 ≤ k) (hkm : k ≤ m) (hkn : k ≤ n) (hp : 0 ≤ p) (hlw : max m n ≤ lwork)
    (hom : OrthFor orth m k) (hon : OrthFor orth n k) (hfB : Fills (n * k) sB fillB) (hfQ : Fills (m * k) sQ fillQ)
    (hq : ∀ i, 0 ≤ i → i < m * k → t.q i ≠ .none) (hB : ∀ i, 0 ≤ i → i < n * k → t.b i ≠ .none) (hw : ∀ i, 0 ≤ i → i < lwork → t.work i ≠ .none)
    (S0 : Int → Int → T)
    (hS0 : S0 = if p % 2 = 0 then fun i j => sB (i + j * n) else prodEntry m (fun i j => toMat E j i) fun i j => sQ (i + j * m)) :
    M.wp (qbDecompose env orth tau fillB fillQ m n k p lwork) t (fun _ t' => ∃ Q B, HoldsC t'.q m m k Q ∧ HoldsC t'.b k k n B ∧
      OrthoCols m k Q ∧
      (∀ i j, InR k n i j → B i j = prodEntry m (fun i j => Q j i) (toMat E) i j) ∧
      (∃ R, ∀ i j, InR m k i j → prodEntry n (toMat E) (gramPower m n (toMat E) S0 (p / 2).toNat) i j = prodEntry k Q R i j) ∧
      ((∃ X, ∀ i j, InR m n i j → toMat E i j = prodEntry k (prodEntry n (toMat E) S0) X i j) → ∀ i j, InR m n i j → prodEntry k Q B i j = toMat E i j) ∧
      SameObject t.A t'.A ∧ (∃ E', SpHolds t'.A E' ∧ E'.Perm E) ∧
      SameOutsideVec t.q t'.q (m * k) ∧ SameOutsideVec t.b t'.b (n * k) ∧ SameOutsideVec t.work t'.work k) := by
  have hm : 1 ≤ m := by omega
  have hn : 1 ≤ n := by omega
  have hk0 : 0 ≤ k := by omega
  have hD : QbData t.A E m n := ⟨hb, by rw [hrows, hcols]; exact hr, hrows, hcols, hsup, hsupT⟩
  have h0 : QbInv t.A E m n k t t := ⟨⟨SameObject.refl _, E, hA, List.Perm.refl _⟩, hq, hB, fun i h0 h1 => hw i h0 (by omega), fun _ _ => rfl, fun _ _ => rfl,
    fun _ _ => rfl⟩
  unfold qbDecompose
  simp only [M.wp_bind, M.wp_require]
  refine ⟨hlw, ?_⟩
  have hstart : M.wp (qbStart (env (-1)) orth tau fillB fillQ m n k p) t (fun _ t' => QbInv t.A E m n k t t' ∧
      ∃ S, HoldsC t'.b n n k S ∧ QbSpan m n k (toMat E) S0 0 S) := by
    unfold qbStart
    by_cases hpe : p % 2 = 0
    · rw [if_pos hpe, M.wp_zoom]
      rw [if_pos hpe] at hS0
      refine M.wp_mono (hfB t.b hB) ?_
      rintro _ b' ⟨g1, g2⟩
      refine ⟨⟨h0.sp, h0.q, fun i h0 h1 => by dsimp only; rw [g1 i h0 h1]; simp, h0.w, h0.fq, g2, h0.fw⟩, S0, fun i j hij => ?_, ?_, fun h => h⟩
      · have := pos_range hij
        rw [addr_colMajor, hS0]; exact g1 _ this.1 this.2
      · exact ⟨ofM 1, by rw [asM_ofM, Matrix.mul_one]; rfl⟩
    · rw [if_neg hpe] at hS0 ⊢
      simp only [M.wp_bind, M.wp_zoom]
      refine M.wp_mono (hfQ t.q hq) ?_
      rintro _ q' ⟨g1, g2⟩
      have i1 : QbInv t.A E m n k t { t with q := q' } := ⟨h0.sp, fun i h0 h1 => by dsimp only; rw [g1 i h0 h1]; simp, h0.b, h0.w, g2, h0.fb, h0.fw⟩
      have hq1 : HoldsC q' m m k (fun i j => sQ (i + j * m)) := fun i j hij => by
        have := pos_range hij
        rw [addr_colMajor]; exact g1 _ this.1 this.2
      refine M.wp_mono (qbMulAT_spec (henv _) hD hm hn hk0 i1 hq1) ?_
      rintro _ t3 ⟨i3, -, S3, s3, e3⟩
      refine M.wp_mono (qbOrthB_spec hn hk0 hkn hon i3 s3) ?_
      rintro _ t4 ⟨i4, -, S4, R2, s4, o4, e4⟩
      have e5 : asM n k S0 = asM n k S4 * asM k k R2 := by rw [← e4, e3, hS0, asM_mul n m k, asM_T]
      refine ⟨i4, S4, s4, ⟨R2, e5⟩, fun ⟨X, hX⟩ => ⟨ofM (asM k k R2 * asM k n X), ?_⟩⟩
      rw [asM_ofM]
      refine hX.trans ?_
      rw [e5]
      simp only [Matrix.mul_assoc]
  refine M.wp_mono hstart ?_
  intro _ t1 h1
  have hcnt : (p - p % 2 + 1) / 2 = p / 2 := by omega
  rw [hcnt]
  refine M.wp_forI (fun c t' => QbInv t.A E m n k t t' ∧ ∃ S, HoldsC t'.b n n k S ∧ QbSpan m n k (toMat E) S0 c.toNat S) (by omega) h1 ?_ ?_
  · intro c t2 hc0 hc h2
    refine M.wp_mono (qbPass_spec (henv _) (henv _) hD hk0 hkm hkn hm hn hom hon h2) ?_
    intro _ t3 h3
    rw [show (c + 1).toNat = c.toNat + 1 by omega]; exact h3
  · rintro t2 ⟨i2, S, hS, ⟨R, hR⟩, hX⟩
    refine M.wp_mono (qbMulA_spec (henv _) hD hm hn hk0 i2 hS) ?_
    rintro _ t3 ⟨i3, -, Q3, q3, e3⟩
    refine M.wp_mono (qbOrthQ_spec hm hk0 hkm hom i3 q3) ?_
    rintro _ t4 ⟨i4, -, Q, R4, q4, o4, e4⟩
    refine M.wp_mono (qbProject_spec (henv _) hD hm hn hk i4 q4) ?_
    rintro _ t5 ⟨i5, q5, B, b5, e5⟩
    refine ⟨Q, B, by rw [q5]; exact q4, b5, ortho_asM.2 o4, ?_, ?_, ?_, i5.sp.1, i5.sp.2, i5.fq, i5.fb, i5.fw⟩
    · rw [← asM_eq, asM_mul k m n, asM_T]; exact e5
    · refine ⟨ofM (asM k k R4 * asM k k R), ?_⟩
      rw [← asM_eq, asM_mul m n k, asM_mul m k k, asM_ofM, hR, ← Matrix.mul_assoc, ← e3, e4, Matrix.mul_assoc]
    · rintro ⟨X, hX'⟩
      rw [← asM_eq, asM_mul m k n, asM_mul m n k] at hX'
      obtain ⟨X, hX⟩ := hX ⟨X, hX'⟩
      rw [← asM_eq, asM_mul m k n, e5]
      have e6 : asM m n (toMat E) = asM m k Q * (asM k k R4 * asM k n X) := by
        conv_lhs => rw [hX, ← e3, e4]
        rw [Matrix.mul_assoc]
      rw [e6, ← Matrix.mul_assoc (asM m k Q).transpose, o4, Matrix.one_mul]

/-- Too short a work array is reported by an exception before anything is written. -/
theorem C71_workspace_error {env : Int → Env T} {orth : Int → Int → (Int → Int → T) → (Int → Int → T)} {tau : T} {fillB fillQ : M (Buf T) Unit}
    {m n k p lwork : Int} {t : QbSt T} (h : lwork < max m n) :
    qbDecompose env orth tau fillB fillQ m n k p lwork t = (.throw .require, t) := by
  unfold qbDecompose
  refine M.bind_throw ?_
  simp [M.require, show ¬ max m n ≤ lwork by omega]
  rfl

end

/-- The missing part of C71: the well-formed CSC matrix [5 0] has rank 1, but the decomposition accesses memory out of bounds, whatever is sampled (here: ones). -/
theorem C71_first_column_counterexample (orth : Int → Int → (Int → Int → ℤ) → (Int → Int → ℤ)) :
    CscIs (cscOf 1 2 [0, 1, 1] [⟨0, 0, (5 : ℤ)⟩]) [⟨0, 0, 5⟩] ∧
    (qbDecompose (fun _ => exEnv) orth 0 (forI 0 2 fun i => M.wr i 1) (forI 0 1 fun i => M.wr i 1) 1 2 1 0 2
      ⟨.csc (cscOf 1 2 [0, 1, 1] [⟨0, 0, (5 : ℤ)⟩]), Buf.alloc ℤ 1, Buf.alloc ℤ 2, Buf.alloc ℤ 2⟩).1 = .ub :=
  ⟨⟨rfl, csIs_ofList (n := 2) rfl rfl rfl (by decide) (by decide)⟩, rfl⟩

/-- The hypotheses of C71 are met, with p = 3 and k = 2, by a 3 x 2 COO matrix of real numbers. -/
example : ∃ (orth : Int → Int → (Int → Int → ℝ) → (Int → Int → ℝ)) (t : QbSt ℝ) (E : List (Entry ℝ)) (s : Int → ℝ),
    (∀ i : Int, EnvOk ((fun _ => ⟨fun lt l => l.mergeSort fun a b => !lt b a, [], 4⟩ : Int → Env ℝ) i)) ∧ SpHolds t.A E ∧ spBase t.A = .Zero ∧ InRange 3 2 E ∧ spRows t.A = 3 ∧ spCols t.A = 2 ∧
    Supported t.A .NoTrans .ColMajor .NoTrans 3 2 E ∧ Supported t.A .Trans .ColMajor .NoTrans 2 3 (E.map Entry.swap) ∧ toMat E 2 1 = 5 ∧
    OrthFor orth 3 2 ∧ OrthFor orth 2 2 ∧ Fills 4 s (forI 0 4 fun i => M.wr i (s i)) ∧ Fills 6 s (forI 0 6 fun i => M.wr i (s i)) ∧
    (∀ i, 0 ≤ i → i < 6 → t.q i ≠ .none) ∧ (∀ i, 0 ≤ i → i < 4 → t.b i ≠ .none) ∧ (∀ i, 0 ≤ i → i < 3 → t.work i ≠ .none) := by
  obtain ⟨orth, ho⟩ := exists_orthFor
  have hal : ∀ N : Int, ∀ i, 0 ≤ i → i < N → Buf.alloc ℝ N i ≠ .none := fun N i h0 h1 => by simp [Buf.alloc, h0, h1]
  refine ⟨orth, ⟨.coo (cooOf 3 2 .Zero [⟨2, 1, 5⟩, ⟨0, 0, 1⟩]), Buf.alloc ℝ 6, Buf.alloc ℝ 4, Buf.alloc ℝ 3⟩, [⟨2, 1, 5⟩, ⟨0, 0, 1⟩], fun i => i,
    fun _ => ⟨mergeSort_sortOk, by norm_num⟩, ⟨cooOf_is _ _ _ _, trivial⟩, rfl, by simp [InRange], rfl, rfl, Or.inl ⟨by decide, fun _ _ => ?_⟩,
    Or.inl ⟨by decide, fun _ _ => ?_⟩, by simp [toMat], ho 3 2 (by decide), ho 2 2 (by decide), ?_, ?_, hal _, hal _, hal _⟩
  · exact ⟨⟨2, 1, 5⟩, by simp, by decide⟩
  · exact ⟨⟨1, 2, 5⟩, by simp [Entry.swap], by decide⟩
  · exact fun _ hb => writeVec_spec (by decide) hb
  · exact fun _ hb => writeVec_spec (by decide) hb

end RB
