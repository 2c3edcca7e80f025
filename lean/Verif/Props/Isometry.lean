import Verif.Model.Isometry
import Verif.Props.Sparse
import Mathlib.MeasureTheory.Integral.Bochner.SumMeasure

/-! # C46: the isometry scale normalises the operator -/

namespace RB
open Spec MeasureTheory
variable {N : Nat} {K W R : Type}

theorem rpow_neg_half_sq {x : ℝ} (hx : 0 < x) : x ^ (-0.5 : ℝ) * x ^ (-0.5 : ℝ) = 1 / x := by
  rw [← Real.rpow_add hx, show (-0.5 : ℝ) + -0.5 = -1 by norm_num, Real.rpow_neg_one, one_div]

/-- C46 (short axis). For every sample, every short-axis vector scaled by `isometry_scale` has squared norm one. -/
theorem C46_short_axis [Field R] [LinearOrder R] [FloorRing R] {G : Gen N K W R}
    {order : Int → List (Int × ℝ) → List (Int × ℝ)} {S : SparseSkOp N K ℝ} (hG : G.Ok)
    (hord : ∀ i l, (order i l).Perm l) (hS : SparseOpOk S) (hax : S.dist.majorAxis = .Short) :
    M.wp (fillSparse G Real.sqrt order) S (fun _ S' => ∃ E, OpHolds S' E ∧ ∀ q, 0 ≤ q → q < max S.nRows S.nCols →
      ((E.filter fun e => longIdx S.nRows S.nCols e = q).map fun e => (S.dist.isometryScale * e.val) * (S.dist.isometryScale * e.val)).sum = 1) := by
  obtain ⟨-, -, hk, -⟩ := sparseDist_facts hS.dist
  have hk' : (0 : ℝ) < S.dist.vecNnz := by exact_mod_cast hk
  refine M.wp_mono (C11_short_axis hG Real.sqrt_one hord hS hax) ?_
  rintro - S' ⟨E, hE, -, -, -, hcount, hval⟩
  refine ⟨E, hE, fun q h0 h1 => ?_⟩
  have hc := hcount q h0 h1
  have hsc : S.dist.isometryScale = (S.dist.vecNnz : ℝ) ^ (-0.5 : ℝ) := by
    unfold SparseDist.isometryScale isometryScale; rw [if_pos hax]
  have hmap : ((E.filter fun e => longIdx S.nRows S.nCols e = q).map fun e => (S.dist.isometryScale * e.val) * (S.dist.isometryScale * e.val)) =
      (E.filter fun e => longIdx S.nRows S.nCols e = q).map fun _ => (1 / (S.dist.vecNnz : ℝ)) := by
    apply List.map_congr_left
    intro e he
    have hv := hval e (List.mem_filter.mp he).1
    rw [mul_mul_mul_comm, hsc, rpow_neg_half_sq hk']
    rcases hv with h | h <;> rw [h] <;> ring
  rw [hmap, List.map_const', List.sum_replicate, nsmul_eq_mul]
  have : (((E.filter fun e => longIdx S.nRows S.nCols e = q).length : Nat) : ℝ) = (S.dist.vecNnz : ℝ) := by exact_mod_cast hc
  rw [this]; field_simp

/-- The hypotheses of `C46_short_axis` and `C46_long_axis` are met by the two example distributions. -/
example : exGenQ.Ok ∧ SparseOpOk (mkSparseSkOp 4 exSaso ⟨0, 7⟩ : SparseSkOp (2 ^ 128) Nat ℝ) ∧ exSaso.majorAxis = .Short ∧
    SparseOpOk (mkSparseSkOp 4 exLaso ⟨0, 7⟩ : SparseSkOp (2 ^ 128) Nat ℝ) ∧ exLaso.majorAxis = .Long ∧
    (∀ (st : RNGState (2 ^ 128) Nat) c t, 0 ≤ unif01 exGenQ (advance st c) t ∧ unif01 exGenQ (advance st c) t < 1) :=
  ⟨Or.inr rfl, mkSparseSkOp_ok 4 exSaso_ok _, rfl, mkSparseSkOp_ok 4 exLaso_ok _, rfl,
    fun _ _ t => ⟨(exGenQ_unif _ t).1.le, (exGenQ_unif _ t).2⟩⟩

theorem sum_by_short {T : Type} [AddCommMonoid T] (nr nc : Int) (m : Nat) (f : Entry T → T) (E : List (Entry T))
    (h : ∀ e ∈ E, 0 ≤ shortIdx nr nc e ∧ shortIdx nr nc e < m) :
    (E.map f).sum = ∑ q ∈ Finset.range m, ((E.filter fun e => shortIdx nr nc e = (q : Int)).map f).sum := by
  induction E with
  | nil => simp
  | cons e E ih =>
    have he := h e (by simp)
    rw [List.map_cons, List.sum_cons, ih (fun e he => h e (by simp [he]))]
    have : ∀ q : Nat, (((e :: E).filter fun e => shortIdx nr nc e = (q : Int)).map f).sum =
        (if q = (shortIdx nr nc e).toNat then f e else 0) + ((E.filter fun e => shortIdx nr nc e = (q : Int)).map f).sum := by
      intro q
      rw [List.filter_cons]
      by_cases hq : q = (shortIdx nr nc e).toNat
      · rw [if_pos hq, if_pos (by simp; omega), List.map_cons, List.sum_cons]
      · rw [if_neg hq, if_neg (by simp; omega), zero_add]
    simp only [this, Finset.sum_add_distrib]
    congr 1
    rw [Finset.sum_ite_eq' (Finset.range m) _ (fun _ => f e), if_pos (by rw [Finset.mem_range]; omega)]

/-- C46 (long axis). For every sample, the operator scaled by `isometry_scale` has squared Frobenius norm `max(n_rows, n_cols)`. -/
theorem C46_long_axis [Field R] [LinearOrder R] [IsStrictOrderedRing R] [FloorRing R] {G : Gen N K W R}
    {order : Int → List (Int × ℝ) → List (Int × ℝ)} {S : SparseSkOp N K ℝ} (hG : G.Ok)
    (hord : ∀ i l, (order i l).Perm l) (hS : SparseOpOk S) (hax : S.dist.majorAxis = .Long)
    (hu : ∀ c t, 0 ≤ unif01 G (advance S.seedState c) t ∧ unif01 G (advance S.seedState c) t < 1) :
    M.wp (fillSparse G Real.sqrt order) S (fun _ S' => ∃ E, OpHolds S' E ∧
      (E.map fun e => (S.dist.isometryScale * e.val) * (S.dist.isometryScale * e.val)).sum = ((max S.nRows S.nCols : Int) : ℝ)) := by
  obtain ⟨hR, hC, hk, hkd, hfull, hfit, hax'⟩ := sparseDist_facts hS.dist
  obtain ⟨hmaj, hmin⟩ : S.dist.dimMajor = max S.dist.nRows S.dist.nCols ∧ S.dist.dimMinor = min S.dist.nRows S.dist.nCols := by
    rcases hax' with ⟨a, b, c⟩ | ⟨a, b, c⟩
    · rw [a] at hax; cases hax
    · exact ⟨b, c⟩
  have hk' : (0 : ℝ) < S.dist.vecNnz := by exact_mod_cast hk
  have hm' : (0 : ℝ) < S.dist.dimMinor := by have : 0 < S.dist.dimMinor := by omega
                                             exact_mod_cast this
  have hM' : (0 : ℝ) < S.dist.dimMajor := by have : 0 < S.dist.dimMajor := by omega
                                             exact_mod_cast this
  refine M.wp_mono (C12_long_axis hG Real.sqrt_one (fun n => Real.mul_self_sqrt (Nat.cast_nonneg n)) hord hS hax hu) ?_
  rintro - S' ⟨E, hE, -, -, hr, -, hvec⟩
  refine ⟨E, hE, ?_⟩
  rw [sum_by_short S.nRows S.nCols S.dist.dimMinor.toNat]
  · have hq : ∀ q ∈ Finset.range S.dist.dimMinor.toNat,
        ((E.filter fun e => shortIdx S.nRows S.nCols e = (q : Int)).map fun e =>
          (S.dist.isometryScale * e.val) * (S.dist.isometryScale * e.val)).sum = (S.dist.dimMajor : ℝ) / S.dist.dimMinor := by
      intro q hq
      rw [Finset.mem_range] at hq
      obtain ⟨Eq, rfl, -, -, hsum, -⟩ := hvec q (by omega) (by rw [hS.nRows, hS.nCols]; omega)
      have : (fun e : Entry ℝ => (S.dist.isometryScale * e.val) * (S.dist.isometryScale * e.val)) =
          fun e => (S.dist.isometryScale * S.dist.isometryScale) * (e.val * e.val) := by funext e; ring
      rw [this, List.sum_map_mul_left, hsum]
      unfold SparseDist.isometryScale isometryScale
      rw [if_neg (by rw [hax]; decide), Real.mul_self_sqrt (by positivity)]
      field_simp
    rw [Finset.sum_congr rfl hq, Finset.sum_const, Finset.card_range, nsmul_eq_mul]
    have : ((S.dist.dimMinor.toNat : Nat) : ℝ) = (S.dist.dimMinor : ℝ) := by
      have : ((S.dist.dimMinor.toNat : Nat) : Int) = S.dist.dimMinor := by omega
      exact_mod_cast this
    rw [this, hS.nRows, hS.nCols, ← hmaj]
    field_simp
  · intro e he
    have := hr e he
    rw [hS.nRows, hS.nCols] at *
    unfold shortIdx
    split_ifs <;> omega

/-- The expected squared norm of `S x` for random entries that are uncorrelated within each row and have second moment one. -/
theorem expected_norm {Ω : Type} [MeasurableSpace Ω] (μ : Measure Ω) {d n : Nat} (S : Fin d → Fin n → Ω → ℝ) (x : Fin n → ℝ)
    (hint : ∀ i j l, Integrable (fun w => S i j w * S i l w) μ)
    (hcov : ∀ i j l, ∫ w, S i j w * S i l w ∂μ = if j = l then 1 else 0) :
    ∫ w, ∑ i, (∑ j, S i j w * x j) ^ 2 ∂μ = d * ∑ j, x j ^ 2 := by
  have h1 : ∀ w, ∑ i, (∑ j, S i j w * x j) ^ 2 = ∑ i, ∑ j, ∑ l, (x j * x l) * (S i j w * S i l w) := by
    intro w
    refine Finset.sum_congr rfl fun i _ => ?_
    rw [sq, Finset.sum_mul_sum]
    exact Finset.sum_congr rfl fun j _ => Finset.sum_congr rfl fun l _ => by ring
  simp only [h1]
  rw [integral_finsetSum _ (fun i _ => integrable_finsetSum _ fun j _ => integrable_finsetSum _ fun l _ => (hint i j l).const_mul _)]
  have h2 : ∀ i, ∫ w, ∑ j, ∑ l, (x j * x l) * (S i j w * S i l w) ∂μ = ∑ j, x j ^ 2 := by
    intro i
    rw [integral_finsetSum _ (fun j _ => integrable_finsetSum _ fun l _ => (hint i j l).const_mul _)]
    refine Finset.sum_congr rfl fun j _ => ?_
    rw [integral_finsetSum _ (fun l _ => (hint i j l).const_mul _)]
    simp only [integral_const_mul, hcov]
    simp [sq]
  simp only [h2, Finset.sum_const, Finset.card_univ, Fintype.card_fin, nsmul_eq_mul]

/-- C46 (dense, wide). If the entries of a wide (`n_rows <= n_cols`) operator with major axis Long are uncorrelated with second moment one,
then `isometry_scale^2 * E ||S x||^2 = ||x||^2`. -/
theorem C46_dense_wide_partial {Ω : Type} [MeasurableSpace Ω] (μ : Measure Ω) {d n : Nat} {fam : ScalarDist} {D : DenseDist}
    (hD : mkDenseDist d n fam .Long = .ok D) (hdn : d ≤ n) (S : Fin d → Fin n → Ω → ℝ) (x : Fin n → ℝ)
    (hint : ∀ i j l, Integrable (fun w => S i j w * S i l w) μ)
    (hcov : ∀ i j l, ∫ w, S i j w * S i l w ∂μ = if j = l then 1 else 0) :
    D.isometryScale * D.isometryScale * ∫ w, ∑ i, (∑ j, S i j w * x j) ^ 2 ∂μ = ∑ j, x j ^ 2 := by
  obtain ⟨hr, hc⟩ := mkDenseDist_pos hD
  rw [mkDenseDist_eq hr hc] at hD
  injection hD with hD
  have hm : D.dimMinor = d := by rw [← hD]; simp only [if_true]; omega
  have hpos : (0 : ℝ) < d := by exact_mod_cast hr
  rw [expected_norm μ S x hint hcov]
  unfold DenseDist.isometryScale
  rw [hm, Int.cast_natCast, rpow_neg_half_sq hpos]
  field_simp

/-- C46 (dense, tall). The transposed statement: a tall operator with major axis Long whose entries are uncorrelated within each column,
`isometry_scale^2 * E ||S^T x||^2 = ||x||^2`. -/
theorem C46_dense_tall_partial {Ω : Type} [MeasurableSpace Ω] (μ : Measure Ω) {d n : Nat} {fam : ScalarDist} {D : DenseDist}
    (hD : mkDenseDist d n fam .Long = .ok D) (hdn : n ≤ d) (S : Fin d → Fin n → Ω → ℝ) (x : Fin d → ℝ)
    (hint : ∀ i j l, Integrable (fun w => S j i w * S l i w) μ)
    (hcov : ∀ i j l, ∫ w, S j i w * S l i w ∂μ = if j = l then 1 else 0) :
    D.isometryScale * D.isometryScale * ∫ w, ∑ i, (∑ j, S j i w * x j) ^ 2 ∂μ = ∑ j, x j ^ 2 := by
  obtain ⟨hr, hc⟩ := mkDenseDist_pos hD
  rw [mkDenseDist_eq hr hc] at hD
  injection hD with hD
  have hm : D.dimMinor = n := by rw [← hD]; simp only [if_true]; omega
  have hpos : (0 : ℝ) < n := by exact_mod_cast hc
  rw [expected_norm μ (fun i j => S j i) x hint hcov]
  unfold DenseDist.isometryScale
  rw [hm, Int.cast_natCast, rpow_neg_half_sq hpos]
  field_simp

/-- A random 1 x 2 operator with uncorrelated entries of variance one: `(1, ±1)`, both signs with probability one half. -/
noncomputable def exMu : Measure (Fin 2) := (2⁻¹ : ENNReal) • Measure.count

/-- Its entries. -/
def exS : Fin 1 → Fin 2 → Fin 2 → ℝ := fun _ j w => if j = 1 ∧ w = 1 then -1 else 1

theorem exMu_integral (f : Fin 2 → ℝ) : ∫ w, f w ∂exMu = (f 0 + f 1) / 2 := by
  unfold exMu
  rw [integral_smul_measure, integral_fintype Integrable.of_finite]
  simp [Measure.real]
  ring

theorem exS_int : ∀ i j l, Integrable (fun w => exS i j w * exS i l w) exMu := by
  intro i j l
  have : IsFiniteMeasure exMu := by unfold exMu; exact Measure.smul_finite _ (by simp)
  exact Integrable.of_finite

theorem exS_cov : ∀ i j l, ∫ w, exS i j w * exS i l w ∂exMu = if j = l then 1 else 0 := by
  intro i j l
  rw [exMu_integral]
  fin_cases j <;> fin_cases l <;> norm_num [exS]

/-- The hypotheses of `C46_dense_wide_partial` are satisfied by it. -/
example : ∃ D, mkDenseDist (1 : Nat) (2 : Nat) .Uniform .Long = .ok D ∧ ∀ x : Fin 2 → ℝ,
    D.isometryScale * D.isometryScale * ∫ w, ∑ i, (∑ j, exS i j w * x j) ^ 2 ∂exMu = ∑ j, x j ^ 2 :=
  ⟨_, rfl, fun x => C46_dense_wide_partial exMu rfl (by decide) exS x exS_int exS_cov⟩

/-- For dense operators with major axis Short the factor is `n_rows / n_cols` instead of one. -/
theorem C46_dense_short_factor {Ω : Type} [MeasurableSpace Ω] (μ : Measure Ω) {d n : Nat} {fam : ScalarDist} {D : DenseDist}
    (hD : mkDenseDist d n fam .Short = .ok D) (hdn : d ≤ n) (S : Fin d → Fin n → Ω → ℝ) (x : Fin n → ℝ)
    (hint : ∀ i j l, Integrable (fun w => S i j w * S i l w) μ)
    (hcov : ∀ i j l, ∫ w, S i j w * S i l w ∂μ = if j = l then 1 else 0) :
    D.isometryScale * D.isometryScale * ∫ w, ∑ i, (∑ j, S i j w * x j) ^ 2 ∂μ = (d : ℝ) / n * ∑ j, x j ^ 2 := by
  obtain ⟨hr, hc⟩ := mkDenseDist_pos hD
  rw [mkDenseDist_eq hr hc] at hD
  injection hD with hD
  have hm : D.dimMinor = n := by rw [← hD]; simp only [reduceCtorEq, if_false]; omega
  have hpos : (0 : ℝ) < n := by exact_mod_cast hc
  rw [expected_norm μ S x hint hcov]
  unfold DenseDist.isometryScale
  rw [hm, Int.cast_natCast, rpow_neg_half_sq hpos]
  field_simp

/-- C46 is false for dense wide operators with major axis Short: a 1 x 2 operator halves the expected squared norm. -/
theorem C46_dense_short_counterexample : ∃ D, mkDenseDist (1 : Nat) (2 : Nat) .Uniform .Short = .ok D ∧ ∃ x : Fin 2 → ℝ,
    D.isometryScale * D.isometryScale * ∫ w, ∑ i, (∑ j, exS i j w * x j) ^ 2 ∂exMu ≠ ∑ j, x j ^ 2 := by
  refine ⟨_, rfl, fun _ => 1, ?_⟩
  rw [C46_dense_short_factor exMu rfl (by decide) exS _ exS_int exS_cov]
  norm_num

end RB
