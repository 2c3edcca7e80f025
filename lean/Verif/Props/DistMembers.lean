import Verif.Model.DenseSkops
import Verif.Model.SparseSkops
import Verif.Props.Sampling

/-! # The members of distributions (C102); weights after an error of `weights_to_cdf` (C22) -/

namespace RB
open Spec
variable {R : Type}

/-- The documentation of `dim_major` (RandBLAS/dense_skops.hh:246-256, RandBLAS/sparse_skops.hh:161-169). -/
def Spec.documentedDimMajor (axis : Axis) (nRows nCols : Int) : Int :=
  match axis with
  | .Short => min nRows nCols
  | .Long => max nRows nCols

/-- The table in the documentation of `DenseDist::natural_layout` (RandBLAS/dense_skops.hh:277-298). -/
def Spec.documentedLayout (axis : Axis) (nRows nCols : Int) : Layout :=
  match axis, decide (nRows > nCols) with
  | .Long, true => .ColMajor
  | .Short, true => .RowMajor
  | .Long, false => .RowMajor
  | .Short, false => .ColMajor

/-- C102 (`DenseDist`). The constructor raises an error exactly if a dimension is not positive. Otherwise the members are as documented; the natural layout is so if the
dimensions differ. Missing: square distributions. -/
theorem C102_dense_partial (nRows nCols : Int) (family : ScalarDist) (axis : Axis) :
    (min nRows nCols ≤ 0 → mkDenseDist nRows nCols family axis = .throw .require) ∧
    (0 < min nRows nCols → ∃ D, mkDenseDist nRows nCols family axis = .ok D ∧ D.nRows = nRows ∧ D.nCols = nCols ∧ D.family = family ∧ D.majorAxis = axis ∧
      D.dimMajor = documentedDimMajor axis nRows nCols ∧ D.dimMinor = nRows + nCols - D.dimMajor ∧
      (nRows ≠ nCols → D.naturalLayout = documentedLayout axis nRows nCols)) := by
  constructor
  · intro h
    unfold mkDenseDist
    by_cases hr : nRows > 0
    · have hc : ¬ nCols > 0 := by omega
      simp [Res.require, hr, hc]
    · simp [Res.require, hr]
  · intro h
    have hr : nRows > 0 := by omega
    have hc : nCols > 0 := by omega
    refine ⟨_, by simp only [mkDenseDist, Res.require_eq_ok hr, Res.require_eq_ok hc, Res.ok_bind, Res.pure_eq]; rfl, rfl, rfl, rfl, rfl, ?_, ?_, ?_⟩
    · cases axis <;> simp [documentedDimMajor]
    · cases axis <;> simp <;> omega
    · intro hne
      unfold naturalLayout documentedLayout
      rcases lt_or_gt_of_ne hne with h1 | h1
      · cases axis <;> simp [h1, show ¬ nRows > nCols by omega]
      · cases axis <;> simp [h1, show ¬ nRows < nCols by omega]

/-- C102: the natural layout of a square distribution is never the documented one. -/
theorem C102_square_counterexample (n : Int) (hn : 0 < n) (family : ScalarDist) (axis : Axis) :
    ∃ D, mkDenseDist n n family axis = .ok D ∧ D.naturalLayout ≠ documentedLayout axis n n := by
  refine ⟨_, by simp only [mkDenseDist, Res.require_eq_ok (show n > 0 from hn), Res.ok_bind, Res.pure_eq]; rfl, ?_⟩
  cases axis <;> simp [naturalLayout, documentedLayout]

/-- C102 (`SparseDist`). The constructor raises an error exactly if a dimension is not positive or `vec_nnz` is not in `{1..dim_major}`. Otherwise the members are as
documented. -/
theorem C102_sparse (nRows nCols vecNnz : Int) (axis : Axis) :
    (min nRows nCols ≤ 0 ∨ ¬ (1 ≤ vecNnz ∧ vecNnz ≤ documentedDimMajor axis nRows nCols) → mkSparseDist nRows nCols vecNnz axis = .throw .require) ∧
    (0 < min nRows nCols → 1 ≤ vecNnz → vecNnz ≤ documentedDimMajor axis nRows nCols → ∃ D, mkSparseDist nRows nCols vecNnz axis = .ok D ∧ D.nRows = nRows ∧ D.nCols = nCols ∧
      D.vecNnz = vecNnz ∧ D.majorAxis = axis ∧ D.dimMajor = documentedDimMajor axis nRows nCols ∧ D.dimMinor = nRows + nCols - D.dimMajor ∧
      D.fullNnz = vecNnz * D.dimMinor) := by
  have e : (if axis = .Short then min nRows nCols else max nRows nCols) = documentedDimMajor axis nRows nCols := by cases axis <;> simp [documentedDimMajor]
  unfold mkSparseDist
  rw [e]
  constructor
  · intro h
    by_cases hr : nRows > 0
    · by_cases hc : nCols > 0
      · by_cases hv : vecNnz > 0
        · have : ¬ vecNnz ≤ documentedDimMajor axis nRows nCols := by omega
          simp [Res.require, hr, hc, hv, this]
        · simp [Res.require, hr, hc, hv]
      · simp [Res.require, hr, hc]
    · simp [Res.require, hr]
  · intro h hv hd
    exact ⟨_, by simp only [Res.require_eq_ok (show nRows > 0 by omega), Res.require_eq_ok (show nCols > 0 by omega), Res.require_eq_ok (show vecNnz > 0 by omega),
      Res.require_eq_ok hd, Res.ok_bind, Res.pure_eq]; rfl, rfl, rfl, rfl, rfl, rfl, rfl, rfl⟩

/-- The hypotheses are met. -/
example : 0 < min (3 : Int) 7 ∧ (3 : Int) ≠ 7 ∧ (1 : Int) ≤ 2 ∧ 2 ≤ documentedDimMajor .Short 3 7 ∧ documentedLayout .Long 3 7 = .RowMajor ∧ documentedLayout .Long 7 7 = .RowMajor := by decide

/-! ## C22: the weights after an error -/

/-- C22 (errors). The outcome of `weights_to_cdf` if weight `k` is the first one below `error_if_below`: an error, and the weights before it have been replaced by their partial sums;
the documentation says that the weights are overwritten if the check passes. If no weight is below `error_if_below` but the sum is below the threshold, all weights have been
replaced. -/
theorem C22_error_state [Field R] [LinearOrder R] [IsStrictOrderedRing R] {n k : Int} {thresh below : R} {b : Buf R} {v : Int → R}
    (hk : 0 ≤ k) (hkn : k ≤ n) (hv : ∀ i, 0 ≤ i → i < n → b i = .val (v i)) (hok : ∀ i, 0 ≤ i → i < k → below ≤ v i)
    (hbad : k < n ∧ v k < below ∨ k = n ∧ posSum v n.toNat < thresh) :
    weightsToCdf n thresh below b = (.throw .require, fun p => if 0 ≤ p ∧ p < k then .val (posSum v (p.toNat + 1)) else b p) := by
  suffices h : M.wpx (weightsToCdf n thresh below) b (fun _ _ => False)
      (fun e b' => e = .require ∧ b' = fun p => if 0 ≤ p ∧ p < k then .val (posSum v (p.toNat + 1)) else b p) by
    unfold M.wpx at h
    rcases hm : weightsToCdf n thresh below b with ⟨r, b'⟩
    rw [hm] at h
    cases r with
    | ok a => exact h.elim
    | throw e => obtain ⟨rfl, rfl⟩ := h; rfl
    | ub => exact h.elim
  unfold weightsToCdf
  rw [M.wpx_bind]
  refine M.wpx_foldI (fun t sum b' => t ≤ k ∧ sum = posSum v t.toNat ∧ b' = fun p => if 0 ≤ p ∧ p < t then .val (posSum v (p.toNat + 1)) else b p) (by omega) ?_ ?_ ?_
  · refine ⟨hk, by simp [posSum], ?_⟩
    funext p; rw [if_neg (by omega)]
  · rintro t sum b' ht0 ht1 ⟨htk, rfl, rfl⟩
    have hbt : (fun p => if 0 ≤ p ∧ p < t then .val (posSum v (p.toNat + 1)) else b p) t = .val (v t) := by
      show (if 0 ≤ t ∧ t < t then _ else b t) = _
      rw [if_neg (by omega)]; exact hv t ht0 ht1
    have hsum : posSum v t.toNat + max (v t) 0 = posSum v (t.toNat + 1) := by
      unfold posSum
      rw [Finset.sum_range_succ, Int.toNat_of_nonneg ht0, max_comm]
    simp only [M.wpx_bind, M.wpx_rd, M.wpx_require, M.wpx_wr, M.wpx_pure]
    refine ⟨v t, hbt, ?_, ?_⟩
    · intro hge
      have htk' : t < k := by
        rcases hbad with ⟨h1, h2⟩ | ⟨h1, -⟩
        · rcases eq_or_lt_of_le htk with rfl | h
          · exact absurd hge (not_le.mpr h2)
          · exact h
        · omega
      refine ⟨by rw [show (if 0 ≤ t ∧ t < t then _ else b t) = _ from hbt]; simp, by omega, ?_, ?_⟩
      · rw [hsum]; congr 1; omega
      · funext p
        rw [Buf.set_apply]
        by_cases hp : p = t
        · subst hp; rw [if_pos rfl, if_pos (by omega), hsum]
        · rw [if_neg hp]
          by_cases h : 0 ≤ p ∧ p < t
          · rw [if_pos h, if_pos (by omega)]
          · rw [if_neg h, if_neg (by omega)]
    · intro hlt
      refine ⟨trivial, ?_⟩
      have : t = k := by
        by_contra hc
        exact hlt (hok t ht0 (by omega))
      rw [this]
  · rintro sum b' ⟨hnk, rfl, rfl⟩
    have e : k = n := by omega
    rw [M.wpx_bind, M.wpx_require]
    constructor
    · intro hge
      rcases hbad with ⟨h1, -⟩ | ⟨-, h2⟩
      · omega
      · exact absurd hge (not_le.mpr h2)
    · intro hlt
      exact ⟨rfl, by rw [e]⟩

/-- The hypotheses of `C22_error_state` are met by the weights 1, 2, -3 with `error_if_below = 0`: after the error the weights are 1, 3, -3. -/
example : weightsToCdf 3 (1 / 100 : ℚ) 0 (Buf.ofFn 3 fun i => if i = 0 then 1 else if i = 1 then 2 else -3) =
    (.throw .require, fun p => if 0 ≤ p ∧ p < 2 then .val (posSum (fun i => if i = 0 then (1 : ℚ) else if i = 1 then 2 else -3) (p.toNat + 1))
      else Buf.ofFn 3 (fun i => if i = 0 then (1 : ℚ) else if i = 1 then 2 else -3) p) :=
  C22_error_state (by decide) (by decide) (fun i h0 h1 => Buf.ofFn_in h0 h1) (fun i h0 h1 => by split_ifs <;> first | (exfalso; omega) | norm_num) (Or.inl ⟨by decide, by norm_num⟩)

end RB
