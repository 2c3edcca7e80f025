import Verif.Lemmas.Dense64
import Verif.Props.Dense

/-!
# C56: index arithmetic of dense sampling

`fillDenseUnpacked64` and `denseNextState64` compute with `int64_t` and `int`; the functions without suffix compute with integers.
-/

namespace RB
open Spec
variable {N : Nat} {K W T : Type}

/-- The number of words that the generator produces for the whole operator, in blocks of `len` words with no block shared by two major-axis
vectors, is a 64-bit integer. -/
def Spec.PaddedFits (len : Int) (D : DenseDist) : Prop := D.dimMinor * (len * countersPerVector len D.dimMajor) ≤ intMax 64

/-- The length of the m x n window along the major axis. -/
def Spec.majorLen (D : DenseDist) (m n : Int) : Int := if D.naturalLayout = .ColMajor then m else n

/-- C56. If the padded operator has less than 2^63 entries and the window extends over at most 2^31 blocks along the major axis, the code
behaves as if its integers were unbounded: same data, same state, no overflow.

Missing: larger operators (`C56_padding_counterexample`) and windows (`C56_int_counterexample`). -/
theorem C56_same_partial [Mul T] {sched : List Nat} {G : Gen N K W T} {sqrt3 : T} {layout : Layout} {D : DenseDist}
    {m n ro co : Int} {seed : RNGState N K} (hG : G.Ok) (hD : DenseDistOk D) (hP : PaddedFits G.len D) (hw : InWindow D m n ro co)
    (hlen : majorLen D m n ≤ G.len * 2 ^ 31) :
    fillDenseUnpacked64 sched G sqrt3 layout D m n ro co seed = fillDenseUnpacked sched G sqrt3 layout D m n ro co seed := by
  obtain ⟨h1, h2, h3, h4, h5, h6⟩ := hw
  obtain ⟨hR, hC, hfit, hlay⟩ := denseDist_facts hD
  have hmax : intMax 64 = 2 ^ 63 - 1 := rfl
  have hL : 0 < G.len ∧ G.len < 2 ^ 30 := by rcases hG with h | h <;> rw [h] <;> decide
  have hRC : D.nRows ≤ D.nRows * D.nCols ∧ D.nCols ≤ D.nRows * D.nCols := ⟨by nlinarith, by nlinarith⟩
  have hmn : m * n ≤ D.nRows * D.nCols := mul_le_mul (by omega) (by omega) (by omega) (by omega)
  have hmn0 : 0 < m * n := mul_pos h1 h2
  have hnm0 : 0 < n * m := by rw [mul_comm]; exact hmn0
  have hnm : n * m ≤ D.nRows * D.nCols := by rw [mul_comm]; exact hmn
  unfold fillDenseUnpacked64 fillDenseUnpacked
  rw [mlift_i64 (by omega) (by omega)]
  congr 1; funext _
  rw [mlift_i64 (by omega) (by omega)]
  congr 1; funext _
  dsimp only
  rw [flipWork64_eq (by omega) (by omega)]
  unfold PaddedFits at hP
  unfold majorLen at hlen
  rcases hlay with ⟨hl, hmaj, hmin⟩ | ⟨hl, hmaj, hmin⟩
  · rw [if_pos hl] at hlen
    simp only [hl, if_true, hmaj, hmin] at hP ⊢
    have hcv : 0 ≤ G.len * countersPerVector G.len D.nRows := mul_nonneg (by omega) (countersPerVector_nonneg hL.1 (by omega))
    have hp : co * D.nRows + ro ≤ D.nRows * D.nCols := by nlinarith
    have hp0 : 0 ≤ co * D.nRows := mul_nonneg h4 (by omega)
    rw [safeIntProduct_ok h4 (by omega) (by omega)]
    have hlift : ∀ {x : Int} {f : Int → M (Buf T) (RNGState N K)}, (M.lift (.ok x) >>= f) = f x := fun {_ _} => rfl
    rw [hlift, hlift, mlift_i64 (by omega) (by omega), scaleByFamily64_eq (by omega) (by omega), show ro + co * D.nRows = co * D.nRows + ro by ring]
    rw [fillSubmat64_eq hL.1 hL.2 h4 h3 h1 h2 h5 (lt_of_le_of_lt (mul_le_mul_of_nonneg_right h6 hcv) (by omega)) hlen]
  · have hl' : ¬ Layout.RowMajor = .ColMajor := by simp
    rw [hl, if_neg hl'] at hlen
    simp only [hl, if_neg hl', hmaj, hmin] at hP ⊢
    have hcv : 0 ≤ G.len * countersPerVector G.len D.nCols := mul_nonneg (by omega) (countersPerVector_nonneg hL.1 (by omega))
    have hp : ro * D.nCols + co ≤ D.nRows * D.nCols := by nlinarith
    have hp0 : 0 ≤ ro * D.nCols := mul_nonneg h3 (by omega)
    rw [safeIntProduct_ok h3 (by omega) (by omega)]
    have hlift : ∀ {x : Int} {f : Int → M (Buf T) (RNGState N K)}, (M.lift (.ok x) >>= f) = f x := fun {_ _} => rfl
    rw [hlift, hlift, mlift_i64 (by omega) (by omega), scaleByFamily64_eq (by omega) (by omega)]
    rw [fillSubmat64_eq hL.1 hL.2 h3 h4 h2 h1 h6 (lt_of_le_of_lt (mul_le_mul_of_nonneg_right h5 hcv) (by omega)) hlen]

/-- C56 (entries). In these cases the code writes the entries of the operator (as in C01) and nothing else. -/
theorem C56_entries_partial [Mul T] {sched : List Nat} {G : Gen N K W T} {sqrt3 : T} {layout : Layout} {D : DenseDist}
    {m n ro co : Int} {seed : RNGState N K} {b : Buf T} (hG : G.Ok) (hD : DenseDistOk D) (hP : PaddedFits G.len D) (hw : InWindow D m n ro co)
    (hlen : majorLen D m n ≤ G.len * 2 ^ 31) (hal : AllocTo b (m * n)) :
    M.wp (fillDenseUnpacked64 sched G sqrt3 layout D m n ro co seed) b (fun _ b' =>
      Holds b' layout (tightLd layout m n) m n (fun i j => denseEntry G sqrt3 D seed (i + ro) (j + co)) ∧
      ∀ p, ¬ (0 ≤ p ∧ p < m * n) → b' p = b p) := by
  rw [C56_same_partial hG hD hP hw hlen]
  obtain ⟨h1, h2, h3, h4, h5, h6⟩ := hw
  exact M.wp_mono (fillUnpacked_spec hG hD h1 h2 h3 h4 h5 h6 hal) fun _ _ h => ⟨h.1, h.2.1⟩

/-- C56 (constructor). The same for the state that the constructor of `DenseSkOp` computes. -/
theorem C56_next_state_partial {G : Gen N K W T} {D : DenseDist} {seed : RNGState N K} (hG : G.Ok) (hD : DenseDistOk D) (hP : PaddedFits G.len D) :
    denseNextState64 G.len D seed = denseNextState G.len D seed := by
  obtain ⟨hR, hC, hfit, hlay⟩ := denseDist_facts hD
  have hmax : intMax 64 = 2 ^ 63 - 1 := rfl
  have hL : 0 < G.len ∧ G.len < 2 ^ 30 := by rcases hG with h | h <;> rw [h] <;> decide
  have hM : 0 < D.dimMajor ∧ 0 < D.dimMinor := by
    rcases hlay with ⟨_, a, b⟩ | ⟨_, a, b⟩ <;> rw [a, b]
    · exact ⟨hR, hC⟩
    · exact ⟨hC, hR⟩
  have hpad := pad_div (n := D.dimMajor) hL.1
  have h0 := Int.emod_nonneg D.dimMajor (show G.len ≠ 0 by omega)
  have h1 := Int.emod_lt_of_pos D.dimMajor hL.1
  unfold PaddedFits at hP
  have hcv : 0 ≤ G.len * countersPerVector G.len D.dimMajor := mul_nonneg (by omega) (countersPerVector_nonneg hL.1 (by omega))
  have hle : G.len * countersPerVector G.len D.dimMajor ≤ D.dimMinor * (G.len * countersPerVector G.len D.dimMajor) := by nlinarith [hM.2]
  unfold denseNextState64 denseNextState
  rw [Int.tmod_eq_emod_of_nonneg (by omega)]
  have : (if D.dimMajor % G.len ≠ 0 then i64 (G.len - D.dimMajor % G.len) else .ok 0) =
      .ok (if D.dimMajor % G.len ≠ 0 then G.len - D.dimMajor % G.len else 0) := by
    split_ifs
    · exact i64_ok (by omega) (by omega)
    · rfl
  rw [this, Res.ok_bind, hpad, i64_ok (by omega) (by omega), Res.ok_bind]
  dsimp only
  rw [hpad]

/-- The hypotheses of C56 are met by a window in the middle of an operator with 2^35 x 2^25 entries. -/
example : ∃ D, mkDenseDist (2 ^ 35) (2 ^ 25) .Gaussian .Short = .ok D ∧ DenseDistOk D ∧ PaddedFits exGen.len D ∧
    InWindow D (2 ^ 20) (2 ^ 10) (2 ^ 34) 12345 ∧ majorLen D (2 ^ 20) (2 ^ 10) ≤ exGen.len * 2 ^ 31 := by
  refine ⟨_, rfl, ⟨rfl, by decide⟩, ?_, ?_, by decide⟩
  · unfold PaddedFits; decide
  · unfold InWindow; decide

/-- C56 is false without the first restriction: the constructor accepts an operator with 1 x 2^62 entries and major axis `Short`, but
computing the position of entry (0, 2^61) overflows. -/
theorem C56_padding_counterexample : ∃ D, mkDenseDist 1 (2 ^ 62) .Gaussian .Short = .ok D ∧ DenseDistOk D ∧ InWindow D 1 1 0 (2 ^ 61) ∧
    (∀ seed : RNGState (2 ^ 128) Nat, ∃ s, denseNextState64 exGen.len D seed = .ok s) ∧
    ∀ (sched : List Nat) (layout : Layout) (seed : RNGState (2 ^ 128) Nat) (b : Buf Int),
      fillDenseUnpacked64 sched exGen 1 layout D 1 1 0 (2 ^ 61) seed b = (.ub, b) := by
  refine ⟨_, rfl, ⟨rfl, by decide⟩, by unfold InWindow; decide, fun seed => ⟨_, rfl⟩, fun sched layout seed b => rfl⟩

/-- C56 is false without the second restriction: filling an operator with 1 x 2^34 entries overflows the loop counter. -/
theorem C56_int_counterexample : ∃ D, mkDenseDist 1 (2 ^ 34) .Gaussian .Long = .ok D ∧ DenseDistOk D ∧ PaddedFits exGen.len D ∧
    (fillDenseUnpacked64 [] exGen 1 .RowMajor D 1 (2 ^ 34) 0 0 ⟨0, 5⟩ (Buf.alloc Int (2 ^ 34))).1 = .ub := by
  refine ⟨_, rfl, ⟨rfl, by decide⟩, by unfold PaddedFits; decide, rfl⟩

/-- The check of the arguments itself can overflow: with unbounded integers the offset is rejected. -/
theorem C56_check_counterexample (sched : List Nat) (layout : Layout) (seed : RNGState (2 ^ 128) Nat) (b : Buf Int) :
    fillDenseUnpacked sched exGen 1 layout exDist 1 1 (2 ^ 63 - 1) 0 seed b = (.throw .require, b) ∧
    fillDenseUnpacked64 sched exGen 1 layout exDist 1 1 (2 ^ 63 - 1) 0 seed b = (.ub, b) := ⟨rfl, rfl⟩

end RB
