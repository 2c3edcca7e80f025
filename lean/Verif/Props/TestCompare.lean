import Verif.Model.TestCompare
import Verif.Props.StatCritical
import Verif.Spec.Sketch

/-!
# The comparison helpers of the tests (C118)

A test of the library is only as good as the helper that compares its result with the expected one. For finite numbers the helpers accept exactly the
arrays that agree up to the tolerances. Numbers that are not finite are another matter: the elementwise helpers accept an infinity in place of any finite number, and the helper
with a bound for each element accepts NaN in place of anything.
-/

namespace RB
open Spec

variable {R : Type} [Field R] [LinearOrder R]

/-- The numbers differ by at most `atol`, or by at most `rtol` times the larger magnitude. -/
def Spec.Close (atol rtol a b : R) : Prop := |a - b| ≤ atol ∨ |a - b| ≤ rtol * max |a| |b|

/-- The helper reports the first index below `n` that does not satisfy `P`, or nothing if there is none. -/
def Spec.Reports {α : Type} (r : Res (Option α)) (f : Int → α) (n : Int) (P : Int → Prop) : Prop :=
  (r = .ok none ∧ ∀ i, 0 ≤ i → i < n → P i) ∨ (∃ i, r = .ok (some (f i)) ∧ 0 ≤ i ∧ i < n ∧ ¬ P i ∧ ∀ j, 0 ≤ j → j < i → P j)

theorem reports_findI {α : Type} {n : Int} {f : Int → α} {P : Int → Prop} {body : Int → Res (Option α)} (hn : 0 ≤ n)
    (h1 : ∀ i, 0 ≤ i → i < n → ¬ P i → body i = .ok (some (f i))) (h2 : ∀ i, 0 ≤ i → i < n → P i → body i = .ok none) :
    Reports (findI 0 n body) f n P := by
  rcases findI_first (P := fun i => ¬ P i) (f := f) hn h1 (fun i a b hp => h2 i a b (not_not.mp hp)) with ⟨i, a, b, c, d, e⟩ | ⟨a, e⟩
  · exact Or.inr ⟨i, e, a, b, c, fun j hj hji => not_not.mp (d j hj hji)⟩
  · exact Or.inl ⟨e, fun i hi hin => not_not.mp (a i hi hin)⟩

/-- What `Reports` says about success: the helper accepts exactly if all indices satisfy `P`. -/
theorem reports_none {α : Type} {r : Res (Option α)} {f : Int → α} {n : Int} {P : Int → Prop} (h : Reports r f n P) :
    r = .ok none ↔ ∀ i, 0 ≤ i → i < n → P i := by
  rcases h with ⟨e, h⟩ | ⟨i, e, h1, h2, h3, -⟩
  · exact ⟨fun _ => h, fun _ => e⟩
  · rw [e]
    exact ⟨fun g => (by cases g), fun g => absurd (g i h1 h2) h3⟩

omit [Field R] in
theorem flt_le_fin {x y : R} : (Flt.fin x).le (.fin y) = decide (x ≤ y) := rfl

/-- C118 (one number). Finite numbers are accepted exactly if they are close. -/
theorem C118_approx_equal (a b atol rtol : R) : approxEqual (.fin a) (.fin b) (.fin atol) (.fin rtol) = true ↔ Close atol rtol a b := by
  have hm : Flt.max (Flt.fin b).abs (Flt.fin a).abs = .fin (max |a| |b|) := by
    simp only [Flt.max, Flt.abs, Flt.lt, decide_eq_true_eq]
    split
    · rename_i h; rw [max_eq_left h.le]
    · rename_i h; rw [max_eq_right (not_lt.mp h)]
  unfold approxEqual
  simp only [hm]
  simp only [Flt.sub, Flt.abs, Flt.mul, flt_le_fin, decide_eq_true_eq, Close, mul_comm rtol]
  split_ifs with h1 h2 <;> simp [*]

/-- C118 (one number, assertion). -/
theorem C118_approx_equal_fails (a b atol rtol : R) : approxEqualFails (.fin a) (.fin b) (.fin atol) (.fin rtol) = false ↔ Close atol rtol a b := by
  rw [← C118_approx_equal]
  unfold approxEqualFails
  cases approxEqual (.fin a) (.fin b) (.fin atol) (.fin rtol) <;> simp

/-- C118 (arrays). Two arrays of finite numbers are accepted exactly if all elements are close; otherwise the first index with numbers that are not close is
reported.

Missing: numbers that are not finite (`C118_infinity`). -/
theorem C118_buffs_partial {actual expect : Buf (Flt R)} {size : Int} {x y : Int → R} (hs : 0 ≤ size) (ha : ∀ i, 0 ≤ i → i < size → actual i = .val (.fin (x i)))
    (he : ∀ i, 0 ≤ i → i < size → expect i = .val (.fin (y i))) (atol rtol : R) :
    Reports (buffsApproxEqual actual expect size (.fin atol) (.fin rtol)) id size (fun i => Close atol rtol (x i) (y i)) := by
  unfold buffsApproxEqual
  refine reports_findI hs (fun i h1 h2 h => ?_) (fun i h1 h2 h => ?_) <;>
    rw [← C118_approx_equal] at h <;> simp [Buf.rd_val (ha i h1 h2), Buf.rd_val (he i h1 h2), h]

/-- C118 (arrays with increments). -/
theorem C118_buffs_inc_partial {actual expect : Buf (Flt R)} {size incA incE : Int} {x y : Int → R} (hs : 0 ≤ size)
    (ha : ∀ i, 0 ≤ i → i < size → actual (incA * i) = .val (.fin (x i)))
    (he : ∀ i, 0 ≤ i → i < size → expect (incE * i) = .val (.fin (y i))) (atol rtol : R) :
    Reports (buffsApproxEqualInc size actual incA expect incE (.fin atol) (.fin rtol)) id size (fun i => Close atol rtol (x i) (y i)) := by
  unfold buffsApproxEqualInc
  refine reports_findI hs (fun i h1 h2 h => ?_) (fun i h1 h2 h => ?_) <;>
    rw [← C118_approx_equal] at h <;>
    simp [mul_comm i, Buf.rd_val (ha i h1 h2), Buf.rd_val (he i h1 h2), h]

/-- C118 (bounds). With finite numbers, an array is accepted exactly if each element is within its bound of the expected one; otherwise the first index
outside its bound is reported.

Missing: numbers that are not finite (`C118_bounds_nan`). -/
theorem C118_bounds_partial {actual expect bounds : Buf (Flt R)} {size : Int} {x y e : Int → R} (hs : 0 ≤ size)
    (ha : ∀ i, 0 ≤ i → i < size → actual i = .val (.fin (x i))) (he : ∀ i, 0 ≤ i → i < size → expect i = .val (.fin (y i)))
    (hb : ∀ i, 0 ≤ i → i < size → bounds i = .val (.fin (e i))) :
    Reports (buffsWithinBounds actual expect bounds size) id size (fun i => |x i - y i| ≤ e i) := by
  unfold buffsWithinBounds
  refine reports_findI hs (fun i h1 h2 h => ?_) (fun i h1 h2 h => ?_)
  · simp [Buf.rd_val (ha i h1 h2), Buf.rd_val (he i h1 h2), Buf.rd_val (hb i h1 h2), Flt.sub, Flt.abs, Flt.lt, not_le.mp h]
  · simp [Buf.rd_val (ha i h1 h2), Buf.rd_val (he i h1 h2), Buf.rd_val (hb i h1 h2), Flt.sub, Flt.abs, Flt.lt, not_lt.mpr h]

theorem cmpIdx_eq (l : Layout) (ld i j : Int) : cmpIdx l ld i j = addr l ld i j := by
  cases l
  · simp [cmpIdx, addr]
  · simp [cmpIdx, addr, add_comm]

/-- C118 (matrices). `A` (m x n, in its own layout) and `op(B)` (m x n, with its own layout) are accepted exactly if all elements are close; otherwise a
pair of indices of elements that are not close is reported.

Missing: numbers that are not finite (`C118_infinity`). -/
theorem C118_matrices_partial {A B : Buf (Flt R)} {layoutA layoutB : Layout} {op : Op} {m n lda ldb : Int} {Am Bm : Int → Int → R} (hm : 0 ≤ m) (hn : 0 ≤ n)
    (hA : Holds A layoutA lda m n (fun i j => .fin (Am i j))) (hB : Holds B layoutB ldb (rowsOf op m n) (colsOf op m n) (fun i j => .fin (Bm i j)))
    (atol rtol : R) :
    (matricesApproxEqual layoutA layoutB op m n A lda B ldb (.fin atol) (.fin rtol) = .ok none ∧
      ∀ i j, InR m n i j → Close atol rtol (Am i j) (opMat op Bm i j)) ∨
    ∃ i j, matricesApproxEqual layoutA layoutB op m n A lda B ldb (.fin atol) (.fin rtol) = .ok (some (i, j)) ∧ InR m n i j ∧
      ¬ Close atol rtol (Am i j) (opMat op Bm i j) := by
  obtain ⟨body, hbody, hclose, hbad⟩ : ∃ body : Int → Int → Res (Option (Int × Int)),
      matricesApproxEqual layoutA layoutB op m n A lda B ldb (.fin atol) (.fin rtol) = findI 0 m (fun i => findI 0 n (fun j => body i j)) ∧
      (∀ i j, InR m n i j → Close atol rtol (Am i j) (opMat op Bm i j) → body i j = .ok none) ∧
      (∀ i j, InR m n i j → ¬ Close atol rtol (Am i j) (opMat op Bm i j) → body i j = .ok (some (i, j))) := by
    have hA' : ∀ i j, InR m n i j → A.rd (cmpIdx layoutA lda i j) = .ok (.fin (Am i j)) := fun i j h => Buf.rd_val (by rw [cmpIdx_eq]; exact hA i j h)
    have hB' : ∀ i j, InR (rowsOf op m n) (colsOf op m n) i j → B.rd (cmpIdx layoutB ldb i j) = .ok (.fin (Bm i j)) :=
      fun i j h => Buf.rd_val (by rw [cmpIdx_eq]; exact hB i j h)
    unfold matricesApproxEqual
    cases op with
    | NoTrans =>
      rw [if_pos rfl]
      refine ⟨_, rfl, fun i j h hc => ?_, fun i j h hc => ?_⟩ <;> rw [← C118_approx_equal] at hc <;>
        simp only [opMat] at hc <;> simp [hA' i j h, hB' i j h, hc]
    | Trans =>
      rw [if_neg (by simp)]
      refine ⟨_, rfl, fun i j h hc => ?_, fun i j h hc => ?_⟩ <;> rw [← C118_approx_equal] at hc <;>
        simp only [opMat] at hc <;> simp [hA' i j h, hB' j i ⟨h.2.2.1, h.2.2.2, h.1, h.2.1⟩, hc]
  rw [hbody]
  let f : Int → Int × Int := fun i => match findI 0 n (fun j => body i j) with | .ok (some p) => p | _ => (0, 0)
  have inner : ∀ i, 0 ≤ i → i < m → Reports (findI 0 n (fun j => body i j)) (fun j => (i, j)) n (fun j => Close atol rtol (Am i j) (opMat op Bm i j)) :=
    fun i h1 h2 => reports_findI hn (fun j h3 h4 hc => hbad i j ⟨h1, h2, h3, h4⟩ hc) (fun j h3 h4 hc => hclose i j ⟨h1, h2, h3, h4⟩ hc)
  have outer : Reports (findI 0 m (fun i => findI 0 n (fun j => body i j))) f m
      (fun i => ∀ j, 0 ≤ j → j < n → Close atol rtol (Am i j) (opMat op Bm i j)) := by
    refine reports_findI hm (fun i h1 h2 hc => ?_) (fun i h1 h2 hc => (reports_none (inner i h1 h2)).mpr hc)
    rcases inner i h1 h2 with ⟨-, h⟩ | ⟨j, e, -⟩
    · exact absurd h hc
    · simp only [f, e]
  rcases outer with ⟨e, h⟩ | ⟨i, e, h1, h2, h3, -⟩
  · exact Or.inl ⟨e, fun i j hij => h i hij.1 hij.2.1 j hij.2.2.1 hij.2.2.2⟩
  · rcases inner i h1 h2 with ⟨-, h⟩ | ⟨j, e', h4, h5, h6, -⟩
    · exact absurd h h3
    · have hf : f i = (i, j) := by simp only [f, e']
      exact Or.inr ⟨i, j, by rw [e, hf], ⟨h1, h2, h4, h5⟩, h6⟩

/-- The overload with one layout. -/
theorem C118_matrices_one_layout_partial {A B : Buf (Flt R)} {layout : Layout} {op : Op} {m n lda ldb : Int} {Am Bm : Int → Int → R} (hm : 0 ≤ m) (hn : 0 ≤ n)
    (hA : Holds A layout lda m n (fun i j => .fin (Am i j))) (hB : Holds B layout ldb (rowsOf op m n) (colsOf op m n) (fun i j => .fin (Bm i j)))
    (atol rtol : R) :
    matricesApproxEqual1 layout op m n A lda B ldb (.fin atol) (.fin rtol) = .ok none ↔
      ∀ i j, InR m n i j → Close atol rtol (Am i j) (opMat op Bm i j) := by
  unfold matricesApproxEqual1
  rcases C118_matrices_partial hm hn hA hB atol rtol with ⟨e, h⟩ | ⟨i, j, e, h1, h2⟩
  · exact ⟨fun _ => h, fun _ => e⟩
  · rw [e]
    exact ⟨fun g => (by cases g), fun g => absurd (g i j h1) h2⟩

/-! ## Numbers that are not finite -/

/-- C118: a relative tolerance that is positive makes the helper accept an infinity in place of every finite number, and of the other infinity; but not in
place of itself. -/
theorem C118_infinity (x atol : R) {rtol : R} (h : 0 < rtol) (s : Bool) :
    approxEqual (.inf s) (.fin x) (.fin atol) (.fin rtol) = true ∧ approxEqual (.fin x) (.inf s) (.fin atol) (.fin rtol) = true ∧
    approxEqual (.inf s : Flt R) (.inf !s) (.fin atol) (.fin rtol) = true ∧ approxEqual (.inf s : Flt R) (.inf s) (.fin atol) (.fin rtol) = false := by
  cases s <;> simp [approxEqual, Flt.sub, Flt.abs, Flt.le, Flt.max, Flt.lt, Flt.mul, h.ne', not_lt.mpr h.le]

/-- C118: NaN is never accepted by the elementwise helper, whatever the tolerances. -/
theorem C118_nan (a atol rtol : Flt R) : approxEqual .nan a atol rtol = false ∧ approxEqual a .nan atol rtol = false := by
  constructor <;> cases a <;> simp [approxEqual, Flt.sub, Flt.abs, Flt.le]

/-- C118: the helper for arrays accepts an array of infinities in place of any finite numbers. -/
theorem C118_infinity_buffs {actual expect : Buf (Flt R)} {size : Int} {y : Int → R} (hs : 0 ≤ size) (ha : ∀ i, 0 ≤ i → i < size → actual i = .val (.inf false))
    (he : ∀ i, 0 ≤ i → i < size → expect i = .val (.fin (y i))) (atol : R) {rtol : R} (h : 0 < rtol) :
    buffsApproxEqual actual expect size (.fin atol) (.fin rtol) = .ok none := by
  unfold buffsApproxEqual
  refine (reports_none (f := id) (P := fun _ => True) (reports_findI hs (fun i _ _ hp => absurd trivial hp) (fun i h1 h2 _ => ?_))).mpr fun _ _ _ => trivial
  simp [Buf.rd_val (ha i h1 h2), Buf.rd_val (he i h1 h2), (C118_infinity (y i) atol h false).1]

/-- C118: the helper with bounds accepts NaN in place of anything, whatever the bounds. -/
theorem C118_bounds_nan {actual expect bounds : Buf (Flt R)} {size : Int} {y e : Int → Flt R} (hs : 0 ≤ size)
    (ha : ∀ i, 0 ≤ i → i < size → actual i = .val .nan) (he : ∀ i, 0 ≤ i → i < size → expect i = .val (y i))
    (hb : ∀ i, 0 ≤ i → i < size → bounds i = .val (e i)) : buffsWithinBounds actual expect bounds size = .ok none := by
  unfold buffsWithinBounds
  refine (reports_none (f := id) (P := fun _ => True) (reports_findI hs (fun i _ _ hp => absurd trivial hp) (fun i h1 h2 _ => ?_))).mpr fun _ _ _ => trivial
  have : (e i).lt ((Flt.nan : Flt R).sub (y i)).abs = false := by cases e i <;> simp [Flt.sub, Flt.abs, Flt.lt]
  simp [Buf.rd_val (ha i h1 h2), Buf.rd_val (he i h1 h2), Buf.rd_val (hb i h1 h2), this]

/-- The hypotheses are met, and both outcomes occur: 1 and 1.001 with tolerance 0.01, and with tolerance 0.0001; the second pair of matrices agrees
only after a transposition. -/
example : Close (1 / 100 : ℚ) 0 1 1.001 ∧ ¬ Close (1 / 10000 : ℚ) (1 / 10000) 1 1.001 ∧
    Holds (Buf.ofList [Flt.fin (1 : ℚ), .fin 2, .fin 3, .fin 4]) .ColMajor 2 2 2 (fun i j => .fin (1 + i + 2 * j)) ∧
    Holds (Buf.ofList [Flt.fin (1 : ℚ), .fin 3, .fin 2, .fin 4]) .ColMajor 2 (rowsOf .Trans 2 2) (colsOf .Trans 2 2) (fun i j => .fin (1 + 2 * i + j)) := by
  refine ⟨by norm_num [Close, abs_of_neg], by norm_num [Close, abs_of_neg], ?_, ?_⟩ <;>
  · rintro i j ⟨h1, h2, h3, h4⟩
    have hi : i = 0 ∨ i = 1 := by change i < 2 at h2; omega
    have hj : j = 0 ∨ j = 1 := by change j < 2 at h4; omega
    rcases hi with rfl | rfl <;> rcases hj with rfl | rfl <;> (norm_num [addr, Buf.ofList] <;> rfl)

end RB
