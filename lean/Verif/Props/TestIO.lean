import Verif.Model.TestIO
import Verif.Props.Print

/-!
# C142: the tests of printing
-/

namespace RB
open Spec
variable {T : Type}

theorem getPiMat_holds {pi : T} {layout : Layout} {nr nc m n lda : Int} (h : ∀ i j, InR m n i j → 0 ≤ addr layout lda i j ∧ addr layout lda i j < nr * nc) :
    Holds (getPiMat pi nr nc) layout lda m n (fun _ _ => pi) := by
  intro i j hij
  obtain ⟨h0, h1⟩ := h i j hij
  simp [getPiMat, Buf.fill, h0, h1]

/-- C142 (small matrices). Three matrices of the given sizes are written, all entries pi with 9 digits, under their labels. -/
theorem C142_tiny (fmt : Int → T → String) (pi : T) (style : ArrayStyle) (pre : String) (s : OStream) :
    M.wp (testIoTiny fmt pi style pre) s (fun _ s' => s'.text = s.text ++ matrixText style (pre ++ "1x1") [[fmt 9 pi]] ++
      matrixText style (pre ++ "2x1") [[fmt 9 pi], [fmt 9 pi]] ++ matrixText style (pre ++ "1x2") [[fmt 9 pi, fmt 9 pi]]) := by
  unfold testIoTiny
  dsimp only
  rw [M.wp_bind]
  refine M.wp_mono ((C50_layout_partial (X := fun _ _ => pi) s (by decide) (by decide)).2 (by simp [LdOk]) (getPiMat_holds fun i j h => ?_)) fun _ s1 h1 => ?_
  · obtain ⟨a, b, c, d⟩ := h; simp only [addr]; constructor <;> omega
  rw [M.wp_bind]
  refine M.wp_mono ((C50_layout_partial (X := fun _ _ => pi) s1 (by decide) (by decide)).2 (by simp [LdOk]) (getPiMat_holds fun i j h => ?_)) fun _ s2 h2 => ?_
  · obtain ⟨a, b, c, d⟩ := h; simp only [addr]; constructor <;> omega
  refine M.wp_mono ((C50_layout_partial (X := fun _ _ => pi) s2 (by decide) (by decide)).2 (by simp [LdOk]) (getPiMat_holds fun i j h => ?_)) fun _ s3 h3 => ?_
  · obtain ⟨a, b, c, d⟩ := h; simp only [addr]; constructor <;> omega
  rw [h3.1, h2.1, h1.1]
  rfl

theorem flat_one {L B a b : Int} (hL : 2 ≤ L) (ha : 0 ≤ a) (ha' : a < L) (hb : 0 ≤ b) (hb' : b < B) :
    0 ≤ a + b * L ∧ a + b * L < L * B ∧ (a + b * L = 1 ↔ a = 1 ∧ b = 0) := by
  refine ⟨by nlinarith, by nlinarith, ⟨fun h => ?_, fun ⟨h, h'⟩ => by subst h h'; omega⟩⟩
  have : b = 0 := by
    by_contra hne
    have : 1 ≤ b := by omega
    nlinarith
  subst this
  omega

/-- C142 (larger matrices). The labels are right: the negative number is in the first column of the first matrix (row 1) and in the first row of the others (column 1), and the last matrix
is the transpose of the first one. Every other entry is pi, written with 3 digits. -/
theorem C142_medium [Neg T] (fmt : Int → T → String) (pi : T) (style : ArrayStyle) {m n : Int} (hm : 2 ≤ m) (hn : 2 ≤ n) (s : OStream) :
    M.wp (testIoMedium fmt pi style m n) s (fun _ s' => s'.text = s.text ++
      matrixText style "Neg in first column\nmat7x3_a" (table m n fun i j => fmt 3 (if i = 1 ∧ j = 0 then -pi else pi)) ++
      matrixText style "Neg in first row\nmat7x3_b" (table m n fun i j => fmt 3 (if i = 0 ∧ j = 1 then -pi else pi)) ++
      matrixText style "Neg in first row\ntrans_mat7x3_a" (table n m fun i j => fmt 3 (if j = 1 ∧ i = 0 then -pi else pi))) := by
  have h1 : 1 < m * n := by nlinarith
  unfold testIoMedium
  rw [M.wp_bind, M.wp_onLocal, M.wp_bind, M.wp_rd]
  refine ⟨pi, by simp [getPiMat, Buf.fill, h1], ?_⟩
  rw [M.wp_wr]
  refine ⟨by simp [getPiMat, Buf.fill, h1], ?_⟩
  have key : ∀ p, 0 ≤ p → p < m * n → ((getPiMat pi m n).set 1 (-pi)) p = .val (if p = 1 then -pi else pi) := by
    intro p h0 h2
    by_cases hp : p = 1 <;> simp [Buf.set, getPiMat, Buf.fill, hp, h0, h2]
  rw [M.wp_bind]
  refine M.wp_mono ((C50_layout_partial (X := fun i j => if i = 1 ∧ j = 0 then -pi else pi) s (by omega) (by omega)).2 (by simp [LdOk]) ?_) fun _ s1 e1 => ?_
  · rintro i j ⟨a, b, c, d⟩
    obtain ⟨h2, h3, h4⟩ := flat_one hm a b c d
    simp only [addr]
    rw [key _ h2 h3]
    simp only [h4]
  rw [M.wp_bind]
  refine M.wp_mono ((C50_layout_partial (X := fun i j => if i = 0 ∧ j = 1 then -pi else pi) s1 (by omega) (by omega)).2 (by simp [LdOk]) ?_) fun _ s2 e2 => ?_
  · rintro i j ⟨a, b, c, d⟩
    obtain ⟨h2, h3, h4⟩ := flat_one hn c d a b
    simp only [addr]
    rw [add_comm, key _ h2 (by rwa [mul_comm m n])]
    simp only [h4, and_comm]
  refine M.wp_mono ((C50_layout_partial (X := fun i j => if j = 1 ∧ i = 0 then -pi else pi) s2 (by omega) (by omega)).2 (by simp [LdOk]) ?_) fun _ s3 e3 => ?_
  · rintro i j ⟨a, b, c, d⟩
    obtain ⟨h2, h3, h4⟩ := flat_one hm c d a b
    simp only [addr]
    rw [add_comm, key _ h2 h3]
    simp only [h4]
  rw [e3.1, e2.1, e1.1]

/-- The sizes of the tests meet the hypotheses, and the text of a small case is what one expects. -/
example (fmt : Int → ℚ → String) (style : ArrayStyle) (s : OStream) : M.wp (testIoMedium fmt (22 / 7) style 7 3) s (fun _ s' => s'.text = s.text ++
    matrixText style "Neg in first column\nmat7x3_a" (table 7 3 fun i j => fmt 3 (if i = 1 ∧ j = 0 then -(22 / 7) else 22 / 7)) ++
    matrixText style "Neg in first row\nmat7x3_b" (table 7 3 fun i j => fmt 3 (if i = 0 ∧ j = 1 then -(22 / 7) else 22 / 7)) ++
    matrixText style "Neg in first row\ntrans_mat7x3_a" (table 3 7 fun i j => fmt 3 (if j = 1 ∧ i = 0 then -(22 / 7) else 22 / 7))) :=
  C142_medium fmt (22 / 7) style (by decide) (by decide) s

example : matrixText .python "arr1x2" [["3.14159265", "3.14159265"]] = "\narr1x2 = np.array([\n\t[  3.14159265,  3.14159265 ]\n])\n\n" := by rfl

end RB
