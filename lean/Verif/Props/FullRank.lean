import Verif.Lemmas.FullRank
import Verif.Props.AxisLaw

/-!
# C121: sketches with dense operators have the largest possible rank

The documentation of the distributions describes the choice of an operator for a sketch of rank `min {d, rank A}`.
-/

namespace RB
open Spec Finset
variable {N : Nat} {K W WS R : Type}

/-! ## Specification -/

/-- The rank of the leading `r` rows and `c` columns. -/
noncomputable def Spec.rankOf (r c : Int) (A : Int → Int → ℝ) : Nat := (Matrix.of fun (i : Fin r.toNat) (j : Fin c.toNat) => A (i : Nat) (j : Nat)).rank

/-- A value made from a word is a given number, and a point made from a pair of words lies on a given line, with probability at most `p`. -/
def Spec.SpreadWords [Fintype W] (G : Gen N K W ℝ) (family : ScalarDist) (p : ℝ) : Prop :=
  match family with
  | .Uniform => ∀ c : ℝ, Pr (fun w : W => G.uneg11 w = c) ≤ p
  | .Gaussian => ∀ a b c : ℝ, a ≠ 0 ∨ b ≠ 0 → Pr (fun w : W × W => a * (G.boxmuller w.1 w.2).1 + b * (G.boxmuller w.1 w.2).2 = c) ≤ p

/-! ## Lemmas -/

section
variable [NeZero N] [Fintype W] [Nonempty W] {L : Nat} [NeZero L] {G : Gen N K W ℝ} {family : ScalarDist} {seed : RNGState N K} {M r : Int}

omit [NeZero N] [NeZero L] [Nonempty W] in
theorem spread_nonneg {p : ℝ} (hs : SpreadWords G family p) : 0 ≤ p := by
  cases family with
  | Uniform => exact (pr_nonneg _).trans (hs 0)
  | Gaussian => exact (pr_nonneg _).trans (hs 1 0 0 (Or.inl one_ne_zero))

omit [NeZero N] in
/-- Entries with the same key are computed from the same words. -/
theorem entryPos_of_key (hL : L = 2 ∨ L = 4) {q p q' p' : Int} (h : wordKey family q' p' = wordKey family q p) {a : ZMod N × ZMod L} {c : Int} :
    entryPos seed family c q' p' a ↔ entryPos seed family c q p a := by
  cases family with
  | Uniform =>
    simp only [wordKey, Prod.mk.injEq] at h
    rw [h.1, h.2]
  | Gaussian =>
    simp only [wordKey, Prod.mk.injEq] at h
    obtain ⟨rfl, h⟩ := h
    have h1 : p' / (L : Int) = p / L := by rcases hL with rfl | rfl <;> push_cast <;> omega
    have h2 : p' % (L : Int) / 2 = p % L / 2 := by rcases hL with rfl | rfl <;> push_cast <;> omega
    simp only [entryPos, h1, h2]

/-- A vector of entries of one major-axis vector lies on a given hyperplane with a small probability. -/
theorem dense_spread (hL : L = 2 ∨ L = 4) (hG : G.len = L) {p : ℝ} (hs : SpreadWords G family p) (hN : r * countersPerVector L M ≤ N) {q : Int} (hq : 0 ≤ q ∧ q < r)
    {k : Nat} (o : Fin k → Int) (ho : ∀ j, 0 ≤ o j ∧ o j < M) (hinj : Function.Injective o) :
    Spread p (fun a : ZMod N × ZMod L => ∃ j, entryPos seed family (countersPerVector L M) q (o j) a) (fun ω j => rawE G family M seed ω q (o j)) := by
  classical
  intro y c hyc
  refine pr_mix (fun a : ZMod N × ZMod L => ∃ j, entryPos seed family (countersPerVector L M) q (o j) a) fun ω => ?_
  set P : ZMod N × ZMod L → Prop := fun a => ∃ j, entryPos seed family (countersPerVector L M) q (o j) a with hP
  have h1 : ∀ z, y (mixWords P ω z) = y ω ∧ c (mixWords P ω z) = c ω := fun z => hyc _ _ fun a ha => mixWords_neg ha
  have h2 : ∀ z j, rawE G family M seed (mixWords P ω z) q (o j) = rawE G family M seed z q (o j) := fun z j => rawE_congr hG fun a ha => mixWords_pos ⟨j, ha⟩
  by_cases hy : y ω = 0
  · refine le_trans (pr_mono (q := fun _ => False) fun z hz => ?_) ?_
    · rw [(h1 z).1] at hz
      exact hz.1 hy
    · rw [pr_eq]
      simpa using spread_nonneg hs
  obtain ⟨j0, hj0⟩ := Function.ne_iff.mp hy
  rw [Pi.zero_apply] at hj0
  refine le_trans (pr_mono (q := fun z => ∑ j, y ω j * rawE G family M seed z q (o j) = c ω) fun z hz => ?_) ?_
  · have := hz.2
    rw [(h1 z).1, (h1 z).2] at this
    rw [← this]
    exact sum_congr rfl fun j _ => by beta_reduce; rw [h2]
  refine pr_mix (entryPos seed family (countersPerVector L M) q (o j0)) fun z => ?_
  set same := univ.filter fun j => wordKey family q (o j) = wordKey family q (o j0) with hsame
  have h3 : ∀ z', ∑ j, y ω j * rawE G family M seed (mixWords (entryPos seed family (countersPerVector L M) q (o j0)) z z') q (o j) =
      ∑ j ∈ same, y ω j * rawE G family M seed z' q (o j) + ∑ j with ¬ wordKey family q (o j) = wordKey family q (o j0), y ω j * rawE G family M seed z q (o j) := by
    intro z'
    rw [← sum_filter_add_sum_filter_not univ (fun j => wordKey family q (o j) = wordKey family q (o j0))]
    congr 1
    · refine sum_congr rfl fun j hj => ?_
      rw [rawE_congr hG fun a ha => mixWords_pos ((entryPos_of_key hL (mem_filter.mp hj).2).mp ha)]
    · refine sum_congr rfl fun j hj => ?_
      rw [rawE_congr hG fun a ha => mixWords_neg fun ha' => (mem_filter.mp hj).2 (entryPos_key hL hN hq (ho j0) hq (ho j) ha' ha)]
  generalize (∑ j with ¬ wordKey family q (o j) = wordKey family q (o j0), y ω j * rawE G family M seed z q (o j)) = e at h3
  simp only [h3]
  cases family with
  | Uniform =>
    have hs1 : same = {j0} := by
      ext j
      simp only [hsame, wordKey, Prod.mk.injEq, true_and, mem_filter, mem_univ, mem_singleton]
      exact ⟨fun h => hinj h, fun h => by rw [h]⟩
    rw [hs1]
    simp only [sum_singleton]
    have h3' : Real.sqrt 3 ≠ 0 := by positivity
    refine le_trans (pr_mono (q := fun z' => G.uneg11 (z' (seed.counter + ((q * countersPerVector L M + o j0 / L : Int) : ZMod N), ((o j0 % L : Int) : ZMod L))) =
      (c ω - e) / y ω j0 / Real.sqrt 3) fun z' hz => ?_) ?_
    · have : rawE G .Uniform M seed z' q (o j0) =
          Real.sqrt 3 * G.uneg11 (z' (seed.counter + ((q * countersPerVector L M + o j0 / L : Int) : ZMod N), ((o j0 % L : Int) : ZMod L))) := by
        simp only [rawE, denseRaw, genValue, fromWords, famScale, hG]
      rw [this] at hz
      rw [eq_div_iff h3', eq_div_iff hj0]
      linarith
    · rw [pr_eval (W := W) (seed.counter + ((q * countersPerVector L M + o j0 / L : Int) : ZMod N), ((o j0 % L : Int) : ZMod L)) (fun w => G.uneg11 w = _)]
      exact hs _
  | Gaussian =>
    set A1 := (seed.counter + ((q * countersPerVector L M + o j0 / L : Int) : ZMod N), ((2 * ((o j0 % L) / 2) : Int) : ZMod L)) with hA1
    set A2 := (seed.counter + ((q * countersPerVector L M + o j0 / L : Int) : ZMod N), ((2 * ((o j0 % L) / 2) + 1 : Int) : ZMod L)) with hA2
    have hne : A1 ≠ A2 := by
      intro h
      have := (Prod.ext_iff.mp h).2
      simp only [hA1, hA2] at this
      push_cast at this
      have h1 : (1 : ZMod L) = 0 := by
        have := sub_eq_zero.mpr this
        ring_nf at this
        linear_combination -this
      have : Fact (1 < L) := ⟨by omega⟩
      exact one_ne_zero h1
    have hval : ∀ j ∈ same, ∀ z', rawE G .Gaussian M seed z' q (o j) = if o j % 2 = 0 then (G.boxmuller (z' A1) (z' A2)).1 else (G.boxmuller (z' A1) (z' A2)).2 := by
      intro j hj z'
      have hk := (mem_filter.mp hj).2
      simp only [wordKey, Prod.mk.injEq, true_and] at hk
      have h1 : o j / (L : Int) = o j0 / L := by rcases hL with rfl | rfl <;> push_cast <;> omega
      have h2 : o j % (L : Int) / 2 = o j0 % L / 2 := by rcases hL with rfl | rfl <;> push_cast <;> omega
      have h3 : o j % (L : Int) % 2 = o j % 2 := by rcases hL with rfl | rfl <;> push_cast <;> omega
      simp only [rawE, denseRaw, genValue, fromWords, famScale, hG, h1, h2, h3, hA1, hA2]
    have hsum : ∀ z', ∑ j ∈ same, y ω j * rawE G .Gaussian M seed z' q (o j) = (∑ j ∈ same.filter (fun j => o j % 2 = 0), y ω j) * (G.boxmuller (z' A1) (z' A2)).1 +
        (∑ j ∈ same.filter (fun j => ¬ o j % 2 = 0), y ω j) * (G.boxmuller (z' A1) (z' A2)).2 := by
      intro z'
      rw [← sum_filter_add_sum_filter_not same (fun j => o j % 2 = 0), sum_mul, sum_mul]
      congr 1
      · refine sum_congr rfl fun j hj => ?_
        rw [mem_filter] at hj
        rw [hval j hj.1, if_pos hj.2]
      · refine sum_congr rfl fun j hj => ?_
        rw [mem_filter] at hj
        rw [hval j hj.1, if_neg hj.2]
    have hcoef : ∑ j ∈ same.filter (fun j => o j % 2 = 0), y ω j ≠ 0 ∨ ∑ j ∈ same.filter (fun j => ¬ o j % 2 = 0), y ω j ≠ 0 := by
      have hone : ∀ j, j ∈ same → o j % 2 = o j0 % 2 → j = j0 := by
        intro j hj h
        have hk := (mem_filter.mp hj).2
        simp only [wordKey, Prod.mk.injEq, true_and] at hk
        exact hinj (by omega)
      have hm : j0 ∈ same := mem_filter.mpr ⟨mem_univ _, rfl⟩
      by_cases h0 : o j0 % 2 = 0
      · left
        rw [show same.filter (fun j => o j % 2 = 0) = {j0} by
          ext j
          rw [mem_filter, mem_singleton]
          exact ⟨fun h => hone j h.1 (h.2.trans h0.symm), fun h => by rw [h]; exact ⟨hm, h0⟩⟩, sum_singleton]
        exact hj0
      · right
        rw [show same.filter (fun j => ¬ o j % 2 = 0) = {j0} by
          ext j
          rw [mem_filter, mem_singleton]
          exact ⟨fun h => hone j h.1 (by omega), fun h => by rw [h]; exact ⟨hm, h0⟩⟩, sum_singleton]
        exact hj0
    simp only [hsum]
    have := pr_eval2 (W := W) hne fun w w' => (∑ j ∈ same.filter (fun j => o j % 2 = 0), y ω j) * (G.boxmuller w w').1 +
        (∑ j ∈ same.filter (fun j => ¬ o j % 2 = 0), y ω j) * (G.boxmuller w w').2 + e = c ω
    rw [this]
    refine le_trans (pr_mono fun w hw => ?_) (hs _ _ (c ω - e) hcoef)
    linarith

end

/-- The entries of `op(X)` as entries of the vectors that the generator fills: rows or columns of `op(X)` are parts of different vectors. -/
theorem dense_window_vectors [NeZero N] {L : Nat} [NeZero L] {G : Gen N K W ℝ} {D : DenseDist} {seed : RNGState N K}
    (hG : G.Ok) (hD : DenseDistOk D) {A : (ZMod N × ZMod L → W) → Int → Int → ℝ} (hA : ∀ ω, Samples (fromWords G ω) (Real.sqrt 3) D seed (A ω))
    {op : Op} {d m : Nat} {ro co : Int} (hin : InOp D.nRows D.nCols (rowsOf op d m) (colsOf op d m) ro co) :
    (∃ c c' : Int, ∀ i < d, ∀ j < m, (0 ≤ c + i ∧ c + i < D.dimMinor) ∧ (0 ≤ c' + j ∧ c' + j < D.dimMajor) ∧
      ∀ ω, opMat op (subMat ro co (A ω)) (i : Int) (j : Int) = rawE G D.family D.dimMajor seed ω (c + i) (c' + j)) ∨
    ∃ c c' : Int, ∀ i < d, ∀ j < m, (0 ≤ c + j ∧ c + j < D.dimMinor) ∧ (0 ≤ c' + i ∧ c' + i < D.dimMajor) ∧
      ∀ ω, opMat op (subMat ro co (A ω)) (i : Int) (j : Int) = rawE G D.family D.dimMajor seed ω (c + j) (c' + i) := by
  obtain ⟨hR, hC, hfit, hlay⟩ := denseDist_facts hD
  obtain ⟨h1, h2, h3, h4⟩ := hin
  have hent : ∀ ω r c, InR D.nRows D.nCols r c → A ω r c = match D.naturalLayout with
      | .ColMajor => rawE G D.family D.dimMajor seed ω c r | .RowMajor => rawE G D.family D.dimMajor seed ω r c := by
    intro ω r c hrc
    rw [samples_unique (G := fromWords G ω) hG hD (hA ω) hrc]
    simp only [rawE, denseEntry]
    cases D.naturalLayout <;> rfl
  rcases hlay with ⟨a, u, v⟩ | ⟨a, u, v⟩ <;> rw [a] at hent <;> cases op <;> simp only [rowsOf, colsOf] at h3 h4
  · exact Or.inr ⟨co, ro, fun i hi j hj => ⟨⟨by omega, by omega⟩, ⟨by omega, by omega⟩, fun ω => hent ω _ _ ⟨by omega, by omega, by omega, by omega⟩⟩⟩
  · exact Or.inl ⟨co, ro, fun i hi j hj => ⟨⟨by omega, by omega⟩, ⟨by omega, by omega⟩, fun ω => hent ω _ _ ⟨by omega, by omega, by omega, by omega⟩⟩⟩
  · exact Or.inl ⟨ro, co, fun i hi j hj => ⟨⟨by omega, by omega⟩, ⟨by omega, by omega⟩, fun ω => hent ω _ _ ⟨by omega, by omega, by omega, by omega⟩⟩⟩
  · exact Or.inr ⟨ro, co, fun i hi j hj => ⟨⟨by omega, by omega⟩, ⟨by omega, by omega⟩, fun ω => hent ω _ _ ⟨by omega, by omega, by omega, by omega⟩⟩⟩

/-- The rank of the product of a window of a dense operator, or its transpose, with a matrix. -/
theorem window_rank [NeZero N] [Fintype W] [Nonempty W] {L : Nat} [NeZero L] {G : Gen N K W ℝ} {D : DenseDist} {seed : RNGState N K}
    (hG : G.Ok) (hL : G.len = L) (hD : DenseDistOk D) (hN : D.nRows * D.nCols ≤ N) {p : ℝ} (hs : SpreadWords G D.family p)
    {X : (ZMod N × ZMod L → W) → Int → Int → ℝ} (hX : ∀ ω, Samples (fromWords G ω) (Real.sqrt 3) D seed (X ω))
    {op : Op} {d m n : Nat} {ro co : Int} (hin : InOp D.nRows D.nCols (rowsOf op d m) (colsOf op d m) ro co) (A : Matrix (Fin m) (Fin n) ℝ) :
    Pr (fun ω => ((Matrix.of fun (i : Fin d) (j : Fin m) => opMat op (subMat ro co (X ω)) (i : Nat) (j : Nat)) * A).rank ≠ min d A.rank) ≤ (min d A.rank : Nat) * p := by
  have hL' : L = 2 ∨ L = 4 := by rcases hG with h | h <;> omega
  have hcnt := counters_le hL' hD hN
  have hkey : ∀ q p q' p', wordKey D.family q' p' = wordKey D.family q p → q' = q := by
    intro q p q' p' h
    cases hf : D.family <;> rw [hf] at h <;> simp only [wordKey, Prod.mk.injEq] at h <;> omega
  rcases Nat.eq_zero_or_pos d with rfl | hd
  · rw [show ((min 0 A.rank : Nat) : ℝ) * p = 0 by simp]
    refine le_of_eq ((pr_congr (q := fun _ => False) fun ω => ?_).trans (by classical rw [pr_eq]; simp))
    have := Matrix.rank_le_card_height ((Matrix.of fun (i : Fin 0) (j : Fin m) => opMat op (subMat ro co (X ω)) (i : Nat) (j : Nat)) * A)
    rw [Fintype.card_fin] at this
    simp only [ne_eq, iff_false, not_not]
    omega
  rcases Nat.eq_zero_or_pos m with rfl | hm
  · have h0 : A.rank = 0 := by simpa using Matrix.rank_le_card_height A
    rw [show ((min d A.rank : Nat) : ℝ) * p = 0 by rw [h0]; simp]
    refine le_of_eq ((pr_congr (q := fun _ => False) fun ω => ?_).trans (by classical rw [pr_eq]; simp))
    have := Matrix.rank_mul_le_right (Matrix.of fun (i : Fin d) (j : Fin 0) => opMat op (subMat ro co (X ω)) (i : Nat) (j : Nat)) A
    rw [h0] at this ⊢
    simp only [ne_eq, iff_false, not_not]
    omega
  rcases dense_window_vectors hG hD hX hin with ⟨c, c', h⟩ | ⟨c, c', h⟩
  · have e : ∀ ω, (Matrix.of fun (i : Fin d) (j : Fin m) => opMat op (subMat ro co (X ω)) (i : Nat) (j : Nat)) =
        Matrix.of fun (i : Fin d) => (fun (i : Fin d) ω (j : Fin m) => rawE G D.family D.dimMajor seed ω (c + (i : Nat)) (c' + (j : Nat))) i ω := by
      intro ω
      ext i j
      exact (h i i.2 j j.2).2.2 ω
    simp only [e]
    refine rows_rank A (fun (i : Fin d) ω (j : Fin m) => rawE G D.family D.dimMajor seed ω (c + (i : Nat)) (c' + (j : Nat)))
      (fun i a => ∃ j : Fin m, entryPos seed D.family (countersPerVector L D.dimMajor) (c + (i : Nat)) (c' + (j : Nat)) a) ?_ ?_ fun i => ?_
    · rintro i i' a ⟨j, hj⟩ ⟨j', hj'⟩
      have := hkey _ _ _ _ (entryPos_key hL' hcnt (h i i.2 j j.2).1 (h i i.2 j j.2).2.1 (h i' i'.2 j' j'.2).1 (h i' i'.2 j' j'.2).2.1 hj hj')
      exact Fin.ext (by omega)
    · intro i ω ω' hω
      funext j
      exact rawE_congr hL fun a ha => hω a ⟨j, ha⟩
    · exact dense_spread hL' hL hs hcnt (h i i.2 0 hm).1 (fun j : Fin m => c' + (j : Nat)) (fun j => (h i i.2 j j.2).2.1) fun j j' hj => Fin.ext (by dsimp only at hj; omega)
  · have e : ∀ ω, (Matrix.of fun (i : Fin d) (j : Fin m) => opMat op (subMat ro co (X ω)) (i : Nat) (j : Nat)) =
        Matrix.of fun (i : Fin d) (j : Fin m) => (fun (j : Fin m) ω (i : Fin d) => rawE G D.family D.dimMajor seed ω (c + (j : Nat)) (c' + (i : Nat))) j ω i := by
      intro ω
      ext i j
      exact (h i i.2 j j.2).2.2 ω
    simp only [e]
    refine cols_rank A (fun (j : Fin m) ω (i : Fin d) => rawE G D.family D.dimMajor seed ω (c + (j : Nat)) (c' + (i : Nat)))
      (fun j a => ∃ i : Fin d, entryPos seed D.family (countersPerVector L D.dimMajor) (c + (j : Nat)) (c' + (i : Nat)) a) ?_ ?_ fun j => ?_
    · rintro j j' a ⟨i, hj⟩ ⟨i', hj'⟩
      have := hkey _ _ _ _ (entryPos_key hL' hcnt (h i i.2 j j.2).1 (h i i.2 j j.2).2.1 (h i' i'.2 j' j'.2).1 (h i' i'.2 j' j'.2).2.1 hj hj')
      exact Fin.ext (by omega)
    · intro j ω ω' hω
      funext i
      exact rawE_congr hL fun a ha => hω a ⟨i, ha⟩
    · exact dense_spread hL' hL hs hcnt (h 0 hd j j.2).1 (fun i : Fin d => c' + (i : Nat)) (fun i => (h i i.2 j j.2).2.1) fun i i' hi => Fin.ext (by dsimp only at hi; omega)

theorem rank_smul_ne {m n : Nat} {c : ℝ} (hc : c ≠ 0) (B : Matrix (Fin m) (Fin n) ℝ) : (c • B).rank = B.rank :=
  Matrix.rank_smul_of_mem_nonZeroDivisors B (mem_nonZeroDivisors_of_ne_zero hc)

theorem rankOf_congr {r c : Int} {A B : Int → Int → ℝ} (h : ∀ i j, InR r c i j → A i j = B i j) : rankOf r c A = rankOf r c B := by
  unfold rankOf
  congr 1
  ext i j
  exact h _ _ ⟨by omega, by omega, by omega, by omega⟩

theorem rankOf_transpose (r c : Int) (A : Int → Int → ℝ) : rankOf c r (fun j i => A i j) = rankOf r c A := by
  unfold rankOf
  rw [← Matrix.rank_transpose]
  rfl

theorem rankOf_mul {d m n : Int} {alpha : ℝ} (h : alpha ≠ 0) (P A : Int → Int → ℝ) :
    rankOf d n (fun i j => alpha * prodEntry m P A i j) =
      ((Matrix.of fun (i : Fin d.toNat) (l : Fin m.toNat) => P (i : Nat) (l : Nat)) * Matrix.of fun (l : Fin m.toNat) (j : Fin n.toNat) => A (l : Nat) (j : Nat)).rank := by
  rw [← rank_smul_ne h]
  unfold rankOf
  congr 1
  ext i j
  simp only [Matrix.of_apply, Matrix.smul_apply, Matrix.mul_apply, prodEntry, smul_eq_mul]
  rw [sum_range]

/-! ## Main theorems -/

/-- C121 (left). Let a value made from a word be a given number, or a point made from two words lie on a given line, with probability at most `p`. `sketch_general` with a dense
operator that has not been filled, `alpha ≠ 0` and `beta = 0` returns, and the rank of the result is the smaller of `d` and the rank of `op(A)`, for all but a
fraction `min (d, rank op(A)) * p` of the words that a generator may yield. -/
theorem C121_left [NeZero N] [Field R] [LinearOrder R] [FloorRing R] [Fintype W] [Nonempty W] {L : Nat} [NeZero L] {E : SkEnv N K W WS R ℝ} (hE : SkEnvOk E)
    (hL : E.G.len = L) (h3 : E.sqrt3 = Real.sqrt 3) {S : DenseSkOp N K ℝ} (hnew : S.buff = none) (hD : DenseDistOk S.dist) (hR : S.nRows = S.dist.nRows)
    (hC : S.nCols = S.dist.nCols) (hN : S.nRows * S.nCols ≤ N) {p : ℝ} (hs : SpreadWords E.G S.dist.family p)
    {layout : Layout} {opS opA : Op} {d m n ro co : Int} (hin : InOp S.nRows S.nCols (rowsOf opS d m) (colsOf opS d m) ro co) (hd : 0 < d) (hm : 0 < m) (hn : 0 ≤ n)
    {alpha : ℝ} (halpha : alpha ≠ 0) {A b : Buf ℝ} {lda ldb : Int} {Am : Int → Int → ℝ} (hlda : LdOk layout lda (rowsOf opA m n) (colsOf opA m n))
    (hldb : LdOk layout ldb d n) (hA : Holds A layout lda (rowsOf opA m n) (colsOf opA m n) Am) (hal : Alloc b layout ldb d n) :
    Pr (fun ω : ZMod N × ZMod L → W => ¬ M.wp (sketchGeneralL { E with G := fromWords E.G ω } layout opS opA d n m alpha ro co A lda 0 ldb) (.dense S, b)
      (fun _ s' => ∃ B, Holds s'.2 layout ldb d n B ∧ rankOf d n B = min d.toNat (rankOf m n (opMat opA Am)))) ≤
      (min d.toNat (rankOf m n (opMat opA Am)) : Nat) * p := by
  have hsam : ∀ ω : ZMod N × ZMod L → W, Samples (fromWords E.G ω) (Real.sqrt 3) S.dist S.seedState (denseEntry (fromWords E.G ω) (Real.sqrt 3) S.dist S.seedState) :=
    fun ω => samples_denseEntry (G := fromWords E.G ω) hE.gen hD
  have hin' : InOp S.dist.nRows S.dist.nCols (rowsOf opS d.toNat m.toNat) (colsOf opS d.toNat m.toNat) ro co := by
    rw [← hR, ← hC, Int.toNat_of_nonneg hd.le, Int.toNat_of_nonneg hm.le]; exact hin
  refine le_trans (pr_mono fun ω hω => ?_) (window_rank hE.gen hL hD (by rw [← hR, ← hC]; exact hN) hs hsam hin'
    (Matrix.of fun (l : Fin m.toNat) (j : Fin n.toNat) => opMat opA Am (l : Nat) (j : Nat)))
  intro hr
  apply hω
  have hE' : SkEnvOk { E with G := fromWords E.G ω } := ⟨hE.env, hE.gen, hE.genS, hE.sqrt, hE.order⟩
  have hS : DenseIs { E with G := fromWords E.G ω } S (denseEntry (fromWords E.G ω) (Real.sqrt 3) S.dist S.seedState) := by
    unfold DenseIs
    rw [hnew]
    refine ⟨hD, hR, hC, ?_⟩
    simp only [h3]
    exact hsam ω
  refine M.wp_mono (C36_left_dense_partial hE' hS hin (fun _ => fillOk_dims hd hm) hd.le hn hm.le hlda hldb (fun _ => hA) hal (C := fun _ _ => 0) (fun h => absurd rfl h)) ?_
  rintro _ s' ⟨h, -⟩
  refine ⟨_, h, ?_⟩
  simp only [zero_mul, add_zero]
  rw [rankOf_mul halpha]
  exact hr

/-- C121 (right). The same for `op(A) * op(submat(S))`. -/
theorem C121_right [NeZero N] [Field R] [LinearOrder R] [FloorRing R] [Fintype W] [Nonempty W] {L : Nat} [NeZero L] {E : SkEnv N K W WS R ℝ} (hE : SkEnvOk E)
    (hL : E.G.len = L) (h3 : E.sqrt3 = Real.sqrt 3) {S : DenseSkOp N K ℝ} (hnew : S.buff = none) (hD : DenseDistOk S.dist) (hR : S.nRows = S.dist.nRows)
    (hC : S.nCols = S.dist.nCols) (hN : S.nRows * S.nCols ≤ N) {p : ℝ} (hs : SpreadWords E.G S.dist.family p)
    {layout : Layout} {opA opS : Op} {m d n ro co : Int} (hin : InOp S.nRows S.nCols (rowsOf opS n d) (colsOf opS n d) ro co) (hd : 0 < d) (hm : 0 ≤ m) (hn : 0 < n)
    {alpha : ℝ} (halpha : alpha ≠ 0) {A b : Buf ℝ} {lda ldb : Int} {Am : Int → Int → ℝ} (hlda : LdOk layout lda (rowsOf opA m n) (colsOf opA m n))
    (hldb : LdOk layout ldb m d) (hA : Holds A layout lda (rowsOf opA m n) (colsOf opA m n) Am) (hal : Alloc b layout ldb m d) :
    Pr (fun ω : ZMod N × ZMod L → W => ¬ M.wp (sketchGeneralR { E with G := fromWords E.G ω } layout opA opS m d n alpha A lda ro co 0 ldb) (.dense S, b)
      (fun _ s' => ∃ B, Holds s'.2 layout ldb m d B ∧ rankOf m d B = min d.toNat (rankOf m n (opMat opA Am)))) ≤
      (min d.toNat (rankOf m n (opMat opA Am)) : Nat) * p := by
  have hsam : ∀ ω : ZMod N × ZMod L → W, Samples (fromWords E.G ω) (Real.sqrt 3) S.dist S.seedState (denseEntry (fromWords E.G ω) (Real.sqrt 3) S.dist S.seedState) :=
    fun ω => samples_denseEntry (G := fromWords E.G ω) hE.gen hD
  have hin' : InOp S.dist.nRows S.dist.nCols (rowsOf opS.flip d.toNat n.toNat) (colsOf opS.flip d.toNat n.toNat) ro co := by
    rw [← hR, ← hC, Int.toNat_of_nonneg hd.le, Int.toNat_of_nonneg hn.le]; cases opS <;> exact hin
  rw [← rankOf_transpose m n]
  refine le_trans (pr_mono fun ω hω => ?_) (window_rank hE.gen hL hD (by rw [← hR, ← hC]; exact hN) hs hsam hin'
    (Matrix.of fun (l : Fin n.toNat) (j : Fin m.toNat) => opMat opA Am (j : Nat) (l : Nat)))
  intro hr
  apply hω
  have hE' : SkEnvOk { E with G := fromWords E.G ω } := ⟨hE.env, hE.gen, hE.genS, hE.sqrt, hE.order⟩
  have hS : DenseIs { E with G := fromWords E.G ω } S (denseEntry (fromWords E.G ω) (Real.sqrt 3) S.dist S.seedState) := by
    unfold DenseIs
    rw [hnew]
    refine ⟨hD, hR, hC, ?_⟩
    simp only [h3]
    exact hsam ω
  refine M.wp_mono (C36_right_dense_partial hE' hS hin (fun _ => fillOk_dims hn hd) hm hd.le hn.le hlda hldb (fun _ => hA) hal (C := fun _ _ => 0) (fun h => absurd rfl h)) ?_
  rintro _ s' ⟨h, -⟩
  refine ⟨_, h, ?_⟩
  simp only [zero_mul, add_zero]
  rw [← rankOf_transpose]
  refine Eq.trans (rankOf_congr (B := fun i j => alpha * prodEntry n (opMat opS.flip (subMat ro co (denseEntry (fromWords E.G ω) (Real.sqrt 3) S.dist S.seedState)))
    (fun l i => opMat opA Am i l) i j) fun i j _ => ?_) ?_
  · unfold prodEntry
    congr 1
    exact sum_congr rfl fun l _ => by rw [opMat_flip, mul_comm]
  · rw [rankOf_mul halpha]
    exact hr

/-- C121 (left, sparse data). The same for `sketch_sparse`. -/
theorem C121_sparse_left [NeZero N] [Field R] [LinearOrder R] [FloorRing R] [Fintype W] [Nonempty W] {L : Nat} [NeZero L] {E : SkEnv N K W WS R ℝ} (hE : SkEnvOk E)
    (hL : E.G.len = L) (h3 : E.sqrt3 = Real.sqrt 3) {S : DenseSkOp N K ℝ} (hnew : S.buff = none) (hD : DenseDistOk S.dist) (hR : S.nRows = S.dist.nRows)
    (hC : S.nCols = S.dist.nCols) (hN : S.nRows * S.nCols ≤ N) {p : ℝ} (hs : SpreadWords E.G S.dist.family p)
    {A : SpMat ℝ} {Ls : List (Entry ℝ)} (hA : SpHolds A Ls) (hb : spBase A = .Zero) (hr : InRange (spRows A) (spCols A) Ls)
    {layout : Layout} {opS opA : Op} {d m n ro co : Int} (hin : InOp S.nRows S.nCols (rowsOf opS d m) (colsOf opS d m) ro co) (hd : 0 < d) (hm : 0 < m) (hn : 0 ≤ n)
    {alpha : ℝ} (halpha : alpha ≠ 0) {b : Buf ℝ} {ldb : Int} (hwA : WindowOk A (rowsOf opA m n) (colsOf opA m n) 0 0)
    (hK : Supported A opA.flip layout.flip (if S.layout = layout then opS else opS.flip) n m (opEntries opA.flip (window 0 0 (rowsOf opA m n) (colsOf opA m n) Ls)))
    (hldb : LdOk layout ldb d n) (hal : Alloc b layout ldb d n) :
    Pr (fun ω : ZMod N × ZMod L → W => ¬ M.wp (sketchSparseL { E with G := fromWords E.G ω } layout opS opA d n m alpha S ro co 0 ldb) (A, b)
      (fun _ s' => ∃ B, Holds s'.2 layout ldb d n B ∧ rankOf d n B = min d.toNat (rankOf m n (opMat opA (toMat Ls))))) ≤
      (min d.toNat (rankOf m n (opMat opA (toMat Ls))) : Nat) * p := by
  have hsam : ∀ ω : ZMod N × ZMod L → W, Samples (fromWords E.G ω) (Real.sqrt 3) S.dist S.seedState (denseEntry (fromWords E.G ω) (Real.sqrt 3) S.dist S.seedState) :=
    fun ω => samples_denseEntry (G := fromWords E.G ω) hE.gen hD
  have hin' : InOp S.dist.nRows S.dist.nCols (rowsOf opS d.toNat m.toNat) (colsOf opS d.toNat m.toNat) ro co := by
    rw [← hR, ← hC, Int.toNat_of_nonneg hd.le, Int.toNat_of_nonneg hm.le]; exact hin
  refine le_trans (pr_mono fun ω hω => ?_) (window_rank hE.gen hL hD (by rw [← hR, ← hC]; exact hN) hs hsam hin'
    (Matrix.of fun (l : Fin m.toNat) (j : Fin n.toNat) => opMat opA (toMat Ls) (l : Nat) (j : Nat)))
  intro hrk
  apply hω
  have hS : DenseIs { E with G := fromWords E.G ω } S (denseEntry (fromWords E.G ω) (Real.sqrt 3) S.dist S.seedState) := by
    unfold DenseIs
    rw [hnew]
    refine ⟨hD, hR, hC, ?_⟩
    simp only [h3]
    exact hsam ω
  refine M.wp_mono (C41_left_partial (E := { E with G := fromWords E.G ω }) hE.env hE.gen hS hA hb hr hin (fun _ => fillOk_dims hd hm) hwA (fun _ => hK) hd.le hn hm.le hldb hal
    (C := fun _ _ => 0) (fun h => absurd rfl h)) ?_
  rintro _ s' ⟨h, -⟩
  refine ⟨_, h, ?_⟩
  simp only [zero_mul, add_zero]
  rw [rankOf_mul halpha]
  exact hrk

/-- C121 (right, sparse data). -/
theorem C121_sparse_right [NeZero N] [Field R] [LinearOrder R] [FloorRing R] [Fintype W] [Nonempty W] {L : Nat} [NeZero L] {E : SkEnv N K W WS R ℝ} (hE : SkEnvOk E)
    (hL : E.G.len = L) (h3 : E.sqrt3 = Real.sqrt 3) {S : DenseSkOp N K ℝ} (hnew : S.buff = none) (hD : DenseDistOk S.dist) (hR : S.nRows = S.dist.nRows)
    (hC : S.nCols = S.dist.nCols) (hN : S.nRows * S.nCols ≤ N) {p : ℝ} (hs : SpreadWords E.G S.dist.family p)
    {A : SpMat ℝ} {Ls : List (Entry ℝ)} (hA : SpHolds A Ls) (hb : spBase A = .Zero) (hr : InRange (spRows A) (spCols A) Ls)
    {layout : Layout} {opA opS : Op} {m d n ro co : Int} (hin : InOp S.nRows S.nCols (rowsOf opS n d) (colsOf opS n d) ro co) (hd : 0 < d) (hm : 0 ≤ m) (hn : 0 < n)
    {alpha : ℝ} (halpha : alpha ≠ 0) {b : Buf ℝ} {ldb : Int} (hwA : WindowOk A (rowsOf opA m n) (colsOf opA m n) 0 0)
    (hK : Supported A opA layout (if S.layout = layout then opS else opS.flip) m n (opEntries opA (window 0 0 (rowsOf opA m n) (colsOf opA m n) Ls)))
    (hldb : LdOk layout ldb m d) (hal : Alloc b layout ldb m d) :
    Pr (fun ω : ZMod N × ZMod L → W => ¬ M.wp (sketchSparseR { E with G := fromWords E.G ω } layout opA opS m d n alpha S ro co 0 ldb) (A, b)
      (fun _ s' => ∃ B, Holds s'.2 layout ldb m d B ∧ rankOf m d B = min d.toNat (rankOf m n (opMat opA (toMat Ls))))) ≤
      (min d.toNat (rankOf m n (opMat opA (toMat Ls))) : Nat) * p := by
  have hsam : ∀ ω : ZMod N × ZMod L → W, Samples (fromWords E.G ω) (Real.sqrt 3) S.dist S.seedState (denseEntry (fromWords E.G ω) (Real.sqrt 3) S.dist S.seedState) :=
    fun ω => samples_denseEntry (G := fromWords E.G ω) hE.gen hD
  have hin' : InOp S.dist.nRows S.dist.nCols (rowsOf opS.flip d.toNat n.toNat) (colsOf opS.flip d.toNat n.toNat) ro co := by
    rw [← hR, ← hC, Int.toNat_of_nonneg hd.le, Int.toNat_of_nonneg hn.le]; cases opS <;> exact hin
  rw [← rankOf_transpose m n]
  refine le_trans (pr_mono fun ω hω => ?_) (window_rank hE.gen hL hD (by rw [← hR, ← hC]; exact hN) hs hsam hin'
    (Matrix.of fun (l : Fin n.toNat) (j : Fin m.toNat) => opMat opA (toMat Ls) (j : Nat) (l : Nat)))
  intro hrk
  apply hω
  have hS : DenseIs { E with G := fromWords E.G ω } S (denseEntry (fromWords E.G ω) (Real.sqrt 3) S.dist S.seedState) := by
    unfold DenseIs
    rw [hnew]
    refine ⟨hD, hR, hC, ?_⟩
    simp only [h3]
    exact hsam ω
  refine M.wp_mono (C41_right_partial (E := { E with G := fromWords E.G ω }) hE.env hE.gen hS hA hb hr hin (fun _ => fillOk_dims hn hd) hwA (fun _ => hK) hm hd.le hn.le hldb hal
    (C := fun _ _ => 0) (fun h => absurd rfl h)) ?_
  rintro _ s' ⟨h, -⟩
  refine ⟨_, h, ?_⟩
  simp only [zero_mul, add_zero]
  rw [← rankOf_transpose]
  refine Eq.trans (rankOf_congr (B := fun i j => alpha * prodEntry n (opMat opS.flip (subMat ro co (denseEntry (fromWords E.G ω) (Real.sqrt 3) S.dist S.seedState)))
    (fun l i => opMat opA (toMat Ls) i l) i j) fun i j _ => ?_) ?_
  · unfold prodEntry
    congr 1
    exact sum_congr rfl fun l _ => by rw [opMat_flip, mul_comm]
  · rw [rankOf_mul halpha]
    exact hrk

/-! ## The words of the library -/

/-- A line meets a circle at most twice. -/
theorem circle_line {a b c x1 y1 x2 y2 x3 y3 : ℝ} (hab : a ≠ 0 ∨ b ≠ 0) (e1 : x1 ^ 2 + y1 ^ 2 = 1) (e2 : x2 ^ 2 + y2 ^ 2 = 1) (e3 : x3 ^ 2 + y3 ^ 2 = 1)
    (l1 : a * x1 + b * y1 = c) (l2 : a * x2 + b * y2 = c) (l3 : a * x3 + b * y3 = c) (h12 : (x1, y1) ≠ (x2, y2)) (h13 : (x1, y1) ≠ (x3, y3)) : (x2, y2) = (x3, y3) := by
  have hn : 0 < a ^ 2 + b ^ 2 := by
    rcases hab with h | h
    · have := sq_nonneg b
      positivity
    · have := sq_nonneg a
      positivity
  have key : ∀ x y : ℝ, x ^ 2 + y ^ 2 = 1 → a * x + b * y = c → (x1, y1) ≠ (x, y) → x = x1 + b * (2 * (a * y1 - b * x1)) / (a ^ 2 + b ^ 2) ∧ y = y1 - a * (2 * (a * y1 - b * x1)) / (a ^ 2 + b ^ 2) := by
    intro x y e l h
    -- the difference is `t (-b, a)`
    set t := (a * (y - y1) - b * (x - x1)) / (a ^ 2 + b ^ 2) with ht
    have hx : x = x1 - t * b := by
      rw [ht]; field_simp; linear_combination a * (l - l1)
    have hy : y = y1 + t * a := by
      rw [ht]; field_simp; linear_combination b * (l - l1)
    have ht0 : t ≠ 0 := by
      intro h0
      apply h
      rw [hx, hy, h0]
      simp
    have h1 : t * (t * (a ^ 2 + b ^ 2) + 2 * (a * y1 - b * x1)) = 0 := by
      rw [hx, hy] at e
      nlinarith
    have h2 := (mul_eq_zero.mp h1).resolve_left ht0
    have h3 : t = -(2 * (a * y1 - b * x1)) / (a ^ 2 + b ^ 2) := by
      rw [eq_div_iff hn.ne']
      linarith
    rw [hx, hy, h3]
    constructor <;> ring
  obtain ⟨p1, p2⟩ := key x2 y2 e2 l2 h12
  obtain ⟨q1, q2⟩ := key x3 y3 e3 l3 h13
  rw [p1, p2, q1, q2]

theorem angle_inj {u v : ℝ} (hu : -1 < u ∧ u < 1) (hv : -1 < v ∧ v < 1) (hs : Real.sin (Real.pi * u) = Real.sin (Real.pi * v))
    (hc : Real.cos (Real.pi * u) = Real.cos (Real.pi * v)) : u = v := by
  have h := Real.Angle.cos_sin_inj hc hs
  rw [Real.Angle.angle_eq_iff_two_pi_dvd_sub] at h
  obtain ⟨k, hk⟩ := h
  have hpi := Real.pi_pos
  have h1 : u - v = 2 * k := by
    have : Real.pi * (u - v) = Real.pi * (2 * k) := by linarith
    exact mul_left_cancel₀ hpi.ne' this
  have h2 : (k : ℝ) < 1 := by linarith [hu.2, hv.1]
  have h3 : (-1 : ℝ) < k := by linarith [hu.1, hv.2]
  have h2' : k < 1 := by exact_mod_cast h2
  have h3' : -1 < k := by exact_mod_cast h3
  have : k = 0 := by omega
  rw [this] at h1
  simp at h1
  linarith

/-- C121. The exact conversions of `Mw` words: `p = 1/Mw` for the uniform family (the midpoints of equal intervals of [-1, 1]), `p = 2/Mw` for the Gaussian
family (the transformation of Box and Muller with these midpoints for the angle and any positive radii). -/
theorem C121_words [Fintype W] [Nonempty W] {G : Gen N K W ℝ} {Mw : Nat} (e : W ≃ Fin Mw) (hmid : ∀ w, (G.uneg11 w + 1) / 2 = (((e w : Nat) : ℝ) + 1 / 2) / Mw)
    {r : W → ℝ} (hr : ∀ w, 0 < r w) (hbm : IsBoxMuller G G.uneg11 r) : SpreadWords G .Uniform (1 / Mw) ∧ SpreadWords G .Gaussian (2 / Mw) := by
  classical
  have hcard : Fintype.card W = Mw := by rw [Fintype.card_congr e, Fintype.card_fin]
  have hM : 0 < Mw := by rw [← hcard]; exact Fintype.card_pos
  have hM' : (0 : ℝ) < Mw := by exact_mod_cast hM
  have hinj : Function.Injective G.uneg11 := by
    intro w w' h
    have h1 := hmid w
    rw [h, hmid w', div_left_inj' hM'.ne'] at h1
    have h2 : ((e w' : Nat) : ℝ) = (e w : Nat) := by linarith
    exact e.injective (Fin.ext (by exact_mod_cast h2.symm))
  have hrange : ∀ w, -1 < G.uneg11 w ∧ G.uneg11 w < 1 := by
    intro w
    have h1 := hmid w
    have h2 : (((e w : Nat) : ℝ) + 1 / 2) / Mw < 1 := by
      rw [div_lt_one hM']
      have : (e w : Nat) + 1 ≤ Mw := (e w).2
      have : ((e w : Nat) : ℝ) + 1 ≤ Mw := by exact_mod_cast this
      linarith
    have h3 : 0 < (((e w : Nat) : ℝ) + 1 / 2) / Mw := by positivity
    constructor <;> linarith
  constructor
  · intro c
    rw [pr_eq, hcard]
    refine div_le_div_of_nonneg_right ?_ hM'.le
    have : (univ.filter fun w => G.uneg11 w = c).card ≤ 1 := card_le_one.mpr fun w hw w' hw' =>
      hinj ((mem_filter.mp hw).2.trans (mem_filter.mp hw').2.symm)
    exact_mod_cast this
  · intro a b c hab
    rw [pr_eq, Fintype.card_prod, hcard]
    have h1 : ∀ w', (univ.filter fun w => a * (G.boxmuller w w').1 + b * (G.boxmuller w w').2 = c).card ≤ 2 := by
      intro w'
      by_contra hn
      push Not at hn
      obtain ⟨w1, w2, w3, m1, m2, m3, n12, n13, n23⟩ := two_lt_card_iff.mp hn
      simp only [mem_filter, mem_univ, true_and, hbm _ w'] at m1 m2 m3
      have hne : ∀ v v' : W, v ≠ v' → (Real.sin (Real.pi * G.uneg11 v), Real.cos (Real.pi * G.uneg11 v)) ≠ (Real.sin (Real.pi * G.uneg11 v'), Real.cos (Real.pi * G.uneg11 v')) := by
        intro v v' hv h
        rw [Prod.mk.injEq] at h
        exact hv (hinj (angle_inj (hrange v) (hrange v') h.1 h.2))
      have hab' : a * r w' ≠ 0 ∨ b * r w' ≠ 0 := hab.imp (fun h => mul_ne_zero h (hr w').ne') fun h => mul_ne_zero h (hr w').ne'
      exact hne w2 w3 n23 (circle_line hab' (Real.sin_sq_add_cos_sq _) (Real.sin_sq_add_cos_sq _) (Real.sin_sq_add_cos_sq _)
        (c := c) (by linarith) (by linarith) (by linarith) (hne w1 w2 n12) (hne w1 w3 n13))
    have h2 : (univ.filter fun w : W × W => a * (G.boxmuller w.1 w.2).1 + b * (G.boxmuller w.1 w.2).2 = c).card ≤ 2 * Mw := by
      rw [card_filter, ← univ_product_univ, sum_product_right]
      refine (sum_le_sum fun w' _ => (card_filter _ _).symm.trans_le (h1 w')).trans (le_of_eq ?_)
      rw [sum_const, card_univ, hcard, smul_eq_mul, mul_comm]
    have h3 : ((univ.filter fun w : W × W => a * (G.boxmuller w.1 w.2).1 + b * (G.boxmuller w.1 w.2).2 = c).card : ℝ) ≤ 2 * Mw := by exact_mod_cast h2
    push_cast
    rw [div_le_div_iff₀ (by positivity) hM']
    nlinarith

/-- The words of `midGenR`. -/
theorem midGenR_spread : SpreadWords midGenR .Uniform (1 / 2 ^ 32) ∧ SpreadWords midGenR .Gaussian (1 / 2 ^ 31) := by
  have h := C121_words (G := midGenR) (Mw := 4 * 2 ^ 30) (Equiv.refl _) (fun w => by simp only [midGenR, Equiv.refl_apply]; ring)
    (r := fun w => Real.sqrt (-2 * Real.log ((((w : Nat) : ℝ) + 1 / 2) / (4 * 2 ^ 30 : Nat)))) (fun w => by
      have h1 : (((w : Nat) : ℝ) + 1 / 2) / ((4 * 2 ^ 30 : Nat) : ℝ) < 1 := by
        rw [div_lt_one (by norm_num)]
        have : (w : Nat) + 1 ≤ 4 * 2 ^ 30 := w.2
        have h2 : ((w : Nat) : ℝ) + 1 ≤ ((4 * 2 ^ 30 : Nat) : ℝ) := by exact_mod_cast this
        exact lt_of_lt_of_le (by linarith) h2
      have := Real.log_neg (by positivity) h1
      exact Real.sqrt_pos.mpr (by linarith)) (fun _ _ => rfl)
  rw [show (1 : ℝ) / ((4 * 2 ^ 30 : Nat) : ℝ) = 1 / 2 ^ 32 by norm_num, show (2 : ℝ) / ((4 * 2 ^ 30 : Nat) : ℝ) = 1 / 2 ^ 31 by norm_num] at h
  exact h

/-- An instance: a new 2 x 5 Gaussian operator, its window of columns 1 to 4 and the 4 x 2 matrix with entries i + j. The sketch has the rank 2 of the matrix, except
with probability at most 2⁻³⁰. -/
example : ∃ S : DenseSkOp (2 ^ 128) Nat ℝ, mkDenseSkOp 4 exGauss ⟨0, 7⟩ = .ok S ∧
    Pr (fun ω : ZMod (2 ^ 128) × ZMod 4 → Fin (4 * 2 ^ 30) => ¬ M.wp (sketchGeneralL { midEnvR with G := fromWords midEnvR.G ω } .ColMajor .NoTrans .NoTrans 2 2 4 1 0 1
      (Buf.ofFn 8 fun p => ((p % 4 + p / 4 : Int) : ℝ)) 4 0 2) (.dense S, Buf.alloc ℝ 4)
      (fun _ s' => ∃ B, Holds s'.2 .ColMajor 2 2 2 B ∧ rankOf 2 2 B = 2)) ≤ 1 / 2 ^ 30 := by
  obtain ⟨S, hS, hnew, hdist, hR, hC⟩ : ∃ S : DenseSkOp (2 ^ 128) Nat ℝ, mkDenseSkOp 4 exGauss ⟨0, 7⟩ = .ok S ∧ S.buff = none ∧ S.dist = exGauss ∧ S.nRows = 2 ∧ S.nCols = 5 :=
    ⟨_, rfl, rfl, rfl, rfl, rfl⟩
  refine ⟨S, hS, ?_⟩
  have hrk : rankOf 4 2 (fun i j => ((i + j : Int) : ℝ)) = 2 := by
    apply le_antisymm
    · exact (Matrix.rank_le_width _).trans (by decide)
    · have hsub := Matrix.rank_submatrix_le (Matrix.of fun (i : Fin (4 : Int).toNat) (j : Fin (2 : Int).toNat) => ((((i : Nat) : Int) + ((j : Nat) : Int) : Int) : ℝ)) (fun i : Fin 2 => (⟨i, by have := i.2; omega⟩ : Fin (4 : Int).toNat)) (Equiv.refl (Fin 2))
      have hdet : (!![0, 1; 1, 2] : Matrix (Fin 2) (Fin 2) ℝ).rank = 2 := by
        rw [Matrix.rank_of_isUnit]
        · simp
        · rw [Matrix.isUnit_iff_isUnit_det, Matrix.det_fin_two]
          simp
      rw [← hdet]
      refine le_trans (le_of_eq ?_) hsub
      congr 1
      ext i j
      fin_cases i <;> fin_cases j <;> norm_num <;> simp only [show Int.toNat 4 = 4 from rfl, show Int.toNat 2 = 2 from rfl] <;> norm_num
  have h := C121_left (N := 2 ^ 128) (L := 4) (E := midEnvR) midEnvR_ok rfl rfl (S := S) hnew (hdist ▸ ⟨by decide, by decide⟩) (by rw [hR, hdist]; rfl) (by rw [hC, hdist]; rfl)
    (by rw [hR, hC]; decide) (show SpreadWords midEnvR.G S.dist.family (1 / 2 ^ 31) by rw [hdist]; exact midGenR_spread.2)
    (layout := .ColMajor) (opS := .NoTrans) (opA := .NoTrans) (d := 2) (m := 4) (n := 2) (ro := 0) (co := 1) (by rw [hR, hC]; unfold InOp; decide) (by decide) (by decide) (by decide)
    (alpha := 1) one_ne_zero (A := Buf.ofFn 8 fun p => ((p % 4 + p / 4 : Int) : ℝ)) (b := Buf.alloc ℝ 4) (lda := 4) (ldb := 2) (Am := fun i j => (i + j : Int)) (by simp [LdOk, rowsOf]) (by simp [LdOk]) ?_ ?_
  · rw [show rankOf 4 2 (opMat .NoTrans fun i j => ((i + j : Int) : ℝ)) = 2 from hrk] at h
    refine h.trans ?_
    rw [show min (Int.toNat 2) 2 = 2 from rfl]
    norm_num
  · rintro i j ⟨h1, h2, h3, h4⟩
    simp only [addr]
    simp only [Buf.ofFn]
    rw [if_pos (by simp only [rowsOf, colsOf] at *; omega), show (i + j * 4) % 4 = i by simp only [rowsOf, colsOf] at *; omega, show (i + j * 4) / 4 = j by simp only [rowsOf, colsOf] at *; omega]
  · rintro i j ⟨h1, h2, h3, h4⟩
    simp only [addr]
    simp only [Buf.alloc]
    rw [if_pos (by omega)]; simp

end RB
