import Verif.Props.Independence
import Verif.Lemmas.Random123Conv

/-! # C119: the law of a dense operator and its major axis

The generator is idealised as for C89. -/

namespace RB
open Spec Finset

variable {N L : Nat} {K W R T : Type}

/-! ## Specification -/

/-- The leading `r` rows and `c` columns. -/
def Spec.finMat (r c : Nat) (A : Int → Int → T) : Fin r → Fin c → T := fun i j => A (i : Nat) (j : Nat)

/-- The matrix whose entries are made from one word each. -/
def Spec.iidMat {r c : Nat} (f : W → T) (U : Fin r × Fin c → W) : Fin r → Fin c → T := fun i j => f (U (i, j))

/-- The values that the transformation of Box and Muller makes from a pair of words are independent and have the same law. -/
def Spec.IndepPair [Fintype W] (bm : W → W → T × T) : Prop :=
  ∀ x y : T, Pr (fun w : W × W => (bm w.1 w.2).1 = x ∧ (bm w.1 w.2).2 = y) =
    Pr (fun w : W × W => (bm w.1 w.2).1 = x) * Pr (fun w : W × W => (bm w.1 w.2).1 = y)

/-! ## Lemmas -/

/-- Random variables whose values have the same probabilities have the same law. -/
theorem pr_law {Ω Ω' β : Type} [Fintype Ω] [Fintype Ω'] {X : Ω → β} {Y : Ω' → β} (h : ∀ b, Pr (fun ω => X ω = b) = Pr (fun ω => Y ω = b)) (P : β → Prop) :
    Pr (fun ω => P (X ω)) = Pr (fun ω => P (Y ω)) := by
  classical
  have key : ∀ {Ω : Type} [Fintype Ω] (X : Ω → β) (S : Finset β), (∀ ω, X ω ∈ S) → Pr (fun ω => P (X ω)) = ∑ b ∈ S with P b, Pr (fun ω => X ω = b) := by
    intro Ω _ X S hS
    simp only [pr_eq]
    rw [← sum_div, ← Nat.cast_sum]
    congr 2
    rw [card_eq_sum_card_fiberwise (f := X) (t := S.filter P)]
    · refine sum_congr rfl fun b hb => ?_
      rw [mem_filter] at hb
      congr 1
      ext ω
      simp only [mem_filter, mem_univ, true_and]
      exact ⟨fun h => h.2, fun h => ⟨h ▸ hb.2, h⟩⟩
    · intro ω hω
      simp only [coe_filter, mem_univ, true_and, Set.mem_ofPred_eq] at hω ⊢
      exact ⟨hS ω, hω⟩
  rw [key X (univ.image X ∪ univ.image Y) fun ω => mem_union_left _ (mem_image_of_mem _ (mem_univ _)),
    key Y (univ.image X ∪ univ.image Y) fun ω => mem_union_right _ (mem_image_of_mem _ (mem_univ _))]
  exact sum_congr rfl fun b _ => h b

/-- A matrix over a range of indices as a function of integers. -/
def extMat [Zero T] {r c : Nat} (b : Fin r → Fin c → T) (i j : Int) : T :=
  if h : i.toNat < r ∧ j.toNat < c then b ⟨i.toNat, h.1⟩ ⟨j.toNat, h.2⟩ else 0

theorem extMat_apply [Zero T] {r c : Nat} (b : Fin r → Fin c → T) (i : Fin r) (j : Fin c) : extMat b (i : Nat) (j : Nat) = b i j := by
  unfold extMat
  rw [dif_pos ⟨by simp, by simp⟩]
  congr 1

section
variable [Ring T] [Fintype K] [DecidableEq K] [Fintype W] [NeZero N] [NeZero L]

/-- The probability of a matrix of independent entries. -/
theorem pr_iid [Nonempty W] {r c : Nat} (f : W → T) (b : Fin r → Fin c → T) :
    Pr (fun U : Fin r × Fin c → W => iidMat f U = b) = ∏ z ∈ range r ×ˢ range c, Pr (fun w : W => f w = extMat b (z.1 : Nat) (z.2 : Nat)) := by
  classical
  have h1 : ∀ U : Fin r × Fin c → W, iidMat f U = b ↔ ∀ z ∈ (univ : Finset (Fin r × Fin c)), f (U z) = b z.1 z.2 := by
    intro U
    exact ⟨fun h z _ => by rw [← h]; rfl, fun h => funext fun i => funext fun j => h (i, j) (mem_univ _)⟩
  rw [pr_congr h1, pr_forall univ (S := fun z x => x = z)]
  · rw [prod_product, ← univ_product_univ, prod_product, prod_range]
    refine prod_congr rfl fun i _ => ?_
    rw [prod_range]
    refine prod_congr rfl fun j _ => ?_
    rw [extMat_apply]
    exact pr_eval (i, j) fun w => f w = b i j
  · intro z _ ω ω' h
    beta_reduce
    rw [h z rfl]
  · intro z _ z' _ hne x hx hx'
    exact hne (hx.symm.trans hx')

/-- C119 (uniform family). The law of an operator is that of a matrix with independent entries, each `sqrt3` times the value of a uniform word. -/
theorem C119_uniform [Nonempty W] {E : SkEnv N K W W R T} (hE : SkEnvOk E) (hl : E.G.len = L) {D : DenseDist} (hD : DenseDistOk D)
    (hU : D.family = .Uniform) {r c : Nat} (hr : D.nRows = r) (hc : D.nCols = c) {s : RNGState N K} (hN : (AnyDist.dense D).counters L ≤ N)
    {A : (K × ZMod N × ZMod L → W) → Int → Int → T} (hA : ∀ ω, Samples (withWords E ω).G E.sqrt3 D s (A ω)) (P : (Fin r → Fin c → T) → Prop) :
    Pr (fun ω => P (finMat r c (A ω))) = Pr (fun U : Fin r × Fin c → W => P (iidMat (fun w => E.sqrt3 * E.G.uneg11 w) U)) := by
  refine pr_law (X := fun ω => finMat r c (A ω)) (Y := fun U => iidMat (fun w => E.sqrt3 * E.G.uneg11 w) U) (fun b => ?_) P
  refine Eq.trans ?_ (pr_iid (fun w => E.sqrt3 * E.G.uneg11 w) b).symm
  have h := C89_uniform_entries hE hl hD hU hN hA fun i j x => x = extMat b (i : Nat) (j : Nat)
  rw [hr, hc, Int.toNat_natCast, Int.toNat_natCast] at h
  rw [← h]
  refine pr_congr fun ω => ⟨fun h z hz => ?_, fun h => funext fun i => funext fun j => ?_⟩
  · rw [mem_product, mem_range, mem_range] at hz
    have e := congrFun (congrFun h ⟨z.1, hz.1⟩) ⟨z.2, hz.2⟩
    have e2 := extMat_apply b ⟨z.1, hz.1⟩ ⟨z.2, hz.2⟩
    exact e.trans e2.symm
  · have e := h (i, j) (by rw [mem_product, mem_range, mem_range]; exact ⟨i.2, j.2⟩)
    exact e.trans (extMat_apply b i j)

/-- C119 (uniform family, both axes). Operators of the same size have the same law, whatever their major axes and seeds. -/
theorem C119_uniform_axis [Nonempty W] {E : SkEnv N K W W R T} (hE : SkEnvOk E) (hl : E.G.len = L) {D D' : DenseDist} (hD : DenseDistOk D) (hD' : DenseDistOk D')
    (hU : D.family = .Uniform) (hU' : D'.family = .Uniform) {r c : Nat} (hr : D.nRows = r) (hc : D.nCols = c) (hr' : D'.nRows = r) (hc' : D'.nCols = c)
    {s s' : RNGState N K} (hN : (AnyDist.dense D).counters L ≤ N) (hN' : (AnyDist.dense D').counters L ≤ N)
    {A A' : (K × ZMod N × ZMod L → W) → Int → Int → T} (hA : ∀ ω, Samples (withWords E ω).G E.sqrt3 D s (A ω))
    (hA' : ∀ ω, Samples (withWords E ω).G E.sqrt3 D' s' (A' ω)) (P : (Fin r → Fin c → T) → Prop) :
    Pr (fun ω => P (finMat r c (A ω))) = Pr (fun ω => P (finMat r c (A' ω))) :=
  (C119_uniform hE hl hD hU hr hc hN hA P).trans (C119_uniform hE hl hD' hU' hr' hc' hN' hA' P).symm

/-! ## Gaussian entries -/

theorem prod_pairs (f : Nat → ℝ) (l : Nat) : ∏ t ∈ range ((l + 1) / 2), (f (2 * t) * if 2 * t + 1 < l then f (2 * t + 1) else 1) = ∏ p ∈ range l, f p := by
  induction l using Nat.twoStepInduction with
  | zero => simp
  | one => simp
  | more l ih _ =>
    rw [prod_range_succ (n := l + 1), prod_range_succ (n := l), ← ih, show (l + 2 + 1) / 2 = (l + 1) / 2 + 1 by omega, prod_range_succ]
    rcases Nat.even_or_odd' l with ⟨t, rfl | rfl⟩
    · rw [show (2 * t + 1) / 2 = t by omega, if_pos (by omega), mul_assoc]
      congr 1
      refine prod_congr rfl fun u hu => ?_
      rw [mem_range] at hu
      rw [if_pos (by omega), if_pos (by omega)]
    · rw [show (2 * t + 1 + 1) / 2 = t + 1 by omega, if_neg (by omega), mul_one, show 2 * (t + 1) = 2 * t + 1 + 1 by ring, prod_range_succ, prod_range_succ,
        if_pos (by omega), if_neg (by omega)]
      have : ∏ u ∈ range t, (f (2 * u) * if 2 * u + 1 < 2 * t + 1 + 2 then f (2 * u + 1) else 1) = ∏ u ∈ range t, (f (2 * u) * if 2 * u + 1 < 2 * t + 1 then f (2 * u + 1) else 1) := by
        refine prod_congr rfl fun u hu => ?_
        rw [mem_range] at hu
        rw [if_pos (by omega), if_pos (by omega)]
      rw [this]
      ring

omit [Fintype K] [DecidableEq K] [Fintype W] [NeZero N] [NeZero L] in
theorem finMat_eq_iff {D : DenseDist} (hD : DenseDistOk D) {r c : Nat} (hr : D.nRows = r) (hc : D.nCols = c) (A : Int → Int → T) (b : Fin r → Fin c → T) :
    finMat r c A = b ↔ ∀ z ∈ range (AnyDist.dense D).numVecs.toNat ×ˢ range (AnyDist.dense D).vecLen.toNat,
      vecAt (.dense D) A (z.1 : Nat) (z.2 : Nat) = vecAt (.dense D) (extMat b) (z.1 : Nat) (z.2 : Nat) := by
  obtain ⟨-, -, -, hlay⟩ := denseDist_facts hD
  obtain ⟨e1, e2, e3⟩ := denseDist_dims hD
  rw [← e1, ← e2]
  constructor
  · intro h z hz
    rw [mem_product, mem_range, mem_range] at hz
    unfold vecAt
    rcases hlay with ⟨a, u, v⟩ | ⟨a, u, v⟩
    · rw [if_pos (e3.mp a), if_pos (e3.mp a)]
      have k1 : z.2 < r := by omega
      have k2 : z.1 < c := by omega
      exact (congrFun (congrFun h ⟨z.2, k1⟩) ⟨z.1, k2⟩).trans (extMat_apply b ⟨z.2, k1⟩ ⟨z.1, k2⟩).symm
    · have hn : ¬ (AnyDist.dense D).colVecs := fun h => by have := e3.mpr h; rw [a] at this; cases this
      rw [if_neg hn, if_neg hn]
      have k1 : z.1 < r := by omega
      have k2 : z.2 < c := by omega
      exact (congrFun (congrFun h ⟨z.1, k1⟩) ⟨z.2, k2⟩).trans (extMat_apply b ⟨z.1, k1⟩ ⟨z.2, k2⟩).symm
  · intro h
    refine funext fun i => funext fun j => ?_
    have hi := i.2
    have hj := j.2
    rcases hlay with ⟨a, u, v⟩ | ⟨a, u, v⟩
    · have e := h ((j : Nat), (i : Nat)) (by rw [mem_product, mem_range, mem_range]; constructor <;> dsimp only <;> omega)
      unfold vecAt at e
      rw [if_pos (e3.mp a), if_pos (e3.mp a)] at e
      exact e.trans (extMat_apply b i j)
    · have hn : ¬ (AnyDist.dense D).colVecs := fun h => by have := e3.mpr h; rw [a] at this; cases this
      have e := h ((i : Nat), (j : Nat)) (by rw [mem_product, mem_range, mem_range]; constructor <;> dsimp only <;> omega)
      unfold vecAt at e
      rw [if_neg hn, if_neg hn] at e
      exact e.trans (extMat_apply b i j)

/-- C119 (Gaussian family). If the two values that the transformation of Box and Muller makes from a pair of words were independent and of the same law, then the law of an
operator would be that of a matrix of independent entries, each the first value of a pair of words. -/
theorem C119_gaussian_partial [Nonempty W] {E : SkEnv N K W W R T} (hE : SkEnvOk E) (hl : E.G.len = L) {D : DenseDist} (hD : DenseDistOk D)
    (hU : D.family = .Gaussian) {r c : Nat} (hr : D.nRows = r) (hc : D.nCols = c) {s : RNGState N K} (hN : (AnyDist.dense D).counters L ≤ N)
    {A : (K × ZMod N × ZMod L → W) → Int → Int → T} (hA : ∀ ω, Samples (withWords E ω).G E.sqrt3 D s (A ω)) (hb : IndepPair E.G.boxmuller)
    (P : (Fin r → Fin c → T) → Prop) :
    Pr (fun ω => P (finMat r c (A ω))) = Pr (fun U : Fin r × Fin c → W × W => P (iidMat (fun w => (E.G.boxmuller w.1 w.2).1) U)) := by
  refine pr_law (X := fun ω => finMat r c (A ω)) (Y := fun U => iidMat (fun w : W × W => (E.G.boxmuller w.1 w.2).1) U) (fun b => ?_) P
  refine Eq.trans ?_ (pr_iid (fun w : W × W => (E.G.boxmuller w.1 w.2).1) b).symm
  have h := C89_gaussian_entries hE hl hD hU hN hA fun q p x => x = vecAt (.dense D) (extMat b) (q : Nat) (p : Nat)
  rw [pr_congr fun ω => finMat_eq_iff hD hr hc (A ω) b, h]
  generalize hμ : (fun x : T => Pr (fun w : W × W => (E.G.boxmuller w.1 w.2).1 = x)) = μ
  have hμ' : ∀ x : T, Pr (fun w : W × W => (E.G.boxmuller w.1 w.2).1 = x) = μ x := fun x => congrFun hμ x
  obtain ⟨-, -, -, hlay⟩ := denseDist_facts hD
  obtain ⟨e1, e2, e3⟩ := denseDist_dims hD
  rw [← e1, ← e2]
  generalize hl' : D.dimMajor.toNat = l
  have h1 : ∀ z ∈ range D.dimMinor.toNat ×ˢ range ((l + 1) / 2),
      Pr (fun w : W × W => (E.G.boxmuller w.1 w.2).1 = vecAt (.dense D) (extMat b) (z.1 : Nat) ((2 * z.2 : Nat) : Int) ∧
        (2 * z.2 + 1 < l → (E.G.boxmuller w.1 w.2).2 = vecAt (.dense D) (extMat b) (z.1 : Nat) ((2 * z.2 + 1 : Nat) : Int))) =
      μ (vecAt (.dense D) (extMat b) (z.1 : Nat) ((2 * z.2 : Nat) : Int)) *
        if 2 * z.2 + 1 < l then μ (vecAt (.dense D) (extMat b) (z.1 : Nat) ((2 * z.2 + 1 : Nat) : Int)) else 1 := by
    intro z _
    by_cases h2 : 2 * z.2 + 1 < l
    · rw [if_pos h2, ← hμ', ← hμ', ← hb]
      exact pr_congr fun w => by simp [h2]
    · rw [if_neg h2, mul_one, ← hμ']
      exact pr_congr fun w => by simp [h2]
  rw [prod_congr rfl h1, prod_product]
  have h2 : ∀ q ∈ range D.dimMinor.toNat, _ := fun q _ => prod_pairs (fun p => μ (vecAt (.dense D) (extMat b) (q : Nat) (p : Nat))) l
  rw [prod_congr rfl h2]
  simp only [hμ']
  rw [← hl']
  rcases hlay with ⟨a, u, v⟩ | ⟨a, u, v⟩
  · rw [u, v, hr, hc, Int.toNat_natCast, Int.toNat_natCast, prod_comm, prod_product]
    refine prod_congr rfl fun i _ => prod_congr rfl fun j _ => ?_
    unfold vecAt
    rw [if_pos (e3.mp a)]
  · have hn : ¬ (AnyDist.dense D).colVecs := fun h => by have := e3.mpr h; rw [a] at this; cases this
    rw [u, v, hr, hc, Int.toNat_natCast, Int.toNat_natCast, prod_product]
    refine prod_congr rfl fun i _ => prod_congr rfl fun j _ => ?_
    unfold vecAt
    rw [if_neg hn]

end

/-! ## The major axis matters for the Gaussian family -/

section
variable [Fintype K] [DecidableEq K] [Fintype W] [NeZero N] [NeZero L]

theorem prod_factor_pos {J : Type} {s : Finset J} {f : J → ℝ} (h : 0 < ∏ j ∈ s, f j) (hf : ∀ j, 0 ≤ f j) {j : J} (hj : j ∈ s) : 0 < f j :=
  lt_of_le_of_ne (hf j) fun e => h.ne' (prod_eq_zero hj e.symm)

theorem pr_nonneg {Ω : Type} [Fintype Ω] (p : Ω → Prop) : 0 ≤ Pr p := by
  classical
  rw [pr_eq]
  positivity

theorem pr_pos {Ω : Type} [Fintype Ω] {p : Ω → Prop} : 0 < Pr p ↔ ∃ ω, p ω := by
  classical
  rw [pr_eq]
  constructor
  · intro h
    by_contra hn
    push Not at hn
    rw [filter_false_of_mem (fun x _ => hn x), card_empty, Nat.cast_zero, zero_div] at h
    exact lt_irrefl _ h
  · rintro ⟨ω, hω⟩
    have : Nonempty Ω := ⟨ω⟩
    have h1 : 0 < (univ.filter p).card := card_pos.mpr ⟨ω, by simp [hω]⟩
    have h2 : 0 < Fintype.card Ω := Fintype.card_pos
    positivity

/-- C119 (Gaussian family, both axes). If the values made from a pair of words lie in a disk, and the square of one of the first values is more than half of the square of
the radius, then operators with more columns than rows have different laws for the two axes: the first two entries of the first row lie in the disk with probability one
for the long axis, and with a smaller probability for the short axis. -/
theorem C119_gaussian_differs [Nonempty W] {E : SkEnv N K W W R ℝ} (hE : SkEnvOk E) (hl : E.G.len = L) {D D' : DenseDist} (hD : DenseDistOk D) (hD' : DenseDistOk D')
    (hU : D.family = .Gaussian) (hU' : D'.family = .Gaussian) (hsh : D.nRows < D.nCols) (hr : D'.nRows = D.nRows) (hc : D'.nCols = D.nCols)
    (hx : D.majorAxis = .Long) (hx' : D'.majorAxis = .Short)
    {s s' : RNGState N K} (hN : (AnyDist.dense D).counters L ≤ N) (hN' : (AnyDist.dense D').counters L ≤ N)
    {A A' : (K × ZMod N × ZMod L → W) → Int → Int → ℝ} (hA : ∀ ω, Samples (withWords E ω).G E.sqrt3 D s (A ω))
    (hA' : ∀ ω, Samples (withWords E ω).G E.sqrt3 D' s' (A' ω)) {ρ : ℝ} (hρ : ∀ w w', (E.G.boxmuller w w').1 ^ 2 + (E.G.boxmuller w w').2 ^ 2 ≤ ρ)
    {v v' : W} (hv : ρ < 2 * (E.G.boxmuller v v').1 ^ 2) :
    Pr (fun ω => A ω 0 0 ^ 2 + A ω 0 1 ^ 2 ≤ ρ) = 1 ∧ Pr (fun ω => A' ω 0 0 ^ 2 + A' ω 0 1 ^ 2 ≤ ρ) < 1 := by
  classical
  obtain ⟨hr0, hc0, -, -⟩ := denseDist_facts hD
  have hcard : (0 : ℝ) < Fintype.card (K × ZMod N × ZMod L → W) := by
    have : Nonempty K := ⟨s.key⟩
    exact_mod_cast Fintype.card_pos
  have hv1 : ∀ B : Int → Int → ℝ, ∀ q p, vecAt (.dense D) B q p = B q p := by
    intro B q p
    unfold vecAt
    rw [if_neg]
    simp only [AnyDist.colVecs, hx, reduceCtorEq, if_false]
    omega
  have hv2 : ∀ B : Int → Int → ℝ, ∀ q p, vecAt (.dense D') B q p = B p q := by
    intro B q p
    unfold vecAt
    rw [if_pos]
    simp only [AnyDist.colVecs, hx', if_true]
    omega
  have n1 : (AnyDist.dense D).numVecs = D.nRows := by
    simp only [AnyDist.numVecs, AnyDist.axis, hx, if_true, AnyDist.nRows, AnyDist.nCols]; omega
  have l1 : (AnyDist.dense D).vecLen = D.nCols := by
    simp only [AnyDist.vecLen, AnyDist.axis, hx, if_true, AnyDist.nRows, AnyDist.nCols]; omega
  have n2 : (AnyDist.dense D').numVecs = D.nCols := by
    simp only [AnyDist.numVecs, AnyDist.axis, hx', reduceCtorEq, if_false, AnyDist.nRows, AnyDist.nCols]; omega
  have l2 : (AnyDist.dense D').vecLen = D.nRows := by
    simp only [AnyDist.vecLen, AnyDist.axis, hx', reduceCtorEq, if_false, AnyDist.nRows, AnyDist.nCols]; omega
  constructor
  · have hall : ∀ ω, A ω 0 0 ^ 2 + A ω 0 1 ^ 2 ≤ ρ := by
      intro ω
      have h := C89_gaussian_entries hE hl hD hU hN hA fun q p x => x = A ω (q : Nat) (p : Nat)
      simp only [hv1] at h
      have hp := pr_pos.mpr ⟨ω, fun z _ => rfl⟩ |>.trans_eq h
      have h0 := prod_factor_pos hp (fun _ => pr_nonneg _) (j := (0, 0)) (by rw [mem_product, mem_range, mem_range, n1, l1]; constructor <;> dsimp only <;> omega)
      obtain ⟨w, hw1, hw2⟩ := pr_pos.mp h0
      have hw2 := hw2 (by rw [l1]; omega)
      have := hρ w.1 w.2
      rw [hw1, hw2] at this
      simpa using this
    rw [pr_eq, filter_true_of_mem (fun ω _ => hall ω), card_univ]
    exact div_self hcard.ne'
  · have h := C89_gaussian_entries hE hl hD' hU' hN' hA' fun q p x => p = 0 → x = (E.G.boxmuller v v').1
    have hp : 0 < Pr (fun ω => ∀ z ∈ range (AnyDist.dense D').numVecs.toNat ×ˢ range (AnyDist.dense D').vecLen.toNat,
        z.2 = 0 → vecAt (.dense D') (A' ω) (z.1 : Nat) (z.2 : Nat) = (E.G.boxmuller v v').1) := by
      rw [h]
      refine prod_pos fun z _ => pr_pos.mpr ⟨(v, v'), fun _ => rfl, fun _ h0 => by omega⟩
    obtain ⟨ω, hω⟩ := pr_pos.mp hp
    simp only [hv2] at hω
    have q0 := hω (0, 0) (by rw [mem_product, mem_range, mem_range, n2, l2]; constructor <;> dsimp only <;> omega) rfl
    have q1 := hω (1, 0) (by rw [mem_product, mem_range, mem_range, n2, l2]; constructor <;> dsimp only <;> omega) rfl
    rw [pr_eq, div_lt_one hcard, Nat.cast_lt, ← card_univ]
    refine card_lt_card ((filter_ssubset (s := univ)).mpr ⟨ω, mem_univ _, fun hle => ?_⟩)
    have q0 : A' ω 0 0 = _ := q0
    have q1 : A' ω 0 1 = _ := q1
    rw [q0, q1] at hle
    linarith

end

/-! ## Random123's transformation of Box and Muller -/

theorem boxmullerR_sq {w : Nat} (x x' : BitVec w) : (boxmullerR x x').1 ^ 2 + (boxmullerR x x').2 ^ 2 = -2 * Real.log (u01R x') := by
  have hpos : 0 < u01R x' ∧ u01R x' < 1 := by rw [u01R_mid]; exact mid_bounds _
  have hlog := Real.log_neg hpos.1 hpos.2
  simp only [boxmullerR]
  rw [mul_pow, mul_pow, ← mul_add, Real.sin_sq_add_cos_sq, mul_one, Real.sq_sqrt (by linarith)]

theorem boxmullerR_disk {w : Nat} (x x' : BitVec w) : (boxmullerR x x').1 ^ 2 + (boxmullerR x x').2 ^ 2 ≤ -2 * Real.log (u01R (0 : BitVec w)) := by
  rw [boxmullerR_sq]
  have h0 : 0 < u01R (0 : BitVec w) := by rw [u01R_mid]; exact (mid_bounds _).1
  have h1 : u01R (0 : BitVec w) ≤ u01R x' := by
    unfold u01R
    simp
  have := Real.log_le_log h0 h1
  linarith

theorem boxmullerR_large {w : Nat} (hw : 3 ≤ w) : -2 * Real.log (u01R (0 : BitVec w)) < 2 * (boxmullerR (BitVec.ofNat w (2 ^ (w - 2))) (0 : BitVec w)).1 ^ 2 := by
  obtain ⟨k, rfl⟩ : ∃ k, w = k + 3 := ⟨w - 3, by omega⟩
  have hpos : 0 < u01R (0 : BitVec (k + 3)) ∧ u01R (0 : BitVec (k + 3)) < 1 := by rw [u01R_mid]; exact mid_bounds _
  have hlog := Real.log_neg hpos.1 hpos.2
  have hu : uneg11R (BitVec.ofNat (k + 3) (2 ^ (k + 3 - 2))) = 1 / 2 + 1 / 2 ^ (k + 3) := by
    have hp : 2 ^ (k + 1) < 2 ^ (k + 3) := Nat.pow_lt_pow_right (by norm_num) (by omega)
    have hi : (BitVec.ofNat (k + 3) (2 ^ (k + 1))).toInt = 2 ^ (k + 1) := by
      rw [BitVec.toInt_eq_toNat_of_lt]
      · rw [BitVec.toNat_ofNat, Nat.mod_eq_of_lt hp]; push_cast; rfl
      · rw [BitVec.toNat_ofNat, Nat.mod_eq_of_lt hp, pow_succ 2 (k + 2), pow_succ 2 (k + 1)]
        have : 0 < 2 ^ (k + 1) := by positivity
        omega
    unfold uneg11R
    rw [show k + 3 - 2 = k + 1 by omega, hi, show k + 3 - 1 = k + 2 by omega]
    push_cast
    rw [show (2 : ℝ) ^ (k + 2) = 2 ^ (k + 1) * 2 by ring, show (2 : ℝ) ^ (k + 3) = 2 ^ (k + 1) * 4 by ring]
    field_simp
    ring
  have hsin : 1 / 2 < Real.sin (Real.pi * (1 / 2 + 1 / 2 ^ (k + 3))) ^ 2 := by
    rw [show Real.pi * (1 / 2 + 1 / 2 ^ (k + 3)) = Real.pi / 2^(k+3) + Real.pi / 2 by ring, Real.sin_add_pi_div_two]
    have hpi := Real.pi_pos
    have h8 : (8 : ℝ) ≤ 2 ^ (k + 3) := by
      have : (1 : ℝ) ≤ 2 ^ k := one_le_pow₀ (by norm_num)
      rw [pow_add]; linarith
    have hlt : Real.pi / 2 ^ (k + 3) < Real.pi / 4 := by
      apply div_lt_div_of_pos_left hpi (by norm_num) (by linarith)
    have hc := Real.cos_lt_cos_of_nonneg_of_le_pi_div_two (x := Real.pi / 2 ^ (k + 3)) (y := Real.pi / 4) (by positivity) (by linarith) hlt
    rw [Real.cos_pi_div_four] at hc
    have h2 : (Real.sqrt 2 / 2) ^ 2 = 1 / 2 := by rw [div_pow, Real.sq_sqrt (by norm_num)]; norm_num
    rw [← h2]
    exact pow_lt_pow_left₀ hc (by positivity) (by norm_num)
  simp only [boxmullerR]
  rw [hu, mul_pow, Real.sq_sqrt (by linarith)]
  nlinarith

/-- C119 (Gaussian family, Random123). With Random123's transformation, even in exact arithmetic and with independent uniform words, operators with more columns than rows have
different laws for the two axes. -/
theorem C119_gaussian_boxmuller {w : Nat} (hw : 3 ≤ w) [Fintype K] [DecidableEq K] [NeZero N] [NeZero L] {E : SkEnv N K (BitVec w) (BitVec w) R ℝ}
    (hE : SkEnvOk E) (hl : E.G.len = L) (hbm : E.G.boxmuller = boxmullerR) {D D' : DenseDist} (hD : DenseDistOk D) (hD' : DenseDistOk D')
    (hU : D.family = .Gaussian) (hU' : D'.family = .Gaussian) (hsh : D.nRows < D.nCols) (hr : D'.nRows = D.nRows) (hc : D'.nCols = D.nCols)
    (hx : D.majorAxis = .Long) (hx' : D'.majorAxis = .Short)
    {s s' : RNGState N K} (hN : (AnyDist.dense D).counters L ≤ N) (hN' : (AnyDist.dense D').counters L ≤ N)
    {A A' : (K × ZMod N × ZMod L → BitVec w) → Int → Int → ℝ} (hA : ∀ ω, Samples (withWords E ω).G E.sqrt3 D s (A ω))
    (hA' : ∀ ω, Samples (withWords E ω).G E.sqrt3 D' s' (A' ω)) :
    ∃ P : (Int → Int → ℝ) → Prop, Pr (fun ω => P (A ω)) = 1 ∧ Pr (fun ω => P (A' ω)) < 1 := by
  refine ⟨fun B => B 0 0 ^ 2 + B 0 1 ^ 2 ≤ -2 * Real.log (u01R (0 : BitVec w)), ?_⟩
  exact C119_gaussian_differs hE hl hD hD' hU hU' hsh hr hc hx hx' hN hN' hA hA' (v := BitVec.ofNat w (2 ^ (w - 2))) (v' := 0)
    (fun x x' => by rw [hbm]; exact boxmullerR_disk x x') (by rw [hbm]; exact boxmullerR_large hw)

/-! ## The hypotheses can be met -/

/-- Operators of the same size with both axes. -/
def exAxisDist (f : ScalarDist) : Axis → DenseDist
  | .Long => ⟨2, 5, .Long, 5, 2, f, .RowMajor⟩
  | .Short => ⟨2, 5, .Short, 2, 5, f, .ColMajor⟩

theorem exAxisDist_ok (f : ScalarDist) (x : Axis) : DenseDistOk (exAxisDist f x) ∧ (exAxisDist f x).family = f ∧ (exAxisDist f x).majorAxis = x ∧ (exAxisDist f x).nRows = (2 : Nat) ∧
    (exAxisDist f x).nCols = (5 : Nat) ∧ (AnyDist.dense (exAxisDist f x)).counters 4 ≤ (2 ^ 128 : Nat) := by
  cases f <;> cases x <;> exact ⟨⟨by decide, by decide⟩, rfl, rfl, rfl, rfl, by decide⟩

/-- An environment with the words and the transformations of Random123 in exact arithmetic. -/
noncomputable def bvEnv : SkEnv (2 ^ 128) (Fin 8) (BitVec 32) (BitVec 32) ℚ ℝ :=
  ⟨⟨fun lt l => l.mergeSort fun a b => !lt b a, [], 4⟩, { len := 4, word := fun _ _ _ => 0, boxmuller := boxmullerR, uneg11 := uneg11R, nat := BitVec.toNat }, Real.sqrt 3,
    { len := 4, word := fun _ _ _ => 0, boxmuller := fun _ _ => (0, 0), uneg11 := fun w => 2 * (((w.toNat : ℚ) + 1 / 2) / (2 ^ 32 : Nat)) - 1, nat := BitVec.toNat },
    Real.sqrt, fun _ l => l⟩

/-- The hypotheses of the theorems about the uniform family and of `C119_gaussian_boxmuller` are met, for both axes. -/
example : SkEnvOk bvEnv ∧ bvEnv.G.len = (4 : Nat) ∧ bvEnv.G.boxmuller = boxmullerR ∧ ∀ f x (s : RNGState (2 ^ 128) (Fin 8)),
    ∃ A : (Fin 8 × ZMod (2 ^ 128) × ZMod 4 → BitVec 32) → Int → Int → ℝ, ∀ ω, Samples (withWords bvEnv ω).G bvEnv.sqrt3 (exAxisDist f x) s (A ω) := by
  have hE : SkEnvOk bvEnv := ⟨⟨mergeSort_sortOk, by norm_num [bvEnv]⟩, Or.inr rfl, Or.inr rfl, Real.sqrt_one, fun _ l => List.Perm.refl l⟩
  exact ⟨hE, rfl, rfl, fun f x s => (sampled_exists (d := .dense (exAxisDist f x)) hE (exAxisDist_ok f x).1 s).2⟩

/-- `IndepPair` is met by a transformation with two independent values that are not constant. -/
example : IndepPair (W := Fin 2) (T := ℝ) fun w w' => (((w : Nat) : ℝ), ((w' : Nat) : ℝ)) := by
  intro x y
  have h1 := pr_fst (β := Fin 2) fun w : Fin 2 => ((w : Nat) : ℝ) = x
  have h2 := pr_fst (β := Fin 2) fun w : Fin 2 => ((w : Nat) : ℝ) = y
  simp only at h1 h2 ⊢
  rw [h1, h2]
  classical
  rw [pr_eq, pr_eq, pr_eq]
  have : (univ.filter fun w : Fin 2 × Fin 2 => ((w.1 : Nat) : ℝ) = x ∧ ((w.2 : Nat) : ℝ) = y) =
      (univ.filter fun w : Fin 2 => ((w : Nat) : ℝ) = x) ×ˢ (univ.filter fun w : Fin 2 => ((w : Nat) : ℝ) = y) := by
    ext z; simp
  rw [this, card_product, Fintype.card_prod]
  push_cast
  rw [mul_div_mul_comm]

end RB
