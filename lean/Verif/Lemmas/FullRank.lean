import Verif.Props.JL
import Verif.Props.ObliviousApps
import Mathlib.LinearAlgebra.Matrix.Rank
import Mathlib.LinearAlgebra.FiniteDimensional.Lemmas
import Mathlib.LinearAlgebra.LinearIndependent.Lemmas

/-! # The rank of a product with a matrix of independent random vectors -/

namespace RB
open Spec Finset

/-! ## Conditioning on a part of the words -/

section
variable {I W : Type} [Fintype I] [DecidableEq I] [Fintype W]

open Classical in
/-- The words of `z` in `J` and those of `ω` elsewhere. -/
noncomputable def mixWords (J : I → Prop) (ω z : I → W) : I → W := fun a => if J a then z a else ω a

omit [Fintype I] [DecidableEq I] [Fintype W] in
theorem mixWords_pos {J : I → Prop} {ω z : I → W} {a : I} (h : J a) : mixWords J ω z a = z a := if_pos h

omit [Fintype I] [DecidableEq I] [Fintype W] in
theorem mixWords_neg {J : I → Prop} {ω z : I → W} {a : I} (h : ¬ J a) : mixWords J ω z a = ω a := if_neg h

/-- A bound for all choices of the words outside `J` is a bound. -/
theorem pr_mix [Nonempty W] (J : I → Prop) {p : (I → W) → Prop} {c : ℝ} (h : ∀ ω, Pr (fun z => p (mixWords J ω z)) ≤ c) : Pr p ≤ c := by
  classical
  have hcard : (0 : ℝ) < Fintype.card (I → W) := by exact_mod_cast Fintype.card_pos
  let σ : (I → W) × (I → W) ≃ (I → W) × (I → W) :=
    ⟨fun x => (mixWords J x.1 x.2, mixWords J x.2 x.1), fun x => (mixWords J x.1 x.2, mixWords J x.2 x.1), fun x => by
      refine Prod.ext (funext fun a => ?_) (funext fun a => ?_) <;> by_cases ha : J a <;> simp [mixWords, ha], fun x => by
      refine Prod.ext (funext fun a => ?_) (funext fun a => ?_) <;> by_cases ha : J a <;> simp [mixWords, ha]⟩
  have h1 : Pr p = Pr (fun x : (I → W) × (I → W) => p (mixWords J x.1 x.2)) := by
    rw [← pr_fst (β := I → W) p, ← pr_equiv σ]
    rfl
  rw [h1, pr_eq]
  have h2 : ((univ.filter fun x : (I → W) × (I → W) => p (mixWords J x.1 x.2)).card : ℝ) = ∑ ω : I → W, ((univ.filter fun z => p (mixWords J ω z)).card : ℝ) := by
    rw [card_filter, ← univ_product_univ, sum_product]
    push_cast
    refine sum_congr rfl fun ω _ => ?_
    rw [card_filter]
    push_cast
    rfl
  rw [h2, Fintype.card_prod, Nat.cast_mul, div_le_iff₀ (by positivity)]
  have h3 : ∀ ω ∈ (univ : Finset (I → W)), ((univ.filter fun z => p (mixWords J ω z)).card : ℝ) ≤ c * Fintype.card (I → W) := by
    intro ω _
    have := h ω
    rw [pr_eq, div_le_iff₀ hcard] at this
    exact this
  refine (sum_le_sum h3).trans (le_of_eq ?_)
  rw [sum_const, card_univ, nsmul_eq_mul]
  ring

/-- The vector `V`, computed from the words in `P`, lies on a given hyperplane with probability at most `p`, whatever the other words are. -/
def Spread (p : ℝ) (P : I → Prop) {k : Nat} (V : (I → W) → Fin k → ℝ) : Prop :=
  ∀ (y : (I → W) → Fin k → ℝ) (c : (I → W) → ℝ), (∀ ω ω', (∀ a, ¬ P a → ω a = ω' a) → y ω = y ω' ∧ c ω = c ω') →
    Pr (fun ω => y ω ≠ 0 ∧ ∑ j, y ω j * V ω j = c ω) ≤ p

end

/-! ## Linear algebra -/

theorem indep_of_notMem {V : Type} [AddCommGroup V] [Module ℝ V] (u : Nat → V) : ∀ t : Nat, (∀ i < t, u i ∉ Submodule.span ℝ (u '' {j | j < i})) →
    LinearIndependent ℝ fun i : Fin t => u i
  | 0, _ => linearIndependent_empty_type
  | t + 1, h => by
    rw [linearIndependent_finSucc']
    refine ⟨indep_of_notMem u t fun i hi => h i (by omega), ?_⟩
    have h1 := h t (by omega)
    simp only [Fin.val_last]
    intro h2
    refine h1 (Submodule.span_mono ?_ h2)
    rintro _ ⟨i, rfl⟩
    exact ⟨i, i.2, rfl⟩

theorem exists_orth {n i : Nat} (hi : i < n) (u : Nat → Fin n → ℝ) : ∃ y : Fin n → ℝ, y ≠ 0 ∧ ∀ j < i, ∑ l, y l * u j l = 0 := by
  let f : (Fin n → ℝ) →ₗ[ℝ] (Fin i → ℝ) := Matrix.mulVecLin (Matrix.of fun (j : Fin i) (l : Fin n) => u j l)
  have h := LinearMap.ker_ne_bot_of_finrank_lt (f := f) (by simpa using hi)
  obtain ⟨y, hy, hy0⟩ := Submodule.exists_mem_ne_zero_of_ne_bot h
  refine ⟨y, hy0, fun j hj => ?_⟩
  have := congrFun (LinearMap.mem_ker.mp hy) ⟨j, hj⟩
  simp only [f, Matrix.mulVecLin_apply, Matrix.mulVec, dotProduct, Matrix.of_apply, Pi.zero_apply] at this
  rw [← this]
  exact sum_congr rfl fun l _ => mul_comm _ _

/-- Fewer than `rank A` linear conditions have a solution outside the kernel of `A`. -/
theorem exists_orth_image {m n i : Nat} (A : Matrix (Fin m) (Fin n) ℝ) (hi : i < A.rank) (u : Nat → Fin n → ℝ) :
    ∃ x : Fin n → ℝ, A.mulVec x ≠ 0 ∧ ∀ j < i, ∑ l, x l * u j l = 0 := by
  let f : (Fin n → ℝ) →ₗ[ℝ] (Fin i → ℝ) := Matrix.mulVecLin (Matrix.of fun (j : Fin i) (l : Fin n) => u j l)
  by_contra hn
  push Not at hn
  have hle : LinearMap.ker f ≤ LinearMap.ker A.mulVecLin := by
    intro y hy
    by_contra hk
    obtain ⟨j, hj, hjn⟩ := hn y (fun h0 => hk (by rw [LinearMap.mem_ker, Matrix.mulVecLin_apply, h0]))
    apply hjn
    have := congrFun (LinearMap.mem_ker.mp hy) ⟨j, hj⟩
    simp only [f, Matrix.mulVecLin_apply, Matrix.mulVec, dotProduct, Matrix.of_apply, Pi.zero_apply] at this
    rw [← this]
    exact sum_congr rfl fun l _ => mul_comm _ _
  have h1 := Submodule.finrank_mono hle
  have h2 := LinearMap.finrank_range_add_finrank_ker f
  have h3 := LinearMap.finrank_range_add_finrank_ker A.mulVecLin
  have h4 : Module.finrank ℝ (LinearMap.range f) ≤ i := by
    have := Submodule.finrank_le (LinearMap.range f)
    simpa using this
  unfold Matrix.rank at hi
  omega

/-- Rows of `A` that are independent, and vectors that `A` maps to the unit vectors of these rows. -/
theorem exists_pivots {m n : Nat} (A : Matrix (Fin m) (Fin n) ℝ) :
    ∃ (J : Fin A.rank → Fin m) (x : Fin A.rank → Fin n → ℝ), ∀ l l', A.mulVec (x l) (J l') = if l' = l then 1 else 0 := by
  classical
  obtain ⟨f, hf, -, hind⟩ := Submodule.exists_fun_fin_finrank_span_eq ℝ (Set.range A.row)
  generalize hr : Module.finrank ℝ (Submodule.span ℝ (Set.range A.row)) = r at f hf hind
  rw [← Matrix.rank_eq_finrank_span_row A] at hr
  subst hr
  choose J hJ using hf
  let B : Matrix (Fin A.rank) (Fin n) ℝ := A.submatrix J id
  have hB : B.rank = A.rank := by
    have : LinearIndependent ℝ B.row := by
      have e : B.row = f := funext fun l => (hJ l)
      rw [e]
      exact hind
    simpa using this.rank_matrix
  have hsurj : LinearMap.range B.mulVecLin = ⊤ := Submodule.eq_top_of_finrank_eq (by
    have : Module.finrank ℝ (LinearMap.range B.mulVecLin) = B.rank := rfl
    rw [this, hB]
    simp)
  have hx : ∀ l : Fin A.rank, ∃ x, B.mulVec x = fun l' => if l' = l then 1 else 0 := fun l => by
    have : (fun l' : Fin A.rank => if l' = l then (1 : ℝ) else 0) ∈ LinearMap.range B.mulVecLin := by rw [hsurj]; trivial
    obtain ⟨x, hx⟩ := this
    exact ⟨x, hx⟩
  choose x hx using hx
  exact ⟨J, x, fun l l' => congrFun (hx l) l'⟩

/-- Orthogonality to vectors is orthogonality to their span. -/
theorem orth_span {n : Nat} {s : Set (Fin n → ℝ)} {y u : Fin n → ℝ} (hs : ∀ v ∈ s, ∑ l, y l * v l = 0) (hu : u ∈ Submodule.span ℝ s) : ∑ l, y l * u l = 0 := by
  induction hu using Submodule.span_induction with
  | mem v hv => exact hs v hv
  | zero => simp
  | add v w _ _ hv hw => simp only [Pi.add_apply, mul_add, sum_add_distrib, hv, hw, add_zero]
  | smul c v _ hv =>
    simp only [Pi.smul_apply, smul_eq_mul]
    rw [← mul_zero c, ← hv, mul_sum]
    exact sum_congr rfl fun l _ => by ring

/-! ## Random vectors as rows or columns -/

section
variable {I W : Type} [Fintype I] [DecidableEq I] [Fintype W]

/-- Independent random rows. -/
theorem rows_rank [Nonempty W] {d m n : Nat} (A : Matrix (Fin m) (Fin n) ℝ) (V : Fin d → (I → W) → Fin m → ℝ) (P : Fin d → I → Prop)
    (hdis : ∀ i i' a, P i a → P i' a → i = i') (hdep : ∀ i ω ω', (∀ a, P i a → ω a = ω' a) → V i ω = V i ω') {p : ℝ} (hp : ∀ i, Spread p (P i) (V i)) :
    Pr (fun ω => ((Matrix.of fun i => V i ω) * A).rank ≠ min d A.rank) ≤ (min d A.rank : Nat) * p := by
  classical
  let u : (I → W) → Nat → Fin n → ℝ := fun ω i => if h : i < d then ((Matrix.of fun i => V i ω) * A) ⟨i, h⟩ else 0
  have hu : ∀ ω i (h : i < d) l, u ω i l = ∑ k, V ⟨i, h⟩ ω k * A k l := by
    intro ω i h l
    simp only [u, dif_pos h]
    rfl
  have key := pr_exists_le (range (min d A.rank)) (p := fun ω => ((Matrix.of fun i => V i ω) * A).rank ≠ min d A.rank)
    (q := fun i ω => u ω i ∈ Submodule.span ℝ (u ω '' {j | j < i})) (c := p) (fun ω hω => by
      by_contra hn
      push Not at hn
      have hind := indep_of_notMem (u ω) (min d A.rank) fun i hi => hn i (mem_range.mpr hi)
      apply hω
      refine le_antisymm (le_min (by simpa using Matrix.rank_le_card_height ((Matrix.of fun i => V i ω) * A)) (Matrix.rank_mul_le_right _ _)) ?_
      rw [Matrix.rank_eq_finrank_span_row ((Matrix.of fun i => V i ω) * A)]
      have h1 := finrank_span_eq_card hind
      rw [Fintype.card_fin] at h1
      rw [← h1]
      refine Submodule.finrank_mono (Submodule.span_mono ?_)
      rintro _ ⟨i, rfl⟩
      have hi : (i : Nat) < d := lt_of_lt_of_le i.2 (min_le_left _ _)
      refine ⟨⟨i, hi⟩, ?_⟩
      simp only [u, dif_pos hi]
      rfl) (fun i hi => by
      rw [mem_range] at hi
      have hid : i < d := lt_of_lt_of_le hi (min_le_left _ _)
      let C : (I → W) → (Fin n → ℝ) → Prop := fun ω x => A.mulVec x ≠ 0 ∧ ∀ j < i, ∑ l, x l * u ω j l = 0
      have hC : ∀ ω, ∃ x, C ω x := fun ω => exists_orth_image A (lt_of_lt_of_le hi (min_le_right _ _)) (u ω)
      have hcong : ∀ ω ω', (∀ a, ¬ P ⟨i, hid⟩ a → ω a = ω' a) → C ω = C ω' := by
        intro ω ω' h
        have : ∀ j < i, u ω j = u ω' j := by
          intro j hj
          have hjd : j < d := by omega
          funext l
          rw [hu ω j hjd, hu ω' j hjd, hdep ⟨j, hjd⟩ ω ω' fun a ha => h a fun ha' => by have := hdis _ _ _ ha ha'; simp only [Fin.mk.injEq] at this; omega]
        funext x
        simp only [C, eq_iff_iff]
        refine and_congr_right fun _ => forall₂_congr fun j hj => ?_
        rw [this j hj]
      have hsp := hp ⟨i, hid⟩ (fun ω => A.mulVec (Classical.epsilon (C ω))) (fun _ => 0) fun ω ω' h => ⟨by rw [hcong ω ω' h], rfl⟩
      refine le_trans (pr_mono fun ω hω => ?_) hsp
      obtain ⟨h1, h2⟩ := Classical.epsilon_spec (hC ω)
      refine ⟨h1, ?_⟩
      have h3 := orth_span (y := Classical.epsilon (C ω)) (by rintro _ ⟨j, hj, rfl⟩; exact h2 j hj) hω
      simp only [hu ω i hid] at h3
      rw [← h3]
      simp only [Matrix.mulVec, dotProduct, sum_mul, mul_sum]
      rw [sum_comm]
      exact sum_congr rfl fun l _ => sum_congr rfl fun k _ => by ring)
  rw [card_range] at key
  exact key

/-- Independent random columns. -/
theorem cols_rank [Nonempty W] {d m n : Nat} (A : Matrix (Fin m) (Fin n) ℝ) (V : Fin m → (I → W) → Fin d → ℝ) (P : Fin m → I → Prop)
    (hdis : ∀ i i' a, P i a → P i' a → i = i') (hdep : ∀ i ω ω', (∀ a, P i a → ω a = ω' a) → V i ω = V i ω') {p : ℝ} (hp : ∀ i, Spread p (P i) (V i)) :
    Pr (fun ω => ((Matrix.of fun i j => V j ω i) * A).rank ≠ min d A.rank) ≤ (min d A.rank : Nat) * p := by
  classical
  obtain ⟨J, x, hJ⟩ := exists_pivots A
  have hJinj : Function.Injective J := by
    intro l l' h
    have h1 := hJ l l'
    have h2 := hJ l l
    rw [h, if_pos rfl] at h2
    rw [h2] at h1
    by_contra hne
    rw [if_neg (Ne.symm hne)] at h1
    norm_num at h1
  let u : (I → W) → Nat → Fin d → ℝ := fun ω l => if h : l < A.rank then ((Matrix.of fun i j => V j ω i) * A).mulVec (x ⟨l, h⟩) else 0
  have hu : ∀ ω l (h : l < A.rank) i, u ω l i = V (J ⟨l, h⟩) ω i + ∑ j with j ∉ Set.range J, A.mulVec (x ⟨l, h⟩) j * V j ω i := by
    intro ω l h i
    simp only [u, dif_pos h]
    rw [← Matrix.mulVec_mulVec]
    have e : (Matrix.of fun i j => V j ω i).mulVec (A.mulVec (x ⟨l, h⟩)) i = ∑ j, A.mulVec (x ⟨l, h⟩) j * V j ω i := by
      simp only [Matrix.mulVec, dotProduct, Matrix.of_apply]
      exact sum_congr rfl fun j _ => mul_comm _ _
    rw [e, ← sum_filter_add_sum_filter_not univ (fun j => j ∉ Set.range J), add_comm]
    congr 1
    have hf : (univ.filter fun j => ¬ j ∉ Set.range J) = univ.image J := by
      ext j
      simp
    rw [hf, sum_image fun a _ b _ h => hJinj h]
    simp only [hJ, ite_mul, one_mul, zero_mul]
    simp
  have key := pr_exists_le (range (min d A.rank)) (p := fun ω => ((Matrix.of fun i j => V j ω i) * A).rank ≠ min d A.rank)
    (q := fun i ω => u ω i ∈ Submodule.span ℝ (u ω '' {j | j < i})) (c := p) (fun ω hω => by
      by_contra hn
      push Not at hn
      have hind := indep_of_notMem (u ω) (min d A.rank) fun i hi => hn i (mem_range.mpr hi)
      apply hω
      refine le_antisymm (le_min (by simpa using Matrix.rank_le_card_height ((Matrix.of fun i j => V j ω i) * A)) (Matrix.rank_mul_le_right _ _)) ?_
      have h1 := finrank_span_eq_card hind
      rw [Fintype.card_fin] at h1
      rw [← h1]
      refine Submodule.finrank_mono (Submodule.span_le.mpr ?_)
      rintro _ ⟨i, rfl⟩
      have hi : (i : Nat) < A.rank := lt_of_lt_of_le i.2 (min_le_right _ _)
      simp only [u, dif_pos hi]
      exact ⟨_, rfl⟩) (fun i hi => by
      rw [mem_range] at hi
      have hid : i < A.rank := lt_of_lt_of_le hi (min_le_right _ _)
      let C : (I → W) → (Fin d → ℝ) → Prop := fun ω y => y ≠ 0 ∧ ∀ j < i, ∑ l, y l * u ω j l = 0
      have hC : ∀ ω, ∃ y, C ω y := fun ω => exists_orth (lt_of_lt_of_le hi (min_le_left _ _)) (u ω)
      have hV : ∀ ω ω', (∀ a, ¬ P (J ⟨i, hid⟩) a → ω a = ω' a) → ∀ j, j ≠ J ⟨i, hid⟩ → V j ω = V j ω' := fun ω ω' h j hj =>
        hdep j ω ω' fun a ha => h a fun ha' => hj (hdis _ _ _ ha ha')
      have hrest : ∀ ω ω', (∀ a, ¬ P (J ⟨i, hid⟩) a → ω a = ω' a) → ∀ l (h : l < A.rank) k,
          ∑ j with j ∉ Set.range J, A.mulVec (x ⟨l, h⟩) j * V j ω k = ∑ j with j ∉ Set.range J, A.mulVec (x ⟨l, h⟩) j * V j ω' k := by
        intro ω ω' h l hl k
        refine sum_congr rfl fun j hj => ?_
        rw [mem_filter] at hj
        rw [hV ω ω' h j fun e => hj.2 ⟨_, e.symm⟩]
      have hcong : ∀ ω ω', (∀ a, ¬ P (J ⟨i, hid⟩) a → ω a = ω' a) → C ω = C ω' := by
        intro ω ω' h
        have : ∀ j < i, u ω j = u ω' j := by
          intro j hj
          have hjd : j < A.rank := by omega
          funext k
          rw [hu ω j hjd, hu ω' j hjd, hrest ω ω' h, hV ω ω' h (J ⟨j, hjd⟩) fun e => by have := hJinj e; simp only [Fin.mk.injEq] at this; omega]
        funext x
        simp only [C, eq_iff_iff]
        refine and_congr_right fun _ => forall₂_congr fun j hj => ?_
        rw [this j hj]
      have hsp := hp (J ⟨i, hid⟩) (fun ω => Classical.epsilon (C ω))
        (fun ω => -∑ k, Classical.epsilon (C ω) k * ∑ j with j ∉ Set.range J, A.mulVec (x ⟨i, hid⟩) j * V j ω k) fun ω ω' h => by
          refine ⟨by rw [hcong ω ω' h], ?_⟩
          rw [hcong ω ω' h]
          congr 1
          exact sum_congr rfl fun k _ => by rw [hrest ω ω' h]
      refine le_trans (pr_mono fun ω hω => ?_) hsp
      obtain ⟨h1, h2⟩ := Classical.epsilon_spec (hC ω)
      refine ⟨h1, ?_⟩
      have h3 := orth_span (y := Classical.epsilon (C ω)) (by rintro _ ⟨j, hj, rfl⟩; exact h2 j hj) hω
      simp only [hu ω i hid, mul_add, sum_add_distrib] at h3
      linarith)
  rw [card_range] at key
  exact key

end
end RB
