import Mathlib.Data.Fintype.Pi
import Mathlib.Data.Fintype.Card
import Mathlib.Data.Fintype.BigOperators
import Mathlib.Algebra.BigOperators.Field
import Mathlib.Data.Real.Basic
import Mathlib.Tactic.FieldSimp
import Mathlib.Tactic.Linarith

/-! # Probabilities of events about functions with independent uniform values -/

namespace RB
open Finset

/-- The fraction of the elements of `Ω` with the property `p`. -/
noncomputable def Spec.Pr {Ω : Type} [Fintype Ω] (p : Ω → Prop) : ℝ :=
  letI := Classical.decPred p
  ((univ.filter p).card : ℝ) / Fintype.card Ω

open Spec

variable {I W : Type} [Fintype I] [DecidableEq I] [Fintype W]

theorem pr_eq {Ω : Type} [Fintype Ω] (p : Ω → Prop) [DecidablePred p] : Pr p = ((univ.filter p).card : ℝ) / Fintype.card Ω := by
  unfold Pr
  congr!

theorem pr_congr {Ω : Type} [Fintype Ω] {p q : Ω → Prop} (h : ∀ ω, p ω ↔ q ω) : Pr p = Pr q := by
  rw [show p = q from funext fun ω => propext (h ω)]

theorem pr_equiv {Ω Ω' : Type} [Fintype Ω] [Fintype Ω'] (σ : Ω ≃ Ω') (p : Ω' → Prop) : Pr (fun ω => p (σ ω)) = Pr p := by
  classical
  rw [pr_eq, pr_eq, Fintype.card_congr σ]
  congr 2
  refine card_bij (fun ω _ => σ ω) (fun ω h => ?_) (fun a _ b _ h => σ.injective h) (fun b h => ⟨σ.symm b, ?_, σ.apply_symm_apply b⟩)
  · simpa using h
  · simpa using h

/-- The event depends only on the values at the points of `S`. -/
def Dep (S : I → Prop) (p : (I → W) → Prop) : Prop := ∀ ω ω' : I → W, (∀ x, S x → ω x = ω' x) → (p ω ↔ p ω')

omit [Fintype I] [DecidableEq I] [Fintype W] in
theorem Dep.mono {S S' : I → Prop} {p : (I → W) → Prop} (h : Dep S p) (hS : ∀ x, S x → S' x) : Dep S' p :=
  fun ω ω' hw => h ω ω' fun x hx => hw x (hS x hx)

theorem pr_and [Nonempty W] {S S' : I → Prop} {p q : (I → W) → Prop} (hp : Dep S p) (hq : Dep S' q) (hd : ∀ x, S x → ¬ S' x) :
    Pr (fun ω => p ω ∧ q ω) = Pr p * Pr q := by
  classical
  have hq' : Dep (fun x => ¬ S x) q := hq.mono fun x hx hs => hd x hs hx
  rw [pr_eq, pr_eq, pr_eq]
  have hc : (0 : ℝ) < Fintype.card (I → W) := by exact_mod_cast Fintype.card_pos
  have key : (univ.filter fun ω : I → W => p ω ∧ q ω).card * Fintype.card (I → W) = (univ.filter p).card * (univ.filter q).card := by
    rw [← card_univ, ← card_product, ← card_product]
    refine card_bij (fun (z : (I → W) × (I → W)) _ => ((fun x => if S x then z.1 x else z.2 x), (fun x => if S x then z.2 x else z.1 x))) ?_ ?_ ?_
    · rintro ⟨a, b⟩ h
      simp only [mem_product, mem_filter, mem_univ, true_and, and_true] at h ⊢
      refine ⟨(hp a _ fun x hx => ?_).mp h.1, (hq' a _ fun x hx => ?_).mp h.2⟩
      · rw [if_pos hx]
      · rw [if_neg hx]
    · rintro ⟨a, b⟩ _ ⟨a', b'⟩ _ h
      simp only [Prod.mk.injEq] at h ⊢
      obtain ⟨h1, h2⟩ := h
      constructor
      · funext x
        have e1 := congrFun h1 x
        have e2 := congrFun h2 x
        by_cases hx : S x
        · simpa [hx] using e1
        · simpa [hx] using e2
      · funext x
        have e1 := congrFun h1 x
        have e2 := congrFun h2 x
        by_cases hx : S x
        · simpa [hx] using e2
        · simpa [hx] using e1
    · rintro ⟨a, b⟩ h
      simp only [mem_product, mem_filter, mem_univ, true_and, and_true] at h ⊢
      refine ⟨((fun x => if S x then a x else b x), (fun x => if S x then b x else a x)), ?_, ?_⟩
      · refine ⟨(hp a _ fun x hx => ?_).mp h.1, (hq' b _ fun x hx => ?_).mp h.2⟩
        · simp only [if_pos hx]
        · simp only [if_neg hx]
      · simp only [Prod.mk.injEq]
        constructor <;> funext x <;> by_cases hx : S x <;> simp [hx]
  have : ((univ.filter fun ω : I → W => p ω ∧ q ω).card : ℝ) * Fintype.card (I → W) = (univ.filter p).card * (univ.filter q).card := by
    exact_mod_cast key
  field_simp
  linarith

/-- Events that depend on the values at disjoint sets of points are independent. -/
theorem pr_forall [Nonempty W] {J : Type} [DecidableEq J] (s : Finset J) {S : J → I → Prop} {p : J → (I → W) → Prop} (hp : ∀ j ∈ s, Dep (S j) (p j))
    (hd : ∀ j ∈ s, ∀ k ∈ s, j ≠ k → ∀ x, S j x → ¬ S k x) : Pr (fun ω => ∀ j ∈ s, p j ω) = ∏ j ∈ s, Pr (p j) := by
  classical
  induction s using Finset.induction_on with
  | empty =>
    have hc : (Fintype.card (I → W) : ℝ) ≠ 0 := by exact_mod_cast Fintype.card_ne_zero
    rw [pr_eq]
    simp only [notMem_empty, false_imp_iff, implies_true, filter_true, card_univ, prod_empty]
    exact div_self hc
  | insert a s ha ih =>
    rw [prod_insert ha, ← ih (fun j hj => hp j (mem_insert_of_mem hj)) (fun j hj k hk => hd j (mem_insert_of_mem hj) k (mem_insert_of_mem hk)),
      ← pr_and (S' := fun x => ∃ k ∈ s, S k x) (hp a (mem_insert_self a s))]
    · exact pr_congr fun ω => by simp
    · intro ω ω' h
      exact forall₂_congr fun k hk => hp k (mem_insert_of_mem hk) ω ω' fun x hx => h x ⟨k, hk, hx⟩
    · rintro x hx ⟨k, hk, hkx⟩
      exact hd a (mem_insert_self a s) k (mem_insert_of_mem hk) (fun h => ha (h ▸ hk)) x hx hkx

/-- An event about the value at one point. -/
theorem pr_eval [Nonempty W] (x : I) (p : W → Prop) : Pr (fun ω : I → W => p (ω x)) = Pr p := by
  classical
  let e : (I → W) ≃ W × ({y // y ≠ x} → W) := Equiv.funSplitAt x W
  rw [show (fun ω : I → W => p (ω x)) = fun ω => (fun z : W × ({y // y ≠ x} → W) => p z.1) (e ω) from rfl, pr_equiv e (fun z => p z.1), pr_eq, pr_eq,
    Fintype.card_prod]
  have : (univ.filter fun z : W × ({y // y ≠ x} → W) => p z.1) = (univ.filter p) ×ˢ univ := by
    ext z; simp
  have hc : (0 : ℝ) < Fintype.card ({y // y ≠ x} → W) := by exact_mod_cast Fintype.card_pos
  rw [this, card_product, card_univ]
  push_cast
  field_simp

theorem pr_fst {α β : Type} [Fintype α] [Fintype β] [Nonempty β] (p : α → Prop) : Pr (fun z : α × β => p z.1) = Pr p := by
  classical
  rw [pr_eq, pr_eq, Fintype.card_prod]
  have : (univ.filter fun z : α × β => p z.1) = (univ.filter p) ×ˢ (univ : Finset β) := by
    ext z; simp
  rw [this, card_product, card_univ]
  have hb : (Fintype.card β : ℝ) ≠ 0 := by exact_mod_cast Fintype.card_ne_zero
  push_cast
  exact mul_div_mul_right _ _ hb

/-- An event about the values at two points. -/
theorem pr_eval2 [Nonempty W] {x y : I} (hxy : x ≠ y) (p : W → W → Prop) : Pr (fun ω : I → W => p (ω x) (ω y)) = Pr (fun z : W × W => p z.1 z.2) := by
  classical
  let y' : {z // z ≠ x} := ⟨y, hxy.symm⟩
  let e1 : (I → W) ≃ W × ({z // z ≠ x} → W) := Equiv.funSplitAt x W
  let e2 : ({z // z ≠ x} → W) ≃ W × ({z // z ≠ y'} → W) := Equiv.funSplitAt y' W
  let σ : (I → W) ≃ (W × W) × ({z // z ≠ y'} → W) := (e1.trans ((Equiv.refl W).prodCongr e2)).trans (Equiv.prodAssoc _ _ _).symm
  rw [← pr_fst (β := {z // z ≠ y'} → W) fun z : W × W => p z.1 z.2, ← pr_equiv σ]
  exact pr_congr fun ω => Iff.rfl

end RB
