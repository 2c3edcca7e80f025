import Verif.Lemmas.FullRank
import Verif.Props.AxisLaw

/-! # The rank of a product with a matrix whose entries are made in pairs -/

namespace RB
open Spec Finset

section
variable {I W Key : Type} [Fintype I] [DecidableEq I] [Fintype W] [Nonempty W] [DecidableEq Key]

/-- A function that is affine in each of two variables. -/
theorem biaffine {g : ℝ → ℝ → ℝ} (hx : ∀ y, ∃ α β : ℝ, ∀ x, g x y = α + β * x) (hy : ∀ x, ∃ α β : ℝ, ∀ y, g x y = α + β * y) :
    ∃ a b c d : ℝ, ∀ x y, g x y = a + b * x + c * y + d * (x * y) := by
  obtain ⟨a0, b0, h0⟩ := hy 0
  obtain ⟨a1, b1, h1⟩ := hy 1
  refine ⟨a0, a1 - a0, b0, b1 - b0, fun x y => ?_⟩
  obtain ⟨α, β, h⟩ := hx y
  have e0 := h 0
  have e1 := h 1
  rw [h0 y] at e0
  rw [h1 y] at e1
  rw [h x]
  have : α = a0 + b0 * y := by linarith
  have h2 : β = a1 + b1 * y - (a0 + b0 * y) := by linarith
  rw [this, h2]
  ring

/-- A function of pairs of numbers, each of them made from words of its own, that is affine in each number, is rarely zero. -/
theorem pairs_nonzero {V : (I → W) → Key → ℝ × ℝ} {pos : Key → I → Prop} (hdep : ∀ κ ω ω', (∀ a, pos κ a → ω a = ω' a) → V ω κ = V ω' κ)
    (hdisj : ∀ κ κ' a, pos κ a → pos κ' a → κ = κ') {p : ℝ}
    (hs : ∀ κ (a b c d : ℝ), ¬ (a = 0 ∧ b = 0 ∧ c = 0 ∧ d = 0) → Pr (fun ω => a + b * (V ω κ).1 + c * (V ω κ).2 + d * ((V ω κ).1 * (V ω κ).2) = 0) ≤ p)
    (F : (Key → ℝ × ℝ) → ℝ) (h1 : ∀ v κ y, ∃ α β : ℝ, ∀ x, F (Function.update v κ (x, y)) = α + β * x)
    (h2 : ∀ v κ x, ∃ α β : ℝ, ∀ y, F (Function.update v κ (x, y)) = α + β * y) (S : Finset Key)
    (hex : ∀ ω, ∃ v, (∀ κ, κ ∉ S → v κ = V ω κ) ∧ F v ≠ 0) : Pr (fun ω => F (V ω) = 0) ≤ S.card * p := by
  classical
  have key : ∀ U : Finset Key, U ⊆ S → Pr (fun ω => ¬ ∃ v, (∀ κ, κ ∉ S \ U → v κ = V ω κ) ∧ F v ≠ 0) ≤ U.card * p := by
    intro U
    induction U using Finset.induction with
    | empty =>
      intro _
      rw [card_empty, Nat.cast_zero, zero_mul]
      refine le_of_eq ((pr_congr (q := fun _ => False) fun ω => ?_).trans (by rw [pr_eq]; simp))
      simp only [sdiff_empty, iff_false, not_not]
      exact hex ω
    | insert κ U hκ ih =>
      intro hU
      have hκS : κ ∈ S := hU (mem_insert_self _ _)
      rw [card_insert_of_notMem hκ]
      push_cast
      rw [add_mul, one_mul]
      have ih' := ih fun x hx => hU (mem_insert_of_mem hx)
      have hstep : Pr (fun ω => ¬ ∃ v, (∀ κ', κ' ∉ S \ insert κ U → v κ' = V ω κ') ∧ F v ≠ 0) ≤ Pr (fun ω => ¬ ∃ v, (∀ κ', κ' ∉ S \ U → v κ' = V ω κ') ∧ F v ≠ 0) +
          Pr (fun ω => (∃ v, (∀ κ', κ' ∉ S \ U → v κ' = V ω κ') ∧ F v ≠ 0) ∧ ¬ ∃ v, (∀ κ', κ' ∉ S \ insert κ U → v κ' = V ω κ') ∧ F v ≠ 0) := by
        refine pr_or_le fun ω hω => ?_
        by_cases hg : ∃ v, (∀ κ', κ' ∉ S \ U → v κ' = V ω κ') ∧ F v ≠ 0
        · exact Or.inr ⟨hg, hω⟩
        · exact Or.inl hg
      refine hstep.trans (add_le_add ih' ?_)
      clear hstep ih'
      refine pr_mix (pos κ) fun ω => ?_
      have hV : ∀ z κ', κ' ≠ κ → V (mixWords (pos κ) ω z) κ' = V ω κ' := fun z κ' hne =>
        hdep κ' _ _ fun a ha => mixWords_neg fun ha' => hne (hdisj κ' κ a ha ha')
      have hVκ : ∀ z, V (mixWords (pos κ) ω z) κ = V z κ := fun z => hdep κ _ _ fun a ha => mixWords_pos ha
      have hin : κ ∈ S \ U := mem_sdiff.mpr ⟨hκS, hκ⟩
      have hp0 : 0 ≤ p := (pr_nonneg _).trans (hs κ 1 0 0 0 (by simp))
      by_cases hg : ∃ v, (∀ κ, κ ∉ S \ U → v κ = V ω κ) ∧ F v ≠ 0
      · obtain ⟨v, hv, hFv⟩ := hg
        obtain ⟨a, b, c, d, hab⟩ := biaffine (g := fun x y => F (Function.update v κ (x, y))) (fun y => h1 v κ y) (fun x => h2 v κ x)
        refine le_trans (pr_mono fun z hz => ?_) (hs κ a b c d ?_)
        · by_contra hne
          refine hz.2 ⟨Function.update v κ (V z κ), fun κ' hκ' => ?_, ?_⟩
          · by_cases he : κ' = κ
            · subst he
              rw [Function.update_self, hVκ]
            · rw [Function.update_of_ne he, hV z κ' he]
              refine hv κ' fun hm => hκ' ?_
              rw [mem_sdiff, mem_insert] at *
              exact ⟨hm.1, fun h => h.elim he hm.2⟩
          · have := hab (V z κ).1 (V z κ).2
            rw [show V z κ = ((V z κ).1, (V z κ).2) from rfl, this]
            exact hne
        · rintro ⟨rfl, rfl, rfl, rfl⟩
          have := hab (v κ).1 (v κ).2
          rw [show ((v κ).1, (v κ).2) = v κ from rfl, Function.update_eq_self] at this
          exact hFv (by rw [this]; ring)
      · refine le_trans (le_of_eq ((pr_congr (q := fun _ => False) fun z => ?_).trans (by rw [pr_eq]; simp))) hp0
        simp only [iff_false, not_and_or]
        left
        rintro ⟨v, hv, hFv⟩
        refine hg ⟨v, fun κ' hκ' => ?_, hFv⟩
        rw [hv κ' hκ', hV z κ' fun h => hκ' (h ▸ hin)]
  refine le_trans (pr_mono fun ω hω => ?_) (key S subset_rfl)
  rintro ⟨v, hv, hFv⟩
  apply hFv
  rw [show v = V ω from funext fun κ => hv κ (by simp)]
  exact hω

end

/-! ## Determinants -/

/-- The determinant of `Om B` is affine in every entry of `Om`. -/
theorem det_affine {k m : Nat} (B : Matrix (Fin m) (Fin k) ℝ) (Om : Matrix (Fin k) (Fin m) ℝ) (i : Fin k) (j : Fin m) :
    ∃ α β : ℝ, ∀ x, ((Om.updateRow i (Function.update (Om i) j x)) * B).det = α + β * x := by
  have hrow : ∀ x, Function.update (Om i) j x = Function.update (Om i) j 0 + x • Pi.single j 1 := by
    intro x
    ext l
    by_cases h : l = j
    · subst h; simp
    · simp [h]
  refine ⟨((Om.updateRow i (Function.update (Om i) j 0)) * B).det, ((Om * B).updateRow i (Matrix.vecMul (Pi.single j 1) B)).det, fun x => ?_⟩
  rw [Matrix.updateRow_mul, Matrix.updateRow_mul, hrow x, Matrix.add_vecMul, Matrix.smul_vecMul, Matrix.det_updateRow_add, Matrix.det_updateRow_smul]
  ring

/-- Entries made in pairs: `Om i j` is a component of the pair `key (i, j)`. -/
def pairMat {Key : Type} {k m : Nat} (key : Fin k × Fin m → Key × Bool) (v : Key → ℝ × ℝ) : Matrix (Fin k) (Fin m) ℝ :=
  Matrix.of fun i j => if (key (i, j)).2 then (v (key (i, j)).1).2 else (v (key (i, j)).1).1

/-- A matrix `Om` with `Om B = 1` and given entries in the cells `fixed`, if `B` is the identity in the rows `J` and no such cell is fixed. -/
theorem exists_inverse {k m : Nat} (B : Matrix (Fin m) (Fin k) ℝ) (J : Fin k → Fin m) (hB : ∀ l l', B (J l') l = if l' = l then 1 else 0)
    (X : Matrix (Fin k) (Fin m) ℝ) : ∃ Om : Matrix (Fin k) (Fin m) ℝ, Om * B = 1 ∧ ∀ i j, (∀ l, J l ≠ j) → Om i j = X i j := by
  classical
  have hJ : Function.Injective J := by
    intro l l' h
    have h1 := hB l l
    rw [if_pos rfl] at h1
    have h2 := hB l l'
    rw [← h, h1] at h2
    by_contra hne
    rw [if_neg fun e => hne e.symm] at h2
    exact one_ne_zero h2
  -- the correction `Om = X + (1 - X B) Eᵀ`, with `E` the unit vectors of the rows `J`
  refine ⟨X + (1 - X * B) * Matrix.of fun (l : Fin k) (j : Fin m) => if J l = j then (1 : ℝ) else 0, ?_, fun i j hj => ?_⟩
  · have hE : (Matrix.of fun (l : Fin k) (j : Fin m) => if J l = j then (1 : ℝ) else 0) * B = 1 := by
      ext l l'
      rw [Matrix.mul_apply, Matrix.one_apply]
      simp [hB]
    rw [Matrix.add_mul, Matrix.mul_assoc, hE, Matrix.mul_one]
    abel
  · rw [Matrix.add_apply, Matrix.mul_apply]
    simp [hj]

section
variable {I W Key : Type} [Fintype I] [DecidableEq I] [Fintype W] [Nonempty W] [DecidableEq Key]

/-- The rows of `Om A` are independent, except with a small probability. -/
theorem pairs_rank {V : (I → W) → Key → ℝ × ℝ} {pos : Key → I → Prop} (hdep : ∀ κ ω ω', (∀ a, pos κ a → ω a = ω' a) → V ω κ = V ω' κ)
    (hdisj : ∀ κ κ' a, pos κ a → pos κ' a → κ = κ') {p : ℝ}
    (hs : ∀ κ (a b c d : ℝ), ¬ (a = 0 ∧ b = 0 ∧ c = 0 ∧ d = 0) → Pr (fun ω => a + b * (V ω κ).1 + c * (V ω κ).2 + d * ((V ω κ).1 * (V ω κ).2) = 0) ≤ p)
    {k m n : Nat} (key : Fin k × Fin m → Key × Bool) (hkey : Function.Injective key) (A : Matrix (Fin m) (Fin n) ℝ) (hA : k ≤ A.rank) (hp : 0 ≤ p) :
    Pr (fun ω => ¬ LinearIndependent ℝ (pairMat key (V ω) * A).row) ≤ (k : ℝ) ^ 2 * p := by
  classical
  obtain ⟨J0, x, hx⟩ := exists_pivots A
  let J : Fin k → Fin m := fun l => J0 (Fin.castLE hA l)
  let X : Matrix (Fin n) (Fin k) ℝ := Matrix.of fun j l => x (Fin.castLE hA l) j
  have hB : ∀ l l', (A * X) (J l') l = if l' = l then 1 else 0 := by
    intro l l'
    have := hx (Fin.castLE hA l) (Fin.castLE hA l')
    rw [show (if Fin.castLE hA l' = Fin.castLE hA l then (1 : ℝ) else 0) = if l' = l then 1 else 0 by simp] at this
    rw [← this]
    rfl
  let S : Finset Key := univ.image fun il : Fin k × Fin k => (key (il.1, J il.2)).1
  have hS : (S.card : ℝ) ≤ (k : ℝ) ^ 2 := by
    have h1 : S.card ≤ k * k := card_image_le.trans (by simp)
    have h2 : (S.card : ℝ) ≤ ((k * k : Nat) : ℝ) := by exact_mod_cast h1
    rw [sq]; push_cast at h2; exact h2
  have upd : ∀ (v : Key → ℝ × ℝ) κ (c : Bool) (z : ℝ → ℝ × ℝ), (∀ t, (if c then (z t).2 else (z t).1) = t) → (∀ t t', (if c then (z t).1 else (z t).2) = if c then (z t').1 else (z t').2) →
      ∃ α β : ℝ, ∀ t, (pairMat key (Function.update v κ (z t)) * (A * X)).det = α + β * t := by
    intro v κ c z hz hz'
    by_cases hc : ∃ ij, key ij = (κ, c)
    · obtain ⟨⟨i, j⟩, hij⟩ := hc
      obtain ⟨α, β, h⟩ := det_affine (A * X) (pairMat key (Function.update v κ (z 0))) i j
      refine ⟨α, β, fun t => ?_⟩
      rw [← h t]
      congr 2
      ext i' j'
      by_cases hi : i' = i
      · subst hi
        rw [Matrix.updateRow_self]
        by_cases hj : j' = j
        · subst hj
          rw [Function.update_self]
          simp only [pairMat, Matrix.of_apply, hij, Function.update_self]
          exact hz t
        · rw [Function.update_of_ne hj]
          simp only [pairMat, Matrix.of_apply]
          by_cases hk : (key (i', j')).1 = κ
          · have hk2 : (key (i', j')).2 ≠ c := fun e => hj (congrArg Prod.snd (hkey ((Prod.ext hk e).trans hij.symm)))
            rw [hk, Function.update_self, Function.update_self]
            have := hz' t 0
            cases c <;> simp_all
          · rw [Function.update_of_ne hk, Function.update_of_ne hk]
      · rw [Matrix.updateRow_ne hi]
        simp only [pairMat, Matrix.of_apply]
        by_cases hk : (key (i', j')).1 = κ
        · have hk2 : (key (i', j')).2 ≠ c := fun e => hi (congrArg Prod.fst (hkey ((Prod.ext hk e).trans hij.symm)))
          rw [hk, Function.update_self, Function.update_self]
          have := hz' t 0
          cases c <;> simp_all
        · rw [Function.update_of_ne hk, Function.update_of_ne hk]
    · refine ⟨(pairMat key (Function.update v κ (z 0)) * (A * X)).det, 0, fun t => ?_⟩
      rw [zero_mul, add_zero]
      congr 2
      ext i' j'
      simp only [pairMat, Matrix.of_apply]
      by_cases hk : (key (i', j')).1 = κ
      · have hk2 : (key (i', j')).2 ≠ c := fun e => hc ⟨(i', j'), Prod.ext hk e⟩
        rw [hk, Function.update_self, Function.update_self]
        have := hz' t 0
        cases c <;> simp_all
      · rw [Function.update_of_ne hk, Function.update_of_ne hk]
  refine le_trans (pr_mono fun ω hω => ?_) ((pairs_nonzero hdep hdisj hs (fun v => (pairMat key v * (A * X)).det)
    (fun v κ y => upd v κ false (fun x => (x, y)) (fun t => by simp) (fun t t' => by simp))
    (fun v κ x => upd v κ true (fun y => (x, y)) (fun t => by simp) (fun t t' => by simp)) S fun ω => ?_).trans (mul_le_mul_of_nonneg_right hS hp))
  · by_contra hdet
    apply hω
    have hu : IsUnit (pairMat key (V ω) * (A * X)) := (Matrix.isUnit_iff_isUnit_det _).mpr (isUnit_iff_ne_zero.mpr hdet)
    have hli := Matrix.linearIndependent_rows_of_isUnit hu
    rw [Fintype.linearIndependent_iff] at hli ⊢
    intro g hg
    refine hli g ?_
    have h1 : Matrix.vecMul g (pairMat key (V ω) * A) = 0 := by
      rw [← hg]
      ext j
      simp [Matrix.vecMul, dotProduct, Matrix.row]
    have h2 : Matrix.vecMul g (pairMat key (V ω) * (A * X)) = 0 := by
      rw [← Matrix.mul_assoc, ← Matrix.vecMul_vecMul, h1, Matrix.zero_vecMul]
    rw [← h2]
    ext j
    simp [Matrix.vecMul, dotProduct, Matrix.row]
  · obtain ⟨Om, h1, h2⟩ := exists_inverse (A * X) J hB (pairMat key fun κ => if κ ∈ S then 0 else V ω κ)
    refine ⟨fun κ => if κ ∈ S then (if h : ∃ ij, key ij = (κ, false) then Om h.choose.1 h.choose.2 else 0, if h : ∃ ij, key ij = (κ, true) then Om h.choose.1 h.choose.2 else 0) else V ω κ,
      fun κ hκ => if_neg hκ, ?_⟩
    have hOm : pairMat key (fun κ => if κ ∈ S then (if h : ∃ ij, key ij = (κ, false) then Om h.choose.1 h.choose.2 else 0,
        if h : ∃ ij, key ij = (κ, true) then Om h.choose.1 h.choose.2 else 0) else V ω κ) = Om := by
      ext i j
      simp only [pairMat, Matrix.of_apply]
      by_cases hm : (key (i, j)).1 ∈ S
      · rw [if_pos hm]
        cases hb : (key (i, j)).2 with
        | false =>
          have hex : ∃ ij, key ij = ((key (i, j)).1, false) := ⟨(i, j), Prod.ext rfl hb⟩
          have he : hex.choose = (i, j) := hkey (hex.choose_spec.trans (Prod.ext rfl hb.symm))
          simp only [Bool.false_eq_true, if_false, dif_pos hex, he]
        | true =>
          have hex : ∃ ij, key ij = ((key (i, j)).1, true) := ⟨(i, j), Prod.ext rfl hb⟩
          have he : hex.choose = (i, j) := hkey (hex.choose_spec.trans (Prod.ext rfl hb.symm))
          simp only [if_true, dif_pos hex, he]
      · rw [if_neg hm, h2 i j fun l hl => hm (mem_image.mpr ⟨(i, l), mem_univ _, by rw [hl]⟩)]
        simp only [pairMat, Matrix.of_apply, if_neg hm]
    rw [hOm, h1, Matrix.det_one]
    exact one_ne_zero

end

end RB
