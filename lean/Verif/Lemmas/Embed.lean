import Mathlib.Analysis.InnerProductSpace.PiL2
import Mathlib.Algebra.Order.Chebyshev
import Mathlib.Algebra.BigOperators.Field
import Verif.Lemmas.Moments

/-!
# From second moments for single vectors to a bound for all vectors of a subspace
-/

namespace RB
open Finset

/-- The polarisation of `q x = ‖P x‖² - ‖x‖²`. -/
def bform {d m : Nat} (P : Nat → Nat → ℝ) (x y : Nat → ℝ) : ℝ :=
  ∑ i ∈ range d, (∑ l ∈ range m, P i l * x l) * (∑ l ∈ range m, P i l * y l) - ∑ l ∈ range m, x l * y l

variable {d m : Nat}

theorem bform_diag (P : Nat → Nat → ℝ) (x : Nat → ℝ) :
    bform (d := d) (m := m) P x x = ∑ i ∈ range d, (∑ l ∈ range m, P i l * x l) ^ 2 - ∑ l ∈ range m, x l ^ 2 := by
  unfold bform; simp only [sq]

theorem bform_polar (P : Nat → Nat → ℝ) (x y : Nat → ℝ) :
    4 * bform (d := d) (m := m) P x y = bform (d := d) (m := m) P (fun l => x l + y l) (fun l => x l + y l) -
      bform (d := d) (m := m) P (fun l => x l - y l) (fun l => x l - y l) := by
  unfold bform
  simp only [mul_add, mul_sub, sum_add_distrib, sum_sub_distrib, add_mul, sub_mul]
  have : ∀ i, ∑ l ∈ range m, P i l * y l = ∑ l ∈ range m, P i l * y l := fun _ => rfl
  simp only [mul_comm (y _) (x _)]
  have e : ∀ i, (∑ l ∈ range m, P i l * y l) * ∑ l ∈ range m, P i l * x l = (∑ l ∈ range m, P i l * x l) * ∑ l ∈ range m, P i l * y l := fun i => mul_comm _ _
  simp only [e]
  ring

/-- The value at a combination of vectors. -/
theorem bform_comb (P : Nat → Nat → ℝ) {r : Nat} (u : Fin r → Nat → ℝ) (c : Fin r → ℝ) :
    bform (d := d) (m := m) P (fun l => ∑ k, c k * u k l) (fun l => ∑ k, c k * u k l) = ∑ k, ∑ k', c k * c k' * bform (d := d) (m := m) P (u k) (u k') := by
  have h1 : ∀ i, ∑ l ∈ range m, P i l * ∑ k, c k * u k l = ∑ k, c k * ∑ l ∈ range m, P i l * u k l := by
    intro i
    simp only [mul_sum]
    rw [sum_comm]
    exact sum_congr rfl fun k _ => sum_congr rfl fun l _ => by ring
  have h2 : ∀ f g : Fin r → ℝ, (∑ k, c k * f k) * (∑ k, c k * g k) = ∑ k, ∑ k', c k * c k' * (f k * g k') := by
    intro f g
    rw [sum_mul_sum]
    exact sum_congr rfl fun k _ => sum_congr rfl fun k' _ => by ring
  unfold bform
  simp only [h1, h2, mul_sub, sum_sub_distrib]
  congr 1
  · rw [sum_comm]
    refine sum_congr rfl fun k _ => ?_
    rw [sum_comm]
    exact sum_congr rfl fun k' _ => by rw [mul_sum]
  · rw [sum_comm]
    refine sum_congr rfl fun k _ => ?_
    rw [sum_comm]
    exact sum_congr rfl fun k' _ => by rw [mul_sum]

/-- An orthonormal basis of the space spanned by the columns of a matrix. -/
theorem exists_col_basis (m n : Nat) (A : Nat → Nat → ℝ) : ∃ r ≤ n, ∃ u : Fin r → Nat → ℝ,
    (∀ k k', ∑ l ∈ range m, u k l * u k' l = if k = k' then 1 else 0) ∧
    ∀ z : Nat → ℝ, ∃ c : Fin r → ℝ, ∀ l < m, ∑ j ∈ range n, A l j * z j = ∑ k, c k * u k l := by
  let a : Fin n → EuclideanSpace ℝ (Fin m) := fun j => WithLp.toLp 2 fun l => A l j
  let V := Submodule.span ℝ (Set.range a)
  let b := stdOrthonormalBasis ℝ V
  have hr : Module.finrank ℝ V ≤ n := by
    have := finrank_range_le_card (R := ℝ) a
    rw [Fintype.card_fin] at this
    exact this
  refine ⟨Module.finrank ℝ V, hr, fun k l => if h : l < m then (b k : EuclideanSpace ℝ (Fin m)) ⟨l, h⟩ else 0, ?_, ?_⟩
  · intro k k'
    have := b.orthonormal
    rw [orthonormal_iff_ite] at this
    have h := this k' k
    rw [Submodule.coe_inner, PiLp.inner_apply] at h
    rw [← Fin.sum_univ_eq_sum_range (fun l => (if h : l < m then (b k : EuclideanSpace ℝ (Fin m)) ⟨l, h⟩ else 0) * (if h : l < m then (b k' : EuclideanSpace ℝ (Fin m)) ⟨l, h⟩ else 0))]
    simp only [Fin.is_lt, dif_pos]
    simp only [RCLike.inner_apply, conj_trivial] at h
    rw [h]
    by_cases hk : k = k'
    · rw [if_pos hk, if_pos hk.symm]
    · rw [if_neg hk, if_neg fun h => hk h.symm]
  · intro z
    have hmem : (∑ j : Fin n, z j • a j) ∈ V := Submodule.sum_mem _ fun j _ => Submodule.smul_mem _ _ (Submodule.subset_span ⟨j, rfl⟩)
    refine ⟨fun k => b.repr ⟨_, hmem⟩ k, fun l hl => ?_⟩
    have h := b.sum_repr ⟨_, hmem⟩
    have h' := congrArg (fun v : V => (v : EuclideanSpace ℝ (Fin m)) ⟨l, hl⟩) h
    simp only [Submodule.coe_sum, Submodule.coe_smul, WithLp.ofLp_sum, Finset.sum_apply, WithLp.ofLp_smul, Pi.smul_apply, smul_eq_mul] at h'
    simp only [dif_pos hl]
    rw [h', ← Fin.sum_univ_eq_sum_range (fun j => A l j * z j)]
    exact sum_congr rfl fun j _ => by simp only [a]; ring

/-- If `‖P x‖²` has a mean squared deviation from `‖x‖²` of at most `V ‖x‖⁴` for every `x`, then `‖P A z‖²` differs from `‖A z‖²` by more than `ε ‖A z‖²` for some `z`
only for a fraction `n² V / ε²` of the cases. -/
theorem embed_le {Ω : Type} [Fintype Ω] [Nonempty Ω] (P : Ω → Nat → Nat → ℝ) {V : ℝ} (hV0 : 0 ≤ V)
    (hV : ∀ x : Nat → ℝ, (∑ ω, (∑ i ∈ range d, (∑ l ∈ range m, P ω i l * x l) ^ 2 - ∑ l ∈ range m, x l ^ 2) ^ 2) / Fintype.card Ω ≤ V * (∑ l ∈ range m, x l ^ 2) ^ 2)
    (n : Nat) (A : Nat → Nat → ℝ) {ε : ℝ} (hε : 0 < ε) (bad : Ω → Prop) [DecidablePred bad]
    (hbad : ∀ ω, bad ω → ∃ z : Nat → ℝ, ε * ∑ l ∈ range m, (∑ j ∈ range n, A l j * z j) ^ 2 <
      |∑ i ∈ range d, (∑ l ∈ range m, P ω i l * ∑ j ∈ range n, A l j * z j) ^ 2 - ∑ l ∈ range m, (∑ j ∈ range n, A l j * z j) ^ 2|) :
    ((univ.filter bad).card : ℝ) / Fintype.card Ω ≤ n ^ 2 * V / ε ^ 2 := by
  obtain ⟨r, hr, u, hu, hc⟩ := exists_col_basis m n A
  have hΩ : (0 : ℝ) < Fintype.card Ω := by exact_mod_cast Fintype.card_pos
  have hV' : ∀ x : Nat → ℝ, ∑ ω, bform (d := d) (m := m) (P ω) x x ^ 2 ≤ V * (∑ l ∈ range m, x l ^ 2) ^ 2 * Fintype.card Ω := by
    intro x
    have := hV x
    rw [div_le_iff₀ hΩ] at this
    simpa only [bform_diag] using this
  -- second moments of the entries of the Gram matrix
  have hpair : ∀ k k', ∑ ω, bform (d := d) (m := m) (P ω) (u k) (u k') ^ 2 ≤ V * Fintype.card Ω := by
    intro k k'
    by_cases h : k = k'
    · subst h
      have := hV' (u k)
      have h1 := hu k k
      rw [if_pos rfl] at h1
      simp only [← sq] at h1
      rw [h1] at this
      linarith
    · have hk := hu k k; have hk' := hu k' k'; have hkk := hu k k'
      rw [if_pos rfl] at hk hk'
      rw [if_neg h] at hkk
      have h1 := hV' fun l => u k l + u k' l
      have h2 := hV' fun l => u k l - u k' l
      have e1 : ∑ l ∈ range m, (u k l + u k' l) ^ 2 = 2 := by
        have : ∀ l, (u k l + u k' l) ^ 2 = u k l * u k l + 2 * (u k l * u k' l) + u k' l * u k' l := fun l => by ring
        simp only [this, sum_add_distrib, ← mul_sum]
        rw [hk, hk', hkk]; ring
      have e2 : ∑ l ∈ range m, (u k l - u k' l) ^ 2 = 2 := by
        have : ∀ l, (u k l - u k' l) ^ 2 = u k l * u k l - 2 * (u k l * u k' l) + u k' l * u k' l := fun l => by ring
        simp only [this, sum_add_distrib, sum_sub_distrib, ← mul_sum]
        rw [hk, hk', hkk]; ring
      rw [e1] at h1
      rw [e2] at h2
      have h3 : ∀ ω, 8 * bform (d := d) (m := m) (P ω) (u k) (u k') ^ 2 ≤ bform (d := d) (m := m) (P ω) (fun l => u k l + u k' l) (fun l => u k l + u k' l) ^ 2 +
          bform (d := d) (m := m) (P ω) (fun l => u k l - u k' l) (fun l => u k l - u k' l) ^ 2 := by
        intro ω
        have := bform_polar (d := d) (m := m) (P ω) (u k) (u k')
        generalize bform (d := d) (m := m) (P ω) (fun l => u k l + u k' l) (fun l => u k l + u k' l) = p at this ⊢
        generalize bform (d := d) (m := m) (P ω) (fun l => u k l - u k' l) (fun l => u k l - u k' l) = q at this ⊢
        generalize bform (d := d) (m := m) (P ω) (u k) (u k') = b at this ⊢
        have hb : b = (p - q) / 4 := by linarith
        subst hb
        nlinarith [sq_nonneg (p + q)]
      have h4 := sum_le_sum fun ω (_ : ω ∈ univ) => h3 ω
      rw [← mul_sum, sum_add_distrib] at h4
      linarith
  -- the squared Frobenius norm
  let F : Ω → ℝ := fun ω => ∑ k, ∑ k', bform (d := d) (m := m) (P ω) (u k) (u k') ^ 2
  have hF0 : ∀ ω, 0 ≤ F ω := fun ω => sum_nonneg fun _ _ => sum_nonneg fun _ _ => sq_nonneg _
  have hF : ∑ ω, F ω ≤ n ^ 2 * V * Fintype.card Ω := by
    simp only [F]
    rw [sum_comm]
    have : ∀ k ∈ (univ : Finset (Fin r)), ∑ ω, ∑ k', bform (d := d) (m := m) (P ω) (u k) (u k') ^ 2 ≤ r * (V * Fintype.card Ω) := by
      intro k _
      rw [sum_comm]
      refine (sum_le_sum fun k' _ => hpair k k').trans (le_of_eq ?_)
      rw [sum_const, card_univ, Fintype.card_fin, nsmul_eq_mul]
    refine (sum_le_sum this).trans ?_
    rw [sum_const, card_univ, Fintype.card_fin, nsmul_eq_mul]
    have hr' : (r : ℝ) ≤ n := by exact_mod_cast hr
    have : (r : ℝ) * r ≤ (n : ℝ) ^ 2 := by
      rw [sq]; exact mul_le_mul hr' hr' (Nat.cast_nonneg r) (Nat.cast_nonneg n)
    calc (r : ℝ) * (r * (V * Fintype.card Ω)) = (r * r) * (V * Fintype.card Ω) := by ring
      _ ≤ (n : ℝ) ^ 2 * (V * Fintype.card Ω) := mul_le_mul_of_nonneg_right this (by positivity)
      _ = _ := by ring
  -- in every bad case the Frobenius norm exceeds `ε`
  have hlarge : ∀ ω, bad ω → ε ^ 2 ≤ F ω := by
    intro ω hω
    obtain ⟨z, hz⟩ := hbad ω hω
    obtain ⟨c, hcz⟩ := hc z
    have s1 : ∑ l ∈ range m, (∑ j ∈ range n, A l j * z j) ^ 2 = ∑ l ∈ range m, (∑ k, c k * u k l) ^ 2 :=
      sum_congr rfl fun l hl => by rw [hcz l (mem_range.mp hl)]
    have s2 : ∀ i, ∑ l ∈ range m, P ω i l * ∑ j ∈ range n, A l j * z j = ∑ l ∈ range m, P ω i l * ∑ k, c k * u k l :=
      fun i => sum_congr rfl fun l hl => by rw [hcz l (mem_range.mp hl)]
    have s3 : ∑ l ∈ range m, (∑ k, c k * u k l) ^ 2 = ∑ k, c k ^ 2 := by
      simp only [sq, sum_mul_sum]
      rw [sum_comm]
      refine sum_congr rfl fun k _ => ?_
      rw [sum_comm]
      have : ∀ k', ∑ l ∈ range m, c k * u k l * (c k' * u k' l) = if k = k' then c k * c k' else 0 := by
        intro k'
        have := hu k k'
        calc ∑ l ∈ range m, c k * u k l * (c k' * u k' l) = c k * c k' * ∑ l ∈ range m, u k l * u k' l := by
              rw [mul_sum]; exact sum_congr rfl fun l _ => by ring
          _ = _ := by rw [this]; split_ifs <;> ring
      simp only [this]
      rw [sum_ite_eq univ k (fun k' => c k * c k'), if_pos (mem_univ k)]
    rw [s1] at hz
    simp only [s2] at hz
    rw [← bform_diag (d := d) (m := m) (P ω) (fun l => ∑ k, c k * u k l), bform_comb, s3] at hz
    -- Cauchy-Schwarz
    have hcs : (∑ k, ∑ k', c k * c k' * bform (d := d) (m := m) (P ω) (u k) (u k')) ^ 2 ≤ (∑ k, c k ^ 2) ^ 2 * F ω := by
      have := sum_mul_sq_le_sq_mul_sq (univ : Finset (Fin r × Fin r)) (fun p => c p.1 * c p.2) (fun p => bform (d := d) (m := m) (P ω) (u p.1) (u p.2))
      rw [Fintype.sum_prod_type, Fintype.sum_prod_type, Fintype.sum_prod_type] at this
      refine this.trans (le_of_eq ?_)
      congr 1
      simp only [mul_pow]
      rw [sq (∑ k, c k ^ 2), sum_mul_sum]
    have hn : 0 ≤ ∑ k, c k ^ 2 := sum_nonneg fun _ _ => sq_nonneg _
    have hz2 : (ε * ∑ k, c k ^ 2) ^ 2 < (∑ k, ∑ k', c k * c k' * bform (d := d) (m := m) (P ω) (u k) (u k')) ^ 2 := by
      rw [← sq_abs (∑ k, ∑ k', c k * c k' * bform (d := d) (m := m) (P ω) (u k) (u k'))]
      exact pow_lt_pow_left₀ hz (by positivity) two_ne_zero
    have h5 := hz2.trans_le hcs
    rw [mul_pow, mul_comm] at h5
    exact (lt_of_mul_lt_mul_left h5 (sq_nonneg _)).le
  have hcount : ((univ.filter bad).card : ℝ) * ε ^ 2 ≤ ∑ ω, F ω := by
    calc ((univ.filter bad).card : ℝ) * ε ^ 2 = ∑ _ω ∈ univ.filter bad, ε ^ 2 := by rw [sum_const, nsmul_eq_mul]
      _ ≤ ∑ ω ∈ univ.filter bad, F ω := sum_le_sum fun ω hω => hlarge ω (mem_filter.mp hω).2
      _ ≤ ∑ ω, F ω := sum_le_sum_of_subset_of_nonneg (filter_subset _ _) fun ω _ _ => hF0 ω
  rw [div_le_div_iff₀ hΩ (by positivity)]
  exact hcount.trans hF

end RB
