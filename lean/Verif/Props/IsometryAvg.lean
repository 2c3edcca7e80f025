import Verif.Props.Isometry
import Mathlib.Data.ZMod.Basic
import Mathlib.Algebra.BigOperators.Group.Finset.Basic
import Mathlib.Data.Fintype.BigOperators

/-!
# C59: sparse operators preserve squared norms on average

The average is over the signs; it holds for every choice of the positions of the nonzeros.
-/

namespace RB
open Spec Finset
variable {N : Nat} {K W R : Type}

/-- The generator that yields the same words as `G`, except for word number 1 of each counter: it is `even` for the counters in `σ`, and `odd` for the others. -/
def Spec.withSigns (G : Gen N K W R) (even odd : W) (σ : ZMod N → Bool) : Gen N K W R :=
  { G with word := fun c k i => if i = 1 then (if σ c then even else odd) else G.word c k i }

theorem sum_signs {ι : Type} [Fintype ι] [DecidableEq ι] (a b : ι) :
    ∑ σ : ι → Bool, (if σ a then (1 : ℝ) else -1) * (if σ b then 1 else -1) = if a = b then 2 ^ Fintype.card ι else 0 := by
  split_ifs with h
  · subst h
    have : ∀ σ : ι → Bool, (if σ a then (1 : ℝ) else -1) * (if σ a then 1 else -1) = 1 := fun σ => by cases σ a <;> simp
    simp only [this]
    simp
  · set flip : (ι → Bool) → (ι → Bool) := fun σ => Function.update σ a (!σ a) with hflip
    have hinv : Function.Involutive flip := by
      intro σ; funext c
      simp only [flip]
      by_cases hc : c = a
      · subst hc; simp
      · simp [hc]
    have e := Equiv.sum_comp (hinv.toPerm flip) fun σ : ι → Bool => (if σ a then (1 : ℝ) else -1) * (if σ b then 1 else -1)
    have hneg : ∀ σ : ι → Bool, (if (hinv.toPerm flip σ) a then (1 : ℝ) else -1) * (if (hinv.toPerm flip σ) b then 1 else -1) =
        -((if σ a then (1 : ℝ) else -1) * (if σ b then 1 else -1)) := by
      intro σ
      show (if (Function.update σ a (!σ a)) a then (1 : ℝ) else -1) * (if (Function.update σ a (!σ a)) b then 1 else -1) = _
      rw [Function.update_self, Function.update_of_ne (Ne.symm h)]
      cases σ a <;> cases σ b <;> simp
    simp only [hneg, sum_neg_distrib] at e
    linarith

theorem sum_tripMat (E : List (Int × Int × ℝ)) (i : Int) (x : Int → ℝ) (r : Nat) (h : ∀ e ∈ E, 0 ≤ e.2.1 ∧ e.2.1 < r) :
    ∑ q ∈ range r, tripMat E i q * x q = (E.map fun e => if e.1 = i then e.2.2 * x e.2.1 else 0).sum := by
  induction E with
  | nil => simp [tripMat]
  | cons e E ih =>
    have he := h e (by simp)
    rw [List.map_cons, List.sum_cons, ← ih fun e he => h e (by simp [he])]
    have : ∀ q : Nat, tripMat (e :: E) i q * x q = (if q = e.2.1.toNat then (if e.1 = i then e.2.2 * x e.2.1 else 0) else 0) + tripMat E i q * x q := by
      intro q
      unfold tripMat
      rw [List.filter_cons]
      by_cases hq : q = e.2.1.toNat
      · have hq' : (q : Int) = e.2.1 := by omega
        rw [if_pos hq]
        by_cases hi : e.1 = i
        · rw [if_pos hi, if_pos (by simp [hi, hq']), List.map_cons, List.sum_cons, hq']; ring
        · rw [if_neg hi, if_neg (by simp [hi]), zero_add]
      · rw [if_neg hq, if_neg (by simp; intro _; omega), zero_add]
    simp only [this, sum_add_distrib]
    congr 1
    rw [sum_ite_eq' (range r) _ (fun _ => if e.1 = i then e.2.2 * x e.2.1 else 0), if_pos (by rw [mem_range]; omega)]

theorem sum_blocks (k r : Nat) (f : Int → ℝ) : ∑ p ∈ range (r * k), f ((p : Int) / k) = k * ∑ q ∈ range r, f q := by
  induction r with
  | zero => simp
  | succ r ih =>
    rw [show (r + 1) * k = r * k + k by ring, sum_range_add, ih, sum_range_succ, mul_add]
    congr 1
    have : ∀ j ∈ range k, f (((r * k + j : Nat) : Int) / k) = f r := by
      intro j hj
      rw [mem_range] at hj
      congr 1
      have := (div_block (k := (k : Int)) (i := (r : Int)) (j := (j : Int)) (by omega) (by omega)).1
      push_cast; exact this
    rw [sum_congr rfl this]; simp

theorem fyIdx_withSigns {G : Gen N K W R} {even odd : W} {σ : ZMod N → Bool} {seed : RNGState N K} {k n p : Int} :
    fyIdx (withSigns G even odd σ) seed k n p = fyIdx G seed k n p := rfl

theorem fySign_withSigns {G : Gen N K W R} {even odd : W} {σ : ZMod N → Bool} {seed : RNGState N K} {p : Int} (he : G.nat even % 2 = 0)
    (ho : G.nat odd % 2 = 1) : (fySign (withSigns G even odd σ) seed p : ℝ) = if σ (seed.counter + (p : ZMod N)) then 1 else -1 := by
  unfold fySign withSigns
  simp only [if_true]
  cases σ (seed.counter + (p : ZMod N)) <;> simp [he, ho]

/-- The average over the signs of the squared norm of the product with a short-axis operator. -/
theorem saso_average [NeZero N] {G : Gen N K W R} {even odd : W} {seed : RNGState N K} {k n r : Nat} (he : G.nat even % 2 = 0)
    (ho : G.nat odd % 2 = 1) (hk : 0 < k) (hkn : k ≤ n) (hN : r * k ≤ N) (x : Int → ℝ) :
    ∑ σ : ZMod N → Bool, ∑ i ∈ range n, (∑ q ∈ range r, tripMat (sasoTriples (withSigns G even odd σ) seed k n r) i q * x q) ^ 2 =
      2 ^ N * (k * ∑ q ∈ range r, x q ^ 2) := by
  -- the product as a sum over the nonzeros
  let s : (ZMod N → Bool) → Nat → ℝ := fun σ p => if σ (seed.counter + ((p : Int) : ZMod N)) then 1 else -1
  let a : Nat → Int := fun p => fyIdx G seed k n p
  have hm : ((r : Int) * k).toNat = r * k := by rw [← Nat.cast_mul]; omega
  have ha : ∀ p, 0 ≤ a p ∧ a p < n := by
    intro p
    simp only [a, fyIdx]
    have h1 := Int.emod_nonneg (p : Int) (show (k : Int) ≠ 0 by omega)
    have h2 := Int.emod_lt_of_pos (p : Int) (show (0 : Int) < k by omega)
    exact fyPerm_range (by omega) h1 (by omega)
  have h1 : ∀ σ (i : Nat), ∑ q ∈ range r, tripMat (sasoTriples (T := ℝ) (withSigns G even odd σ) seed k n r) i q * x q =
      ∑ p ∈ range (r * k), if a p = i then s σ p * x ((p : Int) / k) else 0 := by
    intro σ i
    rw [sum_tripMat]
    · unfold sasoTriples
      rw [List.map_map, hm]
      show ((List.range (r * k)).map _).sum = ((List.range (r * k)).map _).sum
      congr 1
      refine List.map_congr_left fun p _ => ?_
      simp only [Function.comp, fyIdx_withSigns, fySign_withSigns he ho, a, s]
    · intro e hem
      unfold sasoTriples at hem
      rw [hm] at hem
      obtain ⟨p, hp, rfl⟩ := List.mem_map.mp hem
      rw [List.mem_range] at hp
      simp only
      refine ⟨Int.ediv_nonneg (by omega) (by omega), Int.ediv_lt_of_lt_mul (by omega) ?_⟩
      exact_mod_cast hp
  -- exchange the sums
  have h2 : ∀ σ, ∑ i ∈ range n, (∑ q ∈ range r, tripMat (sasoTriples (T := ℝ) (withSigns G even odd σ) seed k n r) i q * x q) ^ 2 =
      ∑ p ∈ range (r * k), ∑ p' ∈ range (r * k), if a p = a p' then (s σ p * s σ p') * (x ((p : Int) / k) * x ((p' : Int) / k)) else 0 := by
    intro σ
    simp only [h1, sq, sum_mul_sum]
    rw [sum_comm]
    refine sum_congr rfl fun p _ => ?_
    rw [sum_comm]
    refine sum_congr rfl fun p' _ => ?_
    have hp := ha p
    have : ∀ i : Nat, (if a p = i then s σ p * x ((p : Int) / k) else 0) * (if a p' = i then s σ p' * x ((p' : Int) / k) else 0) =
        if i = (a p).toNat then (if a p = a p' then (s σ p * s σ p') * (x ((p : Int) / k) * x ((p' : Int) / k)) else 0) else 0 := by
      intro i
      by_cases hi : i = (a p).toNat
      · have hi' : a p = i := by omega
        rw [if_pos hi, if_pos hi', hi']
        by_cases h' : a p' = i
        · rw [if_pos h', if_pos h'.symm]; ring
        · rw [if_neg h', if_neg (fun h => h' h.symm), mul_zero]
      · rw [if_neg hi, if_neg (by omega), zero_mul]
    simp only [this]
    rw [sum_ite_eq' (range n) _ (fun _ => _), if_pos (by rw [mem_range]; omega)]
  simp only [h2]
  rw [sum_comm]
  have h3 : ∀ p ∈ range (r * k), ∑ σ : ZMod N → Bool, ∑ p' ∈ range (r * k),
      (if a p = a p' then (s σ p * s σ p') * (x ((p : Int) / k) * x ((p' : Int) / k)) else 0) = 2 ^ N * x ((p : Int) / k) ^ 2 := by
    intro p hp
    rw [sum_comm]
    rw [mem_range] at hp
    have : ∀ p' ∈ range (r * k), ∑ σ : ZMod N → Bool, (if a p = a p' then (s σ p * s σ p') * (x ((p : Int) / k) * x ((p' : Int) / k)) else 0) =
        if p = p' then 2 ^ N * x ((p : Int) / k) ^ 2 else 0 := by
      intro p' hp'
      rw [mem_range] at hp'
      have hs := sum_signs (seed.counter + ((p : Int) : ZMod N)) (seed.counter + ((p' : Int) : ZMod N))
      by_cases hpp : p = p'
      · subst hpp
        rw [if_pos rfl, ZMod.card] at hs
        simp only [if_true]
        rw [← sum_mul, hs, sq]
      · rw [if_neg hpp]
        by_cases haa : a p = a p'
        · simp only [if_pos haa]
          rw [← sum_mul]
          rw [if_neg] at hs
          · show (∑ σ : ZMod N → Bool, s σ p * s σ p') * _ = 0
            rw [hs, zero_mul]
          · intro hc
            have hc' := add_left_cancel hc
            have hc2 : ((p : Nat) : ZMod N) = ((p' : Nat) : ZMod N) := by exact_mod_cast hc'
            rw [ZMod.natCast_eq_natCast_iff, Nat.ModEq, Nat.mod_eq_of_lt (by omega), Nat.mod_eq_of_lt (by omega)] at hc2
            exact hpp hc2
        · simp only [if_neg haa, sum_const_zero]
    rw [sum_congr rfl this, sum_ite_eq (range (r * k)) p (fun _ => _), if_pos (mem_range.mpr hp)]
  rw [sum_congr rfl h3, ← mul_sum, sum_blocks k r (fun q => x q ^ 2)]

/-- What filling a short-axis operator stores. -/
theorem fill_saso [Field R] [LinearOrder R] [FloorRing R] {G : Gen N K W R} {order : Int → List (Int × ℝ) → List (Int × ℝ)} {S : SparseSkOp N K ℝ}
    (hG : G.Ok) (hord : ∀ i l, (order i l).Perm l) (hS : SparseOpOk S) (hax : S.dist.majorAxis = .Short) :
    M.wp (fillSparse G Real.sqrt order) S (fun _ S' =>
      OpHolds S' ((sasoTriples G S.seedState S.dist.vecNnz S.dist.dimMajor S.dist.dimMinor).map (mkEntry S.dist))) := by
  refine M.wp_mono (fillSparse_spec hG Real.sqrt_one hord hS) ?_
  rintro - S' ⟨E, v, r, c, hrun, rfl, hh, hle, -⟩
  rcases hrun with ⟨-, rfl⟩ | ⟨a, -⟩
  · exact ⟨v, r, c, rfl, rfl, rfl, hh, by rw [List.length_map]⟩
  · rw [a] at hax; cases hax

theorem toMat_mkEntry_wide {D : SparseDist} (h : D.nRows ≤ D.nCols) (E : List (Int × Int × ℝ)) (i j : Int) :
    toMat (E.map (mkEntry D)) i j = tripMat E i j := by
  unfold toMat tripMat mkEntry
  simp only [if_pos h]
  rw [List.filter_map, List.map_map]; rfl

theorem toMat_mkEntry_tall {D : SparseDist} (h : D.nCols < D.nRows) (E : List (Int × Int × ℝ)) (i j : Int) :
    toMat (E.map (mkEntry D)) i j = tripMat E j i := by
  unfold toMat tripMat mkEntry
  simp only [if_neg (show ¬ D.nRows ≤ D.nCols by omega)]
  rw [List.filter_map, List.map_map]
  simp only [Function.comp_def, and_comm]

theorem scale_short {S : SparseDist} (hax : S.majorAxis = .Short) (hk : 0 < S.vecNnz) :
    S.isometryScale * S.isometryScale = 1 / (S.vecNnz : ℝ) := by
  unfold SparseDist.isometryScale isometryScale
  rw [if_pos hax]
  exact rpow_neg_half_sq (by exact_mod_cast hk)

/-- C59 (short axis, wide). A wide operator scaled by `isometry_scale` preserves squared norms on average over the signs, whatever the positions
of its nonzeros: `A σ` is the matrix that filling the operator produces when the sign words are chosen by `σ`, and the average over all `σ` of
`‖isometry_scale * A σ x‖²` is `‖x‖²`. -/
theorem C59_short_axis_wide [NeZero N] [Field R] [LinearOrder R] [FloorRing R] {G : Gen N K W R} {even odd : W}
    {order : Int → List (Int × ℝ) → List (Int × ℝ)} {S : SparseSkOp N K ℝ} (hG : G.Ok) (he : G.nat even % 2 = 0) (ho : G.nat odd % 2 = 1)
    (hord : ∀ i l, (order i l).Perm l) (hS : SparseOpOk S) (hax : S.dist.majorAxis = .Short) (hN : S.dist.fullNnz ≤ N)
    (hdim : S.nRows ≤ S.nCols) : ∃ A : (ZMod N → Bool) → Int → Int → ℝ,
    (∀ σ, M.wp (fillSparse (withSigns G even odd σ) Real.sqrt order) S (fun _ S' => ∃ E, OpHolds S' E ∧ toMat E = A σ)) ∧
    ∀ x : Int → ℝ, (∑ σ, ∑ i ∈ range S.nRows.toNat, (S.dist.isometryScale * ∑ j ∈ range S.nCols.toNat, A σ i j * x j) ^ 2) / 2 ^ N =
      ∑ j ∈ range S.nCols.toNat, x j ^ 2 := by
  obtain ⟨hR, hC, hk, hkd, hfull, hfit, hax'⟩ := sparseDist_facts hS.dist
  obtain ⟨hmaj, hmin⟩ : S.dist.dimMajor = min S.dist.nRows S.dist.nCols ∧ S.dist.dimMinor = max S.dist.nRows S.dist.nCols := by
    rcases hax' with ⟨a, b, c⟩ | ⟨a, b, c⟩
    · exact ⟨b, c⟩
    · rw [a] at hax; cases hax
  rw [hS.nRows, hS.nCols] at *
  obtain ⟨k, hk'⟩ : ∃ k : Nat, S.dist.vecNnz = k := ⟨S.dist.vecNnz.toNat, by omega⟩
  obtain ⟨n, hn⟩ : ∃ n : Nat, S.dist.nRows = n := ⟨S.dist.nRows.toNat, by omega⟩
  obtain ⟨r, hr⟩ : ∃ r : Nat, S.dist.nCols = r := ⟨S.dist.nCols.toNat, by omega⟩
  have hM : S.dist.dimMajor = n := by omega
  have hm : S.dist.dimMinor = r := by omega
  have hkr : r * k ≤ N := by
    rw [hfull, hk', hm, mul_comm] at hN; exact_mod_cast hN
  refine ⟨fun σ => tripMat (sasoTriples (withSigns G even odd σ) S.seedState S.dist.vecNnz S.dist.dimMajor S.dist.dimMinor), fun σ => ?_, fun x => ?_⟩
  · have hGσ : (withSigns G even odd σ).Ok := hG
    refine M.wp_mono (fill_saso hGσ hord hS hax) fun _ S' h => ⟨_, h, ?_⟩
    funext i j
    exact toMat_mkEntry_wide hdim _ i j
  · have key := saso_average (G := G) (seed := S.seedState) (k := k) (n := n) (r := r) he ho (by omega) (by omega) hkr x
    have hsc := scale_short hax hk
    rw [hk'] at hsc
    simp only [mul_pow, ← mul_sum, hk', hM, hm, hn, hr, Int.toNat_natCast]
    rw [key, sq, hsc]
    have : (k : ℝ) ≠ 0 := by have : 0 < k := by omega
                             positivity
    push_cast
    field_simp

/-- C59 (short axis, tall). The transposed statement for operators with more rows than columns. -/
theorem C59_short_axis_tall [NeZero N] [Field R] [LinearOrder R] [FloorRing R] {G : Gen N K W R} {even odd : W}
    {order : Int → List (Int × ℝ) → List (Int × ℝ)} {S : SparseSkOp N K ℝ} (hG : G.Ok) (he : G.nat even % 2 = 0) (ho : G.nat odd % 2 = 1)
    (hord : ∀ i l, (order i l).Perm l) (hS : SparseOpOk S) (hax : S.dist.majorAxis = .Short) (hN : S.dist.fullNnz ≤ N)
    (hdim : S.nCols < S.nRows) : ∃ A : (ZMod N → Bool) → Int → Int → ℝ,
    (∀ σ, M.wp (fillSparse (withSigns G even odd σ) Real.sqrt order) S (fun _ S' => ∃ E, OpHolds S' E ∧ toMat E = A σ)) ∧
    ∀ x : Int → ℝ, (∑ σ, ∑ j ∈ range S.nCols.toNat, (S.dist.isometryScale * ∑ i ∈ range S.nRows.toNat, A σ i j * x i) ^ 2) / 2 ^ N =
      ∑ i ∈ range S.nRows.toNat, x i ^ 2 := by
  obtain ⟨hR, hC, hk, hkd, hfull, hfit, hax'⟩ := sparseDist_facts hS.dist
  obtain ⟨hmaj, hmin⟩ : S.dist.dimMajor = min S.dist.nRows S.dist.nCols ∧ S.dist.dimMinor = max S.dist.nRows S.dist.nCols := by
    rcases hax' with ⟨a, b, c⟩ | ⟨a, b, c⟩
    · exact ⟨b, c⟩
    · rw [a] at hax; cases hax
  rw [hS.nRows, hS.nCols] at *
  obtain ⟨k, hk'⟩ : ∃ k : Nat, S.dist.vecNnz = k := ⟨S.dist.vecNnz.toNat, by omega⟩
  obtain ⟨n, hn⟩ : ∃ n : Nat, S.dist.nCols = n := ⟨S.dist.nCols.toNat, by omega⟩
  obtain ⟨r, hr⟩ : ∃ r : Nat, S.dist.nRows = r := ⟨S.dist.nRows.toNat, by omega⟩
  have hM : S.dist.dimMajor = n := by omega
  have hm : S.dist.dimMinor = r := by omega
  have hkr : r * k ≤ N := by
    rw [hfull, hk', hm, mul_comm] at hN; exact_mod_cast hN
  refine ⟨fun σ i j => tripMat (sasoTriples (withSigns G even odd σ) S.seedState S.dist.vecNnz S.dist.dimMajor S.dist.dimMinor) j i, fun σ => ?_,
    fun x => ?_⟩
  · have hGσ : (withSigns G even odd σ).Ok := hG
    refine M.wp_mono (fill_saso hGσ hord hS hax) fun _ S' h => ⟨_, h, ?_⟩
    funext i j
    exact toMat_mkEntry_tall hdim _ i j
  · have key := saso_average (G := G) (seed := S.seedState) (k := k) (n := n) (r := r) he ho (by omega) (by omega) hkr x
    have hsc := scale_short hax hk
    rw [hk'] at hsc
    simp only [mul_pow, ← mul_sum, hk', hM, hm, hn, hr, Int.toNat_natCast]
    rw [key, sq, hsc]
    have : (k : ℝ) ≠ 0 := by have : 0 < k := by omega
                             positivity
    push_cast
    field_simp

/-- A tall distribution: 8 x 3 with two nonzeros per row. -/
def exSasoTall : SparseDist := ⟨8, 3, .Short, 3, 8, 2, 16⟩

/-- The hypotheses are met by a 3 x 8 and an 8 x 3 operator with the example generator, whose words 0 and 1 are even and odd. -/
example : NeZero (2 ^ 128) ∧ exGenQ.Ok ∧ exGenQ.nat 0 % 2 = 0 ∧ exGenQ.nat 1 % 2 = 1 ∧
    SparseOpOk (mkSparseSkOp 4 exSaso ⟨0, 7⟩ : SparseSkOp (2 ^ 128) Nat ℝ) ∧ exSaso.majorAxis = .Short ∧ exSaso.fullNnz ≤ ((2 ^ 128 : Nat) : Int) ∧
    exSaso.nRows ≤ exSaso.nCols ∧
    SparseOpOk (mkSparseSkOp 4 exSasoTall ⟨0, 7⟩ : SparseSkOp (2 ^ 128) Nat ℝ) ∧ exSasoTall.majorAxis = .Short ∧
    exSasoTall.fullNnz ≤ ((2 ^ 128 : Nat) : Int) ∧ exSasoTall.nCols < exSasoTall.nRows :=
  ⟨inferInstance, Or.inr rfl, rfl, rfl, mkSparseSkOp_ok 4 exSaso_ok _, rfl, by decide, by decide,
    mkSparseSkOp_ok 4 (show SparseDistOk exSasoTall from ⟨by decide, by decide⟩) _, rfl, by decide, by decide⟩

end RB
