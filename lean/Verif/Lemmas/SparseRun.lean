import Verif.Lemmas.Sparse
import Verif.Props.FisherYates
import Mathlib.Algebra.BigOperators.Ring.Finset
import Mathlib.Algebra.Order.BigOperators.Group.Finset

/-! # Consequences of the description of sparse operators -/

namespace RB
open Spec
variable {N : Nat} {K W R T V : Type}

/-! ## Lists of entries -/

theorem cooHolds_unique {v : Buf T} {r c : Buf Int} {E E' : List (Entry T)} (h : CooHolds v r c E) (h' : CooHolds v r c E')
    (hl : E.length = E'.length) : E = E' := by
  apply List.ext_getElem hl
  intro p h1 h2
  obtain ⟨a1, a2, a3⟩ := h p h1
  obtain ⟨b1, b2, b3⟩ := h' p h2
  rw [a1] at b1; rw [a2] at b2; rw [a3] at b3
  injection b1 with b1; injection b2 with b2; injection b3 with b3
  cases hE : E[p]; cases hE' : E'[p]
  rw [hE, hE'] at b1 b2 b3
  simp only at b1 b2 b3
  rw [b1, b2, b3]

theorem toMat_perm [AddCommMonoid T] {E E' : List (Entry T)} (h : E.Perm E') (i j : Int) : toMat E i j = toMat E' i j :=
  ((h.filter _).map _).sum_eq

theorem toMat_append [AddCommMonoid T] (E E' : List (Entry T)) (i j : Int) : toMat (E ++ E') i j = toMat E i j + toMat E' i j := by
  unfold toMat; rw [List.filter_append, List.map_append, List.sum_append]

theorem toMat_none [AddCommMonoid T] {E : List (Entry T)} {i j : Int} (h : ∀ e ∈ E, ¬ (e.row = i ∧ e.col = j)) : toMat E i j = 0 := by
  unfold toMat
  rw [List.filter_eq_nil_iff.mpr]
  · rfl
  · intro e he; simpa using h e he

/-! ## Merged vectors -/

theorem merged_mem_iff [Mul T] [NatCast T] {sqrt : T → T} {k : Int} {x : Int → Int} {s : Int → T} {o o' : List (Int × T)}
    (h : Merged sqrt k x s o) (h' : Merged sqrt k x s o') (e : Int × T) (he : e ∈ o) : e ∈ o' := by
  obtain ⟨t, t0, t1, t2, t3, t4⟩ := h.value e he
  have := h'.all t t0 t1
  rw [t2] at this
  obtain ⟨d, hd, hde⟩ := List.mem_map.mp this
  obtain ⟨u, u0, u1, u2, u3, u4⟩ := h'.value d hd
  rw [hde] at u2 u3 u4
  have htu : t = u := by
    rcases lt_trichotomy t u with g | g | g
    · exact absurd t2 (u3 t t0 g)
    · exact g
    · exact absurd u2 (t3 u u0 g)
  subst htu
  rw [← t4] at u4
  have : e = d := Prod.ext hde.symm u4.symm
  rw [this]; exact hd

theorem merged_perm [Mul T] [NatCast T] {sqrt : T → T} {k : Int} {x : Int → Int} {s : Int → T} {o o' : List (Int × T)}
    (h : Merged sqrt k x s o) (h' : Merged sqrt k x s o') : o.Perm o' :=
  (List.perm_ext_iff_of_nodup (List.Nodup.of_map _ h.nodup) (List.Nodup.of_map _ h'.nodup)).mpr
    fun e => ⟨merged_mem_iff h h' e, merged_mem_iff h' h e⟩

theorem sum_occurrences (x : Int → Int) (k : Int) (l : List Int) (hl : l.Nodup) (hall : ∀ t, 0 ≤ t → t < k → x t ∈ l) :
    (l.map fun a => occurrences x k a).sum = k.toNat := by
  have h1 : (l.map fun a => occurrences x k a).sum = ∑ a ∈ l.toFinset, occurrences x k a := by
    rw [List.sum_toFinset _ hl]
  rw [h1]
  unfold occurrences
  rw [← Finset.card_eq_sum_card_fiberwise (f := fun t : Nat => x t) (t := l.toFinset)]
  · simp
  · intro t ht
    simp only [Finset.coe_range, Set.mem_Iio] at ht
    simp only [Finset.mem_coe, List.mem_toFinset]
    exact hall t (by omega) (by omega)

/-- The squared Euclidean norm of a merged vector is the number of samples. -/
theorem merged_norm [CommRing T] {sqrt : T → T} {k : Int} {x : Int → Int} {s : Int → T} {o : List (Int × T)} (hk : 0 ≤ k)
    (hsq : ∀ n : Nat, sqrt n * sqrt n = n) (hs : ∀ t, s t = 1 ∨ s t = -1) (h : Merged sqrt k x s o) :
    (o.map fun e => e.2 * e.2).sum = (k : T) := by
  have h1 : (o.map fun e => e.2 * e.2) = o.map fun e => ((occurrences x k e.1 : Nat) : T) := by
    apply List.map_congr_left
    intro e he
    obtain ⟨t, -, -, -, -, t4⟩ := h.value e he
    rw [t4]
    have : s t * s t = 1 := by rcases hs t with g | g <;> rw [g] <;> ring
    calc sqrt (occurrences x k e.1) * s t * (sqrt (occurrences x k e.1) * s t)
        = (sqrt (occurrences x k e.1) * sqrt (occurrences x k e.1)) * (s t * s t) := by ring
      _ = _ := by rw [this, hsq, mul_one]
  rw [h1]
  have h2 := sum_occurrences x k (o.map Prod.fst) h.nodup h.all
  rw [List.map_map] at h2
  have h3 : (o.map fun e => ((occurrences x k e.1 : Nat) : T)).sum = (((o.map fun e => occurrences x k e.1).sum : Nat) : T) := by
    rw [Nat.cast_list_sum, List.map_map]; rfl
  rw [h3]
  have h4 : (o.map fun e => occurrences x k e.1).sum = k.toNat := h2
  rw [h4]
  have : ((k.toNat : Nat) : Int) = k := by omega
  rw [← Int.cast_natCast, this]

/-! ## Runs -/

theorem LasoRun.perm [Field R] [LinearOrder R] [FloorRing R] [Ring T] {G G' : Gen N K W R} {sqrt : T → T} {seed : RNGState N K} {n k : Int}
    {i : Nat} {E E' : List (Int × Int × T)} (h : LasoRun G sqrt seed n k i E) (h' : LasoRun G' sqrt seed n k i E')
    (hx : ∀ q t : Int, 0 ≤ q → q < i → 0 ≤ t → t < k → lasoIdx G seed n k q t = lasoIdx G' seed n k q t)
    (hs : ∀ q t : Int, 0 ≤ q → q < i → 0 ≤ t → t < k → (lasoSign G seed k q t : T) = lasoSign G' seed k q t) : E.Perm E' := by
  induction h generalizing E' with
  | zero => cases h'; exact List.Perm.nil
  | @succ i E out hr hm hl ih =>
    cases h' with
    | @succ _ F out' hr' hm' hl' =>
      refine List.Perm.append (ih hr' (fun q t a b => hx q t a (by push_cast; omega)) (fun q t a b => hs q t a (by push_cast; omega))) ?_
      apply List.Perm.map
      refine merged_perm hm ?_
      have hxi := fun t => hx i t (by omega) (by push_cast; omega)
      have hsi := fun t => hs i t (by omega) (by push_cast; omega)
      refine ⟨hm'.nodup, ?_, ?_⟩
      · intro e he
        obtain ⟨t, t0, t1, t2, t3, t4⟩ := hm'.value e he
        refine ⟨t, t0, t1, by rw [hxi t t0 t1]; exact t2, fun t' a b => by rw [hxi t' a (by omega)]; exact t3 t' a b, ?_⟩
        rw [t4, hsi t t0 t1]
        congr 2
        have : occurrences (lasoIdx G' seed n k i) k e.1 = occurrences (lasoIdx G seed n k i) k e.1 := by
          unfold occurrences
          congr 1
          apply Finset.filter_congr
          intro u hu
          rw [Finset.mem_range] at hu
          rw [hxi u (by omega) (by omega)]
        rw [this]
      · intro t t0 t1
        rw [hxi t t0 t1]; exact hm'.all t t0 t1

theorem sparseRun_perm [Field R] [LinearOrder R] [FloorRing R] [Ring T] {G : Gen N K W R} {sqrt : T → T} {D : SparseDist}
    {seed : RNGState N K} {E E' : List (Int × Int × T)} (h : SparseRun G sqrt D seed E) (h' : SparseRun G sqrt D seed E') : E.Perm E' := by
  rcases h with ⟨a, h⟩ | ⟨a, h⟩ <;> rcases h' with ⟨b, h'⟩ | ⟨b, h'⟩
  · rw [h, h']
  · rw [a] at b; cases b
  · rw [a] at b; cases b
  · exact h.perm h' (fun _ _ _ _ _ _ => rfl) (fun _ _ _ _ _ _ => rfl)

/-! ## Short-axis operators -/

theorem saso_mem [One T] [Neg T] {G : Gen N K W R} {seed : RNGState N K} {k n r : Int} {e : Int × Int × T} (hk : 0 < k) (hkn : k ≤ n)
    (he : e ∈ sasoTriples G seed k n r) : 0 ≤ e.1 ∧ e.1 < n ∧ 0 ≤ e.2.1 ∧ e.2.1 < r ∧ (e.2.2 = 1 ∨ e.2.2 = -1) := by
  obtain ⟨p, hp, rfl⟩ := List.mem_map.mp he
  rw [List.mem_range] at hp
  have h0 := Int.emod_nonneg (p : Int) (show k ≠ 0 by omega)
  have h1 := Int.emod_lt_of_pos (p : Int) hk
  have hd := Int.mul_ediv_add_emod (p : Int) k
  have hq0 : 0 ≤ (p : Int) / k := Int.ediv_nonneg (by omega) hk.le
  have hq1 : (p : Int) / k < r := Int.ediv_lt_of_lt_mul hk (by omega)
  have hb := fyIdx_block' (G := G) (state := seed) (n := n) (i := (p : Int) / k) h0 h1 hkn
  rw [show (p : Int) / k * k + (p : Int) % k = p by rw [mul_comm]; exact hd] at hb
  have hr := fyPerm_range (c := fyChoice G seed k ((p : Int) / k)) (j := k.toNat) (n := n) (by omega) h0 (by omega)
  simp only
  rw [hb]
  refine ⟨hr.1, hr.2, hq0, hq1, ?_⟩
  unfold fySign
  split_ifs
  · exact Or.inl rfl
  · exact Or.inr rfl

theorem saso_nodup [One T] [Neg T] {G : Gen N K W R} {seed : RNGState N K} {k n r : Int} (hk : 0 < k) (hkn : k ≤ n) :
    ((sasoTriples (T := T) G seed k n r).map fun e => (e.1, e.2.1)).Nodup := by
  unfold sasoTriples
  rw [List.map_map]
  apply List.Nodup.map_on _ List.nodup_range
  intro a ha b hb hab
  simp only [Function.comp, Prod.mk.injEq] at hab
  obtain ⟨h1, h2⟩ := hab
  have a0 := Int.emod_nonneg (a : Int) (show k ≠ 0 by omega)
  have a1 := Int.emod_lt_of_pos (a : Int) hk
  have ad := Int.mul_ediv_add_emod (a : Int) k
  have b0 := Int.emod_nonneg (b : Int) (show k ≠ 0 by omega)
  have b1 := Int.emod_lt_of_pos (b : Int) hk
  have bd := Int.mul_ediv_add_emod (b : Int) k
  have e1 := fyIdx_block' (G := G) (state := seed) (n := n) (i := (a : Int) / k) a0 a1 hkn
  have e2 := fyIdx_block' (G := G) (state := seed) (n := n) (i := (b : Int) / k) b0 b1 hkn
  rw [show (a : Int) / k * k + (a : Int) % k = a by rw [mul_comm]; exact ad] at e1
  rw [show (b : Int) / k * k + (b : Int) % k = b by rw [mul_comm]; exact bd] at e2
  rw [e1, e2, h2] at h1
  have := (fyPerm n (fyChoice G seed k ((b : Int) / k)) k.toNat).injective h1
  rw [h2, this] at ad
  omega

theorem saso_add [One T] [Neg T] {G : Gen N K W R} {seed : RNGState N K} {k n r s : Int} (hk : 0 ≤ k) (hr : 0 ≤ r) (hs : 0 ≤ s) :
    ∃ rest : List (Int × Int × T), sasoTriples G seed k n (r + s) = sasoTriples G seed k n r ++ rest ∧
      (∀ e ∈ rest, r ≤ e.2.1) ∧ (s = 1 → ∀ e ∈ rest, e.2.1 = r) ∧ rest.length = (s * k).toNat := by
  unfold sasoTriples
  have h1 := mul_nonneg hr hk
  have h2 := mul_nonneg hs hk
  rw [show ((r + s) * k).toNat = (r * k).toNat + (s * k).toNat by rw [add_mul]; omega, List.range_add, List.map_append]
  refine ⟨_, rfl, ?_, ?_, by simp⟩
  · intro e he
    obtain ⟨p, hp, rfl⟩ := List.mem_map.mp he
    obtain ⟨t, ht, rfl⟩ := List.mem_map.mp hp
    rw [List.mem_range] at ht
    have hk' : 0 < k := by
      rcases hk.lt_or_eq with h | h
      · exact h
      · rw [← h, mul_zero] at ht; simp at ht
    simp only
    rw [Int.le_ediv_iff_mul_le hk']
    push_cast; omega
  · intro hs1 e he
    subst hs1
    obtain ⟨p, hp, rfl⟩ := List.mem_map.mp he
    obtain ⟨t, ht, rfl⟩ := List.mem_map.mp hp
    rw [List.mem_range] at ht
    have := (div_block (i := r) (j := (t : Int)) (k := k) (by omega) (by omega)).1
    simp only
    rw [show (((r * k).toNat + t : Nat) : Int) = r * k + t by push_cast; omega]
    exact this

theorem saso_count [One T] [Neg T] {G : Gen N K W R} {seed : RNGState N K} {k n : Int} (hk : 0 < k) (hkn : k ≤ n) (r : Nat) (q : Int) (h0 : 0 ≤ q)
    (h1 : q < r) : (((sasoTriples (T := T) G seed k n r).filter fun e => e.2.1 = q).length : Int) = k := by
  induction r with
  | zero => omega
  | succ r ih =>
    obtain ⟨rest, e1, e2, e3, e4⟩ := saso_add (T := T) (G := G) (seed := seed) (n := n) hk.le (show (0 : Int) ≤ r by omega) (show (0 : Int) ≤ 1 by omega)
    have e3 := e3 rfl
    rw [show ((r + 1 : Nat) : Int) = (r : Int) + 1 by push_cast; rfl, e1, List.filter_append, List.length_append]
    by_cases hq : q < r
    · have := ih hq
      rw [(List.filter_eq_nil_iff (l := rest)).mpr]
      · simp only [List.length_nil, Nat.add_zero]; exact this
      · intro e he; have := e3 e he; simp only [decide_eq_true_eq]; omega
    · have hqr : q = r := by push_cast at h1; omega
      rw [(List.filter_eq_nil_iff (l := sasoTriples G seed k n r)).mpr, List.filter_eq_self.mpr, e4]
      · simp; omega
      · intro e he; have := e3 e he; simp only [decide_eq_true_eq]; omega
      · intro e he; have := saso_mem hk hkn he; simp only [decide_eq_true_eq]; omega

end RB
