import Verif.Model.TestSparseskop
import Verif.Props.FillDeterminism
import Verif.Props.TestConversions
import Verif.Props.Messages

/-!
# C130: the tests of sparse operators

The helper accepts an array exactly if the indices of each vector are distinct, and otherwise names the first duplicate. The tests accept the operators of the library: short-axis operators for all
sizes with d ≠ m, long-axis operators if the samples of each vector are distinct. For square operators with two or more nonzeros per vector the helper is applied to the wrong
array and rejects every correct operator.
-/

namespace RB
open Spec
variable {N : Nat} {K W R T : Type}

theorem distinctScan_spec {idx : Buf Int} {off : Int} {x : Int → Int} : ∀ (n : Nat) (j : Int) (s : List Int), 0 ≤ j → (∀ y, y ∈ s ↔ ∃ a, 0 ≤ a ∧ a < j ∧ x a = y) →
    (∀ b, j ≤ b → b < j + n → idx (off + b) = .val (x b)) →
    (∃ b, distinctScan idx off n j s = .ok (some b) ∧ j ≤ b ∧ b < j + n ∧ (∃ a, 0 ≤ a ∧ a < b ∧ x a = x b) ∧ ∀ b', j ≤ b' → b' < b → ∀ a, 0 ≤ a → a < b' → x a ≠ x b') ∨
    (distinctScan idx off n j s = .ok none ∧ ∀ b, j ≤ b → b < j + n → ∀ a, 0 ≤ a → a < b → x a ≠ x b)
  | 0, j, s, _, _, _ => Or.inr ⟨rfl, fun b h1 h2 => by simp at h2; omega⟩
  | n + 1, j, s, hj, hs, hx => by
    have hr := hx j le_rfl (by push_cast; omega)
    have e : distinctScan idx off (n + 1) j s = if x j ∈ s then .ok (some j) else distinctScan idx off n (j + 1) (x j :: s) := by
      rw [distinctScan, Buf.rd_val hr]
      rfl
    rw [e]
    by_cases hm : x j ∈ s
    · rw [if_pos hm]
      exact Or.inl ⟨j, rfl, le_rfl, by push_cast; omega, (hs _).mp hm, fun b' h1 h2 => by omega⟩
    · rw [if_neg hm]
      have hno : ∀ a, 0 ≤ a → a < j → x a ≠ x j := fun a a0 a1 q => hm ((hs _).mpr ⟨a, a0, a1, q⟩)
      have hs' : ∀ y, y ∈ x j :: s ↔ ∃ a, 0 ≤ a ∧ a < j + 1 ∧ x a = y := by
        intro y
        rw [List.mem_cons, hs]
        constructor
        · rintro (rfl | ⟨a, a0, a1, rfl⟩)
          · exact ⟨j, hj, by omega, rfl⟩
          · exact ⟨a, a0, by omega, rfl⟩
        · rintro ⟨a, a0, a1, rfl⟩
          rcases eq_or_ne a j with rfl | hne
          · exact Or.inl rfl
          · exact Or.inr ⟨a, a0, by omega, rfl⟩
      rcases distinctScan_spec n (j + 1) (x j :: s) (by omega) hs' (fun b h1 h2 => hx b (by omega) (by push_cast; omega)) with ⟨b, h1, h2, h3, h4, h5⟩ | ⟨h1, h2⟩
      · refine Or.inl ⟨b, h1, by omega, by push_cast; omega, h4, fun b' q1 q2 a a0 a1 => ?_⟩
        rcases eq_or_ne b' j with rfl | hne
        · exact hno a a0 a1
        · exact h5 b' (by omega) q2 a a0 a1
      · refine Or.inr ⟨h1, fun b q1 q2 a a0 a1 => ?_⟩
        rcases eq_or_ne b j with rfl | hne
        · exact hno a a0 a1
        · exact h2 b (by omega) (by push_cast at q2; omega) a a0 a1

/-- The indices of vector `i` (`k` of them, stored consecutively) are distinct. -/
def Spec.VecDistinct (x : Int → Int) (k i : Int) : Prop := ∀ a b, 0 ≤ a → a < b → b < k → x (k * i + a) ≠ x (k * i + b)

/-- C130 (helper). For an array with k indices for each of n vectors the helper reports nothing exactly if the indices of each vector are distinct. Otherwise it reports the first
vector with a duplicate and the position of its first duplicate. -/
theorem C130_helper {idx : Buf Int} {x : Int → Int} {n k : Int} (hk : 0 ≤ k) (hx : ∀ p, 0 ≤ p → p < n * k → idx p = .val (x p)) :
    (checkFixedNnz idx n k = .ok none ∧ ∀ i, 0 ≤ i → i < n → VecDistinct x k i) ∨
    ∃ i b, checkFixedNnz idx n k = .ok (some (i, b)) ∧ 0 ≤ i ∧ i < n ∧ 0 ≤ b ∧ b < k ∧ (∃ a, 0 ≤ a ∧ a < b ∧ x (k * i + a) = x (k * i + b)) ∧
      (∀ a b', 0 ≤ a → a < b' → b' < b → x (k * i + a) ≠ x (k * i + b')) ∧ ∀ i', 0 ≤ i' → i' < i → VecDistinct x k i' := by
  unfold checkFixedNnz
  have key := findI_search (lo := 0) (hi := n) (body := fun i => (do
      let r ← distinctScan idx (k * i) k.toNat 0 []
      pure (r.map fun j => (i, j)) : Res (Option (Int × Int))))
    (P := fun i r => r.1 = i ∧ 0 ≤ r.2 ∧ r.2 < k ∧ (∃ a, 0 ≤ a ∧ a < r.2 ∧ x (k * i + a) = x (k * i + r.2)) ∧
      ∀ a b', 0 ≤ a → a < b' → b' < r.2 → x (k * i + a) ≠ x (k * i + b')) (Q := VecDistinct x k) (fun i i0 i1 => by
      rcases distinctScan_spec (idx := idx) (off := k * i) (x := fun a => x (k * i + a)) k.toNat 0 [] le_rfl (fun y => by simp; intro a h1 h2; omega)
        (fun b b0 b1 => hx _ (by nlinarith) (by nlinarith [show b < k by omega])) with ⟨b, h1, h2, h3, h4, h5⟩ | ⟨h1, h2⟩
      · exact Or.inl ⟨(i, b), by rw [h1]; rfl, rfl, h2, by show b < k; omega, h4, fun a b' a0 a1 b1 => h5 b' (by omega) b1 a a0 a1⟩
      · exact Or.inr ⟨by rw [h1]; rfl, fun a b a0 a1 b1 => h2 b (by omega) (by omega) a a0 a1⟩)
  rcases key with ⟨i, ⟨i', b⟩, h1, h2, ⟨rfl, h3, h4, h5, h6⟩, h7, h8⟩ | ⟨h1, h2⟩
  · exact Or.inr ⟨i', b, h8, h1, h2, h3, h4, h5, h6, h7⟩
  · exact Or.inl ⟨h2, h1⟩

/-- The helper accepts exactly distinct indices. -/
theorem checkFixedNnz_accepts {idx : Buf Int} {x : Int → Int} {n k : Int} (hk : 0 ≤ k) (hx : ∀ p, 0 ≤ p → p < n * k → idx p = .val (x p)) :
    checkFixedNnz idx n k = .ok none ↔ ∀ i, 0 ≤ i → i < n → VecDistinct x k i := by
  rcases C130_helper hk hx with ⟨h1, h2⟩ | ⟨i, b, h1, i0, i1, b0, b1, ⟨a, a0, a1, e⟩, -⟩
  · exact ⟨fun _ => h2, fun _ => h1⟩
  · refine ⟨fun h => (by rw [h1] at h; cases h), fun h => absurd e (h i i0 i1 a b a0 a1 b1)⟩

/-- An array in which each vector has one index only is rejected at once if there are two or more per vector. -/
theorem checkFixedNnz_constant {idx : Buf Int} {n k : Int} (hk : 2 ≤ k) (hn : 0 < n) (hx : ∀ p, 0 ≤ p → p < n * k → idx p = .val (p / k)) : checkFixedNnz idx n k = .ok (some (0, 1)) := by
  have e0 : (0 : Int) / k = 0 := Int.zero_ediv k
  have e1 : (1 : Int) / k = 0 := Int.ediv_eq_zero_of_lt (by norm_num) (by omega)
  rcases C130_helper (x := fun p => p / k) (by omega) hx with ⟨h1, h2⟩ | ⟨i, b, h1, i0, i1, b0, b1, ⟨a, a0, a1, -⟩, h5, h6⟩
  · exact absurd (by simp [e1]) (h2 0 le_rfl hn 0 1 le_rfl (by norm_num) (by omega))
  · have hi : i = 0 := by
      by_contra hne
      exact absurd (by simp [e1]) (h6 0 le_rfl (by omega) 0 1 le_rfl (by norm_num) (by omega))
    subst hi
    have hb : b = 1 := by
      by_contra hne
      exact absurd (by simp [e1]) (h5 0 1 le_rfl (by norm_num) (by omega))
    subst hb
    exact h1

/-! ## Long-axis vectors with distinct samples -/

theorem mergedList_distinct [Semiring T] {sqrt : T → T} {order : List (Int × T) → List (Int × T)} {x : Int → Int} {s : Int → T} {k : Int} (hk : 0 ≤ k)
    (hd : ∀ a b, 0 ≤ a → a < b → b < k → x a ≠ x b) : mergedList sqrt order x s k = (List.range k.toNat).map fun t : Nat => (x t, s t) := by
  have hinv := mergeMaps_inv x s k.toNat
  have hlen := congrArg List.length hinv.keys
  simp only [List.length_map] at hlen
  have hnd : ((List.range k.toNat).map fun t : Nat => x t).Nodup := by
    refine List.Nodup.map_on ?_ List.nodup_range
    intro a ha b hb e
    rw [List.mem_range] at ha hb
    rcases lt_trichotomy a b with h | h | h
    · exact absurd e (hd a b (by omega) (by omega) (by omega))
    · exact h
    · exact absurd e.symm (hd b a (by omega) (by omega) (by omega))
  have hsub : ((List.range k.toNat).map fun t : Nat => x t) ⊆ (mergeMaps x s k.toNat).1.map Prod.fst := by
    intro y hy
    obtain ⟨t, ht, rfl⟩ := List.mem_map.mp hy
    rw [List.mem_range] at ht
    exact (hinv.mem _).mpr ⟨t, by omega, by omega, rfl⟩
  have hge := (hnd.subperm hsub).length_le
  simp only [List.length_map, List.length_range] at hge
  unfold mergedList
  rw [if_neg (by omega)]

theorem lasoList_distinct [Field R] [LinearOrder R] [FloorRing R] [Ring T] {G : Gen N K W R} {sqrt : T → T} {order : Int → List (Int × T) → List (Int × T)} {seed : RNGState N K} {n k : Int} (hk : 0 < k) :
    ∀ r : Nat, (∀ i a b, 0 ≤ i → i < (r : Int) → 0 ≤ a → a < b → b < k → lasoIdx G seed n k i a ≠ lasoIdx G seed n k i b) →
    lasoList G sqrt order seed n k r = (List.range (r * k.toNat)).map fun p : Nat => ((p : Int) / k, lasoIdx G seed n k ((p : Int) / k) ((p : Int) % k), lasoSign G seed k ((p : Int) / k) ((p : Int) % k))
  | 0, _ => by simp [lasoList]
  | r + 1, h => by
    rw [lasoList, lasoList_distinct hk r (fun i a b i0 i1 => h i a b i0 (by push_cast; omega)), mergedList_distinct hk.le (fun a b => h r a b (by omega) (by push_cast; omega)),
      Nat.succ_mul, List.range_add, List.map_append, List.map_map, List.map_map]
    congr 1
    refine List.map_congr_left fun t ht => ?_
    rw [List.mem_range] at ht
    have e : ((r * k.toNat + t : Nat) : Int) = (t : Int) + k * r := by
      push_cast; rw [Int.toNat_of_nonneg hk.le]; ring
    have e1 : ((r * k.toNat + t : Nat) : Int) / k = r := by
      rw [e, Int.add_mul_ediv_left _ _ (by omega), Int.ediv_eq_zero_of_lt (by omega) (by omega), zero_add]
    have e2 : ((r * k.toNat + t : Nat) : Int) % k = t := by
      rw [e, Int.add_mul_emod_self_left, Int.emod_eq_of_lt (by omega) (by omega)]
    simp only [Function.comp, e1, e2]

section
variable [Field R] [LinearOrder R] [FloorRing R] [Ring T]

theorem dist_fields {d m k : Int} {axis : Axis} {D : SparseDist} (hD : mkSparseDist d m k axis = .ok D) : D.nRows = d ∧ D.nCols = m ∧ D.majorAxis = axis ∧ D.vecNnz = k := by
  unfold mkSparseDist at hD
  have h1 : d > 0 := by by_contra hc; simp [hc] at hD
  have h2 : m > 0 := by by_contra hc; simp [h1, hc] at hD
  have h3 : k > 0 := by by_contra hc; simp [h1, h2, hc] at hD
  have h4 : k ≤ (if axis = .Short then min d m else max d m) := by by_contra hc; simp [h1, h2, h3, hc] at hD
  simp [h1, h2, h3, h4] at hD
  subst hD
  exact ⟨rfl, rfl, rfl, rfl⟩

omit [Ring T] in
/-- The two index arrays of a filled operator with the triples (a p, b p, _). -/
theorem filled_arrays {D : SparseDist} {n : Nat} {v : Buf T} {r c : Buf Int} {f : Nat → Int × Int × T} (h : CooHolds v r c (((List.range n).map f).map (mkEntry D))) (p : Int) (p0 : 0 ≤ p) (p1 : p < n) :
    (D.nRows ≤ D.nCols → r p = .val (f p.toNat).1 ∧ c p = .val (f p.toNat).2.1) ∧ (¬ D.nRows ≤ D.nCols → r p = .val (f p.toNat).2.1 ∧ c p = .val (f p.toNat).1) := by
  obtain ⟨q, rfl⟩ := Int.eq_ofNat_of_zero_le p0
  have := h q (by simp; omega)
  simp only [List.getElem_map, List.getElem_range, mkEntry] at this
  rw [Int.toNat_natCast]
  constructor
  · intro hw; simp only [if_pos hw] at this; exact this.2
  · intro hw; simp only [if_neg hw] at this; exact this.2

/-- C130 (short axis). `proper_saso_construction` accepts the operators of the library for all seeds, dimensions d ≠ m and numbers of nonzeros, and for one nonzero per vector also if d = m.

Missing: square operators with more nonzeros per vector, for which the test is wrong (`C130_saso_square`). -/
theorem C130_saso_test_partial {G : Gen N K W R} {sqrt : T → T} {order : Int → List (Int × T) → List (Int × T)} {d m k : Int} {seed : RNGState N K} {D : SparseDist} (hG : G.Ok) (hsqrt : sqrt 1 = 1)
    (hord : ∀ i l, (order i l).Perm l) (hD : mkSparseDist d m k .Short = .ok D) (hfit : 2 * D.fullNnz ≤ intMax 64) (hne : d ≠ m ∨ k = 1) :
    M.wp (testSaso G sqrt order d m k seed) () (fun r _ => r = none) := by
  obtain ⟨f1, f2, f3, f4⟩ := dist_fields hD
  have hDo : SparseDistOk D := ⟨by rw [f1, f2, f3, f4]; exact hD, hfit⟩
  obtain ⟨hR, hC, hk, hkd, hfull, -, hax⟩ := sparseDist_facts hDo
  have hm : D.dimMinor = max d m := by
    rcases hax with ⟨-, -, h⟩ | ⟨h, -⟩
    · rw [h, f1, f2]
    · rw [f3] at h; cases h
  unfold testSaso
  rw [M.wp_bind, M.wp_lift]
  refine ⟨_, hD, ?_⟩
  rw [M.wp_bind, M.wp_onLocal]
  refine M.wp_mono (fillSparse_list hG hsqrt hord (mkSparseSkOp_ok (T := T) G.len hDo seed)) ?_
  rintro - S' ⟨v, r, c, -, rfl, hh, -⟩
  rw [show (mkSparseSkOp G.len D seed : SparseSkOp N K T).dist = D from rfl, show (mkSparseSkOp G.len D seed : SparseSkOp N K T).seedState = seed from rfl, fillList, if_pos f3, sasoTriples] at hh
  have hA := filled_arrays hh
  have hcast : (((D.dimMinor * D.vecNnz).toNat : Nat) : Int) = D.dimMinor * D.vecNnz := Int.toNat_of_nonneg (mul_nonneg (by omega) hk.le)
  rw [hcast] at hA
  rw [M.wp_lift]
  refine ⟨_, ?_, rfl⟩
  have hdis : ∀ i, 0 ≤ i → i < D.dimMinor → VecDistinct (fun p => fyIdx G seed D.vecNnz D.dimMajor p) D.vecNnz i := by
    intro i i0 i1 a b a0 ab bk e
    have hnd := saso_nodup (T := T) (G := G) (seed := seed) (r := D.dimMinor) hk hkd
    rw [sasoTriples, List.map_map] at hnd
    have l1 : D.vecNnz * i + b < D.dimMinor * D.vecNnz := by nlinarith
    have l0 : 0 ≤ D.vecNnz * i := mul_nonneg hk.le i0
    have hinj := List.inj_on_of_nodup_map hnd (x := (D.vecNnz * i + a).toNat) (y := (D.vecNnz * i + b).toNat) (by rw [List.mem_range]; omega) (by rw [List.mem_range]; omega)
    have c1 : (((D.vecNnz * i + a).toNat : Nat) : Int) = D.vecNnz * i + a := by omega
    have c2 : (((D.vecNnz * i + b).toNat : Nat) : Int) = D.vecNnz * i + b := by omega
    have := hinj (by
      simp only [Function.comp]
      rw [c1, c2]
      refine Prod.ext e ?_
      show (D.vecNnz * i + a) / D.vecNnz = (D.vecNnz * i + b) / D.vecNnz
      rw [Int.mul_add_ediv_left _ _ (by omega), Int.mul_add_ediv_left _ _ (by omega), Int.ediv_eq_zero_of_lt a0 (by omega), Int.ediv_eq_zero_of_lt (by omega) bk])
    omega
  have one : k = 1 → ∀ (x : Int → Int) (i : Int), VecDistinct x D.vecNnz i := fun q x i a b a0 ab bk => by omega
  by_cases hlt : d < m
  · rw [if_pos hlt]
    unfold checkPerCol
    refine (checkFixedNnz_accepts (x := fun p => fyIdx G seed D.vecNnz D.dimMajor p) hk.le fun p p0 p1 => ?_).mpr fun i i0 i1 => hdis i i0 ?_
    · have := ((hA p p0 (lt_of_lt_of_eq p1 (by show D.nCols * D.vecNnz = _; rw [hm, f2, max_eq_right hlt.le]))).1 (by omega)).1
      rw [show ((p.toNat : Nat) : Int) = p by omega] at this
      exact this
    · have : i < D.nCols := i1
      omega
  · rw [if_neg hlt]
    unfold checkPerRow
    have hbound : ∀ p, p < D.nRows * D.vecNnz → p < D.dimMinor * D.vecNnz := fun p hp => lt_of_lt_of_eq hp (by rw [hm, f1, max_eq_left (by omega)])
    by_cases heq : d = m
    · have hk1 := hne.resolve_left (fun q => q heq)
      refine (checkFixedNnz_accepts (x := fun p => p / D.vecNnz) hk.le fun p p0 p1 => ?_).mpr fun i i0 i1 => one hk1 _ i
      have := ((hA p p0 (hbound p p1)).1 (by omega)).2
      rw [show ((p.toNat : Nat) : Int) = p by omega] at this
      exact this
    · refine (checkFixedNnz_accepts (x := fun p => fyIdx G seed D.vecNnz D.dimMajor p) hk.le fun p p0 p1 => ?_).mpr fun i i0 i1 => hdis i i0 ?_
      · have := ((hA p p0 (hbound p p1)).2 (by omega)).2
        rw [show ((p.toNat : Nat) : Int) = p by omega] at this
        exact this
      · have : i < D.nRows := i1
        omega

/-- C130 (square). If d = m and there are two or more nonzeros per vector, `proper_saso_construction` rejects the operator of the library for every seed: it looks for duplicates among the
column indices of one column. -/
theorem C130_saso_square {G : Gen N K W R} {sqrt : T → T} {order : Int → List (Int × T) → List (Int × T)} {d k : Int} {seed : RNGState N K} {D : SparseDist} (hG : G.Ok) (hsqrt : sqrt 1 = 1)
    (hord : ∀ i l, (order i l).Perm l) (hD : mkSparseDist d d k .Short = .ok D) (hfit : 2 * D.fullNnz ≤ intMax 64) (hk2 : 2 ≤ k) :
    M.wp (testSaso G sqrt order d d k seed) () (fun r _ => r = some (0, 1)) := by
  obtain ⟨f1, f2, f3, f4⟩ := dist_fields hD
  have hDo : SparseDistOk D := ⟨by rw [f1, f2, f3, f4]; exact hD, hfit⟩
  obtain ⟨hR, hC, hk, hkd, hfull, -, hax⟩ := sparseDist_facts hDo
  have hm : D.dimMinor = d := by
    rcases hax with ⟨-, -, h⟩ | ⟨h, -⟩
    · rw [h, f1, f2, max_self]
    · rw [f3] at h; cases h
  unfold testSaso
  rw [M.wp_bind, M.wp_lift]
  refine ⟨_, hD, ?_⟩
  rw [M.wp_bind, M.wp_onLocal]
  refine M.wp_mono (fillSparse_list hG hsqrt hord (mkSparseSkOp_ok (T := T) G.len hDo seed)) ?_
  rintro - S' ⟨v, r, c, -, rfl, hh, -⟩
  rw [show (mkSparseSkOp G.len D seed : SparseSkOp N K T).dist = D from rfl, show (mkSparseSkOp G.len D seed : SparseSkOp N K T).seedState = seed from rfl, fillList, if_pos f3, sasoTriples] at hh
  have hA := filled_arrays hh
  have hcast : (((D.dimMinor * D.vecNnz).toNat : Nat) : Int) = D.dimMinor * D.vecNnz := Int.toNat_of_nonneg (mul_nonneg (by omega) hk.le)
  rw [hcast] at hA
  rw [M.wp_lift, if_neg (lt_irrefl _)]
  refine ⟨_, ?_, rfl⟩
  unfold checkPerRow
  refine checkFixedNnz_constant (by show 2 ≤ D.vecNnz; omega) hR fun p p0 p1 => ?_
  have := ((hA p p0 (lt_of_lt_of_eq p1 (by show D.nRows * D.vecNnz = _; rw [hm, f1]))).1 (by omega)).2
  rw [show ((p.toNat : Nat) : Int) = p by omega] at this
  exact this

/-- C130 (long axis). `proper_laso_construction` accepts the operators of the library for all d ≠ m if the samples of each long-axis vector are distinct, and always if there is one nonzero per
vector.

Missing: vectors with repeated samples, whose merged triples are not at the positions that the helper reads, and square operators with more nonzeros (`C130_laso_square`). -/
theorem C130_laso_test_partial {G : Gen N K W R} {sqrt : T → T} {order : Int → List (Int × T) → List (Int × T)} {d m k : Int} {seed : RNGState N K} {D : SparseDist} (hG : G.Ok) (hsqrt : sqrt 1 = 1)
    (hord : ∀ i l, (order i l).Perm l) (hD : mkSparseDist d m k .Long = .ok D) (hfit : 2 * D.fullNnz ≤ intMax 64) (hne : d ≠ m ∨ k = 1)
    (hdist : ∀ i a b, 0 ≤ i → i < min d m → 0 ≤ a → a < b → b < k → lasoIdx G seed (max d m) k i a ≠ lasoIdx G seed (max d m) k i b) :
    M.wp (testLaso G sqrt order d m k seed) () (fun r _ => r = none) := by
  obtain ⟨f1, f2, f3, f4⟩ := dist_fields hD
  have hDo : SparseDistOk D := ⟨by rw [f1, f2, f3, f4]; exact hD, hfit⟩
  obtain ⟨hR, hC, hk, hkd, hfull, -, hax⟩ := sparseDist_facts hDo
  obtain ⟨hmaj, hm⟩ : D.dimMajor = max d m ∧ D.dimMinor = min d m := by
    rcases hax with ⟨h, -⟩ | ⟨-, h, h'⟩
    · rw [f3] at h; cases h
    · rw [h, h', f1, f2]; exact ⟨rfl, rfl⟩
  unfold testLaso
  rw [M.wp_bind, M.wp_lift]
  refine ⟨_, hD, ?_⟩
  rw [M.wp_bind, M.wp_onLocal]
  refine M.wp_mono (fillSparse_list hG hsqrt hord (mkSparseSkOp_ok (T := T) G.len hDo seed)) ?_
  rintro - S' ⟨v, r, c, -, rfl, hh, -⟩
  have hdist' : ∀ i a b, 0 ≤ i → i < ((D.dimMinor.toNat : Nat) : Int) → 0 ≤ a → a < b → b < D.vecNnz → lasoIdx G seed D.dimMajor D.vecNnz i a ≠ lasoIdx G seed D.dimMajor D.vecNnz i b := by
    rw [hmaj, f4]
    exact fun i a b i0 i1 => hdist i a b i0 (by omega)
  rw [show (mkSparseSkOp G.len D seed : SparseSkOp N K T).dist = D from rfl, show (mkSparseSkOp G.len D seed : SparseSkOp N K T).seedState = seed from rfl, fillList,
    if_neg (by rw [f3]; decide), lasoList_distinct hk _ hdist'] at hh
  have hA := filled_arrays hh
  have hcast : ((D.dimMinor.toNat * D.vecNnz.toNat : Nat) : Int) = D.dimMinor * D.vecNnz := by
    push_cast; rw [Int.toNat_of_nonneg hk.le, Int.toNat_of_nonneg (by omega)]
  rw [hcast] at hA
  rw [M.wp_lift]
  refine ⟨_, ?_, rfl⟩
  have hdis : ∀ i, 0 ≤ i → i < D.dimMinor → VecDistinct (fun p => lasoIdx G seed D.dimMajor D.vecNnz (p / D.vecNnz) (p % D.vecNnz)) D.vecNnz i := by
    intro i i0 i1 a b a0 ab bk
    have q : ∀ t, 0 ≤ t → t < D.vecNnz → (D.vecNnz * i + t) / D.vecNnz = i ∧ (D.vecNnz * i + t) % D.vecNnz = t := fun t t0 t1 => by
      rw [Int.mul_add_ediv_left _ _ (by omega), Int.ediv_eq_zero_of_lt t0 t1, add_zero, Int.mul_add_emod_self_left, Int.emod_eq_of_lt t0 t1]
      exact ⟨rfl, rfl⟩
    simp only [(q a a0 (by omega)).1, (q a a0 (by omega)).2, (q b (by omega) bk).1, (q b (by omega) bk).2]
    exact hdist' i a b i0 (by omega) a0 ab bk
  have one : k = 1 → ∀ (x : Int → Int) (i : Int), VecDistinct x D.vecNnz i := fun q x i a b a0 ab bk => by omega
  by_cases hlt : d < m
  · rw [if_pos hlt]
    unfold checkPerRow
    refine (checkFixedNnz_accepts (x := fun p => lasoIdx G seed D.dimMajor D.vecNnz (p / D.vecNnz) (p % D.vecNnz)) hk.le fun p p0 p1 => ?_).mpr fun i i0 i1 => hdis i i0 ?_
    · have := ((hA p p0 (lt_of_lt_of_eq p1 (by show D.nRows * D.vecNnz = _; rw [hm, f1, min_eq_left hlt.le]))).1 (by omega)).2
      rw [show ((p.toNat : Nat) : Int) = p by omega] at this
      exact this
    · have : i < D.nRows := i1
      omega
  · rw [if_neg hlt]
    unfold checkPerCol
    have hbound : ∀ p, p < D.nCols * D.vecNnz → p < D.dimMinor * D.vecNnz := fun p hp => lt_of_lt_of_eq hp (by rw [hm, f2, min_eq_right (by omega)])
    by_cases heq : d = m
    · have hk1 := hne.resolve_left (fun q => q heq)
      refine (checkFixedNnz_accepts (x := fun p => p / D.vecNnz) hk.le fun p p0 p1 => ?_).mpr fun i i0 i1 => one hk1 _ i
      have := ((hA p p0 (hbound p p1)).1 (by omega)).1
      rw [show ((p.toNat : Nat) : Int) = p by omega] at this
      exact this
    · refine (checkFixedNnz_accepts (x := fun p => lasoIdx G seed D.dimMajor D.vecNnz (p / D.vecNnz) (p % D.vecNnz)) hk.le fun p p0 p1 => ?_).mpr fun i i0 i1 => hdis i i0 ?_
      · have := ((hA p p0 (hbound p p1)).2 (by omega)).1
        rw [show ((p.toNat : Nat) : Int) = p by omega] at this
        exact this
      · have : i < D.nCols := i1
        omega

/-- C130 (one nonzero). With one nonzero per long-axis vector the test accepts the operators of the library for all dimensions and seeds. -/
theorem C130_laso_test_one {G : Gen N K W R} {sqrt : T → T} {order : Int → List (Int × T) → List (Int × T)} {d m : Int} {seed : RNGState N K} {D : SparseDist} (hG : G.Ok) (hsqrt : sqrt 1 = 1)
    (hord : ∀ i l, (order i l).Perm l) (hD : mkSparseDist d m 1 .Long = .ok D) (hfit : 2 * D.fullNnz ≤ intMax 64) :
    M.wp (testLaso G sqrt order d m 1 seed) () (fun r _ => r = none) :=
  C130_laso_test_partial hG hsqrt hord hD hfit (Or.inr rfl) fun i a b _ _ a0 ab bk => by omega

/-- C130 (square, long axis). If d = m, there are two or more nonzeros per vector and the samples of each vector are distinct, `proper_laso_construction` rejects the operator of the library. -/
theorem C130_laso_square {G : Gen N K W R} {sqrt : T → T} {order : Int → List (Int × T) → List (Int × T)} {d k : Int} {seed : RNGState N K} {D : SparseDist} (hG : G.Ok) (hsqrt : sqrt 1 = 1)
    (hord : ∀ i l, (order i l).Perm l) (hD : mkSparseDist d d k .Long = .ok D) (hfit : 2 * D.fullNnz ≤ intMax 64) (hk2 : 2 ≤ k)
    (hdist : ∀ i a b, 0 ≤ i → i < d → 0 ≤ a → a < b → b < k → lasoIdx G seed d k i a ≠ lasoIdx G seed d k i b) :
    M.wp (testLaso G sqrt order d d k seed) () (fun r _ => r = some (0, 1)) := by
  obtain ⟨f1, f2, f3, f4⟩ := dist_fields hD
  have hDo : SparseDistOk D := ⟨by rw [f1, f2, f3, f4]; exact hD, hfit⟩
  obtain ⟨hR, hC, hk, hkd, hfull, -, hax⟩ := sparseDist_facts hDo
  obtain ⟨hmaj, hm⟩ : D.dimMajor = d ∧ D.dimMinor = d := by
    rcases hax with ⟨h, -⟩ | ⟨-, h, h'⟩
    · rw [f3] at h; cases h
    · rw [h, h', f1, f2, max_self, min_self]; exact ⟨rfl, rfl⟩
  unfold testLaso
  rw [M.wp_bind, M.wp_lift]
  refine ⟨_, hD, ?_⟩
  rw [M.wp_bind, M.wp_onLocal]
  refine M.wp_mono (fillSparse_list hG hsqrt hord (mkSparseSkOp_ok (T := T) G.len hDo seed)) ?_
  rintro - S' ⟨v, r, c, -, rfl, hh, -⟩
  have hdist' : ∀ i a b, 0 ≤ i → i < ((D.dimMinor.toNat : Nat) : Int) → 0 ≤ a → a < b → b < D.vecNnz → lasoIdx G seed D.dimMajor D.vecNnz i a ≠ lasoIdx G seed D.dimMajor D.vecNnz i b := by
    rw [hmaj, f4]
    exact fun i a b i0 i1 => hdist i a b i0 (by omega)
  rw [show (mkSparseSkOp G.len D seed : SparseSkOp N K T).dist = D from rfl, show (mkSparseSkOp G.len D seed : SparseSkOp N K T).seedState = seed from rfl, fillList,
    if_neg (by rw [f3]; decide), lasoList_distinct hk _ hdist'] at hh
  have hA := filled_arrays hh
  have hcast : ((D.dimMinor.toNat * D.vecNnz.toNat : Nat) : Int) = D.dimMinor * D.vecNnz := by
    push_cast; rw [Int.toNat_of_nonneg hk.le, Int.toNat_of_nonneg (by omega)]
  rw [hcast] at hA
  rw [M.wp_lift, if_neg (lt_irrefl _)]
  refine ⟨_, ?_, rfl⟩
  unfold checkPerCol
  refine checkFixedNnz_constant (by show 2 ≤ D.vecNnz; omega) hC fun p p0 p1 => ?_
  have := ((hA p p0 (lt_of_lt_of_eq p1 (by show D.nCols * D.vecNnz = _; rw [hm, f2]))).1 (by omega)).1
  rw [show ((p.toNat : Nat) : Int) = p by omega] at this
  exact this

end

/-! ## Ownership and the unpacked routine -/

theorem intBuffsEqual_accepts {a b : Buf Int} {n : Int} (h : ∀ p, 0 ≤ p → p < n → ∃ x, a p = .val x ∧ b p = .val x) : intBuffsEqual a b n = .ok none := by
  unfold intBuffsEqual
  rcases findI_search (lo := 0) (hi := n) (body := fun i => (do
      let x ← a.rd i
      let e ← b.rd i
      if x ≠ e then pure (some i) else pure none : Res (Option Int))) (P := fun _ _ => False) (Q := fun _ => True) (fun i i0 i1 => by
      obtain ⟨x, h1, h2⟩ := h i i0 i1
      refine Or.inr ⟨?_, trivial⟩
      rw [Buf.rd_val h1, Buf.rd_val h2]
      simp) with ⟨i, a, h1, h2, h3, h4⟩ | ⟨h1, h2⟩
  · exact h3.elim
  · exact h2

section
variable [Field R] [LinearOrder R] [FloorRing R] [Field T] [LinearOrder T]

/-- C130 (unpacked). `unpacked_nosub` accepts the library for every distribution, axis and seed. -/
theorem C130_unpacked_test [DecidableEq K] [IsStrictOrderedRing T] {G : Gen N K W R} {sqrt : T → T} {order : Int → List (Int × T) → List (Int × T)} {atol rtol : T} {D : SparseDist} {seed : RNGState N K} (hG : G.Ok)
    (hsqrt : sqrt 1 = 1) (hord : ∀ i l, (order i l).Perm l) (hD : SparseDistOk D) (ha : 0 ≤ atol) :
    M.wp (testUnpackedNosub G sqrt order atol rtol D seed) () (fun r _ => r = (true, none, none, none)) := by
  have hS := mkSparseSkOp_ok (T := T) G.len hD seed
  unfold testUnpackedNosub
  dsimp only
  rw [M.wp_bind, M.wp_onLocal]
  have w := C129_unpacked (S := mkSparseSkOp G.len D seed) (b := ({ vals := zeroVec D.fullNnz, rows := Buf.ofFn D.fullNnz (fun _ => 0), cols := Buf.ofFn D.fullNnz (fun _ => 0) } : CooBufs T)) hG hsqrt hord hS rfl
    (fun p p0 p1 => by
      have p1 : p < D.fullNnz := p1
      simp [zeroVec, Buf.ofFn, p0, p1])
  have w2 := fillSparse_spec hG hsqrt hord hS
  refine M.wp_mono (M.wp_and w w2) ?_
  rintro - S' ⟨w, E, v, r, c, -, hS', -⟩
  rw [M.wp_bind, M.wp_onLocal]
  refine M.wp_mono w ?_
  rintro ⟨n, st⟩ b' ⟨h1, h2, h3⟩
  replace h1 : n = S'.nnz := h1
  replace h2 : st = S'.nextState := h2
  dsimp only
  subst h1
  rw [M.wp_bind, M.wp_lift]
  refine ⟨none, ?_, ?_⟩
  · have hn : 0 ≤ S'.nnz := by rw [hS']; exact Int.natCast_nonneg _
    choose! x i j hx using h3
    refine (reports_none (C118_buffs_partial (x := x) (y := x) hn (fun p p0 p1 => ?_) (fun p p0 p1 => ?_) atol rtol)).mpr fun p p0 p1 => close_self ha rtol _
    · rw [fltBuf, (hx p p0 p1).2.1]
    · rw [fltBuf, (hx p p0 p1).1]
  rw [M.wp_bind, M.wp_lift]
  refine ⟨none, intBuffsEqual_accepts fun p p0 p1 => ?_, ?_⟩
  · obtain ⟨x, i, j, -, -, a, b, -⟩ := h3 p p0 p1
    exact ⟨i, b, a⟩
  rw [M.wp_bind, M.wp_lift]
  refine ⟨none, intBuffsEqual_accepts fun p p0 p1 => ?_, ?_⟩
  · obtain ⟨x, i, j, -, -, -, -, a, b⟩ := h3 p p0 p1
    exact ⟨j, b, a⟩
  rw [M.wp_pure]
  have e : S'.nextState = (mkSparseSkOp G.len D seed : SparseSkOp N K T).nextState := by rw [hS']
  simp [h2, e]

/-- C130 (ownership). `respect_ownership` accepts the library for all dimensions and seeds for which the number of nonzeros is at most the largest `int`: the constructor leaves the arrays of
the user alone and filling overwrites every element. Missing: more nonzeros, for which the loop counter of the test overflows. -/
theorem C130_ownership_test_partial [IsStrictOrderedRing T] {G : Gen N K W R} {sqrt : T → T} {order : Int → List (Int × T) → List (Int × T)} {d m : Int} {seed : RNGState N K} {D : SparseDist} (hG : G.Ok)
    (hsqrt : sqrt 1 = 1) (hord : ∀ i l, (order i l).Perm l) (hD : mkSparseDist d m 2 .Short = .ok D) (hfit : D.fullNnz ≤ intMax 32) :
    M.wp (testRespectOwnership G sqrt order d m seed) () (fun r _ => r = (none, true)) := by
  obtain ⟨f1, f2, f3, f4⟩ := dist_fields hD
  have h32 : D.fullNnz ≤ 2 ^ 31 - 1 := hfit
  have hDo : SparseDistOk D := ⟨by rw [f1, f2, f3, f4]; exact hD, by unfold intMax; norm_num; omega⟩
  obtain ⟨hR, hC, hk, hkd, hfull, -, hax⟩ := sparseDist_facts hDo
  have hmin : 0 < D.dimMinor := by rcases hax with ⟨-, -, h⟩ | ⟨-, -, h⟩ <;> omega
  have hf0 : 0 ≤ D.fullNnz := by rw [hfull]; exact mul_nonneg hk.le hmin.le
  unfold testRespectOwnership
  rw [M.wp_bind, M.wp_lift]
  refine ⟨_, hD, ?_⟩
  dsimp only
  rw [M.wp_bind, M.wp_lift]
  have hv : ∀ p, 0 ≤ p → p < D.fullNnz → fltBuf (Buf.ofFn D.fullNnz (fun _ => (-(1 / 2) : T))) p = .val (.fin (-(1 / 2))) := fun p p0 p1 => by
    simp [fltBuf, Buf.ofFn, p0, p1]
  refine ⟨none, (reports_none (C118_buffs_partial hf0 (fun p p0 p1 => hv p p0 p1) (fun p p0 p1 => hv p p0 p1) 0 0)).mpr fun p p0 p1 => close_self le_rfl 0 _, ?_⟩
  rw [M.wp_bind, M.wp_onLocal]
  have hS : SparseOpOk (mkSparseSkOpExpert D seed seed (-1) (some (Buf.ofFn D.fullNnz (fun _ => (-(1 / 2) : T)))) (some (Buf.ofFn D.fullNnz (fun _ => (-1 : Int))))
      (some (Buf.ofFn D.fullNnz (fun _ => (-1 : Int)))) : SparseSkOp N K T) :=
    ⟨hDo, rfl, rfl, Or.inr ⟨_, rfl, fun p p0 p1 => by have p1 : p < D.fullNnz := p1; simp [Buf.ofFn, p0, p1]⟩,
      Or.inr ⟨_, rfl, fun p p0 p1 => by have p1 : p < D.fullNnz := p1; simp [Buf.ofFn, p0, p1]⟩, Or.inr ⟨_, rfl, fun p p0 p1 => by have p1 : p < D.fullNnz := p1; simp [Buf.ofFn, p0, p1]⟩⟩
  refine M.wp_mono (fillSparse_list hG hsqrt hord hS) ?_
  rintro - S' ⟨v, r, c, -, rfl, hh, -⟩
  dsimp only [mkSparseSkOpExpert] at hh ⊢
  rw [fillList, if_pos f3] at hh
  have hlen : (sasoTriples (T := T) G seed D.vecNnz D.dimMajor D.dimMinor).length = D.fullNnz.toNat := by
    simp only [sasoTriples, List.length_map, List.length_range]; rw [hfull, mul_comm]
  have hcell : ∀ p, 0 ≤ p → p < D.fullNnz → ∃ a b x, r p = .val a ∧ c p = .val b ∧ v p = .val x ∧ 0 ≤ a ∧ 0 ≤ b ∧ x ≠ -(1 / 2) := by
    intro p p0 p1
    obtain ⟨q, rfl⟩ := Int.eq_ofNat_of_zero_le p0
    have hq : q < (sasoTriples (T := T) G seed D.vecNnz D.dimMajor D.dimMinor).length := by rw [hlen]; omega
    have h1 := hh q (by rw [List.length_map]; exact hq)
    have h2 := saso_mem (T := T) hk hkd (List.getElem_mem hq)
    rw [List.getElem_map] at h1
    generalize (sasoTriples (T := T) G seed D.vecNnz D.dimMajor D.dimMinor)[q] = e at *
    obtain ⟨e1, -, e3, -, e5⟩ := h2
    have e5' : e.2.2 ≠ -(1 / 2) := by
      rcases e5 with h | h <;> rw [h] <;> norm_num
    unfold mkEntry at h1
    split_ifs at h1
    · exact ⟨_, _, _, h1.2.1, h1.2.2, h1.1, e1, e3, e5'⟩
    · exact ⟨_, _, _, h1.2.1, h1.2.2, h1.1, e3, e1, e5'⟩
  rw [M.wp_bind, M.wp_lift]
  refine ⟨true, ?_, by rw [M.wp_pure]⟩
  unfold allOverwritten
  have hfold : Res.sat (foldI 0 D.fullNnz (fun i (ok : Bool) => (do
      let a ← (ptr (some r)).rd i
      let b ← (ptr (some c)).rd i
      let x ← (ptr (some v)).rd i
      pure (ok && decide (0 ≤ a) && decide (0 ≤ b) && decide (x ≠ -(1 / 2))) : Res Bool)) true) (fun ok => ok = true) := by
    refine Res.sat_foldI (fun _ ok => ok = true) hf0 rfl ?_ (fun _ h => h)
    rintro i ok i0 i1 rfl
    obtain ⟨a, b, x, h1, h2, h3, h4, h5, h6⟩ := hcell i i0 i1
    rw [show ptr (some r) = r from rfl, show ptr (some c) = c from rfl, show ptr (some v) = v from rfl, Buf.rd_val h1, Buf.rd_val h2, Buf.rd_val h3]
    simpa [h4, h5] using h6
  obtain ⟨ok, e, rfl⟩ := hfold
  rw [e]
  show (if intMax 32 < D.fullNnz then Res.ub else pure true) = _
  rw [if_neg (by omega)]
  rfl

end

/-! ## Concrete cases -/

example (seed : RNGState (2 ^ 128) Nat) : M.wp (testSaso (T := ℤ) exGenQ id (fun _ l => l) 7 20 3 seed) () (fun r _ => r = none) ∧
    M.wp (testSaso (T := ℤ) exGenQ id (fun _ l => l) 15 7 7 seed) () (fun r _ => r = none) ∧ M.wp (testSaso (T := ℤ) exGenQ id (fun _ l => l) 5 5 2 seed) () (fun r _ => r = some (0, 1)) ∧
    M.wp (testLaso (T := ℤ) exGenQ id (fun _ l => l) 7 20 1 seed) () (fun r _ => r = none) :=
  ⟨C130_saso_test_partial (D := ⟨7, 20, .Short, 7, 20, 3, 60⟩) (Or.inr rfl) rfl (fun _ _ => List.Perm.refl _) (by decide) (by decide) (Or.inl (by decide)),
    C130_saso_test_partial (D := ⟨15, 7, .Short, 7, 15, 7, 105⟩) (Or.inr rfl) rfl (fun _ _ => List.Perm.refl _) (by decide) (by decide) (Or.inl (by decide)),
    C130_saso_square (D := ⟨5, 5, .Short, 5, 5, 2, 10⟩) (Or.inr rfl) rfl (fun _ _ => List.Perm.refl _) (by decide) (by decide) (by decide),
    C130_laso_test_one (D := ⟨7, 20, .Long, 20, 7, 1, 7⟩) (Or.inr rfl) rfl (fun _ _ => List.Perm.refl _) (by decide) (by decide)⟩

/-- A long-axis operator with distinct samples in each vector. -/
example : M.wp (testLaso (T := ℤ) exGenQ id (fun _ l => l) 2 8 2 ⟨0, 7⟩) () (fun r _ => r = none) := by
  refine C130_laso_test_partial (D := ⟨2, 8, .Long, 8, 2, 2, 4⟩) (Or.inr rfl) rfl (fun _ _ => List.Perm.refl _) (by decide) (by decide) (Or.inl (by decide)) ?_
  intro i a b i0 i1 a0 ab bk
  have ha : a = 0 := by omega
  have hb : b = 1 := by omega
  have hi : i = 0 ∨ i = 1 := by omega
  subst ha hb
  rcases hi with rfl | rfl <;> decide +kernel

/-- A square one. -/
example : M.wp (testLaso (T := ℤ) exGenQ id (fun _ l => l) 4 4 2 ⟨0, 7⟩) () (fun r _ => r = some (0, 1)) := by
  refine C130_laso_square (D := ⟨4, 4, .Long, 4, 4, 2, 8⟩) (Or.inr rfl) rfl (fun _ _ => List.Perm.refl _) (by decide) (by decide) (by decide) ?_
  intro i a b i0 i1 a0 ab bk
  have ha : a = 0 := by omega
  have hb : b = 1 := by omega
  have hi : i = 0 ∨ i = 1 ∨ i = 2 ∨ i = 3 := by omega
  subst ha hb
  rcases hi with rfl | rfl | rfl | rfl <;> decide +kernel

example (seed : RNGState (2 ^ 128) Nat) : M.wp (testUnpackedNosub exGenQ id (fun _ l => l) (0 : ℚ) 0 exLaso seed) () (fun r _ => r = (true, none, none, none)) ∧
    M.wp (testUnpackedNosub exGenQ id (fun _ l => l) (0 : ℚ) 0 exSaso seed) () (fun r _ => r = (true, none, none, none)) ∧
    M.wp (testRespectOwnership (T := ℚ) exGenQ id (fun _ l => l) 7 20 seed) () (fun r _ => r = (none, true)) :=
  ⟨C130_unpacked_test (Or.inr rfl) rfl (fun _ _ => List.Perm.refl _) exLaso_ok le_rfl, C130_unpacked_test (Or.inr rfl) rfl (fun _ _ => List.Perm.refl _) exSaso_ok le_rfl,
    C130_ownership_test_partial (D := ⟨7, 20, .Short, 7, 20, 2, 40⟩) (Or.inr rfl) rfl (fun _ _ => List.Perm.refl _) (by decide) (by decide)⟩

end RB
