import Verif.Lemmas.VecWords
import Verif.Props.Independence

/-! # C90: operators with different scalar types -/

namespace RB
open Spec

variable {N : Nat} {K W R F T T' : Type}

/-- The generator after conversion of its values: `boxmulall` and `uneg11all` return arrays of the type that belongs to the words (`float` for 32-bit words), whose
elements are converted to the scalar type of the operator when they are stored (RandBLAS/random_gen.hh:95-187, RandBLAS/dense_skops.hh:51-55, 142-162). -/
def Gen.cast (G : Gen N K W F) (f : F → T) : Gen N K W T :=
  { len := G.len, word := G.word, boxmuller := fun a b => (f (G.boxmuller a b).1, f (G.boxmuller a b).2), uneg11 := fun a => f (G.uneg11 a), nat := G.nat }

theorem denseRaw_cast (G : Gen N K W F) (f : F → T) (fam : ScalarDist) (n : Int) (s : RNGState N K) (q p : Int) :
    denseRaw (G.cast f) fam n s q p = f (denseRaw G fam n s q p) := by
  unfold denseRaw genValue
  cases fam
  · simp only [Gen.cast]
    exact (apply_ite f _ _ _).symm
  · rfl

/-- C90 (Gaussian). Converting the entries of a Gaussian operator gives the operator with the other scalar type. -/
theorem C90_gaussian [Mul F] [Mul T] {G : Gen N K W F} (hG : G.Ok) {f : F → T} {D : DenseDist} (hD : DenseDistOk D) (hf : D.family = .Gaussian)
    {s : RNGState N K} {sqrt3 : F} {sqrt3' : T} {A : Int → Int → F} {A' : Int → Int → T} (hA : Samples G sqrt3 D s A)
    (hA' : Samples (G.cast f) sqrt3' D s A') {i j : Int} (hij : InR D.nRows D.nCols i j) : A' i j = f (A i j) := by
  rw [samples_unique hG hD hA hij, samples_unique (show (G.cast f).Ok from hG) hD hA' hij]
  unfold denseEntry
  simp only [hf, famScale, denseRaw_cast]
  cases D.naturalLayout <;> rfl

/-- C90 (uniform). The entries of uniform operators with different scalar types are the same numbers, times the constant of each type. -/
theorem C90_uniform [Mul F] [Mul T] {G : Gen N K W F} (hG : G.Ok) {f : F → T} {D : DenseDist} (hD : DenseDistOk D) (hf : D.family = .Uniform)
    {s : RNGState N K} {sqrt3 : F} {sqrt3' : T} {A : Int → Int → F} {A' : Int → Int → T} (hA : Samples G sqrt3 D s A)
    (hA' : Samples (G.cast f) sqrt3' D s A') {i j : Int} (hij : InR D.nRows D.nCols i j) : ∃ u, A i j = sqrt3 * u ∧ A' i j = sqrt3' * f u := by
  rw [samples_unique hG hD hA hij, samples_unique (show (G.cast f).Ok from hG) hD hA' hij]
  unfold denseEntry
  simp only [hf, famScale, denseRaw_cast]
  cases D.naturalLayout <;> exact ⟨_, rfl, rfl⟩

theorem filter_pos_le_one {E : List (Int × Int × T)} (h : (E.map fun e => (e.1, e.2.1)).Nodup) (a b : Int) :
    E.filter (fun e => e.1 = a ∧ e.2.1 = b) = [] ∨ ∃ e ∈ E, E.filter (fun e => e.1 = a ∧ e.2.1 = b) = [e] := by
  have hn := (List.Sublist.map (fun e : Int × Int × T => (e.1, e.2.1)) (List.filter_sublist (p := fun e => decide (e.1 = a ∧ e.2.1 = b)) (l := E))).nodup h
  generalize hF : E.filter (fun e => e.1 = a ∧ e.2.1 = b) = F at hn ⊢
  have hm : ∀ e ∈ F, e ∈ E ∧ e.1 = a ∧ e.2.1 = b := by
    intro e he
    rw [← hF, List.mem_filter] at he
    exact ⟨he.1, by simpa using he.2⟩
  match F, hn, hm with
  | [], _, _ => exact Or.inl rfl
  | [e], _, hm => exact Or.inr ⟨e, (hm e (by simp)).1, rfl⟩
  | e :: e' :: l, hn, hm =>
    have h1 := hm e (by simp)
    have h2 := hm e' (by simp)
    simp [h1.2.1, h1.2.2, h2.2.1, h2.2.2] at hn

theorem sparse_entry [Field R] [LinearOrder R] [FloorRing R] [Ring T] [Ring T'] {G : Gen N K W R} (hG : G.Ok) {sqrt : T → T} {sqrt' : T' → T'} (h1 : sqrt 1 = 1)
    (h1' : sqrt' 1 = 1) {D : SparseDist} (hD : SparseDistOk D) {s : RNGState N K} {A : Int → Int → T} {A' : Int → Int → T'} (hA : SparseSamples G sqrt D s A)
    (hA' : SparseSamples G sqrt' D s A') : ∃ E E', SparseRun G sqrt D s E ∧ SparseRun G sqrt' D s E' ∧ ∀ i j, ∃ a b, A i j = tripMat E a b ∧ A' i j = tripMat E' a b ∧
      (D.majorAxis = .Long → InR D.nRows D.nCols i j → 0 ≤ a ∧ a < D.dimMinor) := by
  obtain ⟨E, hE, hEA⟩ := sparseSamples_run hG h1 hD hA
  obtain ⟨E', hE', hEA'⟩ := sparseSamples_run hG h1' hD hA'
  obtain ⟨-, -, -, -, -, -, hax⟩ := sparseDist_facts hD
  refine ⟨E, E', hE, hE', fun i j => ?_⟩
  by_cases hw : D.nRows ≤ D.nCols
  · refine ⟨i, j, by rw [← hEA, toMat_triples_row hw]; rfl, by rw [← hEA', toMat_triples_row hw]; rfl, ?_⟩
    rintro hl ⟨a, b, c, d⟩
    rcases hax with ⟨x, -⟩ | ⟨-, -, y⟩
    · rw [x] at hl; cases hl
    · omega
  · refine ⟨j, i, by rw [← hEA, toMat_triples_col hw]; rfl, by rw [← hEA', toMat_triples_col hw]; rfl, ?_⟩
    rintro hl ⟨a, b, c, d⟩
    rcases hax with ⟨x, -⟩ | ⟨-, -, y⟩
    · rw [x] at hl; cases hl
    · omega

/-- C90 (short axis). Converting the entries of a short-axis operator gives the operator with the other scalar type. -/
theorem C90_short_axis [Field R] [LinearOrder R] [FloorRing R] [Ring T] [Ring T'] {G : Gen N K W R} (hG : G.Ok) {sqrt : T → T} {sqrt' : T' → T'}
    (h1 : sqrt 1 = 1) (h1' : sqrt' 1 = 1) {f : T → T'} (f0 : f 0 = 0) (f1 : f 1 = 1) (f2 : f (-1) = -1) {D : SparseDist} (hD : SparseDistOk D)
    (hax : D.majorAxis = .Short) {s : RNGState N K} {A : Int → Int → T} {A' : Int → Int → T'} (hA : SparseSamples G sqrt D s A)
    (hA' : SparseSamples G sqrt' D s A') (i j : Int) : A' i j = f (A i j) := by
  obtain ⟨-, -, hk, hkd, -, -, -⟩ := sparseDist_facts hD
  obtain ⟨E, E', hE, hE', h⟩ := sparse_entry hG h1 h1' hD hA hA'
  obtain ⟨a, b, e, e', -⟩ := h i j
  rcases hE with ⟨-, hE⟩ | ⟨x, -⟩
  · rcases hE' with ⟨-, hE'⟩ | ⟨x, -⟩
    · have hmap : E' = E.map fun e => (e.1, e.2.1, f e.2.2) := by
        rw [hE, hE']
        unfold sasoTriples
        rw [List.map_map]
        refine List.map_congr_left fun p _ => ?_
        simp only [Function.comp_apply, fySign]
        split_ifs
        · rw [f1]
        · rw [f2]
      have hnd : (E.map fun e => (e.1, e.2.1)).Nodup := by rw [hE]; exact saso_nodup hk hkd
      rw [e, e', hmap]
      unfold tripMat
      rw [List.filter_map, List.map_map]
      simp only [Function.comp_def]
      rcases filter_pos_le_one hnd a b with h | ⟨z, -, h⟩
      · rw [h]; simp [f0]
      · rw [h]; simp
    · rw [hax] at x; cases x
  · rw [hax] at x; cases x

/-- C90 (long axis). Long-axis operators with different scalar types have their nonzeros at the same places, and there the sign and the number of merged samples
under the root are the same. -/
theorem C90_long_axis [Field R] [LinearOrder R] [FloorRing R] [Ring T] [Ring T'] {G : Gen N K W R} (hG : G.Ok) {sqrt : T → T} {sqrt' : T' → T'}
    (h1 : sqrt 1 = 1) (h1' : sqrt' 1 = 1) {D : SparseDist} (hD : SparseDistOk D)
    (hax : D.majorAxis = .Long) {s : RNGState N K} {A : Int → Int → T} {A' : Int → Int → T'} (hA : SparseSamples G sqrt D s A)
    (hA' : SparseSamples G sqrt' D s A') {i j : Int} (hij : InR D.nRows D.nCols i j) :
    (A i j = 0 ∧ A' i j = 0) ∨ ∃ c : Nat, 0 < c ∧ (c : Int) ≤ D.vecNnz ∧ ((A i j = sqrt c ∧ A' i j = sqrt' c) ∨ (A i j = -sqrt c ∧ A' i j = -sqrt' c)) := by
  obtain ⟨E, E', hE, hE', h⟩ := sparse_entry hG h1 h1' hD hA hA'
  obtain ⟨a, b, e, e', hr⟩ := h i j
  obtain ⟨a0, a1⟩ := hr hax hij
  rcases hE with ⟨x, -⟩ | ⟨-, hE⟩
  · rw [hax] at x; cases x
  rcases hE' with ⟨x, -⟩ | ⟨-, hE'⟩
  · rw [hax] at x; cases x
  obtain ⟨q, rfl⟩ : ∃ q : Nat, a = q := ⟨a.toNat, by omega⟩
  obtain ⟨o, ho, eo⟩ := laso_vec hE (q := q) (by omega)
  obtain ⟨o', ho', eo'⟩ := laso_vec hE' (q := q) (by omega)
  have hsum : ∀ {V : Type} [Ring V] {sq : V → V} {x : Int → Int} {s : Int → V} {o : List (Int × V)}, Merged sq D.vecNnz x s o →
      ((∀ t, 0 ≤ t → t < D.vecNnz → x t ≠ b) → ((o.filter fun e => e.1 = b).map fun e => e.2).sum = 0) ∧
      (∀ t, 0 ≤ t → t < D.vecNnz → x t = b → (∀ t', 0 ≤ t' → t' < t → x t' ≠ b) →
        ((o.filter fun e => e.1 = b).map fun e => e.2).sum = sq (occurrences x D.vecNnz b) * s t) := by
    intro V _ sq x s o ho
    have hcase : (∀ e ∈ o, e.1 ≠ b) ∨ ∃ e ∈ o, e.1 = b ∧ o.filter (fun e => e.1 = b) = [e] := by
      by_cases hex : ∃ e ∈ o, e.1 = b
      · obtain ⟨z, hz, hzb⟩ := hex
        refine Or.inr ⟨z, hz, hzb, ?_⟩
        have hn := (List.Sublist.map Prod.fst (List.filter_sublist (p := fun e : Int × V => decide (e.1 = b)) (l := o))).nodup ho.nodup
        have hmem : z ∈ o.filter (fun e => e.1 = b) := by rw [List.mem_filter]; exact ⟨hz, by simpa using hzb⟩
        have hall : ∀ e ∈ o.filter (fun e => e.1 = b), e.1 = b := by
          intro e he
          have := (List.mem_filter.mp he).2
          simpa using this
        generalize o.filter (fun e => e.1 = b) = F at hn hmem hall
        match F, hn, hmem, hall with
        | [], _, hmem, _ => cases hmem
        | [e], _, hmem, _ => rw [List.mem_singleton] at hmem; rw [hmem]
        | e :: e' :: l, hn, _, hall => simp [hall e (by simp), hall e' (by simp)] at hn
      · left
        intro e he heb
        exact hex ⟨e, he, heb⟩
    constructor
    · intro hno
      rcases hcase with h | ⟨z, hz, hzb, -⟩
      · rw [List.filter_eq_nil_iff.mpr (by intro e he; simpa using h e he)]; rfl
      · obtain ⟨t, t0, t1, t2, -⟩ := ho.value z hz
        exact absurd (t2.trans hzb) (hno t t0 t1)
    · intro t t0 t1 t2 t3
      rcases hcase with h | ⟨z, hz, hzb, hf⟩
      · obtain ⟨e, he, h'⟩ := List.mem_map.mp (ho.all t t0 t1)
        exact absurd (h'.trans t2) (h e he)
      · rw [hf]
        obtain ⟨u, u0, u1, u2, u3, u4⟩ := ho.value z hz
        have : u = t := by
          rcases lt_trichotomy u t with h | h | h
          · exact absurd (u2.trans hzb) (t3 u u0 h)
          · exact h
          · exact absurd (t2.trans hzb.symm) (u3 t t0 h)
        subst this
        simp only [List.map_cons, List.map_nil, List.sum_cons, List.sum_nil, add_zero]
        rw [u4, hzb]
  obtain ⟨z1, z2⟩ := hsum ho
  obtain ⟨z1', z2'⟩ := hsum ho'
  rw [e, e', eo, eo']
  by_cases hex : ∃ t : Nat, (t : Int) < D.vecNnz ∧ lasoIdx G s D.dimMajor D.vecNnz q t = b
  · right
    classical
    have ht := Nat.find_spec hex
    have hmin := fun m => Nat.find_min hex (m := m)
    generalize Nat.find hex = t at ht hmin
    have hfirst : ∀ t' : Int, 0 ≤ t' → t' < t → lasoIdx G s D.dimMajor D.vecNnz q t' ≠ b := by
      intro t' h0 h1 hb
      obtain ⟨m, rfl⟩ : ∃ m : Nat, t' = m := ⟨t'.toNat, by omega⟩
      exact hmin m (by omega) ⟨by omega, hb⟩
    rw [z2 t (by omega) ht.1 ht.2 hfirst, z2' t (by omega) ht.1 ht.2 hfirst]
    refine ⟨occurrences (lasoIdx G s D.dimMajor D.vecNnz q) D.vecNnz b, ?_, ?_, ?_⟩
    · unfold occurrences
      refine Finset.card_pos.mpr ⟨t, ?_⟩
      rw [Finset.mem_filter, Finset.mem_range]
      exact ⟨by omega, ht.2⟩
    · unfold occurrences
      refine le_trans (Int.ofNat_le.mpr (Finset.card_filter_le _ _)) ?_
      rw [Finset.card_range]
      omega
    · unfold lasoSign unifSign
      split_ifs
      · left; simp
      · right; simp
  · left
    have hno : ∀ t, 0 ≤ t → t < D.vecNnz → lasoIdx G s D.dimMajor D.vecNnz q t ≠ b := by
      intro t t0 t1 hb
      exact hex ⟨t.toNat, by omega, by rw [Int.toNat_of_nonneg t0]; exact hb⟩
    exact ⟨z1 hno, z1' hno⟩

/-- A generator of rational numbers, the conversion of its values to real numbers, and one operator of each kind meet the hypotheses. -/
example : exGenQ.Ok ∧ DenseDistOk exGauss ∧ exGauss.family = .Gaussian ∧ DenseDistOk exUnif ∧ exUnif.family = .Uniform ∧
    (∀ (D : DenseDist) (s : RNGState (2 ^ 128) Nat), DenseDistOk D → (∃ A, Samples exGenQ (7 / 4) D s A) ∧
      ∃ A, Samples (exGenQ.cast fun x : ℚ => (x : ℝ)) (Real.sqrt 3) D s A) ∧
    SparseDistOk exSaso ∧ exSaso.majorAxis = .Short ∧ SparseDistOk exLaso ∧ exLaso.majorAxis = .Long ∧ ((0 : ℚ) : ℝ) = 0 ∧ ((1 : ℚ) : ℝ) = 1 ∧ ((-1 : ℚ) : ℝ) = -1 ∧
    (∀ (D : SparseDist) (s : RNGState (2 ^ 128) Nat), SparseDistOk D → (∃ A, SparseSamples exGenQ (fun x : ℚ => x) D s A) ∧
      ∃ A, SparseSamples exGenQ Real.sqrt D s A) :=
  ⟨Or.inr rfl, ⟨by decide, by decide⟩, rfl, ⟨by decide, by decide⟩, rfl,
    fun D s hD => ⟨⟨_, samples_denseEntry (Or.inr rfl) hD⟩, ⟨_, samples_denseEntry (show (exGenQ.cast fun x : ℚ => (x : ℝ)).Ok from Or.inr rfl) hD⟩⟩,
    exSaso_ok, rfl, exLaso_ok, rfl, by norm_num, by norm_num, by norm_num,
    fun D s hD => ⟨(C14_well_defined (Or.inr rfl) rfl hD).exists, (C14_well_defined (Or.inr rfl) Real.sqrt_one hD).exists⟩⟩

end RB
