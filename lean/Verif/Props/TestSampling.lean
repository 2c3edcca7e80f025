import Verif.Model.TestSampling
import Verif.Spec.TestSampling
import Verif.Props.StatKs

/-!
# C140: the tests of index sampling
-/

namespace RB
open Spec
variable {N : Nat} {K W R : Type}

/-- A search that reads nothing but local arrays. -/
theorem wp_findI_first {σ α : Type} {n : Int} {body : Int → M σ (Option α)} {s : σ} {P : Int → Prop} {f : Int → α} (hn : 0 ≤ n)
    (h1 : ∀ i, 0 ≤ i → i < n → P i → body i s = (.ok none, s)) (h2 : ∀ i, 0 ≤ i → i < n → ¬ P i → body i s = (.ok (some (f i)), s)) :
    M.wp (findI 0 n body) s (fun o s' => s' = s ∧ FirstWithout o n P f) := by
  refine M.wp_findI (lo := 0) (hi := n) (fun k s' => s' = s ∧ ∀ j, 0 ≤ j → j < k → P j) hn ⟨rfl, fun j _ _ => by omega⟩ ?_ ?_
  · rintro i s' h0 hi ⟨rfl, hp⟩
    by_cases h : P i
    · refine ⟨_, _, h1 i h0 hi h, fun _ => ⟨rfl, fun j h0 hj => ?_⟩, fun h => absurd rfl h⟩
      rcases (show j < i ∨ j = i by omega) with h' | rfl
      · exact hp j h0 h'
      · exact h
    · exact ⟨_, _, h2 i h0 hi h, fun h => by simp at h, fun _ => ⟨rfl, Or.inr ⟨i, rfl, h0, hi, h, hp⟩⟩⟩
  · rintro s' ⟨rfl, hp⟩
    exact ⟨rfl, Or.inl ⟨rfl, hp⟩⟩

/-- The lookup for all arguments in range; the critical value is right except for the entry of `C113_never_fails`. -/
theorem lookup_exists {n : Int} {sig : ℚ} (hn : 8 ≤ n ∧ n ≤ 2 ^ 24) (hs : 1 / 10 ^ 6 ≤ sig ∧ sig ≤ 5 / 100) :
    ∃ (cv : ℚ) (n' : Int) (sig' : ℚ), criticalValueRep n sig = .ok (cv, n', sig') ∧ SmallestSize n n' ∧ LargestLevel sig sig' ∧
      (¬ (1 / 10 ^ 5 ≤ sig ∧ sig < 1 / 10 ^ 4 ∧ 2 ^ 23 < n) → KsCritical n' sig' cv) := by
  obtain ⟨i, j, -, -, -, -, li, lj, e⟩ := criticalValueRep_eq hn hs
  refine ⟨_, _, _, e, lj, li, fun h => ?_⟩
  obtain ⟨cv, n', sig', e', -, -, hc⟩ := C113_critical_value_partial hn hs h
  rw [e] at e'
  simp only [Res.ok.injEq, Prod.mk.injEq] at e'
  rw [e'.1, e'.2.1, e'.2.2]
  exact hc

theorem elements_ok {b : Buf Int} {x : Nat → Int} : ∀ {n : Nat}, (∀ i : Nat, i < n → b i = .val (x i)) → elements b n = .ok ((List.range n).map x)
  | 0, _ => rfl
  | n + 1, h => by
    rw [elements, elements_ok fun i hi => h i (by omega), Res.ok_bind, Buf.rd, h n (by omega)]
    simp [List.range_succ]

theorem empCdfInt_share [Field R] (m : Nat) (x : Nat → Int) (i : Int) : (empCdfInt ((List.range m).map x) i : R) = shareOf m (fun t => x t ≤ i) := by
  unfold empCdfInt shareOf
  congr 2
  · rw [List.filter_map, List.length_map]
    simp only [Finset.card, Finset.filter_val, Finset.range_val, Multiset.range, Multiset.filter_coe, Multiset.coe_card]
    rfl
  · simp

theorem shareOf_congr [Field R] {m : Nat} {P Q : Nat → Prop} [DecidablePred P] [DecidablePred Q] (h : ∀ t, t < m → (P t ↔ Q t)) :
    (shareOf m P : R) = shareOf m Q := by
  unfold shareOf
  rw [Finset.filter_congr fun t ht => h t (Finset.mem_range.mp ht)]

section
variable [Field R] [LinearOrder R] [IsStrictOrderedRing R] [FloorRing R]

/-- What uniform sampling returns for values in [0, 1]. -/
theorem uniform_closed {G : Gen N K W R} {n k : Int} {state : RNGState N K} {b : Buf Int} (hG : G.Ok) (hn : 0 < n) (hk : 0 ≤ k) (hb : AllocTo b k)
    (hu : ∀ i, 0 ≤ i → i < k → 0 ≤ unif01 G state i ∧ unif01 G state i ≤ 1) :
    M.wp (sampleIndicesIidUniformPublic G n k state) b (fun st b' =>
      (∀ i, 0 ≤ i → i < k → b' i = .val ⌊(n : R) * unif01 G state i⌋) ∧ st = advance state (countersPerVector G.len k)) := by
  unfold sampleIndicesIidUniformPublic
  rw [M.wp_zoom]
  refine ⟨_, _, sampleUniform_spec hG hk (fun p h0 h1 => by rw [zero_add]; exact hb p h0 h1) (fun h => by cases h), ?_, ?_⟩
  · intro i h0 h1
    have := Buf.overAt_in (off := 0) (f := unifSample G state n false) (b := b) (p := i) (m := k) h0 h1
    rw [zero_add] at this
    simp only
    rw [this]
    have hu' := (hu i h0 h1).1
    have hn' : (0 : R) < n := by exact_mod_cast hn
    simp only [unifSample, wordsPerSample, truncToInt]
    simp [mul_nonneg hn'.le hu']
  · simp [wordsPerSample]

/-- C140 (range of uniform samples). With uniform values in [0, 1] the test passes exactly if no value is 1; otherwise it reports the first sample whose
value is 1. -/
theorem C140_smoke {G : Gen N K W R} {n k : Int} {state : RNGState N K} (hG : G.Ok) (hn : 0 < n) (hk : 0 ≤ k)
    (hu : ∀ i, 0 ≤ i → i < k → 0 ≤ unif01 G state i ∧ unif01 G state i ≤ 1) :
    M.wp (testIidUniformSmoke G n k state) () (fun o _ => FirstWithout o k (fun i => unif01 G state i < 1) id) := by
  unfold testIidUniformSmoke
  rw [M.wp_bind, M.wp_onLocal]
  refine M.wp_mono (uniform_closed hG hn hk (fun p h0 h1 => by simp [Buf.fill, h0, h1]) hu) ?_
  rintro st b ⟨hb, -⟩
  have hn' : (0 : R) < n := by exact_mod_cast hn
  refine M.wp_mono (wp_findI_first (P := fun i => unif01 G state i < 1) (f := id) hk ?_ ?_) fun o _ h => h.2
  · intro i h0 h1 hp
    have a1 : ⌊(n : R) * unif01 G state i⌋ < n := by rw [Int.floor_lt]; nlinarith
    have a2 : 0 ≤ ⌊(n : R) * unif01 G state i⌋ := by rw [Int.floor_nonneg]; exact mul_nonneg hn'.le (hu i h0 h1).1
    simp [M.lift, Buf.rd, hb i h0 h1, a1, a2, bind, M.bind, pure]
  · intro i h0 h1 hp
    have e : unif01 G state i = 1 := le_antisymm (hu i h0 h1).2 (not_lt.mp hp)
    simp [M.lift, Buf.rd, hb i h0 h1, e, bind, M.bind, pure]

example (state : RNGState (2 ^ 128) Nat) : M.wp (testIidUniformSmoke exGenQ 1000 100 state) () (fun o _ => o = none) := by
  refine M.wp_mono (C140_smoke (G := exGenQ) (Or.inr rfl) (by decide) (by decide) fun i _ _ => ⟨(exGenQ_unif state i).1.le, (exGenQ_unif state i).2.le⟩) ?_
  rintro o - (h | ⟨i, -, -, -, h, -⟩)
  · exact h.1
  · exact absurd (exGenQ_unif state i).2 h

/-- C140 (uniform samples, Kolmogorov-Smirnov). With uniform values in [0, 1), the test looks up the critical value `cv` for the least tabulated number `m`
of samples, draws `m` samples and passes exactly if for each `i < n` the share of the `m` uniform values that are less than `(i+1)/n` is within
`cv` of `(i+1)/n`; otherwise the first such `i` is reported. -/
theorem C140_uniform_ks {G : Gen N K W R} {n num : Int} {sig : ℚ} {thresh below : R} {state : RNGState N K} (hG : G.Ok) (hn : 0 < n)
    (hnum : 8 ≤ num ∧ num ≤ 2 ^ 24) (hs : 1 / 10 ^ 6 ≤ sig ∧ sig ≤ 5 / 100)
    (hu : ∀ i, 0 ≤ i → 0 ≤ unif01 G state i ∧ unif01 G state i < 1) (ht : 0 < thresh) (htn : thresh ≤ n) (ht8 : thresh ≤ num) (hb : below ≤ 0) :
    ∃ (cv : ℚ) (m : Nat) (sig' : ℚ), SmallestSize num m ∧ LargestLevel sig sig' ∧ (¬ (1 / 10 ^ 5 ≤ sig ∧ sig < 1 / 10 ^ 4 ∧ 2 ^ 23 < num) → KsCritical m sig' cv) ∧
      M.wp (testIidUniformKs G n sig num thresh below state) () (fun o _ =>
        FirstWithout o n (fun i => |shareOf m (fun t => unif01 G state t < ((i : R) + 1) / n) - ((i : R) + 1) / n| < (cv : R)) id) := by
  obtain ⟨cv, m, sig', e, hm, hl, hc⟩ := lookup_exists hnum hs
  have hm0 : num ≤ m := hm.2.1
  obtain ⟨m, rfl⟩ : ∃ m' : Nat, m = m' := ⟨m.toNat, by omega⟩
  have hn' : (0 : R) < n := by exact_mod_cast hn
  refine ⟨cv, m, sig', hm, hl, fun h => by simpa using hc h, ?_⟩
  unfold testIidUniformKs
  rw [M.wp_bind, M.wp_lift]
  refine ⟨_, (C113_mutator_partial (by constructor <;> simp only [intMin, intMax] <;> omega)).trans e, ?_⟩
  dsimp only
  rw [M.wp_bind, M.wp_onLocal]
  have hps : ∀ j : Nat, posSum (fun _ => (1 : R)) j = j := fun j => by simp [posSum]
  have hnn : ((n.toNat : Nat) : R) = n := by
    have : ((n.toNat : Nat) : Int) = n := by omega
    exact_mod_cast congrArg (Int.cast (R := R)) this
  refine M.wp_mono (C22_weights_to_cdf (v := fun _ => 1) hn (fun i h0 h1 => by simp [Buf.fill, h0, h1]) (fun i _ _ => hb.trans zero_le_one) ht
    (by rw [hps, hnn]; exact htn)) ?_
  rintro - cdf ⟨f, hf, -, -⟩
  have hf' : ∀ i, 0 ≤ i → i < n → f i = ((i : R) + 1) / n := by
    intro i h0 h1
    rw [(hf i h0 h1).2, hps, hps, hnn]
    have : ((i.toNat : Nat) : Int) = i := by omega
    have : ((i.toNat : Nat) : R) = i := by exact_mod_cast congrArg (Int.cast (R := R)) this
    push_cast; rw [this]
  rw [M.wp_bind, M.wp_onLocal]
  refine M.wp_mono (C24_uniform hG hn (Int.natCast_nonneg m) (fun p h0 h1 => by simp [Buf.fill, h0, h1]) (fun i h0 _ => hu i h0)) ?_
  rintro st b ⟨hb', -, -⟩
  rw [M.wp_bind, M.wp_lift]
  refine ⟨_, elements_ok (x := fun t => ⌊(n : R) * unif01 G state t⌋) (fun i hi => (hb' i (by omega) (by omega)).1), ?_⟩
  simp only [Int.toNat_natCast]
  have hthm : thresh ≤ (m : R) := ht8.trans (by exact_mod_cast hm0)
  have hempty : (List.range m).map (fun t : Nat => ⌊(n : R) * unif01 G state t⌋) ≠ [] := by
    intro h; have := congrArg List.length h; simp at this; omega
  refine M.wp_mono (C114_index_test (f := f) (n := n) ?_ hempty (fun i h0 h1 => (hf i h0 h1).1) (by simpa using hthm) hb) ?_
  · intro s hs
    obtain ⟨t, ht, rfl⟩ := List.mem_map.mp hs
    have ht := List.mem_range.mp ht
    exact (hb' t (by omega) (by omega)).2
  · rintro o - ⟨h1, h2⟩
    have key : ∀ i, 0 ≤ i → i < n → (empCdfInt ((List.range m).map fun t : Nat => ⌊(n : R) * unif01 G state t⌋) i - f i : R) =
        shareOf m (fun t => unif01 G state t < ((i : R) + 1) / n) - ((i : R) + 1) / n := by
      intro i h0 hi
      rw [hf' i h0 hi, empCdfInt_share]
      congr 1
      apply shareOf_congr
      intro t _
      rw [← Int.lt_add_one_iff, Int.floor_lt, lt_div_iff₀ hn', mul_comm]
      push_cast; rfl
    rcases o with - | i
    · exact Or.inl ⟨rfl, fun i h0 hi => by have := h1.mp rfl i h0 hi; rwa [key i h0 hi] at this⟩
    · obtain ⟨h0, hi, hge, hlt⟩ := h2 i rfl
      refine Or.inr ⟨i, rfl, h0, hi, ?_, fun j hj0 hj => ?_⟩
      · show ¬ |_| < _
        rw [← key i h0 hi]; exact not_lt.mpr hge
      · have := hlt j hj0 hj; rwa [key j hj0 (by omega)] at this

example (state : RNGState (2 ^ 128) Nat) : ∃ (cv : ℚ) (m : Nat) (sig' : ℚ), SmallestSize 100000 m ∧ LargestLevel (1 / 100) sig' ∧ (¬ (1 / 10 ^ 5 ≤ (1 / 100 : ℚ) ∧ (1 / 100 : ℚ) < 1 / 10 ^ 4 ∧ (2 : Int) ^ 23 < 100000) → KsCritical m sig' cv) ∧
    M.wp (testIidUniformKs exGenQ 1000 (1 / 100) 100000 (1 / 1000) (-1 / 1000) state) () (fun o _ =>
      FirstWithout o 1000 (fun i => |shareOf m (fun t => unif01 exGenQ state t < ((i : ℚ) + 1) / ((1000 : Int) : ℚ)) - ((i : ℚ) + 1) / ((1000 : Int) : ℚ)| < ((cv : ℚ) : ℚ)) id) :=
  C140_uniform_ks (G := exGenQ) (Or.inr rfl) (by decide) (by norm_num) (by norm_num)
    (fun i _ => ⟨(exGenQ_unif state i).1.le, (exGenQ_unif state i).2⟩) (by norm_num) (by norm_num) (by norm_num) (by norm_num)


end

section
variable [Field R] [LinearOrder R] [IsStrictOrderedRing R]

/-- C140 (samples from given weights, Kolmogorov-Smirnov). With uniform values in (0, 1] the test passes exactly if for each `i < n` the share of the `m` uniform
values that are at most `F i` is within the critical value of `F i`, where `F i` is the sum of the first `i + 1` positive parts of the weights
over the sum of all; otherwise the first such `i` is reported. -/
theorem C140_iid_ks {G : Gen N K W R} {n num : Int} {pow : Int → R} {sig : ℚ} {thresh below : R} {state : RNGState N K} (hG : G.Ok) (hn : 0 < n)
    (hnum : 8 ≤ num ∧ num ≤ 2 ^ 24) (hs : 1 / 10 ^ 6 ≤ sig ∧ sig ≤ 5 / 100)
    (hu : ∀ i, 0 ≤ i → 0 < unif01 G state i ∧ unif01 G state i ≤ 1) (ht : 0 < thresh) (hw : ∀ i, 0 ≤ i → i < n → below ≤ pow i)
    (hsum : thresh ≤ posSum pow n.toNat) (ht8 : thresh ≤ num) (hb : below ≤ 0) :
    ∃ (cv : ℚ) (m : Nat) (sig' : ℚ), SmallestSize num m ∧ LargestLevel sig sig' ∧ (¬ (1 / 10 ^ 5 ≤ sig ∧ sig < 1 / 10 ^ 4 ∧ 2 ^ 23 < num) → KsCritical m sig' cv) ∧
      M.wp (testIidKs G n pow sig num thresh below state) () (fun o _ =>
        FirstWithout o n (fun i => |shareOf m (fun t => unif01 G state t ≤ posSum pow (i.toNat + 1) / posSum pow n.toNat) -
          posSum pow (i.toNat + 1) / posSum pow n.toNat| < (cv : R)) id) := by
  obtain ⟨cv, m, sig', e, hm, hl, hc⟩ := lookup_exists hnum hs
  have hm0 : num ≤ m := hm.2.1
  obtain ⟨m, rfl⟩ : ∃ m' : Nat, m = m' := ⟨m.toNat, by omega⟩
  refine ⟨cv, m, sig', hm, hl, fun h => by simpa using hc h, ?_⟩
  unfold testIidKs
  rw [M.wp_bind, M.wp_lift]
  refine ⟨_, (C113_mutator_partial (by constructor <;> simp only [intMin, intMax] <;> omega)).trans e, ?_⟩
  dsimp only
  rw [M.wp_bind, M.wp_onLocal]
  refine M.wp_mono (C22_weights_to_cdf (v := pow) hn (fun i h0 h1 => Buf.ofFn_in h0 h1) hw ht hsum) ?_
  rintro - cdf ⟨f, hf, hcdf, -⟩
  rw [M.wp_bind, M.wp_onLocal]
  refine M.wp_mono (C23_inverse_cdf hG hcdf (fun i h0 h1 => (hf i h0 h1).1) (Int.natCast_nonneg m) (fun p h0 h1 => by simp [Buf.fill, h0, h1])
    (fun i h0 _ => hu i h0)) ?_
  rintro st b ⟨hb', -, -⟩
  have hx : ∀ t : Nat, ∃ j : Int, t < m → b t = .val j ∧ 0 ≤ j ∧ j < n ∧ unif01 G state t ≤ f j ∧ ∀ l, 0 ≤ l → l < j → f l < unif01 G state t := by
    intro t
    by_cases h : t < m
    · obtain ⟨j, h1, h2, h3, h4, h5, -⟩ := hb' t (by omega) (by omega)
      exact ⟨j, fun _ => ⟨h1, h2, h3, h4, h5⟩⟩
    · exact ⟨0, fun h' => absurd h' h⟩
  choose x hx using hx
  rw [M.wp_bind, M.wp_lift]
  refine ⟨_, elements_ok (x := x) (fun i hi => (hx i (by simpa using hi)).1), ?_⟩
  simp only [Int.toNat_natCast]
  have hthm : thresh ≤ (m : R) := ht8.trans (by exact_mod_cast hm0)
  have hempty : (List.range m).map x ≠ [] := by
    intro h; have := congrArg List.length h; simp at this; omega
  refine M.wp_mono (C114_index_test (f := f) (n := n) ?_ hempty (fun i h0 h1 => (hf i h0 h1).1) (by simpa using hthm) hb) ?_
  · intro s hs
    obtain ⟨t, ht, rfl⟩ := List.mem_map.mp hs
    have := hx t (List.mem_range.mp ht)
    exact ⟨this.2.1, this.2.2.1⟩
  · rintro o - ⟨h1, h2⟩
    have key : ∀ i, 0 ≤ i → i < n → (empCdfInt ((List.range m).map x) i - f i : R) =
        shareOf m (fun t => unif01 G state t ≤ posSum pow (i.toNat + 1) / posSum pow n.toNat) - posSum pow (i.toNat + 1) / posSum pow n.toNat := by
      intro i h0 hi
      rw [← (hf i h0 hi).2, empCdfInt_share]
      congr 1
      apply shareOf_congr
      intro t ht
      obtain ⟨-, a1, a2, a3, a4⟩ := hx t ht
      constructor
      · intro h; exact a3.trans (hcdf.mono _ _ a1 h hi)
      · intro h; by_contra hc; exact absurd (a4 i h0 (by omega)) (not_lt.mpr h)
    rcases o with - | i
    · exact Or.inl ⟨rfl, fun i h0 hi => by have := h1.mp rfl i h0 hi; rwa [key i h0 hi] at this⟩
    · obtain ⟨h0, hi, hge, hlt⟩ := h2 i rfl
      refine Or.inr ⟨i, rfl, h0, hi, ?_, fun j hj0 hj => ?_⟩
      · show ¬ |_| < _
        rw [← key i h0 hi]; exact not_lt.mpr hge
      · have := hlt j hj0 hj; rwa [key j hj0 (by omega)] at this

example (state : RNGState (2 ^ 128) Nat) : ∃ (cv : ℚ) (m : Nat) (sig' : ℚ), SmallestSize 100000 m ∧ LargestLevel (1 / 100) sig' ∧ (¬ (1 / 10 ^ 5 ≤ (1 / 100 : ℚ) ∧ (1 / 100 : ℚ) < 1 / 10 ^ 4 ∧ (2 : Int) ^ 23 < 100000) → KsCritical m sig' cv) ∧
    M.wp (testIidKs exGenQ 2 (fun i => 1 / (i + 1)) (1 / 100) 100000 (1 / 1000) (-1 / 1000) state) () (fun o _ =>
      FirstWithout o 2 (fun i => |shareOf m (fun t => unif01 exGenQ state t ≤ posSum (fun i : Int => 1 / ((i : ℚ) + 1)) (i.toNat + 1) / posSum (fun i : Int => 1 / ((i : ℚ) + 1)) (2 : Int).toNat) -
        posSum (fun i : Int => 1 / ((i : ℚ) + 1)) (i.toNat + 1) / posSum (fun i : Int => 1 / ((i : ℚ) + 1)) (2 : Int).toNat| < ((cv : ℚ) : ℚ)) id) := by
  refine C140_iid_ks (G := exGenQ) (Or.inr rfl) (by decide) (by norm_num) (by norm_num)
    (fun i _ => ⟨(exGenQ_unif state i).1, (exGenQ_unif state i).2.le⟩) (by norm_num) (fun i h0 _ => ?_) ?_ (by norm_num) (by norm_num)
  · have : (0 : ℚ) ≤ i := by exact_mod_cast h0
    have : (0 : ℚ) ≤ 1 / (i + 1) := by positivity
    linarith
  · simp [posSum, Finset.sum_range_succ]; norm_num


end

/-! ## The states after sampling -/

theorem lowWord_offset {key : K} {offset c : Int} (hN : 2 ^ 32 ≤ N) (h0 : 0 ≤ offset) (hc : 0 ≤ c) (hlt : offset + c < 2 ^ 32) :
    lowWord (advance (offsetState (N := N) key offset) c) = offset + c := by
  unfold lowWord advance offsetState RNGState.incr ctrIncr
  simp only [zero_add]
  rw [Int.emod_eq_of_lt h0 (by omega)]
  obtain ⟨a, rfl⟩ : ∃ a : Nat, offset = a := ⟨offset.toNat, by omega⟩
  obtain ⟨d, rfl⟩ : ∃ d : Nat, c = d := ⟨c.toNat, by omega⟩
  rw [show (((a : Int) : ZMod N) + ((d : Int) : ZMod N)) = ((a + d : Nat) : ZMod N) by push_cast; rfl, ZMod.val_natCast_of_lt (by omega)]
  push_cast
  exact Int.emod_eq_of_lt (by omega) (by omega)

/-- C140 (what the tests of the returned states decide). For any sampler that advances the counter by an amount `inc k` that depends only on the number of samples,
the first expectation always holds; the other two hold exactly if `inc (2k) ≤ 2 inc k` and `2 inc k ≤ inc (2k) + 1`. -/
theorem C140_states_decide {sample : Int → RNGState N K → M (Buf Int) (RNGState N K)} {inc : Int → Int} {key : K} {offset k : Int} (hN : 2 ^ 32 ≤ N)
    (h0 : 0 ≤ offset)
    (hs : ∀ j st b, j = k ∨ j = 2 * k → AllocTo b (2 * k) → M.wp (sample j st) b (fun st' b' => st' = advance st (inc j) ∧ AllocTo b' (2 * k)))
    (hi1 : 0 ≤ inc k) (hi2 : 0 ≤ inc (2 * k)) (hl1 : offset + 2 * inc k < 2 ^ 32) (hl2 : offset + inc (2 * k) + 1 < 2 ^ 32) :
    M.wp (testUpdatedStates sample key offset k) () (fun r _ =>
      r = (true, decide (inc (2 * k) ≤ 2 * inc k), decide (2 * inc k ≤ inc (2 * k) + 1))) := by
  unfold testUpdatedStates
  simp only
  rw [M.wp_bind, M.wp_onLocal, M.wp_bind]
  refine M.wp_mono (hs k _ _ (Or.inl rfl) (fun p h0 h1 => by simp [Buf.fill, h0, h1])) ?_
  rintro s1 b1 ⟨rfl, hb1⟩
  rw [M.wp_bind]
  refine M.wp_mono (hs k _ _ (Or.inl rfl) hb1) ?_
  rintro s2 b2 ⟨rfl, hb2⟩
  rw [M.wp_bind]
  refine M.wp_mono (hs (2 * k) _ _ (Or.inr rfl) hb2) ?_
  rintro t b3 ⟨rfl, hb3⟩
  simp only [M.wp_pure]
  rw [advance_advance, lowWord_offset hN h0 hi1 (by omega), lowWord_offset hN h0 (by omega) (by omega), lowWord_offset hN h0 hi2 (by omega)]
  have e1 : (offset + (inc k + inc k) - offset) % 2 ^ 32 = (2 * ((offset + inc k - offset) % 2 ^ 32)) % 2 ^ 32 := by omega
  have e2 : (offset + inc (2 * k) ≤ offset + (inc k + inc k)) ↔ inc (2 * k) ≤ 2 * inc k := by omega
  have e3 : (offset + (inc k + inc k) ≤ (offset + inc (2 * k) + 1) % 2 ^ 32) ↔ 2 * inc k ≤ inc (2 * k) + 1 := by omega
  rw [Prod.mk.injEq, Prod.mk.injEq]
  exact ⟨decide_eq_true e1, decide_eq_decide.mpr e2, decide_eq_decide.mpr e3⟩

theorem counters_double {len k : Int} (hl : 0 < len) :
    countersPerVector len (2 * k) ≤ 2 * countersPerVector len k ∧ 2 * countersPerVector len k ≤ countersPerVector len (2 * k) + 1 := by
  unfold countersPerVector
  have h1 := Int.mul_ediv_add_emod (k + len - 1) len
  have h2 := Int.mul_ediv_add_emod (2 * k + len - 1) len
  have h3 := Int.emod_nonneg (k + len - 1) hl.ne'
  have h4 := Int.emod_lt_of_pos (k + len - 1) hl
  have h5 := Int.emod_nonneg (2 * k + len - 1) hl.ne'
  have h6 := Int.emod_lt_of_pos (2 * k + len - 1) hl
  generalize (k + len - 1) / len = a at *
  generalize (2 * k + len - 1) / len = c at *
  constructor <;> by_contra hc
  · have : 2 * a + 1 ≤ c := by omega
    nlinarith
  · have : c + 2 ≤ 2 * a := by omega
    nlinarith

theorem counters_nonneg {len k : Int} (hl : 0 < len) (hk : 0 ≤ k) : 0 ≤ countersPerVector len k := Int.ediv_nonneg (by omega) (by omega)

/-- C140 (states after uniform sampling). All three expectations hold, whatever the values of the generator. -/
theorem C140_uniform_states [Field R] [LinearOrder R] [FloorRing R] {G : Gen N K W R} {key : K} {offset n k : Int} (hG : G.Ok) (hN : 2 ^ 32 ≤ N)
    (h0 : 0 ≤ offset) (hk : 0 ≤ k) (hlt : offset + 2 * k + 2 < 2 ^ 32) :
    M.wp (testUpdatedStatesUniform G key offset n k) () (fun r _ => r = (true, true, true)) := by
  have hlen : 2 ≤ G.len := by rcases hG with h | h <;> omega
  have hle : ∀ j, 0 ≤ j → countersPerVector G.len j ≤ j := fun j hj => by
    unfold countersPerVector; rcases hG with h | h <;> rw [h] <;> omega
  have hle2 : 2 * countersPerVector G.len k ≤ 2 * k := by have := hle k hk; omega
  have hd := counters_double (len := G.len) (k := k) (by omega)
  refine M.wp_mono (C140_states_decide (inc := fun j => countersPerVector G.len j) hN h0 ?_ (counters_nonneg (by omega) hk)
    (counters_nonneg (by omega) (by omega)) (by omega) (by have := hle (2 * k) (by omega); omega)) ?_
  · intro j st b hj hb
    have hj' : 0 ≤ j ∧ j ≤ 2 * k := by omega
    unfold sampleIndicesIidUniformPublic
    rw [M.wp_zoom]
    refine ⟨_, _, sampleUniform_spec hG hj'.1 (fun p h0 h1 => by rw [zero_add]; exact hb p h0 (by omega)) (fun h => by cases h), by simp [wordsPerSample], ?_⟩
    intro p hp0 hp1
    simp only
    by_cases hp : p < j
    · have := Buf.overAt_in (off := 0) (f := unifSample G st n false) (b := b) hp0 hp
      rw [zero_add] at this
      rw [this]; simp
    · rw [Buf.overAt_out (by omega)]; exact hb p hp0 hp1
  · rintro r - rfl
    simp only [decide_eq_true hd.1, decide_eq_true hd.2]

example : M.wp (testUpdatedStatesUniform exGenQ 0 3456 40 17) () (fun r _ => r = (true, true, true)) :=
  C140_uniform_states (G := exGenQ) (Or.inr rfl) (by decide) (by decide) (by decide) (by decide)

/-- C140 (states after sampling from a distribution). All three expectations hold, whatever the values of the generator. -/
theorem C140_iid_states [Field R] [LinearOrder R] [IsStrictOrderedRing R] {G : Gen N K W R} {key : K} {offset n k : Int} {thresh below : R} (hG : G.Ok)
    (hN : 2 ^ 32 ≤ N) (h0 : 0 ≤ offset) (hk : 0 ≤ k) (hlt : offset + 2 * k + 2 < 2 ^ 32) (hn : 0 < n) (ht : 0 < thresh) (htn : thresh ≤ n) (hb : below ≤ 0) :
    M.wp (testUpdatedStatesIid G key offset n k thresh below) () (fun r _ => r = (true, true, true)) := by
  have hlen : 2 ≤ G.len := by rcases hG with h | h <;> omega
  have hle : ∀ j, 0 ≤ j → countersPerVector G.len j ≤ j := fun j hj => by
    unfold countersPerVector; rcases hG with h | h <;> rw [h] <;> omega
  have hle2 : 2 * countersPerVector G.len k ≤ 2 * k := by have := hle k hk; omega
  have hd := counters_double (len := G.len) (k := k) (by omega)
  unfold testUpdatedStatesIid
  rw [M.wp_bind, M.wp_onLocal]
  have hnn : ((n.toNat : Nat) : R) = n := by
    have : ((n.toNat : Nat) : Int) = n := by omega
    exact_mod_cast congrArg (Int.cast (R := R)) this
  refine M.wp_mono (C22_weights_to_cdf (v := fun _ => 1) hn (fun i h0 h1 => by simp [Buf.fill, h0, h1]) (fun i _ _ => hb.trans zero_le_one) ht
    (by simp [posSum, hnn, htn])) ?_
  rintro - cdf ⟨f, hf, hcdf, -⟩
  refine M.wp_mono (C140_states_decide (inc := fun j => countersPerVector G.len j) hN h0 ?_ (counters_nonneg (by omega) hk)
    (counters_nonneg (by omega) (by omega)) (by omega) (by have := hle (2 * k) (by omega); omega)) ?_
  · intro j st b hj hb
    have hj' : 0 ≤ j ∧ j ≤ 2 * k := by omega
    refine M.wp_mono (sampleIndicesIid_spec hG hn.le hj'.1 (fun i h0 h1 => (hf i h0 h1).1) hcdf.mono (fun p h0 h1 => hb p h0 (by omega))) ?_
    rintro st' b' ⟨h1, h2, h3⟩
    refine ⟨h1, fun p hp0 hp1 => ?_⟩
    by_cases hp : p < j
    · obtain ⟨i, hi, -⟩ := h2 p hp0 hp
      rw [hi]; simp
    · rw [h3 p (by omega)]; exact hb p hp0 hp1
  · rintro r - rfl
    simp only [decide_eq_true hd.1, decide_eq_true hd.2]

example : M.wp (testUpdatedStatesIid exGenQ 0 8675309 29 13 (1 / 1000) (-1 / 1000)) () (fun r _ => r = (true, true, true)) :=
  C140_iid_states (G := exGenQ) (Or.inr rfl) (by decide) (by decide) (by decide) (by decide) (by decide) (by norm_num) (by norm_num) (by norm_num)

/-- C140: the tests of the returned states do not notice a sampler that returns the state it was given. -/
theorem C140_states_blind {sample : Int → RNGState N K → M (Buf Int) (RNGState N K)} {key : K} {offset k : Int} (hN : 2 ^ 32 ≤ N)
    (h0 : 0 ≤ offset) (hlt : offset + 1 < 2 ^ 32)
    (hs : ∀ j st b, AllocTo b (2 * k) → M.wp (sample j st) b (fun st' b' => st' = st ∧ AllocTo b' (2 * k))) :
    M.wp (testUpdatedStates sample key offset k) () (fun r _ => r = (true, true, true)) := by
  refine M.wp_mono (C140_states_decide (inc := fun _ => 0) hN h0 ?_ le_rfl le_rfl (by omega) (by omega)) ?_
  · intro j st b _ hb
    refine M.wp_mono (hs j st b hb) ?_
    rintro st' b' ⟨rfl, h⟩
    exact ⟨(advance_zero _).symm, h⟩
  · rintro r - rfl
    simp

example : M.wp (testUpdatedStates (N := 2 ^ 128) (K := Nat) (fun _ st => pure st) 0 3456 17) () (fun r _ => r = (true, true, true)) :=
  C140_states_blind (by decide) (by decide) (by decide) fun j st b hb => by rw [M.wp_pure]; exact ⟨rfl, hb⟩

/-! ## Sampling without replacement -/

theorem fyIdx_advance {G : Gen N K W R} {state : RNGState N K} {k n r p : Int} (hk : 0 < k) :
    fyIdx G (advance state (r * k)) k n p = fyIdx G state k n (r * k + p) := by
  unfold fyIdx
  rw [show (r * k + p) / k = r + p / k by rw [add_comm, Int.add_mul_ediv_right _ _ hk.ne', add_comm],
    show (r * k + p) % k = p % k by rw [add_comm, Int.add_mul_emod_self_right]]
  have h : fyChoice G (advance state (r * k)) k (p / k) = fyChoice G state k (r + p / k) := by
    funext i
    unfold fyChoice advance
    simp only
    congr 2
    push_cast
    ring
  rw [h]

theorem fyPublic_ok {G : Gen N K W R} {state : RNGState N K} {k n r : Int} {b : Buf Int} (hlen : 2 ≤ G.len) (hk : 0 ≤ k) (hkn : k ≤ n) (hr : 0 ≤ r)
    (hb : AllocTo b (r * k)) (hfit : r * k ≤ intMax 64) :
    repeatedFisherYatesPublic G k n r state b = (.ok (advance state (r * k)), Buf.over (r * k) (fyIdx G state k n) b) := by
  suffices h : M.wp (repeatedFisherYatesPublic G k n r state) b (fun st b' => st = advance state (r * k) ∧ b' = Buf.over (r * k) (fyIdx G state k n) b) by
    obtain ⟨a, s, h1, rfl, rfl⟩ := h; exact h1
  unfold repeatedFisherYatesPublic
  rw [M.wp_bind, M.wp_get, M.wp_bind, M.wp_onLocal]
  refine ⟨_, _, repeatedFisherYates_spec (T := Int) hlen hk hkn hr ⟨hb, by simp, by simp⟩ hfit, ?_⟩
  simp only [M.wp_bind, M.wp_set, M.wp_pure]
  exact ⟨rfl, rfl⟩

/-- C140 (sampling without replacement). Drawing `r1` and then `r2` times gives the same indices and the same state as drawing `r1 + r2` times: both expectations
hold and the arrays are equal. -/
theorem C140_fisher_yates_states {G : Gen N K W R} {key : K} {offset n k r1 r2 : Int} (hG : G.Ok) (hN : 2 ^ 32 ≤ N) (h0 : 0 ≤ offset) (hk : 0 ≤ k)
    (hkn : k ≤ n) (hr1 : 0 < r1) (hr2 : 0 ≤ r2) (hlt : offset + (r1 + r2) * k < 2 ^ 31) :
    M.wp (testUpdatedStatesFisherYates G key offset n k r1 r2) () (fun r _ => r = (true, true, none)) := by
  have hlen : 2 ≤ G.len := by rcases hG with h | h <;> omega
  have p1 : 0 ≤ r1 * k := mul_nonneg hr1.le hk
  have p2 : 0 ≤ r2 * k := mul_nonneg hr2 hk
  have e12 : (r1 + r2) * k = r1 * k + r2 * k := add_mul ..
  have hmax : (2 : Int) ^ 31 ≤ intMax 64 := by decide
  unfold testUpdatedStatesFisherYates
  simp only
  rw [M.wp_bind, M.wp_onLocal, M.wp_bind]
  refine ⟨_, _, fyPublic_ok hlen hk hkn hr1.le (fun p h0 h1 => by simp [Buf.fill, h0, show p < (r1 + r2) * k by omega]) (by omega), ?_⟩
  beta_reduce
  rw [M.wp_bind, M.wp_zoom]
  refine ⟨_, _, fyPublic_ok hlen hk hkn hr2 (fun p h0 h1 => ?_) (by omega), ?_⟩
  · unfold Buf.shift Buf.over
    rw [if_neg (by omega)]
    simp [Buf.fill, show 0 ≤ r1 * k + p by omega, show r1 * k + p < (r1 + r2) * k by omega]
  simp only [M.wp_pure]
  rw [M.wp_bind, M.wp_onLocal]
  refine ⟨_, _, fyPublic_ok hlen hk hkn (by omega) (fun p h0 h1 => by simp [Buf.fill, h0, h1]) (by omega), ?_⟩
  beta_reduce
  rw [M.wp_bind]
  refine M.wp_mono (wp_findI_first (P := fun _ => True) (f := id) (by omega) (fun i hi0 hi1 _ => ?_) (fun i _ _ h => absurd trivial h)) ?_
  · have a1 : Buf.over ((r1 + r2) * k) (fyIdx G (offsetState key offset) k n) (Buf.fill ((r1 + r2) * k) 0) i = .val (fyIdx G (offsetState key offset) k n i) := by
      unfold Buf.over; rw [if_pos ⟨hi0, hi1⟩]
    have a2 : Buf.shift (Buf.over (r2 * k) (fyIdx G (advance (offsetState key offset) (r1 * k)) k n)
        (Buf.shift (Buf.over (r1 * k) (fyIdx G (offsetState key offset) k n) (Buf.fill ((r1 + r2) * k) 0)) (r1 * k))) (-(r1 * k)) i =
        .val (fyIdx G (offsetState key offset) k n i) := by
      unfold Buf.shift Buf.over
      by_cases h : i < r1 * k
      · rw [if_neg (by omega)]; beta_reduce; rw [if_pos (by omega)]; congr 2; ring
      · have hk' : 0 < k := by
          rcases hk.lt_or_eq with h' | h'
          · exact h'
          · subst h'; omega
        rw [if_pos (by omega), fyIdx_advance hk']; congr 2; ring
    simp [M.lift, Buf.rd, a1, a2, bind, M.bind, pure]
  · rintro o s ⟨-, ho⟩
    have ho : o = none := by
      rcases ho with h | ⟨i, -, -, -, h, -⟩
      · exact h.1
      · exact absurd trivial h
    rw [M.wp_pure, advance_advance, lowWord_offset hN h0 p1 (by omega), lowWord_offset hN h0 (by omega) (by omega), lowWord_offset hN h0 (by omega) (by omega), ho]
    have w : wrapInt 32 (offset + (r1 * k + r2 * k)) = offset + (r1 * k + r2 * k) := by unfold wrapInt; omega
    have c : ⌈((r1 + r2 : Int) : ℚ) / r1 * ((offset + r1 * k - offset) % 2 ^ 32 : Int)⌉ = (r1 + r2) * k := by
      rw [show (offset + r1 * k - offset) % 2 ^ 32 = r1 * k by rw [add_sub_cancel_left]; exact Int.emod_eq_of_lt p1 (by omega)]
      have hq : (r1 : ℚ) ≠ 0 := by exact_mod_cast hr1.ne'
      rw [show ((r1 + r2 : Int) : ℚ) / r1 * ((r1 * k : Int) : ℚ) = (((r1 + r2) * k : Int) : ℚ) by push_cast; field_simp, Int.ceil_intCast]
    rw [w, c, e12, Prod.mk.injEq, Prod.mk.injEq]
    exact ⟨decide_eq_true (by omega), decide_eq_true (by omega), rfl⟩

example : M.wp (testUpdatedStatesFisherYates exGenQ 0 306 29 17 1 3) () (fun r _ => r = (true, true, none)) :=
  C140_fisher_yates_states (G := exGenQ) (Or.inr rfl) (by decide) (by decide) (by decide) (by decide) (by decide) (by decide) (by decide)

/-! ## Degenerate distributions -/

section
variable [Field R] [LinearOrder R] [IsStrictOrderedRing R]

/-- The weights of the first case. -/
def evenWeights (i : Int) : R := if i % 2 = 0 ∧ i ≠ 10 then 1 / ((i : R) + 1) else 0

/-- The weights of the second case. -/
def deltaWeights (eps : R) (i : Int) : R := if i = 17 then 99 else if i = 3 then -eps / 10 else 0

/-- What sampling from the normalised weights returns for values in [0, 1]. -/
theorem sample_weights {G : Gen N K W R} {n k : Int} {cdf : Buf R} {f v : Int → R} {state : RNGState N K} {b : Buf Int} (hG : G.Ok) (hf : IsCdf n f)
    (hcdf : ∀ i, 0 ≤ i → i < n → cdf i = .val (f i) ∧ f i = posSum v (i.toNat + 1) / posSum v n.toNat) (hpos : 0 < posSum v n.toNat) (hk : 0 ≤ k) (hb : AllocTo b k)
    (hu : ∀ i, 0 ≤ i → i < k → 0 ≤ unif01 G state i ∧ unif01 G state i ≤ 1) :
    M.wp (sampleIndicesIid G n cdf k state) b (fun _ b' => ∀ i, 0 ≤ i → i < k → ∃ j, b' i = .val j ∧ 0 ≤ j ∧ j < n ∧
      (unif01 G state i = 0 → j = 0) ∧ (0 < unif01 G state i → 0 < v j) ∧ (j ≠ 0 → 0 < v j)) := by
  refine M.wp_mono (sampleIndicesIid_spec hG hf.pos.le hk (fun i h0 h1 => (hcdf i h0 h1).1) hf.mono hb) ?_
  rintro st b' ⟨-, h2, -⟩ i h0 hi
  obtain ⟨j, hj, hj0, hjn, hlo, hhi⟩ := h2 i h0 hi
  have hn := hf.pos
  have hlt : j < n := by
    by_contra hc
    have := hlo (n - 1) (by omega) (by omega)
    rw [hf.last] at this
    exact absurd (hu i h0 hi).2 (not_le.mpr this)
  have hup := hhi j le_rfl hlt
  have hz : ∀ m : Nat, posSum v (m + 1) = posSum v m + max 0 (v m) := fun m => Finset.sum_range_succ _ _
  have hstep : j ≠ 0 → 0 < v j := by
    intro hj'
    have a := hlo (j - 1) (by omega) (by omega)
    have b := a.trans_le hup
    rw [(hcdf _ (by omega) (by omega)).2, (hcdf j hj0 hlt).2, div_lt_div_iff_of_pos_right hpos, show (j - 1).toNat + 1 = j.toNat by omega, hz,
      show ((j.toNat : Nat) : Int) = j by omega] at b
    by_contra hc
    rw [max_eq_left (not_lt.mp hc), add_zero] at b
    exact absurd b (lt_irrefl _)
  refine ⟨j, hj, hj0, hlt, fun hu0 => ?_, fun hup' => ?_, hstep⟩
  · by_contra hc
    have a := hlo 0 le_rfl (by omega)
    rw [hu0] at a
    exact absurd (hf.nonneg 0 le_rfl hn) (not_le.mpr a)
  · by_cases hj' : j = 0
    · subst hj'
      have b := hup'.trans_le hup
      rw [(hcdf 0 le_rfl hn).2] at b
      by_contra hc
      rw [show (0 : Int).toNat + 1 = 0 + 1 from rfl, hz] at b
      have : max 0 (v ((0 : Nat) : Int)) = 0 := max_eq_left (not_lt.mp hc)
      rw [this] at b
      simp [posSum] at b
    · exact hstep hj'

theorem degenerate1_ok {thresh below : R} (ht : 0 < thresh) (ht1 : thresh ≤ 1) (hb : below ≤ 0) :
    M.wp (degenerateCdf1 thresh below) (Buf.fill 100 (0 : R)) (fun _ b' => 0 < posSum (evenWeights (R := R)) 100 ∧ ∃ f : Int → R,
      (∀ i, 0 ≤ i → i < 100 → b' i = .val (f i) ∧ f i = posSum evenWeights (i.toNat + 1) / posSum evenWeights 100) ∧ IsCdf 100 f) := by
  have hv0 : ∀ i : Int, 0 ≤ i → 0 ≤ evenWeights (R := R) i := by
    intro i hi
    have : (0 : R) ≤ i := by exact_mod_cast hi
    unfold evenWeights
    split_ifs
    · positivity
    · exact le_rfl
  have hsum : (1 : R) ≤ posSum (evenWeights (R := R)) 100 := by
    refine le_trans ?_ (Finset.single_le_sum (f := fun l : Nat => max 0 (evenWeights (R := R) l)) (fun i _ => le_max_left _ _) (Finset.mem_range.mpr (by norm_num : 0 < 100)))
    refine le_trans (le_of_eq ?_) (le_max_right _ _)
    simp [evenWeights]
  unfold degenerateCdf1
  rw [M.wp_bind]
  refine M.wp_forI (lo := 0) (hi := 50) (fun t b => ∀ i, 0 ≤ i → i < 100 → b i = .val (if i % 2 = 0 ∧ i < 2 * t then 1 / ((i : R) + 1) else 0)) (by decide) ?_ ?_ ?_
  · intro i h0 h1
    rw [if_neg (by omega)]; simp [Buf.fill, h0, h1]
  · intro t b ht0 ht1 hb'
    rw [M.wp_wr]
    refine ⟨by rw [hb' _ (by omega) (by omega)]; simp, fun i h0 h1 => ?_⟩
    rw [Buf.set_apply]
    by_cases hi : i = 2 * t
    · rw [if_pos hi, if_pos (by omega), hi]
    · rw [if_neg hi, hb' i h0 h1]
      congr 1
      exact if_congr (by omega) rfl rfl
  · intro b hb'
    rw [M.wp_bind, M.wp_wr]
    refine ⟨by rw [hb' _ (by omega) (by omega)]; simp, ?_⟩
    refine M.wp_mono (C22_weights_to_cdf (v := evenWeights) (by decide) ?_ (fun i h0 _ => hb.trans (hv0 i h0)) ht (ht1.trans hsum)) ?_
    · intro i h0 h1
      rw [Buf.set_apply]
      unfold evenWeights
      by_cases hi : i = 10
      · rw [if_pos hi, if_neg (by omega)]
      · rw [if_neg hi, hb' i h0 h1]
        congr 1
        exact if_congr (by omega) rfl rfl
    · rintro - b' ⟨f, h1, h2, -⟩
      exact ⟨lt_of_lt_of_le one_pos hsum, f, h1, h2⟩

theorem degenerate2_ok {thresh below eps : R} {b : Buf R} (ha : AllocTo b 100) (ht : 0 < thresh) (ht1 : thresh ≤ 1) (he : 0 < eps) (hb : below ≤ -eps / 10) :
    M.wp (degenerateCdf2 thresh below eps) b (fun _ b' => 0 < posSum (deltaWeights eps) 100 ∧ ∃ f : Int → R,
      (∀ i, 0 ≤ i → i < 100 → b' i = .val (f i) ∧ f i = posSum (deltaWeights eps) (i.toNat + 1) / posSum (deltaWeights eps) 100) ∧ IsCdf 100 f) := by
  have he' : -eps / 10 < 0 := div_neg_of_neg_of_pos (neg_lt_zero.mpr he) (by norm_num)
  have hsum : (1 : R) ≤ posSum (deltaWeights eps) 100 := by
    refine le_trans ?_ (Finset.single_le_sum (f := fun l : Nat => max 0 (deltaWeights eps l)) (fun i _ => le_max_left _ _) (Finset.mem_range.mpr (by norm_num : 17 < 100)))
    refine le_trans ?_ (le_max_right _ _)
    simp only [deltaWeights, Nat.cast_ofNat, if_true]
    norm_num
  unfold degenerateCdf2
  rw [M.wp_bind]
  refine M.wp_forI (lo := 0) (hi := 100) (fun t b => AllocTo b 100 ∧ ∀ i, 0 ≤ i → i < t → b i = .val (0 : R)) (by decide) ⟨ha, fun i _ _ => by omega⟩ ?_ ?_
  · rintro t b ht0 ht1 ⟨ha, hb'⟩
    rw [M.wp_wr]
    refine ⟨ha t ht0 ht1, fun i h0 h1 => ?_, fun i h0 h1 => ?_⟩
    · rw [Buf.set_apply]; split_ifs
      · simp
      · exact ha i h0 h1
    · rw [Buf.set_apply]; split_ifs
      · rfl
      · exact hb' i h0 (by omega)
  · rintro b ⟨ha, hb'⟩
    simp only [M.wp_bind, M.wp_wr, M.wp_rd, M.wp_require]
    refine ⟨ha _ (by decide) (by decide), by rw [Buf.set_apply, if_neg (by decide)]; exact ha _ (by decide) (by decide), -eps / 10, ?_, he', ?_⟩
    · rw [Buf.set_apply, if_pos rfl]
    refine M.wp_mono (C22_weights_to_cdf (v := deltaWeights eps) (by decide) ?_ (fun i h0 _ => ?_) ht (ht1.trans hsum)) ?_
    · intro i h0 h1
      rw [Buf.set_apply, Buf.set_apply]
      unfold deltaWeights
      by_cases h3 : i = 3
      · rw [if_pos h3, if_neg (by omega), if_pos h3]
      · by_cases h17 : i = 17
        · rw [if_neg h3, if_pos h17, if_pos h17]
        · rw [if_neg h3, if_neg h17, if_neg h17, if_neg h3]; exact hb' i h0 h1
    · refine hb.trans ?_
      unfold deltaWeights
      split_ifs
      · exact he'.le.trans (by norm_num)
      · exact le_rfl
      · exact he'.le
    · rintro - b' ⟨f, h1, h2, -⟩
      exact ⟨lt_of_lt_of_le one_pos hsum, f, h1, h2⟩

/-- C140 (degenerate distributions). With uniform values in [0, 1] the test passes exactly if none of the first 10000 values is 0; otherwise its second case
reports the first sample whose value is 0 (that sample is 0, an index with weight 0, and not 17). -/
theorem C140_degenerate {G : Gen N K W R} {thresh below eps : R} {state : RNGState N K} (hG : G.Ok) (ht : 0 < thresh) (ht1 : thresh ≤ 1) (he : 0 < eps)
    (hb : below ≤ -eps / 10) (hu : ∀ i, 0 ≤ i → i < 10000 → 0 ≤ unif01 G state i ∧ unif01 G state i ≤ 1) :
    M.wp (testIidDegenerate G thresh below eps state) () (fun o _ => FirstWithout o 10000 (fun i => 0 < unif01 G state i) (fun i => (164, i))) := by
  have he' : -eps / 10 < 0 := div_neg_of_neg_of_pos (neg_lt_zero.mpr he) (by norm_num)
  unfold testIidDegenerate
  norm_num only
  rw [M.wp_bind, M.wp_onLocal]
  refine M.wp_mono (degenerate1_ok ht ht1 (hb.trans he'.le)) ?_
  rintro - cdf ⟨hpos, f, hf, hcdf⟩
  rw [M.wp_bind, M.wp_onLocal]
  refine M.wp_mono (sample_weights hG hcdf hf hpos (by decide) (fun p h0 h1 => by simp [Buf.fill, h0, h1]) hu) ?_
  intro st b hs
  rw [M.wp_bind]
  refine M.wp_mono (wp_findI_first (P := fun _ => True) (f := fun i => (150, i)) (by decide) (fun i hi0 hi1 _ => ?_) (fun i _ _ h => absurd trivial h)) ?_
  · obtain ⟨j, hj, hj0, -, -, -, hv⟩ := hs i hi0 hi1
    have hj' : ¬ (j = 10 ∨ j.tmod 2 = 1) := by
      intro h
      have hne : j ≠ 0 := by rintro rfl; simp at h
      have := hv hne
      unfold evenWeights at this
      rw [if_neg] at this
      · exact lt_irrefl _ this
      · rintro ⟨h1, h2⟩
        rcases h with h | h
        · exact h2 h
        · rw [Int.tmod_eq_emod_of_nonneg hj0] at h; omega
    simp [M.lift, Buf.rd, hj, hj', bind, M.bind, pure]
  rintro o s ⟨-, ho⟩
  have ho : o = none := by
    rcases ho with h | ⟨i, -, -, -, h, -⟩
    · exact h.1
    · exact absurd trivial h
  subst ho
  simp only [Option.isSome_none, Bool.false_eq_true, if_false]
  rw [M.wp_bind, M.wp_onLocal]
  refine M.wp_mono (degenerate2_ok (fun p h0 h1 => by rw [(hf p h0 h1).1]; simp) ht ht1 he hb) ?_
  rintro - cdf2 ⟨hpos2, f2, hf2, hcdf2⟩
  rw [M.wp_bind, M.wp_lift]
  refine ⟨f2 17, by simp [Buf.rd, (hf2 17 (by decide) (by decide)).1], ?_⟩
  rw [if_neg (not_not.mpr (hcdf2.nonneg 17 (by decide) (by decide))), M.wp_bind, M.wp_onLocal, M.wp_bind]
  refine M.wp_forI (lo := 0) (hi := 10000) (fun _ b => AllocTo b 10000) (by decide) (fun p h0 h1 => ?_) ?_ ?_
  · obtain ⟨j, hj, -⟩ := hs p h0 h1
    rw [hj]; simp
  · intro t b ht0 ht1 ha
    rw [M.wp_wr]
    refine ⟨ha t ht0 ht1, fun i h0 h1 => ?_⟩
    rw [Buf.set_apply]; split_ifs
    · simp
    · exact ha i h0 h1
  intro b2 ha2
  refine M.wp_mono (sample_weights hG hcdf2 hf2 hpos2 (by decide) ha2 hu) ?_
  intro st2 b3 hs2
  refine M.wp_mono (wp_findI_first (P := fun i => 0 < unif01 G state i) (f := fun i => (164, i)) (by decide) (fun i hi0 hi1 hp => ?_) (fun i hi0 hi1 hp => ?_))
    fun o _ h => h.2
  · obtain ⟨j, hj, hj0, -, -, hv, -⟩ := hs2 i hi0 hi1
    have h17 : j = 17 := by
      have := hv hp
      unfold deltaWeights at this
      by_contra hc
      rw [if_neg hc] at this
      split_ifs at this
      · exact absurd this (not_lt.mpr he'.le)
      · exact lt_irrefl _ this
    simp [M.lift, Buf.rd, hj, h17, bind, M.bind, pure]
  · obtain ⟨j, hj, -, -, hz, -, -⟩ := hs2 i hi0 hi1
    have := hz (le_antisymm (not_lt.mp hp) (hu i hi0 hi1).1)
    subst this
    simp [M.lift, Buf.rd, hj, bind, M.bind, pure]

end

example (state : RNGState (2 ^ 128) Nat) : M.wp (testIidDegenerate exGenQ (1 / 1000) (-1 / 1000) (1 / 10000000) state) () (fun o _ => o = none) := by
  refine M.wp_mono (C140_degenerate (G := exGenQ) (Or.inr rfl) (by norm_num) (by norm_num) (by norm_num) (by norm_num)
    fun i _ _ => ⟨(exGenQ_unif state i).1.le, (exGenQ_unif state i).2.le⟩) ?_
  rintro o - (h | ⟨i, -, -, -, h, -⟩)
  · exact h.1
  · exact absurd (exGenQ_unif state i).1 h

end RB
