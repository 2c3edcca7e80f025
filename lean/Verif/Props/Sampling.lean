import Verif.Lemmas.Sampling
import Verif.Props.FisherYates
import Mathlib.Algebra.Order.Floor.Ring
import Mathlib.Data.Rat.Floor
import Mathlib.Algebra.Order.Archimedean.Basic

/-! # C22 - C24, C04 (index sampling): cumulative distributions and index sampling -/

namespace RB
open Spec
variable {N : Nat} {K W R T : Type}

/-! ## C22 -/

theorem posSum_nonneg [Field R] [LinearOrder R] [IsStrictOrderedRing R] (v : Int → R) (i : Nat) : 0 ≤ posSum v i :=
  Finset.sum_nonneg fun _ _ => le_max_left _ _

theorem posSum_mono [Field R] [LinearOrder R] [IsStrictOrderedRing R] (v : Int → R) {i j : Nat} (h : i ≤ j) : posSum v i ≤ posSum v j :=
  Finset.sum_le_sum_of_subset_of_nonneg (fun x hx => by simp at hx ⊢; omega) fun _ _ _ => le_max_left _ _

/-- C22. If all weights are at least `error_if_below` and the sum of the positive parts reaches the (positive) threshold, then
`w[i]` becomes the sum of the first `i+1` positive parts divided by the total; the result is a cumulative distribution function; nothing
outside the `n` elements is touched. -/
theorem C22_weights_to_cdf [Field R] [LinearOrder R] [IsStrictOrderedRing R] {n : Int} {thresh below : R} {b : Buf R} {v : Int → R}
    (hn : 0 < n) (hv : ∀ i, 0 ≤ i → i < n → b i = .val (v i)) (hbelow : ∀ i, 0 ≤ i → i < n → below ≤ v i)
    (ht : 0 < thresh) (hsum : thresh ≤ posSum v n.toNat) :
    M.wp (weightsToCdf n thresh below) b (fun _ b' => ∃ f : Int → R,
      (∀ i, 0 ≤ i → i < n → b' i = .val (f i) ∧ f i = posSum v (i.toNat + 1) / posSum v n.toNat) ∧ IsCdf n f ∧
      (∀ p, ¬ (0 ≤ p ∧ p < n) → b' p = b p)) := by
  have hpos : 0 < posSum v n.toNat := lt_of_lt_of_le ht hsum
  apply M.wp_of_wpx
  refine M.wpx_mono (weightsToCdf_spec hn.le hv) ?_ ?_
  · rintro - b' ⟨-, -, h1, h2⟩
    refine ⟨fun i => posSum v (i.toNat + 1) / posSum v n.toNat, fun i h0 h => ⟨h1 i h0 h, rfl⟩, ⟨hn, ?_, ?_, ?_⟩, h2⟩
    · intro i _ _; exact div_nonneg (posSum_nonneg _ _) hpos.le
    · intro i j h0 hij hj
      exact div_le_div_of_nonneg_right (posSum_mono v (by omega)) hpos.le
    · show posSum v ((n - 1).toNat + 1) / posSum v n.toNat = 1
      rw [show (n - 1).toNat + 1 = n.toNat by omega]; exact div_self hpos.ne'
  · rintro e b' ⟨-, h | h, -⟩
    · obtain ⟨i, h0, h1, h2⟩ := h
      exact absurd (hbelow i h0 h1) (not_le.mpr h2)
    · exact absurd hsum (not_le.mpr h)

/-- C22 (errors). If some weight is below `error_if_below`, or the total is below the threshold, an error is raised; no element outside
`w` is touched. -/
theorem C22_error [Field R] [LinearOrder R] [IsStrictOrderedRing R] {n : Int} {thresh below : R} {b : Buf R} {v : Int → R}
    (hn : 0 ≤ n) (hv : ∀ i, 0 ≤ i → i < n → b i = .val (v i))
    (hbad : (∃ i, 0 ≤ i ∧ i < n ∧ v i < below) ∨ posSum v n.toNat < thresh) :
    ∃ b', weightsToCdf n thresh below b = (.throw .require, b') ∧ ∀ p, ¬ (0 ≤ p ∧ p < n) → b' p = b p := by
  have h := weightsToCdf_spec (thresh := thresh) (below := below) hn hv
  unfold M.wpx at h
  rcases hm : weightsToCdf n thresh below b with ⟨r, b'⟩
  rw [hm] at h
  cases r with
  | ok a =>
    obtain ⟨h1, h2, -⟩ := h
    rcases hbad with ⟨i, h0, h3, h4⟩ | h5
    · exact absurd (h1 i h0 h3) (not_le.mpr h4)
    · exact absurd h2 (not_le.mpr h5)
  | throw e =>
    obtain ⟨rfl, -, h3⟩ := h
    exact ⟨b', rfl, h3⟩
  | ub => exact h.elim

/-- The hypotheses of C22 hold for the weights 1, -1/10, 3 with `error_if_below = -1/2`. -/
example : ∃ (b : Buf ℚ) (v : Int → ℚ), (∀ i, 0 ≤ i → i < 3 → b i = .val (v i)) ∧ (∀ i, 0 ≤ i → i < 3 → (-1/2 : ℚ) ≤ v i) ∧
    (1/10 : ℚ) ≤ posSum v (3 : Int).toNat := by
  refine ⟨Buf.ofFn 3 (fun i => if i = 0 then 1 else if i = 1 then -1/10 else 3), _, fun i h0 h1 => Buf.ofFn_in h0 h1, ?_, ?_⟩
  · intro i h0 h1; split_ifs <;> norm_num
  · show (1/10 : ℚ) ≤ posSum _ 3
    norm_num [posSum, Finset.sum_range_succ]

/-! ## C23 -/

/-- C23. Given a cumulative distribution function and uniform values in (0, 1], sample `i` is the least index `j` with
`cdf[j] >= u_i`; it is in `{0..n-1}` and has positive mass; exactly `k` elements are written; the returned state is the given one
advanced by `k / len` rounded up. -/
theorem C23_inverse_cdf [Field R] [LinearOrder R] [IsStrictOrderedRing R] {G : Gen N K W R} {n k : Int} {cdf : Buf R} {f : Int → R}
    {state : RNGState N K} {b : Buf Int} (hG : G.Ok) (hf : IsCdf n f) (hcdf : ∀ i, 0 ≤ i → i < n → cdf i = .val (f i)) (hk : 0 ≤ k)
    (hb : AllocTo b k) (hu : ∀ i, 0 ≤ i → i < k → 0 < unif01 G state i ∧ unif01 G state i ≤ 1) :
    M.wp (sampleIndicesIid G n cdf k state) b (fun st b' =>
      (∀ i, 0 ≤ i → i < k → ∃ j, b' i = .val j ∧ 0 ≤ j ∧ j < n ∧ unif01 G state i ≤ f j ∧
        (∀ l, 0 ≤ l → l < j → f l < unif01 G state i) ∧ 0 < mass f j) ∧
      (∀ p, ¬ (0 ≤ p ∧ p < k) → b' p = b p) ∧ st = advance state (countersPerVector G.len k)) := by
  refine M.wp_mono (sampleIndicesIid_spec hG hf.pos.le hk hcdf hf.mono hb) ?_
  rintro st b' ⟨h1, h2, h3⟩
  refine ⟨fun i h0 hi => ?_, h3, h1⟩
  obtain ⟨j, hj, hj0, hjn, hlo, hhi⟩ := h2 i h0 hi
  have hu' := hu i h0 hi
  have hlt : j < n := by
    by_contra hcon
    have : j = n := by omega
    subst this
    have := hlo (j - 1) (by have := hf.pos; omega) (by omega)
    rw [hf.last] at this
    exact absurd hu'.2 (not_le.mpr this)
  refine ⟨j, hj, hj0, hlt, hhi j le_rfl hlt, hlo, ?_⟩
  unfold mass
  split_ifs with hz
  · have := hhi j le_rfl hlt
    rw [hz] at this
    exact lt_of_lt_of_le hu'.1 this
  · have a := hlo (j - 1) (by omega) (by omega)
    have b := hhi j le_rfl hlt
    linarith

/-- C23 needs `u > 0`: with `u = 0` (the generator's smallest word, rounded) index 0 is returned even if its mass is zero. -/
theorem C23_zero_uniform_counterexample : ∃ (G : Gen 16 Nat Int ℚ) (cdf : Buf ℚ) (f : Int → ℚ), G.Ok ∧ IsCdf 2 f ∧
    (∀ i, 0 ≤ i → i < 2 → cdf i = .val (f i)) ∧ (∀ i, 0 ≤ unif01 G ⟨0, 0⟩ i ∧ unif01 G ⟨0, 0⟩ i ≤ 1) ∧
    M.wp (sampleIndicesIid G 2 cdf 1 ⟨0, 0⟩) (Buf.alloc Int 1) (fun _ b' => ∃ j, b' 0 = .val j ∧ mass f j = 0) := by
  let G : Gen 16 Nat Int ℚ := { len := 4, word := fun _ _ _ => 0, boxmuller := fun _ _ => (0, 0), uneg11 := fun _ => -1, nat := Int.toNat }
  let f : Int → ℚ := fun i => if i = 0 then 0 else 1
  have hf : IsCdf 2 f := ⟨by decide, fun i _ _ => by simp only [f]; split_ifs <;> norm_num,
    fun i j h0 hij hj => by simp only [f]; split_ifs <;> norm_num; omega, by simp [f]⟩
  have hc : ∀ i, 0 ≤ i → i < 2 → (Buf.ofFn 2 f) i = .val (f i) := fun i h0 h1 => Buf.ofFn_in h0 h1
  have hu : ∀ i, unif01 G ⟨0, 0⟩ i = 0 := fun i => by simp [unif01, stream, G]
  refine ⟨G, Buf.ofFn 2 f, f, Or.inr rfl, hf, hc, fun i => by rw [hu]; norm_num, ?_⟩
  refine M.wp_mono (sampleIndicesIid_spec (Or.inr rfl) (by decide) (by decide) hc hf.mono (allocTo_alloc 1)) ?_
  rintro st b' ⟨-, h2, -⟩
  obtain ⟨j, hj, hj0, hjn, hlo, hhi⟩ := h2 0 le_rfl (by decide)
  refine ⟨j, hj, ?_⟩
  have : j = 0 := by
    by_contra hcon
    have := hlo 0 le_rfl (by omega)
    rw [hu] at this
    simp [f] at this
  subst this; simp [mass, f]

/-- A generator satisfying the hypotheses of C23 and C24. -/
def exGenQ : Gen (2 ^ 128) Nat Int ℚ :=
  { len := 4, word := fun c k i => (c.val + k + i) % 3, boxmuller := fun a b => (a, b), uneg11 := fun a => (a - 1) / 2, nat := Int.toNat }

theorem exGenQ_unif (state : RNGState (2 ^ 128) Nat) (t : Int) : 0 < unif01 exGenQ state t ∧ unif01 exGenQ state t < 1 := by
  have h : ∀ x : Int, 0 ≤ x → x < 3 → (0 : ℚ) < (((x : ℚ) - 1) / 2 + 1) / 2 ∧ (((x : ℚ) - 1) / 2 + 1) / 2 < 1 := by
    intro x h0 h1
    interval_cases x <;> norm_num
  exact h _ (Int.emod_nonneg _ (by decide)) (Int.emod_lt_of_pos _ (by decide))

example (state : RNGState (2 ^ 128) Nat) : exGenQ.Ok ∧ IsCdf (R := ℚ) 4 (fun i => (i + 1) / 4) ∧
    (∀ i, (0 : Int) ≤ i → i < 10 → 0 < unif01 exGenQ state i ∧ unif01 exGenQ state i ≤ 1) := by
  refine ⟨Or.inr rfl, ⟨by decide, ?_, ?_, by norm_num⟩, fun i _ _ => ⟨(exGenQ_unif state i).1, (exGenQ_unif state i).2.le⟩⟩
  · intro i h0 _
    have : (0 : ℚ) ≤ i := by exact_mod_cast h0
    positivity
  · intro i j _ hij _
    have : (i : ℚ) ≤ j := by exact_mod_cast hij
    linarith

/-! ## C24 -/

theorem trunc_unit [Field R] [LinearOrder R] [IsStrictOrderedRing R] [FloorRing R] {n : Int} {u : R} (hn : 0 < n) (h0 : 0 ≤ u) (h1 : u < 1) :
    truncToInt ((n : R) * u) = ⌊(n : R) * u⌋ ∧ 0 ≤ ⌊(n : R) * u⌋ ∧ ⌊(n : R) * u⌋ < n := by
  have hn' : (0 : R) < n := by exact_mod_cast hn
  have hx : 0 ≤ (n : R) * u := mul_nonneg hn'.le h0
  refine ⟨by unfold truncToInt; rw [if_pos hx], Int.floor_nonneg.mpr hx, ?_⟩
  rw [Int.floor_lt]
  nlinarith

/-- C24. For uniform values in [0, 1), sample `i` is `floor(n * u_i) ∈ {0..n-1}`, where `u_i` is value number `i` of the stream; exactly `k`
elements are written; the returned state is the given one advanced by `k / len` rounded up. -/
theorem C24_uniform [Field R] [LinearOrder R] [IsStrictOrderedRing R] [FloorRing R] {G : Gen N K W R} {n k : Int} {state : RNGState N K}
    {b : Buf Int} (hG : G.Ok) (hn : 0 < n) (hk : 0 ≤ k) (hb : AllocTo b k)
    (hu : ∀ i, 0 ≤ i → i < k → 0 ≤ unif01 G state i ∧ unif01 G state i < 1) :
    M.wp (sampleIndicesIidUniformPublic G n k state) b (fun st b' =>
      (∀ i, 0 ≤ i → i < k → b' i = .val ⌊(n : R) * unif01 G state i⌋ ∧ 0 ≤ ⌊(n : R) * unif01 G state i⌋ ∧ ⌊(n : R) * unif01 G state i⌋ < n) ∧
      (∀ p, ¬ (0 ≤ p ∧ p < k) → b' p = b p) ∧ st = advance state (countersPerVector G.len k)) := by
  unfold sampleIndicesIidUniformPublic
  rw [M.wp_zoom]
  refine ⟨_, _, sampleUniform_spec hG hk (fun p h0 h1 => by rw [zero_add]; exact hb p h0 h1) (fun h => by cases h), ?_, ?_, ?_⟩
  · intro i h0 h1
    have hui := hu i h0 h1
    obtain ⟨t1, t2, t3⟩ := trunc_unit hn hui.1 hui.2
    refine ⟨?_, t2, t3⟩
    have := Buf.overAt_in (off := 0) (f := unifSample G state n false) (b := b) h0 h1
    rw [zero_add] at this
    simp only
    rw [this, ← t1]
    simp [unifSample, wordsPerSample]
  · intro p hp
    exact Buf.overAt_out (by omega)
  · simp [wordsPerSample]

/-- C24 (with signs). Sample `i` and sign `i` use values `2i` and `2i+1` of the stream; every sign is +1 or -1; the returned state is the given one
advanced by `2k / len` rounded up. -/
theorem C24_with_signs [Field R] [LinearOrder R] [IsStrictOrderedRing R] [FloorRing R] [One T] [Neg T] {G : Gen N K W R} {n k : Int}
    {state : RNGState N K} {b : UnifBufs T} (hG : G.Ok) (hn : 0 < n) (hk : 0 ≤ k) (hb : AllocTo b.samples k) (hr : AllocTo b.rademachers k)
    (hu : ∀ i, 0 ≤ i → i < k → 0 ≤ unif01 G state (2 * i) ∧ unif01 G state (2 * i) < 1) :
    M.wp (sampleIndicesIidUniform G true n k 0 state) b (fun st b' =>
      (∀ i, 0 ≤ i → i < k → b'.samples i = .val ⌊(n : R) * unif01 G state (2 * i)⌋ ∧ 0 ≤ ⌊(n : R) * unif01 G state (2 * i)⌋ ∧
        ⌊(n : R) * unif01 G state (2 * i)⌋ < n) ∧
      (∀ i, 0 ≤ i → i < k → b'.rademachers i = .val (if 0 ≤ stream G state (2 * i + 1) then 1 else -1)) ∧
      (∀ p, ¬ (0 ≤ p ∧ p < k) → b'.samples p = b.samples p ∧ b'.rademachers p = b.rademachers p) ∧
      st = advance state (countersPerVector G.len (2 * k))) := by
  refine ⟨_, _, sampleUniform_spec hG hk (fun p h0 h1 => by rw [zero_add]; exact hb p h0 h1)
    (fun _ p h0 h1 => by rw [zero_add]; exact hr p h0 h1), ?_, ?_, ?_, ?_⟩
  · intro i h0 h1
    have hui := hu i h0 h1
    obtain ⟨t1, t2, t3⟩ := trunc_unit hn hui.1 hui.2
    refine ⟨?_, t2, t3⟩
    have := Buf.overAt_in (off := 0) (f := unifSample G state n true) (b := b.samples) h0 h1
    rw [zero_add] at this
    simp only
    rw [this, ← t1]
    simp [unifSample, wordsPerSample]
  · intro i h0 h1
    have := Buf.overAt_in (off := 0) (f := unifSign (T := T) G state) (b := b.rademachers) h0 h1
    rw [zero_add] at this
    simp only [if_true]
    rw [this]; rfl
  · intro p hp
    exact ⟨Buf.overAt_out (by omega), by simp only [if_true]; exact Buf.overAt_out (by omega)⟩
  · simp [wordsPerSample]

/-- C24 needs `u < 1`: with `u = 1` (the generator's largest word, rounded to single precision) the sample is `n`, which is out of range. -/
theorem C24_one_counterexample : ∃ (G : Gen 16 Nat Int ℚ), G.Ok ∧ (∀ i, 0 ≤ unif01 G ⟨0, 0⟩ i ∧ unif01 G ⟨0, 0⟩ i ≤ 1) ∧
    ∀ n : Int, 0 < n → M.wp (sampleIndicesIidUniformPublic G n 1 ⟨0, 0⟩) (Buf.alloc Int 1) (fun _ b' => b' 0 = .val n) := by
  let G : Gen 16 Nat Int ℚ := { len := 4, word := fun _ _ _ => 0, boxmuller := fun _ _ => (0, 0), uneg11 := fun _ => 1, nat := Int.toNat }
  have hu : ∀ i, unif01 G ⟨0, 0⟩ i = 1 := fun i => by simp only [unif01, stream, G]; norm_num
  refine ⟨G, Or.inr rfl, fun i => by rw [hu]; norm_num, fun n hn => ?_⟩
  unfold sampleIndicesIidUniformPublic
  rw [M.wp_zoom]
  refine ⟨_, _, sampleUniform_spec (Or.inr rfl) (by decide) (fun p h0 h1 => by rw [zero_add]; exact allocTo_alloc 1 p h0 h1) (fun h => by cases h), ?_⟩
  have := Buf.overAt_in (off := 0) (f := unifSample G ⟨0, 0⟩ n false) (b := Buf.alloc Int 1) (p := 0) (m := 1) le_rfl (by decide)
  rw [zero_add] at this
  simp only
  rw [this]
  have hn' : (0 : ℚ) < n := by exact_mod_cast hn
  simp [unifSample, hu, truncToInt, hn'.le]

example (state : RNGState (2 ^ 128) Nat) : exGenQ.Ok ∧ (∀ i, (0 : Int) ≤ i → i < 10 → 0 ≤ unif01 exGenQ state i ∧ unif01 exGenQ state i < 1) :=
  ⟨Or.inr rfl, fun i _ _ => ⟨(exGenQ_unif state i).1.le, (exGenQ_unif state i).2⟩⟩

/-! ## C04 (index sampling) -/

theorem stream_agree {G G' : Gen N K W R} {state : RNGState N K} {k : Int} (hG : G.Ok)
    (h : AgreeOn G G' (CtrRange state.counter (countersPerVector G.len k))) {t : Int} (h0 : 0 ≤ t) (h1 : t < k) :
    stream G' state t = stream G state t := by
  have hlen : 0 < G.len := by rcases hG with h | h <;> rw [h] <;> decide
  unfold stream
  rw [h.len, h.uneg11, h.word _ _ _ ⟨t / G.len, Int.ediv_nonneg h0 hlen.le, div_lt_countersPerVector hlen h1, rfl⟩]

/-- C04 (`sample_indices_iid`). The samples depend on the generator only through its values at the counters from the given state
(inclusive) to the returned state (exclusive). -/
theorem C04_sample_indices_iid [Field R] [LinearOrder R] {G G' : Gen N K W R} {n k : Int} {cdf : Buf R} {f : Int → R}
    {state : RNGState N K} {b : Buf Int} (hG : G.Ok) (hn : 0 ≤ n) (hk : 0 ≤ k)
    (hcdf : ∀ i, 0 ≤ i → i < n → cdf i = .val (f i)) (hmono : ∀ i j, 0 ≤ i → i ≤ j → j < n → f i ≤ f j) (hb : AllocTo b k) :
    M.wp (sampleIndicesIid G n cdf k state) b (fun st c => ∃ count, 0 ≤ count ∧ st.counter = state.counter + ((count : Int) : ZMod N) ∧
      (AgreeOn G G' (CtrRange state.counter count) →
        M.wp (sampleIndicesIid G' n cdf k state) b (fun st' c' => st' = st ∧ c' = c))) := by
  have hlen : 0 < G.len := by rcases hG with h | h <;> rw [h] <;> decide
  refine M.wp_mono (sampleIndicesIid_spec hG hn hk hcdf hmono hb) ?_
  rintro st c ⟨rfl, h2, h3⟩
  refine ⟨countersPerVector G.len k, countersPerVector_nonneg hlen hk, rfl, fun hag => ?_⟩
  have hG' : G'.Ok := by unfold Gen.Ok; rw [hag.len]; exact hG
  refine M.wp_mono (sampleIndicesIid_spec hG' hn hk hcdf hmono hb) ?_
  rintro st' c' ⟨rfl, h2', h3'⟩
  refine ⟨by rw [hag.len], ?_⟩
  funext p
  by_cases hp : 0 ≤ p ∧ p < k
  · obtain ⟨j, e, a1, a2, a3, a4⟩ := h2 p hp.1 hp.2
    obtain ⟨j', e', a1', a2', a3', a4'⟩ := h2' p hp.1 hp.2
    have hu : unif01 G' state p = unif01 G state p := by unfold unif01; rw [stream_agree hG hag hp.1 hp.2]
    rw [hu] at a3' a4'
    have : j' = j := by
      rcases lt_trichotomy j' j with h | h | h
      · exact absurd (a3 j' a1' h) (not_lt.mpr (a4' j' le_rfl (by omega)))
      · exact h
      · exact absurd (a3' j a1 h) (not_lt.mpr (a4 j le_rfl (by omega)))
    rw [e, e', this]
  · rw [h3 p hp, h3' p hp]

/-- C04 (`sample_indices_iid_uniform`, with or without signs). -/
theorem C04_sample_indices_iid_uniform [Field R] [LinearOrder R] [FloorRing R] [One T] [Neg T] {G G' : Gen N K W R} {writeR : Bool} {n k : Int}
    {state : RNGState N K} {b : UnifBufs T} (hG : G.Ok) (hk : 0 ≤ k) (hb : AllocTo b.samples k)
    (hr : writeR = true → AllocTo b.rademachers k) :
    M.wp (sampleIndicesIidUniform G writeR n k 0 state) b (fun st c => ∃ count, 0 ≤ count ∧
      st.counter = state.counter + ((count : Int) : ZMod N) ∧
      (AgreeOn G G' (CtrRange state.counter count) →
        M.wp (sampleIndicesIidUniform G' writeR n k 0 state) b (fun st' c' => st' = st ∧ c' = c))) := by
  have hlen : 0 < G.len := by rcases hG with h | h <;> rw [h] <;> decide
  have hw : 0 < wordsPerSample writeR ∧ wordsPerSample writeR ≤ 2 := by cases writeR <;> decide
  refine ⟨_, _, sampleUniform_spec hG hk (fun p h0 h1 => by rw [zero_add]; exact hb p h0 h1)
    (fun h p h0 h1 => by rw [zero_add]; exact hr h p h0 h1), countersPerVector G.len (wordsPerSample writeR * k), ?_, rfl, fun hag => ?_⟩
  · exact countersPerVector_nonneg hlen (mul_nonneg (by omega) hk)
  · have hG' : G'.Ok := by unfold Gen.Ok; rw [hag.len]; exact hG
    refine ⟨_, _, sampleUniform_spec hG' hk (fun p h0 h1 => by rw [zero_add]; exact hb p h0 h1)
      (fun h p h0 h1 => by rw [zero_add]; exact hr h p h0 h1), by rw [hag.len], ?_⟩
    congr 1
    · funext p
      simp only [Buf.overAt]
      split_ifs with hp
      · congr 1
        unfold unifSample unif01
        rw [stream_agree hG hag (mul_nonneg (by omega) (by omega)) (by apply mul_lt_mul_of_pos_left _ hw.1; omega)]
      · rfl
    · cases writeR with
      | false => rfl
      | true =>
        simp only [if_true]
        funext p
        simp only [Buf.overAt]
        split_ifs with hp
        · congr 1
          unfold unifSign
          rw [stream_agree hG hag (by omega) (by simp only [wordsPerSample, if_true]; omega)]
        · rfl

/-- C04 (`repeated_fisher_yates`, with all outputs). -/
theorem C04_fisher_yates [One T] [Neg T] {G G' : Gen N K W R} {state : RNGState N K} {k n r : Int} {o : SkBufs T}
    (hG : G.Ok) (hk : 0 ≤ k) (hkn : k ≤ n) (hr : 0 ≤ r) (ho : SkAlloc o (r * k)) (hfit : r * k ≤ intMax 64) :
    M.wp (repeatedFisherYates G state k n r) o (fun st c => ∃ count, 0 ≤ count ∧
      st.counter = state.counter + ((count : Int) : ZMod N) ∧
      (AgreeOn G G' (CtrRange state.counter count) →
        M.wp (repeatedFisherYates G' state k n r) o (fun st' c' => st' = st ∧ c' = c))) := by
  have hlen : 2 ≤ G.len := by rcases hG with h | h <;> rw [h]; decide
  refine ⟨_, _, repeatedFisherYates_spec hlen hk hkn hr ho hfit, r * k, mul_nonneg hr hk, rfl, fun hag => ?_⟩
  refine ⟨_, _, repeatedFisherYates_spec (by rw [hag.len]; exact hlen) hk hkn hr ho hfit, rfl, ?_⟩
  have e1 : ∀ b : Buf Int, Buf.over (r * k) (fyIdx G' state k n) b = Buf.over (r * k) (fyIdx G state k n) b := by
    intro b; funext p
    simp only [Buf.over]
    split_ifs with hp
    · congr 1
      have hkp : 0 < k := by
        rcases hk.lt_or_eq with h | h
        · exact h
        · rw [← h] at hp; omega
      have hm0 := Int.emod_nonneg p (show k ≠ 0 by omega)
      have hm1 := Int.emod_lt_of_pos p hkp
      have hd := Int.mul_ediv_add_emod p k
      unfold fyIdx
      have : ∀ t : Nat, (t : Int) ≤ k → fyPerm n (fyChoice G' state k (p / k)) t = fyPerm n (fyChoice G state k (p / k)) t := by
        intro t ht
        induction t with
        | zero => rfl
        | succ t ih =>
          push_cast at ht
          show fyPerm _ _ t * _ = fyPerm _ _ t * _
          rw [ih (by omega)]
          have hc : fyChoice G' state k (p / k) t = fyChoice G state k (p / k) t := by
            unfold fyChoice
            have hq0 : 0 ≤ p / k := Int.ediv_nonneg hp.1 hk
            have hq1 : p / k < r := Int.ediv_lt_of_lt_mul hkp hp.2
            rw [hag.nat, hag.word _ _ _ ⟨p / k * k + t, by nlinarith, by nlinarith, rfl⟩]
          rw [hc]
      rw [this _ (by omega)]
    · rfl
  have e2 : ∀ b : Buf T, Buf.over (r * k) (fySign G' state) b = Buf.over (r * k) (fySign G state) b := by
    intro b; funext p
    simp only [Buf.over]
    split_ifs with hp
    · congr 1
      unfold fySign
      rw [hag.nat, hag.word _ _ _ ⟨p, hp.1, hp.2, rfl⟩]
    · rfl
  simp only [fyOut]
  rw [e1]
  congr 1
  cases o.vals with
  | none => rfl
  | some b => simp only [Option.map_some, e2]

end RB
