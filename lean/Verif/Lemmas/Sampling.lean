import Verif.Model.Sampling
import Verif.Spec.Sampling
import Verif.Spec.Dense
import Verif.Lemmas.Dense
import Verif.Core.Wpx
import Mathlib.Algebra.BigOperators.Intervals
import Mathlib.Algebra.Order.BigOperators.Group.Finset

/-! # Lemmas about the sampling functions -/

namespace RB
open Spec
variable {N : Nat} {K W R T : Type}

/-- The buffer `b` with cells `off .. off+m-1` replaced by `f 0 .. f (m-1)`. -/
def Buf.overAt {T : Type} (off m : Int) (f : Int → T) (b : Buf T) : Buf T := fun p =>
  if off ≤ p ∧ p < off + m then .val (f (p - off)) else b p

theorem Buf.overAt_zero {T : Type} (off : Int) (f : Int → T) (b : Buf T) : Buf.overAt off 0 f b = b := by
  funext p; simp only [Buf.overAt]; rw [if_neg (by omega)]

theorem Buf.overAt_set {T : Type} {off m : Int} (h : 0 ≤ m) (f : Int → T) (b : Buf T) :
    (Buf.overAt off m f b).set (off + m) (f m) = Buf.overAt off (m + 1) f b := by
  funext p
  rw [Buf.set_apply]
  simp only [Buf.overAt]
  split_ifs <;> first | rfl | omega | skip
  subst_vars; congr 2; omega

theorem Buf.overAt_in {T : Type} {off m p : Int} {f : Int → T} {b : Buf T} (h : 0 ≤ p) (h' : p < m) :
    Buf.overAt off m f b (off + p) = .val (f p) := by
  simp only [Buf.overAt]; rw [if_pos (by omega)]; congr 2; omega

theorem Buf.overAt_out {T : Type} {off m p : Int} {f : Int → T} {b : Buf T} (h : ¬ (off ≤ p ∧ p < off + m)) :
    Buf.overAt off m f b p = b p := by
  simp only [Buf.overAt]; rw [if_neg h]

theorem Buf.overAt_ne_none {T : Type} {off m p : Int} {f : Int → T} {b : Buf T} (h : b p ≠ .none) :
    Buf.overAt off m f b p ≠ .none := by
  simp only [Buf.overAt]; split_ifs <;> simp [h]

/-- The loop variables of the sampling loops when the next word is number `t` of the stream. -/
def StreamAt (G : Gen N K W R) (state : RNGState N K) (t : Int) (st : ZMod N × Buf R × Int) : Prop :=
  st.1 = state.counter + ((t / G.len : Int) : ZMod N) ∧
  st.2.1 = Buf.ofFn G.len (fun i => G.uneg11 (G.word (state.counter + ((t / G.len : Int) : ZMod N)) state.key i)) ∧
  st.2.2 = t % G.len

theorem StreamAt.read {G : Gen N K W R} {state : RNGState N K} {t : Int} {st : ZMod N × Buf R × Int} (hlen : 0 < G.len)
    (h : StreamAt G state t st) {s : Int} (hs0 : 0 ≤ s) (hs : t % G.len + s < G.len) :
    st.2.1.rd (st.2.2 + s) = .ok (stream G state (t + s)) := by
  obtain ⟨-, h2, h3⟩ := h
  have hm := Int.emod_nonneg t (show G.len ≠ 0 by omega)
  have hd := Int.mul_ediv_add_emod t G.len
  have e1 : (t + s) / G.len = t / G.len := by
    rw [show t + s = (t % G.len + s) + G.len * (t / G.len) by omega, Int.add_mul_ediv_left _ _ (by omega),
      Int.ediv_eq_zero_of_lt (by omega) hs, zero_add]
  have e2 : (t + s) % G.len = t % G.len + s := by
    rw [show t + s = (t % G.len + s) + G.len * (t / G.len) by omega, Int.add_mul_emod_self_left,
      Int.emod_eq_of_lt (by omega) hs]
  rw [h2, h3, Buf.rd_eq_ok]
  simp only [Buf.ofFn]
  rw [if_pos ⟨by omega, hs⟩]
  unfold stream
  rw [e1, e2]

theorem StreamAt.init (G : Gen N K W R) (state : RNGState N K) :
    StreamAt G state 0 (state.counter, Buf.ofFn G.len (fun i => G.uneg11 (G.word state.counter state.key i)), 0) := by
  refine ⟨?_, ?_, ?_⟩ <;> simp

theorem StreamAt.next {G : Gen N K W R} {state : RNGState N K} {t : Int} {st : ZMod N × Buf R × Int} (hlen : 0 < G.len)
    (h : StreamAt G state t st) {s : Int} (hs0 : 0 < s) (hs : t % G.len + s ≤ G.len) :
    ∃ st', nextWord G state.key G.len st.1 st.2.1 (st.2.2 + s) = .ok st' ∧ StreamAt G state (t + s) st' := by
  have h' := h
  obtain ⟨h1, h2, h3⟩ := h
  have hm := Int.emod_nonneg t (show G.len ≠ 0 by omega)
  have hd := Int.mul_ediv_add_emod t G.len
  unfold nextWord
  by_cases he : st.2.2 + s = G.len
  · rw [if_pos he]
    have e0 : t + s = G.len * (t / G.len + 1) := by rw [mul_add, mul_one]; omega
    refine ⟨_, rfl, ?_, ?_, ?_⟩
    · rw [ctrIncr_eq (by decide) (by decide), e0, Int.mul_ediv_cancel_left _ (by omega), h1]; push_cast; ring
    · rw [ctrIncr_eq (by decide) (by decide), e0, Int.mul_ediv_cancel_left _ (by omega), h1]; push_cast
      simp only [add_assoc]
    · rw [e0]; simp
  · rw [if_neg he]
    have hlt : t % G.len + s < G.len := by omega
    have e1 : (t + s) / G.len = t / G.len := by
      rw [show t + s = (t % G.len + s) + G.len * (t / G.len) by omega, Int.add_mul_ediv_left _ _ (by omega),
        Int.ediv_eq_zero_of_lt (by omega) hlt, zero_add]
    have e2 : (t + s) % G.len = t % G.len + s := by
      rw [show t + s = (t % G.len + s) + G.len * (t / G.len) by omega, Int.add_mul_emod_self_left,
        Int.emod_eq_of_lt (by omega) hlt]
    refine ⟨_, rfl, ?_, ?_, ?_⟩
    · rw [e1]; exact h1
    · rw [e1]; exact h2
    · rw [e2, ← h3]

theorem StreamAt.finish {G : Gen N K W R} {state : RNGState N K} {t : Int} {st : ZMod N × Buf R × Int} (hlen : 0 < G.len)
    (h : StreamAt G state t st) :
    finishCtr st.1 st.2.2 = state.counter + ((countersPerVector G.len t : Int) : ZMod N) := by
  obtain ⟨h1, h2, h3⟩ := h
  have hm := Int.emod_nonneg t (show G.len ≠ 0 by omega)
  have hl := Int.emod_lt_of_pos t hlen
  have hd := Int.mul_ediv_add_emod t G.len
  unfold finishCtr countersPerVector
  rw [h3, h1]
  by_cases hz : 0 < t % G.len
  · rw [if_pos hz, ctrIncr_eq (by decide) (by decide)]
    have : (t + G.len - 1) / G.len = t / G.len + 1 := by
      rw [show t + G.len - 1 = (t % G.len - 1) + G.len * (t / G.len + 1) by rw [mul_add, mul_one]; omega,
        Int.add_mul_ediv_left _ _ (by omega), Int.ediv_eq_zero_of_lt (by omega) (by omega), zero_add]
    rw [this]; push_cast; ring
  · rw [if_neg hz]
    have : (t + G.len - 1) / G.len = t / G.len := by
      rw [show t + G.len - 1 = (G.len - 1) + G.len * (t / G.len) by omega,
        Int.add_mul_ediv_left _ _ (by omega), Int.ediv_eq_zero_of_lt (by omega) (by omega), zero_add]
    rw [this]

/-- The binary search returns the partition point. -/
theorem lowerBound_spec [LinearOrder R] {cdf : Buf R} {f : Int → R} {n : Int} {v : R}
    (hcdf : ∀ i, 0 ≤ i → i < n → cdf i = .val (f i)) (hmono : ∀ i j, 0 ≤ i → i ≤ j → j < n → f i ≤ f j) (fuel : Nat)
    (first len : Int) (h0 : 0 ≤ first) (hl : 0 ≤ len) (hn : first + len ≤ n) (hf : len ≤ fuel)
    (hlo : ∀ i, 0 ≤ i → i < first → f i < v) (hhi : ∀ i, first + len ≤ i → i < n → v ≤ f i) :
    ∃ j, lowerBound cdf v fuel first len = .ok j ∧ 0 ≤ j ∧ j ≤ n ∧ (∀ i, 0 ≤ i → i < j → f i < v) ∧
      (∀ i, j ≤ i → i < n → v ≤ f i) := by
  induction fuel generalizing first len with
  | zero =>
    have : len = 0 := by push_cast at hf; omega
    subst this
    exact ⟨first, rfl, h0, by omega, hlo, fun i h1 h2 => hhi i (by omega) h2⟩
  | succ fuel ih =>
    unfold lowerBound
    by_cases hz : len ≤ 0
    · rw [if_pos hz]
      have : len = 0 := by omega
      subst this
      exact ⟨first, rfl, h0, by omega, hlo, fun i h1 h2 => hhi i (by omega) h2⟩
    · rw [if_neg hz]
      have hh : len.tdiv 2 = len / 2 := Int.tdiv_eq_ediv_of_nonneg (by omega)
      have hb : 0 ≤ len / 2 ∧ len / 2 < len := by omega
      simp only [hh]
      rw [Buf.rd_val (hcdf (first + len / 2) (by omega) (by omega)), Res.ok_bind]
      by_cases hc : f (first + len / 2) < v
      · rw [if_pos hc]
        refine ih _ _ (by omega) (by omega) (by omega) (by push_cast at hf; omega) ?_ ?_
        · intro i h1 h2
          exact lt_of_le_of_lt (hmono i (first + len / 2) h1 (by omega) (by omega)) hc
        · intro i h1 h2; exact hhi i (by omega) h2
      · rw [if_neg hc]
        refine ih _ _ h0 (by omega) (by omega) (by push_cast at hf; omega) hlo ?_
        intro i h1 h2
        exact le_trans (not_lt.mp hc) (hmono (first + len / 2) i (by omega) (by omega) h2)

/-- The sample `sample_indices_iid` computes for the uniform value `u`: the partition point of the cdf. -/
theorem sampleIndicesIid_spec [Field R] [LinearOrder R] {G : Gen N K W R} {n k : Int} {cdf : Buf R} {f : Int → R}
    {state : RNGState N K} {b : Buf Int} (hG : G.Ok) (hn : 0 ≤ n) (hk : 0 ≤ k)
    (hcdf : ∀ i, 0 ≤ i → i < n → cdf i = .val (f i)) (hmono : ∀ i j, 0 ≤ i → i ≤ j → j < n → f i ≤ f j)
    (hb : ∀ p, 0 ≤ p → p < k → b p ≠ .none) :
    M.wp (sampleIndicesIid G n cdf k state) b (fun st b' =>
      st = advance state (countersPerVector G.len k) ∧
      (∀ i, 0 ≤ i → i < k → ∃ j, b' i = .val j ∧ 0 ≤ j ∧ j ≤ n ∧ (∀ l, 0 ≤ l → l < j → f l < unif01 G state i) ∧
        (∀ l, j ≤ l → l < n → unif01 G state i ≤ f l)) ∧
      (∀ p, ¬ (0 ≤ p ∧ p < k) → b' p = b p)) := by
  have hlen : 0 < G.len := by rcases hG with h | h <;> rw [h] <;> decide
  unfold sampleIndicesIid Gen.uneg11Generate
  simp only [M.wp_bind, M.wp_lift, Res.ok.injEq]
  refine ⟨_, rfl, ?_⟩
  refine M.wp_foldI (fun t st b' => StreamAt G state t st ∧
      (∀ i, 0 ≤ i → i < t → ∃ j, b' i = .val j ∧ 0 ≤ j ∧ j ≤ n ∧ (∀ l, 0 ≤ l → l < j → f l < unif01 G state i) ∧
        (∀ l, j ≤ l → l < n → unif01 G state i ≤ f l)) ∧
      (∀ p, ¬ (0 ≤ p ∧ p < t) → b' p = b p)) hk ?_ ?_ ?_
  · exact ⟨StreamAt.init G state, fun i h0 h1 => absurd h1 (by omega), fun p _ => rfl⟩
  · rintro t st b' ht0 ht1 ⟨hst, hw, ho⟩
    simp only [M.wp_bind, M.wp_lift, M.wp_wr]
    have hm := Int.emod_lt_of_pos t hlen
    have hr := hst.read hlen (le_refl 0) (by omega)
    rw [add_zero, add_zero] at hr
    obtain ⟨j, hj, hj0, hj1, hj2, hj3⟩ := lowerBound_spec (v := uneg11ToU01 (stream G state t)) hcdf hmono n.toNat 0 n (le_refl 0) hn
      (by omega) (by omega) (fun i h0 h1 => absurd h1 (by omega)) (fun i h0 h1 => absurd h1 (by omega))
    obtain ⟨st', hst1, hst2⟩ := hst.next hlen (s := 1) (by omega) (by omega)
    refine ⟨_, hr, j, hj, ?_, st', hst1, hst2, ?_, ?_⟩
    · rw [ho t (by omega)]; exact hb t ht0 ht1
    · intro i h0 h1
      rw [Buf.set_apply]
      by_cases hit : i = t
      · subst hit; rw [if_pos rfl]; exact ⟨j, rfl, hj0, hj1, hj2, hj3⟩
      · rw [if_neg hit]; exact hw i h0 (by omega)
    · intro p hp
      rw [Buf.set_apply, if_neg (by omega)]
      exact ho p (by omega)
  · rintro ⟨c, rv, idx⟩ b' ⟨hst, hw, ho⟩
    rw [M.wp_pure]
    refine ⟨?_, hw, ho⟩
    unfold advance
    have := hst.finish hlen
    simp only at this
    rw [this]

/-- Number of words per sample. -/
def wordsPerSample (writeR : Bool) : Int := if writeR then 2 else 1

/-- Sample number `i` of `sample_indices_iid_uniform`. -/
def unifSample [Field R] [LinearOrder R] [FloorRing R] (G : Gen N K W R) (state : RNGState N K) (n : Int) (writeR : Bool) (i : Int) : Int :=
  truncToInt ((n : R) * unif01 G state (wordsPerSample writeR * i))

/-- Sign number `i`. -/
def unifSign [Field R] [LinearOrder R] [One T] [Neg T] (G : Gen N K W R) (state : RNGState N K) (i : Int) : T :=
  if stream G state (2 * i + 1) ≥ 0 then 1 else -1

theorem sampleUniform_spec [Field R] [LinearOrder R] [FloorRing R] [One T] [Neg T] {G : Gen N K W R} {writeR : Bool} {n k off : Int}
    {state : RNGState N K} {b : UnifBufs T} (hG : G.Ok) (hk : 0 ≤ k) (hs : ∀ p, 0 ≤ p → p < k → b.samples (off + p) ≠ .none)
    (hr : writeR = true → ∀ p, 0 ≤ p → p < k → b.rademachers (off + p) ≠ .none) :
    sampleIndicesIidUniform G writeR n k off state b =
      (.ok (advance state (countersPerVector G.len (wordsPerSample writeR * k))),
       { samples := Buf.overAt off k (unifSample G state n writeR) b.samples
         rademachers := if writeR then Buf.overAt off k (unifSign G state) b.rademachers else b.rademachers }) := by
  have hlen : 0 < G.len := by rcases hG with h | h <;> rw [h] <;> decide
  have hl2 : 2 * G.len.tdiv 2 = G.len := by rcases hG with h | h <;> rw [h] <;> decide
  have heven : G.len % 2 = 0 := by rcases hG with h | h <;> rw [h] <;> decide
  have hw1 : 0 < wordsPerSample writeR ∧ wordsPerSample writeR ≤ 2 := by cases writeR <;> decide
  suffices h : M.wp (sampleIndicesIidUniform G writeR n k off state) b (fun st b' =>
      st = advance state (countersPerVector G.len (wordsPerSample writeR * k)) ∧
      b' = { samples := Buf.overAt off k (unifSample G state n writeR) b.samples
             rademachers := if writeR then Buf.overAt off k (unifSign G state) b.rademachers else b.rademachers }) by
    obtain ⟨a, s, h1, rfl, rfl⟩ := h; exact h1
  unfold sampleIndicesIidUniform Gen.uneg11Generate
  simp only [M.wp_bind, M.wp_lift, Res.ok.injEq]
  refine ⟨_, rfl, ?_⟩
  rw [show (if writeR = true then 2 * G.len.tdiv 2 else G.len) = G.len by rw [hl2]; simp]
  refine M.wp_foldI (fun t st b' => StreamAt G state (wordsPerSample writeR * t) st ∧
      b' = { samples := Buf.overAt off t (unifSample G state n writeR) b.samples
             rademachers := if writeR then Buf.overAt off t (unifSign G state) b.rademachers else b.rademachers }) hk ?_ ?_ ?_
  · refine ⟨by rw [mul_zero]; exact StreamAt.init G state, ?_⟩
    rw [Buf.overAt_zero, Buf.overAt_zero]; simp
  · rintro t st b' ht0 ht1 ⟨hst, rfl⟩
    have hm := Int.emod_lt_of_pos (wordsPerSample writeR * t) hlen
    have hread := hst.read hlen (le_refl 0) (by omega)
    rw [add_zero, add_zero] at hread
    simp only [M.wp_bind, M.wp_lift, M.wp_zoom, M.wp_wr]
    refine ⟨_, hread, Buf.overAt_ne_none (hs t ht0 ht1), ?_⟩
    have hsamp : (Buf.overAt off t (unifSample G state n writeR) b.samples).set (off + t)
        (truncToInt ((n : R) * uneg11ToU01 (stream G state (wordsPerSample writeR * t))))
        = Buf.overAt off (t + 1) (unifSample G state n writeR) b.samples := Buf.overAt_set ht0 _ _
    rw [hsamp]
    unfold writeRademacher
    cases writeR with
    | false =>
      simp only [Bool.false_eq_true, if_false, M.wp_pure]
      obtain ⟨st', hst1, hst2⟩ := hst.next hlen (s := 1) (by omega) (by omega)
      refine ⟨st', hst1, ?_, trivial⟩
      rw [show wordsPerSample false * (t + 1) = wordsPerSample false * t + 1 by simp [wordsPerSample]]; exact hst2
    | true =>
      simp only [if_true, M.wp_bind, M.wp_lift, M.wp_zoom, M.wp_wr, M.wp_pure]
      have e2 : wordsPerSample true * t = 2 * t := rfl
      rw [e2] at hst hm
      have hpar : (2 * t) % G.len + 2 ≤ G.len := by
        have h1 : (2 * t) % G.len % 2 = 0 := by
          rw [Int.emod_emod_of_dvd _ (Int.dvd_of_emod_eq_zero heven)]; omega
        omega
      have hread2 := hst.read hlen (s := 1) (by decide) (by omega)
      obtain ⟨st', hst1, hst2⟩ := hst.next hlen (s := 2) (by omega) hpar
      refine ⟨_, hread2, Buf.overAt_ne_none (hr rfl t ht0 ht1), st', ?_, ?_, ?_⟩
      · rw [show st.2.2 + 1 + 1 = st.2.2 + 2 by ring]; exact hst1
      · rw [show wordsPerSample true * (t + 1) = 2 * t + 2 by simp [wordsPerSample]; ring]; exact hst2
      · have : (Buf.overAt off t (unifSign G state) b.rademachers).set (off + t)
            (if stream G state (2 * t + 1) ≥ 0 then 1 else -1) = Buf.overAt off (t + 1) (unifSign G state) b.rademachers :=
          Buf.overAt_set ht0 _ _
        rw [this]
  · rintro ⟨c, rv, idx⟩ b' ⟨hst, rfl⟩
    rw [M.wp_pure]
    refine ⟨?_, rfl⟩
    unfold advance
    have := hst.finish hlen
    simp only at this
    rw [this]

/-- The outcome of `weights_to_cdf`, errors included. -/
theorem weightsToCdf_spec [Field R] [LinearOrder R] [IsStrictOrderedRing R] {n : Int} {thresh below : R} {b : Buf R} {v : Int → R}
    (hn : 0 ≤ n) (hv : ∀ i, 0 ≤ i → i < n → b i = .val (v i)) :
    M.wpx (weightsToCdf n thresh below) b
      (fun _ b' => (∀ i, 0 ≤ i → i < n → below ≤ v i) ∧ thresh ≤ posSum v n.toNat ∧
        (∀ i, 0 ≤ i → i < n → b' i = .val (posSum v (i.toNat + 1) / posSum v n.toNat)) ∧
        (∀ p, ¬ (0 ≤ p ∧ p < n) → b' p = b p))
      (fun e b' => e = .require ∧ ((∃ i, 0 ≤ i ∧ i < n ∧ v i < below) ∨ posSum v n.toNat < thresh) ∧
        (∀ p, ¬ (0 ≤ p ∧ p < n) → b' p = b p)) := by
  unfold weightsToCdf
  rw [M.wpx_bind]
  refine M.wpx_foldI (fun t sum b' => sum = posSum v t.toNat ∧ (∀ i, 0 ≤ i → i < t → below ≤ v i) ∧
      (∀ i, 0 ≤ i → i < t → b' i = .val (posSum v (i.toNat + 1))) ∧ (∀ p, ¬ (0 ≤ p ∧ p < t) → b' p = b p)) hn ?_ ?_ ?_
  · exact ⟨by simp [posSum], fun i h0 h1 => absurd h1 (by omega), fun i h0 h1 => absurd h1 (by omega), fun p _ => rfl⟩
  · rintro t sum b' ht0 ht1 ⟨rfl, hbel, hw, ho⟩
    have hbt : b' t = .val (v t) := by rw [ho t (by omega)]; exact hv t ht0 ht1
    have hsum : posSum v t.toNat + max (v t) 0 = posSum v (t.toNat + 1) := by
      unfold posSum
      rw [Finset.sum_range_succ, Int.toNat_of_nonneg ht0, max_comm]
    simp only [M.wpx_bind, M.wpx_rd, M.wpx_require, M.wpx_wr, M.wpx_pure]
    refine ⟨v t, hbt, ?_, ?_⟩
    · intro hge
      refine ⟨by rw [hbt]; simp, ?_, ?_, ?_, ?_⟩
      · rw [hsum]; congr 1; omega
      · intro i h0 h1
        by_cases hit : i = t
        · subst hit; exact hge
        · exact hbel i h0 (by omega)
      · intro i h0 h1
        rw [Buf.set_apply]
        by_cases hit : i = t
        · subst hit; rw [if_pos rfl, hsum]
        · rw [if_neg hit]; exact hw i h0 (by omega)
      · intro p hp
        rw [Buf.set_apply, if_neg (by omega)]; exact ho p (by omega)
    · intro hlt
      exact ⟨trivial, Or.inl ⟨t, ht0, ht1, not_le.mp hlt⟩, fun p hp => ho p (by omega)⟩
  · rintro sum b' ⟨rfl, hbel, hw, ho⟩
    rw [M.wpx_bind, M.wpx_require]
    constructor
    · intro hge
      apply M.wpx_of_wp
      refine M.wp_mono (blasScal_spec (v := fun i => posSum v (i.toNat + 1)) hn (by decide) ?_) ?_
      · intro i h0 h1; rw [zero_add, mul_one]; exact hw i h0 h1
      · rintro - b'' ⟨h1, h2⟩
        refine ⟨hbel, hge, ?_, ?_⟩
        · intro i hi0 hi1
          have := h1 i hi0 hi1
          rw [zero_add, mul_one] at this
          rw [this]; congr 1; ring
        · intro p hp
          rw [h2 p (fun i h0 h1 => by omega)]
          exact ho p hp
    · intro hlt
      exact ⟨rfl, Or.inr (not_le.mp hlt), ho⟩

end RB
