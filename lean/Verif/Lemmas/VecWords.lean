import Verif.Props.SketchUpdates
import Verif.Lemmas.Indep

/-! Each major-axis vector of an operator is determined by the words of its own block of counters. -/

namespace RB

open Spec

variable {N : Nat} {K W R T : Type}

/-- The two generators convert words in the same way, and the `m` counters from `a` on after the state `s` hold the same words of the first as the
`m` counters from `a'` on after `s'` hold of the second. -/
structure SameWords (G G' : Gen N K W R) (s s' : RNGState N K) (a a' m : Int) : Prop where
  len : G'.len = G.len
  boxmuller : G'.boxmuller = G.boxmuller
  uneg11 : G'.uneg11 = G.uneg11
  nat : G'.nat = G.nat
  word : ∀ x, 0 ≤ x → x < m → ∀ i, 0 ≤ i → i < G.len →
    G'.word (s'.counter + ((a' + x : Int) : ZMod N)) s'.key i = G.word (s.counter + ((a + x : Int) : ZMod N)) s.key i

theorem denseRaw_same {G G' : Gen N K W R} {fam : ScalarDist} {s s' : RNGState N K} {n q q' p : Int} (hG : G.Ok) (h0 : 0 ≤ p) (h1 : p < n)
    (h : SameWords G G' s s' (q * countersPerVector G.len n) (q' * countersPerVector G.len n) (countersPerVector G.len n)) :
    denseRaw G' fam n s' q' p = denseRaw G fam n s q p := by
  have hlen : 0 < G.len := by rcases hG with h | h <;> rw [h] <;> decide
  have hev : G.len % 2 = 0 := by rcases hG with h | h <;> rw [h] <;> decide
  have hw := h.word (p / G.len) (Int.ediv_nonneg h0 hlen.le) (div_lt_countersPerVector hlen h1)
  have m0 := Int.emod_nonneg p (show G.len ≠ 0 by omega)
  have m1 := Int.emod_lt_of_pos p hlen
  unfold denseRaw genValue
  rw [h.len]
  cases fam
  · simp only
    rw [h.boxmuller, hw _ (by omega) (by omega), hw _ (by omega) (by omega)]
  · simp only
    rw [h.uneg11, hw _ m0 m1]

theorem tripMat_second [AddCommMonoid T] {E1 E2 : List (Int × Int × T)} {d : Int} (h1 : ∀ e ∈ E1, e.2.1 < d) (h2 : ∀ e ∈ E2, 0 ≤ e.2.1) (a b : Int) :
    tripMat (E1 ++ E2.map fun e => (e.1, d + e.2.1, e.2.2)) a b = if b < d then tripMat E1 a b else tripMat E2 a (b - d) := by
  unfold tripMat
  rw [List.filter_append, List.map_append, List.sum_append]
  split_ifs with h
  · rw [(List.filter_eq_nil_iff (l := E2.map _)).mpr]
    · simp
    · intro e he
      obtain ⟨e', he', rfl⟩ := List.mem_map.mp he
      have := h2 e' he'
      simp only [decide_eq_true_eq, not_and]; intro; omega
  · rw [(List.filter_eq_nil_iff (l := E1)).mpr]
    · rw [List.filter_map, List.map_map]
      simp only [List.map_nil, List.sum_nil, zero_add, Function.comp_def]
      congr 3
      funext e
      exact decide_eq_decide.mpr (by constructor <;> rintro ⟨x, y⟩ <;> exact ⟨x, by omega⟩)
    · intro e he
      have := h1 e he
      simp only [decide_eq_true_eq, not_and]; intro; omega

theorem saso_vec [Ring T] {G : Gen N K W R} {seed : RNGState N K} {k n r q : Int} (hk : 0 < k) (hkn : k ≤ n) (h0 : 0 ≤ q) (h1 : q < r) (p : Int) :
    tripMat (T := T) (sasoTriples G seed k n r) p q = tripMat (sasoTriples G (advance seed (q * k)) k n 1) p 0 := by
  have e1 := saso_stack (T := T) (G := G) (seed := seed) (k := k) (n := n) (r := q) (t := r - q) hk h0 (by omega)
  have e2 := saso_stack (T := T) (G := G) (seed := advance seed (q * k)) (k := k) (n := n) (r := 1) (t := r - q - 1) hk (by omega) (by omega)
  rw [show q + (r - q) = r by omega] at e1
  rw [show 1 + (r - q - 1) = r - q by omega] at e2
  rw [e1, tripMat_second (fun e he => (saso_mem hk hkn he).2.2.2.1) (fun e he => (saso_mem hk hkn he).2.2.1), if_neg (by omega), e2,
    tripMat_second (fun e he => (saso_mem hk hkn he).2.2.2.1) (fun e he => (saso_mem hk hkn he).2.2.1), if_pos (by omega), sub_self]

theorem saso_one_same [Ring T] {G G' : Gen N K W R} {s s' : RNGState N K} {k n : Int} (hG : G.Ok) (hk : 0 < k)
    (h : SameWords G G' s s' 0 0 k) : sasoTriples (T := T) G' s' k n 1 = sasoTriples G s k n 1 := by
  have hlen : 1 < G.len := by rcases hG with h | h <;> rw [h] <;> decide
  unfold sasoTriples
  refine List.map_congr_left fun p hp => ?_
  rw [List.mem_range] at hp
  have hp1 : (p : Int) < k := by omega
  have hd : (p : Int) / k = 0 := Int.ediv_eq_zero_of_lt (by omega) hp1
  have hm : (p : Int) % k = p := Int.emod_eq_of_lt (by omega) hp1
  have hidx : fyIdx G' s' k n p = fyIdx G s k n p := by
    unfold fyIdx
    rw [hd, hm]
    have : ∀ t : Nat, (t : Int) ≤ k → fyPerm n (fyChoice G' s' k 0) t = fyPerm n (fyChoice G s k 0) t := by
      intro t ht
      induction t with
      | zero => rfl
      | succ t ih =>
        push_cast at ht
        show fyPerm _ _ t * _ = fyPerm _ _ t * _
        rw [ih (by omega)]
        have hc : fyChoice G' s' k 0 t = fyChoice G s k 0 t := by
          have := h.word t (by omega) (by omega) 0 (by omega) (by omega)
          unfold fyChoice
          rw [zero_mul, h.nat, this]
        rw [hc]
    rw [this _ (by omega)]
  have hsg : (fySign G' s' p : T) = fySign G s p := by
    have := h.word p (by omega) hp1 1 (by omega) (by omega)
    rw [zero_add] at this
    unfold fySign
    rw [h.nat, this]
  rw [hidx, hsg]

theorem laso_vec [Field R] [LinearOrder R] [FloorRing R] [Ring T] {G : Gen N K W R} {sqrt : T → T} {seed : RNGState N K} {n k : Int} {r : Nat}
    {E : List (Int × Int × T)} (h : LasoRun G sqrt seed n k r E) {q : Nat} (hq : q < r) :
    ∃ out, Merged sqrt k (lasoIdx G seed n k q) (lasoSign G seed k q) out ∧
      ∀ p, tripMat E q p = ((out.filter fun e => e.1 = p).map fun e => e.2).sum := by
  induction h with
  | zero => omega
  | @succ i E out h1 h2 h3 ih =>
    have hlt : ∀ e ∈ E, e.1 < (i : Int) := by
      intro e he
      have := h1.mem_short e he
      omega
    have hst : ∀ p, tripMat (E ++ out.map fun e => ((i : Int), e.1, e.2)) q p =
        if (q : Int) < i then tripMat E q p else tripMat (out.map fun e => ((0 : Int), e.1, e.2)) ((q : Int) - i) p := by
      intro p
      rw [← tripMat_stack hlt (E2 := out.map fun e => ((0 : Int), e.1, e.2)) (by intro e he; obtain ⟨o, -, rfl⟩ := List.mem_map.mp he; exact le_refl _)]
      simp [List.map_map, Function.comp_def]
    rcases Nat.lt_succ_iff_lt_or_eq.mp hq with hi | rfl
    · obtain ⟨o, ho, e⟩ := ih hi
      exact ⟨o, ho, fun p => by rw [hst, if_pos (by omega), e]⟩
    · refine ⟨out, h2, fun p => ?_⟩
      rw [hst, if_neg (by omega), sub_self]
      unfold tripMat
      rw [List.filter_map, List.map_map]
      simp [Function.comp_def]

theorem laso_vec_same [Field R] [LinearOrder R] [FloorRing R] [Ring T] {G G' : Gen N K W R} {sqrt : T → T} {s s' : RNGState N K} {n k : Int}
    {r r' : Nat} {E E' : List (Int × Int × T)} (hG : G.Ok) (h : LasoRun G sqrt s n k r E) (h' : LasoRun G' sqrt s' n k r' E') {q q' : Nat}
    (hq : q < r) (hq' : q' < r') (hw : SameWords G G' s s' (q * lasoStride G.len k) (q' * lasoStride G.len k) (lasoStride G.len k)) (p : Int) :
    tripMat E' q' p = tripMat E q p := by
  obtain ⟨o, ho, e⟩ := laso_vec h hq
  obtain ⟨o', ho', e'⟩ := laso_vec h' hq'
  have hlen : 0 < G.len := by rcases hG with h | h <;> rw [h] <;> decide
  have hstr : ∀ t : Int, 0 ≤ t → t < 2 * k →
      stream G' (advance s' (q' * lasoStride G.len k)) t = stream G (advance s (q * lasoStride G.len k)) t := by
    intro t t0 t1
    have m0 := Int.emod_nonneg t (show G.len ≠ 0 by omega)
    have m1 := Int.emod_lt_of_pos t hlen
    have := hw.word (t / G.len) (Int.ediv_nonneg t0 hlen.le) (div_lt_countersPerVector hlen t1) (t % G.len) m0 m1
    rw [Int.cast_add, Int.cast_add, ← add_assoc, ← add_assoc] at this
    unfold stream
    simp only [advance]
    rw [hw.len, hw.uneg11, this]
  have hp : o'.Perm o := by
    refine merged_perm (Merged.congr ho' ?_ ?_) ho
    · intro t t0 t1
      unfold lasoIdx unifSample unif01
      simp only [wordsPerSample, if_true]
      rw [hw.len, hstr _ (by omega) (by omega)]
    · intro t t0 t1
      unfold lasoSign unifSign
      rw [hw.len, hstr _ (by omega) (by omega)]
  rw [e, e', ((hp.filter _).map _).sum_eq]

end RB
