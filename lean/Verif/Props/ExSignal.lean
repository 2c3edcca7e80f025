import Verif.Lemmas.ExData

/-! # C106: the signal matrix of the low-rank example -/

namespace RB
open Spec Finset

variable {N : Nat} {K W R T : Type}

section
variable [Field T]

theorem fySign_sq {G : Gen N K W R} {state : RNGState N K} (p : Int) : fySign (T := T) G state p * fySign G state p = 1 := by
  unfold fySign
  split_ifs <;> ring

theorem fyIdx_first {G : Gen N K W R} {state : RNGState N K} {k n i : Int} (h0 : 0 ≤ i) (h1 : i < k) (hkn : k ≤ n) :
    fyIdx G state k n i = fyPerm n (fyChoice G state k 0) k.toNat i := by
  have := fyIdx_block' (G := G) (state := state) (i := 0) h0 h1 hkn
  rwa [zero_mul, zero_add] at this

theorem fyIdx_distinct {G : Gen N K W R} {state : RNGState N K} {k n : Int} (hkn : k ≤ n) : DistinctTo k (fyIdx G state k n) := by
  intro i j i0 i1 j0 j1 h
  rw [fyIdx_first i0 i1 hkn, fyIdx_first j0 j1 hkn] at h
  exact (fyPerm _ _ _).injective h

theorem fyIdx_range {G : Gen N K W R} {state : RNGState N K} {k n i : Int} (h0 : 0 ≤ i) (h1 : i < k) (hkn : k ≤ n) :
    0 ≤ fyIdx G state k n i ∧ fyIdx G state k n i < n := by
  rw [fyIdx_first h0 h1 hkn]
  exact fyPerm_range (by omega) h0 (by omega)

/-- The first part of `make_signal_matrix`: the sparse matrix is reserved and the work arrays hold two samples. -/
theorem signalSample_spec {G : Gen N K W R} {m n k : Int} {seed : RNGState N K} {t : SigSt T} (hG : G.Ok) (hk : 0 < k) (hkm : k ≤ m) (hkn : k ≤ n)
    (hk64 : k ≤ intMax 64) (hs : t.sparse = mkCoo m n) :
    M.wp (signalSample G m n k seed) t (fun w t' =>
      WorkIs k w.1 w.2 (fyIdx G seed k m) (fyIdx G { seed with counter := seed.counter + ((1 * k : Int) : ZMod N) } k n) (fySign G seed)
        (fySign G { seed with counter := seed.counter + ((1 * k : Int) : ZMod N) }) ∧
      t' = { t with sparse := ⟨m, n, true, k * k, .Zero, some (Buf.alloc T (k * k)), some (Buf.alloc Int (k * k)), some (Buf.alloc Int (k * k)), .None⟩ }) := by
  have hlen : 2 ≤ G.len := by rcases hG with h | h <;> omega
  obtain ⟨u, v, dn, A⟩ := t
  simp only at hs
  subst hs
  have hkk : k * k > 0 := by positivity
  unfold signalSample
  simp only [M.wp_bind, SigSt.onSparse, M.wp_zoom, reserveCoo, M.wp_get, M.wp_require, M.wp_modify, M.wp_when, mkCoo]
  refine ⟨by simp, by simp, by simp, by simp, fun _ => ?_, fun h => absurd hkk h⟩
  rw [if_neg (by omega)]
  simp only [M.wp_bind, M.wp_onLocal]
  refine ⟨_, _, repeatedFisherYates_spec hlen hk.le hkm (by norm_num) ⟨?_, ?_, ?_⟩ (by omega), ?_⟩
  · intro p h0 h1; simp only [Buf.fill]; rw [if_pos ⟨h0, by omega⟩]; simp
  · rintro b rfl' p h0 h1; cases rfl'; simp only [Buf.fill]; rw [if_pos ⟨h0, by omega⟩]; simp
  · rintro b rfl' p h0 h1; cases rfl'; simp only [Buf.fill]; rw [if_pos ⟨h0, by omega⟩]; simp
  refine ⟨_, _, repeatedFisherYates_spec hlen hk.le hkn (by norm_num) ⟨?_, ?_, ?_⟩ (by omega), ?_⟩
  · intro p h0 h1
    simp only [fyOut, Buf.shift]
    exact Buf.over_ne_none (by simp only [Buf.fill]; rw [if_pos ⟨by omega, by omega⟩]; simp)
  · rintro b rfl' p h0 h1
    simp only [fyOut, Option.map_some, Option.some.injEq] at rfl'
    subst rfl'
    exact Buf.over_ne_none (by simp only [Buf.fill]; rw [if_pos ⟨by omega, by omega⟩]; simp)
  · rintro b rfl' p h0 h1
    simp only [fyOut, Option.map_some, Option.some.injEq] at rfl'
    subst rfl'
    simp only [Buf.shift]
    exact Buf.over_ne_none (by simp only [Buf.fill]; rw [if_pos ⟨by omega, by omega⟩]; simp)
  simp only [fyOut, Option.map_some, M.wp_pure]
  refine ⟨⟨?_, ?_, ?_, ?_⟩, trivial⟩
  · intro i h0 h1
    simp only [Buf.shift]
    rw [Buf.over_out (by omega)]
    simp only [Buf.shift]
    rw [show k + (-k + i) = i by ring, Buf.over_in h0 (by omega)]
  · intro i h0 h1
    simp only [Buf.shift]
    rw [show -k + (i + k) = i by ring, Buf.over_in h0 (by omega)]
  · intro i h0 h1
    simp only [Buf.shift, ptr, Option.getD_some]
    rw [Buf.over_out (by omega)]
    simp only [Buf.shift]
    rw [show k + (-k + i) = i by ring, Buf.over_in h0 (by omega)]
  · intro i h0 h1
    simp only [Buf.shift, ptr, Option.getD_some]
    rw [show -k + (i + k) = i by ring, Buf.over_in h0 (by omega)]

/-- C106. `make_signal_matrix` with zero vectors `u` and `v` and an empty sparse matrix: `u` and `v` become unit vectors with exactly `vec_nnz` nonzeros
of equal magnitude, `signal_scale * u * v^T` is added to the dense matrix, and the sparse matrix is `vec_nnz * u * v^T`, without duplicates.
Missing: the sparse matrix and the dense matrix (starting from zero) are the same matrix. They are only if `signal_scale = vec_nnz`. The index of an
entry is an `int`, so that `vec_nnz * vec_nnz <= 2^31` is needed (`C106_int_undefined`). -/
theorem C106_signal_partial [CharZero T] [BEq T] [LawfulBEq T] {G : Gen N K W R} {sqrt : T → T} {scale : T} {m n k : Int} {seed : RNGState N K} {t : SigSt T}
    (hG : G.Ok) (hk : 0 < k) (hkm : k ≤ m) (hkn : k ≤ n) (hkk : k * k ≤ 2147483648) (hsqrt : sqrt k * sqrt k = k) (hs : t.sparse = mkCoo m n)
    (hu : VecIs t.u m fun _ => 0) (hv : VecIs t.v n fun _ => 0) {D : Int → Int → T} (hd : Holds t.dense .ColMajor m m n D) :
    M.wp (makeSignal G sqrt scale m n k seed) t (fun _ t' => ∃ U V E, VecIs t'.u m U ∧ VecIs t'.v n V ∧ UnitSign k m U ∧ UnitSign k n V ∧
      Holds t'.dense .ColMajor m m n (fun i j => D i j + scale * (U i * V j)) ∧
      t'.sparse.nRows = m ∧ t'.sparse.nCols = n ∧ t'.sparse.indexBase = .Zero ∧ CooIs t'.sparse E ∧ (E.map Entry.pos).Nodup ∧ InRange m n E ∧ E.length = k * k ∧
      (∀ i j, toMat E i j = k * (U i * V j)) ∧
      ((∀ i j, InR m n i j → toMat E i j = scale * (U i * V j)) ↔ scale = k)) := by
  have hk64 : k ≤ intMax 64 := by
    have : (2147483648 : Int) ≤ intMax 64 := by decide
    nlinarith
  unfold makeSignal
  rw [M.wp_bind]
  refine M.wp_mono (signalSample_spec hG hk hkm hkn hk64 hs) ?_
  rintro ⟨idxs, vals⟩ _ ⟨hw, rfl⟩
  simp only at hw
  generalize ha : fyIdx G seed k m = a at hw
  generalize hb : fyIdx G _ k n = b at hw
  generalize hσ : fySign (T := T) G seed = σ at hw
  generalize hτ : fySign (T := T) G _ = τ at hw
  have da : DistinctTo k a := ha ▸ fyIdx_distinct hkm
  have db : DistinctTo k b := hb ▸ fyIdx_distinct hkn
  have ra : ∀ i, 0 ≤ i → i < k → 0 ≤ a i ∧ a i < m := fun i h0 h1 => ha ▸ fyIdx_range h0 h1 hkm
  have rb : ∀ i, 0 ≤ i → i < k → 0 ≤ b i ∧ b i < n := fun i h0 h1 => hb ▸ fyIdx_range h0 h1 hkn
  have sσ : ∀ i, σ i * σ i = 1 := fun i => hσ ▸ fySign_sq i
  have sτ : ∀ i, τ i * τ i = 1 := fun i => hτ ▸ fySign_sq i
  clear ha hb hσ hτ
  have hkT : (k : T) ≠ 0 := by exact_mod_cast hk.ne'
  have hc : 1 / sqrt (k : T) * (1 / sqrt k) = 1 / k := by rw [div_mul_div_comm, one_mul, hsqrt]
  generalize 1 / sqrt (k : T) = c at hc ⊢
  rw [M.wp_bind]
  refine M.wp_forI (SigInv m n k c a b σ τ t) hk.le ?_ ?_ ?_
  · refine ⟨⟨_, _, _, rfl, allocTo_alloc _, allocTo_alloc _, allocTo_alloc _, fun p hp => if_neg (by omega), fun p h0 h1 => by omega⟩, ?_, ?_, rfl⟩
    · intro p h0 h1
      rw [hu p h0 h1, placed_none (fun i h0 h1 => by omega)]
    · intro p h0 h1
      rw [hv p h0 h1, placed_none (fun i h0 h1 => by omega)]
  · intro j t' hj hj' ht
    exact signalColumn_spec hw (by nlinarith) hj hj' da db ra rb ht
  · rintro ⟨u, v, dn, A⟩ ⟨⟨vb, rb', cb, hA, g1, g2, g3, -, g4⟩, hu', hv', hd'⟩
    simp only at hA hd'
    subst hA hd'
    simp only [M.wp_bind, M.wp_get, SigSt.onDense, M.wp_zoom]
    refine M.wp_mono (blasGerCol_spec (by omega) (by omega) le_rfl hu' hv' hd) ?_
    intro _ d' h'
    have hU := unitSign_placed (m := m) hk hkT hc sσ da ra
    have hV := unitSign_placed (m := n) hk hkT hc sτ db rb
    have hmat : ∀ i j, toMat (signalEntries k a b σ τ) i j = k * (placed k a (fun i => c * σ i) i * placed k b (fun i => c * τ i) j) := by
      intro i j
      have e : ∀ (x : Int → Int) (f : Int → T) p, placed k x (fun i => c * f i) p = c * placed k x f p := by
        intro x f p
        unfold placed
        rw [mul_sum]
        exact sum_congr rfl fun i _ => by split_ifs <;> simp
      rw [signalEntries_toMat hk da db, e, e, mul_mul_mul_comm, hc, ← mul_assoc, mul_one_div_cancel hkT, one_mul]
    have hlen : ((signalEntries k a b σ τ).length : Int) = k * k := by
      unfold signalEntries
      have : 0 ≤ k * k := by positivity
      simp [this]
    refine ⟨_, _, signalEntries k a b σ τ, hu', hv', hU, hV, h', trivial, trivial, trivial, ⟨hlen.symm, ?_⟩, signalEntries_nodup hk da db σ τ, ?_, hlen, hmat, ?_⟩
    · show CooHolds vb rb' cb (rebase 0 _)
      rw [rebase_zero]
      intro q hq
      obtain ⟨k1, k2, k3⟩ := g4 q (by omega) (by omega)
      simp only [signalEntries, List.getElem_map, List.getElem_range]
      exact ⟨k3, k1, k2⟩
    · intro e he
      unfold signalEntries at he
      rw [List.mem_map] at he
      obtain ⟨p, hp, rfl⟩ := he
      rw [List.mem_range] at hp
      obtain ⟨p1, p2, p3, p4⟩ := divmod_bounds (k := k) (p := p) (by omega) (by omega) hk
      exact ⟨(ra _ p3 p4).1, (ra _ p3 p4).2, (rb _ p1 p2).1, (rb _ p1 p2).2⟩
    · constructor
      · intro h
        have h0 := ra 0 le_rfl hk
        have h1 := rb 0 le_rfl hk
        have := h (a 0) (b 0) ⟨h0.1, h0.2, h1.1, h1.2⟩
        rw [hmat] at this
        have hc0 : c ≠ 0 := by
          rintro rfl
          rw [mul_zero] at hc
          exact one_div_ne_zero hkT hc.symm
        have nz : ∀ (f : Int → T), (∀ i, f i * f i = 1) → c * f 0 ≠ 0 := fun f hf => mul_ne_zero hc0 fun h => by have := hf 0; rw [h, mul_zero] at this; exact zero_ne_one this
        refine (mul_right_cancel₀ ?_ this).symm
        rw [placed_at da le_rfl hk, placed_at db le_rfl hk]
        exact mul_ne_zero (nz σ sσ) (nz τ sτ)
      · rintro rfl i j -
        exact hmat i j

/-- C106. If `vec_nnz * vec_nnz > 2^31`, the position of an entry does not fit an `int`: the call is undefined (it writes before the start of an array),
even if `vec_nnz <= m` and `vec_nnz <= n`. -/
theorem C106_int_undefined [BEq T] {G : Gen N K W R} {sqrt : T → T} {scale : T} {m n k : Int} {seed : RNGState N K} {t : SigSt T}
    (hG : G.Ok) (hk : 0 < k) (hkm : k ≤ m) (hkn : k ≤ n) (hk64 : k ≤ intMax 64) (hkk : 2147483648 < k * k) (hs : t.sparse = mkCoo m n)
    (hu : VecIs t.u m fun _ => 0) (hv : VecIs t.v n fun _ => 0) : M.Undef (makeSignal G sqrt scale m n k seed) t := by
  unfold makeSignal
  refine M.Undef.after (M.wp_mono (signalSample_spec hG hk hkm hkn hk64 hs) ?_)
  rintro ⟨idxs, vals⟩ _ ⟨hw, rfl⟩
  simp only at hw
  have da := fyIdx_distinct (G := G) (state := seed) hkm
  have db := fyIdx_distinct (G := G) (state := { seed with counter := seed.counter + ((1 * k : Int) : ZMod N) }) hkn
  have ra : ∀ i, 0 ≤ i → i < k → 0 ≤ fyIdx G seed k m i ∧ fyIdx G seed k m i < m := fun i h0 h1 => fyIdx_range h0 h1 hkm
  have rb : ∀ i, 0 ≤ i → i < k → 0 ≤ fyIdx G { seed with counter := seed.counter + ((1 * k : Int) : ZMod N) } k n i ∧
    fyIdx G { seed with counter := seed.counter + ((1 * k : Int) : ZMod N) } k n i < n := fun i h0 h1 => fyIdx_range h0 h1 hkn
  generalize fyIdx G seed k m = a at hw da ra
  generalize fyIdx G _ k n = b at hw db rb
  generalize fySign (T := T) G seed = σ at hw
  generalize fySign (T := T) G _ = τ at hw
  have e := Int.mul_ediv_add_emod 2147483648 k
  obtain ⟨p1, p2, p3, p4⟩ := divmod_bounds (k := k) (p := 2147483648) (by norm_num) hkk hk
  generalize 2147483648 / k = q at e p1 p2
  generalize 2147483648 % k = r at e p3 p4
  rw [mul_comm] at e
  dsimp only
  refine M.Undef.bind (M.Undef.forI (j := q) (SigInv m n k (1 / sqrt k) a b σ τ t) p1 p2 ?_ ?_ ?_)
  · refine ⟨⟨_, _, _, rfl, allocTo_alloc _, allocTo_alloc _, allocTo_alloc _, fun p hp => if_neg (by omega), fun p h0 h1 => by omega⟩, ?_, ?_, rfl⟩
    · intro p h0 h1
      rw [hu p h0 h1, placed_none (fun i h0 h1 => by omega)]
    · intro p h0 h1
      rw [hv p h0 h1, placed_none (fun i h0 h1 => by omega)]
  · intro j t' hj hj' ht
    exact signalColumn_spec hw (by nlinarith) hj (by omega) da db ra rb ht
  · intro t' ht
    unfold signalColumn
    refine M.Undef.bind (M.Undef.forI (j := r) (fun i t' => SigArr m n k (i + q * k) a b σ τ t'.sparse) p3 p4 (by rw [zero_add]; exact ht.arr) ?_ ?_)
    · intro i t' hi hi' h
      exact M.wp_mono (signalEntry_spec hw (by omega) hi (by omega) p1 p2 h) fun _ _ h => h.1
    · rintro ⟨u, v, dn, A⟩ ⟨vb, rb', cb, hA, -, -, -, g5, -⟩
      simp only at hA
      subst hA
      unfold signalEntry
      refine M.Undef.after ((M.wp_lift).2 ⟨_, Buf.rd_val (hw.a r p3 p4), M.Undef.bind ?_⟩)
      refine M.Undef.zoom (M.Undef.zoom (M.Undef.zoom ?_))
      have hneg : wrapInt 32 (r + q * k) = -2147483648 := by
        rw [show r + q * k = 2147483648 by omega]; decide
      simp only [hneg, CooMat.bufs, ptr, Option.getD_some]
      unfold M.Undef M.wr
      rw [g5 _ (by norm_num)]

end

/-! ## Examples -/

/-- The outputs of `make_signal_matrix` as `main` allocates them. -/
def exSignal (m n : Int) : SigSt ℝ := { u := Buf.fill m 0, v := Buf.fill n 0, dense := Buf.fill (m * n) 0, sparse := mkCoo m n }

theorem exSignal_dense {m n : Int} : Holds (exSignal m n).dense .ColMajor m m n fun _ _ => 0 := by
  rintro i j ⟨h0, h1, h2, h3⟩
  show (if _ then _ else _) = _
  rw [if_pos]
  constructor
  · show 0 ≤ i + j * m
    exact add_nonneg h0 (mul_nonneg h2 (by omega))
  · show i + j * m < m * n
    nlinarith

/-- The default parameters of `main` (10000 x 500, four nonzeros, scale 100) meet the hypotheses of C106: the two forms of the signal differ. -/
theorem C106_counterexample [BEq ℝ] [LawfulBEq ℝ] (seed : RNGState (2 ^ 128) Nat) :
    M.wp (makeSignal exGen Real.sqrt (100 : ℝ) 10000 500 4 seed) (exSignal 10000 500) (fun _ t' => ∃ X E, Holds t'.dense .ColMajor 10000 10000 500 X ∧
      CooIs t'.sparse E ∧ ¬ ∀ i j, InR 10000 500 i j → toMat E i j = X i j) := by
  refine M.wp_mono (C106_signal_partial (D := fun _ _ => 0) (Or.inr rfl) (by norm_num) (by norm_num) (by norm_num) (by norm_num)
    (Real.mul_self_sqrt (by norm_num)) rfl ?_ ?_ exSignal_dense) ?_
  · intro p h0 h1; exact if_pos ⟨h0, h1⟩
  · intro p h0 h1; exact if_pos ⟨h0, h1⟩
  · rintro - t' ⟨U, V, E, -, -, -, -, hd, -, -, -, hE, -, -, -, -, hiff⟩
    refine ⟨_, E, hd, hE, fun h => ?_⟩
    have := hiff.1 fun i j hij => by rw [h i j hij, zero_add]
    norm_num at this

/-- With scale 4 they agree. -/
example [BEq ℝ] [LawfulBEq ℝ] (seed : RNGState (2 ^ 128) Nat) :
    M.wp (makeSignal exGen Real.sqrt (4 : ℝ) 10000 500 4 seed) (exSignal 10000 500) (fun _ t' => ∃ X E, Holds t'.dense .ColMajor 10000 10000 500 X ∧
      CooIs t'.sparse E ∧ ∀ i j, InR 10000 500 i j → toMat E i j = X i j) := by
  refine M.wp_mono (C106_signal_partial (D := fun _ _ => 0) (Or.inr rfl) (by norm_num) (by norm_num) (by norm_num) (by norm_num)
    (Real.mul_self_sqrt (by norm_num)) rfl ?_ ?_ exSignal_dense) ?_
  · intro p h0 h1; exact if_pos ⟨h0, h1⟩
  · intro p h0 h1; exact if_pos ⟨h0, h1⟩
  · rintro - t' ⟨U, V, E, -, -, -, -, hd, -, -, -, hE, -, -, -, -, hiff⟩
    exact ⟨_, E, hd, hE, fun i j hij => by rw [zero_add]; exact hiff.2 (by norm_num) i j hij⟩

/-- The hypotheses of `C106_int_undefined` for a 50000 x 50000 matrix. -/
example [BEq ℝ] (seed : RNGState (2 ^ 128) Nat) : M.Undef (makeSignal exGen Real.sqrt (100 : ℝ) 50000 50000 46341 seed) (exSignal 50000 50000) :=
  C106_int_undefined (Or.inr rfl) (by norm_num) (by norm_num) (by norm_num) (by decide) (by norm_num) rfl (fun p h0 h1 => if_pos ⟨h0, h1⟩)
    (fun p h0 h1 => if_pos ⟨h0, h1⟩)

end RB
