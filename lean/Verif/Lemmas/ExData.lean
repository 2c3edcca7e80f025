import Verif.Model.ExData
import Verif.Spec.ExData
import Verif.Lemmas.FisherYates
import Verif.Props.FisherYates
import Verif.Props.SumCoo
import Verif.Props.Stab

/-! # Lemmas for the signal matrix -/

namespace RB
open Spec Finset

variable {N : Nat} {K W R T : Type}

section
variable [Field T]

/-- The vector with `f i` at position `a i`. -/
def placed (k : Int) (a : Int → Int) (f : Int → T) (p : Int) : T := ∑ i ∈ range k.toNat, if a i = p then f i else 0

/-- The first `k` values of `a` are distinct. -/
def DistinctTo (k : Int) (a : Int → Int) : Prop := ∀ i j, 0 ≤ i → i < k → 0 ≤ j → j < k → a i = a j → i = j

theorem placed_none {k : Int} {a : Int → Int} {f : Int → T} {p : Int} (h : ∀ i, 0 ≤ i → i < k → a i ≠ p) : placed k a f p = 0 := by
  unfold placed
  refine sum_eq_zero fun i hi => if_neg (h i (by omega) ?_)
  rw [mem_range] at hi; omega

theorem placed_at {k : Int} {a : Int → Int} {f : Int → T} (ha : DistinctTo k a) {i : Int} (h0 : 0 ≤ i) (h1 : i < k) : placed k a f (a i) = f i := by
  lift i to Nat using h0
  unfold placed
  rw [sum_eq_single i, if_pos rfl]
  · intro j hj hne
    rw [mem_range] at hj
    exact if_neg fun h => hne (by have := ha j i (by omega) (by omega) (by omega) h1 h; omega)
  · intro h; rw [mem_range] at h; omega

theorem placed_succ {k : Int} (hk : 0 ≤ k) (a : Int → Int) (f : Int → T) (p : Int) :
    placed (k + 1) a f p = placed k a f p + if a k = p then f k else 0 := by
  lift k to Nat using hk
  unfold placed
  rw [show ((k : Int) + 1).toNat = k + 1 by omega, sum_range_succ]; rfl

/-- A position of the vector is one of the chosen positions, or the entry is zero. -/
theorem placed_cases (k : Int) {a : Int → Int} (ha : DistinctTo k a) (f : Int → T) (p : Int) :
    (∃ i, 0 ≤ i ∧ i < k ∧ a i = p ∧ placed k a f p = f i) ∨ ((∀ i, 0 ≤ i → i < k → a i ≠ p) ∧ placed k a f p = 0) := by
  by_cases h : ∃ i, 0 ≤ i ∧ i < k ∧ a i = p
  · obtain ⟨i, h0, h1, rfl⟩ := h
    exact Or.inl ⟨i, h0, h1, rfl, placed_at ha h0 h1⟩
  · have h' : ∀ i, 0 ≤ i → i < k → a i ≠ p := fun i h0 h1 he => h ⟨i, h0, h1, he⟩
    exact Or.inr ⟨h', placed_none h'⟩

theorem unitSign_placed {k m : Int} {a : Int → Int} {σ : Int → T} {c : T} (hk : 0 < k) (hkT : (k : T) ≠ 0) (hc : c * c = 1 / k) (hσ : ∀ i, σ i * σ i = 1)
    (ha : DistinctTo k a) (hr : ∀ i, 0 ≤ i → i < k → 0 ≤ a i ∧ a i < m) : UnitSign k m (placed k a fun i => c * σ i) := by
  have hc0 : c ≠ 0 := by
    rintro rfl
    rw [mul_zero] at hc
    exact one_div_ne_zero hkT hc.symm
  have hσ0 : ∀ i, c * σ i ≠ 0 := fun i => mul_ne_zero hc0 fun h => by have := hσ i; rw [h, mul_zero] at this; exact zero_ne_one this
  have hsq : ∀ i, c * σ i * (c * σ i) = 1 / (k : T) := fun i => by rw [mul_mul_mul_comm, hc, hσ, mul_one]
  refine ⟨fun i hi => placed_none fun j h0 h1 he => hi (he ▸ hr j h0 h1), fun i hi => ?_, ?_, ?_⟩
  · rcases placed_cases k ha (fun i => c * σ i) i with ⟨j, -, -, -, h⟩ | ⟨-, h⟩
    · rw [h, hsq]
    · exact absurd h hi
  · refine ⟨(range k.toNat).image fun i : Nat => a i, ?_, fun i => ?_⟩
    · rw [card_image_of_injOn, card_range]
      · omega
      · intro i hi j hj he
        simp only [coe_range, Set.mem_Iio] at hi hj
        have := ha i j (by omega) (by omega) (by omega) (by omega) he
        omega
    · rw [mem_image]
      constructor
      · rintro ⟨j, hj, rfl⟩
        rw [mem_range] at hj
        rw [placed_at ha (by omega) (by omega)]
        exact hσ0 j
      · intro hi
        rcases placed_cases k ha (fun i => c * σ i) i with ⟨j, h0, h1, he, -⟩ | ⟨-, h⟩
        · exact ⟨j.toNat, by rw [mem_range]; omega, by rw [Int.toNat_of_nonneg h0]; exact he⟩
        · exact absurd h hi
  · have e1 : ∀ i ∈ range m.toNat, placed k a (fun i => c * σ i) i * placed k a (fun i => c * σ i) i = ∑ r ∈ range k.toNat, if a r = i then 1 / (k : T) else 0 := by
      intro i _
      show _ = placed k a (fun _ => 1 / (k : T)) i
      rcases placed_cases k ha (fun i => c * σ i) i with ⟨j, h0, h1, he, h⟩ | ⟨h', h⟩
      · rw [h, hsq, ← he, placed_at ha h0 h1]
      · rw [h, placed_none h', mul_zero]
    rw [sum_congr rfl e1, sum_comm]
    have e2 : ∀ r ∈ range k.toNat, (∑ i ∈ range m.toNat, if a r = i then 1 / (k : T) else 0) = 1 / k := by
      intro r hr'
      rw [mem_range] at hr'
      have := hr r (by omega) (by omega)
      rw [sum_eq_single (a r).toNat, if_pos (by omega)]
      · intro b _ hne; exact if_neg (by omega)
      · intro h; rw [mem_range] at h; omega
    rw [sum_congr rfl e2, sum_const, card_range, nsmul_eq_mul]
    have : ((k.toNat : Nat) : T) = (k : T) := by
      conv_rhs => rw [← Int.toNat_of_nonneg hk.le]
      rw [Int.cast_natCast]
    rw [this, mul_one_div_cancel hkT]

/-! ## The entries of the sparse matrix -/

/-- The entries that `make_signal_matrix` stores, in order. -/
def signalEntries (k : Int) (a b : Int → Int) (σ τ : Int → T) : List (Entry T) :=
  (List.range (k * k).toNat).map fun p : Nat => ⟨a ((p : Int) % k), b ((p : Int) / k), σ ((p : Int) % k) * τ ((p : Int) / k)⟩

theorem divmod_bounds {k p : Int} (h0 : 0 ≤ p) (h1 : p < k * k) (hk : 0 < k) : 0 ≤ p / k ∧ p / k < k ∧ 0 ≤ p % k ∧ p % k < k :=
  ⟨Int.ediv_nonneg h0 hk.le, Int.ediv_lt_of_lt_mul hk h1, Int.emod_nonneg _ hk.ne', Int.emod_lt_of_pos _ hk⟩

theorem signalEntries_nodup {k : Int} (hk : 0 < k) {a b : Int → Int} (ha : DistinctTo k a) (hb : DistinctTo k b) (σ τ : Int → T) :
    ((signalEntries k a b σ τ).map Entry.pos).Nodup := by
  unfold signalEntries
  rw [List.map_map]
  refine List.Nodup.map_on ?_ List.nodup_range
  intro p hp q hq he
  rw [List.mem_range] at hp hq
  simp only [Function.comp, Entry.pos, Prod.mk.injEq] at he
  obtain ⟨p1, p2, p3, p4⟩ := divmod_bounds (k := k) (p := p) (by omega) (by omega) hk
  obtain ⟨q1, q2, q3, q4⟩ := divmod_bounds (k := k) (p := q) (by omega) (by omega) hk
  have e1 := ha _ _ p3 p4 q3 q4 he.1
  have e2 := hb _ _ p1 p2 q1 q2 he.2
  have := Int.mul_ediv_add_emod (p : Int) k
  have := Int.mul_ediv_add_emod (q : Int) k
  rw [e1, e2] at *
  omega

theorem signalEntries_toMat {k : Int} (hk : 0 < k) {a b : Int → Int} (ha : DistinctTo k a) (hb : DistinctTo k b) (σ τ : Int → T) (i j : Int) :
    toMat (signalEntries k a b σ τ) i j = placed k a σ i * placed k b τ j := by
  have hnone : (∀ r q, 0 ≤ r → r < k → 0 ≤ q → q < k → ¬ (a r = i ∧ b q = j)) → toMat (signalEntries k a b σ τ) i j = 0 := by
    intro h
    refine toMat_none fun e he => ?_
    unfold signalEntries at he
    rw [List.mem_map] at he
    obtain ⟨p, hp, rfl⟩ := he
    rw [List.mem_range] at hp
    obtain ⟨p1, p2, p3, p4⟩ := divmod_bounds (k := k) (p := p) (by omega) (by omega) hk
    exact h _ _ p3 p4 p1 p2
  rcases placed_cases k ha σ i with ⟨r, r0, r1, rfl, hr⟩ | ⟨h', hr⟩
  · rcases placed_cases k hb τ j with ⟨q, q0, q1, rfl, hq⟩ | ⟨h', hq⟩
    · rw [hr, hq]
      have hmem : (⟨a r, b q, σ r * τ q⟩ : Entry T) ∈ signalEntries k a b σ τ := by
        unfold signalEntries
        rw [List.mem_map]
        have hpos : 0 ≤ q * k + r := by positivity
        obtain ⟨d1, d2⟩ := div_block (k := k) (i := q) (j := r) r0 r1
        refine ⟨(q * k + r).toNat, List.mem_range.2 ?_, ?_⟩
        · have : q * k + r < k * k := by nlinarith
          omega
        · simp only [Int.toNat_of_nonneg hpos, d1, d2]
      exact toMat_mem (signalEntries_nodup hk ha hb σ τ) hmem
    · rw [hq, mul_zero]
      exact hnone fun r q _ _ q0 q1 h => h' q q0 q1 h.2
  · rw [hr, zero_mul]
    exact hnone fun r q r0 r1 _ _ h => h' r r0 r1 h.1

/-! ## The loops -/

theorem wrapInt_id {w : Nat} {x : Int} (h0 : -2 ^ (w - 1) ≤ x) (h1 : x < 2 ^ (w - 1)) (hw : 0 < w) : wrapInt w x = x := by
  unfold wrapInt
  have : (2 : Int) ^ w = 2 * 2 ^ (w - 1) := by
    conv_lhs => rw [show w = (w - 1) + 1 by omega, pow_succ]
    ring
  rw [Int.emod_eq_of_lt (by omega) (by omega)]
  ring

/-- What the arrays read by the loops contain. -/
structure WorkIs (k : Int) (idxs : Buf Int) (vals : Buf T) (a b : Int → Int) (σ τ : Int → T) : Prop where
  a : ∀ i, 0 ≤ i → i < k → idxs i = .val (a i)
  b : ∀ i, 0 ≤ i → i < k → idxs (i + k) = .val (b i)
  σ : ∀ i, 0 ≤ i → i < k → vals i = .val (σ i)
  τ : ∀ i, 0 ≤ i → i < k → vals (i + k) = .val (τ i)

/-- The sparse matrix after `q` entries have been stored. -/
def SigArr (m n k q : Int) (a b : Int → Int) (σ τ : Int → T) (A : CooMat T) : Prop :=
  ∃ vb rb cb, A = ⟨m, n, true, k * k, .Zero, some vb, some rb, some cb, .None⟩ ∧ AllocTo vb (k * k) ∧ AllocTo rb (k * k) ∧ AllocTo cb (k * k) ∧
    (∀ p, p < 0 → rb p = .none) ∧ ∀ p, 0 ≤ p → p < q → rb p = .val (a (p % k)) ∧ cb p = .val (b (p / k)) ∧ vb p = .val (σ (p % k) * τ (p / k))

theorem allocTo_set {X : Type} {b : Buf X} {l p : Int} {v : X} (h : AllocTo b l) : AllocTo (b.set p v) l := by
  intro q h0 h1
  rw [Buf.set_apply]
  split_ifs
  · simp
  · exact h q h0 h1

theorem signalEntry_spec {m n k i j : Int} {idxs : Buf Int} {vals : Buf T} {a b : Int → Int} {σ τ : Int → T} (hw : WorkIs k idxs vals a b σ τ)
    (h32 : i + j * k < 2147483648) (hi : 0 ≤ i) (hi' : i < k) (hj : 0 ≤ j) (hj' : j < k) {t : SigSt T} (ht : SigArr m n k (i + j * k) a b σ τ t.sparse) :
    M.wp (signalEntry idxs vals k j i) t (fun _ t' => SigArr m n k (i + 1 + j * k) a b σ τ t'.sparse ∧ t'.u = t.u ∧ t'.v = t.v ∧ t'.dense = t.dense) := by
  obtain ⟨u, v, dn, A⟩ := t
  obtain ⟨vb, rb, cb, hA, g1, g2, g3, g5, g4⟩ := ht
  simp only at hA
  subst hA
  have hp0 : 0 ≤ i + j * k := add_nonneg hi (mul_nonneg hj (by omega))
  have hp1 : i + j * k < k * k := by nlinarith
  obtain ⟨d1, d2⟩ := div_block (k := k) (i := j) (j := i) hi hi'
  rw [show j * k + i = i + j * k by ring] at d1 d2
  have hwrap : wrapInt 32 (i + j * k) = i + j * k := wrapInt_id (by norm_num; omega) (by norm_num; omega) (by norm_num)
  unfold signalEntry
  simp only [M.wp_bind, M.wp_lift, SigSt.onArrays, SigSt.onSparse, onCRows, onCCols, onCVals, M.wp_zoom, M.wp_wr, hwrap, CooMat.bufs, CooMat.withBufs, ptr,
    Option.map_some, Option.getD_some]
  refine ⟨_, Buf.rd_val (hw.a i hi hi'), g2 _ hp0 hp1, _, Buf.rd_val (hw.b j hj hj'), g3 _ hp0 hp1, _, Buf.rd_val (hw.σ i hi hi'), _, Buf.rd_val (hw.τ j hj hj'),
    g1 _ hp0 hp1, ?_, trivial, trivial, trivial⟩
  refine ⟨_, _, _, rfl, allocTo_set g1, allocTo_set g2, allocTo_set g3, fun p hp => by rw [Buf.set_ne (by omega)]; exact g5 p hp, fun p h0 h1 => ?_⟩
  by_cases he : p = i + j * k
  · subst he
    rw [Buf.set_same, Buf.set_same, Buf.set_same, d1, d2]
    exact ⟨rfl, rfl, rfl⟩
  · rw [Buf.set_ne he, Buf.set_ne he, Buf.set_ne he]
    exact g4 p h0 (by omega)

/-- The state after `j` iterations of the outer loop. -/
structure SigInv (m n k : Int) (c : T) (a b : Int → Int) (σ τ : Int → T) (t0 : SigSt T) (j : Int) (t : SigSt T) : Prop where
  arr : SigArr m n k (j * k) a b σ τ t.sparse
  u : VecIs t.u m (placed j a fun i => c * σ i)
  v : VecIs t.v n (placed j b fun i => c * τ i)
  dense : t.dense = t0.dense

theorem vecIs_set {m j k : Int} {a : Int → Int} {f : Int → T} {u : Buf T} (ha : DistinctTo k a) (hj : 0 ≤ j) (hj' : j < k)
    (h : VecIs u m (placed j a f)) : VecIs (u.set (a j) (f j)) m (placed (j + 1) a f) := by
  intro p h0 h1
  rw [Buf.set_apply, placed_succ hj]
  by_cases he : p = a j
  · rw [if_pos he, if_pos he.symm, placed_none, zero_add]
    intro i i0 i1 hi
    have := ha i j i0 (by omega) hj hj' (hi.trans he)
    omega
  · rw [if_neg he, if_neg (Ne.symm he), add_zero]
    exact h p h0 h1

theorem signalColumn_spec {m n k j : Int} {idxs : Buf Int} {vals : Buf T} {a b : Int → Int} {σ τ : Int → T} {c : T} (hw : WorkIs k idxs vals a b σ τ)
    (h32 : (j + 1) * k ≤ 2147483648) (hj : 0 ≤ j) (hj' : j < k) (ha : DistinctTo k a) (hb : DistinctTo k b) (hra : ∀ i, 0 ≤ i → i < k → 0 ≤ a i ∧ a i < m)
    (hrb : ∀ i, 0 ≤ i → i < k → 0 ≤ b i ∧ b i < n) {t0 t : SigSt T} (ht : SigInv m n k c a b σ τ t0 j t) :
    M.wp (signalColumn idxs vals c k j) t (fun _ t' => SigInv m n k c a b σ τ t0 (j + 1) t') := by
  unfold signalColumn
  rw [M.wp_bind]
  rw [add_mul, one_mul] at h32
  refine M.wp_forI (fun i t' => SigArr m n k (i + j * k) a b σ τ t'.sparse ∧ t'.u = t.u ∧ t'.v = t.v ∧ t'.dense = t.dense) (by omega)
    ⟨by rw [zero_add]; exact ht.arr, rfl, rfl, rfl⟩ ?_ ?_
  · rintro i t' hi hi' ⟨g1, g2, g3, g4⟩
    refine M.wp_mono (signalEntry_spec hw (by omega) hi hi' hj hj' g1) ?_
    rintro - t'' ⟨k1, k2, k3, k4⟩
    exact ⟨k1, k2.trans g2, k3.trans g3, k4.trans g4⟩
  · rintro ⟨u, v, dn, A⟩ ⟨g1, rfl, rfl, rfl⟩
    simp only [M.wp_bind, M.wp_lift, SigSt.onU, SigSt.onV, M.wp_zoom, M.wp_wr]
    have h1 := hra j hj hj'
    have h2 := hrb j hj hj'
    refine ⟨_, Buf.rd_val (hw.a j hj hj'), _, Buf.rd_val (hw.σ j hj hj'), ?_, _, Buf.rd_val (hw.b j hj hj'), _, Buf.rd_val (hw.τ j hj hj'), ?_, ?_⟩
    · rw [ht.u _ h1.1 h1.2]; simp
    · rw [ht.v _ h2.1 h2.2]; simp
    · exact ⟨by rw [add_mul, one_mul, add_comm]; exact g1, vecIs_set (f := fun i => c * σ i) ha hj hj' ht.u, vecIs_set (f := fun i => c * τ i) hb hj hj' ht.v, ht.dense⟩

theorem blasGerCol_spec [BEq T] [LawfulBEq T] {m n lda : Int} {alpha : T} {x y d : Buf T} {X Y : Int → T} {D : Int → Int → T} (hm : 0 ≤ m) (hn : 0 ≤ n) (hl : m ≤ lda)
    (hx : VecIs x m X) (hy : VecIs y n Y) (hd : Holds d .ColMajor lda m n D) :
    M.wp (blasGerCol m n alpha x y lda) d (fun _ d' => Holds d' .ColMajor lda m n (fun i j => D i j + alpha * (X i * Y j))) := by
  unfold blasGerCol
  simp only [M.wp_bind, wp_blasCheck]
  refine ⟨hm, hn, hl, ?_⟩
  by_cases ha : alpha = 0
  · rw [if_pos (by simpa using ha), M.wp_pure, ha]
    simpa using hd
  rw [if_neg (by simpa using ha)]
  refine M.wp_forI (fun q d' => Holds d' .ColMajor lda m n (fun i j => D i j + if j < q then alpha * (X i * Y j) else 0)) hn ?_ ?_ ?_
  · intro i j h
    beta_reduce
    rw [if_neg (by have := h.2.2.1; omega), add_zero]
    exact hd i j h
  · intro q d1 q0 q1 h1
    simp only [M.wp_bind, M.wp_lift]
    refine ⟨_, Buf.rd_val (hy q q0 q1), ?_⟩
    refine M.wp_forI (fun r d' => Holds d' .ColMajor lda m n (fun i j => D i j + if j < q ∨ (j = q ∧ i < r) then alpha * (X i * Y j) else 0)) hm ?_ ?_ ?_
    · intro i j h
      rw [h1 i j h]
      refine congrArg Cell.val (congrArg (D i j + ·) (if_congr ?_ rfl rfl))
      have := h.1
      omega
    · intro r d2 r0 r1 h2
      have hin : InR m n r q := ⟨r0, r1, q0, q1⟩
      have hcell := h2 r q hin
      beta_reduce at hcell
      rw [if_neg (by omega), add_zero] at hcell
      simp only [M.wp_bind, M.wp_lift, M.wp_rd, M.wp_wr]
      refine ⟨_, Buf.rd_val (hx r r0 r1), _, hcell, by rw [show r + q * lda = addr .ColMajor lda r q from rfl, hcell]; simp, ?_⟩
      intro i j h
      by_cases he : i = r ∧ j = q
      · obtain ⟨rfl, rfl⟩ := he
        rw [show i + j * lda = addr .ColMajor lda i j from rfl, Buf.set_same]
        beta_reduce
        rw [if_pos (Or.inr ⟨rfl, by omega⟩)]
        congr 2; ring
      · rw [Buf.set_ne, h2 i j h]
        · refine congrArg Cell.val (congrArg (D i j + ·) (if_congr ?_ rfl rfl))
          omega
        · intro h'
          exact he (addr_inj (layout := .ColMajor) (ld := lda) hl h hin h')
    · intro d2 h2 i j h
      rw [h2 i j h]
      refine congrArg Cell.val (congrArg (D i j + ·) (if_congr ?_ rfl rfl))
      have := h.2.1
      omega
  · intro d1 h1 i j h
    rw [h1 i j h]
    beta_reduce
    rw [if_pos h.2.2.2]

end

end RB
