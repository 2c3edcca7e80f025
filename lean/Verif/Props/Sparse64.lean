import Verif.Lemmas.Sparse64
import Verif.Props.Sparse
import Verif.Props.FisherYates

/-!
# C57: index arithmetic of sparse sampling

The functions with suffix `W` compute with `int64_t` and with indices of `w` bits; the functions without suffix compute with integers.
-/

namespace RB
open Spec
variable {N : Nat} {K W R T : Type}

/-- Rows and columns of the operator can be numbered with `w` bits; if the operator has a fixed number of nonzeros per short-axis vector, the
nonzeros can be numbered, too. -/
def Spec.IndexFits (w : Nat) (D : SparseDist) : Prop :=
  D.nRows ≤ intMax w ∧ D.nCols ≤ intMax w ∧ (D.majorAxis = .Short → D.fullNnz ≤ intMax w + 1)

/-- C57. If the index type can number the rows, the columns and (for short-axis operators) the nonzeros, filling the operator does what it would
do with unbounded integers: same data, same state, no overflow.

Missing: short-axis operators with more nonzeros (`C57_undefined`). -/
theorem C57_fill_partial [Field R] [LinearOrder R] [IsStrictOrderedRing R] [FloorRing R] [Zero T] [One T] [Neg T] [Add T] [Mul T] {w : Nat}
    {G : Gen N K W R} {sqrt : T → T} {order : Int → List (Int × T) → List (Int × T)} {S : SparseSkOp N K T} (hw : 3 ≤ w) (hw' : w ≤ 64)
    (hG : UnitRange G) (hD : SparseDistOk S.dist) (hI : IndexFits w S.dist) :
    fillSparseW w G sqrt order S = fillSparse G sqrt order S := by
  obtain ⟨hR, hC, hk, hkd, hfull, hfit, hax⟩ := sparseDist_facts hD
  obtain ⟨i1, i2, i3⟩ := hI
  have hm : intMax 64 = 2 ^ 63 - 1 := rfl
  have hw3 : 3 ≤ intMax w := by
    have : (2 : Int) ^ 2 ≤ 2 ^ (w - 1) := pow_le_pow_right₀ (by norm_num) (by omega)
    unfold intMax; omega
  have hcore : fillSparseUnpackedNosubW w G sqrt order S.dist S.seedState = fillSparseUnpackedNosub G sqrt order S.dist S.seedState := by
    unfold fillSparseUnpackedNosubW fillSparseUnpackedNosub
    rcases hax with ⟨ha, hmaj, hmin⟩ | ⟨ha, hmaj, hmin⟩
    · have i4 := i3 ha
      rw [hfull] at i4 hfit
      have hkm : S.dist.vecNnz ≤ S.dist.dimMinor := by omega
      rw [if_pos ha, if_pos ha, repeatedFisherYatesW_eq (by omega) hw' hk.le ?_ (by omega) (by omega) (by omega) (by rw [mul_comm]; exact i4)
        (by rw [mul_comm]; omega)]
      · congr 1; funext st
        rw [mlift_i64 ?_ (by omega)]
        have := mul_pos hk (show 0 < S.dist.dimMinor by omega)
        omega
      · by_contra hc
        have : 2 * S.dist.vecNnz ≤ S.dist.vecNnz * S.dist.dimMinor := by nlinarith
        omega
    · have ha' : ¬ S.dist.majorAxis = .Short := by rw [ha]; simp
      rw [if_neg ha', if_neg ha', fillLasoW_eq (by omega) hG hk.le (by omega) (by omega) (by omega) (by omega) (by rw [hfull] at hfit; omega)]
  unfold fillSparseW fillSparse
  show (M.modify SparseSkOp.allocate >>= _) S = (M.modify SparseSkOp.allocate >>= _) S
  rw [M.bind_ok (show (M.modify SparseSkOp.allocate : M (SparseSkOp N K T) Unit) S = (.ok (), S.allocate) from rfl),
    M.bind_ok (show (M.modify SparseSkOp.allocate : M (SparseSkOp N K T) Unit) S = (.ok (), S.allocate) from rfl),
    M.bind_ok (show (M.get : M (SparseSkOp N K T) _) S.allocate = (.ok S.allocate, S.allocate) from rfl),
    M.bind_ok (show (M.get : M (SparseSkOp N K T) _) S.allocate = (.ok S.allocate, S.allocate) from rfl)]
  have e1 : S.allocate.dist = S.dist := by unfold SparseSkOp.allocate; split_ifs <;> rfl
  have e2 : S.allocate.seedState = S.seedState := by unfold SparseSkOp.allocate; split_ifs <;> rfl
  rw [e1, e2, hcore]
  cases S.allocate.rows <;> cases S.allocate.cols <;> cases S.allocate.vals <;> rfl

/-- C57 (sampling without replacement). `repeated_fisher_yates` with indices of `w` bits does what it would do with unbounded integers, if the
index type can number the elements to choose from, the blocks and the samples. -/
theorem C57_permutations_partial {w : Nat} {G : Gen N K W R} {k n r : Int} {state : RNGState N K} (hw : 0 < w) (hw' : w ≤ 64) (hk : 0 ≤ k)
    (hkw : k < intMax w) (hn : n ≤ intMax w) (hr : 0 ≤ r) (hrw : r ≤ intMax w) (hfit : r * k ≤ intMax w + 1) (hfit' : r * k ≤ intMax 64) :
    repeatedFisherYatesPublicW w G k n r state = repeatedFisherYatesPublic G k n r state := by
  unfold repeatedFisherYatesPublicW repeatedFisherYatesPublic
  rw [repeatedFisherYatesW_eq hw hw' hk hkw hn hr hrw hfit hfit']

/-- C57 (sampling with replacement). `sample_indices_iid_uniform` with indices of `w` bits does what it would do with unbounded integers, if the
index type can number the elements to choose from. -/
theorem C57_uniform [Field R] [LinearOrder R] [IsStrictOrderedRing R] [FloorRing R] {w : Nat} {G : Gen N K W R} {n k : Int} {state : RNGState N K}
    (hG : UnitRange G) (hn : 0 ≤ n) (hnw : n ≤ intMax w) :
    sampleIndicesIidUniformPublicW w G n k state = sampleIndicesIidUniformPublic G n k state := by
  unfold sampleIndicesIidUniformPublicW sampleIndicesIidUniformPublic
  rw [sampleUniformW_eq hG hn hnw]

/-- C57 (constructor). The constructor of a distribution computes the members it should, if the sum of the dimensions and the number of nonzeros
are 64-bit numbers.

Missing: other arguments (`C57_nnz_counterexample`, `C57_sum_counterexample`). -/
theorem C57_dist_partial {r c k : Int} {ax : Axis} (hr : 0 ≤ r) (hc : 0 ≤ c) (hk : 0 ≤ k) (hsum : r + c ≤ intMax 64)
    (hnnz : k * (if ax = .Short then max r c else min r c) ≤ intMax 64) : mkSparseDist64 r c k ax = mkSparseDist r c k ax := by
  have hm : intMax 64 = 2 ^ 63 - 1 := rfl
  have hres : ∀ {β : Type} {x : Int} {f : Int → Res β}, (Res.ok x >>= f) = f x := fun {_ _ _} => rfl
  unfold mkSparseDist64 mkSparseDist
  dsimp only
  rw [i64_ok (by omega) (by omega), hres]
  have e : (r + c - if ax = .Short then min r c else max r c) = if ax = .Short then max r c else min r c := by
    split_ifs <;> omega
  have hmin : 0 ≤ (if ax = .Short then max r c else min r c) ∧ (if ax = .Short then max r c else min r c) ≤ r + c := by
    split_ifs <;> omega
  rw [e]
  generalize (if ax = .Short then max r c else min r c) = d at hnnz hmin
  have h0 := mul_nonneg hk hmin.1
  rw [i64_ok (by omega) (by omega), hres, i64_ok (by omega) (by omega), hres]

/-- C57 (next state). -/
theorem C57_next_state_partial {G : Gen N K W R} {D : SparseDist} {seed : RNGState N K} (hG : G.Ok) (hD : SparseDistOk D) :
    sparseNextState64 G.len D seed = .ok (sparseNextState G.len D seed) := by
  obtain ⟨hR, hC, hk, hkd, hfull, hfit, hax⟩ := sparseDist_facts hD
  have hm : intMax 64 = 2 ^ 63 - 1 := rfl
  have hlen : 0 < G.len := by rcases hG with h | h <;> rw [h] <;> decide
  unfold sparseNextState64 sparseNextState
  dsimp only
  have key : ∀ x, 0 ≤ x → x ≤ 2 * D.fullNnz → (do let full ← i64 x; pure (seed.incr full) : Res (RNGState N K)) = .ok (seed.incr x) := by
    intro x x0 x1
    rw [i64_ok (by omega) (by omega)]; rfl
  rcases hax with ⟨ha, hmaj, hmin⟩ | ⟨ha, hmaj, hmin⟩
  · rw [if_pos ha, if_pos ha, ← hmin]
    refine key _ (mul_nonneg (by omega) hk.le) ?_
    rw [hfull, mul_comm]
    have := mul_pos hk (show 0 < D.dimMinor by omega)
    omega
  · have ha' : ¬ D.majorAxis = .Short := by rw [ha]; simp
    rw [if_neg ha', if_neg ha', ← hmin, lasoIncr_eq hG]
    have h0 : 0 ≤ lasoStride G.len D.vecNnz := countersPerVector_nonneg hlen (by omega)
    have h1 : lasoStride G.len D.vecNnz ≤ 2 * D.vecNnz := countersPerVector_le hlen (by omega)
    have e : (2 * D.vecNnz + G.len - 1) / G.len = lasoStride G.len D.vecNnz := rfl
    rw [e]
    refine key _ (mul_nonneg (by omega) h0) ?_
    have := mul_le_mul_of_nonneg_left h1 (show 0 ≤ D.dimMinor by omega)
    rw [hfull]; linarith

/-- C57 (sampling without replacement), the size condition is necessary: with indices of `w < 64` bits and more than 2^(w-1) samples, the execution
of `repeated_fisher_yates` is undefined for every generator, every seed and every content of the memory. -/
theorem C57_permutations_undefined {w : Nat} {G : Gen N K W R} {k n r : Int} {state : RNGState N K} {b : Buf Int} (hw : 0 < w) (hw' : w < 64)
    (hG : G.Ok) (hk : 0 < k) (hkn : k ≤ n) (hn : n ≤ intMax w) (hr : 0 ≤ r) (hb : AllocTo b (r * k)) (hb' : ∀ p, p < 0 → b p = .none)
    (hbig : intMax w + 1 < r * k) : (repeatedFisherYatesPublicW w G k n r state b).1 = .ub := by
  have hlen : 2 ≤ G.len := by rcases hG with h | h <;> rw [h]; decide
  unfold repeatedFisherYatesPublicW
  refine ub_bind ?_
  rw [M.wp_get]
  refine ub_bind_left ?_
  have := repeatedFisherYatesW_ub (T := Int) (G := G) (state := state) (o := { major := b, minor := none, vals := none }) hw hw' hlen hk hkn hn hr hbig
    ⟨hb, fun b h => (by cases h), fun b h => (by cases h)⟩ hb'
  unfold M.onLocal
  rcases e : repeatedFisherYatesW (T := Int) w G state k n r { major := b, minor := none, vals := none } with ⟨res, m⟩
  rw [e] at this
  simp only at this
  subst this
  rfl

/-- C57, the size condition is necessary: filling a short-axis operator whose indices have `w < 64` bits and which has more than 2^(w-1) nonzeros is
undefined, although the index type can number its rows and columns. -/
theorem C57_undefined [Field R] [LinearOrder R] [FloorRing R] [Ring T] {w : Nat} {G : Gen N K W R} {sqrt : T → T}
    {order : Int → List (Int × T) → List (Int × T)} {D : SparseDist} {seed : RNGState N K} (hw : 0 < w) (hw' : w < 64) (hG : G.Ok)
    (hD : SparseDistOk D) (hax : D.majorAxis = .Short) (hR : D.nRows ≤ intMax w) (hC : D.nCols ≤ intMax w) (hbig : intMax w + 1 < D.fullNnz) :
    (fillSparseW w G sqrt order (mkSparseSkOp G.len D seed)).1 = .ub := by
  obtain ⟨hR0, hC0, hk, hkd, hfull, hfit, hax'⟩ := sparseDist_facts hD
  have hlen : 2 ≤ G.len := by rcases hG with h | h <;> rw [h]; decide
  obtain ⟨hmaj, hmin⟩ : D.dimMajor = min D.nRows D.nCols ∧ D.dimMinor = max D.nRows D.nCols := by
    rcases hax' with ⟨a, b, c⟩ | ⟨a, b, c⟩
    · exact ⟨b, c⟩
    · rw [a] at hax; cases hax
  let o : CooBufs T := { vals := Buf.alloc T D.fullNnz, rows := Buf.alloc Int D.fullNnz, cols := Buf.alloc Int D.fullNnz }
  have ho : SkAlloc (o.toSk D) (D.dimMinor * D.vecNnz) := by
    rw [mul_comm, ← hfull]
    unfold CooBufs.toSk
    split_ifs
    · refine ⟨fun p => allocTo_alloc _ p, ?_, ?_⟩ <;> (intro b hb; cases hb; exact fun p => allocTo_alloc _ p)
    · refine ⟨fun p => allocTo_alloc _ p, ?_, ?_⟩ <;> (intro b hb; cases hb; exact fun p => allocTo_alloc _ p)
  have hneg : ∀ p, p < 0 → (o.toSk D).major p = .none := by
    intro p hp
    unfold CooBufs.toSk
    split_ifs
    · show (Buf.alloc Int D.fullNnz) p = .none
      unfold Buf.alloc; rw [if_neg (by omega)]
    · show (Buf.alloc Int D.fullNnz) p = .none
      unfold Buf.alloc; rw [if_neg (by omega)]
  have h1 := repeatedFisherYatesW_ub (G := G) (state := seed) hw hw' hlen hk hkd (by omega) (show 0 ≤ D.dimMinor by omega)
    (by rw [mul_comm, ← hfull]; exact hbig) ho hneg
  have h2 : (fillSparseUnpackedNosubW w G sqrt order D seed o).1 = .ub := by
    unfold fillSparseUnpackedNosubW
    rw [if_pos hax]
    refine ub_bind_left ?_
    unfold M.zoom
    exact h1
  show (((fillSparseUnpackedNosubW w G sqrt order D seed).onLocal o >>= _) _).1 = .ub
  refine ub_bind_left ?_
  unfold M.onLocal
  rcases e : fillSparseUnpackedNosubW w G sqrt order D seed o with ⟨res, m⟩
  rw [e] at h2
  simp only at h2
  subst h2
  rfl

/-- Non-vacuity of `C57_undefined`: 8 nonzeros in each of 2^28 + 1 columns of length 8, indices of type `int`. -/
theorem C57_offset_counterexample : ∃ D, mkSparseDist64 8 (2 ^ 28 + 1) 8 .Short = .ok D ∧ SparseDistOk D ∧ D.nRows ≤ intMax 32 ∧ D.nCols ≤ intMax 32 ∧
    ∀ (G : Gen N K W ℚ) (sqrt : ℚ → ℚ) (order : Int → List (Int × ℚ) → List (Int × ℚ)) (seed : RNGState N K), G.Ok →
      (fillSparseW 32 G sqrt order (mkSparseSkOp G.len D seed)).1 = .ub := by
  refine ⟨_, rfl, ⟨rfl, by decide⟩, by decide, by decide, fun G sqrt order seed hG => ?_⟩
  exact C57_undefined (by decide) (by decide) hG ⟨rfl, by decide⟩ rfl (by decide) (by decide) (by decide)

/-- The number of nonzeros can overflow in the constructor, although the arguments meet all documented conditions. -/
theorem C57_nnz_counterexample : (∃ D, mkSparseDist (2 ^ 32) (2 ^ 32) (2 ^ 32) .Short = .ok D) ∧ mkSparseDist64 (2 ^ 32) (2 ^ 32) (2 ^ 32) .Short = .ub :=
  ⟨⟨_, rfl⟩, rfl⟩

/-- The sum of the dimensions can overflow, although every member could be represented. -/
theorem C57_sum_counterexample : (∃ D, mkSparseDist (2 ^ 63 - 1) 1 1 .Long = .ok D ∧ FitsInt 64 D.dimMajor ∧ FitsInt 64 D.dimMinor ∧ FitsInt 64 D.fullNnz) ∧
    mkSparseDist64 (2 ^ 63 - 1) 1 1 .Long = .ub := ⟨⟨_, rfl, by decide, by decide, by decide⟩, rfl⟩

/-- A generator with 32-bit words whose uniform values are in [-1, 1]. -/
def unitGen : Gen (2 ^ 128) Nat Nat ℚ :=
  { len := 4, word := fun c k i => (c.val * 2654435761 + k * 40503 + i.toNat * 69069) % 2 ^ 32, boxmuller := fun _ _ => (0, 0),
    uneg11 := fun x => (2 * ((x % 2 ^ 32 : Nat) : ℚ) + 1) / 2 ^ 32 - 1, nat := id }

theorem unitGen_range : UnitRange unitGen := by
  intro c k i
  have h : (((unitGen.word c k i) % 2 ^ 32 : Nat) : ℚ) ≤ 2 ^ 32 - 1 := by
    have : (unitGen.word c k i) % 2 ^ 32 ≤ 2 ^ 32 - 1 := by have := Nat.mod_lt (unitGen.word c k i) (show 0 < 2 ^ 32 by decide); omega
    calc (((unitGen.word c k i) % 2 ^ 32 : Nat) : ℚ) ≤ ((2 ^ 32 - 1 : Nat) : ℚ) := by exact_mod_cast this
      _ = 2 ^ 32 - 1 := by norm_num
  have h0 : (0 : ℚ) ≤ (((unitGen.word c k i) % 2 ^ 32 : Nat) : ℚ) := Nat.cast_nonneg _
  show -1 ≤ (2 * (((unitGen.word c k i) % 2 ^ 32 : Nat) : ℚ) + 1) / 2 ^ 32 - 1 ∧ (2 * (((unitGen.word c k i) % 2 ^ 32 : Nat) : ℚ) + 1) / 2 ^ 32 - 1 ≤ 1
  constructor
  · have : 0 ≤ (2 * (((unitGen.word c k i) % 2 ^ 32 : Nat) : ℚ) + 1) / 2 ^ 32 := by positivity
    linarith
  · rw [sub_le_iff_le_add, div_le_iff₀ (by norm_num)]; linarith

-- 8 nonzeros in each of 2^28 columns: the largest number of nonzeros that `int` can number
example : ∃ D, mkSparseDist64 8 (2 ^ 28) 8 .Short = .ok D ∧ SparseDistOk D ∧ IndexFits 32 D ∧ UnitRange unitGen :=
  ⟨_, rfl, ⟨rfl, by decide⟩, ⟨by decide, by decide, fun _ => by decide⟩, unitGen_range⟩
example : IndexFits 32 exLaso ∧ SparseDistOk exLaso := ⟨⟨by decide, by decide, fun h => by cases h⟩, exLaso_ok⟩
example : AllocTo (Buf.alloc Int (2 ^ 28 * 16)) (2 ^ 28 * 16) ∧ (∀ p, p < 0 → Buf.alloc Int (2 ^ 28 * 16) p = .none) ∧ intMax 32 + 1 < 2 ^ 28 * 16 :=
  ⟨allocTo_alloc _, fun p hp => by unfold Buf.alloc; rw [if_neg (by omega)], by decide⟩

end RB
