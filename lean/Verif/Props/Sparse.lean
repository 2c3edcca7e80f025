import Verif.Lemmas.SparseRun
import Verif.Props.Sampling
import Mathlib.Analysis.SpecialFunctions.Pow.Real
import Mathlib.Analysis.SpecialFunctions.Sqrt

/-!
# C11 - C14, C16, C46, C47, C04: sparse sketching operators

`order i` is the iteration order of the hash map used to merge the samples of long-axis vector `i`; it is arbitrary. `sqrt` is the square
root. `SparseDistOk D` says that `D` is a value its constructor returns and that sizes fit 64 bits. `SparseOpOk S` says that each
pointer of `S` is null (if `S` owns its memory) or points to an array of at least `full_nnz` elements with arbitrary
content.
-/

namespace RB
open Spec
variable {N : Nat} {K W R T : Type}

theorem mkEntry_short (D : SparseDist) (e : Int × Int × T) : shortIdx D.nRows D.nCols (mkEntry D e) = e.1 := by
  unfold shortIdx mkEntry; split_ifs <;> rfl

theorem mkEntry_long (D : SparseDist) (e : Int × Int × T) : longIdx D.nRows D.nCols (mkEntry D e) = e.2.1 := by
  unfold longIdx mkEntry; split_ifs <;> rfl

theorem mkEntry_val (D : SparseDist) (e : Int × Int × T) : (mkEntry D e).val = e.2.2 := by
  unfold mkEntry; split_ifs <;> rfl

theorem mkEntry_nodup (D : SparseDist) {E : List (Int × Int × T)} (h : (E.map fun e => (e.1, e.2.1)).Nodup) :
    ((E.map (mkEntry D)).map Entry.pos).Nodup := by
  rw [List.map_map]
  apply List.Nodup.of_map (fun p : Int × Int => if D.nRows ≤ D.nCols then p else (p.2, p.1))
  rw [List.map_map]
  have : ((fun p : Int × Int => if D.nRows ≤ D.nCols then p else (p.2, p.1)) ∘ Entry.pos ∘ mkEntry D : Int × Int × T → Int × Int) =
      fun e => (e.1, e.2.1) := by
    funext e
    simp only [Function.comp, mkEntry, Entry.pos]
    split_ifs <;> rfl
  rw [this]; exact h

theorem mkEntry_range {D : SparseDist} {E : List (Int × Int × T)}
    (h : ∀ e ∈ E, 0 ≤ e.1 ∧ e.1 < min D.nRows D.nCols ∧ 0 ≤ e.2.1 ∧ e.2.1 < max D.nRows D.nCols) :
    InRange D.nRows D.nCols (E.map (mkEntry D)) := by
  intro e he
  obtain ⟨d, hd, rfl⟩ := List.mem_map.mp he
  have := h d hd
  unfold mkEntry
  split_ifs with hw
  · simp only; omega
  · simp only; omega

/-! ## C16 -/

/-- C16 (SparseDist). Construction succeeds iff both dimensions are positive and `0 < vec_nnz <= dim_major` (otherwise it raises
an error); then the derived members are consistent. -/
theorem C16_sparse_dist (r c k : Int) (ax : Axis) :
    (0 < r ∧ 0 < c ∧ 0 < k ∧ k ≤ (if ax = .Long then max r c else min r c) → ∃ D, mkSparseDist r c k ax = .ok D ∧ D.nRows = r ∧ D.nCols = c ∧
      D.vecNnz = k ∧ D.majorAxis = ax ∧ (D.dimMajor = r ∧ D.dimMinor = c ∨ D.dimMajor = c ∧ D.dimMinor = r) ∧
      (ax = .Long → D.dimMinor ≤ D.dimMajor) ∧ (ax = .Short → D.dimMajor ≤ D.dimMinor) ∧ D.fullNnz = k * D.dimMinor) ∧
    (¬ (0 < r ∧ 0 < c ∧ 0 < k ∧ k ≤ (if ax = .Long then max r c else min r c)) → mkSparseDist r c k ax = .throw .require) := by
  have hax : (if ax = .Short then min r c else max r c) = (if ax = .Long then max r c else min r c) := by cases ax <;> rfl
  unfold mkSparseDist
  simp only
  rw [hax]
  constructor
  · rintro ⟨h1, h2, h3, h4⟩
    rw [Res.require_eq_ok h1, Res.require_eq_ok h2, Res.require_eq_ok h3, Res.require_eq_ok h4]
    refine ⟨_, rfl, rfl, rfl, rfl, rfl, ?_, ?_, ?_, rfl⟩
    · cases ax
      · simp only [reduceCtorEq, if_false]; rcases le_total r c with h | h <;> simp [h]
      · simp only [if_true]; rcases le_total r c with h | h <;> simp [h]
    · rintro rfl; simp only [if_true]; omega
    · rintro rfl; simp only [reduceCtorEq, if_false]; omega
  · intro h
    by_cases h1 : r > 0
    · by_cases h2 : c > 0
      · by_cases h3 : k > 0
        · rw [Res.require_eq_ok h1, Res.require_eq_ok h2, Res.require_eq_ok h3, Res.require_eq_throw (fun h4 => h ⟨h1, h2, h3, h4⟩)]; rfl
        · rw [Res.require_eq_ok h1, Res.require_eq_ok h2, Res.require_eq_throw h3]; rfl
      · rw [Res.require_eq_ok h1, Res.require_eq_throw h2]; rfl
    · rw [Res.require_eq_throw h1]; rfl

/-- Concrete operators that satisfy the hypotheses below: a 3 x 8 short-axis operator with 2 nonzeros per column and a 3 x 8
long-axis operator with at most 4 nonzeros per row. -/
def exSaso : SparseDist := ⟨3, 8, .Short, 3, 8, 2, 16⟩
/-- See `exSaso`. -/
def exLaso : SparseDist := ⟨3, 8, .Long, 8, 3, 4, 12⟩

theorem exSaso_ok : SparseDistOk exSaso := ⟨by decide, by decide⟩
theorem exLaso_ok : SparseDistOk exLaso := ⟨by decide, by decide⟩

/-- The constructor of SparseSkOp produces an operator that can be filled. -/
theorem mkSparseSkOp_ok (L : Int) {D : SparseDist} (hD : SparseDistOk D) (seed : RNGState N K) :
    SparseOpOk (mkSparseSkOp L D seed : SparseSkOp N K T) :=
  ⟨hD, rfl, rfl, Or.inl ⟨rfl, rfl⟩, Or.inl ⟨rfl, rfl⟩, Or.inl ⟨rfl, rfl⟩⟩

example : SparseOpOk (mkSparseSkOp 4 exLaso ⟨0, 7⟩ : SparseSkOp (2 ^ 128) Nat Rat) := mkSparseSkOp_ok 4 exLaso_ok _

/-! ## C11 -/

/-- The members of `S'` describe the coordinate list `E`. -/
def Spec.OpHolds (S' : SparseSkOp N K T) (E : List (Entry T)) : Prop :=
  ∃ v r c, S'.vals = some v ∧ S'.rows = some r ∧ S'.cols = some c ∧ CooHolds v r c E ∧ S'.nnz = E.length

/-- C11. A filled short-axis operator has `vec_nnz * max(n_rows, n_cols)` entries, in range and at pairwise distinct positions; each of the
`max(n_rows, n_cols)` short-axis vectors has exactly `vec_nnz` entries; each value is 1 or -1. -/
theorem C11_short_axis [Field R] [LinearOrder R] [FloorRing R] [Ring T] {G : Gen N K W R} {sqrt : T → T}
    {order : Int → List (Int × T) → List (Int × T)} {S : SparseSkOp N K T} (hG : G.Ok)
    (hsqrt : sqrt 1 = 1) (hord : ∀ i l, (order i l).Perm l) (hS : SparseOpOk S) (hax : S.dist.majorAxis = .Short) :
    M.wp (fillSparse G sqrt order) S (fun _ S' => ∃ E, OpHolds S' E ∧ S'.nnz = S.dist.vecNnz * max S.nRows S.nCols ∧
      InRange S.nRows S.nCols E ∧ (E.map Entry.pos).Nodup ∧
      (∀ q, 0 ≤ q → q < max S.nRows S.nCols → ((E.filter fun e => longIdx S.nRows S.nCols e = q).length : Int) = S.dist.vecNnz) ∧
      ∀ e ∈ E, e.val = 1 ∨ e.val = -1) := by
  have hD := hS.dist
  obtain ⟨hR, hC, hk, hkd, hfull, hfit, hax'⟩ := sparseDist_facts hD
  obtain ⟨hmaj, hmin⟩ : S.dist.dimMajor = min S.dist.nRows S.dist.nCols ∧ S.dist.dimMinor = max S.dist.nRows S.dist.nCols := by
    rcases hax' with ⟨a, b, c⟩ | ⟨a, b, c⟩
    · exact ⟨b, c⟩
    · rw [a] at hax; cases hax
  refine M.wp_mono (fillSparse_spec hG hsqrt hord hS) ?_
  rintro - S' ⟨E, v, r, c, hrun, rfl, hh, hle, -⟩
  rcases hrun with ⟨-, rfl⟩ | ⟨a, -⟩
  swap
  · rw [a] at hax; cases hax
  rw [hS.nRows, hS.nCols]
  have hl : ((sasoTriples (T := T) G S.seedState S.dist.vecNnz S.dist.dimMajor S.dist.dimMinor).length : Int) =
      S.dist.vecNnz * S.dist.dimMinor := by
    simp only [sasoTriples, List.length_map, List.length_range]
    rw [mul_comm]; have := mul_nonneg hk.le (show 0 ≤ S.dist.dimMinor by omega); omega
  refine ⟨_, ⟨v, r, c, rfl, rfl, rfl, hh, by rw [List.length_map]⟩, by simp only; rw [hl, hmin], ?_, mkEntry_nodup _ (saso_nodup hk hkd), ?_, ?_⟩
  · apply mkEntry_range
    intro e he
    have := saso_mem hk hkd he
    rw [hmaj, hmin] at this
    exact ⟨this.1, this.2.1, this.2.2.1, this.2.2.2.1⟩
  · intro q h0 h1
    rw [List.filter_map, List.length_map]
    have := saso_count (T := T) (G := G) (seed := S.seedState) hk hkd S.dist.dimMinor.toNat q h0 (by omega)
    rw [show ((S.dist.dimMinor.toNat : Nat) : Int) = S.dist.dimMinor by omega] at this
    simp only [Function.comp_def, mkEntry_long]
    exact this
  · intro e he
    obtain ⟨d, hd, rfl⟩ := List.mem_map.mp he
    rw [mkEntry_val]
    exact (saso_mem hk hkd hd).2.2.2.2

/-! ## C12 -/

theorem lasoIdx_eq [Field R] [LinearOrder R] [IsStrictOrderedRing R] [FloorRing R] {G : Gen N K W R} {seed : RNGState N K} {n k i t : Int} (hn : 0 < n)
    (h0 : 0 ≤ unif01 G (advance seed (i * ((2 * k + G.len - 1) / G.len))) (2 * t))
    (h1 : unif01 G (advance seed (i * ((2 * k + G.len - 1) / G.len))) (2 * t) < 1) :
    lasoIdx G seed n k i t = lasoSample G seed n k i t ∧ 0 ≤ lasoIdx G seed n k i t ∧ lasoIdx G seed n k i t < n := by
  obtain ⟨a, b, c⟩ := trunc_unit hn h0 h1
  have : lasoIdx G seed n k i t = truncToInt ((n : R) * unif01 G (advance seed (i * ((2 * k + G.len - 1) / G.len))) (2 * t)) := rfl
  rw [this, a]
  exact ⟨rfl, b, c⟩

theorem lasoSign_eq [Field R] [LinearOrder R] [One T] [Neg T] {G : Gen N K W R} {seed : RNGState N K} {k i t : Int} :
    (lasoSign G seed k i t : T) = lasoSampleSign G seed k i t := rfl

theorem Merged.congr [Mul T] [NatCast T] {sqrt : T → T} {k : Int} {x x' : Int → Int} {s s' : Int → T} {out : List (Int × T)}
    (h : Merged sqrt k x s out) (hx : ∀ t, 0 ≤ t → t < k → x t = x' t) (hs : ∀ t, 0 ≤ t → t < k → s t = s' t) : Merged sqrt k x' s' out := by
  refine ⟨h.nodup, ?_, fun t t0 t1 => by rw [← hx t t0 t1]; exact h.all t t0 t1⟩
  intro e he
  obtain ⟨t, t0, t1, t2, t3, t4⟩ := h.value e he
  refine ⟨t, t0, t1, by rw [← hx t t0 t1]; exact t2, fun t' a b => by rw [← hx t' a (by omega)]; exact t3 t' a b, ?_⟩
  rw [t4, hs t t0 t1]
  congr 2
  have : occurrences x k e.1 = occurrences x' k e.1 := by
    unfold occurrences
    congr 1
    apply Finset.filter_congr
    intro u hu
    rw [Finset.mem_range] at hu
    rw [hx u (by omega) (by omega)]
  rw [this]

/-- C12. A filled long-axis operator has between `min(n_rows, n_cols)` and `full_nnz` entries, in range and at pairwise distinct positions.
Each of the `min(n_rows, n_cols)` long-axis vectors has between 1 and `vec_nnz` entries; its indices are exactly the sampled ones, an index
sampled `c` times has the value `sqrt c` times the sign of its first occurrence (`Merged`), and its squared norm is `vec_nnz`. The samples are
`floor(dim_major * u)` for the uniform values `u` of the vector's part of the stream. This holds for every iteration order of the hash map.
Running at all (no undefined behaviour) means that no access leaves the arrays of length `full_nnz`. -/
theorem C12_long_axis [Field R] [LinearOrder R] [IsStrictOrderedRing R] [FloorRing R] [CommRing T] {G : Gen N K W R} {sqrt : T → T}
    {order : Int → List (Int × T) → List (Int × T)} {S : SparseSkOp N K T} (hG : G.Ok)
    (hsqrt : sqrt 1 = 1) (hsq : ∀ n : Nat, sqrt n * sqrt n = n) (hord : ∀ i l, (order i l).Perm l) (hS : SparseOpOk S)
    (hax : S.dist.majorAxis = .Long)
    (hu : ∀ c t, 0 ≤ unif01 G (advance S.seedState c) t ∧ unif01 G (advance S.seedState c) t < 1) :
    M.wp (fillSparse G sqrt order) S (fun _ S' => ∃ E, OpHolds S' E ∧ min S.nRows S.nCols ≤ S'.nnz ∧ S'.nnz ≤ S.dist.fullNnz ∧
      InRange S.nRows S.nCols E ∧ (E.map Entry.pos).Nodup ∧
      ∀ q, 0 ≤ q → q < min S.nRows S.nCols → ∃ Eq, Eq = E.filter (fun e => shortIdx S.nRows S.nCols e = q) ∧
        1 ≤ Eq.length ∧ (Eq.length : Int) ≤ S.dist.vecNnz ∧ (Eq.map fun e => e.val * e.val).sum = (S.dist.vecNnz : T) ∧
        Merged sqrt S.dist.vecNnz (lasoSample G S.seedState (max S.nRows S.nCols) S.dist.vecNnz q) (lasoSampleSign G S.seedState S.dist.vecNnz q)
          (Eq.map fun e => (longIdx S.nRows S.nCols e, e.val))) := by
  have hD := hS.dist
  obtain ⟨hR, hC, hk, hkd, hfull, hfit, hax'⟩ := sparseDist_facts hD
  obtain ⟨hmaj, hmin⟩ : S.dist.dimMajor = max S.dist.nRows S.dist.nCols ∧ S.dist.dimMinor = min S.dist.nRows S.dist.nCols := by
    rcases hax' with ⟨a, b, c⟩ | ⟨a, b, c⟩
    · rw [a] at hax; cases hax
    · exact ⟨b, c⟩
  have hidx : ∀ q t : Int, lasoIdx G S.seedState S.dist.dimMajor S.dist.vecNnz q t =
        lasoSample G S.seedState (max S.dist.nRows S.dist.nCols) S.dist.vecNnz q t ∧
      0 ≤ lasoIdx G S.seedState S.dist.dimMajor S.dist.vecNnz q t ∧
      lasoIdx G S.seedState S.dist.dimMajor S.dist.vecNnz q t < S.dist.dimMajor := by
    intro q t
    have := lasoIdx_eq (G := G) (seed := S.seedState) (k := S.dist.vecNnz) (i := q) (t := t) (show 0 < S.dist.dimMajor by omega)
      (hu _ _).1 (hu _ _).2
    refine ⟨this.1.trans (by rw [hmaj]), this.2⟩
  refine M.wp_mono (fillSparse_spec hG hsqrt hord hS) ?_
  rintro - S' ⟨E, v, r, c, hrun, rfl, hh, hle, -⟩
  rcases hrun with ⟨a, -⟩ | ⟨-, hrun⟩
  · rw [a] at hax; cases hax
  rw [hS.nRows, hS.nCols]
  have hge := hrun.length_ge hk
  refine ⟨_, ⟨v, r, c, rfl, rfl, rfl, hh, by rw [List.length_map]⟩, by simp only; omega, hle, ?_, mkEntry_nodup _ hrun.nodup, ?_⟩
  · apply mkEntry_range
    intro e he
    have h1 := hrun.mem_short e he
    have hq : e.1.toNat < S.dist.dimMinor.toNat := by omega
    obtain ⟨out, hm, -, hf⟩ := hrun.filter e.1.toNat hq
    rw [show ((e.1.toNat : Nat) : Int) = e.1 by omega] at hm hf
    have : e ∈ E.filter (fun d => d.1 = e.1) := by simp [he]
    rw [hf] at this
    obtain ⟨d, hd, hde⟩ := List.mem_map.mp this
    obtain ⟨t, -, -, t2, -⟩ := hm.value d hd
    have hlong : e.2.1 = d.1 := by rw [← hde]
    have := hidx e.1 t
    refine ⟨h1.1, by omega, by omega, by omega⟩
  · intro q h0 h1
    obtain ⟨out, hm, hl, hf⟩ := hrun.filter q.toNat (by omega)
    rw [show ((q.toNat : Nat) : Int) = q by omega] at hm hf
    refine ⟨_, rfl, ?_⟩
    rw [List.filter_map]
    simp only [Function.comp_def, mkEntry_short]
    rw [hf, List.map_map, List.map_map, List.map_map]
    simp only [List.length_map, Function.comp_def, mkEntry_val, mkEntry_long]
    refine ⟨Merged.length_pos hm hk, hl, merged_norm hk.le hsq ?_ hm, ?_⟩
    · intro t; unfold lasoSign unifSign; split_ifs
      · exact Or.inl rfl
      · exact Or.inr rfl
    · have : (out.map fun x => (x.1, x.2)) = out := by simp
      rw [this]
      exact Merged.congr hm (fun t _ _ => (hidx q t).1) (fun t _ _ => rfl)

/-- The hypotheses of C12 are satisfiable: real square roots, a generator with uniform values in (0, 1), any iteration order. -/
example : exGenQ.Ok ∧ (∀ n : Nat, Real.sqrt n * Real.sqrt n = n) ∧ Real.sqrt 1 = 1 ∧ exLaso.majorAxis = .Long ∧
    (∀ (st : RNGState (2 ^ 128) Nat) c t, 0 ≤ unif01 exGenQ (advance st c) t ∧ unif01 exGenQ (advance st c) t < 1) ∧
    SparseOpOk (mkSparseSkOp 4 exLaso ⟨0, 7⟩ : SparseSkOp (2 ^ 128) Nat ℝ) :=
  ⟨Or.inr rfl, fun n => Real.mul_self_sqrt (Nat.cast_nonneg n), Real.sqrt_one, rfl,
    fun st c t => ⟨(exGenQ_unif _ t).1.le, (exGenQ_unif _ t).2⟩, mkSparseSkOp_ok 4 exLaso_ok _⟩

/-! ## C13 -/

theorem lasoIncr_eq {L k : Int} (hL : L = 2 ∨ L = 4) : ⌈(k : ℚ) / ((L : ℚ) / 2)⌉ = (2 * k + L - 1) / L := by
  rw [Int.ceil_eq_iff]
  have h := Int.mul_ediv_add_emod (2 * k + L - 1) L
  have h0 := Int.emod_nonneg (2 * k + L - 1) (show L ≠ 0 by omega)
  have h1 := Int.emod_lt_of_pos (2 * k + L - 1) (show 0 < L by omega)
  generalize (2 * k + L - 1) / L = z at *
  generalize (2 * k + L - 1) % L = r at *
  have hq : (L : ℚ) * z + r = 2 * k + L - 1 := by exact_mod_cast h
  have hr0 : (0 : ℚ) ≤ r := by exact_mod_cast h0
  have hr1 : (r : ℚ) ≤ L - 1 := by have : r ≤ L - 1 := by omega
                                   exact_mod_cast this
  rcases hL with rfl | rfl
  · push_cast at *; constructor <;> linarith
  · push_cast at *; constructor <;> linarith

theorem sparseNextState_eq {G : Gen N K W R} {D : SparseDist} {seed : RNGState N K} (hG : G.Ok) (hD : SparseDistOk D) :
    sparseNextState G.len D seed = advance seed (sparseCounters G.len D) := by
  obtain ⟨hR, hC, hk, hkd, hfull, hfit, hax⟩ := sparseDist_facts hD
  have hmax : intMax 64 < 2 ^ 64 := by decide
  have hlen : 0 < G.len := by rcases hG with h | h <;> rw [h] <;> decide
  unfold sparseNextState sparseCounters RNGState.incr advance
  rcases hax with ⟨a, b, c⟩ | ⟨a, b, c⟩
  · simp only [a, if_true]
    rw [← c, ctrIncr_eq (mul_nonneg (by omega) hk.le) (by rw [mul_comm, ← hfull]; omega)]
  · simp only [a, reduceCtorEq, if_false]
    have hs := lasoIncr_eq (k := D.vecNnz) hG
    rw [hs, ← c]
    have h0 : 0 ≤ lasoStride G.len D.vecNnz := countersPerVector_nonneg hlen (by omega)
    have h1 : lasoStride G.len D.vecNnz ≤ 2 * D.vecNnz := countersPerVector_le hlen (by omega)
    have e : (2 * D.vecNnz + G.len - 1) / G.len = lasoStride G.len D.vecNnz := rfl
    rw [e, ctrIncr_eq (mul_nonneg (by omega) h0) (by nlinarith)]

/-- C13. Filling returns exactly the state the operator's constructor stored in `next_state`; the key is unchanged. -/
theorem C13_next_state [Field R] [LinearOrder R] [FloorRing R] [Ring T] {G : Gen N K W R} {sqrt : T → T}
    {order : Int → List (Int × T) → List (Int × T)} {D : SparseDist} {seed : RNGState N K} {b : CooBufs T} (hG : G.Ok)
    (hsqrt : sqrt 1 = 1) (hord : ∀ i l, (order i l).Perm l) (hD : SparseDistOk D)
    (hv : AllocTo b.vals D.fullNnz) (hr : AllocTo b.rows D.fullNnz) (hc : AllocTo b.cols D.fullNnz) :
    M.wp (fillSparseUnpackedNosub G sqrt order D seed) b (fun r _ =>
      r.2 = (mkSparseSkOp G.len D seed : SparseSkOp N K T).nextState ∧ r.2.key = seed.key) := by
  refine M.wp_mono (fillSparseUnpacked_spec hG hsqrt hord hD (fun p h0 h1 => ⟨hv p h0 h1, hr p h0 h1, hc p h0 h1⟩)) ?_
  rintro r b' ⟨E, -, -, h, -⟩
  refine ⟨?_, by rw [h]; rfl⟩
  rw [h]; exact (sparseNextState_eq hG hD).symm

/-! ## C47, C04 (sparse) -/

/-- C47 (`fill_sparse`). Fill two operators with the same distribution and seed, whatever their buffers contained and whatever
the iteration orders of the hash map. The number of entries is the same, the entries are the same up to
their order, so the represented matrix is the same; only the data pointers and `nnz` change. Short-axis operators give
the same entries in the same order. -/
theorem C47_fill_sparse [Field R] [LinearOrder R] [FloorRing R] [Ring T] {G : Gen N K W R} {sqrt : T → T}
    {ord1 ord2 : Int → List (Int × T) → List (Int × T)} {S1 S2 : SparseSkOp N K T} (hG : G.Ok)
    (hsqrt : sqrt 1 = 1) (ho1 : ∀ i l, (ord1 i l).Perm l) (ho2 : ∀ i l, (ord2 i l).Perm l) (hS1 : SparseOpOk S1) (hS2 : SparseOpOk S2)
    (hd : S1.dist = S2.dist) (hs : S1.seedState = S2.seedState) :
    M.wp (fillSparse G sqrt ord1) S1 (fun _ S1' => M.wp (fillSparse G sqrt ord2) S2 (fun _ S2' => ∃ E1 E2, OpHolds S1' E1 ∧ OpHolds S2' E2 ∧
      E1.Perm E2 ∧ S1'.nnz = S2'.nnz ∧ (∀ i j, toMat E1 i j = toMat E2 i j) ∧ (S1.dist.majorAxis = .Short → E1 = E2) ∧
      SparseOpOk S1' ∧ S1' = { S1 with nnz := S1'.nnz, vals := S1'.vals, rows := S1'.rows, cols := S1'.cols })) := by
  refine M.wp_mono (fillSparse_spec hG hsqrt ho1 hS1) ?_
  rintro - S1' ⟨E, v, r, c, hrun, rfl, hh, hle, hal⟩
  refine M.wp_mono (fillSparse_spec hG hsqrt ho2 hS2) ?_
  rintro - S2' ⟨E', v', r', c', hrun', rfl, hh', hle', hal'⟩
  rw [← hd, ← hs] at hrun'
  rw [← hd] at hh'
  have hp := sparseRun_perm hrun hrun'
  refine ⟨_, _, ⟨v, r, c, rfl, rfl, rfl, hh, by rw [List.length_map]⟩, ⟨v', r', c', rfl, rfl, rfl, hh', by rw [List.length_map]⟩,
    hp.map _, by simp only; rw [hp.length_eq], fun i j => toMat_perm (hp.map _) i j, ?_, ?_, rfl⟩
  · intro hax
    rcases hrun with ⟨-, h1⟩ | ⟨a, -⟩
    · rcases hrun' with ⟨-, h2⟩ | ⟨a, -⟩
      · rw [h1, h2]
      · rw [a] at hax; cases hax
    · rw [a] at hax; cases hax
  · exact ⟨hS1.dist, hS1.nRows, hS1.nCols, Or.inr ⟨v, rfl, fun p h0 h1 => (hal p h0 h1).1⟩,
      Or.inr ⟨r, rfl, fun p h0 h1 => (hal p h0 h1).2.1⟩, Or.inr ⟨c, rfl, fun p h0 h1 => (hal p h0 h1).2.2⟩⟩

/-- C47 (no memory). An operator that does not own its memory and has a null pointer is rejected and left unchanged. -/
theorem C47_fill_sparse_error [Field R] [LinearOrder R] [FloorRing R] [Ring T] {G : Gen N K W R} {sqrt : T → T}
    {order : Int → List (Int × T) → List (Int × T)} {S : SparseSkOp N K T} (h1 : S.ownMemory = false)
    (h2 : S.vals = none ∨ S.rows = none ∨ S.cols = none) : fillSparse G sqrt order S = (.throw .require, S) := by
  have hall : S.allocate = S := by unfold SparseSkOp.allocate; rw [h1]; rfl
  unfold fillSparse
  rw [M.bind_ok (show M.modify SparseSkOp.allocate S = (.ok (), S) by unfold M.modify; rw [hall]),
    M.bind_ok (show (M.get : M (SparseSkOp N K T) _) S = (.ok S, S) from rfl)]
  rcases h2 with h | h | h
  · rw [h]; cases S.rows <;> cases S.cols <;> rfl
  · rw [h]; rfl
  · rw [h]; cases S.rows <;> rfl

/-- C04 (sparse). The entries of a sparse operator depend on the generator only through its values at the counters from the seed
counter (inclusive) to the returned counter (exclusive). -/
theorem C04_sparse_range [Field R] [LinearOrder R] [FloorRing R] [Ring T] {G G' : Gen N K W R} {sqrt : T → T}
    {ord ord' : Int → List (Int × T) → List (Int × T)} {D : SparseDist} {seed : RNGState N K} {b : CooBufs T} (hG : G.Ok)
    (hsqrt : sqrt 1 = 1) (ho : ∀ i l, (ord i l).Perm l) (ho' : ∀ i l, (ord' i l).Perm l) (hD : SparseDistOk D)
    (hv : AllocTo b.vals D.fullNnz) (hr : AllocTo b.rows D.fullNnz) (hc : AllocTo b.cols D.fullNnz) :
    M.wp (fillSparseUnpackedNosub G sqrt ord D seed) b (fun r b1 => ∃ count, 0 ≤ count ∧
      r.2.counter = seed.counter + ((count : Int) : ZMod N) ∧
      (AgreeOn G G' (CtrRange seed.counter count) →
        M.wp (fillSparseUnpackedNosub G' sqrt ord' D seed) b (fun r' b2 => ∃ E E', CooHolds b1.vals b1.rows b1.cols E ∧
          CooHolds b2.vals b2.rows b2.cols E' ∧ r.1 = E.length ∧ r'.1 = E'.length ∧ E.Perm E' ∧ r'.2 = r.2))) := by
  obtain ⟨hR, hC, hk, hkd, hfull, hfit, hax⟩ := sparseDist_facts hD
  have hlen : 0 < G.len := by rcases hG with h | h <;> rw [h] <;> decide
  have hmin : 0 < D.dimMinor := by rcases hax with ⟨-, -, h⟩ | ⟨-, -, h⟩ <;> omega
  have ha : ∀ p, 0 ≤ p → p < D.fullNnz → b.vals p ≠ .none ∧ b.rows p ≠ .none ∧ b.cols p ≠ .none :=
    fun p h0 h1 => ⟨hv p h0 h1, hr p h0 h1, hc p h0 h1⟩
  have hst0 : 0 ≤ lasoStride G.len D.vecNnz := countersPerVector_nonneg hlen (by omega)
  refine M.wp_mono (fillSparseUnpacked_spec hG hsqrt ho hD ha) ?_
  rintro r b1 ⟨E, hrun, hn, hst, hh, -⟩
  refine ⟨sparseCounters G.len D, ?_, by rw [hst]; rfl, ?_⟩
  · unfold sparseCounters; split_ifs
    · exact mul_nonneg hmin.le hk.le
    · exact mul_nonneg hmin.le hst0
  intro hag
  have hG' : G'.Ok := by unfold Gen.Ok; rw [hag.len]; exact hG
  refine M.wp_mono (fillSparseUnpacked_spec hG' hsqrt ho' hD ha) ?_
  rintro r' b2 ⟨E', hrun', hn', hst', hh', -⟩
  refine ⟨_, _, hh, hh', by rw [List.length_map]; exact hn, by rw [List.length_map]; exact hn', ?_, by rw [hst, hst', hag.len]⟩
  apply List.Perm.map
  rcases hrun with ⟨a, h⟩ | ⟨a, h⟩ <;> rcases hrun' with ⟨a', h'⟩ | ⟨a', h'⟩
  · rw [h, h']
    apply List.Perm.of_eq
    unfold sasoTriples
    apply List.map_congr_left
    intro p hp
    rw [List.mem_range] at hp
    have hcnt : sparseCounters G.len D = D.dimMinor * D.vecNnz := by unfold sparseCounters; rw [if_pos a]
    rw [hcnt] at hag
    have hm0 := Int.emod_nonneg (p : Int) (show D.vecNnz ≠ 0 by omega)
    have hm1 := Int.emod_lt_of_pos (p : Int) hk
    have hd := Int.mul_ediv_add_emod (p : Int) D.vecNnz
    have hq0 : 0 ≤ (p : Int) / D.vecNnz := Int.ediv_nonneg (by omega) hk.le
    have hq1 : (p : Int) / D.vecNnz < D.dimMinor := Int.ediv_lt_of_lt_mul hk (by omega)
    have hidx : fyIdx G seed D.vecNnz D.dimMajor p = fyIdx G' seed D.vecNnz D.dimMajor p := by
      unfold fyIdx
      have : ∀ t : Nat, (t : Int) ≤ D.vecNnz → fyPerm D.dimMajor (fyChoice G' seed D.vecNnz (p / D.vecNnz)) t =
          fyPerm D.dimMajor (fyChoice G seed D.vecNnz (p / D.vecNnz)) t := by
        intro t ht
        induction t with
        | zero => rfl
        | succ t ih =>
          push_cast at ht
          show fyPerm _ _ t * _ = fyPerm _ _ t * _
          rw [ih (by omega)]
          have hc : fyChoice G' seed D.vecNnz (p / D.vecNnz) t = fyChoice G seed D.vecNnz (p / D.vecNnz) t := by
            unfold fyChoice
            rw [hag.nat, hag.word _ _ _ ⟨(p : Int) / D.vecNnz * D.vecNnz + t, by nlinarith, by nlinarith, rfl⟩]
          rw [hc]
      rw [this _ (by omega)]
    have hsg : (fySign G seed p : T) = fySign G' seed p := by
      unfold fySign
      rw [hag.nat, hag.word _ _ _ ⟨p, by omega, by omega, rfl⟩]
    rw [hidx, hsg]
  · rw [a] at a'; cases a'
  · rw [a] at a'; cases a'
  · have hcnt : sparseCounters G.len D = D.dimMinor * lasoStride G.len D.vecNnz := by
      unfold sparseCounters; rw [if_neg (by rw [a]; decide)]
    rw [hcnt] at hag
    have hstr : ∀ q t : Int, 0 ≤ q → q < (D.dimMinor.toNat : Int) → 0 ≤ t → t < 2 * D.vecNnz →
        stream G (advance seed (q * lasoStride G.len D.vecNnz)) t = stream G' (advance seed (q * lasoStride G'.len D.vecNnz)) t := by
      intro q t q0 q1 t0 t1
      rw [hag.len]
      have hq1 : q < D.dimMinor := by omega
      refine (stream_agree (k := 2 * D.vecNnz) hG ⟨hag.len, hag.boxmuller, hag.uneg11, hag.nat, ?_⟩ t0 t1).symm
      rintro cc kk ii ⟨u, u0, u1, rfl⟩
      apply hag.word
      refine ⟨q * lasoStride G.len D.vecNnz + u, by nlinarith, ?_, ?_⟩
      · have : countersPerVector G.len (2 * D.vecNnz) = lasoStride G.len D.vecNnz := rfl
        rw [this] at u1
        nlinarith
      · simp only [advance]; rw [Int.cast_add, add_assoc]
    refine h.perm h' ?_ ?_
    · intro q t q0 q1 t0 t1
      unfold lasoIdx unifSample unif01
      simp only [wordsPerSample, if_true]
      rw [hstr q (2 * t) q0 q1 (by omega) (by omega)]
    · intro q t q0 q1 t0 t1
      unfold lasoSign unifSign
      rw [hstr q (2 * t + 1) q0 q1 (by omega) (by omega)]

/-! ## C14 -/

/-- Filling an operator with distribution `D` and seed `seed` into fresh arrays gives the matrix `A`, for every iteration order of the hash map. -/
def Spec.SparseSamples [Field R] [LinearOrder R] [FloorRing R] [Ring T] (G : Gen N K W R) (sqrt : T → T) (D : SparseDist) (seed : RNGState N K)
    (A : Int → Int → T) : Prop :=
  ∀ order : Int → List (Int × T) → List (Int × T), (∀ i l, (order i l).Perm l) →
    M.wp (fillSparseUnpackedNosub G sqrt order D seed) ⟨Buf.alloc T D.fullNnz, Buf.alloc Int D.fullNnz, Buf.alloc Int D.fullNnz⟩ (fun r b =>
      ∃ E, CooHolds b.vals b.rows b.cols E ∧ r.1 = E.length ∧ ∀ i j, toMat E i j = A i j)

theorem sparseSamples_of_run [Field R] [LinearOrder R] [FloorRing R] [Ring T] {G : Gen N K W R} {sqrt : T → T} {D : SparseDist}
    {seed : RNGState N K} {A : Int → Int → T} (hG : G.Ok) (hsqrt : sqrt 1 = 1) (hD : SparseDistOk D)
    (h : ∀ E, SparseRun G sqrt D seed E → ∀ i j, toMat (E.map (mkEntry D)) i j = A i j) : SparseSamples G sqrt D seed A := by
  intro order hord
  refine M.wp_mono (fillSparseUnpacked_spec hG hsqrt hord hD
    (fun p h0 h1 => ⟨allocTo_alloc _ p h0 h1, allocTo_alloc _ p h0 h1, allocTo_alloc _ p h0 h1⟩)) ?_
  rintro r b' ⟨E, hrun, hn, -, hh, -⟩
  exact ⟨_, hh, by rw [List.length_map]; exact hn, h E hrun⟩

theorem sparseSamples_run [Field R] [LinearOrder R] [FloorRing R] [Ring T] {G : Gen N K W R} {sqrt : T → T} {D : SparseDist}
    {seed : RNGState N K} {A : Int → Int → T} (hG : G.Ok) (hsqrt : sqrt 1 = 1) (hD : SparseDistOk D) (h : SparseSamples G sqrt D seed A) :
    ∃ E, SparseRun G sqrt D seed E ∧ ∀ i j, toMat (E.map (mkEntry D)) i j = A i j := by
  obtain ⟨r, b, e, E, h1, h2, h3⟩ := h (fun _ l => l) (fun _ l => List.Perm.refl l)
  obtain ⟨r', b', e', E', g1, g2, -, g4, -⟩ := fillSparseUnpacked_spec (sqrt := sqrt) (order := fun _ l => l) (seed := seed) (D := D) (G := G)
    (b := ⟨Buf.alloc T D.fullNnz, Buf.alloc Int D.fullNnz, Buf.alloc Int D.fullNnz⟩) hG hsqrt (fun _ l => List.Perm.refl l) hD
    (fun p h0 h1 => ⟨allocTo_alloc _ p h0 h1, allocTo_alloc _ p h0 h1, allocTo_alloc _ p h0 h1⟩)
  rw [e] at e'
  cases e'
  have : E = E'.map (mkEntry D) := cooHolds_unique h1 g4 (by rw [List.length_map]; omega)
  exact ⟨E', g1, fun i j => by rw [← this]; exact h3 i j⟩

/-- C14 (existence and uniqueness). Every distribution and seed determine one matrix. -/
theorem C14_well_defined [Field R] [LinearOrder R] [FloorRing R] [Ring T] {G : Gen N K W R} {sqrt : T → T} {D : SparseDist}
    {seed : RNGState N K} (hG : G.Ok) (hsqrt : sqrt 1 = 1) (hD : SparseDistOk D) : ∃! A, SparseSamples G sqrt D seed A := by
  obtain ⟨r', b', e', E', g1, g2, -, g4, -⟩ := fillSparseUnpacked_spec (sqrt := sqrt) (order := fun _ l => l) (seed := seed) (D := D) (G := G)
    (b := ⟨Buf.alloc T D.fullNnz, Buf.alloc Int D.fullNnz, Buf.alloc Int D.fullNnz⟩) hG hsqrt (fun _ l => List.Perm.refl l) hD
    (fun p h0 h1 => ⟨allocTo_alloc _ p h0 h1, allocTo_alloc _ p h0 h1, allocTo_alloc _ p h0 h1⟩)
  have hex : SparseSamples G sqrt D seed (toMat (E'.map (mkEntry D))) :=
    sparseSamples_of_run hG hsqrt hD fun E hE i j => toMat_perm ((sparseRun_perm hE g1).map _) i j
  refine ⟨_, hex, ?_⟩
  intro B hB
  obtain ⟨E, h1, h2⟩ := sparseSamples_run hG hsqrt hD hB
  funext i j
  rw [← h2 i j]
  exact toMat_perm ((sparseRun_perm h1 g1).map _) i j

/-- The triples of a stacked run are those of the two runs. -/
theorem lasoRun_append [Field R] [LinearOrder R] [FloorRing R] [Ring T] {G : Gen N K W R} {sqrt : T → T} {seed : RNGState N K} {n k : Int}
    {d1 d2 : Nat} {E1 E2 : List (Int × Int × T)} (h1 : LasoRun G sqrt seed n k d1 E1)
    (h2 : LasoRun G sqrt (advance seed (d1 * lasoStride G.len k)) n k d2 E2) :
    LasoRun G sqrt seed n k (d1 + d2) (E1 ++ E2.map fun e => ((d1 : Int) + e.1, e.2)) := by
  induction h2 with
  | zero => simpa using h1
  | @succ i E out hr hm hl ih =>
    rw [List.map_append, ← List.append_assoc]
    have hidx : ∀ q : Nat, advance (advance seed (d1 * lasoStride G.len k)) (q * lasoStride G.len k) =
        advance seed (((d1 + q : Nat) : Int) * lasoStride G.len k) := by
      intro q; rw [advance_advance]; congr 1; push_cast; ring
    have hm' : Merged sqrt k (lasoIdx G seed n k ((d1 + i : Nat) : Int)) (lasoSign G seed k ((d1 + i : Nat) : Int)) out := by
      refine Merged.congr hm (fun t _ _ => ?_) (fun t _ _ => ?_)
      · unfold lasoIdx; rw [hidx]
      · unfold lasoSign; rw [hidx]
    have := LasoRun.succ ih hm' hl
    rw [show d1 + (i + 1) = d1 + i + 1 by omega]
    simpa [List.map_map, Function.comp_def] using this

/-- Shift an entry along the shorter dimension. -/
theorem toMat_triples_row [AddCommMonoid T] {D : SparseDist} (hw : D.nRows ≤ D.nCols) (E : List (Int × Int × T)) (i j : Int) :
    toMat (E.map (mkEntry D)) i j = ((E.filter fun e => e.1 = i ∧ e.2.1 = j).map fun e => e.2.2).sum := by
  unfold toMat
  rw [List.filter_map, List.map_map]
  simp only [Function.comp_def, mkEntry, if_pos hw]

theorem toMat_triples_col [AddCommMonoid T] {D : SparseDist} (hw : ¬ D.nRows ≤ D.nCols) (E : List (Int × Int × T)) (i j : Int) :
    toMat (E.map (mkEntry D)) i j = ((E.filter fun e => e.1 = j ∧ e.2.1 = i).map fun e => e.2.2).sum := by
  unfold toMat
  rw [List.filter_map, List.map_map]
  simp only [Function.comp_def, mkEntry, if_neg hw]
  congr 3
  funext e
  exact decide_eq_decide.mpr and_comm

/-- The value of a list of triples at (a, b). -/
def tripMat [AddCommMonoid T] (E : List (Int × Int × T)) (a b : Int) : T := ((E.filter fun e => e.1 = a ∧ e.2.1 = b).map fun e => e.2.2).sum

theorem tripMat_perm [AddCommMonoid T] {E E' : List (Int × Int × T)} (h : E.Perm E') (i j : Int) : tripMat E i j = tripMat E' i j :=
  ((h.filter _).map _).sum_eq

theorem tripMat_stack [AddCommMonoid T] {E1 E2 : List (Int × Int × T)} {d : Int} (h1 : ∀ e ∈ E1, e.1 < d) (h2 : ∀ e ∈ E2, 0 ≤ e.1) (a b : Int) :
    tripMat (E1 ++ E2.map fun e => (d + e.1, e.2)) a b = if a < d then tripMat E1 a b else tripMat E2 (a - d) b := by
  unfold tripMat
  rw [List.filter_append, List.map_append, List.sum_append]
  split_ifs with h
  · rw [(List.filter_eq_nil_iff (l := E2.map _)).mpr]
    · simp
    · intro e he
      obtain ⟨e', he', rfl⟩ := List.mem_map.mp he
      have := h2 e' he'
      simp only [decide_eq_true_eq, not_and]; intro; omega
  · rw [(List.filter_eq_nil_iff (l := E1)).mpr]
    · rw [List.filter_map, List.map_map]
      simp only [List.map_nil, List.sum_nil, zero_add, Function.comp_def]
      congr 3
      funext e
      exact decide_eq_decide.mpr (by constructor <;> rintro ⟨x, y⟩ <;> exact ⟨by omega, y⟩)
    · intro e he
      have := h1 e he
      simp only [decide_eq_true_eq, not_and]; intro; omega

theorem sparseDist_of_mk {r c k : Int} {ax : Axis} {D : SparseDist} (h : mkSparseDist r c k ax = .ok D) :
    D.nRows = r ∧ D.nCols = c ∧ D.vecNnz = k ∧ D.majorAxis = ax ∧ D.fullNnz = k * (if ax = .Long then min r c else max r c) ∧
    (2 * D.fullNnz ≤ intMax 64 → SparseDistOk D) := by
  by_cases hv : 0 < r ∧ 0 < c ∧ 0 < k ∧ k ≤ (if ax = .Long then max r c else min r c)
  · obtain ⟨D', e, a, b, c', d, f, g1, g2, g⟩ := (C16_sparse_dist r c k ax).1 hv
    rw [h] at e
    cases e
    refine ⟨a, b, c', d, ?_, fun hf => ⟨by rw [a, b, c', d]; exact h, hf⟩⟩
    rw [g]
    congr 1
    cases ax
    · simp only [reduceCtorEq, if_false]; have := g2 rfl; omega
    · simp only [if_true]; have := g1 rfl; omega
  · rw [(C16_sparse_dist r c k ax).2 hv] at h; cases h

/-- The two runs of a stacked operator (either orientation). -/
theorem laso_stack [Field R] [LinearOrder R] [FloorRing R] [Ring T] {G : Gen N K W R} {sqrt : T → T} {seed : RNGState N K}
    {d1 d2 : Int} {D1 D2 D : SparseDist} (hG : G.Ok) (hD1 : SparseDistOk D1)
    (a1 : D1.majorAxis = .Long) (a2 : D2.majorAxis = .Long) (a : D.majorAxis = .Long)
    (k1 : D1.vecNnz = D.vecNnz) (k2 : D2.vecNnz = D.vecNnz) (m1 : D1.dimMinor = d1) (m2 : D2.dimMinor = d2) (m : D.dimMinor = d1 + d2)
    (j1 : D1.dimMajor = D.dimMajor) (j2 : D2.dimMajor = D.dimMajor) (h1 : 0 ≤ d1) (h2 : 0 ≤ d2) {E1 E2 E : List (Int × Int × T)}
    (r1 : SparseRun G sqrt D1 seed E1) (r2 : SparseRun G sqrt D2 (mkSparseSkOp G.len D1 seed : SparseSkOp N K T).nextState E2)
    (r : SparseRun G sqrt D seed E) (i j : Int) :
    tripMat E i j = if i < d1 then tripMat E1 i j else tripMat E2 (i - d1) j := by
  rcases r1 with ⟨x, -⟩ | ⟨-, r1⟩
  · rw [x] at a1; cases a1
  rcases r2 with ⟨x, -⟩ | ⟨-, r2⟩
  · rw [x] at a2; cases a2
  rcases r with ⟨x, -⟩ | ⟨-, r⟩
  · rw [x] at a; cases a
  have hnext : (mkSparseSkOp G.len D1 seed : SparseSkOp N K T).nextState = advance seed (d1 * lasoStride G.len D.vecNnz) := by
    show sparseNextState G.len D1 seed = _
    rw [sparseNextState_eq hG hD1]
    unfold sparseCounters; rw [if_neg (by rw [a1]; decide), m1, k1]
  rw [hnext] at r2
  rw [k1, m1, j1] at r1
  rw [k2, m2, j2] at r2
  rw [m] at r
  have hd : ((d1.toNat : Nat) : Int) = d1 := by omega
  have happ := lasoRun_append r1 (d2 := d2.toNat) (by rw [hd]; exact r2)
  rw [← show (d1 + d2).toNat = d1.toNat + d2.toNat by omega, hd] at happ
  have hp := r.perm happ (fun _ _ _ _ _ _ => rfl) (fun _ _ _ _ _ _ => rfl)
  rw [tripMat_perm hp, tripMat_stack]
  · intro e he; have := r1.mem_short e he; omega
  · intro e he; exact (r2.mem_short e he).1

/-- C14 (long axis, wide). Stacking a `d1 x m` operator on top of a `d2 x m` operator seeded with the first one's `next_state` gives the
`(d1+d2) x m` operator. -/
theorem C14_long_wide [Field R] [LinearOrder R] [FloorRing R] [Ring T] {G : Gen N K W R} {sqrt : T → T} {seed : RNGState N K}
    {d1 d2 m k : Int} {D1 D2 D : SparseDist} (hG : G.Ok) (hsqrt : sqrt 1 = 1) (h1 : 0 < d1) (h2 : 0 < d2) (hdm : d1 + d2 ≤ m)
    (e1 : mkSparseDist d1 m k .Long = .ok D1) (e2 : mkSparseDist d2 m k .Long = .ok D2) (e : mkSparseDist (d1 + d2) m k .Long = .ok D)
    (hfit : 2 * (k * (d1 + d2)) ≤ intMax 64) :
    ∃ A1 A2, SparseSamples G sqrt D1 seed A1 ∧
      SparseSamples G sqrt D2 (mkSparseSkOp G.len D1 seed : SparseSkOp N K T).nextState A2 ∧
      SparseSamples G sqrt D seed (fun i j => if i < d1 then A1 i j else A2 (i - d1) j) := by
  obtain ⟨a, b, c, f, g, ok⟩ := sparseDist_of_mk e
  obtain ⟨x1, b1, c1, f1, g1, ok1⟩ := sparseDist_of_mk e1
  obtain ⟨x2, b2, c2, f2, g2, ok2⟩ := sparseDist_of_mk e2
  simp only [if_true] at g g1 g2
  rw [min_eq_left (by omega)] at g g1 g2
  have hk : 0 < k := by
    by_contra hcon
    rw [(C16_sparse_dist (d1 + d2) m k .Long).2 (fun h => hcon h.2.2.1)] at e; cases e
  have hD := ok (by rw [g]; exact hfit)
  have hD1 := ok1 (by rw [g1]; nlinarith)
  have hD2 := ok2 (by rw [g2]; nlinarith)
  obtain ⟨A1, s1, -⟩ := C14_well_defined (sqrt := sqrt) (G := G) (seed := seed) hG hsqrt hD1
  obtain ⟨A2, s2, -⟩ := C14_well_defined (sqrt := sqrt) (G := G) (seed := (mkSparseSkOp G.len D1 seed : SparseSkOp N K T).nextState) hG hsqrt hD2
  refine ⟨A1, A2, s1, s2, sparseSamples_of_run hG hsqrt hD fun E hE i j => ?_⟩
  obtain ⟨E1, r1, t1⟩ := sparseSamples_run hG hsqrt hD1 s1
  obtain ⟨E2, r2, t2⟩ := sparseSamples_run hG hsqrt hD2 s2
  obtain ⟨-, -, -, -, -, -, ax⟩ := sparseDist_facts hD
  obtain ⟨-, -, -, -, -, -, ax1⟩ := sparseDist_facts hD1
  obtain ⟨-, -, -, -, -, -, ax2⟩ := sparseDist_facts hD2
  rw [f] at ax; rw [f1] at ax1; rw [f2] at ax2
  simp only [reduceCtorEq, false_and, false_or, true_and] at ax ax1 ax2
  rw [a, b] at ax; rw [x1, b1] at ax1; rw [x2, b2] at ax2
  have key := laso_stack (d1 := d1) (d2 := d2) hG hD1 f1 f2 f (by rw [c1, c]) (by rw [c2, c]) (by omega) (by omega) (by omega) (by omega) (by omega)
    h1.le h2.le r1 r2 hE i j
  rw [toMat_triples_row (by omega), ← t1 i j, ← t2 (i - d1) j, toMat_triples_row (by omega), toMat_triples_row (by omega)]
  exact key

/-- C14 (long axis, tall). The transposed statement: `m x d1` next to `m x d2`. (For `d1 + d2 = m` the larger operator is square and is
filled by rows, so the statement needs a strict inequality.) -/
theorem C14_long_tall [Field R] [LinearOrder R] [FloorRing R] [Ring T] {G : Gen N K W R} {sqrt : T → T} {seed : RNGState N K}
    {d1 d2 m k : Int} {D1 D2 D : SparseDist} (hG : G.Ok) (hsqrt : sqrt 1 = 1) (h1 : 0 < d1) (h2 : 0 < d2) (hdm : d1 + d2 < m)
    (e1 : mkSparseDist m d1 k .Long = .ok D1) (e2 : mkSparseDist m d2 k .Long = .ok D2) (e : mkSparseDist m (d1 + d2) k .Long = .ok D)
    (hfit : 2 * (k * (d1 + d2)) ≤ intMax 64) :
    ∃ A1 A2, SparseSamples G sqrt D1 seed A1 ∧
      SparseSamples G sqrt D2 (mkSparseSkOp G.len D1 seed : SparseSkOp N K T).nextState A2 ∧
      SparseSamples G sqrt D seed (fun i j => if j < d1 then A1 i j else A2 i (j - d1)) := by
  obtain ⟨a, b, c, f, g, ok⟩ := sparseDist_of_mk e
  obtain ⟨x1, b1, c1, f1, g1, ok1⟩ := sparseDist_of_mk e1
  obtain ⟨x2, b2, c2, f2, g2, ok2⟩ := sparseDist_of_mk e2
  simp only [if_true] at g g1 g2
  rw [min_eq_right (by omega)] at g g1 g2
  have hk : 0 < k := by
    by_contra hcon
    rw [(C16_sparse_dist m (d1 + d2) k .Long).2 (fun h => hcon h.2.2.1)] at e; cases e
  have hD := ok (by rw [g]; exact hfit)
  have hD1 := ok1 (by rw [g1]; nlinarith)
  have hD2 := ok2 (by rw [g2]; nlinarith)
  obtain ⟨A1, s1, -⟩ := C14_well_defined (sqrt := sqrt) (G := G) (seed := seed) hG hsqrt hD1
  obtain ⟨A2, s2, -⟩ := C14_well_defined (sqrt := sqrt) (G := G) (seed := (mkSparseSkOp G.len D1 seed : SparseSkOp N K T).nextState) hG hsqrt hD2
  refine ⟨A1, A2, s1, s2, sparseSamples_of_run hG hsqrt hD fun E hE i j => ?_⟩
  obtain ⟨E1, r1, t1⟩ := sparseSamples_run hG hsqrt hD1 s1
  obtain ⟨E2, r2, t2⟩ := sparseSamples_run hG hsqrt hD2 s2
  obtain ⟨-, -, -, -, -, -, ax⟩ := sparseDist_facts hD
  obtain ⟨-, -, -, -, -, -, ax1⟩ := sparseDist_facts hD1
  obtain ⟨-, -, -, -, -, -, ax2⟩ := sparseDist_facts hD2
  rw [f] at ax; rw [f1] at ax1; rw [f2] at ax2
  simp only [reduceCtorEq, false_and, false_or, true_and] at ax ax1 ax2
  rw [a, b] at ax; rw [x1, b1] at ax1; rw [x2, b2] at ax2
  have key := laso_stack (d1 := d1) (d2 := d2) hG hD1 f1 f2 f (by rw [c1, c]) (by rw [c2, c]) (by omega) (by omega) (by omega) (by omega) (by omega)
    h1.le h2.le r1 r2 hE j i
  rw [toMat_triples_col (by omega), ← t1 i j, ← t2 i (j - d1), toMat_triples_col (by omega), toMat_triples_col (by omega)]
  exact key

/-- The leading part of a short-axis operator. -/
theorem saso_prefix [Ring T] {G : Gen N K W R} {seed : RNGState N K} {k n r s : Int} (hk : 0 ≤ k) (hr : 0 ≤ r) (hs : 0 ≤ s) {a b : Int} (hb : b < r) :
    tripMat (sasoTriples (T := T) G seed k n (r + s)) a b = tripMat (sasoTriples G seed k n r) a b := by
  obtain ⟨rest, e1, e2, -⟩ := saso_add (T := T) (G := G) (seed := seed) (n := n) hk hr hs
  rw [e1]
  unfold tripMat
  rw [List.filter_append, (List.filter_eq_nil_iff (l := rest)).mpr, List.append_nil]
  intro e he
  have := e2 e he
  simp only [decide_eq_true_eq, not_and]; intro; omega

/-- C14 (short axis, wide). The `d x m` operator is the first `m` columns of the `d x (m+s)` operator with the same seed. -/
theorem C14_short_wide [Field R] [LinearOrder R] [FloorRing R] [Ring T] {G : Gen N K W R} {sqrt : T → T} {seed : RNGState N K}
    {d m s k : Int} {D1 D : SparseDist} (hG : G.Ok) (hsqrt : sqrt 1 = 1) (hdm : d ≤ m) (hs : 0 ≤ s)
    (e1 : mkSparseDist d m k .Short = .ok D1) (e : mkSparseDist d (m + s) k .Short = .ok D) (hfit : 2 * (k * (m + s)) ≤ intMax 64) :
    ∃ A1 A, SparseSamples G sqrt D1 seed A1 ∧ SparseSamples G sqrt D seed A ∧ ∀ i j, j < m → A i j = A1 i j := by
  obtain ⟨a, b, c, f, g, ok⟩ := sparseDist_of_mk e
  obtain ⟨x1, b1, c1, f1, g1, ok1⟩ := sparseDist_of_mk e1
  simp only [reduceCtorEq, if_false] at g g1
  rw [max_eq_right (by omega)] at g g1
  have hk : 0 < k ∧ 0 < d := by
    by_contra hcon
    rw [(C16_sparse_dist d m k .Short).2 (fun h => hcon ⟨h.2.2.1, h.1⟩)] at e1; cases e1
  have hD := ok (by rw [g]; exact hfit)
  have hD1 := ok1 (by rw [g1]; nlinarith)
  obtain ⟨A1, s1, -⟩ := C14_well_defined (sqrt := sqrt) (G := G) (seed := seed) hG hsqrt hD1
  obtain ⟨A, s0, -⟩ := C14_well_defined (sqrt := sqrt) (G := G) (seed := seed) hG hsqrt hD
  refine ⟨A1, A, s1, s0, fun i j hj => ?_⟩
  obtain ⟨E1, r1, t1⟩ := sparseSamples_run hG hsqrt hD1 s1
  obtain ⟨E, r, t⟩ := sparseSamples_run hG hsqrt hD s0
  obtain ⟨-, -, -, -, -, -, ax⟩ := sparseDist_facts hD
  obtain ⟨-, -, -, -, -, -, ax1⟩ := sparseDist_facts hD1
  rw [f] at ax; rw [f1] at ax1
  simp only [reduceCtorEq, false_and, or_false, true_and] at ax ax1
  rw [a, b] at ax; rw [x1, b1] at ax1
  rcases r with ⟨-, r⟩ | ⟨x, -⟩
  swap
  · rw [f] at x; cases x
  rcases r1 with ⟨-, r1⟩ | ⟨x, -⟩
  swap
  · rw [f1] at x; cases x
  rw [← t i j, ← t1 i j, toMat_triples_row (by omega), toMat_triples_row (by omega), r, r1, c, c1,
    show D.dimMinor = m + s by omega, show D1.dimMinor = m by omega, show D.dimMajor = D1.dimMajor by omega]
  exact saso_prefix hk.1.le (by omega) hs hj

/-- C14 (short axis, tall). The `m x d` operator is the first `m` rows of the `(m+s) x d` operator with the same seed. -/
theorem C14_short_tall [Field R] [LinearOrder R] [FloorRing R] [Ring T] {G : Gen N K W R} {sqrt : T → T} {seed : RNGState N K}
    {d m s k : Int} {D1 D : SparseDist} (hG : G.Ok) (hsqrt : sqrt 1 = 1) (hdm : d < m) (hs : 0 ≤ s)
    (e1 : mkSparseDist m d k .Short = .ok D1) (e : mkSparseDist (m + s) d k .Short = .ok D) (hfit : 2 * (k * (m + s)) ≤ intMax 64) :
    ∃ A1 A, SparseSamples G sqrt D1 seed A1 ∧ SparseSamples G sqrt D seed A ∧ ∀ i j, i < m → A i j = A1 i j := by
  obtain ⟨a, b, c, f, g, ok⟩ := sparseDist_of_mk e
  obtain ⟨x1, b1, c1, f1, g1, ok1⟩ := sparseDist_of_mk e1
  simp only [reduceCtorEq, if_false] at g g1
  rw [max_eq_left (by omega)] at g g1
  have hk : 0 < k ∧ 0 < d := by
    by_contra hcon
    rw [(C16_sparse_dist m d k .Short).2 (fun h => hcon ⟨h.2.2.1, h.2.1⟩)] at e1; cases e1
  have hD := ok (by rw [g]; exact hfit)
  have hD1 := ok1 (by rw [g1]; nlinarith)
  obtain ⟨A1, s1, -⟩ := C14_well_defined (sqrt := sqrt) (G := G) (seed := seed) hG hsqrt hD1
  obtain ⟨A, s0, -⟩ := C14_well_defined (sqrt := sqrt) (G := G) (seed := seed) hG hsqrt hD
  refine ⟨A1, A, s1, s0, fun i j hj => ?_⟩
  obtain ⟨E1, r1, t1⟩ := sparseSamples_run hG hsqrt hD1 s1
  obtain ⟨E, r, t⟩ := sparseSamples_run hG hsqrt hD s0
  obtain ⟨-, -, -, -, -, -, ax⟩ := sparseDist_facts hD
  obtain ⟨-, -, -, -, -, -, ax1⟩ := sparseDist_facts hD1
  rw [f] at ax; rw [f1] at ax1
  simp only [reduceCtorEq, false_and, or_false, true_and] at ax ax1
  rw [a, b] at ax; rw [x1, b1] at ax1
  rcases r with ⟨-, r⟩ | ⟨x, -⟩
  swap
  · rw [f] at x; cases x
  rcases r1 with ⟨-, r1⟩ | ⟨x, -⟩
  swap
  · rw [f1] at x; cases x
  rw [← t i j, ← t1 i j, toMat_triples_col (by omega), toMat_triples_col (by omega), r, r1, c, c1,
    show D.dimMinor = m + s by omega, show D1.dimMinor = m by omega, show D.dimMajor = D1.dimMajor by omega]
  exact saso_prefix hk.1.le (by omega) hs hj

/-- The distributions in C14 exist. -/
example : (∃ D1 D2 D, mkSparseDist 2 9 4 .Long = .ok D1 ∧ mkSparseDist 3 9 4 .Long = .ok D2 ∧ mkSparseDist (2 + 3) 9 4 .Long = .ok D) ∧
    (∃ D1 D, mkSparseDist 3 7 2 .Short = .ok D1 ∧ mkSparseDist 3 (7 + 5) 2 .Short = .ok D) ∧
    (∃ D1 D, mkSparseDist 7 3 2 .Short = .ok D1 ∧ mkSparseDist (7 + 5) 3 2 .Short = .ok D) :=
  ⟨⟨_, _, _, rfl, rfl, rfl⟩, ⟨_, _, rfl, rfl⟩, ⟨_, _, rfl, rfl⟩⟩

end RB
