import Verif.Lemmas.LasoPure
import Verif.Props.Sparse
import Verif.Model.SparseData

/-!
# C129: the sample of a sparse operator depends on its distribution and its seed only

Filling does not read what the arrays of the operator contain before: an operator with memory of its own, one with arrays of the user (with any contents) and the unpacked routine get the same
number of nonzeros and the same triples in the same order. Filling an operator again changes nothing. (The iteration order of the hash map is a function of the vector and of the
insertions, as for a fixed standard library.)
-/

namespace RB
open Spec
variable {N : Nat} {K W R T : Type}

/-- The arrays hold the same `n` triples, all of them initialised. -/
def Spec.SameTriples (n : Int) (v : Buf T) (r c : Buf Int) (v' : Buf T) (r' c' : Buf Int) : Prop :=
  ∀ p, 0 ≤ p → p < n → ∃ (x : T) (i j : Int), v p = .val x ∧ v' p = .val x ∧ r p = .val i ∧ r' p = .val i ∧ c p = .val j ∧ c' p = .val j

theorem sameTriples_of {v v' : Buf T} {r c r' c' : Buf Int} {E : List (Entry T)} (h : CooHolds v r c E) (h' : CooHolds v' r' c' E) : SameTriples E.length v r c v' r' c' := by
  intro p p0 p1
  obtain ⟨q, rfl⟩ := Int.eq_ofNat_of_zero_le p0
  have hq : q < E.length := by omega
  obtain ⟨a1, a2, a3⟩ := h q hq
  obtain ⟨b1, b2, b3⟩ := h' q hq
  exact ⟨_, _, _, a1, b1, a2, b2, a3, b3⟩

variable [Field R] [LinearOrder R] [FloorRing R] [Ring T]

theorem sparseRun_pos {G : Gen N K W R} {sqrt : T → T} {D : SparseDist} {seed : RNGState N K} {E : List (Int × Int × T)} (hD : SparseDistOk D) (h : SparseRun G sqrt D seed E) :
    (0 : Int) < E.length := by
  obtain ⟨hR, hC, hk, -, -, -, hax⟩ := sparseDist_facts hD
  have hmin : 0 < D.dimMinor := by rcases hax with ⟨-, -, h⟩ | ⟨-, -, h⟩ <;> omega
  rcases h with ⟨-, rfl⟩ | ⟨-, h⟩
  · have := mul_pos hmin hk
    simp only [sasoTriples, List.length_map, List.length_range]
    omega
  · have := h.length_ge hk
    omega

/-- C129 (operators). Two operators with the same distribution and the same seed state get the same sample, whatever their arrays contain before and whoever owns them. -/
theorem C129_fill {G : Gen N K W R} {sqrt : T → T} {order : Int → List (Int × T) → List (Int × T)} {S1 S2 : SparseSkOp N K T} (hG : G.Ok) (hsqrt : sqrt 1 = 1)
    (hord : ∀ i l, (order i l).Perm l) (h1 : SparseOpOk S1) (h2 : SparseOpOk S2) (hd : S1.dist = S2.dist) (hs : S1.seedState = S2.seedState) :
    M.wp (fillSparse G sqrt order) S1 (fun _ S1' => M.wp (fillSparse G sqrt order) S2 (fun _ S2' => 0 < S1'.nnz ∧ S1'.nnz = S2'.nnz ∧
      SameTriples S1'.nnz (ptr S1'.vals) (ptr S1'.rows) (ptr S1'.cols) (ptr S2'.vals) (ptr S2'.rows) (ptr S2'.cols))) := by
  refine M.wp_mono (fillSparse_list hG hsqrt hord h1) ?_
  rintro - S1' ⟨v, r, c, hr, rfl, e1, -⟩
  refine M.wp_mono (fillSparse_list hG hsqrt hord h2) ?_
  rintro - S2' ⟨v', r', c', -, rfl, e2, -⟩
  rw [← hd, ← hs] at e2
  have := sameTriples_of e1 e2
  rw [List.length_map] at this
  refine ⟨?_, by simp only [hd, hs], this⟩
  exact sparseRun_pos h1.dist hr

/-- C129 (again). Filling an operator a second time succeeds and changes neither its number of nonzeros nor its triples. -/
theorem C129_fill_again {G : Gen N K W R} {sqrt : T → T} {order : Int → List (Int × T) → List (Int × T)} {S : SparseSkOp N K T} (hG : G.Ok) (hsqrt : sqrt 1 = 1)
    (hord : ∀ i l, (order i l).Perm l) (h : SparseOpOk S) :
    M.wp (fillSparse G sqrt order) S (fun _ S1 => M.wp (fillSparse G sqrt order) S1 (fun _ S2 => S1.nnz = S2.nnz ∧ S1.nextState = S2.nextState ∧
      SameTriples S1.nnz (ptr S1.vals) (ptr S1.rows) (ptr S1.cols) (ptr S2.vals) (ptr S2.rows) (ptr S2.cols))) := by
  refine M.wp_mono (fillSparse_list hG hsqrt hord h) ?_
  rintro - S1 ⟨v, r, c, -, rfl, e1, -, ha⟩
  refine M.wp_mono (fillSparse_list hG hsqrt hord ⟨h.dist, h.nRows, h.nCols, Or.inr ⟨v, rfl, fun p a b => (ha p a b).1⟩, Or.inr ⟨r, rfl, fun p a b => (ha p a b).2.1⟩,
    Or.inr ⟨c, rfl, fun p a b => (ha p a b).2.2⟩⟩) ?_
  rintro - S2 ⟨v', r', c', -, rfl, e2, -⟩
  have := sameTriples_of e1 e2
  rw [List.length_map] at this
  exact ⟨rfl, rfl, this⟩

/-- C129 (unpacked). Filling an operator and filling three arrays of the user (with any contents) give the same sample, and the state returned by the latter is the one that the operator
announces as its next state. -/
theorem C129_unpacked {G : Gen N K W R} {sqrt : T → T} {order : Int → List (Int × T) → List (Int × T)} {S : SparseSkOp N K T} {b : CooBufs T} (hG : G.Ok) (hsqrt : sqrt 1 = 1)
    (hord : ∀ i l, (order i l).Perm l) (h : SparseOpOk S) (hn : S.nextState = sparseNextState G.len S.dist S.seedState)
    (ha : ∀ p, 0 ≤ p → p < S.dist.fullNnz → b.vals p ≠ .none ∧ b.rows p ≠ .none ∧ b.cols p ≠ .none) :
    M.wp (fillSparse G sqrt order) S (fun _ S' => M.wp (fillSparseUnpackedNosub G sqrt order S.dist S.seedState) b (fun r b' => r.1 = S'.nnz ∧ r.2 = S'.nextState ∧
      SameTriples S'.nnz (ptr S'.vals) (ptr S'.rows) (ptr S'.cols) b'.vals b'.rows b'.cols)) := by
  refine M.wp_mono (fillSparse_list hG hsqrt hord h) ?_
  rintro - S' ⟨v, r, c, -, rfl, e1, -⟩
  refine M.wp_mono (fillSparseUnpacked_list hG hsqrt hord h.dist ha) ?_
  rintro r b' ⟨-, h2, h3, h4, -⟩
  have := sameTriples_of e1 h4
  rw [List.length_map] at this
  exact ⟨h2, by rw [h3]; exact ((hn.trans (sparseNextState_eq hG h.dist)).symm), this⟩

/-! ## A concrete case: a new operator and one with arrays of the user -/

/-- Three arrays of the user that hold nonsense. -/
def exUserOp : SparseSkOp (2 ^ 128) Nat ℤ :=
  { dist := exLaso, seedState := ⟨0, 7⟩, nextState := ⟨0, 7⟩, nRows := 3, nCols := 8, ownMemory := false, nnz := -1, vals := some (Buf.ofFn 100 fun _ => 77),
    rows := some (Buf.ofFn 100 fun i => -i), cols := some (Buf.ofFn 100 fun _ => -1) }

theorem exUserOp_ok : SparseOpOk exUserOp :=
  ⟨exLaso_ok, rfl, rfl, Or.inr ⟨_, rfl, fun p h0 h1 => by have h1 : p < 12 := h1; simp [Buf.ofFn, h0, show p < 100 by omega]⟩,
    Or.inr ⟨_, rfl, fun p h0 h1 => by have h1 : p < 12 := h1; simp [Buf.ofFn, h0, show p < 100 by omega]⟩,
    Or.inr ⟨_, rfl, fun p h0 h1 => by have h1 : p < 12 := h1; simp [Buf.ofFn, h0, show p < 100 by omega]⟩⟩

example : SparseOpOk exUserOp ∧ SparseOpOk (mkSparseSkOp 4 exLaso ⟨0, 7⟩ : SparseSkOp (2 ^ 128) Nat ℤ) ∧ exUserOp.dist = (mkSparseSkOp 4 exLaso ⟨0, 7⟩ : SparseSkOp (2 ^ 128) Nat ℤ).dist :=
  ⟨exUserOp_ok, mkSparseSkOp_ok 4 exLaso_ok _, rfl⟩

end RB
