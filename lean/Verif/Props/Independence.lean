import Verif.Lemmas.VecWords
import Verif.Props.SketchDistDense
import Mathlib.Data.ZMod.Basic
import Mathlib.Logic.Equiv.Prod

/-! # C89: sketching operators as random matrices

The generator is idealised: every word it can produce is drawn independently and uniformly. `Pr` is the fraction of the choices of all words for which an
event happens. -/

namespace RB
open Spec Finset

variable {N L : Nat} {K W R T : Type}

/-! ## Specification -/

/-- The environment with the words given by `ω`: word `i` of counter `c` under the key `k` is `ω (k, c, i)`, for dense and for sparse operators. -/
def Spec.withWords (E : SkEnv N K W W R T) (ω : K × ZMod N × ZMod L → W) : SkEnv N K W W R T :=
  { E with
    G := { E.G with word := fun c k i => ω (k, c, (i : ZMod L)) }
    GS := { E.GS with word := fun c k i => ω (k, c, (i : ZMod L)) } }

/-- A distribution over dense or sparse operators. -/
inductive Spec.AnyDist
  | dense (D : DenseDist)
  | sparse (D : SparseDist)

/-- The number of rows. -/
def Spec.AnyDist.nRows : AnyDist → Int
  | .dense D => D.nRows
  | .sparse D => D.nRows

/-- The number of columns. -/
def Spec.AnyDist.nCols : AnyDist → Int
  | .dense D => D.nCols
  | .sparse D => D.nCols

/-- The major axis. -/
def Spec.AnyDist.axis : AnyDist → Axis
  | .dense D => D.majorAxis
  | .sparse D => D.majorAxis

/-- The distribution is one that its constructor returns, of a size that fits 64 bits. -/
def Spec.AnyDist.Ok : AnyDist → Prop
  | .dense D => DenseDistOk D
  | .sparse D => SparseDistOk D

/-- The matrix sampled from a distribution with a seed. -/
def Spec.Sampled [Field R] [LinearOrder R] [FloorRing R] [Ring T] (E : SkEnv N K W W R T) (d : AnyDist) (s : RNGState N K) (A : Int → Int → T) : Prop :=
  match d with
  | .dense D => Samples E.G E.sqrt3 D s A
  | .sparse D => SparseSamples E.GS E.sqrt D s A

/-- The state that the constructor of an operator stores for the next operator. -/
def Spec.NextState (E : SkEnv N K W W R T) (d : AnyDist) (s s' : RNGState N K) : Prop :=
  match d with
  | .dense D => ∃ S : DenseSkOp N K T, mkDenseSkOp E.G.len D s = .ok S ∧ s' = S.nextState
  | .sparse D => s' = (mkSparseSkOp E.GS.len D s : SparseSkOp N K T).nextState

/-- The matrix restricted to its index range. -/
def Spec.matOf (d : AnyDist) (A : Int → Int → T) : Fin d.nRows.toNat → Fin d.nCols.toNat → T := fun i j => A (i : Nat) (j : Nat)

/-- Major-axis vectors are as long as the longer or the shorter dimension. -/
def Spec.AnyDist.vecLen (d : AnyDist) : Int := if d.axis = .Long then max d.nRows d.nCols else min d.nRows d.nCols

/-- The number of major-axis vectors. -/
def Spec.AnyDist.numVecs (d : AnyDist) : Int := if d.axis = .Long then min d.nRows d.nCols else max d.nRows d.nCols

/-- The major-axis vectors are the columns. (For a square matrix with short axis they are the rows of dense, the columns of sparse operators.) -/
def Spec.AnyDist.colVecs (d : AnyDist) : Prop :=
  match d with
  | .dense D => if D.majorAxis = .Short then D.nRows < D.nCols else D.nCols ≤ D.nRows
  | .sparse D => if D.majorAxis = .Short then D.nRows ≤ D.nCols else D.nCols < D.nRows

/-- Entry `p` of major-axis vector `q`. -/
noncomputable def Spec.vecAt (d : AnyDist) (A : Int → Int → T) (q p : Int) : T :=
  letI := Classical.propDecidable d.colVecs
  if d.colVecs then A p q else A q p

/-- Major-axis vector `q`. -/
noncomputable def Spec.vecOf (d : AnyDist) (A : Int → Int → T) (q : Int) : Fin d.vecLen.toNat → T := fun p => vecAt d A q (p : Nat)

/-- Counters per major-axis vector. -/
def Spec.AnyDist.vecCounters (L : Int) (d : AnyDist) : Int :=
  match d with
  | .dense _ => (d.vecLen + L - 1) / L
  | .sparse D => if D.majorAxis = .Short then D.vecNnz else (2 * D.vecNnz + L - 1) / L

/-- Counters used by an operator. -/
def Spec.AnyDist.counters (L : Int) (d : AnyDist) : Int := d.numVecs * d.vecCounters L

/-! ## Lemmas -/

theorem Spec.AnyDist.Ok.pos {d : AnyDist} (h : d.Ok) : 0 < d.nRows ∧ 0 < d.nCols := by
  cases d with
  | dense D => exact ⟨(denseDist_facts h).1, (denseDist_facts h).2.1⟩
  | sparse D => exact ⟨(sparseDist_facts h).1, (sparseDist_facts h).2.1⟩

theorem denseDist_dims {D : DenseDist} (h : DenseDistOk D) : D.dimMajor = (AnyDist.dense D).vecLen ∧ D.dimMinor = (AnyDist.dense D).numVecs ∧
    (D.naturalLayout = .ColMajor ↔ (AnyDist.dense D).colVecs) := by
  obtain ⟨hr, hc, -⟩ := denseDist_facts h
  have e := h.1
  rw [mkDenseDist_eq hr hc] at e
  have e := Res.ok.inj e
  refine ⟨(congrArg DenseDist.dimMajor e).symm, (congrArg DenseDist.dimMinor e).symm, ?_⟩
  rw [← congrArg DenseDist.naturalLayout e]
  simp only [naturalLayout, AnyDist.colVecs]
  cases D.majorAxis <;> by_cases hlt : D.nRows < D.nCols <;> (simp [hlt]; try omega)

theorem sparseDist_dims {D : SparseDist} (h : SparseDistOk D) : D.dimMajor = (AnyDist.sparse D).vecLen ∧ D.dimMinor = (AnyDist.sparse D).numVecs := by
  obtain ⟨-, -, -, -, -, -, ⟨a, b, c⟩ | ⟨a, b, c⟩⟩ := sparseDist_facts h <;>
    simp [AnyDist.vecLen, AnyDist.numVecs, AnyDist.axis, AnyDist.nRows, AnyDist.nCols, a, b, c]

/-- A matrix is made up of its vectors. -/
theorem matOf_of_vecs {d : AnyDist} (hd : d.Ok) {A A' : Int → Int → T}
    (h : ∀ q p, 0 ≤ q → q < d.numVecs → 0 ≤ p → p < d.vecLen → vecAt d A q p = vecAt d A' q p) : matOf d A = matOf d A' := by
  funext i j
  obtain ⟨hr, hc⟩ := hd.pos
  have hi : ((i : Nat) : Int) < d.nRows := by have := i.2; omega
  have hj : ((j : Nat) : Int) < d.nCols := by have := j.2; omega
  have hcases : (d.colVecs → d.vecLen = d.nRows ∧ d.numVecs = d.nCols) ∧ (¬ d.colVecs → d.vecLen = d.nCols ∧ d.numVecs = d.nRows) := by
    cases d with
    | dense D =>
      have hax : D.majorAxis = .Short ∨ D.majorAxis = .Long := by cases D.majorAxis <;> simp
      simp only [AnyDist.colVecs, AnyDist.vecLen, AnyDist.numVecs, AnyDist.axis, AnyDist.nRows, AnyDist.nCols]
      rcases hax with h | h <;> simp only [h, reduceCtorEq, if_true, if_false] <;> omega
    | sparse D =>
      have hax : D.majorAxis = .Short ∨ D.majorAxis = .Long := by cases D.majorAxis <;> simp
      simp only [AnyDist.colVecs, AnyDist.vecLen, AnyDist.numVecs, AnyDist.axis, AnyDist.nRows, AnyDist.nCols]
      rcases hax with h | h <;> simp only [h, reduceCtorEq, if_true, if_false] <;> omega
  unfold matOf
  by_cases hv : d.colVecs
  · obtain ⟨a, b⟩ := hcases.1 hv
    have := h j i (by omega) (by omega) (by omega) (by omega)
    simpa only [vecAt, if_pos hv] using this
  · obtain ⟨a, b⟩ := hcases.2 hv
    have := h i j (by omega) (by omega) (by omega) (by omega)
    simpa only [vecAt, if_neg hv] using this

section
variable [Field R] [LinearOrder R] [FloorRing R] [Ring T]

/-- A major-axis vector is determined by the words of its block of counters. -/
theorem vec_same {E : SkEnv N K W W R T} (hE : SkEnvOk E) (hl : E.G.len = L) (hl' : E.GS.len = L) {d : AnyDist} (hd : d.Ok)
    {ω ω' : K × ZMod N × ZMod L → W} {s s' : RNGState N K} {A A' : Int → Int → T} (hA : Sampled (withWords E ω) d s A)
    (hA' : Sampled (withWords E ω') d s' A') {q q' : Int} (q0 : 0 ≤ q) (q1 : q < d.numVecs) (q0' : 0 ≤ q') (q1' : q' < d.numVecs)
    (hw : ∀ x, 0 ≤ x → x < d.vecCounters L → ∀ i, ω' (s'.key, s'.counter + ((q' * d.vecCounters L + x : Int) : ZMod N), i) =
      ω (s.key, s.counter + ((q * d.vecCounters L + x : Int) : ZMod N), i))
    {p : Int} (p0 : 0 ≤ p) (p1 : p < d.vecLen) : vecAt d A' q' p = vecAt d A q p := by
  cases d with
  | dense D =>
    obtain ⟨hr, hc, -, hlay⟩ := denseDist_facts hd
    obtain ⟨e1, e2, e3⟩ := denseDist_dims hd
    have key : denseRaw (withWords E ω').G D.family D.dimMajor s' q' p = denseRaw (withWords E ω).G D.family D.dimMajor s q p := by
      refine denseRaw_same (G := (withWords E ω).G) hE.gen p0 (by rw [e1]; exact p1) ⟨rfl, rfl, rfl, rfl, ?_⟩
      intro x x0 x1 i _ _
      have hc : (AnyDist.dense D).vecCounters L = countersPerVector (withWords E ω).G.len D.dimMajor := by
        show ((AnyDist.dense D).vecLen + L - 1) / L = (D.dimMajor + E.G.len - 1) / E.G.len
        rw [hl, e1]
      rw [hc] at hw
      exact hw x x0 x1 i
    have hu := fun (ω : K × ZMod N × ZMod L → W) (s : RNGState N K) (A : Int → Int → T) (h : Sampled (withWords E ω) (.dense D) s A) {i j} hij =>
      samples_unique (i := i) (j := j) (show (withWords E ω).G.Ok from hE.gen) hd h hij
    by_cases hv : (AnyDist.dense D).colVecs
    · have hn := e3.mpr hv
      rcases hlay with ⟨a, b, c⟩ | ⟨a, b, c⟩
      · simp only [vecAt, if_pos hv]
        rw [hu ω s A hA ⟨p0, by omega, q0, by omega⟩, hu ω' s' A' hA' ⟨p0, by omega, q0', by omega⟩]
        unfold denseEntry
        simp only [hn, key]
        rfl
      · rw [a] at hn; cases hn
    · rcases hlay with ⟨a, b, c⟩ | ⟨a, b, c⟩
      · exact absurd (e3.mp a) hv
      · simp only [vecAt, if_neg hv]
        rw [hu ω s A hA ⟨q0, by omega, p0, by omega⟩, hu ω' s' A' hA' ⟨q0', by omega, p0, by omega⟩]
        unfold denseEntry
        simp only [a, key]
        rfl
  | sparse D =>
    obtain ⟨hr, hc, hk, hkd, -, -, hax⟩ := sparseDist_facts hd
    obtain ⟨e1, e2⟩ := sparseDist_dims hd
    obtain ⟨F, hF, hFA⟩ := sparseSamples_run (show (withWords E ω).GS.Ok from hE.genS) hE.sqrt hd hA
    obtain ⟨F', hF', hFA'⟩ := sparseSamples_run (show (withWords E ω').GS.Ok from hE.genS) hE.sqrt hd hA'
    have htrip : ∀ (F : List (Int × Int × T)) (A : Int → Int → T) (q : Int), (∀ i j, toMat (F.map (mkEntry D)) i j = A i j) →
        vecAt (.sparse D) A q p = if D.majorAxis = .Short then tripMat F p q else tripMat F q p := by
      intro F A q h
      have hrow : ∀ i j, A i j = if D.nRows ≤ D.nCols then tripMat F i j else tripMat F j i := by
        intro i j
        split_ifs with hw
        · rw [← h, toMat_triples_row hw]; rfl
        · rw [← h, toMat_triples_col hw]; rfl
      simp only [vecAt, AnyDist.colVecs]
      rcases hax with ⟨a, -⟩ | ⟨a, -⟩ <;> simp only [a, reduceCtorEq, if_true, if_false, hrow] <;> split_ifs <;> first | rfl | omega
    rw [htrip F A q hFA, htrip F' A' q' hFA']
    rcases hF with ⟨a, hF⟩ | ⟨a, hF⟩ <;> rcases hF' with ⟨a', hF'⟩ | ⟨a', hF'⟩
    · rw [if_pos a, if_pos a, hF, hF', saso_vec hk hkd q0 (by omega), saso_vec hk hkd q0' (by omega)]
      rw [saso_one_same (G := (withWords E ω).GS) (G' := (withWords E ω').GS) hE.genS hk]
      refine ⟨rfl, rfl, rfl, rfl, fun x x0 x1 i _ _ => ?_⟩
      have hc : (AnyDist.sparse D).vecCounters L = D.vecNnz := by simp only [AnyDist.vecCounters, a, if_true]
      rw [hc] at hw
      have := hw x x0 x1 i
      rw [Int.cast_add, Int.cast_add, ← add_assoc, ← add_assoc] at this
      simp only [advance, zero_add]
      exact this
    · rw [a] at a'; cases a'
    · rw [a] at a'; cases a'
    · rw [if_neg (by rw [a]; decide), if_neg (by rw [a]; decide)]
      have hc : (AnyDist.sparse D).vecCounters L = lasoStride (withWords E ω).GS.len D.vecNnz := by
        show _ = (2 * D.vecNnz + E.GS.len - 1) / E.GS.len
        rw [hl']
        simp [AnyDist.vecCounters, a]
      rw [hc] at hw
      have := laso_vec_same (G := (withWords E ω).GS) (G' := (withWords E ω').GS) hE.genS hF hF' (q := q.toNat) (q' := q'.toNat) (by omega) (by omega)
        ⟨rfl, rfl, rfl, rfl, fun x x0 x1 i _ _ => by rw [Int.toNat_of_nonneg q0, Int.toNat_of_nonneg q0']; exact hw x x0 x1 i⟩ p
      rwa [Int.toNat_of_nonneg q0, Int.toNat_of_nonneg q0'] at this

theorem block_disjoint [NeZero N] {c : ZMod N} {a m b m' x y : Int} (h : a + m ≤ b) (h' : b + m' ≤ a + N) (x0 : 0 ≤ x) (x1 : x < m) (y0 : 0 ≤ y) (y1 : y < m')
    (e : c + ((a + x : Int) : ZMod N) = c + ((b + y : Int) : ZMod N)) : False := by
  have hd := Int.ModEq.dvd ((ZMod.intCast_eq_intCast_iff _ _ _).mp (add_left_cancel e))
  have := Int.le_of_dvd (by omega) hd
  omega

theorem vecCounters_nonneg (hL : 0 < L) {d : AnyDist} (hd : d.Ok) : 0 ≤ d.vecCounters L := by
  obtain ⟨hr, hc⟩ := hd.pos
  cases d with
  | dense D =>
    refine Int.ediv_nonneg ?_ (by omega)
    have : 0 ≤ (AnyDist.dense D).vecLen := by unfold AnyDist.vecLen; split_ifs <;> omega
    omega
  | sparse D =>
    have := (sparseDist_facts hd).2.2.1
    simp only [AnyDist.vecCounters]
    split_ifs
    · omega
    · exact Int.ediv_nonneg (by omega) (by omega)

theorem numVecs_pos {d : AnyDist} (hd : d.Ok) : 0 < d.numVecs := by
  obtain ⟨hr, hc⟩ := hd.pos
  unfold AnyDist.numVecs
  split_ifs <;> omega

/-- An operator is determined by the words of its counters. -/
theorem mat_same {E : SkEnv N K W W R T} (hE : SkEnvOk E) (hl : E.G.len = L) (hl' : E.GS.len = L) {d : AnyDist} (hd : d.Ok)
    {ω ω' : K × ZMod N × ZMod L → W} {s s' : RNGState N K} {A A' : Int → Int → T} (hA : Sampled (withWords E ω) d s A)
    (hA' : Sampled (withWords E ω') d s' A')
    (hw : ∀ x, 0 ≤ x → x < d.counters L → ∀ i, ω' (s'.key, s'.counter + ((x : Int) : ZMod N), i) = ω (s.key, s.counter + ((x : Int) : ZMod N), i)) :
    matOf d A' = matOf d A := by
  have hL : 0 < L := by rcases hE.gen with h | h <;> omega
  have hv := vecCounters_nonneg hL hd
  refine matOf_of_vecs hd fun q p q0 q1 p0 p1 => vec_same hE hl hl' hd hA hA' q0 q1 q0 q1 (fun x x0 x1 i => hw _ ?_ ?_ i) p0 p1
  · have := mul_nonneg q0 hv; omega
  · have : (q + 1) * d.vecCounters L ≤ d.counters L := mul_le_mul_of_nonneg_right (by omega) hv
    rw [add_mul] at this
    omega

omit [Field R] [LinearOrder R] [FloorRing R] in
theorem nextState_eq {E : SkEnv N K W W R T} (hE : SkEnvOk E) (hl : E.G.len = L) (hl' : E.GS.len = L) {d : AnyDist} (hd : d.Ok) {s s' : RNGState N K}
    (h : NextState E d s s') : s' = advance s (d.counters L) := by
  cases d with
  | dense D =>
    obtain ⟨S, h1, rfl⟩ := h
    obtain ⟨e1, e2, -⟩ := denseDist_dims hd
    rw [mkDenseSkOp_next (by rcases hE.gen with h | h <;> rw [h] <;> decide) hd h1, hl, e1, e2]
    rfl
  | sparse D =>
    obtain ⟨e1, e2⟩ := sparseDist_dims hd
    have h : s' = sparseNextState E.GS.len D s := h
    rw [h, sparseNextState_eq hE.genS hd, hl']
    unfold sparseCounters AnyDist.counters
    rw [e2]
    rfl

/-! ## C89 -/

variable [Fintype K] [DecidableEq K] [Fintype W] [NeZero N] [NeZero L]

/-- C89 (seeds). The distribution of the operator does not depend on the seed. -/
theorem C89_seed {E : SkEnv N K W W R T} (hE : SkEnvOk E) (hl : E.G.len = L) (hl' : E.GS.len = L) {d : AnyDist} (hd : d.Ok) {s s' : RNGState N K}
    {A A' : (K × ZMod N × ZMod L → W) → Int → Int → T} (hA : ∀ ω, Sampled (withWords E ω) d s (A ω)) (hA' : ∀ ω, Sampled (withWords E ω) d s' (A' ω))
    (P : (Fin d.nRows.toNat → Fin d.nCols.toNat → T) → Prop) : Pr (fun ω => P (matOf d (A ω))) = Pr (fun ω => P (matOf d (A' ω))) := by
  let π : (K × ZMod N × ZMod L) ≃ (K × ZMod N × ZMod L) :=
    (Equiv.swap s.key s'.key).prodCongr ((Equiv.addRight (s'.counter - s.counter)).prodCongr (Equiv.refl _))
  let σ : (K × ZMod N × ZMod L → W) ≃ (K × ZMod N × ZMod L → W) := π.symm.arrowCongr (Equiv.refl _)
  rw [← pr_equiv σ fun ω => P (matOf d (A ω))]
  refine pr_congr fun ω => ?_
  rw [mat_same hE hl hl' hd (hA' ω) (hA (σ ω))]
  intro x _ _ i
  show ω (π (s.key, s.counter + (x : ZMod N), i)) = _
  have : π (s.key, s.counter + (x : ZMod N), i) = (s'.key, s'.counter + (x : ZMod N), i) := by
    simp only [π, Equiv.prodCongr_apply, Prod.map_apply, Equiv.swap_apply_left, Equiv.coe_addRight, Equiv.refl_apply]
    congr 2
    ring
  rw [this]

/-- C89 (vectors). The major-axis vectors of an operator are independent and identically distributed. -/
theorem C89_vectors [Nonempty W] {E : SkEnv N K W W R T} (hE : SkEnvOk E) (hl : E.G.len = L) (hl' : E.GS.len = L) {d : AnyDist} (hd : d.Ok)
    {s : RNGState N K} {A : (K × ZMod N × ZMod L → W) → Int → Int → T} (hA : ∀ ω, Sampled (withWords E ω) d s (A ω)) :
    (d.counters L ≤ N → ∀ P : Nat → (Fin d.vecLen.toNat → T) → Prop,
      Pr (fun ω => ∀ q ∈ range d.numVecs.toNat, P q (vecOf d (A ω) q)) = ∏ q ∈ range d.numVecs.toNat, Pr (fun ω => P q (vecOf d (A ω) q))) ∧
    (∀ q q' : Nat, q < d.numVecs → q' < d.numVecs → ∀ P : (Fin d.vecLen.toNat → T) → Prop,
      Pr (fun ω => P (vecOf d (A ω) q)) = Pr (fun ω => P (vecOf d (A ω) q'))) := by
  have hL : 0 < L := NeZero.pos L
  have hv := vecCounters_nonneg hL hd
  have hlen : 0 < d.vecLen := by
    obtain ⟨hr, hc⟩ := hd.pos
    unfold AnyDist.vecLen
    split_ifs <;> omega
  have hvec : ∀ ω ω' (q q' : Nat), (q : Int) < d.numVecs → (q' : Int) < d.numVecs → (∀ x, 0 ≤ x → x < d.vecCounters L → ∀ i,
      ω' (s.key, s.counter + ((q' * d.vecCounters L + x : Int) : ZMod N), i) = ω (s.key, s.counter + ((q * d.vecCounters L + x : Int) : ZMod N), i)) →
      vecOf d (A ω') q' = vecOf d (A ω) q := by
    intro ω ω' q q' h1 h2 h
    funext p
    exact vec_same hE hl hl' hd (hA ω) (hA ω') (by omega) h1 (by omega) h2 h (by omega) (by have := p.2; omega)
  constructor
  · intro hN P
    refine pr_forall (range d.numVecs.toNat) (S := fun q z => ∃ x, 0 ≤ x ∧ x < d.vecCounters L ∧ z.2.1 = s.counter + ((q * d.vecCounters L + x : Int) : ZMod N)) ?_ ?_
    · intro q hq ω ω' h
      rw [mem_range] at hq
      beta_reduce
      rw [hvec ω ω' q q (by omega) (by omega) fun x x0 x1 i => (h (s.key, _, i) ⟨x, x0, x1, rfl⟩).symm]
    · have key : ∀ q q' : Nat, q < q' → (q' : Int) < d.numVecs → ∀ x y : Int, 0 ≤ x → x < d.vecCounters L → 0 ≤ y → y < d.vecCounters L →
          s.counter + ((q * d.vecCounters L + x : Int) : ZMod N) ≠ s.counter + ((q' * d.vecCounters L + y : Int) : ZMod N) := by
        intro q q' h1 h2 x y x0 x1 y0 y1 e
        have t1 : ((q : Int) + 1) * d.vecCounters L ≤ q' * d.vecCounters L := mul_le_mul_of_nonneg_right (by omega) hv
        have t2 : ((q' : Int) + 1) * d.vecCounters L ≤ d.counters L := mul_le_mul_of_nonneg_right (by omega) hv
        have t3 : 0 ≤ (q : Int) * d.vecCounters L := mul_nonneg (by omega) hv
        rw [add_mul] at t1 t2
        exact block_disjoint (by omega) (by omega) x0 x1 y0 y1 e
      rintro q hq q' hq' hne z ⟨x, x0, x1, e⟩ ⟨y, y0, y1, e'⟩
      rw [mem_range] at hq hq'
      rw [e] at e'
      rcases lt_or_gt_of_ne hne with h | h
      · exact key q q' h (by omega) x y x0 x1 y0 y1 e'
      · exact key q' q h (by omega) y x y0 y1 x0 x1 e'.symm
  · intro q q' hq hq' P
    let π : (K × ZMod N × ZMod L) ≃ (K × ZMod N × ZMod L) :=
      (Equiv.refl K).prodCongr ((Equiv.addRight ((((q' : Int) - q) * d.vecCounters L : Int) : ZMod N)).prodCongr (Equiv.refl _))
    let σ : (K × ZMod N × ZMod L → W) ≃ (K × ZMod N × ZMod L → W) := π.symm.arrowCongr (Equiv.refl _)
    rw [← pr_equiv σ fun ω => P (vecOf d (A ω) q)]
    refine pr_congr fun ω => ?_
    rw [hvec ω (σ ω) q' q hq' hq]
    intro x _ _ i
    show ω (π (s.key, s.counter + ((q * d.vecCounters L + x : Int) : ZMod N), i)) = _
    have : π (s.key, s.counter + ((q * d.vecCounters L + x : Int) : ZMod N), i) = (s.key, s.counter + ((q' * d.vecCounters L + x : Int) : ZMod N), i) := by
      simp only [π, Equiv.prodCongr_apply, Prod.map_apply, Equiv.coe_addRight, Equiv.refl_apply]
      congr 2
      push_cast
      ring
    rw [this]

/-- C89 (operators). Operators drawn one after the other, each seeded with the state that its predecessor's constructor stored, are independent as long as
together they use no more counters than there are. -/
theorem C89_operators [Nonempty W] {E : SkEnv N K W W R T} (hE : SkEnvOk E) (hl : E.G.len = L) (hl' : E.GS.len = L) {n : Nat} {d : Nat → AnyDist}
    {s : Nat → RNGState N K} {A : Nat → (K × ZMod N × ZMod L → W) → Int → Int → T} (hd : ∀ j, j < n → (d j).Ok)
    (hs : ∀ j, j < n → NextState E (d j) (s j) (s (j + 1))) (hN : ∑ j ∈ range n, (d j).counters L ≤ N)
    (hA : ∀ j, j < n → ∀ ω, Sampled (withWords E ω) (d j) (s j) (A j ω)) (P : ∀ j, (Fin (d j).nRows.toNat → Fin (d j).nCols.toNat → T) → Prop) :
    Pr (fun ω => ∀ j ∈ range n, P j (matOf (d j) (A j ω))) = ∏ j ∈ range n, Pr (fun ω => P j (matOf (d j) (A j ω))) := by
  have hL : 0 < L := NeZero.pos L
  have hc0 : ∀ j, j < n → 0 ≤ (d j).counters L := fun j hj => mul_nonneg (numVecs_pos (hd j hj)).le (vecCounters_nonneg hL (hd j hj))
  have hst : ∀ j, j ≤ n → s j = advance (s 0) (∑ i ∈ range j, (d i).counters L) := by
    intro j hj
    induction j with
    | zero => rw [sum_range_zero, advance_zero]
    | succ j ih => rw [nextState_eq hE hl hl' (hd j (by omega)) (hs j (by omega)), ih (by omega), advance_advance, sum_range_succ]
  have hmono : ∀ i j, i ≤ j → j ≤ n → ∑ k ∈ range i, (d k).counters L ≤ ∑ k ∈ range j, (d k).counters L := by
    intro i j hij hj
    refine sum_le_sum_of_subset_of_nonneg (range_subset_range.mpr hij) fun k hk _ => hc0 k ?_
    rw [mem_range] at hk
    omega
  refine pr_forall (range n) (S := fun j z => ∃ x, 0 ≤ x ∧ x < (d j).counters L ∧
    z.2.1 = (s 0).counter + ((∑ i ∈ range j, (d i).counters L + x : Int) : ZMod N)) ?_ ?_
  · intro j hj ω ω' h
    rw [mem_range] at hj
    beta_reduce
    rw [mat_same hE hl hl' (hd j hj) (hA j hj ω) (hA j hj ω')]
    intro x x0 x1 i
    refine (h ((s j).key, (s j).counter + (x : ZMod N), i) ⟨x, x0, x1, ?_⟩).symm
    rw [hst j hj.le]
    simp only [advance]
    push_cast
    ring
  · have key : ∀ i j, i < j → j < n → ∀ x y : Int, 0 ≤ x → x < (d i).counters L → 0 ≤ y → y < (d j).counters L →
        (s 0).counter + ((∑ k ∈ range i, (d k).counters L + x : Int) : ZMod N) ≠
          (s 0).counter + ((∑ k ∈ range j, (d k).counters L + y : Int) : ZMod N) := by
      intro i j hij hj x y x0 x1 y0 y1 e
      have t1 := hmono (i + 1) j hij (by omega)
      have t2 := hmono (j + 1) n hj (le_refl n)
      have t3 := hmono 0 i (by omega) (by omega)
      rw [sum_range_succ] at t1 t2
      rw [sum_range_zero] at t3
      exact block_disjoint (by omega) (by omega) x0 x1 y0 y1 e
    rintro i hi j hj hne z ⟨x, x0, x1, e⟩ ⟨y, y0, y1, e'⟩
    rw [mem_range] at hi hj
    rw [e] at e'
    rcases lt_or_gt_of_ne hne with h | h
    · exact key i j h hj x y x0 x1 y0 y1 e'
    · exact key j i h hi y x y0 y1 x0 x1 e'.symm

/-- C89 (keys). Operators whose seeds have different keys are independent, whatever their counters. -/
theorem C89_keys [Nonempty W] {E : SkEnv N K W W R T} (hE : SkEnvOk E) (hl : E.G.len = L) (hl' : E.GS.len = L) {n : Nat} {d : Nat → AnyDist}
    {s : Nat → RNGState N K} {A : Nat → (K × ZMod N × ZMod L → W) → Int → Int → T} (hd : ∀ j, j < n → (d j).Ok)
    (hs : ∀ i j, i < n → j < n → i ≠ j → (s i).key ≠ (s j).key)
    (hA : ∀ j, j < n → ∀ ω, Sampled (withWords E ω) (d j) (s j) (A j ω)) (P : ∀ j, (Fin (d j).nRows.toNat → Fin (d j).nCols.toNat → T) → Prop) :
    Pr (fun ω => ∀ j ∈ range n, P j (matOf (d j) (A j ω))) = ∏ j ∈ range n, Pr (fun ω => P j (matOf (d j) (A j ω))) := by
  refine pr_forall (range n) (S := fun j z => z.1 = (s j).key) ?_ ?_
  · intro j hj ω ω' h
    rw [mem_range] at hj
    beta_reduce
    rw [mat_same hE hl hl' (hd j hj) (hA j hj ω) (hA j hj ω')]
    intro x _ _ i
    exact (h ((s j).key, _, i) rfl).symm
  · intro i hi j hj hne z e e'
    rw [mem_range] at hi hj
    exact hs i j hi hj hne (e.symm.trans e')

/-- The words that position `p` of vector `q` of a dense operator is made from are at this counter. -/
def denseCtr (L : Nat) (D : DenseDist) (s : RNGState N K) (q p : Int) : ZMod N := s.counter + ((q * countersPerVector L D.dimMajor + p / L : Int) : ZMod N)

omit [Fintype K] [DecidableEq K] [NeZero L] in
theorem denseCtr_inj (hL : 0 < L) {D : DenseDist} (hN : D.dimMinor * countersPerVector L D.dimMajor ≤ N) {s : RNGState N K} {q p q' p' : Int}
    (q0 : 0 ≤ q) (q1 : q < D.dimMinor) (p0 : 0 ≤ p) (p1 : p < D.dimMajor) (q0' : 0 ≤ q') (q1' : q' < D.dimMinor) (p0' : 0 ≤ p') (p1' : p' < D.dimMajor)
    (e : denseCtr L D s q p = denseCtr L D s q' p') : q = q' ∧ p / L = p' / L := by
  have hL' : (0 : Int) < L := by omega
  unfold denseCtr at e
  generalize hv : countersPerVector L D.dimMajor = v at e hN
  have a0 := Int.ediv_nonneg p0 hL'.le
  have a1 := div_lt_countersPerVector hL' p1
  have b0 := Int.ediv_nonneg p0' hL'.le
  have b1 := div_lt_countersPerVector hL' p1'
  rw [hv] at a1 b1
  have key : ∀ q q' x y : Int, 0 ≤ q → q < q' → q' < D.dimMinor → 0 ≤ x → x < v → 0 ≤ y → y < v →
      s.counter + ((q * v + x : Int) : ZMod N) ≠ s.counter + ((q' * v + y : Int) : ZMod N) := by
    intro q q' x y h0 h1 h2 x0 x1 y0 y1 e
    have t1 : (q + 1) * v ≤ q' * v := mul_le_mul_of_nonneg_right (by omega) (by omega)
    have t2 : (q' + 1) * v ≤ D.dimMinor * v := mul_le_mul_of_nonneg_right (by omega) (by omega)
    have t3 : 0 ≤ q * v := mul_nonneg h0 (by omega)
    rw [add_mul] at t1 t2
    exact block_disjoint (by omega) (by omega) x0 x1 y0 y1 e
  rcases lt_trichotomy q q' with h | h | h
  · exact absurd e (key q q' _ _ q0 h q1' a0 a1 b0 b1)
  · subst h
    refine ⟨rfl, ?_⟩
    have t2 : (q + 1) * v ≤ D.dimMinor * v := mul_le_mul_of_nonneg_right (by omega) (by omega)
    have t3 : 0 ≤ q * v := mul_nonneg q0 (by omega)
    rw [add_mul] at t2
    have hm := (ZMod.intCast_eq_intCast_iff _ _ _).mp (add_left_cancel e)
    unfold Int.ModEq at hm
    rw [Int.emod_eq_of_lt (by omega) (by omega), Int.emod_eq_of_lt (by omega) (by omega)] at hm
    omega
  · exact absurd e.symm (key q' q _ _ q0' h q1 b0 b1 a0 a1)

omit [Field R] [LinearOrder R] [FloorRing R] in
/-- C89 (uniform entries). The entries of an operator from the uniform family are independent, and each is `sqrt3` times the value of one uniform word. -/
theorem C89_uniform_entries [Nonempty W] {E : SkEnv N K W W R T} (hE : SkEnvOk E) (hl : E.G.len = L) {D : DenseDist} (hD : DenseDistOk D)
    (hU : D.family = .Uniform) {s : RNGState N K} (hN : (AnyDist.dense D).counters L ≤ N) {A : (K × ZMod N × ZMod L → W) → Int → Int → T}
    (hA : ∀ ω, Samples (withWords E ω).G E.sqrt3 D s (A ω)) (P : Nat → Nat → T → Prop) :
    Pr (fun ω => ∀ z ∈ range D.nRows.toNat ×ˢ range D.nCols.toNat, P z.1 z.2 (A ω z.1 z.2)) =
      ∏ z ∈ range D.nRows.toNat ×ˢ range D.nCols.toNat, Pr (fun w : W => P z.1 z.2 (E.sqrt3 * E.G.uneg11 w)) := by
  have hL0 := NeZero.pos L
  have hL : (0 : Int) < L := by omega
  obtain ⟨hr, hc, -, hlay⟩ := denseDist_facts hD
  obtain ⟨e1, e2, -⟩ := denseDist_dims hD
  have hcv : D.dimMinor * countersPerVector L D.dimMajor ≤ N := by rw [e1, e2]; exact hN
  let qv : Nat × Nat → Int × Int := fun z => if D.naturalLayout = .ColMajor then ((z.2 : Int), (z.1 : Int)) else ((z.1 : Int), (z.2 : Int))
  let pt : Nat × Nat → K × ZMod N × ZMod L := fun z => (s.key, denseCtr L D s (qv z).1 (qv z).2, (((qv z).2 % L : Int) : ZMod L))
  have hqv : ∀ z ∈ range D.nRows.toNat ×ˢ range D.nCols.toNat, 0 ≤ (qv z).1 ∧ (qv z).1 < D.dimMinor ∧ 0 ≤ (qv z).2 ∧ (qv z).2 < D.dimMajor := by
    intro z hz
    rw [mem_product, mem_range, mem_range] at hz
    rcases hlay with ⟨a, b, c⟩ | ⟨a, b, c⟩ <;> simp only [qv, a, reduceCtorEq, if_true, if_false] <;> omega
  have hval : ∀ z ∈ range D.nRows.toNat ×ˢ range D.nCols.toNat, ∀ ω, A ω z.1 z.2 = E.sqrt3 * E.G.uneg11 (ω (pt z)) := by
    intro z hz ω
    rw [mem_product, mem_range, mem_range] at hz
    rw [samples_unique (show (withWords E ω).G.Ok from hE.gen) hD (hA ω) ⟨by omega, by omega, by omega, by omega⟩]
    unfold denseEntry denseRaw genValue
    rw [hU]
    rcases hlay with ⟨a, -⟩ | ⟨a, -⟩ <;> simp only [a, famScale, pt, qv, reduceCtorEq, if_true, if_false, denseCtr, withWords, hl]
  have hind := pr_forall (W := W) (range D.nRows.toNat ×ˢ range D.nCols.toNat) (S := fun z x => x = pt z)
    (p := fun z ω => P z.1 z.2 (A ω z.1 z.2)) ?_ ?_
  · rw [hind]
    refine prod_congr rfl fun z hz => ?_
    rw [← pr_eval (pt z) fun w => P z.1 z.2 (E.sqrt3 * E.G.uneg11 w)]
    exact pr_congr fun ω => by rw [hval z hz]
  · intro z hz ω ω' h
    beta_reduce
    rw [hval z hz, hval z hz, h (pt z) rfl]
  · intro z hz z' hz' hne x hx hx'
    apply hne
    obtain ⟨-, h2⟩ := Prod.mk.inj (hx.symm.trans hx')
    obtain ⟨h2, h3⟩ := Prod.mk.inj h2
    obtain ⟨a0, a1, a2, a3⟩ := hqv z hz
    obtain ⟨b0, b1, b2, b3⟩ := hqv z' hz'
    obtain ⟨hq, hp⟩ := denseCtr_inj hL0 hcv a0 a1 a2 a3 b0 b1 b2 b3 h2
    have h3 := (ZMod.intCast_eq_intCast_iff _ _ _).mp h3
    unfold Int.ModEq at h3
    rw [Int.emod_emod_of_dvd _ (dvd_refl _), Int.emod_emod_of_dvd _ (dvd_refl _)] at h3
    have hp2 : (qv z).2 = (qv z').2 := by
      have t1 := Int.mul_ediv_add_emod (qv z).2 L
      have t2 := Int.mul_ediv_add_emod (qv z').2 L
      rw [hp, h3] at t1
      omega
    rcases hlay with ⟨a, -⟩ | ⟨a, -⟩ <;> simp only [qv, a, reduceCtorEq, if_true, if_false] at hq hp2 <;> exact Prod.ext (by omega) (by omega)

omit [Field R] [LinearOrder R] [FloorRing R] in
/-- C89 (Gaussian entries). In an operator from the Gaussian family, entries 2t and 2t + 1 of a major-axis vector are the two values that the transformation of
Box and Muller makes from a pair of uniform words, and the pairs are independent. -/
theorem C89_gaussian_entries [Nonempty W] {E : SkEnv N K W W R T} (hE : SkEnvOk E) (hl : E.G.len = L) {D : DenseDist} (hD : DenseDistOk D)
    (hU : D.family = .Gaussian) {s : RNGState N K} (hN : (AnyDist.dense D).counters L ≤ N) {A : (K × ZMod N × ZMod L → W) → Int → Int → T}
    (hA : ∀ ω, Samples (withWords E ω).G E.sqrt3 D s (A ω)) (P : Nat → Nat → T → Prop) :
    Pr (fun ω => ∀ z ∈ range (AnyDist.dense D).numVecs.toNat ×ˢ range (AnyDist.dense D).vecLen.toNat, P z.1 z.2 (vecAt (.dense D) (A ω) z.1 z.2)) =
      ∏ z ∈ range (AnyDist.dense D).numVecs.toNat ×ˢ range (((AnyDist.dense D).vecLen.toNat + 1) / 2),
        Pr (fun w : W × W => P z.1 (2 * z.2) (E.G.boxmuller w.1 w.2).1 ∧
          (2 * z.2 + 1 < (AnyDist.dense D).vecLen.toNat → P z.1 (2 * z.2 + 1) (E.G.boxmuller w.1 w.2).2)) := by
  have hL0 := NeZero.pos L
  have hL : (0 : Int) < L := by omega
  have hev : (L : Int) % 2 = 0 := by rcases hE.gen with h | h <;> rw [hl] at h <;> omega
  have hdv : (2 : Int) ∣ L := Int.dvd_of_emod_eq_zero hev
  obtain ⟨hr, hc, -, hlay⟩ := denseDist_facts hD
  obtain ⟨e1, e2, e3⟩ := denseDist_dims hD
  have hcv : D.dimMinor * countersPerVector L D.dimMajor ≤ N := by rw [e1, e2]; exact hN
  rw [← e1, ← e2]
  have hmaj : 0 < D.dimMajor := by rcases hlay with ⟨-, b, -⟩ | ⟨-, b, -⟩ <;> omega
  let pt : Nat × Nat → Int → K × ZMod N × ZMod L := fun z b => (s.key, denseCtr L D s z.1 (2 * z.2), ((2 * z.2 % L + b : Int) : ZMod L))
  have hval : ∀ (q p : Nat) (ω : K × ZMod N × ZMod L → W), (q : Int) < D.dimMinor → (p : Int) < D.dimMajor → vecAt (.dense D) (A ω) q p =
      denseRaw (withWords E ω).G .Gaussian D.dimMajor s q p := by
    intro q p ω hq hp
    have hu := fun {i j} hij => samples_unique (i := i) (j := j) (show (withWords E ω).G.Ok from hE.gen) hD (hA ω) hij
    by_cases hv : (AnyDist.dense D).colVecs
    · have hn := e3.mpr hv
      rcases hlay with ⟨a, b, c⟩ | ⟨a, b, c⟩
      · simp only [vecAt, if_pos hv]
        rw [hu ⟨by omega, by omega, by omega, by omega⟩]
        unfold denseEntry
        simp only [hn, hU, famScale]
      · rw [a] at hn; cases hn
    · rcases hlay with ⟨a, b, c⟩ | ⟨a, b, c⟩
      · exact absurd (e3.mp a) hv
      · simp only [vecAt, if_neg hv]
        rw [hu ⟨by omega, by omega, by omega, by omega⟩]
        unfold denseEntry
        simp only [a, hU, famScale]
  have hfst : ∀ (q t : Nat) (ω : K × ZMod N × ZMod L → W), denseRaw (withWords E ω).G .Gaussian D.dimMajor s q (2 * t : Nat) =
      (E.G.boxmuller (ω (pt (q, t) 0)) (ω (pt (q, t) 1))).1 := by
    intro q t ω
    have h2 : (2 * (t : Int)) % L % 2 = 0 := by rw [Int.emod_emod_of_dvd _ hdv]; omega
    unfold denseRaw genValue
    simp only [withWords, hl, pt, denseCtr]
    rw [show ((2 * t : Nat) : Int) = 2 * (t : Int) by push_cast; ring, if_pos h2, show 2 * (2 * (t : Int) % L / 2) = 2 * (t : Int) % L by omega, add_zero]
  have hsnd : ∀ (q t : Nat) (ω : K × ZMod N × ZMod L → W), denseRaw (withWords E ω).G .Gaussian D.dimMajor s q (2 * t + 1 : Nat) =
      (E.G.boxmuller (ω (pt (q, t) 0)) (ω (pt (q, t) 1))).2 := by
    intro q t ω
    have h2 : (2 * (t : Int)) % L % 2 = 0 := by rw [Int.emod_emod_of_dvd _ hdv]; omega
    have h3 := Int.emod_lt_of_pos (2 * (t : Int)) hL
    have h3' := Int.emod_nonneg (2 * (t : Int)) hL.ne'
    have hd := Int.mul_ediv_add_emod (2 * (t : Int)) L
    obtain ⟨hdiv, hmod⟩ : (2 * (t : Int) + 1) / L = 2 * (t : Int) / L ∧ (2 * (t : Int) + 1) % L = 2 * (t : Int) % L + 1 := by
      rw [Int.ediv_emod_unique hL]
      exact ⟨by omega, by omega, by omega⟩
    unfold denseRaw genValue
    simp only [withWords, hl, pt, denseCtr]
    rw [show ((2 * t + 1 : Nat) : Int) = 2 * (t : Int) + 1 by push_cast; ring, hdiv, hmod, if_neg (by omega),
      show 2 * ((2 * (t : Int) % L + 1) / 2) = 2 * (t : Int) % L by omega, add_zero]
  have hev2 : ∀ ω, (∀ z ∈ range D.dimMinor.toNat ×ˢ range D.dimMajor.toNat, P z.1 z.2 (vecAt (.dense D) (A ω) z.1 z.2)) ↔
      ∀ z ∈ range D.dimMinor.toNat ×ˢ range ((D.dimMajor.toNat + 1) / 2), P z.1 (2 * z.2) (E.G.boxmuller (ω (pt z 0)) (ω (pt z 1))).1 ∧
        (2 * z.2 + 1 < D.dimMajor.toNat → P z.1 (2 * z.2 + 1) (E.G.boxmuller (ω (pt z 0)) (ω (pt z 1))).2) := by
    intro ω
    constructor
    · intro h z hz
      rw [mem_product, mem_range, mem_range] at hz
      constructor
      · have := h (z.1, 2 * z.2) (by rw [mem_product, mem_range, mem_range]; exact ⟨hz.1, by dsimp only; omega⟩)
        dsimp only at this
        rwa [hval _ _ _ (by omega) (by omega), hfst] at this
      · intro hlt
        have := h (z.1, 2 * z.2 + 1) (by rw [mem_product, mem_range, mem_range]; exact ⟨hz.1, by dsimp only; omega⟩)
        dsimp only at this
        rwa [hval _ _ _ (by omega) (by omega), hsnd] at this
    · intro h z hz
      rw [mem_product, mem_range, mem_range] at hz
      obtain ⟨g1, g2⟩ := h (z.1, z.2 / 2) (by rw [mem_product, mem_range, mem_range]; exact ⟨hz.1, by dsimp only; omega⟩)
      dsimp only at g1 g2
      rw [hval _ _ _ (by omega) (by omega)]
      rcases Nat.even_or_odd' z.2 with ⟨t, ht | ht⟩
      · rw [show z.2 / 2 = t by omega] at g1
        rw [ht, hfst]
        exact g1
      · rw [show z.2 / 2 = t by omega] at g2
        rw [ht, hsnd]
        exact g2 (by omega)
  rw [pr_congr hev2]
  have hpne : ∀ z : Nat × Nat, pt z 0 ≠ pt z 1 := by
    intro z h
    obtain ⟨-, h⟩ := Prod.mk.inj h
    obtain ⟨-, h⟩ := Prod.mk.inj h
    have h := Int.ModEq.dvd ((ZMod.intCast_eq_intCast_iff _ _ _).mp h)
    rw [show 2 * (z.2 : Int) % L + 1 - (2 * z.2 % L + 0) = 1 by ring] at h
    have := Int.le_of_dvd (by omega) h
    omega
  rw [pr_forall (range D.dimMinor.toNat ×ˢ range ((D.dimMajor.toNat + 1) / 2)) (S := fun z x => x = pt z 0 ∨ x = pt z 1)]
  · refine prod_congr rfl fun z _ => ?_
    exact pr_eval2 (hpne z) fun w w' => P z.1 (2 * z.2) (E.G.boxmuller w w').1 ∧ (2 * z.2 + 1 < D.dimMajor.toNat → P z.1 (2 * z.2 + 1) (E.G.boxmuller w w').2)
  · intro z hz ω ω' h
    beta_reduce
    rw [h (pt z 0) (Or.inl rfl), h (pt z 1) (Or.inr rfl)]
  · intro z hz z' hz' hne x hx hx'
    apply hne
    rw [mem_product, mem_range, mem_range] at hz hz'
    have h2 : ∃ b b' : Int, 0 ≤ b ∧ b < 2 ∧ 0 ≤ b' ∧ b' < 2 ∧ pt z b = pt z' b' := by
      rcases hx with hx | hx <;> rcases hx' with hx' | hx'
      · exact ⟨0, 0, by omega, by omega, by omega, by omega, hx.symm.trans hx'⟩
      · exact ⟨0, 1, by omega, by omega, by omega, by omega, hx.symm.trans hx'⟩
      · exact ⟨1, 0, by omega, by omega, by omega, by omega, hx.symm.trans hx'⟩
      · exact ⟨1, 1, by omega, by omega, by omega, by omega, hx.symm.trans hx'⟩
    obtain ⟨b, b', b0, b1, b0', b1', h2⟩ := h2
    obtain ⟨-, h2⟩ := Prod.mk.inj h2
    obtain ⟨h2, h3⟩ := Prod.mk.inj h2
    obtain ⟨hq, hp⟩ := denseCtr_inj hL0 hcv (by omega) (by omega) (by omega) (by omega) (by omega) (by omega) (by omega) (by omega) h2
    have m1 := Int.emod_lt_of_pos (2 * (z.2 : Int)) hL
    have m1' := Int.emod_nonneg (2 * (z.2 : Int)) hL.ne'
    have m2 := Int.emod_lt_of_pos (2 * (z'.2 : Int)) hL
    have m2' := Int.emod_nonneg (2 * (z'.2 : Int)) hL.ne'
    have k1 : (2 * (z.2 : Int)) % L % 2 = 0 := by rw [Int.emod_emod_of_dvd _ hdv]; omega
    have k2 : (2 * (z'.2 : Int)) % L % 2 = 0 := by rw [Int.emod_emod_of_dvd _ hdv]; omega
    have h3 := (ZMod.intCast_eq_intCast_iff _ _ _).mp h3
    unfold Int.ModEq at h3
    rw [Int.emod_eq_of_lt (a := 2 * (z.2 : Int) % L + b) (by omega) (by omega),
      Int.emod_eq_of_lt (a := 2 * (z'.2 : Int) % L + b') (by omega) (by omega)] at h3
    have t1 := Int.mul_ediv_add_emod (2 * (z.2 : Int)) L
    have t2 := Int.mul_ediv_add_emod (2 * (z'.2 : Int)) L
    rw [hp] at t1
    exact Prod.ext (by omega) (by omega)

end

/-! ## The hypotheses can be met -/

/-- Every operator can be sampled and has a next state. -/
theorem sampled_exists [Field R] [LinearOrder R] [FloorRing R] [Ring T] {E : SkEnv N K W W R T} (hE : SkEnvOk E) {d : AnyDist} (hd : d.Ok) (s : RNGState N K) :
    (∃ s', NextState E d s s') ∧ ∃ A : (K × ZMod N × ZMod L → W) → Int → Int → T, ∀ ω, Sampled (withWords E ω) d s (A ω) := by
  refine ⟨?_, ?_⟩
  · cases d with
    | dense D =>
      have h := denseNextState_eq (L := E.G.len) (seed := s) (by rcases hE.gen with h | h <;> rw [h] <;> decide) hd
      obtain ⟨S, hS⟩ : ∃ S : DenseSkOp N K T, mkDenseSkOp E.G.len D s = .ok S := by
        unfold mkDenseSkOp
        rw [h]
        exact ⟨_, rfl⟩
      exact ⟨_, S, hS, rfl⟩
    | sparse D => exact ⟨_, rfl⟩
  · suffices h : ∀ ω : K × ZMod N × ZMod L → W, ∃ A : Int → Int → T, Sampled (withWords E ω) d s A from ⟨fun ω => (h ω).choose, fun ω => (h ω).choose_spec⟩
    intro ω
    cases d with
    | dense D => exact ⟨_, samples_denseEntry (show (withWords E ω).G.Ok from hE.gen) hd⟩
    | sparse D => exact (C14_well_defined (show (withWords E ω).GS.Ok from hE.genS) hE.sqrt hd).exists

/-- An environment with 2^32 words and 8 keys. -/
noncomputable def wordEnv : SkEnv (2 ^ 128) (Fin 8) (Fin (4 * 2 ^ 30)) (Fin (4 * 2 ^ 30)) ℚ ℝ :=
  ⟨⟨fun lt l => l.mergeSort fun a b => !lt b a, [], 4⟩, { midGenR with word := fun _ _ _ => 0 }, Real.sqrt 3,
    { len := 4, word := fun _ _ _ => 0, boxmuller := fun _ _ => (0, 0), uneg11 := fun w => 2 * ((((w : Nat) : ℚ) + 1 / 2) / (2 ^ 32 : Nat)) - 1, nat := fun w => w },
    Real.sqrt, fun _ l => l⟩

/-- Five operators of all kinds, in two orientations. -/
def exDists : Nat → AnyDist
  | 0 => .dense exUnif
  | 1 => .sparse exSaso
  | 2 => .dense exGauss
  | 3 => .sparse exLaso
  | _ => .sparse exLasoTall

/-- The hypotheses are met by these five operators, drawn one after the other or with keys 0 to 4. -/
example : SkEnvOk wordEnv ∧ wordEnv.G.len = (4 : Nat) ∧ wordEnv.GS.len = (4 : Nat) ∧ (∀ j, (exDists j).Ok) ∧ DenseDistOk exUnif ∧ exUnif.family = .Uniform ∧
    DenseDistOk exGauss ∧ exGauss.family = .Gaussian ∧
    (∀ j, j < 5 → (exDists j).counters 4 ≤ (2 ^ 128 : Nat)) ∧ ∑ j ∈ range 5, (exDists j).counters 4 ≤ (2 ^ 128 : Nat) ∧
    (∃ s : Nat → RNGState (2 ^ 128) (Fin 8), ∀ j, NextState wordEnv (exDists j) (s j) (s (j + 1))) ∧
    (∀ i j, i < 5 → j < 5 → i ≠ j → (RNGState.mk 0 (Fin.ofNat 8 i) : RNGState (2 ^ 128) (Fin 8)).key ≠ (RNGState.mk 0 (Fin.ofNat 8 j) : RNGState (2 ^ 128) (Fin 8)).key) ∧
    (∀ j (s : RNGState (2 ^ 128) (Fin 8)), ∃ A : (Fin 8 × ZMod (2 ^ 128) × ZMod 4 → Fin (4 * 2 ^ 30)) → Int → Int → ℝ,
      ∀ ω, Sampled (withWords wordEnv ω) (exDists j) s (A ω)) := by
  have hE : SkEnvOk wordEnv := ⟨⟨mergeSort_sortOk, by norm_num [wordEnv]⟩, Or.inr rfl, Or.inr rfl, Real.sqrt_one, fun _ l => List.Perm.refl l⟩
  have hd : ∀ j, (exDists j).Ok := by
    intro j
    match j with
    | 0 => exact ⟨by decide, by decide⟩
    | 1 => exact exSaso_ok
    | 2 => exact ⟨by decide, by decide⟩
    | 3 => exact exLaso_ok
    | _ + 4 => exact ⟨by decide, by decide⟩
  refine ⟨hE, rfl, rfl, hd, ⟨by decide, by decide⟩, rfl, ⟨by decide, by decide⟩, rfl, by decide, by decide, ?_, ?_, fun j s => (sampled_exists hE (hd j) s).2⟩
  rotate_left
  · intro i j hi hj hne h
    have h := congrArg Fin.val h
    simp only [Fin.val_ofNat] at h
    omega
  refine ⟨fun j => Nat.rec (RNGState.mk 0 0) (fun j s => (sampled_exists (L := 4) hE (hd j) s).1.choose) j, fun j => ?_⟩
  exact (sampled_exists (L := 4) hE (hd j) _).1.choose_spec

end RB
