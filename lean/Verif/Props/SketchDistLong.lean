import Verif.Props.DistortionLong
import Verif.Props.SketchDist
import Verif.Props.SpmmExact

/-!
# C93: sketching with long-axis operators

What a user gets who calls `sketch_general` with a new long-axis operator. The call is undefined if all samples of all vectors are the first index; this
happens for a small fraction of the words. For all others, the result is the documented one and C92 applies.
-/

namespace RB
open Spec Finset
variable {N : Nat} {K W WS R : Type}

/-- The entries of a long-axis operator that has not been filled. -/
theorem laso_is [Field R] [LinearOrder R] [IsStrictOrderedRing R] [FloorRing R] {E : SkEnv N K W WS R ℝ} (hE : SkEnvOk E) (hsq : E.sqrt = Real.sqrt) {S : SparseSkOp N K ℝ}
    (hS : SparseOpOk S) (hnew : S.nnz < 0) (hax : S.dist.majorAxis = .Long)
    (hu : ∀ c t, 0 ≤ unif01 E.GS (advance S.seedState c) t ∧ unif01 E.GS (advance S.seedState c) t < 1) :
    ∃ L, SparseIs E S L ∧ (∃ L0, L = L0.map (mkEntry S.dist) ∧ SparseRun E.GS E.sqrt S.dist S.seedState L0) ∧ InRange S.nRows S.nCols L ∧ ∀ q, 0 ≤ q → q < min S.nRows S.nCols →
      Merged Real.sqrt S.dist.vecNnz (lasoSample E.GS S.seedState (max S.nRows S.nCols) S.dist.vecNnz q) (lasoSampleSign E.GS S.seedState S.dist.vecNnz q)
        ((L.filter fun e => shortIdx S.nRows S.nCols e = q).map fun e => (longIdx S.nRows S.nCols e, e.val)) := by
  obtain ⟨L, hSL, hrun⟩ := sparseIs_of_dist hE hS.dist hS.nRows hS.nCols hnew
  refine ⟨L, hSL, hrun, ?_⟩
  obtain ⟨-, h2⟩ := hSL
  rw [if_pos hnew] at h2
  obtain ⟨S', e, g1, -, -⟩ := h2
  have hok : SparseOpOk (mkSparseSkOp E.GS.len S.dist S.seedState : SparseSkOp N K ℝ) := mkSparseSkOp_ok E.GS.len hS.dist S.seedState
  rw [hsq] at e
  obtain ⟨_, S'', e', L', g1', -, -, hr, -, hv⟩ := C12_long_axis (order := E.order) hE.genS Real.sqrt_one (fun n => Real.mul_self_sqrt (Nat.cast_nonneg n)) hE.order hok
    hax hu
  rw [e] at e'
  have hSS : S' = S'' := (Prod.mk.inj e').2
  subst hSS
  obtain ⟨v, r, c, a1, a2, a3, a4, a5⟩ := g1
  obtain ⟨v', r', c', b1, b2, b3, b4, b5⟩ := g1'
  rw [a1] at b1; rw [a2] at b2; rw [a3] at b3
  cases b1; cases b2; cases b3
  have := cooHolds_unique a4 b4 (by omega)
  subst this
  have e1 : (mkSparseSkOp E.GS.len S.dist S.seedState : SparseSkOp N K ℝ).nRows = S.nRows := hS.nRows.symm
  have e2 : (mkSparseSkOp E.GS.len S.dist S.seedState : SparseSkOp N K ℝ).nCols = S.nCols := hS.nCols.symm
  rw [e1, e2] at hr hv
  refine ⟨hr, fun q h0 h1 => ?_⟩
  obtain ⟨Eq, rfl, -, -, -, hm⟩ := hv q h0 h1
  exact hm

/-- All samples of all vectors are the first index. -/
def AllFirst [Field R] [LinearOrder R] [FloorRing R] (G : Gen N K WS R) (S : SparseSkOp N K ℝ) : Prop :=
  ∀ q, 0 ≤ q → q < min S.nRows S.nCols → ∀ t, 0 ≤ t → t < S.dist.vecNnz → lasoSample G S.seedState (max S.nRows S.nCols) S.dist.vecNnz q t = 0

theorem laso_first [Field R] [LinearOrder R] [FloorRing R] {G : Gen N K WS R} {S : SparseSkOp N K ℝ} {L : List (Entry ℝ)} (hr : InRange S.nRows S.nCols L)
    (hm : ∀ q, 0 ≤ q → q < min S.nRows S.nCols →
      Merged Real.sqrt S.dist.vecNnz (lasoSample G S.seedState (max S.nRows S.nCols) S.dist.vecNnz q) (lasoSampleSign G S.seedState S.dist.vecNnz q)
        ((L.filter fun e => shortIdx S.nRows S.nCols e = q).map fun e => (longIdx S.nRows S.nCols e, e.val))) :
    AllFirst G S ↔ ∀ e ∈ L, longIdx S.nRows S.nCols e = 0 := by
  constructor
  · intro h e he
    obtain ⟨h1, h2, h3, h4⟩ := hr e he
    have hq : 0 ≤ shortIdx S.nRows S.nCols e ∧ shortIdx S.nRows S.nCols e < min S.nRows S.nCols := by
      unfold shortIdx; split_ifs <;> omega
    obtain ⟨t, t0, t1, t2, -⟩ := (hm _ hq.1 hq.2).value (longIdx S.nRows S.nCols e, e.val) (List.mem_map.mpr ⟨e, List.mem_filter.mpr ⟨he, by simp⟩, rfl⟩)
    rw [h _ hq.1 hq.2 t t0 t1] at t2
    exact t2.symm
  · intro h q h0 h1 t t0 t1
    have := (hm q h0 h1).all t t0 t1
    rw [List.map_map, List.mem_map] at this
    obtain ⟨e, he, h2⟩ := this
    rw [← h2]
    exact h e (List.mem_filter.mp he).1

/-- The fraction of the words for which all samples are the first index. -/
theorem pr_allFirst [NeZero N] [Field R] [LinearOrder R] [IsStrictOrderedRing R] [FloorRing R] [Fintype WS] [Nonempty WS] {L : Nat} [NeZero L]
    {G : Gen N K WS R} {S : SparseSkOp N K ℝ} (hG : G.Ok) (hL : G.len = L) (hS : SparseOpOk S) (hax : S.dist.majorAxis = .Long) (hN : S.dist.fullNnz ≤ N) :
    Pr (fun ω : ZMod N × ZMod L → WS => AllFirst (fromWords G ω) S) = indexProb G (max S.nRows S.nCols) 0 ^ S.dist.fullNnz.toNat := by
  classical
  obtain ⟨hR, hC, hk, hkd, hfull, hfit, hax'⟩ := sparseDist_facts hS.dist
  have hmin : S.dist.dimMinor = min S.dist.nRows S.dist.nCols := by
    rcases hax' with ⟨a, b, c⟩ | ⟨a, b, c⟩
    · rw [a] at hax; cases hax
    · exact c
  obtain ⟨k, hk'⟩ : ∃ k : Nat, S.dist.vecNnz = k := ⟨S.dist.vecNnz.toNat, by omega⟩
  obtain ⟨d, hd⟩ : ∃ d : Nat, min S.nRows S.nCols = d := ⟨(min S.nRows S.nCols).toNat, by rw [hS.nRows, hS.nCols]; omega⟩
  obtain ⟨n, hn⟩ : ∃ n : Nat, max S.nRows S.nCols = n := ⟨(max S.nRows S.nCols).toNat, by rw [hS.nRows, hS.nCols]; omega⟩
  have hL2 : 2 ≤ L := by rcases hG with h | h <;> omega
  have hf : S.dist.fullNnz = (k * d : Nat) := by
    rw [hfull, hmin, ← hS.nRows, ← hS.nCols, hd, hk']; push_cast; rfl
  rw [hf] at hN
  have hN' : k * d ≤ N := by exact_mod_cast hN
  have h1 : ∀ ω : ZMod N × ZMod L → WS, AllFirst (fromWords G ω) S ↔
      ∀ z ∈ range d ×ˢ range k, ⌊((n : Int) : R) * ((G.uneg11 (ω (lasoPos S.seedState k z.1 (2 * (z.2 : Int)))) + 1) / 2)⌋ = 0 := by
    intro ω
    unfold AllFirst
    rw [hd, hn, hk']
    simp only [mem_product, mem_range]
    constructor
    · intro h z hz
      have := h z.1 (by omega) (by omega) z.2 (by omega) (by omega)
      rwa [lasoSample_pos hL] at this
    · intro h q h0 h1 t t0 t1
      have := h (q.toNat, t.toNat) ⟨by dsimp only; omega, by dsimp only; omega⟩
      dsimp only at this
      have e := lasoSample_pos (seed := S.seedState) hL ω n k q.toNat
      rw [Int.toNat_of_nonneg h0] at e
      rw [e]
      rw [Int.toNat_of_nonneg t0] at this
      exact this
  rw [pr_congr h1, pr_forall (range d ×ˢ range k) (S := fun z a => a = lasoPos S.seedState k z.1 (2 * (z.2 : Int)))
    (p := fun z ω => ⌊((n : Int) : R) * ((G.uneg11 (ω (lasoPos S.seedState k z.1 (2 * (z.2 : Int)))) + 1) / 2)⌋ = 0)]
  · have h2 : ∀ z ∈ range d ×ˢ range k, Pr (fun ω : ZMod N × ZMod L → WS =>
        ⌊((n : Int) : R) * ((G.uneg11 (ω (lasoPos S.seedState k z.1 (2 * (z.2 : Int)))) + 1) / 2)⌋ = 0) = indexProb G n 0 := by
      intro z _
      rw [pr_eval (lasoPos S.seedState k z.1 (2 * (z.2 : Int))) fun w => ⌊((n : Int) : R) * ((G.uneg11 w + 1) / 2)⌋ = 0, pr_eq]
      unfold indexProb
      congr!
    rw [prod_congr rfl h2, prod_const, card_product, card_range, card_range, mul_comm, hf, Int.toNat_natCast, hn]
  · intro z _ ω ω' h
    beta_reduce
    rw [h _ rfl]
  · rintro ⟨q, t⟩ hz ⟨q', t'⟩ hz' hne a ha ha'
    rw [mem_product, mem_range, mem_range] at hz hz'
    obtain ⟨e1, e2⟩ := lasoPos_inj hL2 hN' hz.1 hz'.1 (by dsimp only at *; omega) (by dsimp only at *; omega) (by dsimp only at *; omega) (by dsimp only at *; omega) (ha.symm.trans ha')
    exact hne (by dsimp only at *; rw [e1, show t = t' by omega])

/-- Whole operators: the condition of the COO kernel. -/
theorem laso_cooOk {S : SparseSkOp N K ℝ} {L : List (Entry ℝ)} (hne : L ≠ []) (hr : InRange S.nRows S.nCols L) {op : Op} {d m : Int} (hm2 : 2 ≤ m)
    (hop : op = .NoTrans ∧ S.nRows ≤ S.nCols ∧ d = S.nRows ∧ m = S.nCols ∨ op = .Trans ∧ S.nCols < S.nRows ∧ d = S.nCols ∧ m = S.nRows) :
    CooOk L.length m (opEntries op (window 0 0 (rowsOf op d m) (colsOf op d m) L)) ↔ ¬ ∀ e ∈ L, longIdx S.nRows S.nCols e = 0 := by
  have hlen : 0 < L.length := List.length_pos_of_ne_nil hne
  have hbig : ¬ m * L.length ≤ L.length := by nlinarith
  rcases hop with ⟨rfl, hdim, rfl, rfl⟩ | ⟨rfl, hdim, rfl, rfl⟩
  · simp only [rowsOf, colsOf, opEntries]
    rw [window_whole hr]
    unfold CooOk RegularOk longIdx
    simp only [if_pos hdim]
    push Not
    constructor
    · rintro (h | h | h)
      · exact h.2 hm2 hne
      · omega
      · exact absurd h.2.1 hbig
    · exact fun h => Or.inl ⟨by omega, fun _ _ => h⟩
  · simp only [rowsOf, colsOf, opEntries]
    rw [window_whole hr]
    unfold CooOk RegularOk longIdx
    simp only [if_neg (not_le.mpr hdim)]
    push Not
    constructor
    · rintro (h | h | h)
      · obtain ⟨e, he, h2⟩ := h.2 hm2 (by simpa using hne)
        obtain ⟨e', he', rfl⟩ := List.mem_map.mp he
        exact ⟨e', he', h2⟩
      · omega
      · exact absurd (by simpa using h.2.1) hbig
    · rintro ⟨e, he, h2⟩
      exact Or.inl ⟨by omega, fun _ _ => ⟨e.swap, List.mem_map_of_mem he, h2⟩⟩

/-- The matrix of the entries. -/
theorem laso_mat [Field R] [LinearOrder R] [FloorRing R] {G : Gen N K WS R} {S : SparseSkOp N K ℝ} {L : List (Entry ℝ)}
    (hm : ∀ q, 0 ≤ q → q < min S.nRows S.nCols →
      Merged Real.sqrt S.dist.vecNnz (lasoSample G S.seedState (max S.nRows S.nCols) S.dist.vecNnz q) (lasoSampleSign G S.seedState S.dist.vecNnz q)
        ((L.filter fun e => shortIdx S.nRows S.nCols e = q).map fun e => (longIdx S.nRows S.nCols e, e.val))) {q : Int} (h0 : 0 ≤ q) (h1 : q < min S.nRows S.nCols) (l : Int) :
    (if S.nRows ≤ S.nCols then toMat L q l else toMat L l q) =
      Real.sqrt (occurrences (lasoSample G S.seedState (max S.nRows S.nCols) S.dist.vecNnz q) S.dist.vecNnz l) *
        lasoSampleSign G S.seedState S.dist.vecNnz q (firstOcc (lasoSample G S.seedState (max S.nRows S.nCols) S.dist.vecNnz q) l) := by
  rw [← merged_value (hm q h0 h1) l, List.filter_map, List.map_map, List.filter_filter]
  unfold toMat shortIdx longIdx
  split_ifs with hdim <;> simp only [Function.comp_def, Bool.decide_and, Bool.and_comm]

/-- Everything about one choice of the words. -/
theorem laso_choice [Field R] [LinearOrder R] [IsStrictOrderedRing R] [FloorRing R] {L : Nat} {E : SkEnv N K W WS R ℝ} (hE : SkEnvOk E) (hsq : E.sqrt = Real.sqrt)
    (hu : ∀ w, -1 ≤ E.GS.uneg11 w ∧ E.GS.uneg11 w < 1) {S : SparseSkOp N K ℝ}
    (hS : SparseOpOk S) (hnew : S.nnz < 0) (hax : S.dist.majorAxis = .Long) (ω : ZMod N × ZMod L → WS) {Sm : Int → Int → ℝ}
    (hSm : SparseSamples (fromWords E.GS ω) E.sqrt S.dist S.seedState Sm) :
    SkEnvOk { E with GS := fromWords E.GS ω } ∧ ∃ Ls, SparseIs { E with GS := fromWords E.GS ω } S Ls ∧ InRange S.nRows S.nCols Ls ∧ toMat Ls = Sm ∧
      (AllFirst (fromWords E.GS ω) S ↔ ∀ e ∈ Ls, longIdx S.nRows S.nCols e = 0) ∧
      ∀ q, 0 ≤ q → q < min S.nRows S.nCols → ∀ l, (if S.nRows ≤ S.nCols then Sm q l else Sm l q) =
        Real.sqrt (occurrences (lasoSample (fromWords E.GS ω) S.seedState (max S.nRows S.nCols) S.dist.vecNnz q) S.dist.vecNnz l) *
          lasoSampleSign (fromWords E.GS ω) S.seedState S.dist.vecNnz q
            (firstOcc (lasoSample (fromWords E.GS ω) S.seedState (max S.nRows S.nCols) S.dist.vecNnz q) l) := by
  have hE' : SkEnvOk { E with GS := fromWords E.GS ω } := ⟨hE.env, hE.gen, hE.genS, hE.sqrt, hE.order⟩
  obtain ⟨Ls, h1, ⟨L0, rfl, hrun⟩, h3, h4⟩ := laso_is hE' hsq hS hnew hax (fun c t => unif_fromWords hu ω _ t)
  obtain ⟨L1, g1, g2⟩ := sparseSamples_run (G := fromWords E.GS ω) hE.genS hE.sqrt hS.dist hSm
  have hmat : toMat (L0.map (mkEntry S.dist)) = Sm := by
    funext i j
    rw [toMat_perm ((sparseRun_perm hrun g1).map _) i j]
    exact g2 i j
  refine ⟨hE', _, h1, h3, hmat, laso_first h3 h4, fun q h0 h1 l => ?_⟩
  rw [← hmat]
  exact laso_mat h4 h0 h1 l

/-- C93 (left). `sketch_general` with a new long-axis operator that is applied as it is (if it is wide) or transposed (if it is tall): for every choice of the words, the call is undefined or sets B
to `alpha * (op(S) * op(A)) + beta * B`, where `S` is the matrix that the distribution and the seed determine. It is undefined for exactly the fraction `p_0^(k d)` of the choices of the words, where `p_0`
is the fraction of the words that are mapped to the first index. -/
theorem C93_left_long_axis [NeZero N] [Field R] [LinearOrder R] [IsStrictOrderedRing R] [FloorRing R] [Fintype WS] [Nonempty WS] {L : Nat} [NeZero L] {E : SkEnv N K W WS R ℝ}
    (hE : SkEnvOk E) (hsq : E.sqrt = Real.sqrt) (hL : E.GS.len = L) (hu : ∀ w, -1 ≤ E.GS.uneg11 w ∧ E.GS.uneg11 w < 1) {S : SparseSkOp N K ℝ} (hS : SparseOpOk S)
    (hnew : S.nnz < 0) (hax : S.dist.majorAxis = .Long) (hN : S.dist.fullNnz ≤ N) {Sm : (ZMod N × ZMod L → WS) → Int → Int → ℝ}
    (hSm : ∀ ω, SparseSamples (fromWords E.GS ω) E.sqrt S.dist S.seedState (Sm ω)) {layout : Layout} {opS opA : Op} {d m n : Int}
    (hop : opS = .NoTrans ∧ S.nRows ≤ S.nCols ∧ d = S.nRows ∧ m = S.nCols ∨ opS = .Trans ∧ S.nCols < S.nRows ∧ d = S.nCols ∧ m = S.nRows) (hm2 : 2 ≤ m)
    {alpha beta : ℝ} (hal0 : alpha ≠ 0) {A b : Buf ℝ} {lda ldb : Int} {Am C : Int → Int → ℝ} (hn : 1 ≤ n) (hlda : LdOk layout lda (rowsOf opA m n) (colsOf opA m n))
    (hldb : LdOk layout ldb d n) (hA : Holds A layout lda (rowsOf opA m n) (colsOf opA m n) Am) (hal : Alloc b layout ldb d n)
    (hC : beta ≠ 0 → Holds b layout ldb d n C) :
    (∀ ω, (sketchGeneralL { E with GS := fromWords E.GS ω } layout opS opA d n m alpha 0 0 A lda beta ldb (.sparse S, b)).1 = .ub ∨
      M.wp (sketchGeneralL { E with GS := fromWords E.GS ω } layout opS opA d n m alpha 0 0 A lda beta ldb) (.sparse S, b) (fun _ s' =>
        Holds s'.2 layout ldb d n (fun i j => alpha * prodEntry m (opMat opS (Sm ω)) (opMat opA Am) i j + beta * C i j) ∧ SameOutside b s'.2 layout ldb d n)) ∧
    Pr (fun ω : ZMod N × ZMod L → WS => (sketchGeneralL { E with GS := fromWords E.GS ω } layout opS opA d n m alpha 0 0 A lda beta ldb (.sparse S, b)).1 = .ub) =
      indexProb E.GS m 0 ^ S.dist.fullNnz.toNat := by
  have hin : InOp S.nRows S.nCols (rowsOf opS d m) (colsOf opS d m) 0 0 := by
    rcases hop with ⟨rfl, a, rfl, rfl⟩ | ⟨rfl, a, rfl, rfl⟩ <;> refine ⟨le_rfl, le_rfl, ?_, ?_⟩ <;> simp [rowsOf, colsOf]
  have hd0 : 0 ≤ d := by
    obtain ⟨h1, h2, -⟩ := sparseDist_facts hS.dist
    rw [← hS.nRows] at h1; rw [← hS.nCols] at h2
    rcases hop with ⟨-, -, a, -⟩ | ⟨-, -, a, -⟩ <;> omega
  have hmax : max S.nRows S.nCols = m := by rcases hop with ⟨-, a, -, b⟩ | ⟨-, a, -, b⟩ <;> omega
  have hyes : ∀ ω : ZMod N × ZMod L → WS, AllFirst (fromWords E.GS ω) S →
      (sketchGeneralL { E with GS := fromWords E.GS ω } layout opS opA d n m alpha 0 0 A lda beta ldb (.sparse S, b)).1 = .ub := by
    intro ω h
    obtain ⟨hE', Ls, h1, h2, h3, h4, -⟩ := laso_choice hE hsq hu hS hnew hax ω (hSm ω)
    exact C37_left_sparse_undefined hE' h1 hin hal0 (fun hc => (laso_cooOk h1.1 h2 hm2 hop).mp hc (h4.mp h)) hd0 hn (by omega) hlda hldb hal hC
  have hno : ∀ ω : ZMod N × ZMod L → WS, ¬ AllFirst (fromWords E.GS ω) S →
      M.wp (sketchGeneralL { E with GS := fromWords E.GS ω } layout opS opA d n m alpha 0 0 A lda beta ldb) (.sparse S, b) (fun _ s' =>
        Holds s'.2 layout ldb d n (fun i j => alpha * prodEntry m (opMat opS (Sm ω)) (opMat opA Am) i j + beta * C i j) ∧ SameOutside b s'.2 layout ldb d n) := by
    intro ω h
    obtain ⟨hE', Ls, h1, h2, h3, h4, -⟩ := laso_choice hE hsq hu hS hnew hax ω (hSm ω)
    refine M.wp_mono (C37_left_sparse_partial hE' h1 h2 (opS := opS) (opA := opA) hin (fun _ => (laso_cooOk h1.1 h2 hm2 hop).mpr (mt h4.mpr h)) hd0 (by omega) (by omega) hlda hldb
      (fun _ => hA) hal hC) ?_
    rintro _ s' ⟨g1, g2, -⟩
    rw [subMat_zero, h3] at g1
    exact ⟨g1, g2⟩
  refine ⟨fun ω => ?_, ?_⟩
  · by_cases h : AllFirst (fromWords E.GS ω) S
    · exact Or.inl (hyes ω h)
    · exact Or.inr (hno ω h)
  · have hp := pr_allFirst hE.genS hL hS hax hN
    rw [hmax] at hp
    rw [← hp]
    refine pr_congr fun ω => ⟨fun h => ?_, hyes ω⟩
    by_contra hc
    obtain ⟨a, s', e, -⟩ := hno ω hc
    rw [e] at h
    cases h

theorem pr_or_le {Ω : Type} [Fintype Ω] {p q r : Ω → Prop} (h : ∀ ω, p ω → q ω ∨ r ω) : Pr p ≤ Pr q + Pr r := by
  classical
  rw [pr_eq, pr_eq, pr_eq, ← add_div]
  refine div_le_div_of_nonneg_right ?_ (Nat.cast_nonneg _)
  have : (univ.filter p).card ≤ (univ.filter q).card + (univ.filter r).card := by
    refine (card_le_card fun ω hω => ?_).trans (card_union_le _ _)
    rw [mem_union, mem_filter, mem_filter]
    rcases h ω (mem_filter.mp hω).2 with h | h
    · exact Or.inl ⟨mem_univ _, h⟩
    · exact Or.inr ⟨mem_univ _, h⟩
  exact_mod_cast this

theorem laso_fraction [NeZero N] [Field R] [LinearOrder R] [IsStrictOrderedRing R] [FloorRing R] [Fintype WS] [Nonempty WS] {L : Nat} [NeZero L] {G : Gen N K WS R} {s : RNGState N K}
    (hu : ∀ w, -1 ≤ G.uneg11 w ∧ G.uneg11 w < 1) (hL : G.len = L) (hL2 : 2 ≤ L) {k d m : Nat} (hk : 0 < k) (hd : 0 < d) (hm : 0 < m) (hN : 2 * (k * d) ≤ N)
    {τ : WS → WS} (hτ : Function.Involutive τ) (hsign : ∀ w, 0 ≤ G.uneg11 (τ w) ↔ ¬ 0 ≤ G.uneg11 w) {Mw : Nat} (e : WS ≃ Fin Mw)
    (hmid : ∀ w, (G.uneg11 w + 1) / 2 = (((e w : Nat) : R) + 1 / 2) / Mw) {sc : ℝ} (hsc : sc * sc = (m : ℝ) / (k * d)) {x : Int → ℝ} {ρ ε : ℝ} (hρ0 : 0 ≤ ρ)
    (hρ : ∑ l ∈ range m, x l ^ 4 ≤ ρ * (∑ l ∈ range m, x l ^ 2) ^ 2) (hε : 0 < ε) :
    Pr (fun ω : ZMod N × ZMod L → WS => ε * ∑ l ∈ range m, x l ^ 2 <
        |∑ q ∈ range d, (sc * ∑ l ∈ range m, (Real.sqrt (occurrences (lasoSample (fromWords G ω) s m k q) k l) *
      lasoSampleSign (fromWords G ω) s k q (firstOcc (lasoSample (fromWords G ω) s m k q) l)) * x l) ^ 2 - ∑ l ∈ range m, x l ^ 2|) ≤
    ((2 * (1 + (m : ℝ) / Mw) ^ 2 + (1 + (m : ℝ) / Mw) * (m * ρ / k)) / d + ((m : ℝ) / Mw) ^ 2) / ε ^ 2 := by
  classical
  have hM : 0 < Mw := by obtain ⟨w⟩ := ‹Nonempty WS›; exact (e w).pos
  have hp : ∀ l < m, |indexProb G m l - 1 / (m : ℝ)| ≤ 1 / Mw := by
    intro l hl
    have := C60_index_probability (G := G) e hmid hM m l (by omega) (by omega)
    rwa [Int.cast_natCast] at this
  have hkd : k ≤ k * d := Nat.le_mul_of_pos_right k hd
  have h1 := laso_total (seed := s) hL hk hd hm (by omega) hτ hsign x sc hsc
  have h2 := laso_second (seed := s) hL hL2 hk hd hm (by omega) hτ hsign x sc hsc
  have h3 := (deviation _ h1 h2).trans (laso_deviation hm hd hk hp (fun l => x l) hρ)
  have hfr := fraction_le _ (sum_nonneg fun j _ => sq_nonneg _) (by positivity) hε h3
  rw [← pr_eq] at hfr
  exact hfr

/-- The bound of C92 for the matrix that the distribution and the seed determine. -/
theorem laso_preserve [NeZero N] [Field R] [LinearOrder R] [IsStrictOrderedRing R] [FloorRing R] [Fintype WS] [Nonempty WS] {L : Nat} [NeZero L] {E : SkEnv N K W WS R ℝ}
    (hE : SkEnvOk E) (hsq : E.sqrt = Real.sqrt) (hL : E.GS.len = L) (hu : ∀ w, -1 ≤ E.GS.uneg11 w ∧ E.GS.uneg11 w < 1) {τ : WS → WS} (hτ : Function.Involutive τ)
    (hsign : ∀ w, 0 ≤ E.GS.uneg11 (τ w) ↔ ¬ 0 ≤ E.GS.uneg11 w) {Mw : Nat} (e : WS ≃ Fin Mw) (hmid : ∀ w, (E.GS.uneg11 w + 1) / 2 = (((e w : Nat) : R) + 1 / 2) / Mw)
    {S : SparseSkOp N K ℝ} (hS : SparseOpOk S) (hnew : S.nnz < 0) (hax : S.dist.majorAxis = .Long) (hN : 2 * S.dist.fullNnz ≤ N) {Sm : (ZMod N × ZMod L → WS) → Int → Int → ℝ}
    (hSm : ∀ ω, SparseSamples (fromWords E.GS ω) E.sqrt S.dist S.seedState (Sm ω)) {opS : Op} {d m : Int}
    (hop : opS = .NoTrans ∧ S.nRows ≤ S.nCols ∧ d = S.nRows ∧ m = S.nCols ∨ opS = .Trans ∧ S.nCols < S.nRows ∧ d = S.nCols ∧ m = S.nRows)
    {x : Int → Int → ℝ} {j : Int} {ρ ε : ℝ} (hρ0 : 0 ≤ ρ) (hρ : ∑ l ∈ range m.toNat, x l j ^ 4 ≤ ρ * (∑ l ∈ range m.toNat, x l j ^ 2) ^ 2) (hε : 0 < ε) :
    S.dist.isometryScale ≠ (0 : ℝ) ∧
    Pr (fun ω : ZMod N × ZMod L → WS => ε * ∑ l ∈ range m.toNat, x l j ^ 2 <
        |∑ i ∈ range d.toNat, (S.dist.isometryScale * prodEntry m (opMat opS (Sm ω)) x i j) ^ 2 - ∑ l ∈ range m.toNat, x l j ^ 2|) ≤
    ((2 * (1 + (m : ℝ) / Mw) ^ 2 + (1 + (m : ℝ) / Mw) * (m * ρ / S.dist.vecNnz)) / d + ((m : ℝ) / Mw) ^ 2) / ε ^ 2 := by
  classical
  obtain ⟨k, d', m', -, hk, hd, hm, ek, ef, ed, em, hsc, -⟩ := laso_fill (L := L) (G := E.GS) (order := E.order) (S := S) hE.genS hu hE.order hS hax
  have hL2 : 2 ≤ L := by have := hE.genS; rcases this with h | h <;> omega
  have hM : 0 < Mw := by obtain ⟨w⟩ := ‹Nonempty WS›; exact (e w).pos
  have hk' : (0 : ℝ) < k := by exact_mod_cast hk
  have hd' : (0 : ℝ) < d' := by exact_mod_cast hd
  have hm' : (0 : ℝ) < m' := by exact_mod_cast hm
  have hsc0 : S.dist.isometryScale ≠ (0 : ℝ) := by
    intro h0
    rw [h0] at hsc
    have : (0 : ℝ) < (m' : ℝ) / (k * d') := by positivity
    linarith
  refine ⟨hsc0, ?_⟩
  rw [ef] at hN
  have hN' : 2 * (k * d') ≤ N := by exact_mod_cast hN
  have hdm : d = d' ∧ m = m' := by rcases hop with ⟨-, a, b, c⟩ | ⟨-, a, b, c⟩ <;> omega
  have hent : ∀ (ω : ZMod N × ZMod L → WS), ∀ q < d', ∀ l : Nat, opMat opS (Sm ω) q l = Real.sqrt (occurrences (lasoSample (fromWords E.GS ω) S.seedState m' k q) k l) *
      lasoSampleSign (fromWords E.GS ω) S.seedState k q (firstOcc (lasoSample (fromWords E.GS ω) S.seedState m' k q) l) := by
    intro ω q hq l
    obtain ⟨-, -, -, -, -, -, h⟩ := laso_choice hE hsq hu hS hnew hax ω (hSm ω)
    have := h q (by omega) (by omega) l
    rw [ek, em] at this
    rw [← this]
    rcases hop with ⟨rfl, a, -⟩ | ⟨rfl, a, -⟩
    · rw [if_pos a]; rfl
    · rw [if_neg (not_le.mpr a)]; rfl
  obtain ⟨rfl, rfl⟩ := hdm
  rw [ek, Int.cast_natCast, Int.cast_natCast, Int.cast_natCast]
  rw [Int.toNat_natCast] at hρ ⊢
  refine le_trans (le_of_eq (pr_congr fun ω => ?_)) (laso_fraction (s := S.seedState) hu hL hL2 hk hd hm hN' hτ hsign e hmid hsc (x := fun l => x l j) hρ0 hρ hε)
  have : ∑ i ∈ range d', (S.dist.isometryScale * prodEntry m' (opMat opS (Sm ω)) x i j) ^ 2 =
      ∑ q ∈ range d', (S.dist.isometryScale * ∑ l ∈ range m', (Real.sqrt (occurrences (lasoSample (fromWords E.GS ω) S.seedState m' k q) k l) *
      lasoSampleSign (fromWords E.GS ω) S.seedState k q (firstOcc (lasoSample (fromWords E.GS ω) S.seedState m' k q) l)) * x l j) ^ 2 := by
    refine sum_congr rfl fun q hq => ?_
    rw [prodEntry_nat]
    congr 2
    exact sum_congr rfl fun l _ => by rw [hent ω q (mem_range.mp hq) l]
  rw [Int.toNat_natCast, this]

/-- C93 (distortion). With `alpha = isometry_scale` and `beta = 0`: the call returns and preserves the squared norm of column `j` of `op(A)` up to the factor `ε`, except for a fraction of the words of at most
the bound of C92 plus `p_0^(k d)`. -/
theorem C93_left_distortion [NeZero N] [Field R] [LinearOrder R] [IsStrictOrderedRing R] [FloorRing R] [Fintype WS] [Nonempty WS] {L : Nat} [NeZero L] {E : SkEnv N K W WS R ℝ}
    (hE : SkEnvOk E) (hsq : E.sqrt = Real.sqrt) (hL : E.GS.len = L) (hu : ∀ w, -1 ≤ E.GS.uneg11 w ∧ E.GS.uneg11 w < 1) {τ : WS → WS} (hτ : Function.Involutive τ)
    (hsign : ∀ w, 0 ≤ E.GS.uneg11 (τ w) ↔ ¬ 0 ≤ E.GS.uneg11 w) {Mw : Nat} (e : WS ≃ Fin Mw) (hmid : ∀ w, (E.GS.uneg11 w + 1) / 2 = (((e w : Nat) : R) + 1 / 2) / Mw)
    {S : SparseSkOp N K ℝ} (hS : SparseOpOk S) (hnew : S.nnz < 0) (hax : S.dist.majorAxis = .Long) (hN : 2 * S.dist.fullNnz ≤ N) {layout : Layout} {opS opA : Op} {d m n : Int}
    (hop : opS = .NoTrans ∧ S.nRows ≤ S.nCols ∧ d = S.nRows ∧ m = S.nCols ∨ opS = .Trans ∧ S.nCols < S.nRows ∧ d = S.nCols ∧ m = S.nRows) (hm2 : 2 ≤ m)
    {A b : Buf ℝ} {lda ldb : Int} {Am : Int → Int → ℝ} (hn : 1 ≤ n) (hlda : LdOk layout lda (rowsOf opA m n) (colsOf opA m n))
    (hldb : LdOk layout ldb d n) (hA : Holds A layout lda (rowsOf opA m n) (colsOf opA m n) Am) (hal : Alloc b layout ldb d n) {j : Int} {ρ ε : ℝ} (hρ0 : 0 ≤ ρ)
    (hρ : ∑ l ∈ range m.toNat, opMat opA Am l j ^ 4 ≤ ρ * (∑ l ∈ range m.toNat, opMat opA Am l j ^ 2) ^ 2) (hε : 0 < ε) :
    Pr (fun ω : ZMod N × ZMod L → WS => ¬ M.wp (sketchGeneralL { E with GS := fromWords E.GS ω } layout opS opA d n m S.dist.isometryScale 0 0 A lda 0 ldb) (.sparse S, b)
      (fun _ s' => ∃ B, Holds s'.2 layout ldb d n B ∧
        |∑ i ∈ range d.toNat, B i j ^ 2 - ∑ l ∈ range m.toNat, opMat opA Am l j ^ 2| ≤ ε * ∑ l ∈ range m.toNat, opMat opA Am l j ^ 2)) ≤
    ((2 * (1 + (m : ℝ) / Mw) ^ 2 + (1 + (m : ℝ) / Mw) * (m * ρ / S.dist.vecNnz)) / d + ((m : ℝ) / Mw) ^ 2) / ε ^ 2 + indexProb E.GS m 0 ^ S.dist.fullNnz.toNat := by
  have hex : ∀ ω : ZMod N × ZMod L → WS, ∃ Sm, SparseSamples (fromWords E.GS ω) E.sqrt S.dist S.seedState Sm := fun ω => (C14_well_defined (G := fromWords E.GS ω) hE.genS hE.sqrt hS.dist).exists
  choose Sm hSm using hex
  obtain ⟨hsc0, hfr⟩ := laso_preserve hE hsq hL hu hτ hsign e hmid hS hnew hax hN hSm hop hρ0 hρ hε
  have hf0 : 0 ≤ S.dist.fullNnz := by
    obtain ⟨k, d', -, -, -, -, -, -, ef, -⟩ := laso_fill (L := L) (G := E.GS) (order := E.order) (S := S) hE.genS hu hE.order hS hax
    rw [ef]; positivity
  obtain ⟨hor, hpr⟩ := C93_left_long_axis hE hsq hL hu hS hnew hax (by omega) hSm hop hm2 hsc0 (beta := 0) (C := fun _ _ => 0) hn hlda hldb hA hal (fun h => absurd rfl h)
  rw [← hpr]
  refine (pr_or_le fun ω hω => ?_).trans (add_le_add hfr le_rfl)
  by_contra hc
  push Not at hc
  refine hω ?_
  rcases hor ω with h | h
  · exact absurd h hc.2
  refine M.wp_mono h ?_
  rintro _ s' ⟨h1, -⟩
  refine ⟨_, h1, ?_⟩
  simp only [zero_mul, add_zero]
  exact hc.1

/-- C93 (right, beta = 0). The same for `op(A) * op(S)`, where the operator is transposed if it is wide and applied as it is if it is tall. -/
theorem C93_right_long_axis [NeZero N] [Field R] [LinearOrder R] [IsStrictOrderedRing R] [FloorRing R] [Fintype WS] [Nonempty WS] {L : Nat} [NeZero L] {E : SkEnv N K W WS R ℝ}
    (hE : SkEnvOk E) (hsq : E.sqrt = Real.sqrt) (hL : E.GS.len = L) (hu : ∀ w, -1 ≤ E.GS.uneg11 w ∧ E.GS.uneg11 w < 1) {S : SparseSkOp N K ℝ} (hS : SparseOpOk S)
    (hnew : S.nnz < 0) (hax : S.dist.majorAxis = .Long) (hN : S.dist.fullNnz ≤ N) {Sm : (ZMod N × ZMod L → WS) → Int → Int → ℝ}
    (hSm : ∀ ω, SparseSamples (fromWords E.GS ω) E.sqrt S.dist S.seedState (Sm ω)) {layout : Layout} {opA opS : Op} {m d n : Int}
    (hop : opS = .Trans ∧ S.nRows ≤ S.nCols ∧ d = S.nRows ∧ n = S.nCols ∨ opS = .NoTrans ∧ S.nCols < S.nRows ∧ d = S.nCols ∧ n = S.nRows) (hn2 : 2 ≤ n)
    {alpha : ℝ} (hal0 : alpha ≠ 0) {A b : Buf ℝ} {lda ldb : Int} {Am : Int → Int → ℝ} (hm : 1 ≤ m) (hlda : LdOk layout lda (rowsOf opA m n) (colsOf opA m n))
    (hldb : LdOk layout ldb m d) (hA : Holds A layout lda (rowsOf opA m n) (colsOf opA m n) Am) (hal : Alloc b layout ldb m d) :
    (∀ ω, (sketchGeneralR { E with GS := fromWords E.GS ω } layout opA opS m d n alpha A lda 0 0 0 ldb (.sparse S, b)).1 = .ub ∨
      M.wp (sketchGeneralR { E with GS := fromWords E.GS ω } layout opA opS m d n alpha A lda 0 0 0 ldb) (.sparse S, b) (fun _ s' =>
        Holds s'.2 layout ldb m d (fun i j => alpha * prodEntry n (opMat opA Am) (opMat opS (Sm ω)) i j) ∧ SameOutside b s'.2 layout ldb m d)) ∧
    Pr (fun ω : ZMod N × ZMod L → WS => (sketchGeneralR { E with GS := fromWords E.GS ω } layout opA opS m d n alpha A lda 0 0 0 ldb (.sparse S, b)).1 = .ub) =
      indexProb E.GS n 0 ^ S.dist.fullNnz.toNat := by
  have hin : InOp S.nRows S.nCols (rowsOf opS n d) (colsOf opS n d) 0 0 := by
    rcases hop with ⟨rfl, a, rfl, rfl⟩ | ⟨rfl, a, rfl, rfl⟩ <;> refine ⟨le_rfl, le_rfl, ?_, ?_⟩ <;> simp [rowsOf, colsOf]
  have hd0 : 0 ≤ d := by
    obtain ⟨h1, h2, -⟩ := sparseDist_facts hS.dist
    rw [← hS.nRows] at h1; rw [← hS.nCols] at h2
    rcases hop with ⟨-, -, a, -⟩ | ⟨-, -, a, -⟩ <;> omega
  have hmax : max S.nRows S.nCols = n := by rcases hop with ⟨-, a, -, b⟩ | ⟨-, a, -, b⟩ <;> omega
  have hcoo : ∀ Ls : List (Entry ℝ), Ls ≠ [] → InRange S.nRows S.nCols Ls →
      (CooOk Ls.length n (opEntries opS.flip (window 0 0 (rowsOf opS n d) (colsOf opS n d) Ls)) ↔ ¬ ∀ e ∈ Ls, longIdx S.nRows S.nCols e = 0) := by
    intro Ls h1 h2
    rcases hop with ⟨rfl, a, b, c⟩ | ⟨rfl, a, b, c⟩
    · exact laso_cooOk h1 h2 (op := .NoTrans) (d := d) hn2 (Or.inl ⟨rfl, a, b, c⟩)
    · exact laso_cooOk h1 h2 (op := .Trans) (d := d) hn2 (Or.inr ⟨rfl, a, b, c⟩)
  have hyes : ∀ ω : ZMod N × ZMod L → WS, AllFirst (fromWords E.GS ω) S →
      (sketchGeneralR { E with GS := fromWords E.GS ω } layout opA opS m d n alpha A lda 0 0 0 ldb (.sparse S, b)).1 = .ub := by
    intro ω h
    obtain ⟨hE', Ls, h1, h2, h3, h4, -⟩ := laso_choice hE hsq hu hS hnew hax ω (hSm ω)
    exact C37_right_sparse_undefined hE' h1 hin hal0 (fun hc => (hcoo Ls h1.1 h2).mp hc (h4.mp h)) hm hd0 (by omega) hlda hldb hal (C := fun _ _ => 0) (fun h => absurd rfl h)
  have hno : ∀ ω : ZMod N × ZMod L → WS, ¬ AllFirst (fromWords E.GS ω) S →
      M.wp (sketchGeneralR { E with GS := fromWords E.GS ω } layout opA opS m d n alpha A lda 0 0 0 ldb) (.sparse S, b) (fun _ s' =>
        Holds s'.2 layout ldb m d (fun i j => alpha * prodEntry n (opMat opA Am) (opMat opS (Sm ω)) i j) ∧ SameOutside b s'.2 layout ldb m d) := by
    intro ω h
    obtain ⟨hE', Ls, h1, h2, h3, h4, -⟩ := laso_choice hE hsq hu hS hnew hax ω (hSm ω)
    refine M.wp_mono (C37_right_unfilled hE' hnew hS h1 h2 (opA := opA) (opS := opS) hin (fun _ => (hcoo Ls h1.1 h2).mpr (mt h4.mpr h)) (by omega) hd0 (by omega) hlda hldb
      (fun _ => hA) hal (C := fun _ _ => 0) (fun h => absurd rfl h)) ?_
    rintro _ s' ⟨P, rfl, g1, g2, -⟩
    rw [subMat_zero, h3] at g1
    simp only [zero_mul, add_zero] at g1
    exact ⟨g1, g2⟩
  refine ⟨fun ω => ?_, ?_⟩
  · by_cases h : AllFirst (fromWords E.GS ω) S
    · exact Or.inl (hyes ω h)
    · exact Or.inr (hno ω h)
  · have hp := pr_allFirst hE.genS hL hS hax hN
    rw [hmax] at hp
    rw [← hp]
    refine pr_congr fun ω => ⟨fun h => ?_, hyes ω⟩
    by_contra hc
    obtain ⟨a, s', e, -⟩ := hno ω hc
    rw [e] at h
    cases h

theorem prodEntry_swap {n : Int} {X Y : Int → Int → ℝ} (i j : Int) : prodEntry n X Y i j = prodEntry n (fun a b => Y b a) (fun a b => X b a) j i := by
  unfold prodEntry
  exact congrArg _ (funext fun l => mul_comm _ _)

/-- C93 (distortion, right). The squared norm of row `i` of `op(A)` is preserved. -/
theorem C93_right_distortion [NeZero N] [Field R] [LinearOrder R] [IsStrictOrderedRing R] [FloorRing R] [Fintype WS] [Nonempty WS] {L : Nat} [NeZero L] {E : SkEnv N K W WS R ℝ}
    (hE : SkEnvOk E) (hsq : E.sqrt = Real.sqrt) (hL : E.GS.len = L) (hu : ∀ w, -1 ≤ E.GS.uneg11 w ∧ E.GS.uneg11 w < 1) {τ : WS → WS} (hτ : Function.Involutive τ)
    (hsign : ∀ w, 0 ≤ E.GS.uneg11 (τ w) ↔ ¬ 0 ≤ E.GS.uneg11 w) {Mw : Nat} (e : WS ≃ Fin Mw) (hmid : ∀ w, (E.GS.uneg11 w + 1) / 2 = (((e w : Nat) : R) + 1 / 2) / Mw)
    {S : SparseSkOp N K ℝ} (hS : SparseOpOk S) (hnew : S.nnz < 0) (hax : S.dist.majorAxis = .Long) (hN : 2 * S.dist.fullNnz ≤ N) {layout : Layout} {opA opS : Op} {m d n : Int}
    (hop : opS = .Trans ∧ S.nRows ≤ S.nCols ∧ d = S.nRows ∧ n = S.nCols ∨ opS = .NoTrans ∧ S.nCols < S.nRows ∧ d = S.nCols ∧ n = S.nRows) (hn2 : 2 ≤ n)
    {A b : Buf ℝ} {lda ldb : Int} {Am : Int → Int → ℝ} (hm : 1 ≤ m) (hlda : LdOk layout lda (rowsOf opA m n) (colsOf opA m n))
    (hldb : LdOk layout ldb m d) (hA : Holds A layout lda (rowsOf opA m n) (colsOf opA m n) Am) (hal : Alloc b layout ldb m d) {i : Int} {ρ ε : ℝ} (hρ0 : 0 ≤ ρ)
    (hρ : ∑ l ∈ range n.toNat, opMat opA Am i l ^ 4 ≤ ρ * (∑ l ∈ range n.toNat, opMat opA Am i l ^ 2) ^ 2) (hε : 0 < ε) :
    Pr (fun ω : ZMod N × ZMod L → WS => ¬ M.wp (sketchGeneralR { E with GS := fromWords E.GS ω } layout opA opS m d n S.dist.isometryScale A lda 0 0 0 ldb) (.sparse S, b)
      (fun _ s' => ∃ B, Holds s'.2 layout ldb m d B ∧
        |∑ j ∈ range d.toNat, B i j ^ 2 - ∑ l ∈ range n.toNat, opMat opA Am i l ^ 2| ≤ ε * ∑ l ∈ range n.toNat, opMat opA Am i l ^ 2)) ≤
    ((2 * (1 + (n : ℝ) / Mw) ^ 2 + (1 + (n : ℝ) / Mw) * (n * ρ / S.dist.vecNnz)) / d + ((n : ℝ) / Mw) ^ 2) / ε ^ 2 + indexProb E.GS n 0 ^ S.dist.fullNnz.toNat := by
  have hex : ∀ ω : ZMod N × ZMod L → WS, ∃ Sm, SparseSamples (fromWords E.GS ω) E.sqrt S.dist S.seedState Sm := fun ω => (C14_well_defined (G := fromWords E.GS ω) hE.genS hE.sqrt hS.dist).exists
  choose Sm hSm using hex
  have hop' : opS.flip = .NoTrans ∧ S.nRows ≤ S.nCols ∧ d = S.nRows ∧ n = S.nCols ∨ opS.flip = .Trans ∧ S.nCols < S.nRows ∧ d = S.nCols ∧ n = S.nRows := by
    rcases hop with ⟨rfl, a⟩ | ⟨rfl, a⟩
    · exact Or.inl ⟨rfl, a⟩
    · exact Or.inr ⟨rfl, a⟩
  have hflip : ∀ ω, (fun a b => opMat opS (Sm ω) b a) = opMat opS.flip (Sm ω) := by
    intro ω
    rcases hop with ⟨rfl, -⟩ | ⟨rfl, -⟩ <;> rfl
  obtain ⟨hsc0, hfr⟩ := laso_preserve hE hsq hL hu hτ hsign e hmid hS hnew hax hN hSm hop' (x := fun l j => opMat opA Am j l) (j := i) hρ0 hρ hε
  have hf0 : 0 ≤ S.dist.fullNnz := by
    obtain ⟨k, d', -, -, -, -, -, -, ef, -⟩ := laso_fill (L := L) (G := E.GS) (order := E.order) (S := S) hE.genS hu hE.order hS hax
    rw [ef]; positivity
  obtain ⟨hor, hpr⟩ := C93_right_long_axis hE hsq hL hu hS hnew hax (by omega) hSm hop hn2 hsc0 hm hlda hldb hA hal
  rw [← hpr]
  refine (pr_or_le fun ω hω => ?_).trans (add_le_add hfr le_rfl)
  by_contra hc
  push Not at hc
  refine hω ?_
  rcases hor ω with h | h
  · exact absurd h hc.2
  refine M.wp_mono h ?_
  rintro _ s' ⟨h1, -⟩
  refine ⟨_, h1, ?_⟩
  have : ∀ j : Int, prodEntry n (opMat opA Am) (opMat opS (Sm ω)) i j = prodEntry n (opMat opS.flip (Sm ω)) (fun l j => opMat opA Am j l) j i := by
    intro j
    rw [prodEntry_swap, hflip]
  simp only [this]
  exact hc.1

/-- The hypotheses are met by the generator of 32-bit words of C60, a new 3 x 8 long-axis operator and the 8 x 2 matrix with entries i + j. -/
example : SkEnvOk midEnv ∧ midEnv.sqrt = Real.sqrt ∧ midEnv.GS.len = (4 : Nat) ∧ (∀ w, -1 ≤ midEnv.GS.uneg11 w ∧ midEnv.GS.uneg11 w < 1) ∧
    SparseOpOk (mkSparseSkOp 4 exLaso ⟨0, 7⟩ : SparseSkOp (2 ^ 128) Nat ℝ) ∧ (mkSparseSkOp 4 exLaso ⟨0, 7⟩ : SparseSkOp (2 ^ 128) Nat ℝ).nnz < 0 ∧
    exLaso.majorAxis = .Long ∧ 2 * exLaso.fullNnz ≤ ((2 ^ 128 : Nat) : Int) ∧ exLaso.nRows ≤ exLaso.nCols ∧ exLaso.nRows = 3 ∧ exLaso.nCols = 8 ∧
    (∀ ω : ZMod (2 ^ 128) × ZMod 4 → Fin (2 ^ 32), ∃ Sm, SparseSamples (fromWords midEnv.GS ω) midEnv.sqrt exLaso ⟨0, 7⟩ Sm) ∧
    LdOk .ColMajor 8 (rowsOf .NoTrans 8 2) (colsOf .NoTrans 8 2) ∧ LdOk .ColMajor 3 3 2 ∧
    Holds (Buf.ofFn 16 fun p => ((p % 8 + p / 8 : Int) : ℝ)) .ColMajor 8 8 2 (fun i j => (i + j : Int)) ∧ Alloc (Buf.alloc ℝ 6) .ColMajor 3 3 2 := by
  refine ⟨⟨⟨mergeSort_sortOk, by norm_num [midEnv]⟩, Or.inr rfl, Or.inr rfl, Real.sqrt_one, fun _ l => List.Perm.refl l⟩, rfl, rfl, ?_,
    mkSparseSkOp_ok 4 exLaso_ok _, by simp [mkSparseSkOp], rfl, by decide, by decide, rfl, rfl,
    fun ω => (C14_well_defined (G := fromWords midEnv.GS ω) (Or.inr rfl) Real.sqrt_one exLaso_ok).exists, by simp [LdOk, rowsOf], by simp [LdOk], ?_, ?_⟩
  · intro w
    have h : ((w : Nat) : ℚ) + 1 ≤ 2 ^ 32 := by exact_mod_cast w.isLt
    have h0 : (0 : ℚ) ≤ ((w : Nat) : ℚ) := Nat.cast_nonneg _
    show -1 ≤ midGen.uneg11 w ∧ midGen.uneg11 w < 1
    simp only [midGen]
    constructor
    · linarith
    · linarith
  · rintro i j ⟨h1, h2, h3, h4⟩
    simp only [addr]
    simp only [Buf.ofFn]
    rw [if_pos (by omega), show (i + j * 8) % 8 = i by omega, show (i + j * 8) / 8 = j by omega]
  · rintro i j ⟨h1, h2, h3, h4⟩
    simp only [addr]
    simp only [Buf.alloc]
    rw [if_pos (by omega)]; simp

end RB
