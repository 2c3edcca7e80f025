import Verif.Props.VectorLawShort
import Verif.Props.SketchDistLong

/-!
# C120: sparse operators with one nonzero per vector

A long-axis operator with `vec_nnz = 1` samples rows (or columns) of the data with replacement, and changes the sign of each with probability 1/2. A short-axis operator with
`vec_nnz = 1` is a CountSketch: each row of the data is added to or subtracted from one row of the result. The generator is idealised as for C89.
-/

namespace RB
open Spec Finset
variable {N : Nat} {K W WS R : Type}

/-! ## Specification -/

/-- `d` independent samples of the indices `0, ..., m-1`, with replacement, each with a sign that is independent of it: index `l` has the probability `p l`, both signs have the probability 1/2.
The probabilities are over the choices `ω` of the words that the generator yields. -/
def SignedSamples {Ω : Type} [Fintype Ω] (m d : Int) (p : Int → ℝ) (h : Ω → Int → Int) (σ : Ω → Int → ℝ) : Prop :=
  (∀ ω q, 0 ≤ q → q < d → 0 ≤ h ω q ∧ h ω q < m ∧ (σ ω q = 1 ∨ σ ω q = -1)) ∧
  ∀ (l : Nat → Int) (s : Nat → ℝ), (∀ q, s q = 1 ∨ s q = -1) → Pr (fun ω => ∀ q ∈ range d.toNat, h ω q = l q ∧ σ ω q = s q) = ∏ q ∈ range d.toNat, p (l q) * (1 / 2)

/-- The probabilities add up to 1 and differ from `1/m` by at most `1/Mw`. -/
def NearUniform (m : Int) (Mw : Nat) (p : Int → ℝ) : Prop := ∑ l ∈ range m.toNat, p l = 1 ∧ ∀ l, 0 ≤ l → l < m → |p l - 1 / m| ≤ 1 / Mw

/-! ## Lemmas -/

theorem Holds.of_eq {b : Buf ℝ} {layout : Layout} {ld m n : Int} {A A' : Int → Int → ℝ} (h : Holds b layout ld m n A) (he : ∀ i j, InR m n i j → A i j = A' i j) :
    Holds b layout ld m n A' := fun i j hij => by rw [h i j hij, he i j hij]

theorem pr_range_sum [Fintype W] [Nonempty W] {m : Nat} (f : W → Int) (h : ∀ w, 0 ≤ f w ∧ f w < m) : ∑ l ∈ range m, Pr (fun w => f w = (l : Int)) = 1 := by
  classical
  have h1 := pr_fiber (fun w => (⟨(f w).toNat, by have := h w; omega⟩ : Fin m)) fun _ : W => True
  have h2 : Pr (fun _ : W => True) = 1 := by
    rw [pr_eq, filter_true, card_univ, div_self (by exact_mod_cast Fintype.card_ne_zero)]
  rw [← h2, h1, ← Fin.sum_univ_eq_sum_range (fun l => Pr fun w => f w = (l : Int))]
  refine sum_congr rfl fun s _ => pr_congr fun w => ?_
  have := h w
  rw [and_true, Fin.ext_iff]
  dsimp only
  omega

/-- The joint law of values that are made from two words each. -/
theorem pr_two_words {I : Type} [Fintype I] [DecidableEq I] [Fintype W] [Nonempty W] {d : Nat} (pI pS : Nat → I) (hII : ∀ q < d, ∀ q' < d, pI q = pI q' → q = q')
    (hSS : ∀ q < d, ∀ q' < d, pS q = pS q' → q = q') (hIS : ∀ q < d, ∀ q' < d, pI q ≠ pS q') (f : W → Int) (g : W → ℝ) (l : Nat → Int) (s : Nat → ℝ) :
    Pr (fun ω : I → W => ∀ q ∈ range d, f (ω (pI q)) = l q ∧ g (ω (pS q)) = s q) = ∏ q ∈ range d, (Pr (fun w => f w = l q) * Pr (fun w => g w = s q)) := by
  rw [pr_forall (range d) (S := fun q x => x = pI q ∨ x = pS q)]
  · refine prod_congr rfl fun q hq => ?_
    rw [mem_range] at hq
    rw [pr_and (S := fun x => x = pI q) (S' := fun x => x = pS q)]
    · rw [pr_eval (pI q) fun w => f w = l q, pr_eval (pS q) fun w => g w = s q]
    · intro ω ω' h
      beta_reduce
      rw [h _ rfl]
    · intro ω ω' h
      beta_reduce
      rw [h _ rfl]
    · intro x hx hx'
      exact hIS q hq q hq (hx.symm.trans hx')
  · intro q _ ω ω' h
    beta_reduce
    rw [h _ (Or.inl rfl), h _ (Or.inr rfl)]
  · intro q hq q' hq' hne x hx hx'
    rw [mem_range] at hq hq'
    rcases hx with hx | hx <;> rcases hx' with hx' | hx'
    · exact hne (hII q hq q' hq' (hx.symm.trans hx'))
    · exact hIS q hq q' hq' (hx.symm.trans hx')
    · exact hIS q' hq' q hq (hx'.symm.trans hx)
    · exact hne (hSS q hq q' hq' (hx.symm.trans hx'))

theorem indexProb_sum [Field R] [LinearOrder R] [IsStrictOrderedRing R] [FloorRing R] [Fintype W] [Nonempty W] {G : Gen N K W R} (hu : ∀ w, -1 ≤ G.uneg11 w ∧ G.uneg11 w < 1) {m : Int}
    (hm : 0 < m) : ∑ l ∈ range m.toNat, indexProb G m l = 1 := by
  obtain ⟨m, rfl⟩ : ∃ m' : Nat, m = m' := ⟨m.toNat, by omega⟩
  have hmR : (0 : R) < ((m : Int) : R) := by exact_mod_cast hm
  rw [Int.toNat_natCast]
  refine Eq.trans (sum_congr rfl fun l _ => ?_) (pr_range_sum (fun w => ⌊((m : Int) : R) * ((G.uneg11 w + 1) / 2)⌋) fun w => ?_)
  · rw [pr_eq]; rfl
  · obtain ⟨h1, h2⟩ := hu w
    exact ⟨Int.floor_nonneg.mpr (mul_nonneg hmR.le (by linarith)), Int.floor_lt.mpr (by nlinarith)⟩

theorem occurrences_one (x : Int → Int) (l : Int) : occurrences x 1 l = if x 0 = l then 1 else 0 := by
  unfold occurrences
  rw [show ((1 : Int).toNat) = 1 from rfl, range_one, filter_singleton]
  split_ifs with h h'
  · rfl
  · exact absurd (by simpa using h) h'
  · exact absurd (by simpa using ‹x 0 = l›) h
  · rfl

theorem firstOcc_one {x : Int → Int} {l : Int} (h : x 0 = l) : firstOcc x l = 0 := by
  unfold firstOcc
  exact Nat.sInf_eq_zero.mpr (Or.inl h)

/-- The sampled index and its sign. -/
theorem laso_one {x : Int → Int} {s : Int → ℝ} (l : Int) : Real.sqrt (occurrences x 1 l) * s (firstOcc x l) = if x 0 = l then s 0 else 0 := by
  rw [occurrences_one]
  by_cases h : x 0 = l
  · rw [if_pos h, if_pos h, Nat.cast_one, Real.sqrt_one, one_mul, firstOcc_one h, Nat.cast_zero]
  · rw [if_neg h, if_neg h, Nat.cast_zero, Real.sqrt_zero, zero_mul]

/-- The index and the sign that vector `q` of a long-axis operator with one nonzero per vector is made from, and everything about them. -/
theorem laso_one_setup [NeZero N] [Field R] [LinearOrder R] [IsStrictOrderedRing R] [FloorRing R] [Fintype WS] [Nonempty WS] {L : Nat} [NeZero L] {E : SkEnv N K W WS R ℝ}
    (hE : SkEnvOk E) (hsq : E.sqrt = Real.sqrt) (hL : E.GS.len = L) (hu : ∀ w, -1 ≤ E.GS.uneg11 w ∧ E.GS.uneg11 w < 1) {τ : WS → WS} (hτ : Function.Involutive τ)
    (hsign : ∀ w, 0 ≤ E.GS.uneg11 (τ w) ↔ ¬ 0 ≤ E.GS.uneg11 w) {S : SparseSkOp N K ℝ} (hS : SparseOpOk S) (hnew : S.nnz < 0) (hax : S.dist.majorAxis = .Long)
    (hone : S.dist.vecNnz = 1) (hN : S.dist.fullNnz ≤ N) {d m : Int} (hd : d = min S.nRows S.nCols) (hm : m = max S.nRows S.nCols) :
    ∃ (h : (ZMod N × ZMod L → WS) → Int → Int) (σ : (ZMod N × ZMod L → WS) → Int → ℝ), SignedSamples m d (indexProb E.GS m) h σ ∧
    ∀ ω, SkEnvOk { E with GS := fromWords E.GS ω } ∧ ∃ Ls, SparseIs { E with GS := fromWords E.GS ω } S Ls ∧ InRange S.nRows S.nCols Ls ∧
      ((∀ q, 0 ≤ q → q < d → h ω q = 0) ↔ ∀ e ∈ Ls, longIdx S.nRows S.nCols e = 0) ∧
      ∀ q, 0 ≤ q → q < d → ∀ l, (if S.nRows ≤ S.nCols then toMat Ls q l else toMat Ls l q) = if h ω q = l then σ ω q else 0 := by
  classical
  obtain ⟨hR, hC, hk, hkd, hfull, hfit, hax'⟩ := sparseDist_facts hS.dist
  have hmin : S.dist.dimMinor = min S.dist.nRows S.dist.nCols := by
    rcases hax' with ⟨a, b, c⟩ | ⟨a, b, c⟩
    · rw [a] at hax; cases hax
    · exact c
  obtain ⟨d', rfl⟩ : ∃ d' : Nat, d = d' := ⟨d.toNat, by rw [hd, hS.nRows, hS.nCols]; omega⟩
  obtain ⟨m', rfl⟩ : ∃ m' : Nat, m = m' := ⟨m.toNat, by rw [hm, hS.nRows, hS.nCols]; omega⟩
  have hm0 : 0 < m' := by rw [hS.nRows, hS.nCols] at hm; omega
  have hL2 : 2 ≤ L := by have := hE.genS; rcases this with h | h <;> omega
  have hf : S.dist.fullNnz = (1 * d' : Nat) := by
    rw [hfull, hmin, ← hS.nRows, ← hS.nCols, ← hd, hone]; push_cast; rfl
  rw [hf] at hN
  have hN' : 1 * d' ≤ N := by exact_mod_cast hN
  refine ⟨fun ω q => lasoSample (fromWords E.GS ω) S.seedState m' 1 q 0, fun ω q => lasoSampleSign (fromWords E.GS ω) S.seedState 1 q 0, ⟨?_, ?_⟩, ?_⟩
  · intro ω q _ _
    refine ⟨?_, ?_, by beta_reduce; unfold lasoSampleSign; split_ifs <;> simp⟩
    all_goals
      have h2 := unif_fromWords hu ω (advance S.seedState (q * ((2 * 1 + (fromWords E.GS ω).len - 1) / (fromWords E.GS ω).len))) (2 * 0)
      have hnR : (0 : R) < ((m' : Int) : R) := by exact_mod_cast hm0
      unfold lasoSample
    · exact Int.floor_nonneg.mpr (mul_nonneg hnR.le h2.1)
    · exact Int.floor_lt.mpr (by nlinarith [h2.2])
  · intro l s hs
    have key := pr_two_words (W := WS) (d := d') (fun q => (lasoPos S.seedState 1 q (2 * 0) : ZMod N × ZMod L)) (fun q => lasoPos S.seedState 1 q (2 * 0 + 1))
      (fun q hq q' hq' h => (lasoPos_inj hL2 hN' hq hq' (by omega) (by omega) (by omega) (by omega) h).1)
      (fun q hq q' hq' h => (lasoPos_inj hL2 hN' hq hq' (by omega) (by omega) (by omega) (by omega) h).1)
      (fun q hq q' hq' h => by have := (lasoPos_inj hL2 hN' hq hq' (by omega) (by omega) (by omega) (by omega) h).2; omega)
      (fun w => ⌊((m' : Int) : R) * ((E.GS.uneg11 w + 1) / 2)⌋) (fun w => if 0 ≤ E.GS.uneg11 w then (1 : ℝ) else -1) l s
    rw [Int.toNat_natCast]
    refine Eq.trans (pr_congr fun ω => ?_) (key.trans (prod_congr rfl fun q _ => ?_))
    · refine forall₂_congr fun q _ => ?_
      have e1 := congrFun (lasoSample_pos (seed := S.seedState) hL ω m' 1 q) 0
      have e2 := lasoSign_pos (seed := S.seedState) hL ω 1 q 0
      rw [Nat.cast_one] at e1 e2
      beta_reduce
      rw [e1, e2]
    · congr 1
      · rw [pr_eq]; rfl
      · exact pr_sign (pr_half hτ hsign) _ (hs q)
  · intro ω
    obtain ⟨Sm, hSm⟩ := (C14_well_defined (G := fromWords E.GS ω) (seed := S.seedState) hE.genS hE.sqrt hS.dist).exists
    obtain ⟨hE', Ls, h1, h2, h3, h4, h5⟩ := laso_choice hE hsq hu hS hnew hax ω hSm
    refine ⟨hE', Ls, h1, h2, ?_, ?_⟩
    · rw [← h4]
      unfold AllFirst
      rw [hone, ← hd, ← hm]
      constructor
      · intro h q q0 q1 t t0 t1
        rw [show t = 0 by omega]
        exact h q q0 q1
      · intro h q q0 q1
        exact h q q0 q1 0 le_rfl (by omega)
    · intro q q0 q1 l
      rw [h3, h5 q q0 (by omega) l, hone, ← hm, laso_one]

/-- The hash function and the signs of a short-axis operator with one nonzero per vector, and everything about them. -/
theorem saso_one_setup [NeZero N] [Field R] [LinearOrder R] [IsStrictOrderedRing R] [FloorRing R] [Fintype WS] [Nonempty WS] {L : Nat} [NeZero L] {E : SkEnv N K W WS R ℝ}
    (hE : SkEnvOk E) (hL : E.GS.len = L) {Mw : Nat} (e : WS ≃ Fin Mw) (he : ∀ w, E.GS.nat w = e w) (hM2 : Even Mw) {S : SparseSkOp N K ℝ} (hS : SparseOpOk S)
    (hax : S.dist.majorAxis = .Short) (hone : S.dist.vecNnz = 1) (hN : S.dist.fullNnz ≤ N) {d m : Int} (hd : d = min S.nRows S.nCols) (hm : m = max S.nRows S.nCols) :
    ∃ (p : Int → ℝ) (h : (ZMod N × ZMod L → WS) → Int → Int) (σ : (ZMod N × ZMod L → WS) → Int → ℝ), NearUniform d Mw p ∧ SignedSamples d m p h σ ∧
    ∀ ω, SkEnvOk { E with GS := fromWords E.GS ω } ∧ ∃ Sm, SparseSamples (fromWords E.GS ω) E.sqrt S.dist S.seedState Sm ∧
      ∀ q, 0 ≤ q → q < m → ∀ i, (if S.nRows ≤ S.nCols then Sm i q else Sm q i) = if h ω q = i then σ ω q else 0 := by
  classical
  obtain ⟨k, n, r, hk0, hkn, ek, en, er, hn, hr, hf⟩ := saso_setup hS hax
  obtain rfl : k = 1 := by omega
  obtain rfl : d = n := by omega
  obtain rfl : m = r := by omega
  rw [hf] at hN
  have hN' : r * 1 ≤ N := by exact_mod_cast hN
  have hL2 : 2 ≤ L := by have := hE.genS; rcases this with h | h <;> omega
  have hW : 0 < Mw := by obtain ⟨w⟩ := ‹Nonempty WS›; exact (e w).pos
  have h01 : ((0 : Int) : ZMod L) ≠ ((1 : Int) : ZMod L) := by
    rw [Ne, ZMod.intCast_eq_intCast_iff]
    unfold Int.ModEq
    rw [Int.emod_eq_of_lt (by omega) (by omega), Int.emod_eq_of_lt (by omega) (by omega)]
    omega
  let pos : Int → ZMod N := fun q => S.seedState.counter + ((q : Int) : ZMod N)
  have hpos : ∀ q < r, ∀ q' < r, pos (q : Nat) = pos (q' : Nat) → q = q' := by
    intro q hq q' hq' h
    have h1 := (ZMod.intCast_eq_intCast_iff _ _ _).mp (add_left_cancel h)
    unfold Int.ModEq at h1
    rw [Int.emod_eq_of_lt (by omega) (by omega), Int.emod_eq_of_lt (by omega) (by omega)] at h1
    omega
  obtain ⟨τ, hτ, hpar⟩ := exists_pairing hM2 e
  let f : WS → Int := fun w => ((e w : Nat) % n : Nat)
  let g : WS → ℝ := fun w => if E.GS.nat w % 2 = 0 then (1 : ℝ) else -1
  refine ⟨fun l => Pr fun w => f w = l, fun ω q => f (ω (pos q, ((0 : Int) : ZMod L))), fun ω q => g (ω (pos q, ((1 : Int) : ZMod L))), ⟨?_, ?_⟩, ⟨?_, ?_⟩, ?_⟩
  · rw [Int.toNat_natCast]
    refine pr_range_sum f fun w => ?_
    have := Nat.mod_lt (e w : Nat) (show n > 0 by omega)
    simp only [f]
    omega
  · intro l l0 l1
    obtain ⟨c, rfl⟩ : ∃ c : Nat, l = c := ⟨l.toNat, by omega⟩
    obtain ⟨h1, h2⟩ := pr_mod (Mw := Mw) e (d := n) (c := c) (by omega) (by omega) hW
    have h3 : Pr (fun w => f w = (c : Int)) = Pr (fun w => (e w : Nat) % n = c) := pr_congr fun w => by simp only [f]; omega
    beta_reduce
    rw [h3, Int.cast_natCast]
    have hn0 : (n : ℝ) ≠ 0 := by exact_mod_cast (show n ≠ 0 by omega)
    have hM0 : (Mw : ℝ) ≠ 0 := by exact_mod_cast hW.ne'
    have e1 : (1 - (n : ℝ) / Mw) / n = 1 / n - 1 / Mw := by field_simp
    have e2 : (1 + (n : ℝ) / Mw) / n = 1 / n + 1 / Mw := by field_simp
    rw [e1] at h1; rw [e2] at h2
    rw [abs_le]
    constructor <;> linarith
  · intro ω q _ _
    have := Nat.mod_lt (e (ω (pos q, ((0 : Int) : ZMod L))) : Nat) (show n > 0 by omega)
    refine ⟨?_, ?_, ?_⟩
    · simp only [f]; omega
    · simp only [f]; omega
    · simp only [g]; split_ifs <;> simp
  · intro l s hs
    rw [Int.toNat_natCast]
    have key := pr_two_words (W := WS) (d := r) (fun q => ((pos (q : Nat), ((0 : Int) : ZMod L)) : ZMod N × ZMod L)) (fun q => (pos (q : Nat), ((1 : Int) : ZMod L)))
      (fun q hq q' hq' h => hpos q hq q' hq' (Prod.mk.inj h).1) (fun q hq q' hq' h => hpos q hq q' hq' (Prod.mk.inj h).1) (fun q _ q' _ h => h01 (Prod.mk.inj h).2) f g l s
    refine key.trans (prod_congr rfl fun q _ => ?_)
    rw [pr_sign (pr_half (P := fun w => E.GS.nat w % 2 = 0) hτ (fun w => by simp only [he]; exact hpar w)) _ (hs q)]
  · intro ω
    obtain ⟨Sm, hSm⟩ := (C14_well_defined (G := fromWords E.GS ω) (seed := S.seedState) hE.genS hE.sqrt hS.dist).exists
    refine ⟨⟨hE.env, hE.gen, hE.genS, hE.sqrt, hE.order⟩, Sm, hSm, ?_⟩
    obtain ⟨L0, hrun, hmat⟩ := sparseSamples_run (G := fromWords E.GS ω) hE.genS hE.sqrt hS.dist hSm
    rcases hrun with ⟨-, rfl⟩ | ⟨a, -⟩
    swap
    · rw [a] at hax; cases hax
    intro q q0 q1 i
    obtain ⟨q, rfl⟩ : ∃ q' : Nat, q = q' := ⟨q.toNat, by omega⟩
    have h1 : (if S.nRows ≤ S.nCols then Sm i q else Sm q i) = tripMat (sasoTriples (T := ℝ) (fromWords E.GS ω) S.seedState (1 : Nat) n r) i q := by
      rw [← hmat, ← hmat, ek, en, er, hS.nRows, hS.nCols]
      split_ifs with hd'
      · exact toMat_mkEntry_wide hd' _ _ _
      · exact toMat_mkEntry_tall (by omega) _ _ _
    rw [h1, saso_entry _ (by omega), Fin.sum_univ_one, fyIdx_eq_fyMap (by exact_mod_cast hkn)]
    have h2 : ∀ c : Fin 1 → Nat, (c 0 : Int) < n → fyMap 1 n c 0 = c 0 := by
      intro c hc
      simp [fyMap, fyPerm, fyExt, Equiv.swap_apply_left]
      exact Int.emod_eq_of_lt (by omega) hc
    have h3 : (((fyMod (k := 1) (n : Int) fun t => (fromWords E.GS ω).nat ((fromWords E.GS ω).word (S.seedState.counter +
        (((q : Int) * ((1 : Nat) : Int) + (t : Nat) : Int) : ZMod N)) S.seedState.key 0)) 0 : Nat) : Int) = f (ω (pos q, ((0 : Int) : ZMod L))) := by
      simp only [fyMod, f, pos, ← he]
      simp [fromWords]
    rw [h2 _ (by rw [h3]; simp only [f]; exact_mod_cast Nat.mod_lt _ (by omega)), h3]
    simp only [fySign, g, pos]
    simp [fromWords]

/-! ## Row sampling: long-axis operators -/

/-- C120 (row sampling, left). A new long-axis operator with one nonzero per vector is applied as it is (if it is wide) or transposed (if it is tall). Then row `i` of the sketch is plus or minus row
`h_i` of `op(A)`: the rows are sampled with replacement, nearly uniformly, and their signs are independent of everything else. If all rows happen to be the first one, then the call is undefined. -/
theorem C120_rows_partial [NeZero N] [Field R] [LinearOrder R] [IsStrictOrderedRing R] [FloorRing R] [Fintype WS] [Nonempty WS] {L : Nat} [NeZero L] {E : SkEnv N K W WS R ℝ}
    (hE : SkEnvOk E) (hsq : E.sqrt = Real.sqrt) (hL : E.GS.len = L) (hu : ∀ w, -1 ≤ E.GS.uneg11 w ∧ E.GS.uneg11 w < 1) {τ : WS → WS} (hτ : Function.Involutive τ)
    (hsign : ∀ w, 0 ≤ E.GS.uneg11 (τ w) ↔ ¬ 0 ≤ E.GS.uneg11 w) {Mw : Nat} (e : WS ≃ Fin Mw) (hmid : ∀ w, (E.GS.uneg11 w + 1) / 2 = (((e w : Nat) : R) + 1 / 2) / Mw)
    {S : SparseSkOp N K ℝ} (hS : SparseOpOk S) (hnew : S.nnz < 0) (hax : S.dist.majorAxis = .Long) (hone : S.dist.vecNnz = 1) (hN : S.dist.fullNnz ≤ N) {opS : Op} {d m : Int}
    (hop : opS = .NoTrans ∧ S.nRows ≤ S.nCols ∧ d = S.nRows ∧ m = S.nCols ∨ opS = .Trans ∧ S.nCols < S.nRows ∧ d = S.nCols ∧ m = S.nRows) (hm2 : 2 ≤ m) :
    ∃ (p : Int → ℝ) (h : (ZMod N × ZMod L → WS) → Int → Int) (σ : (ZMod N × ZMod L → WS) → Int → ℝ), NearUniform m Mw p ∧ SignedSamples m d p h σ ∧
    ∀ (ω : ZMod N × ZMod L → WS) (layout : Layout) (opA : Op) (n : Int) (alpha beta : ℝ) (A b : Buf ℝ) (lda ldb : Int) (Am C : Int → Int → ℝ), alpha ≠ 0 → 1 ≤ n →
      LdOk layout lda (rowsOf opA m n) (colsOf opA m n) → LdOk layout ldb d n → Holds A layout lda (rowsOf opA m n) (colsOf opA m n) Am → Alloc b layout ldb d n →
      (beta ≠ 0 → Holds b layout ldb d n C) →
      ((∃ i, 0 ≤ i ∧ i < d ∧ h ω i ≠ 0) →
        M.wp (sketchGeneralL { E with GS := fromWords E.GS ω } layout opS opA d n m alpha 0 0 A lda beta ldb) (.sparse S, b) (fun _ s' =>
          Holds s'.2 layout ldb d n (fun i j => alpha * (σ ω i * opMat opA Am (h ω i) j) + beta * C i j) ∧ SameOutside b s'.2 layout ldb d n)) ∧
      ((∀ i, 0 ≤ i → i < d → h ω i = 0) →
        (sketchGeneralL { E with GS := fromWords E.GS ω } layout opS opA d n m alpha 0 0 A lda beta ldb (.sparse S, b)).1 = .ub) := by
  have hW : 0 < Mw := by obtain ⟨w⟩ := ‹Nonempty WS›; exact (e w).pos
  have hin : InOp S.nRows S.nCols (rowsOf opS d m) (colsOf opS d m) 0 0 := by
    rcases hop with ⟨rfl, a, rfl, rfl⟩ | ⟨rfl, a, rfl, rfl⟩ <;> refine ⟨le_rfl, le_rfl, ?_, ?_⟩ <;> simp [rowsOf, colsOf]
  have hd0 : 0 ≤ d := by
    obtain ⟨h1, h2, -⟩ := sparseDist_facts hS.dist
    rw [← hS.nRows] at h1; rw [← hS.nCols] at h2
    rcases hop with ⟨-, -, a, -⟩ | ⟨-, -, a, -⟩ <;> omega
  obtain ⟨h, σ, hs, hall⟩ := laso_one_setup hE hsq hL hu hτ hsign hS hnew hax hone hN (d := d) (m := m) (by rcases hop with ⟨-, a, b, c⟩ | ⟨-, a, b, c⟩ <;> omega)
    (by rcases hop with ⟨-, a, b, c⟩ | ⟨-, a, b, c⟩ <;> omega)
  refine ⟨indexProb E.GS m, h, σ, ⟨?_, fun l l0 l1 => C60_index_probability e hmid hW m l l0 l1⟩, hs, ?_⟩
  · exact indexProb_sum hu (by omega)
  intro ω layout opA n alpha beta A b lda ldb Am C hal0 hn hlda hldb hA hal hC
  obtain ⟨hE', Ls, h1, h2, h3, h4⟩ := hall ω
  constructor
  · rintro ⟨i0, i1, i2, i3⟩
    refine M.wp_mono (C37_left_sparse_partial hE' h1 h2 (opS := opS) (opA := opA) hin
      (fun _ => (laso_cooOk h1.1 h2 hm2 hop).mpr (mt h3.mpr fun hc => i3 (hc i0 i1 i2))) hd0 (by omega) (by omega) hlda hldb (fun _ => hA) hal hC) ?_
    rintro _ s' ⟨g1, g2, -⟩
    refine ⟨Holds.of_eq g1 fun i j hij => ?_, g2⟩
    obtain ⟨a0, a1, -, -⟩ := hij
    have hrow : ∀ l : Int, opMat opS (toMat Ls) i l = if h ω i = l then σ ω i else 0 := by
      intro l
      rw [← h4 i a0 a1 l]
      rcases hop with ⟨rfl, a, -, -⟩ | ⟨rfl, a, -, -⟩
      · rw [if_pos a]; rfl
      · rw [if_neg (by omega)]; rfl
    have hi := hs.1 ω i a0 a1
    rw [subMat_zero]
    unfold prodEntry
    rw [sum_eq_single (h ω i).toNat, hrow, Int.toNat_of_nonneg hi.1, if_pos rfl]
    · intro l _ hl
      rw [hrow, if_neg (by omega), zero_mul]
    · intro hc
      exact absurd (mem_range.mpr (by omega)) hc
  · intro hc
    exact C37_left_sparse_undefined hE' h1 hin hal0 (fun hk => (laso_cooOk h1.1 h2 hm2 hop).mp hk (h3.mp hc)) hd0 hn (by omega) hlda hldb hal hC

/-- C120 (column sampling, right). The same for the columns of `op(A)` and `beta = 0` (C37: other values of `beta` give wrong results with a new sparse operator on the right). -/
theorem C120_columns_partial [NeZero N] [Field R] [LinearOrder R] [IsStrictOrderedRing R] [FloorRing R] [Fintype WS] [Nonempty WS] {L : Nat} [NeZero L] {E : SkEnv N K W WS R ℝ}
    (hE : SkEnvOk E) (hsq : E.sqrt = Real.sqrt) (hL : E.GS.len = L) (hu : ∀ w, -1 ≤ E.GS.uneg11 w ∧ E.GS.uneg11 w < 1) {τ : WS → WS} (hτ : Function.Involutive τ)
    (hsign : ∀ w, 0 ≤ E.GS.uneg11 (τ w) ↔ ¬ 0 ≤ E.GS.uneg11 w) {Mw : Nat} (e : WS ≃ Fin Mw) (hmid : ∀ w, (E.GS.uneg11 w + 1) / 2 = (((e w : Nat) : R) + 1 / 2) / Mw)
    {S : SparseSkOp N K ℝ} (hS : SparseOpOk S) (hnew : S.nnz < 0) (hax : S.dist.majorAxis = .Long) (hone : S.dist.vecNnz = 1) (hN : S.dist.fullNnz ≤ N) {opS : Op} {d n : Int}
    (hop : opS = .Trans ∧ S.nRows ≤ S.nCols ∧ d = S.nRows ∧ n = S.nCols ∨ opS = .NoTrans ∧ S.nCols < S.nRows ∧ d = S.nCols ∧ n = S.nRows) (hn2 : 2 ≤ n) :
    ∃ (p : Int → ℝ) (h : (ZMod N × ZMod L → WS) → Int → Int) (σ : (ZMod N × ZMod L → WS) → Int → ℝ), NearUniform n Mw p ∧ SignedSamples n d p h σ ∧
    ∀ (ω : ZMod N × ZMod L → WS) (layout : Layout) (opA : Op) (m : Int) (alpha : ℝ) (A b : Buf ℝ) (lda ldb : Int) (Am : Int → Int → ℝ), alpha ≠ 0 → 1 ≤ m →
      LdOk layout lda (rowsOf opA m n) (colsOf opA m n) → LdOk layout ldb m d → Holds A layout lda (rowsOf opA m n) (colsOf opA m n) Am → Alloc b layout ldb m d →
      ((∃ j, 0 ≤ j ∧ j < d ∧ h ω j ≠ 0) →
        M.wp (sketchGeneralR { E with GS := fromWords E.GS ω } layout opA opS m d n alpha A lda 0 0 0 ldb) (.sparse S, b) (fun _ s' =>
          Holds s'.2 layout ldb m d (fun i j => alpha * (opMat opA Am i (h ω j) * σ ω j)) ∧ SameOutside b s'.2 layout ldb m d)) ∧
      ((∀ j, 0 ≤ j → j < d → h ω j = 0) →
        (sketchGeneralR { E with GS := fromWords E.GS ω } layout opA opS m d n alpha A lda 0 0 0 ldb (.sparse S, b)).1 = .ub) := by
  have hW : 0 < Mw := by obtain ⟨w⟩ := ‹Nonempty WS›; exact (e w).pos
  have hin : InOp S.nRows S.nCols (rowsOf opS n d) (colsOf opS n d) 0 0 := by
    rcases hop with ⟨rfl, a, rfl, rfl⟩ | ⟨rfl, a, rfl, rfl⟩ <;> refine ⟨le_rfl, le_rfl, ?_, ?_⟩ <;> simp [rowsOf, colsOf]
  have hd0 : 0 ≤ d := by
    obtain ⟨h1, h2, -⟩ := sparseDist_facts hS.dist
    rw [← hS.nRows] at h1; rw [← hS.nCols] at h2
    rcases hop with ⟨-, -, a, -⟩ | ⟨-, -, a, -⟩ <;> omega
  have hcoo : ∀ Ls : List (Entry ℝ), Ls ≠ [] → InRange S.nRows S.nCols Ls →
      (CooOk Ls.length n (opEntries opS.flip (window 0 0 (rowsOf opS n d) (colsOf opS n d) Ls)) ↔ ¬ ∀ e ∈ Ls, longIdx S.nRows S.nCols e = 0) := by
    intro Ls h1 h2
    rcases hop with ⟨rfl, a, b, c⟩ | ⟨rfl, a, b, c⟩
    · exact laso_cooOk h1 h2 (op := .NoTrans) (d := d) hn2 (Or.inl ⟨rfl, a, b, c⟩)
    · exact laso_cooOk h1 h2 (op := .Trans) (d := d) hn2 (Or.inr ⟨rfl, a, b, c⟩)
  obtain ⟨h, σ, hs, hall⟩ := laso_one_setup hE hsq hL hu hτ hsign hS hnew hax hone hN (d := d) (m := n) (by rcases hop with ⟨-, a, b, c⟩ | ⟨-, a, b, c⟩ <;> omega)
    (by rcases hop with ⟨-, a, b, c⟩ | ⟨-, a, b, c⟩ <;> omega)
  refine ⟨indexProb E.GS n, h, σ, ⟨?_, fun l l0 l1 => C60_index_probability e hmid hW n l l0 l1⟩, hs, ?_⟩
  · exact indexProb_sum hu (by omega)
  intro ω layout opA m alpha A b lda ldb Am hal0 hm hlda hldb hA hal
  obtain ⟨hE', Ls, h1, h2, h3, h4⟩ := hall ω
  constructor
  · rintro ⟨i0, i1, i2, i3⟩
    refine M.wp_mono (C37_right_unfilled hE' hnew hS h1 h2 (opA := opA) (opS := opS) hin (fun _ => (hcoo Ls h1.1 h2).mpr (mt h3.mpr fun hc => i3 (hc i0 i1 i2))) (by omega) hd0
      (by omega) hlda hldb (fun _ => hA) hal (C := fun _ _ => 0) (fun h => absurd rfl h)) ?_
    rintro _ s' ⟨P, rfl, g1, g2, -⟩
    refine ⟨Holds.of_eq g1 fun i j hij => ?_, g2⟩
    obtain ⟨-, -, a0, a1⟩ := hij
    have hcol : ∀ l : Int, opMat opS (toMat Ls) l j = if h ω j = l then σ ω j else 0 := by
      intro l
      rw [← h4 j a0 a1 l]
      rcases hop with ⟨rfl, a, -, -⟩ | ⟨rfl, a, -, -⟩
      · rw [if_pos a]; rfl
      · rw [if_neg (by omega)]; rfl
    have hi := hs.1 ω j a0 a1
    rw [subMat_zero]
    unfold prodEntry
    rw [sum_eq_single (h ω j).toNat, hcol, Int.toNat_of_nonneg hi.1, if_pos rfl]
    · ring
    · intro l _ hl
      rw [hcol, if_neg (by omega), mul_zero]
    · intro hc
      exact absurd (mem_range.mpr (by omega)) hc
  · intro hc
    exact C37_right_sparse_undefined hE' h1 hin hal0 (fun hk => (hcoo Ls h1.1 h2).mp hk (h3.mp hc)) hm hd0 (by omega) hlda hldb hal (C := fun _ _ => 0) (fun h => absurd rfl h)

/-! ## CountSketch: short-axis operators -/

/-- C120 (CountSketch, left). A new short-axis operator with one nonzero per vector has a hash function `h` and signs `σ`: row `l` of `op(A)` is multiplied by `σ_l` and added to row `h_l` of the result.
The values of the hash function are independent and nearly uniform, the signs are independent and fair. This holds also if `op(A)` has only `m` rows and the columns of the operator from `o` on are used. -/
theorem C120_countsketch [NeZero N] [Field R] [LinearOrder R] [IsStrictOrderedRing R] [FloorRing R] [Fintype WS] [Nonempty WS] {L : Nat} [NeZero L] {E : SkEnv N K W WS R ℝ}
    (hE : SkEnvOk E) (hL : E.GS.len = L) {Mw : Nat} (e : WS ≃ Fin Mw) (he : ∀ w, E.GS.nat w = e w) (hM2 : Even Mw) {S : SparseSkOp N K ℝ} (hS : SparseOpOk S)
    (hnew : S.nnz < 0) (hax : S.dist.majorAxis = .Short) (hone : S.dist.vecNnz = 1) (hN : S.dist.fullNnz ≤ N) {opS : Op} {d : Int}
    (hop : opS = .NoTrans ∧ S.nRows ≤ S.nCols ∧ d = S.nRows ∨ opS = .Trans ∧ S.nCols < S.nRows ∧ d = S.nCols) :
    ∃ (p : Int → ℝ) (h : (ZMod N × ZMod L → WS) → Int → Int) (σ : (ZMod N × ZMod L → WS) → Int → ℝ), NearUniform d Mw p ∧ SignedSamples d (max S.nRows S.nCols) p h σ ∧
    ∀ (ω : ZMod N × ZMod L → WS) (layout : Layout) (opA : Op) (m n o : Int) (alpha beta : ℝ) (A b : Buf ℝ) (lda ldb : Int) (Am C : Int → Int → ℝ), 1 ≤ m → 0 ≤ n → 0 ≤ o →
      m + o ≤ max S.nRows S.nCols →
      LdOk layout lda (rowsOf opA m n) (colsOf opA m n) → LdOk layout ldb d n → Holds A layout lda (rowsOf opA m n) (colsOf opA m n) Am → Alloc b layout ldb d n →
      (beta ≠ 0 → Holds b layout ldb d n C) →
      M.wp (sketchGeneralL { E with GS := fromWords E.GS ω } layout opS opA d n m alpha (if opS = .NoTrans then 0 else o) (if opS = .NoTrans then o else 0) A lda beta ldb) (.sparse S, b)
        (fun _ s' => Holds s'.2 layout ldb d n (fun i j => alpha * (∑ l ∈ range m.toNat, if h ω (o + l) = i then σ ω (o + l) * opMat opA Am l j else 0) + beta * C i j) ∧
          SameOutside b s'.2 layout ldb d n) := by
  obtain ⟨p, h, σ, hp, hs, hall⟩ := saso_one_setup hE hL e he hM2 hS hax hone hN (d := d) (m := max S.nRows S.nCols) (by rcases hop with ⟨-, a, b⟩ | ⟨-, a, b⟩ <;> omega) rfl
  refine ⟨p, h, σ, hp, hs, ?_⟩
  intro ω layout opA m n o alpha beta A b lda ldb Am C hm hn ho hmo hlda hldb hA hal hC
  obtain ⟨hE', Sm, hSm, hent⟩ := hall ω
  refine M.wp_mono (C37_left_short_axis hE' hS hnew hax hSm (Or.inl rfl) (opS := opS) (opA := opA) (ro := if opS = .NoTrans then 0 else o)
    (co := if opS = .NoTrans then o else 0) ?_ hm hn hlda hldb (fun _ => hA) hal hC) ?_
  · rcases hop with ⟨rfl, a, b⟩ | ⟨rfl, a, b⟩
    · exact Or.inl ⟨rfl, a, b, rfl, ho, by rw [max_eq_right a] at hmo; exact hmo⟩
    · exact Or.inr ⟨rfl, a, b, rfl, ho, by rw [max_eq_left a.le] at hmo; exact hmo⟩
  · rintro _ s' ⟨g1, g2, -⟩
    refine ⟨Holds.of_eq g1 fun i j hij => ?_, g2⟩
    unfold prodEntry
    congr 2
    refine sum_congr rfl fun l hl => ?_
    rw [mem_range] at hl
    have hl' := hent (o + l) (by omega) (by omega) i
    have h5 : opMat opS (subMat (if opS = .NoTrans then 0 else o) (if opS = .NoTrans then o else 0) Sm) i l = if h ω (o + l) = i then σ ω (o + l) else 0 := by
      rw [← hl']
      rcases hop with ⟨rfl, a, -⟩ | ⟨rfl, a, -⟩
      · rw [if_pos a]; simp [opMat, subMat]
      · rw [if_neg (not_le.mpr a)]; simp [opMat, subMat]
    rw [h5, ite_mul, zero_mul]

/-- C120 (CountSketch, right). The same for the columns of `op(A)` and `beta = 0`. -/
theorem C120_countsketch_right_partial [NeZero N] [Field R] [LinearOrder R] [IsStrictOrderedRing R] [FloorRing R] [Fintype WS] [Nonempty WS] {L : Nat} [NeZero L] {E : SkEnv N K W WS R ℝ}
    (hE : SkEnvOk E) (hL : E.GS.len = L) {Mw : Nat} (e : WS ≃ Fin Mw) (he : ∀ w, E.GS.nat w = e w) (hM2 : Even Mw) {S : SparseSkOp N K ℝ} (hS : SparseOpOk S)
    (hnew : S.nnz < 0) (hax : S.dist.majorAxis = .Short) (hone : S.dist.vecNnz = 1) (hN : S.dist.fullNnz ≤ N) {opS : Op} {d : Int}
    (hop : opS = .Trans ∧ S.nRows ≤ S.nCols ∧ d = S.nRows ∨ opS = .NoTrans ∧ S.nCols < S.nRows ∧ d = S.nCols) :
    ∃ (p : Int → ℝ) (h : (ZMod N × ZMod L → WS) → Int → Int) (σ : (ZMod N × ZMod L → WS) → Int → ℝ), NearUniform d Mw p ∧ SignedSamples d (max S.nRows S.nCols) p h σ ∧
    ∀ (ω : ZMod N × ZMod L → WS) (layout : Layout) (opA : Op) (m n o : Int) (alpha : ℝ) (A b : Buf ℝ) (lda ldb : Int) (Am : Int → Int → ℝ), 0 ≤ m → 1 ≤ n → 0 ≤ o →
      n + o ≤ max S.nRows S.nCols →
      LdOk layout lda (rowsOf opA m n) (colsOf opA m n) → LdOk layout ldb m d → Holds A layout lda (rowsOf opA m n) (colsOf opA m n) Am → Alloc b layout ldb m d →
      M.wp (sketchGeneralR { E with GS := fromWords E.GS ω } layout opA opS m d n alpha A lda (if opS = .Trans then 0 else o) (if opS = .Trans then o else 0) 0 ldb) (.sparse S, b)
        (fun _ s' => Holds s'.2 layout ldb m d (fun i j => alpha * ∑ l ∈ range n.toNat, if h ω (o + l) = j then σ ω (o + l) * opMat opA Am i l else 0) ∧
          SameOutside b s'.2 layout ldb m d) := by
  obtain ⟨p, h, σ, hp, hs, hall⟩ := saso_one_setup hE hL e he hM2 hS hax hone hN (d := d) (m := max S.nRows S.nCols) (by rcases hop with ⟨-, a, b⟩ | ⟨-, a, b⟩ <;> omega) rfl
  refine ⟨p, h, σ, hp, hs, ?_⟩
  intro ω layout opA m n o alpha A b lda ldb Am hm hn ho hmo hlda hldb hA hal
  obtain ⟨hE', Sm, hSm, hent⟩ := hall ω
  refine M.wp_mono (C37_right_short_axis_new hE' hS hnew hax hSm (opA := opA) (opS := opS) (ro := if opS = .Trans then 0 else o)
    (co := if opS = .Trans then o else 0) ?_ hm hn hlda hldb (fun _ => hA) hal) ?_
  · rcases hop with ⟨rfl, a, b⟩ | ⟨rfl, a, b⟩
    · exact Or.inl ⟨rfl, a, b, rfl, ho, by rw [max_eq_right a] at hmo; exact hmo⟩
    · exact Or.inr ⟨rfl, a, b, rfl, ho, by rw [max_eq_left a.le] at hmo; exact hmo⟩
  · rintro _ s' ⟨g1, g2⟩
    refine ⟨Holds.of_eq g1 fun i j hij => ?_, g2⟩
    unfold prodEntry
    congr 1
    refine sum_congr rfl fun l hl => ?_
    rw [mem_range] at hl
    have hl' := hent (o + l) (by omega) (by omega) j
    have h5 : opMat opS (subMat (if opS = .Trans then 0 else o) (if opS = .Trans then o else 0) Sm) l j = if h ω (o + l) = j then σ ω (o + l) else 0 := by
      rw [← hl']
      rcases hop with ⟨rfl, a, -⟩ | ⟨rfl, a, -⟩
      · rw [if_pos a]; simp [opMat, subMat]
      · rw [if_neg (not_le.mpr a)]; simp [opMat, subMat]
    rw [h5, mul_ite, mul_zero, mul_comm]

/-- C120 (signs). The samples of C120 come with signs, whatever the documentation says about plain sampling: given signs `s` occur with the probability `2^-d`. In particular, the rows of the
sketch are all rows of `op(A)`, rather than negated rows, with this probability only (if no row of `op(A)` is a negated row of `op(A)`). -/
theorem C120_signs {Ω : Type} [Fintype Ω] {m d : Int} {Mw : Nat} {p : Int → ℝ} {h : Ω → Int → Int} {σ : Ω → Int → ℝ} (hp : NearUniform m Mw p) (hs : SignedSamples m d p h σ)
    {s : Nat → ℝ} (h1 : ∀ q, s q = 1 ∨ s q = -1) : Pr (fun ω => ∀ q ∈ range d.toNat, σ ω q = s q) = (1 / 2) ^ d.toNat := by
  classical
  obtain ⟨hr, hl⟩ := hs
  have hm : ∀ (q : Fin d.toNat) ω, (h ω (q : Nat)).toNat < m.toNat := fun q ω => by have := hr ω (q : Nat) (by omega) (by have := q.2; omega); omega
  rw [pr_fiber (fun ω => fun q : Fin d.toNat => (⟨(h ω (q : Nat)).toNat, hm q ω⟩ : Fin m.toNat))]
  have h2 : ∀ f : Fin d.toNat → Fin m.toNat, Pr (fun ω => (fun q : Fin d.toNat => (⟨(h ω (q : Nat)).toNat, hm q ω⟩ : Fin m.toNat)) = f ∧ ∀ q ∈ range d.toNat, σ ω q = s q) =
      ∏ q : Fin d.toNat, p ((f q : Nat) : Int) * (1 / 2) := by
    intro f
    have h3 := hl (fun q => if hq : q < d.toNat then ((f ⟨q, hq⟩ : Nat) : Int) else 0) s h1
    rw [← Fin.prod_univ_eq_prod_range (fun q => p (if hq : q < d.toNat then ((f ⟨q, hq⟩ : Nat) : Int) else 0) * (1 / 2))] at h3
    simp only [Fin.is_lt, dif_pos, Fin.eta] at h3
    rw [← h3]
    refine pr_congr fun ω => ?_
    constructor
    · rintro ⟨rfl, g⟩ q hq
      refine ⟨?_, g q hq⟩
      rw [mem_range] at hq
      rw [dif_pos hq]
      have := hr ω q (by omega) (by omega)
      dsimp only
      omega
    · intro g
      refine ⟨funext fun q => Fin.ext ?_, fun q hq => (g q hq).2⟩
      have := (g q (mem_range.mpr q.2)).1
      rw [dif_pos q.2, Fin.eta] at this
      dsimp only
      omega
  rw [sum_congr rfl fun f _ => h2 f, ← Fintype.piFinset_univ, sum_prod_piFinset univ (fun (_ : Fin d.toNat) (l : Fin m.toNat) => p ((l : Nat) : Int) * (1 / 2)), prod_const, card_univ,
    Fintype.card_fin, ← sum_mul, Fin.sum_univ_eq_sum_range (fun l => p (l : Int)), hp.1, one_mul]

/-- Example distributions with one nonzero per vector. -/
def exOneLong : SparseDist := ⟨3, 8, .Long, 8, 3, 1, 3⟩
/-- See `exOneLong`. -/
def exOneShort : SparseDist := ⟨8, 3, .Short, 3, 8, 1, 8⟩

/-- The hypotheses are met by a new 3 x 8 long-axis operator and a new 8 x 3 short-axis operator, by 32-bit words (two words being paired if they are mirror images) and by the
8 x 2 matrix with entries i + j. -/
example : SkEnvOk midEnv ∧ midEnv.sqrt = Real.sqrt ∧ midEnv.GS.len = (4 : Nat) ∧ (∀ w, -1 ≤ midEnv.GS.uneg11 w ∧ midEnv.GS.uneg11 w < 1) ∧ Function.Involutive (Fin.rev (n := 2 ^ 32)) ∧
    (∀ w, 0 ≤ midEnv.GS.uneg11 (Fin.rev w) ↔ ¬ 0 ≤ midEnv.GS.uneg11 w) ∧
    (∀ w, (midEnv.GS.uneg11 w + 1) / 2 = (((Equiv.refl (Fin (2 ^ 32)) w : Nat) : ℚ) + 1 / 2) / ((2 ^ 32 : Nat) : ℚ)) ∧
    (∀ w, midEnv.GS.nat w = (Equiv.refl (Fin (2 ^ 32))) w) ∧ Even (2 ^ 32) ∧
    SparseOpOk (mkSparseSkOp 4 exOneLong ⟨0, 7⟩ : SparseSkOp (2 ^ 128) Nat ℝ) ∧ (mkSparseSkOp 4 exOneLong ⟨0, 7⟩ : SparseSkOp (2 ^ 128) Nat ℝ).nnz < 0 ∧
    exOneLong.majorAxis = .Long ∧ exOneLong.vecNnz = 1 ∧ exOneLong.fullNnz ≤ ((2 ^ 128 : Nat) : Int) ∧ exOneLong.nRows ≤ exOneLong.nCols ∧
    SparseOpOk (mkSparseSkOp 4 exOneShort ⟨0, 7⟩ : SparseSkOp (2 ^ 128) Nat ℝ) ∧ (mkSparseSkOp 4 exOneShort ⟨0, 7⟩ : SparseSkOp (2 ^ 128) Nat ℝ).nnz < 0 ∧
    exOneShort.majorAxis = .Short ∧ exOneShort.vecNnz = 1 ∧ exOneShort.fullNnz ≤ ((2 ^ 128 : Nat) : Int) ∧ exOneShort.nCols < exOneShort.nRows ∧
    LdOk .ColMajor 8 (rowsOf .NoTrans 8 2) (colsOf .NoTrans 8 2) ∧ LdOk .ColMajor 3 3 2 ∧
    Holds (Buf.ofFn 16 fun p => ((p % 8 + p / 8 : Int) : ℝ)) .ColMajor 8 8 2 (fun i j => (i + j : Int)) ∧ Alloc (Buf.alloc ℝ 6) .ColMajor 3 3 2 := by
  refine ⟨⟨⟨mergeSort_sortOk, by norm_num [midEnv]⟩, Or.inr rfl, Or.inr rfl, Real.sqrt_one, fun _ l => List.Perm.refl l⟩, rfl, rfl, ?_, Fin.rev_rev, ?_, ?_, fun _ => rfl, by decide,
    mkSparseSkOp_ok 4 (show SparseDistOk exOneLong from ⟨by decide, by decide⟩) _, by simp [mkSparseSkOp], rfl, rfl, by decide, by decide,
    mkSparseSkOp_ok 4 (show SparseDistOk exOneShort from ⟨by decide, by decide⟩) _, by simp [mkSparseSkOp], rfl, rfl, by decide, by decide, by simp [LdOk, rowsOf], by simp [LdOk], ?_, ?_⟩
  · intro w
    have h : ((w : Nat) : ℚ) + 1 ≤ 2 ^ 32 := by exact_mod_cast w.isLt
    have h0 : (0 : ℚ) ≤ ((w : Nat) : ℚ) := Nat.cast_nonneg _
    show -1 ≤ midGen.uneg11 w ∧ midGen.uneg11 w < 1
    simp only [midGen]
    constructor
    · linarith [div_nonneg (by linarith : (0 : ℚ) ≤ 2 * ((w : Nat) : ℚ) + 1) (by norm_num : (0 : ℚ) ≤ 2 ^ 32)]
    · have := (div_lt_iff₀ (by norm_num : (0 : ℚ) < 2 ^ 32)).mpr (show 2 * ((w : Nat) : ℚ) + 1 < 2 * 2 ^ 32 by linarith)
      linarith
  · intro w
    have e : ((Fin.rev w : Nat) : ℚ) = 4294967295 - (w : Nat) := by
      rw [Fin.val_rev]
      have := w.2
      rw [Nat.cast_sub (by omega)]; push_cast; ring
    show 0 ≤ midGen.uneg11 _ ↔ ¬ 0 ≤ midGen.uneg11 _
    simp only [midGen, e]
    norm_num
    constructor
    · intro h
      by_contra hc
      push Not at hc
      have h1 : ((w : Nat) : ℚ) ≤ 4294967295 / 2 := by linarith
      have h2 : (4294967295 : ℚ) / 2 ≤ ((w : Nat) : ℚ) := by linarith
      have h3 : (2 * (w : Nat) : ℚ) = 4294967295 := by linarith
      have h4 : 2 * (w : Nat) = 4294967295 := by exact_mod_cast h3
      omega
    · intro h; linarith
  · intro w
    show (midGen.uneg11 w + 1) / 2 = _
    simp only [midGen, Equiv.refl_apply]; ring
  · rintro i j ⟨h1, h2, h3, h4⟩
    simp only [addr]
    simp only [Buf.ofFn]
    rw [if_pos (by omega), show (i + j * 8) % 8 = i by omega, show (i + j * 8) / 8 = j by omega]
  · rintro i j ⟨h1, h2, h3, h4⟩
    simp only [addr]
    simp only [Buf.alloc]
    rw [if_pos (by omega)]; simp

end RB
