import Verif.Spec.Sketch
import Verif.Core.Doom

/-! # Filling empty windows of dense operators -/

namespace RB
open Spec
variable {N : Nat} {K W T : Type}

/-- The program begins with a store. -/
def Prog.StartsWr {α : Type} (p : Prog T α) : Prop := ∃ i v k, p = .wr i v k

theorem Prog.StartsWr.bind {α β : Type} {p : Prog T α} (h : p.StartsWr) (f : α → Prog T β) : (p >>= f).StartsWr := by
  obtain ⟨i, v, k, rfl⟩ := h
  exact ⟨i, v, _, rfl⟩

theorem Prog.StartsWr.forN {n : Nat} {body : Nat → Prog T Unit} (h : (body 0).StartsWr) : (RB.forN (n + 1) body).StartsWr := by
  induction n with
  | zero => exact h
  | succ n ih => exact ih.bind _

theorem Prog.StartsWr.forI {n : Int} {body : Int → Prog T Unit} (hn : 0 < n) (h : (body 0).StartsWr) : (RB.forI 0 n body).StartsWr := by
  unfold RB.forI
  rw [show (n - 0).toNat = (n.toNat - 1) + 1 by omega]
  exact Prog.StartsWr.forN (by simpa using h)

theorem Prog.StartsWr.step {p : Prog T Unit} (h : p.StartsWr) {b : Buf T} (hb : ∀ i, b i = .none) : ∃ s, Prog.step p b = (.ub, s) := by
  obtain ⟨i, v, k, rfl⟩ := h
  refine ⟨b, ?_⟩
  simp only [Prog.step]
  rw [M.bind_ub]
  simp [M.wr, hb i]

theorem Prog.StartsWr.run {p : Prog T Unit} (h : p.StartsWr) {b : Buf T} (hb : ∀ i, b i = .none) : ∃ s, p.run b = (.ub, s) := by
  obtain ⟨i, v, k, rfl⟩ := h
  refine ⟨b, ?_⟩
  simp only [Prog.run]
  rw [M.bind_ub]
  simp [M.wr, hb i]

/-- A parallel loop whose iterations begin with a store is undefined on an array without elements. -/
theorem parForI_store_undef {sched : List Nat} {n : Int} {body : Int → Prog T Unit} (hn : 0 < n) (h : ∀ j, 0 ≤ j → j < n → (body j).StartsWr) {b : Buf T}
    (hb : ∀ i, b i = .none) : ∃ s, parForI sched 0 n body b = (.ub, s) := by
  unfold parForI
  have h' : ∀ k : Nat, k < (n - 0).toNat → ((fun k : Nat => body (0 + k)) k).StartsWr := fun k hk => h _ (by omega) (by omega)
  have hn' : 0 < (n - 0).toNat := by omega
  generalize (fun k : Nat => body (0 + k)) = f at h'
  generalize (n - 0).toNat = m at h' hn'
  induction sched with
  | nil =>
    unfold parFor
    obtain ⟨m, rfl⟩ : ∃ r, m = r + 1 := ⟨m - 1, by omega⟩
    clear hn'
    induction m with
    | zero =>
      obtain ⟨s, hs⟩ := (h' 0 (by omega)).run hb
      refine ⟨s, ?_⟩
      rw [RB.forN, M.bind_ok (show RB.forN 0 (fun i => (f i).run.terminating) b = (.ok (), b) from rfl)]
      simp only [M.terminating, hs]
    | succ m ih =>
      obtain ⟨s, hs⟩ := ih fun k hk => h' k (by omega)
      exact ⟨s, by rw [RB.forN, M.bind_ub hs]⟩
  | cons t rest ih =>
    unfold parFor
    by_cases ht : t < m
    · rw [if_pos ht]
      obtain ⟨s, hs⟩ := (h' t ht).step hb
      exact ⟨s, by rw [M.bind_ub hs]⟩
    · rw [if_neg ht]; exact ih

/-- A parallel loop whose iterations do nothing does nothing. -/
theorem parForI_ret {sched : List Nat} {n : Int} {body : Int → Prog T Unit} (h : ∀ j, 0 ≤ j → j < n → body j = pure ()) (b : Buf T) :
    parForI sched 0 n body b = (.ok (), b) := by
  unfold parForI
  have h' : ∀ k : Nat, k < (n - 0).toNat → (fun k : Nat => body (0 + k)) k = pure () := fun k hk => h _ (by omega) (by omega)
  generalize (fun k : Nat => body (0 + k)) = f at h'
  generalize (n - 0).toNat = m at h'
  induction sched generalizing f with
  | nil =>
    unfold parFor
    induction m with
    | zero => rfl
    | succ m ih =>
      rw [RB.forN, M.bind_ok (ih fun k hk => h' k (by omega)), h' m (by omega)]
      rfl
  | cons t rest ih =>
    unfold parFor
    by_cases ht : t < m
    · rw [if_pos ht, h' t ht, M.bind_ok (show Prog.step (pure () : Prog T Unit) b = (.ok (pure ()), b) from rfl)]
      refine ih _ fun k hk => ?_
      by_cases hkt : k = t
      · subst hkt; rw [Function.update_self]
      · rw [Function.update_of_ne hkt]; exact h' k hk
    · rw [if_neg ht]; exact ih _ h'

/-- A vector of an empty window that starts inside a counter block: nothing is written. -/
theorem fillRow_nothing {gen : ZMod N → K → Res (Buf T)} {L : Int} {c : ZMod N} {k : K} {lda stride fs cs ls row : Int} {one : Prop} [Decidable one] (h1 : one)
    (hgen : ∀ c, ∃ a, gen c k = .ok a) (hs : ∃ v, safeIntProduct stride row = .ok v) : fillRow gen L c k lda stride fs 0 cs cs ls one row = pure () := by
  obtain ⟨v, hv⟩ := hs
  obtain ⟨a, ha⟩ := hgen (ctrIncr c v)
  unfold fillRow
  rw [hv]
  simp only [Prog.lift, if_pos h1]
  show (Prog.lift (gen (ctrIncr c v) k) >>= _) = _
  rw [ha]
  rfl

/-- A vector of an empty window that starts at a multiple of the block length: a whole block is written. -/
theorem fillRow_store {gen : ZMod N → K → Res (Buf T)} {L : Int} {c : ZMod N} {k : K} {lda stride cs ce ls row : Int} {one : Prop} [Decidable one] (hL : 0 < L)
    (hgen : ∀ c, ∃ a v, gen c k = .ok a ∧ a 0 = .val v) (hs : ∃ v, safeIntProduct stride row = .ok v) :
    (fillRow gen L c k lda stride 0 L cs ce ls one row).StartsWr := by
  obtain ⟨v, hv⟩ := hs
  obtain ⟨a, x, ha, hx⟩ := hgen (ctrIncr c v)
  unfold fillRow
  rw [hv]
  simp only [Prog.lift]
  show (Prog.lift (gen (ctrIncr c v) k) >>= _).StartsWr
  rw [ha, show (Prog.lift (.ok a) : Prog T (Buf T)) = pure a from rfl, pure_bind]
  refine Prog.StartsWr.bind ?_ _
  refine Prog.StartsWr.forI hL ?_
  rw [show (0 : Int) + 0 = 0 from rfl, Buf.rd_val hx]
  exact ⟨_, _, _, rfl⟩

/-- The position of the first entry of a window in the padded order. -/
theorem padded_pos {L nCols ro co : Int} (hL : 0 < L) (hn : 0 < nCols) (hro : 0 ≤ ro) (hco : 0 ≤ co) (hin : co ≤ nCols) :
    ∃ q, 0 ≤ q ∧ (ro * nCols + co + (ro * nCols + co).tdiv nCols * (if nCols.tmod L ≠ 0 then L - nCols.tmod L else 0)) = L * q + (if co < nCols then co else 0) ∧
      (q = 0 ↔ ro = 0 ∧ co < nCols) := by
  have hcv := countersPerVector_nonneg (n := nCols) hL hn.le
  have hpad := pad_div (n := nCols) hL
  have hcv1 : 0 < countersPerVector L nCols := by
    unfold countersPerVector
    have := (Int.le_ediv_iff_mul_le (a := 1) (b := nCols + L - 1) hL).mpr (by omega)
    omega
  rw [Int.tmod_eq_emod_of_nonneg hn.le]
  have hptr0 : 0 ≤ ro * nCols + co := by have := mul_nonneg hro hn.le; omega
  rw [Int.tdiv_eq_ediv_of_nonneg hptr0, show ro * nCols + co = co + nCols * ro by ring, Int.add_mul_ediv_left _ _ (by omega)]
  set pad := (if nCols % L ≠ 0 then L - nCols % L else 0)
  by_cases hlt : co < nCols
  · refine ⟨countersPerVector L nCols * ro, mul_nonneg hcv hro, ?_, ?_⟩
    · rw [Int.ediv_eq_zero_of_lt hco hlt, zero_add, if_pos hlt, show co + nCols * ro + ro * pad = (nCols + pad) * ro + co by ring, hpad]; ring
    · rw [mul_eq_zero]
      constructor
      · rintro (h | h)
        · omega
        · exact ⟨h, hlt⟩
      · rintro ⟨h, -⟩; exact Or.inr h
  · have : co = nCols := by omega
    subst this
    refine ⟨countersPerVector L co * (ro + 1), mul_nonneg hcv (by omega), ?_, ?_⟩
    · rw [Int.ediv_self (by omega), if_neg hlt, show co + co * ro + (1 + ro) * pad = (co + pad) * (ro + 1) by ring, hpad]; ring
    · have := mul_pos hcv1 (show 0 < ro + 1 by omega)
      constructor
      · intro h; omega
      · rintro ⟨-, h⟩; omega

theorem empty_pos {L q co : Int} (hL : 2 ≤ L) (q0 : 0 ≤ q) (hco : 0 ≤ co) (h : co = 0 ∧ q = 0 ∨ co % L ≠ 0) :
    (L * q + co - 1).tdiv L = (L * q + co).tdiv L ∧ (L * q + co - 1).tmod L + 1 = (L * q + co).tmod L := by
  have hLq : 0 ≤ L * q := mul_nonneg (by omega) q0
  rcases h with ⟨rfl, rfl⟩ | hm
  · rw [mul_zero, zero_add, zero_sub, Int.neg_tdiv, Int.neg_tmod, Int.tdiv_eq_ediv_of_nonneg (by omega), Int.tmod_eq_emod_of_nonneg (by omega), Int.ediv_eq_zero_of_lt (by omega) (by omega),
      Int.emod_eq_of_lt (by omega) (by omega), Int.tdiv_eq_ediv_of_nonneg le_rfl, Int.tmod_eq_emod_of_nonneg le_rfl]
    simp
  · have hc : 0 < co := by
      by_contra hc
      have : co = 0 := by omega
      subst this; simp at hm
    have m0 := Int.emod_nonneg co (show L ≠ 0 by omega)
    have m1 := Int.emod_lt_of_pos co (show 0 < L by omega)
    have m2 := Int.mul_ediv_add_emod co L
    rw [Int.tdiv_eq_ediv_of_nonneg (by omega), Int.tdiv_eq_ediv_of_nonneg (by omega), Int.tmod_eq_emod_of_nonneg (by omega), Int.tmod_eq_emod_of_nonneg (by omega)]
    have e1 : L * q + co = co % L + L * (q + co / L) := by rw [mul_add]; omega
    have e2 : L * q + co - 1 = (co % L - 1) + L * (q + co / L) := by rw [mul_add]; omega
    rw [e2, Int.add_mul_ediv_left _ _ (by omega), Int.add_mul_emod_self_left, e1, Int.add_mul_ediv_left _ _ (by omega), Int.add_mul_emod_self_left,
      Int.ediv_eq_zero_of_lt (a := co % L - 1) (by omega) (by omega), Int.ediv_eq_zero_of_lt (a := co % L) (by omega) (by omega), Int.emod_eq_of_lt (a := co % L - 1) (by omega) (by omega),
      Int.emod_emod_of_dvd _ (dvd_refl L)]
    exact ⟨rfl, by omega⟩

theorem block_pos {L q : Int} (hL : 2 ≤ L) (q0 : 0 < q) :
    (L * q - 1).tdiv L = q - 1 ∧ (L * q).tdiv L = q ∧ (L * q).tmod L = 0 := by
  have hLq : 0 < L * q := mul_pos (by omega) q0
  rw [Int.tdiv_eq_ediv_of_nonneg (by omega), Int.tdiv_eq_ediv_of_nonneg (by omega), Int.tmod_eq_emod_of_nonneg (by omega)]
  refine ⟨?_, Int.mul_ediv_cancel_left _ (by omega), Int.mul_emod_right _ _⟩
  rw [show L * q - 1 = (L - 1) + L * (q - 1) by ring, Int.add_mul_ediv_left _ _ (by omega), Int.ediv_eq_zero_of_lt (by omega) (by omega), zero_add]

theorem stride_ok {L nCols nSrows row : Int} (hL : 0 < L) (hn : 0 < nCols) (hfit : countersPerVector L nCols * nSrows ≤ intMax 64) (h0 : 0 ≤ row) (h1 : row < nSrows) :
    ∃ v, safeIntProduct ((nCols + if nCols.tmod L ≠ 0 then L - nCols.tmod L else 0).tdiv L) row = .ok v := by
  have hcv := countersPerVector_nonneg (n := nCols) hL hn.le
  have hpad := pad_div (n := nCols) hL
  rw [Int.tmod_eq_emod_of_nonneg hn.le, hpad, Int.tdiv_eq_ediv_of_nonneg (mul_nonneg hL.le hcv), Int.mul_ediv_cancel_left _ (by omega)]
  exact ⟨_, safeIntProduct_ok hcv h0 ((Int.mul_le_mul_of_nonneg_left h1.le hcv).trans hfit)⟩

/-- Filling an empty window when nothing is written. -/
theorem fillSubmat_empty {sched : List Nat} {gen : ZMod N → K → Res (Buf T)} {L nCols nSrows nScols ro co : Int} {seed : RNGState N K} {b : Buf T} (hL : 2 ≤ L)
    (hgen : ∀ c, ∃ a, gen c seed.key = .ok a) (hn : 0 < nCols) (hro : 0 ≤ ro) (hco : 0 ≤ co) (hin : co + nScols ≤ nCols)
    (hfit : countersPerVector L nCols * nSrows ≤ intMax 64)
    (h : nSrows = 0 ∧ 0 ≤ nScols ∨ nScols = 0 ∧ ((ro = 0 ∧ co = 0) ∨ (co < nCols ∧ co % L ≠ 0))) :
    M.wp (fillDenseSubmatImpl sched gen L nCols nSrows nScols (ro * nCols + co) seed 0) b (fun _ b' => b' = b) := by
  unfold fillDenseSubmatImpl
  simp only [M.wp_bind, M.wp_require, M.wp_ubIf]
  refine ⟨Or.inl (le_refl 0), by omega, by omega, ?_⟩
  rcases h with ⟨rfl, hs⟩ | ⟨rfl, h⟩
  · exact ⟨_, _, parForI_ret (fun j h0 h1 => by omega) b, M.wp_pure.mpr rfl⟩
  · obtain ⟨q, q0, e, hq⟩ := padded_pos (show 0 < L by omega) hn hro hco (by omega)
    rw [e, add_zero]
    have hcase : co < nCols ∧ (co = 0 ∧ q = 0 ∨ co % L ≠ 0) := by
      rcases h with ⟨h1, h2⟩ | ⟨h1, h2⟩
      · exact ⟨by omega, Or.inl ⟨h2, hq.mpr ⟨h1, by omega⟩⟩⟩
      · exact ⟨h1, Or.inr h2⟩
    rw [if_pos hcase.1]
    obtain ⟨k1, k2⟩ := empty_pos hL q0 hco hcase.2
    refine ⟨_, _, parForI_ret (fun j h0 h1 => ?_) b, M.wp_pure.mpr rfl⟩
    rw [k1, k2, if_pos rfl, sub_self]
    exact fillRow_nothing rfl hgen (stride_ok (by omega) hn hfit h0 h1)

/-- Filling an empty window when a block is written: undefined. -/
theorem fillSubmat_undef {sched : List Nat} {gen : ZMod N → K → Res (Buf T)} {L nCols nSrows ro co : Int} {seed : RNGState N K} {b : Buf T} (hL : 2 ≤ L)
    (hgen : ∀ c, ∃ a v, gen c seed.key = .ok a ∧ a 0 = .val v) (hn : 0 < nCols) (hro : 0 ≤ ro) (hco : 0 ≤ co) (hr : 0 < nSrows) (hin : co ≤ nCols)
    (hfit : countersPerVector L nCols * nSrows ≤ intMax 64) (h : ¬ ((ro = 0 ∧ co = 0) ∨ (co < nCols ∧ co % L ≠ 0))) (hb : ∀ i, b i = .none) :
    M.Undef (fillDenseSubmatImpl sched gen L nCols nSrows 0 (ro * nCols + co) seed 0) b := by
  obtain ⟨q, q0, e, hq⟩ := padded_pos (show 0 < L by omega) hn hro hco (by omega)
  have hq1 : ∃ q1, 0 < q1 ∧ L * q + (if co < nCols then co else 0) = L * q1 := by
    push Not at h
    by_cases hlt : co < nCols
    · have hm : co % L = 0 := h.2 hlt
      have hd := Int.mul_ediv_add_emod co L
      have h0 : 0 ≤ co / L := Int.ediv_nonneg hco (by omega)
      refine ⟨q + co / L, ?_, by rw [if_pos hlt, mul_add]; omega⟩
      by_contra hc
      have hq' : q = 0 := by omega
      have := (hq.mp hq').1
      have h2 := h.1 this
      have h3 : co / L = 0 := by omega
      rw [h3, mul_zero, hm] at hd
      omega
    · refine ⟨q, ?_, by rw [if_neg hlt, add_zero]⟩
      rcases eq_or_lt_of_le q0 with h1 | h1
      · exact absurd (hq.mp h1.symm).2 hlt
      · exact h1
  obtain ⟨q1, hq10, e1⟩ := hq1
  obtain ⟨k1, k2, k3⟩ := block_pos hL hq10
  unfold fillDenseSubmatImpl
  refine M.Undef.after (M.wp_require.mpr ⟨Or.inl (le_refl 0), ?_⟩)
  refine M.Undef.after (M.wp_require.mpr ⟨by omega, ?_⟩)
  refine M.Undef.after (M.wp_ubIf.mpr ⟨by omega, ?_⟩)
  rw [e, e1]
  dsimp only
  rw [add_zero, k1, k2, k3]
  obtain ⟨s, hs⟩ := parForI_store_undef (sched := sched) hr (fun j h0 h1 => fillRow_store (gen := gen) (L := L) (c := ctrIncr seed.counter q1) (k := seed.key)
    (lda := if (0 : Int) ≤ 0 then 0 else 0)
    (stride := (nCols + if nCols.tmod L ≠ 0 then L - nCols.tmod L else 0).tdiv L) (cs := q1) (ce := q1 - 1) (ls := (L * q1 - 1).tmod L + 1) (one := q1 = q1 - 1) (by omega) hgen
    (stride_ok (by omega) hn hfit h0 h1)) hb
  rw [if_neg (show ¬ q1 = q1 - 1 by omega), sub_zero]
  exact M.Undef.bind (by unfold M.Undef; rw [hs])

theorem scaleByFamily_empty [Mul T] {family : ScalarDist} {sqrt3 : T} {b : Buf T} : M.wp (scaleByFamily family 0 sqrt3) b (fun _ b' => b' = b) := by
  cases family with
  | Gaussian => simp only [scaleByFamily, M.wp_pure]
  | Uniform =>
    refine M.wp_mono (scaleByFamily_spec (family := .Uniform) (sqrt3 := sqrt3) (b := b) (v := fun _ => sqrt3) le_rfl (fun p h0 h1 => by omega)) ?_
    rintro - b' ⟨-, h⟩
    funext p; exact h p (by omega)

theorem flipWork_empty (t : T) {layout natural : Layout} {m n : Int} {b : Buf T} (hm : 0 ≤ m) (hn : 0 ≤ n) (h : m * n = 0) :
    M.wp (flipWork layout natural m n) b (fun _ b' => b' = b) := by
  have hz : ∀ i j, ¬ InR m n i j := by
    rintro i j ⟨h1, h2, h3, h4⟩
    have := mul_pos (show 0 < m by omega) (show 0 < n by omega)
    omega
  refine M.wp_mono (flipWork_spec (A := fun _ _ => t) hm hn (fun i j hij => absurd hij (hz i j)) (fun p h0 h1 => by omega)) ?_
  rintro - b' ⟨-, hb⟩
  funext p; exact hb p (by omega)

/-- Filling an empty window that `FillOk` admits: nothing is written. -/
theorem fillUnpacked_empty [Mul T] {sched : List Nat} {G : Gen N K W T} {sqrt3 : T} {layout : Layout} {D : DenseDist} {m n ro co : Int} {seed : RNGState N K}
    {b : Buf T} (hG : G.Ok) (hD : DenseDistOk D) (hm : 0 ≤ m) (hn : 0 ≤ n) (h0 : m * n = 0) (hro : 0 ≤ ro) (hco : 0 ≤ co) (hrm : ro + m ≤ D.nRows)
    (hcn : co + n ≤ D.nCols) (hF : FillOk G.len D m n ro co) : M.wp (fillDenseUnpacked sched G sqrt3 layout D m n ro co seed) b (fun _ b' => b' = b) := by
  obtain ⟨hR, hC, hfit, hlay⟩ := denseDist_facts hD
  have hlen : 2 ≤ G.len := by rcases hG with h | h <;> rw [h] <;> decide
  have hz : m = 0 ∨ n = 0 := by rcases mul_eq_zero.mp h0 with h | h <;> [left; right] <;> exact h
  have hgen : ∀ c, ∃ a, G.generate D.family c seed.key = .ok a := fun c => by
    obtain ⟨a, h, -⟩ := generate_spec hG D.family c seed.key
    exact ⟨a, h⟩
  have hne : ¬ (0 < m ∧ 0 < n) := by omega
  unfold fillDenseUnpacked
  simp only [M.wp_bind, M.wp_require, M.wp_lift]
  refine ⟨by omega, by omega, ?_⟩
  rcases hlay with ⟨hl, hmaj, hmin⟩ | ⟨hl, hmaj, hmin⟩
  · simp only [hl, if_true, hmaj]
    have hF' : n = 0 ∨ (ro = 0 ∧ co = 0) ∨ (ro < D.nRows ∧ ro % G.len ≠ 0) := by
      rcases hF with h | h
      · exact absurd h hne
      · rw [hl] at h; exact h
    refine ⟨_, safeIntProduct_ok hco (by omega) (by nlinarith), ?_⟩
    rw [show ro + co * D.nRows = co * D.nRows + ro by ring]
    refine M.wp_mono (fillSubmat_empty hlen hgen hR hco hro hrm ?_ ?_) ?_
    · have h1 := countersPerVector_le (n := D.nRows) (L := G.len) (by omega) (by omega)
      have h0 := countersPerVector_nonneg (n := D.nRows) (L := G.len) (by omega) (by omega)
      nlinarith
    · rcases hF' with h | h | h
      · exact Or.inl ⟨h, hm⟩
      · rcases hz with h1 | h1
        · exact Or.inr ⟨h1, Or.inl ⟨h.2, h.1⟩⟩
        · exact Or.inl ⟨h1, hm⟩
      · rcases hz with h1 | h1
        · exact Or.inr ⟨h1, Or.inr h⟩
        · exact Or.inl ⟨h1, hm⟩
    · rintro s b1 rfl
      rw [show n * m = 0 by rw [mul_comm]; exact h0]
      refine M.wp_mono scaleByFamily_empty ?_
      rintro - b2 rfl
      refine M.wp_mono (flipWork_empty sqrt3 hm hn h0) ?_
      rintro - b3 rfl
      rw [M.wp_pure]
  · simp only [hl, reduceCtorEq, if_false, hmaj]
    have hF' : m = 0 ∨ (ro = 0 ∧ co = 0) ∨ (co < D.nCols ∧ co % G.len ≠ 0) := by
      rcases hF with h | h
      · exact absurd h hne
      · rw [hl] at h; exact h
    refine ⟨_, safeIntProduct_ok hro (by omega) (by nlinarith), ?_⟩
    refine M.wp_mono (fillSubmat_empty hlen hgen hC hro hco hcn ?_ ?_) ?_
    · have h1 := countersPerVector_le (n := D.nCols) (L := G.len) (by omega) (by omega)
      have h0 := countersPerVector_nonneg (n := D.nCols) (L := G.len) (by omega) (by omega)
      nlinarith
    · rcases hF' with h | h | h
      · exact Or.inl ⟨h, hn⟩
      · rcases hz with h1 | h1
        · exact Or.inl ⟨h1, hn⟩
        · exact Or.inr ⟨h1, Or.inl h⟩
      · rcases hz with h1 | h1
        · exact Or.inl ⟨h1, hn⟩
        · exact Or.inr ⟨h1, Or.inr h⟩
    · rintro s b1 rfl
      rw [h0]
      refine M.wp_mono scaleByFamily_empty ?_
      rintro - b2 rfl
      refine M.wp_mono (flipWork_empty sqrt3 hm hn h0) ?_
      rintro - b3 rfl
      rw [M.wp_pure]

/-- Filling a window that `FillOk` excludes: a block is written into an array without elements. -/
theorem fillUnpacked_undef [Mul T] {sched : List Nat} {G : Gen N K W T} {sqrt3 : T} {layout : Layout} {D : DenseDist} {m n ro co : Int} {seed : RNGState N K}
    {b : Buf T} (hG : G.Ok) (hD : DenseDistOk D) (hm : 0 ≤ m) (hn : 0 ≤ n) (hro : 0 ≤ ro) (hco : 0 ≤ co) (hrm : ro + m ≤ D.nRows)
    (hcn : co + n ≤ D.nCols) (hF : ¬ FillOk G.len D m n ro co) (hb : ∀ i, b i = .none) : M.Undef (fillDenseUnpacked sched G sqrt3 layout D m n ro co seed) b := by
  obtain ⟨hR, hC, hfit, hlay⟩ := denseDist_facts hD
  have hlen : 2 ≤ G.len := by rcases hG with h | h <;> rw [h] <;> decide
  have hgen : ∀ c, ∃ a v, G.generate D.family c seed.key = .ok a ∧ a 0 = .val v := fun c => by
    obtain ⟨a, h, h1⟩ := generate_spec hG D.family c seed.key
    exact ⟨a, _, h, h1 0 le_rfl (by omega)⟩
  unfold FillOk at hF
  rw [not_or] at hF
  obtain ⟨hne, hF⟩ := hF
  unfold fillDenseUnpacked
  refine M.Undef.after ?_
  rw [M.wp_require]; refine ⟨by omega, ?_⟩
  refine M.Undef.after ?_
  rw [M.wp_require]; refine ⟨by omega, ?_⟩
  refine M.Undef.after ?_
  rw [M.wp_lift]
  rcases hlay with ⟨hl, hmaj, hmin⟩ | ⟨hl, hmaj, hmin⟩
  · simp only [hl, if_true, hmaj]
    rw [hl] at hF
    simp only [not_or] at hF
    have hm0 : m = 0 := by omega
    subst hm0
    refine ⟨_, safeIntProduct_ok hco (by omega) (by nlinarith), ?_⟩
    rw [show ro + co * D.nRows = co * D.nRows + ro by ring]
    refine M.Undef.bind (fillSubmat_undef hlen hgen hR hco hro (by omega) (by omega) ?_ ?_ hb)
    · have h1 := countersPerVector_le (n := D.nRows) (L := G.len) (by omega) (by omega)
      have h0 := countersPerVector_nonneg (n := D.nRows) (L := G.len) (by omega) (by omega)
      nlinarith
    · rintro (h | h)
      · exact hF.2.1 ⟨h.2, h.1⟩
      · exact hF.2.2 h
  · simp only [hl, reduceCtorEq, if_false, hmaj]
    rw [hl] at hF
    simp only [not_or] at hF
    have hn0 : n = 0 := by omega
    subst hn0
    refine ⟨_, safeIntProduct_ok hro (by omega) (by nlinarith), ?_⟩
    refine M.Undef.bind (fillSubmat_undef hlen hgen hC hro hco (by omega) (by omega) ?_ ?_ hb)
    · have h1 := countersPerVector_le (n := D.nCols) (L := G.len) (by omega) (by omega)
      have h0 := countersPerVector_nonneg (n := D.nCols) (L := G.len) (by omega) (by omega)
      nlinarith
    · rintro (h | h)
      · exact hF.2.1 h
      · exact hF.2.2 h

end RB
