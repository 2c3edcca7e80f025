import Verif.Props.Util64
import Verif.Lemmas.Sparse64

/-!
# C112: conversions and re-indexing of sparse matrices with index types of `w` bits

See `Model/Util64.lean` and `Spec/Util64.lean`.
-/

namespace RB
open Spec
variable {T : Type}

/-! ## coo_to_csc, coo_to_csr -/

/-- C112 (coo_to_csc). With a target of `w`-bit indices the conversion ends in the same way as with unbounded integers, changes the source in the same way,
and leaves the indices and pointers of the unbounded result modulo 2^w. It never reports that they did not fit. -/
theorem C112_csc_narrow [Zero T] {w : Nat} (hw : 0 < w) (srt : SortFn T) (coo : CooMat T) (csc : CscMat T) :
    cooToCscW w srt (coo, narrowCsc w csc) =
      ((cooToCsc srt (coo, csc)).1, (cooToCsc srt (coo, csc)).2.1, narrowCsc w (cooToCsc srt (coo, csc)).2.2) := by
  show M.SimAt (fun s : CooMat T × CscMat T => (s.1, narrowCsc w s.2)) (coo, csc) (cooToCsc srt) (cooToCscW w srt)
  unfold cooToCsc cooToCscW
  refine M.SimAt.get_bind ?_
  refine M.SimAt.bind (M.SimAt.require Iff.rfl) fun _ s1 _ => ?_
  refine M.SimAt.bind (M.SimAt.require Iff.rfl) fun _ s1 _ => ?_
  refine M.SimAt.bind (M.SimAt.require Iff.rfl) fun _ s1 _ => ?_
  refine M.SimAt.bind (M.SimAt.require Iff.rfl) fun _ s1 _ => ?_
  refine M.SimAt.bind (M.SimAt.zoom (μ := id) rfl (fun _ => rfl) rfl) fun _ s1 _ => ?_
  refine M.SimAt.bind (M.SimAt.zoom (μ := narrowCsc w) rfl (fun _ => rfl) (reserveCsc_sim hw)) fun _ s1 _ => ?_
  refine M.SimAt.get_bind ?_
  refine M.SimAt.zoom (μ := narrowCs w) ?_ (fun b => ?_) (compressSweepW_sim hw)
  · simp only [narrowCsc, CscMat.bufs, narrowCs, ptr_narrow]
  · rcases s1 with ⟨c, A⟩
    simp only [narrowCsc, CscMat.withBufs, narrowCs, Option.map_map]
    congr 2

/-- C112 (coo_to_csr). The same for CSR. -/
theorem C112_csr_narrow [Zero T] {w : Nat} (hw : 0 < w) (srt : SortFn T) (coo : CooMat T) (csr : CsrMat T) :
    cooToCsrW w srt (coo, narrowCsr w csr) =
      ((cooToCsr srt (coo, csr)).1, (cooToCsr srt (coo, csr)).2.1, narrowCsr w (cooToCsr srt (coo, csr)).2.2) := by
  show M.SimAt (fun s : CooMat T × CsrMat T => (s.1, narrowCsr w s.2)) (coo, csr) (cooToCsr srt) (cooToCsrW w srt)
  unfold cooToCsr cooToCsrW
  refine M.SimAt.get_bind ?_
  refine M.SimAt.bind (M.SimAt.require Iff.rfl) fun _ s1 _ => ?_
  refine M.SimAt.bind (M.SimAt.require Iff.rfl) fun _ s1 _ => ?_
  refine M.SimAt.bind (M.SimAt.require Iff.rfl) fun _ s1 _ => ?_
  refine M.SimAt.bind (M.SimAt.require Iff.rfl) fun _ s1 _ => ?_
  refine M.SimAt.bind (M.SimAt.zoom (μ := id) rfl (fun _ => rfl) rfl) fun _ s1 _ => ?_
  refine M.SimAt.bind (M.SimAt.zoom (μ := narrowCsr w) rfl (fun _ => rfl) (reserveCsr_sim hw)) fun _ s1 _ => ?_
  refine M.SimAt.get_bind ?_
  refine M.SimAt.zoom (μ := narrowCs w) ?_ (fun b => ?_) (compressSweepW_sim hw)
  · simp only [narrowCsr, CsrMat.bufs, narrowCs, ptr_narrow]
  · rcases s1 with ⟨c, A⟩
    simp only [narrowCsr, CsrMat.withBufs, narrowCs, Option.map_map]
    congr 2

/-- The number of entries and all of their `minor` indices are representable in `w` bits. -/
def Spec.IndicesFit (w : Nat) (minor : Entry T → Int) (E : List (Entry T)) : Prop := (E.length : Int) ≤ intMax w ∧ ∀ e ∈ E, minor e ≤ intMax w

theorem csIs_narrow {w : Nat} (hw : 0 < w) {major minor : Entry T → Int} {n : Int} {pt idxs : Buf Int} {vals : Buf T} {E : List (Entry T)} (hn : 0 ≤ n)
    (h : CsIs major minor n 0 pt idxs vals E) (h0 : ∀ e ∈ E, 0 ≤ minor e) :
    (IndicesFit w minor E → CsIs major minor n 0 (narrow w pt) (narrow w idxs) vals E) ∧
    ((∃ E', E'.Perm E ∧ CsIs major minor n 0 (narrow w pt) (narrow w idxs) vals E') → IndicesFit w minor E) := by
  obtain ⟨⟨p, p1, p2, p3, p4, p5⟩, hd⟩ := h
  constructor
  · rintro ⟨f1, f2⟩
    have mono : ∀ k : Nat, (k : Int) ≤ n → 0 ≤ p k ∧ p k + 0 ≤ p k := fun k hk => by
      induction k with
      | zero => rw [Nat.cast_zero, p2]; omega
      | succ k ih => have := ih (by omega); have := p4 k (by omega) (by omega); push_cast; omega
    have mono' : ∀ k : Nat, (k : Int) ≤ n → p (n - k) ≤ E.length := fun k hk => by
      induction k with
      | zero => rw [Nat.cast_zero, sub_zero, p3]
      | succ k ih =>
        have h1 := ih (by omega)
        have h2 := p4 (n - (k + 1)) (by omega) (by omega)
        rw [show n - ((k : Int) + 1) + 1 = n - k by ring] at h2
        push_cast; omega
    refine ⟨⟨p, fun j j0 j1 => ?_, p2, p3, p4, p5⟩, fun l hl => ⟨(hd l hl).1, ?_⟩⟩
    · unfold narrow
      rw [p1 j j0 j1]
      have a := mono j.toNat (by omega)
      have b := mono' (n - j).toNat (by omega)
      rw [Int.toNat_of_nonneg j0] at a
      rw [Int.toNat_of_nonneg (by omega), sub_sub_cancel] at b
      show Cell.val (wrapInt w (p j)) = _
      rw [wrapInt_self hw (by omega) (by omega)]
    · unfold narrow
      rw [(hd l hl).2]
      show Cell.val (wrapInt w _) = _
      have hm : E[l] ∈ E := List.getElem_mem hl
      rw [wrapInt_self hw (by have := h0 _ hm; omega) (by have := f2 _ hm; omega)]
  · rintro ⟨E', hp, ⟨⟨q, q1, q2, q3, q4, q5⟩, hd'⟩⟩
    have hlen : (E'.length : Int) = E.length := by rw [hp.length_eq]
    refine ⟨?_, fun e he => ?_⟩
    · have := q1 n hn le_rfl
      unfold narrow at this
      rw [p1 n hn le_rfl, p3, q3, hlen] at this
      have e : wrapInt w E.length = E.length := by simpa using this
      rw [← e]
      exact (wrapInt_range _ hw).2
    · obtain ⟨l, hl, rfl⟩ := List.mem_iff_getElem.mp (hp.mem_iff.mpr he)
      have := (hd' l hl).2
      unfold narrow at this
      rw [(hd l (by have := hp.length_eq; omega)).2] at this
      have e : wrapInt w (minor E[l] + 0) = minor E'[l] + 0 := by simpa using this
      rw [add_zero, add_zero] at e
      rw [← e]
      exact (wrapInt_range _ hw).2

/-- C112 (coo_to_csc). C26 with a target of `w`-bit indices: it holds if all row indices and the number of entries are representable, and only then.
In no case is an error reported. -/
theorem C112_csc_partial [Zero T] {w : Nat} (hw : 0 < w) {srt : SortFn T} (hs : SortOk srt) {coo : CooMat T} {csc : CscMat T} {E : List (Entry T)}
    (h : CooIs coo E) (hr : InRange coo.nRows coo.nCols E) (hb : coo.indexBase = .Zero) (hc : CscEmpty csc) (hp : csc.colptr = none)
    (hd : csc.nRows = coo.nRows ∧ csc.nCols = coo.nCols) :
    M.wp (cooToCscW w srt) (coo, csc) (fun _ s =>
      (IndicesFit w Entry.row E → ∃ E', E'.Perm E ∧ SortedBy .CSC E' ∧ CscIs s.2 E' ∧ CooIs s.1 E') ∧
      ((∃ E', E'.Perm E ∧ CscIs s.2 E') → IndicesFit w Entry.row E) ∧
      s.2.nRows = coo.nRows ∧ s.2.nCols = coo.nCols ∧ s.2.indexBase = .Zero ∧ s.2.ownMemory = true ∧ s.1.sort = .CSC ∧
      s.1.nRows = coo.nRows ∧ s.1.nCols = coo.nCols ∧ s.1.indexBase = .Zero) := by
  have hfresh : narrowCsc w csc = csc := by
    obtain ⟨a, b, c, d, e, v, r, cl⟩ := csc
    have h1 : r = none := hc.rowidxs
    have h2 : cl = none := hp
    subst h1 h2; rfl
  have hsim := C112_csc_narrow hw srt coo csc
  obtain ⟨_, ⟨c', A⟩, h1, E', g1, g2, g3, g4, g5, g6, g7, g8⟩ := C26_csc hs h hr hb hc hd
  rw [hfresh, h1] at hsim
  dsimp only at hsim g3 g4 g5 g6 g7 g8
  have hn : 0 ≤ A.nCols := by rw [g6, ← hd.2]; exact hc.nCols
  have hdat := g3.data
  rw [show A.indexBase.val = 0 by rw [g7]; rfl] at hdat
  have key := csIs_narrow hw hn hdat fun e he => (hr e (g1.mem_iff.mp he)).1
  have fit : IndicesFit w Entry.row E' ↔ IndicesFit w Entry.row E := by
    unfold IndicesFit; rw [g1.length_eq]; simp only [g1.mem_iff]
  have conv : ∀ F, CscIs (narrowCsc w A) F ↔ F.length = E'.length ∧ CsIs Entry.col Entry.row A.nCols 0 (narrow w (ptr A.colptr)) (narrow w (ptr A.rowidxs)) (ptr A.vals) F := by
    intro F
    constructor
    · rintro ⟨n1, n2⟩
      refine ⟨by have := g3.nnz; simp only [narrowCsc] at n1; omega, ?_⟩
      simpa only [narrowCsc, ptr_narrow, g7, show IndexBase.Zero.val = 0 from rfl] using n2
    · rintro ⟨n1, n2⟩
      refine ⟨by have := g3.nnz; simp only [narrowCsc]; omega, ?_⟩
      simpa only [narrowCsc, ptr_narrow, g7, show IndexBase.Zero.val = 0 from rfl] using n2
  refine ⟨_, _, hsim, fun hf => ⟨E', g1, g2, (conv E').mpr ⟨rfl, key.1 (fit.mpr hf)⟩, g4⟩, ?_, g5, g6, g7, g8.1, g8.2.1, g8.2.2.1, g8.2.2.2.1, g8.2.2.2.2⟩
  rintro ⟨F, f1, f2⟩
  exact fit.mp (key.2 ⟨F, f1.trans g1.symm, ((conv F).mp f2).2⟩)

/-- C112 (coo_to_csr). The same for CSR: the column indices and the number of entries must be representable. -/
theorem C112_csr_partial [Zero T] {w : Nat} (hw : 0 < w) {srt : SortFn T} (hs : SortOk srt) {coo : CooMat T} {csr : CsrMat T} {E : List (Entry T)}
    (h : CooIs coo E) (hr : InRange coo.nRows coo.nCols E) (hb : coo.indexBase = .Zero) (hc : CsrEmpty csr) (hp : csr.rowptr = none)
    (hd : csr.nRows = coo.nRows ∧ csr.nCols = coo.nCols) :
    M.wp (cooToCsrW w srt) (coo, csr) (fun _ s =>
      (IndicesFit w Entry.col E → ∃ E', E'.Perm E ∧ SortedBy .CSR E' ∧ CsrIs s.2 E' ∧ CooIs s.1 E') ∧
      ((∃ E', E'.Perm E ∧ CsrIs s.2 E') → IndicesFit w Entry.col E) ∧
      s.2.nRows = coo.nRows ∧ s.2.nCols = coo.nCols ∧ s.2.indexBase = .Zero ∧ s.2.ownMemory = true ∧ s.1.sort = .CSR ∧
      s.1.nRows = coo.nRows ∧ s.1.nCols = coo.nCols ∧ s.1.indexBase = .Zero) := by
  have hfresh : narrowCsr w csr = csr := by
    obtain ⟨a, b, c, d, e, v, r, cl⟩ := csr
    have h1 : cl = none := hc.colidxs
    have h2 : r = none := hp
    subst h1 h2; rfl
  have hsim := C112_csr_narrow hw srt coo csr
  obtain ⟨_, ⟨c', A⟩, h1, E', g1, g2, g3, g4, g5, g6, g7, g8⟩ := C26_csr hs h hr hb hc hd
  rw [hfresh, h1] at hsim
  dsimp only at hsim g3 g4 g5 g6 g7 g8
  have hn : 0 ≤ A.nRows := by rw [g5, ← hd.1]; exact hc.nRows
  have hdat := g3.data
  rw [show A.indexBase.val = 0 by rw [g7]; rfl] at hdat
  have key := csIs_narrow hw hn hdat fun e he => (hr e (g1.mem_iff.mp he)).2.2.1
  have fit : IndicesFit w Entry.col E' ↔ IndicesFit w Entry.col E := by
    unfold IndicesFit; rw [g1.length_eq]; simp only [g1.mem_iff]
  have conv : ∀ F, CsrIs (narrowCsr w A) F ↔ F.length = E'.length ∧ CsIs Entry.row Entry.col A.nRows 0 (narrow w (ptr A.rowptr)) (narrow w (ptr A.colidxs)) (ptr A.vals) F := by
    intro F
    constructor
    · rintro ⟨n1, n2⟩
      refine ⟨by have := g3.nnz; simp only [narrowCsr] at n1; omega, ?_⟩
      simpa only [narrowCsr, ptr_narrow, g7, show IndexBase.Zero.val = 0 from rfl] using n2
    · rintro ⟨n1, n2⟩
      refine ⟨by have := g3.nnz; simp only [narrowCsr]; omega, ?_⟩
      simpa only [narrowCsr, ptr_narrow, g7, show IndexBase.Zero.val = 0 from rfl] using n2
  refine ⟨_, _, hsim, fun hf => ⟨E', g1, g2, (conv E').mpr ⟨rfl, key.1 (fit.mpr hf)⟩, g4⟩, ?_, g5, g6, g7, g8.1, g8.2.1, g8.2.2.1, g8.2.2.2.1, g8.2.2.2.2⟩
  rintro ⟨F, f1, f2⟩
  exact fit.mp (key.2 ⟨F, f1.trans g1.symm, ((conv F).mp f2).2⟩)

/-- C112 (violated). A (2^31 + 1) x 1 matrix with one entry, in its last row, converted to CSC with 32-bit indices: no error, and the result does not hold
the entry. The conversion of its transpose to CSR does the same. -/
theorem C112_counterexample {srt : SortFn ℤ} (hs : SortOk srt) :
    CooIs (cooOf (2 ^ 31 + 1) 1 .Zero [⟨2 ^ 31, 0, (5 : ℤ)⟩]) [⟨2 ^ 31, 0, 5⟩] ∧ InRange (2 ^ 31 + 1) 1 [⟨2 ^ 31, 0, (5 : ℤ)⟩] ∧
    M.wp (cooToCscW 32 srt) (cooOf (2 ^ 31 + 1) 1 .Zero [⟨2 ^ 31, 0, (5 : ℤ)⟩], mkCsc (2 ^ 31 + 1) 1) (fun _ s =>
      ¬ ∃ E', E'.Perm [⟨2 ^ 31, 0, 5⟩] ∧ CscIs s.2 E') ∧
    M.wp (cooToCsrW 32 srt) (cooOf 1 (2 ^ 31 + 1) .Zero [⟨0, 2 ^ 31, (5 : ℤ)⟩], mkCsr 1 (2 ^ 31 + 1)) (fun _ s =>
      ¬ ∃ E', E'.Perm [⟨0, 2 ^ 31, 5⟩] ∧ CsrIs s.2 E') := by
  have r1 : InRange (2 ^ 31 + 1) 1 [⟨2 ^ 31, 0, (5 : ℤ)⟩] := by simp [InRange]
  have r2 : InRange 1 (2 ^ 31 + 1) [⟨0, 2 ^ 31, (5 : ℤ)⟩] := by simp [InRange]
  refine ⟨cooOf_is _ _ _ _, r1, ?_, ?_⟩
  · refine M.wp_mono (C112_csc_partial (w := 32) (by decide) hs (cooOf_is _ _ _ _) r1 rfl ⟨rfl, rfl, rfl, by simp [mkCsc], rfl, by simp [mkCsc]⟩ rfl ⟨rfl, rfl⟩) ?_
    rintro _ s ⟨-, h, -⟩ hc
    have := (h hc).2 _ (List.mem_singleton.mpr rfl)
    revert this; decide
  · refine M.wp_mono (C112_csr_partial (w := 32) (by decide) hs (cooOf_is _ _ _ _) r2 rfl ⟨rfl, rfl, rfl, by simp [mkCsr], rfl, by simp [mkCsr]⟩ rfl ⟨rfl, rfl⟩) ?_
    rintro _ s ⟨-, h, -⟩ hc
    have := (h hc).2 _ (List.mem_singleton.mpr rfl)
    revert this; decide

/-- The hypotheses of `C112_csc_partial` and `C112_csr_partial` are met, with indices that are representable. -/
example : CooIs (cooOf 3 3 .Zero sampleE) sampleE ∧ InRange (cooOf 3 3 .Zero sampleE).nRows (cooOf 3 3 .Zero sampleE).nCols sampleE ∧
    CscEmpty (mkCsc 3 3 : CscMat ℤ) ∧ CsrEmpty (mkCsr 3 3 : CsrMat ℤ) ∧ IndicesFit 32 Entry.row sampleE ∧ IndicesFit 32 Entry.col sampleE :=
  ⟨cooOf_is _ _ _ _, by simp [InRange, sampleE, cooOf], ⟨rfl, rfl, rfl, by simp [mkCsc], rfl, by simp [mkCsc]⟩,
    ⟨rfl, rfl, rfl, by simp [mkCsr], rfl, by simp [mkCsr]⟩, ⟨by decide, by unfold sampleE; decide⟩, ⟨by decide, by unfold sampleE; decide⟩⟩

/-! ## reindex_inplace -/

/-- Two loops with the same effect on every state of an invariant have the same effect. -/
theorem forI_congr_inv {σ : Type} {lo hi : Int} {f g : Int → M σ Unit} (Inv : Int → σ → Prop) {s : σ} (h0 : Inv lo s)
    (h : ∀ i s, lo ≤ i → i < hi → Inv i s → f i s = g i s ∧ ∀ s', g i s = (.ok (), s') → Inv (i + 1) s') : forI lo hi f s = forI lo hi g s := by
  have key : ∀ n : Nat, (n : Int) ≤ hi - lo → forI lo (lo + n) f s = forI lo (lo + n) g s ∧ ∀ s', forI lo (lo + n) g s = (.ok (), s') → Inv (lo + n) s' := by
    intro n
    induction n with
    | zero =>
      intro _
      have e : ∀ f : Int → M σ Unit, forI lo (lo + (0 : Nat)) f = pure () := fun f => by unfold forI; rw [show (lo + (0 : Nat) - lo).toNat = 0 by simp]; rfl
      rw [e, e]
      exact ⟨rfl, fun s' hs => by cases hs; simpa using h0⟩
    | succ n ih =>
      intro hn
      obtain ⟨h1, h2⟩ := ih (by omega)
      have e : ∀ f : Int → M σ Unit, forI lo (lo + (n + 1 : Nat)) f = forI lo (lo + n) f >>= fun _ => f (lo + n) := fun f => by
        unfold forI
        rw [show (lo + (n + 1 : Nat) - lo).toNat = n + 1 by omega, show (lo + (n : Int) - lo).toNat = n by omega]
        rfl
      rw [e, e]
      rcases hg : forI lo (lo + n) g s with ⟨r, s1⟩
      rw [hg] at h1
      cases r with
      | ok a =>
        cases a
        obtain ⟨k1, k2⟩ := h (lo + n) s1 (by omega) (by omega) (h2 s1 hg)
        rw [M.bind_ok h1, M.bind_ok hg, k1]
        refine ⟨rfl, fun s' hs => ?_⟩
        have := k2 s' hs
        rwa [add_assoc] at this
      | throw e => rw [M.bind_throw h1, M.bind_throw hg]; exact ⟨rfl, fun s' hs => by cases hs⟩
      | ub => rw [M.bind_ub h1, M.bind_ub hg]; exact ⟨rfl, fun s' hs => by cases hs⟩
  by_cases hle : lo ≤ hi
  · have := (key (hi - lo).toNat (by omega)).1
    rwa [show lo + ((hi - lo).toNat : Int) = hi by omega] at this
  · unfold forI
    rw [show (hi - lo).toNat = 0 by omega]; rfl

theorem addIdxW_fits {w : Nat} (hw : 0 < w) {x d : Int} (h0 : 0 ≤ x + d) (h1 : x + d ≤ intMax w) : addIdxW w x d = .ok (x + d) := by
  unfold addIdxW
  split_ifs
  · rw [wrapInt_self hw h0 h1]
  · refine if_pos ⟨?_, h1⟩
    have : (0 : Int) < 2 ^ (w - 1) := by positivity
    unfold intMin; omega

theorem M.wr_run {U : Type} {i : Int} {v : U} {b : Buf U} (h : b i ≠ .none) : M.wr i v b = (.ok (), b.set i v) := by
  unfold M.wr
  cases hb : b i with
  | none => exact absurd hb h
  | uninit => rfl
  | val x => rfl

theorem M.rd_run {U : Type} {i : Int} {v : U} {b : Buf U} (h : b i = .val v) : M.rd i b = (.ok v, b) := by
  show (b.rd i, b) = _
  rw [Buf.rd_val h]

theorem M.lift_run {σ β : Type} {v : β} {r : Res β} {s : σ} (h : r = .ok v) : M.lift r s = (.ok v, s) := by rw [h]; rfl

/-- The index at position `q` changed by `d`. -/
theorem shiftStep_run {w : Nat} {b : Buf Int} {q x y d : Int} (hb : b q = .val x) (hy : addIdxW w x d = .ok y) :
    (do let x ← M.rd q; let y ← M.lift (addIdxW w x d); M.wr q y : M (Buf Int) Unit) b = (.ok (), b.set q y) := by
  rw [M.bind_ok (M.rd_run hb), M.bind_ok (M.lift_run hy), M.wr_run (by rw [hb]; simp)]

theorem shiftIdxsW_eq {w : Nat} (hw : 0 < w) {l : List Int} {b : Buf Int} {d : Int} (h : ∀ (p : Nat) (hp : p < l.length), b p = .val l[p])
    (hf : ∀ x ∈ l, 0 ≤ x + d ∧ x + d ≤ intMax w) : shiftIdxsW w l.length d b = shiftIdxs l.length d b := by
  unfold shiftIdxsW shiftIdxs
  refine forI_congr_inv (fun i b' => ∀ (p : Nat) (hp : p < l.length), i ≤ p → b' p = .val l[p]) (fun p hp _ => h p hp) fun i b' i0 i1 hb => ?_
  obtain ⟨q, rfl⟩ : ∃ q : Nat, i = q := ⟨i.toNat, by omega⟩
  have hq : q < l.length := by omega
  have hm := hf _ (List.getElem_mem hq)
  rw [shiftStep_run (hb q hq le_rfl) (addIdxW_fits hw hm.1 hm.2), M.bind_ok (M.rd_run (hb q hq le_rfl)), M.wr_run (by rw [hb q hq le_rfl]; simp)]
  refine ⟨rfl, fun s' hs p hp hpq => ?_⟩
  cases hs
  rw [Buf.set_ne (by omega)]
  exact hb p hp (by omega)

/-- If the changed index at some position is not representable, the loop is undefined. -/
theorem shiftIdxsW_undef {w : Nat} (hw : 32 ≤ w) {l : List Int} {b : Buf Int} {d : Int} (h : ∀ (p : Nat) (hp : p < l.length), b p = .val l[p])
    (hf : ∀ x ∈ l, 0 ≤ x + d) (hx : ∃ x ∈ l, intMax w < x + d) : M.Undef (shiftIdxsW w l.length d) b := by
  classical
  have hex : ∃ q, ∃ hq : q < l.length, intMax w < l[q] + d := by
    obtain ⟨x, hx, h1⟩ := hx
    obtain ⟨q, hq, rfl⟩ := List.mem_iff_getElem.mp hx
    exact ⟨q, hq, h1⟩
  obtain ⟨hq, hbad⟩ := Nat.find_spec hex
  have hmin : ∀ p, p < Nat.find hex → ∀ hp : p < l.length, l[p] + d ≤ intMax w := fun p hp hl => by
    by_contra hc
    exact Nat.find_min hex hp ⟨hl, by omega⟩
  generalize Nat.find hex = q at hq hbad hmin
  unfold shiftIdxsW
  refine M.Undef.forI (j := q) (fun i b' => ∀ (p : Nat) (hp : p < l.length), i ≤ p → b' p = .val l[p]) (by omega) (by omega) (fun p hp _ => h p hp)
    (fun i b' i0 i1 hb => ?_) (fun b' hb => ?_)
  · obtain ⟨r, rfl⟩ : ∃ r : Nat, i = r := ⟨i.toNat, by omega⟩
    have hr : r < l.length := by omega
    have hm := hf _ (List.getElem_mem hr)
    refine ⟨(), _, shiftStep_run (hb r hr le_rfl) (addIdxW_fits (by omega) hm (hmin r (by omega) hr)), fun p hp hpq => ?_⟩
    rw [Buf.set_ne (by omega)]
    exact hb p hp (by omega)
  · have hub : addIdxW w l[q] d = .ub := by
      unfold addIdxW
      rw [if_neg (by omega)]
      exact if_neg fun hc => by have := hc.2; omega
    unfold M.Undef
    rw [M.bind_ok (M.rd_run (hb q hq le_rfl)), hub]
    rfl

/-- For narrow types the changed indices are reduced modulo 2^w. -/
theorem shiftIdxsW_wrap {w : Nat} (hw : w < 32) {l : List Int} {b : Buf Int} {d : Int} (h : ∀ (p : Nat) (hp : p < l.length), b p = .val l[p])
    {nnz : Int} (hn : nnz = l.length) :
    M.wp (shiftIdxsW w nnz d) b (fun _ b' => ∀ (p : Nat) (hp : p < l.length), b' p = .val (wrapInt w (l[p] + d))) := by
  subst hn
  unfold shiftIdxsW
  refine M.wp_forI (lo := 0) (hi := l.length) (fun i b' => ∀ (p : Nat) (hp : p < l.length), b' p = if (p : Int) < i then .val (wrapInt w (l[p] + d)) else .val l[p]) (by omega)
    (fun p hp => by rw [if_neg (by omega), h p hp]) (fun i b' i0 i1 hb => ?_) (fun b' hb p hp => by rw [hb p hp, if_pos (by omega)])
  obtain ⟨q, rfl⟩ : ∃ q : Nat, i = q := ⟨i.toNat, by omega⟩
  have hq : q < l.length := by omega
  have hv := hb q hq
  rw [if_neg (by omega)] at hv
  refine ⟨(), _, shiftStep_run hv (if_pos hw), fun p hp => ?_⟩
  by_cases hpq : p = q
  · subst hpq
    rw [Buf.set_same, if_pos (by omega)]
  · rw [Buf.set_ne (by omega), hb p hp]
    by_cases hlt : (p : Int) < q
    · rw [if_pos hlt, if_pos (by omega)]
    · rw [if_neg hlt, if_neg (by omega)]

/-- C112 (reindex_inplace, CSC). C30 with row indices of `w` bits, if the row indices in the desired base are representable.

Missing: other matrices, see the next two theorems. -/
theorem C112_reindex_csc_partial {w : Nat} (hw : 0 < w) {A : CscMat T} {E : List (Entry T)} (h : CscIs A E) (d : IndexBase) (h0 : ∀ e ∈ E, 0 ≤ e.row)
    (hf : ∀ e ∈ E, e.row + d.val ≤ intMax w) : reindexCscW w d A = reindexCsc d A := by
  unfold reindexCscW reindexCsc
  rw [M.bind_ok (show M.get A = (.ok A, A) from rfl), M.bind_ok (show M.get A = (.ok A, A) from rfl)]
  by_cases hd : A.indexBase = d
  · simp only [M.when, ne_eq, hd, not_true_eq_false, if_false]
  · have hv : 0 ≤ d.val := by cases d <;> decide
    have key := shiftIdxsW_eq hw (l := E.map fun e => e.row + A.indexBase.val) (b := ptr A.rowidxs) (d := reindexShift A.indexBase)
      (fun p hp => by rw [(h.data.data p (by simpa using hp)).2]; simp) (fun x hx => by
        obtain ⟨e, he, rfl⟩ := List.mem_map.mp hx
        have := h0 e he
        rw [add_assoc, reindexShift_eq hd]
        exact ⟨by omega, hf e he⟩)
    rw [List.length_map, ← h.nnz] at key
    simp only [M.when, ne_eq, hd, not_false_eq_true, if_true, M.bind_eq, M.bind, M.zoom, key]

/-- C112 (reindex_inplace, CSR). The same for the column indices. -/
theorem C112_reindex_csr_partial {w : Nat} (hw : 0 < w) {A : CsrMat T} {E : List (Entry T)} (h : CsrIs A E) (d : IndexBase) (h0 : ∀ e ∈ E, 0 ≤ e.col)
    (hf : ∀ e ∈ E, e.col + d.val ≤ intMax w) : reindexCsrW w d A = reindexCsr d A := by
  unfold reindexCsrW reindexCsr
  rw [M.bind_ok (show M.get A = (.ok A, A) from rfl), M.bind_ok (show M.get A = (.ok A, A) from rfl)]
  by_cases hd : A.indexBase = d
  · simp only [M.when, ne_eq, hd, not_true_eq_false, if_false]
  · have hv : 0 ≤ d.val := by cases d <;> decide
    have key := shiftIdxsW_eq hw (l := E.map fun e => e.col + A.indexBase.val) (b := ptr A.colidxs) (d := reindexShift A.indexBase)
      (fun p hp => by rw [(h.data.data p (by simpa using hp)).2]; simp) (fun x hx => by
        obtain ⟨e, he, rfl⟩ := List.mem_map.mp hx
        have := h0 e he
        rw [add_assoc, reindexShift_eq hd]
        exact ⟨by omega, hf e he⟩)
    rw [List.length_map, ← h.nnz] at key
    simp only [M.when, ne_eq, hd, not_false_eq_true, if_true, M.bind_eq, M.bind, M.zoom, key]

/-- C112 (reindex_inplace, violated, 32 bits and more). A zero-based matrix may have 2^(w-1) rows; `reindex_inplace(A, IndexBase::One)` is then undefined if
the last row has an entry. -/
theorem C112_reindex_csc_undefined {w : Nat} (hw : 32 ≤ w) {A : CscMat T} {E : List (Entry T)} (hA : CscIs A E) (hbA : A.indexBase = .Zero)
    (h0 : ∀ e ∈ E, 0 ≤ e.row ∧ e.row < 2 ^ (w - 1)) (he : ∃ e ∈ E, e.row = intMax w) : M.Undef (reindexCscW w .One) A := by
  have hz : IndexBase.Zero.val = 0 := rfl
  have hs : reindexShift .Zero = 1 := rfl
  obtain ⟨e, he, hrow⟩ := he
  have key := shiftIdxsW_undef hw (l := E.map fun e => e.row + A.indexBase.val) (b := ptr A.rowidxs) (d := reindexShift A.indexBase)
    (fun p hp => by rw [(hA.data.data p (by simpa using hp)).2]; simp) (fun x hx => by
      obtain ⟨e, he, rfl⟩ := List.mem_map.mp hx
      have := (h0 e he).1
      rw [hbA, hz, hs]; omega) ⟨_, List.mem_map.mpr ⟨e, he, rfl⟩, by rw [hbA, hz, hs]; omega⟩
  rw [List.length_map, ← hA.nnz] at key
  unfold M.Undef at key ⊢
  rcases hm : shiftIdxsW w A.nnz (reindexShift A.indexBase) (ptr A.rowidxs) with ⟨r, b⟩
  rw [hm] at key
  have hr : r = .ub := key
  subst hr
  have hd : ¬ A.indexBase = .One := by rw [hbA]; decide
  simp only [reindexCscW, M.bind_eq, M.bind, M.get, M.when, ne_eq, hd, not_false_eq_true, if_true, M.zoom, hm]

/-- C112 (reindex_inplace, violated, CSR). The same for the columns of a CSR matrix. -/
theorem C112_reindex_csr_undefined {w : Nat} (hw : 32 ≤ w) {A : CsrMat T} {E : List (Entry T)} (hA : CsrIs A E) (hbA : A.indexBase = .Zero)
    (h0 : ∀ e ∈ E, 0 ≤ e.col ∧ e.col < 2 ^ (w - 1)) (he : ∃ e ∈ E, e.col = intMax w) : M.Undef (reindexCsrW w .One) A := by
  have hz : IndexBase.Zero.val = 0 := rfl
  have hs : reindexShift .Zero = 1 := rfl
  obtain ⟨e, he, hrow⟩ := he
  have key := shiftIdxsW_undef hw (l := E.map fun e => e.col + A.indexBase.val) (b := ptr A.colidxs) (d := reindexShift A.indexBase)
    (fun p hp => by rw [(hA.data.data p (by simpa using hp)).2]; simp) (fun x hx => by
      obtain ⟨e, he, rfl⟩ := List.mem_map.mp hx
      have := (h0 e he).1
      rw [hbA, hz, hs]; omega) ⟨_, List.mem_map.mpr ⟨e, he, rfl⟩, by rw [hbA, hz, hs]; omega⟩
  rw [List.length_map, ← hA.nnz] at key
  unfold M.Undef at key ⊢
  rcases hm : shiftIdxsW w A.nnz (reindexShift A.indexBase) (ptr A.colidxs) with ⟨r, b⟩
  rw [hm] at key
  have hr : r = .ub := key
  subst hr
  have hd : ¬ A.indexBase = .One := by rw [hbA]; decide
  simp only [reindexCsrW, M.bind_eq, M.bind, M.get, M.when, ne_eq, hd, not_false_eq_true, if_true, M.zoom, hm]

/-- C112 (reindex_inplace, violated, fewer than 32 bits). In the same situation `reindex_inplace` returns, and the object does not hold the matrix. -/
theorem C112_reindex_wraps {w : Nat} (h1 : 0 < w) (hw : w < 32) {A : CscMat T} {E : List (Entry T)} (hA : CscIs A E) (hbA : A.indexBase = .Zero)
    (he : ∃ e ∈ E, e.row = intMax w) : M.wp (reindexCscW w .One) A (fun _ A' => A'.indexBase = .One ∧ ¬ CscIs A' E) := by
  have key := shiftIdxsW_wrap hw (l := E.map fun e => e.row + A.indexBase.val) (b := ptr A.rowidxs) (d := reindexShift A.indexBase)
    (fun p hp => by rw [(hA.data.data p (by simpa using hp)).2]; simp) (nnz := A.nnz) (by rw [List.length_map, hA.nnz])
  unfold reindexCscW
  rw [M.wp_bind, M.wp_get, M.wp_when]
  refine ⟨fun _ => ?_, fun hc => absurd (show A.indexBase ≠ .One by rw [hbA]; decide) hc⟩
  rw [M.wp_bind, M.wp_zoom]
  refine M.wp_mono key fun _ b' hb => ?_
  rw [M.wp_modify]
  refine ⟨rfl, fun hc => ?_⟩
  obtain ⟨e, hm, hrow⟩ := he
  obtain ⟨q, hq, rfl⟩ := List.mem_iff_getElem.mp hm
  have e1 := (hc.data.data q hq).2
  obtain he | ⟨c, hcb⟩ := csc_rowidxs_some hA
  · subst he; simp at hq
  · simp only [hcb, ptr, Option.map_some, Option.getD_some] at e1
    have e2 := hb q (by simpa using hq)
    rw [e2] at e1
    simp only [List.getElem_map, Cell.val.injEq] at e1
    have e3 := (wrapInt_range (E[q].row + A.indexBase.val + reindexShift A.indexBase) h1).2
    rw [e1, hrow] at e3
    have : IndexBase.One.val = 1 := rfl
    omega

/-! COO matrices: both index arrays are changed. -/

/-- One step of the loop of `reindex_inplace(COOMatrix)`. -/
theorem cooStep_run {w : Nat} {b : CooBufs T} {q x x' y y' d : Int} (hx : b.rows q = .val x) (hy : b.cols q = .val y) (hx' : addIdxW w x d = .ok x')
    (hy' : addIdxW w y d = .ok y') :
    (do
      let r ← onCRows (M.rd q)
      let r' ← M.lift (addIdxW w r d)
      onCRows (M.wr q r')
      let c ← onCCols (M.rd q)
      let c' ← M.lift (addIdxW w c d)
      onCCols (M.wr q c') : M (CooBufs T) Unit) b = (.ok (), ⟨b.vals, b.rows.set q x', b.cols.set q y'⟩) := by
  have e1 : onCRows (M.rd q) b = (.ok x, b) := by simp only [onCRows, M.zoom, M.rd_run hx]
  have e2 : onCRows (M.wr q x') b = (.ok (), { b with rows := b.rows.set q x' }) := by
    simp only [onCRows, M.zoom]; rw [M.wr_run (by rw [hx]; simp)]
  have e3 : onCCols (M.rd q) { b with rows := b.rows.set q x' } = (.ok y, { b with rows := b.rows.set q x' }) := by
    simp only [onCCols, M.zoom, M.rd_run hy]
  have e4 : onCCols (M.wr q y') { b with rows := b.rows.set q x' } = (.ok (), ⟨b.vals, b.rows.set q x', b.cols.set q y'⟩) := by
    simp only [onCCols, M.zoom]; rw [M.wr_run (by rw [hy]; simp)]
  rw [M.bind_ok e1, M.bind_ok (M.lift_run hx'), M.bind_ok e2, M.bind_ok e3, M.bind_ok (M.lift_run hy'), e4]

/-- The same step with unbounded integers. -/
theorem cooStep_run' {b : CooBufs T} {q x y d : Int} (hx : b.rows q = .val x) (hy : b.cols q = .val y) :
    (do
      let r ← onCRows (M.rd q)
      onCRows (M.wr q (r + d))
      let c ← onCCols (M.rd q)
      onCCols (M.wr q (c + d)) : M (CooBufs T) Unit) b = (.ok (), ⟨b.vals, b.rows.set q (x + d), b.cols.set q (y + d)⟩) := by
  have e1 : onCRows (M.rd q) b = (.ok x, b) := by simp only [onCRows, M.zoom, M.rd_run hx]
  have e2 : onCRows (M.wr q (x + d)) b = (.ok (), { b with rows := b.rows.set q (x + d) }) := by
    simp only [onCRows, M.zoom]; rw [M.wr_run (by rw [hx]; simp)]
  have e3 : onCCols (M.rd q) { b with rows := b.rows.set q (x + d) } = (.ok y, { b with rows := b.rows.set q (x + d) }) := by
    simp only [onCCols, M.zoom, M.rd_run hy]
  have e4 : onCCols (M.wr q (y + d)) { b with rows := b.rows.set q (x + d) } = (.ok (), ⟨b.vals, b.rows.set q (x + d), b.cols.set q (y + d)⟩) := by
    simp only [onCCols, M.zoom]; rw [M.wr_run (by rw [hy]; simp)]
  rw [M.bind_ok e1, M.bind_ok e2, M.bind_ok e3, e4]

/-- The positions from `i` on still hold the old indices. -/
def CooRest (E : List (Entry T)) (k i : Int) (b : CooBufs T) : Prop :=
  ∀ (p : Nat) (hp : p < E.length), i ≤ p → b.rows p = .val (E[p].row + k) ∧ b.cols p = .val (E[p].col + k)

theorem CooRest.set {E : List (Entry T)} {k : Int} {q : Nat} {b : CooBufs T} (h : CooRest E k q b) (x y : Int) (v : Buf T) :
    CooRest E k (q + 1) ⟨v, b.rows.set q x, b.cols.set q y⟩ := fun p hp hpq => by
  dsimp only
  rw [Buf.set_ne (by omega), Buf.set_ne (by omega)]
  exact h p hp (by omega)

theorem cooRest_zero {A : CooMat T} {E : List (Entry T)} (h : CooIs A E) : CooRest E A.indexBase.val 0 A.bufs := fun p hp _ => by
  have := h.data p (by rw [rebase_length]; exact hp)
  simpa [rebase, CooMat.bufs] using this.2

/-- C112 (reindex_inplace, COO). C30 with indices of `w` bits, if the indices in the desired base are representable. -/
theorem C112_reindex_coo_partial {w : Nat} (hw : 0 < w) {A : CooMat T} {E : List (Entry T)} (h : CooIs A E) (d : IndexBase)
    (h0 : ∀ e ∈ E, 0 ≤ e.row ∧ 0 ≤ e.col) (hf : ∀ e ∈ E, e.row + d.val ≤ intMax w ∧ e.col + d.val ≤ intMax w) : reindexCooW w d A = reindexCoo d A := by
  unfold reindexCooW reindexCoo
  rw [M.bind_ok (show M.get A = (.ok A, A) from rfl), M.bind_ok (show M.get A = (.ok A, A) from rfl)]
  by_cases hd : A.indexBase = d
  · simp only [M.when, ne_eq, hd, not_true_eq_false, if_false]
  · have hv : 0 ≤ d.val := by cases d <;> decide
    have key : (forI 0 A.nnz fun ell => do
          let r ← onCRows (M.rd ell)
          let r' ← M.lift (addIdxW w r (reindexShift A.indexBase))
          onCRows (M.wr ell r')
          let c ← onCCols (M.rd ell)
          let c' ← M.lift (addIdxW w c (reindexShift A.indexBase))
          onCCols (M.wr ell c') : M (CooBufs T) Unit) A.bufs = (forI 0 A.nnz fun ell => do
          let r ← onCRows (M.rd ell)
          onCRows (M.wr ell (r + reindexShift A.indexBase))
          let c ← onCCols (M.rd ell)
          onCCols (M.wr ell (c + reindexShift A.indexBase)) : M (CooBufs T) Unit) A.bufs := by
      refine forI_congr_inv (CooRest E A.indexBase.val) (cooRest_zero h) fun i b i0 i1 hb => ?_
      obtain ⟨q, rfl⟩ : ∃ q : Nat, i = q := ⟨i.toNat, by omega⟩
      have hq : q < E.length := by have := h.nnz; omega
      obtain ⟨hx, hy⟩ := hb q hq le_rfl
      have hm := List.getElem_mem hq
      have a := h0 _ hm
      have c := hf _ hm
      have hsh := reindexShift_eq hd
      rw [cooStep_run hx hy (addIdxW_fits hw (by omega) (by omega)) (addIdxW_fits hw (by omega) (by omega)), cooStep_run' hx hy]
      exact ⟨rfl, fun s' hs => by cases hs; exact hb.set _ _ _⟩
    simp only [M.when, ne_eq, hd, not_false_eq_true, if_true, M.bind_eq, M.bind, M.zoom] at key ⊢
    rw [key]

/-- C112 (reindex_inplace, violated, COO). A zero-based matrix with an entry in row or column 2^(w-1) - 1: `reindex_inplace(A, IndexBase::One)` is undefined for
`w >= 32`. -/
theorem C112_reindex_coo_undefined {w : Nat} (hw : 32 ≤ w) {A : CooMat T} {E : List (Entry T)} (hA : CooIs A E) (hbA : A.indexBase = .Zero)
    (h0 : InRange (2 ^ (w - 1)) (2 ^ (w - 1)) E) (hx : ∃ e ∈ E, e.row = intMax w ∨ e.col = intMax w) : M.Undef (reindexCooW w .One) A := by
  classical
  have hz : IndexBase.Zero.val = 0 := rfl
  have hs : reindexShift .Zero = 1 := rfl
  have hd : ¬ A.indexBase = .One := by rw [hbA]; decide
  have hex : ∃ q, ∃ hq : q < E.length, E[q].row = intMax w ∨ E[q].col = intMax w := by
    obtain ⟨x, hx, h1⟩ := hx
    obtain ⟨q, hq, rfl⟩ := List.mem_iff_getElem.mp hx
    exact ⟨q, hq, h1⟩
  obtain ⟨hq, hbad⟩ := Nat.find_spec hex
  have hmin : ∀ p, p < Nat.find hex → ∀ hp : p < E.length, ¬ (E[p].row = intMax w ∨ E[p].col = intMax w) := fun p hp hl hc =>
    Nat.find_min hex hp ⟨hl, hc⟩
  generalize Nat.find hex = q at hq hbad hmin
  have hfit : ∀ x : Int, 0 ≤ x → x < 2 ^ (w - 1) → x ≠ intMax w → addIdxW w x 1 = .ok (x + 1) := fun x x0 x1 x2 =>
    addIdxW_fits (by omega) (by omega) (by unfold intMax at *; omega)
  have hub : addIdxW w (intMax w) 1 = .ub := by
    unfold addIdxW
    rw [if_neg (by omega)]
    exact if_neg fun hc => by have := hc.2; omega
  have key : M.Undef (forI 0 A.nnz fun ell => do
          let r ← onCRows (M.rd ell)
          let r' ← M.lift (addIdxW w r (reindexShift A.indexBase))
          onCRows (M.wr ell r')
          let c ← onCCols (M.rd ell)
          let c' ← M.lift (addIdxW w c (reindexShift A.indexBase))
          onCCols (M.wr ell c') : M (CooBufs T) Unit) A.bufs := by
    have hR := cooRest_zero hA
    rw [hbA, hz] at hR
    rw [hbA, hs]
    refine M.Undef.forI (j := q) (CooRest E 0) (by omega) (by have := hA.nnz; omega) hR (fun i b i0 i1 hb => ?_) (fun b hb => ?_)
    · obtain ⟨r, rfl⟩ : ∃ r : Nat, i = r := ⟨i.toNat, by omega⟩
      have hr : r < E.length := by omega
      obtain ⟨hx, hy⟩ := hb r hr le_rfl
      rw [add_zero] at hx hy
      obtain ⟨m1, m2⟩ := not_or.mp (hmin r (by omega) hr)
      obtain ⟨a1, a2, a3, a4⟩ := h0 _ (List.getElem_mem hr)
      exact ⟨(), _, cooStep_run hx hy (hfit _ a1 a2 m1) (hfit _ a3 a4 m2), hb.set _ _ _⟩
    · obtain ⟨hx, hy⟩ := hb q hq le_rfl
      rw [add_zero] at hx hy
      obtain ⟨a1, a2, a3, a4⟩ := h0 _ (List.getElem_mem hq)
      have e1 : onCRows (M.rd (q : Int)) b = (.ok E[q].row, b) := by simp only [onCRows, M.zoom, M.rd_run hx]
      unfold M.Undef
      rw [M.bind_ok e1]
      by_cases hrow : E[q].row = intMax w
      · rw [hrow, hub]; rfl
      · have hcol := hbad.resolve_left hrow
        have e2 : onCRows (M.wr (q : Int) (E[q].row + 1)) b = (.ok (), { b with rows := b.rows.set q (E[q].row + 1) }) := by
          simp only [onCRows, M.zoom]; rw [M.wr_run (by rw [hx]; simp)]
        have e3 : onCCols (M.rd (q : Int)) { b with rows := b.rows.set q (E[q].row + 1) } = (.ok E[q].col, { b with rows := b.rows.set q (E[q].row + 1) }) := by
          simp only [onCCols, M.zoom, M.rd_run hy]
        rw [M.bind_ok (M.lift_run (hfit _ a1 a2 hrow)), M.bind_ok e2, M.bind_ok e3, hcol, hub]
        rfl
  have hg : M.get A = (.ok A, A) := rfl
  unfold reindexCooW M.Undef
  rw [M.bind_ok hg, show M.when (A.indexBase ≠ .One) _ = _ from if_pos hd]
  exact M.Undef.bind (M.Undef.zoom key)

/-- The hypotheses are met: the sample matrices with 32-bit indices; and matrices with one entry in the last of 2^31 rows, or 2^31 columns. -/
example : CscIs (cscOf 3 3 [0, 1, 1, 3] sampleC) sampleC ∧ (∀ e ∈ sampleC, 0 ≤ e.row) ∧ (∀ e ∈ sampleC, e.row + IndexBase.One.val ≤ intMax 32) ∧
    CooIs (cooOf (2 ^ 31) 1 .Zero [⟨2 ^ 31 - 1, 0, (5 : ℤ)⟩]) [⟨2 ^ 31 - 1, 0, 5⟩] ∧ InRange (2 ^ (32 - 1)) (2 ^ (32 - 1)) [⟨2 ^ 31 - 1, 0, (5 : ℤ)⟩] ∧
    (∃ e ∈ [(⟨2 ^ 31 - 1, 0, 5⟩ : Entry ℤ)], e.row = intMax 32) ∧
    CscIs (cscOf (2 ^ 31) 1 [0, 1] [⟨2 ^ 31 - 1, 0, (5 : ℤ)⟩]) [⟨2 ^ 31 - 1, 0, 5⟩] ∧
    CsrIs (csrOf 1 (2 ^ 31) [0, 1] [⟨0, 2 ^ 31 - 1, (5 : ℤ)⟩]) [⟨0, 2 ^ 31 - 1, 5⟩] ∧
    CscIs (cscOf (2 ^ 15) 1 [0, 1] [⟨2 ^ 15 - 1, 0, (5 : ℤ)⟩]) [⟨2 ^ 15 - 1, 0, 5⟩] ∧ (2 : Int) ^ 15 - 1 = intMax 16 := by
  refine ⟨sampleC_is, by unfold sampleC; decide, by unfold sampleC; decide, cooOf_is _ _ _ _, ?_, ⟨_, List.mem_singleton.mpr rfl, by decide⟩,
    ⟨rfl, csIs_ofList (n := 1) rfl rfl rfl (by decide) (by decide)⟩, ⟨rfl, csIs_ofList (n := 1) rfl rfl rfl (by decide) (by decide)⟩,
    ⟨rfl, csIs_ofList (n := 1) rfl rfl rfl (by decide) (by decide)⟩, by decide⟩
  intro e he
  rw [List.mem_singleton.mp he]
  decide

end RB
