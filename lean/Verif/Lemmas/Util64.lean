import Verif.Spec.Util64
import Verif.Lemmas.Sketch
import Verif.Lemmas.Dense64
import Verif.Lemmas.Sparse64
import Verif.Lemmas.Util

/-! # Lemmas about the utilities with machine integers -/

namespace RB
open Spec
variable {N : Nat} {K W R T : Type}

theorem at64_eq {layout : Layout} {ld r c i j : Int} (hld : 0 ≤ ld) (h : EntriesFit layout ld r c) (hij : InR r c i j) :
    at64 (layoutToStrides layout ld) i j = .ok ((layoutToStrides layout ld).at i j) := by
  have hp := h i j hij
  obtain ⟨i0, i1, j0, j1⟩ := hij
  cases layout with
  | ColMajor =>
    have := mul_nonneg j0 hld
    simp only [addr] at hp
    simp only [at64, layoutToStrides, Strides.at, if_true, mul_one]
    rw [i64_ok (by omega) (by omega), Res.ok_bind, i64_ok (by omega) (by omega), Res.ok_bind, i64_ok (by omega) (by omega)]
  | RowMajor =>
    have := mul_nonneg i0 hld
    simp only [addr] at hp
    simp only [at64, layoutToStrides, Strides.at, reduceCtorEq, if_false, mul_one]
    rw [i64_ok (by omega) (by omega), Res.ok_bind, i64_ok (by omega) (by omega), Res.ok_bind, i64_ok (by omega) (by omega)]

theorem mlift_at64 {σ β : Type} {layout : Layout} {ld r c i j : Int} (hld : 0 ≤ ld) (h : EntriesFit layout ld r c) (hij : InR r c i j) {f : Int → M σ β} :
    (M.lift (at64 (layoutToStrides layout ld) i j) >>= f) = f ((layoutToStrides layout ld).at i j) := by
  rw [at64_eq hld h hij]; rfl

/-! ## Simulation: the same run with stored values changed -/

/-- From state `s`, and from the changed state `ν s`, the two computations have the same outcome and related final states. -/
def M.SimAt {σ τ α : Type} (ν : σ → τ) (s : σ) (m : M σ α) (m' : M τ α) : Prop := m' (ν s) = ((m s).1, ν (m s).2)

namespace M.SimAt
variable {σ τ α β : Type} {ν : σ → τ} {s : σ}

theorem bind {m : M σ α} {m' : M τ α} {f : α → M σ β} {f' : α → M τ β} (h : SimAt ν s m m')
    (hf : ∀ a s1, m s = (.ok a, s1) → SimAt ν s1 (f a) (f' a)) : SimAt ν s (m >>= f) (m' >>= f') := by
  unfold SimAt at h ⊢
  rcases hm : m s with ⟨r, s1⟩
  rw [hm] at h
  cases r with
  | ok a => rw [M.bind_ok h, M.bind_ok hm]; exact hf a s1 hm
  | throw e => rw [M.bind_throw h, M.bind_throw hm]
  | ub => rw [M.bind_ub h, M.bind_ub hm]

theorem pure (a : α) : SimAt ν s (Pure.pure a) (Pure.pure a) := rfl
theorem lift (r : Res α) : SimAt ν s (M.lift r) (M.lift r) := rfl
theorem require {c c' : Prop} [Decidable c] [Decidable c'] (h : c ↔ c') : SimAt ν s (M.require c) (M.require c') := by
  unfold SimAt M.require M.lift Res.require
  by_cases hc : c
  · rw [if_pos hc, if_pos (h.mp hc)]
  · rw [if_neg hc, if_neg (fun hc' => hc (h.mpr hc'))]
theorem when {c c' : Prop} [Decidable c] [Decidable c'] (h : c ↔ c') {m : M σ Unit} {m' : M τ Unit} (hm : c → SimAt ν s m m') :
    SimAt ν s (M.when c m) (M.when c' m') := by
  unfold M.when
  by_cases hc : c
  · rw [if_pos hc, if_pos (h.mp hc)]; exact hm hc
  · rw [if_neg hc, if_neg (fun hc' => hc (h.mpr hc'))]; rfl
theorem modify {f : σ → σ} {f' : τ → τ} (h : ν (f s) = f' (ν s)) : SimAt ν s (M.modify f) (M.modify f') := by
  unfold SimAt M.modify; rw [h]
theorem get_bind {f : σ → M σ β} {f' : τ → M τ β} (h : SimAt ν s (f s) (f' (ν s))) : SimAt ν s (M.get >>= f) (M.get >>= f') := h
theorem zoom {σ' τ' : Type} {μ : σ' → τ'} {g : σ → σ'} {g' : τ → τ'} {p : σ → σ' → σ} {p' : τ → τ' → τ} {m : M σ' α} {m' : M τ' α}
    (hg : g' (ν s) = μ (g s)) (hp : ∀ x, p' (ν s) (μ x) = ν (p s x)) (h : SimAt μ (g s) m m') : SimAt ν s (M.zoom g p m) (M.zoom g' p' m') := by
  unfold SimAt at h ⊢
  unfold M.zoom
  rw [hg, h]
  rcases m (g s) with ⟨r, t⟩
  simp only [hp]
theorem foldN {n : Nat} {f : Nat → α → M σ α} {f' : Nat → α → M τ α} {a : α} (h : ∀ k b s, k < n → SimAt ν s (f k b) (f' k b)) :
    SimAt ν s (RB.foldN n f a) (RB.foldN n f' a) := by
  induction n with
  | zero => rfl
  | succ n ih => exact bind (ih fun k b s hk => h k b s (by omega)) fun b s1 _ => h n b s1 (by omega)
theorem foldI {lo hi : Int} {f : Int → α → M σ α} {f' : Int → α → M τ α} {a : α} (h : ∀ i b s, SimAt ν s (f i b) (f' i b)) :
    SimAt ν s (RB.foldI lo hi f a) (RB.foldI lo hi f' a) := foldN fun _ b s _ => h _ b s

end M.SimAt

theorem wr_narrow {w : Nat} {i x : Int} {b : Buf Int} : M.SimAt (narrow w) b (M.wr i x) (M.wr i (wrapInt w x)) := by
  unfold M.SimAt M.wr
  have key : (narrow w b).set i (wrapInt w x) = narrow w (b.set i x) := by
    funext p
    unfold narrow
    rw [Buf.set_apply, Buf.set_apply]
    by_cases hp : p = i
    · rw [if_pos hp, if_pos hp]
    · rw [if_neg hp, if_neg hp]
  cases hb : b i with
  | none => simp only [narrow, hb]
  | uninit => simp only [show narrow w b i = .uninit by simp only [narrow, hb], key]
  | val v => simp only [show narrow w b i = .val (wrapInt w v) by simp only [narrow, hb], key]

theorem narrow_fill {w : Nat} (hw : 0 < w) (n : Int) : narrow w (Buf.fill n 0) = Buf.fill n 0 := by
  funext p
  unfold narrow Buf.fill
  have h0 : wrapInt w 0 = 0 := wrapInt_self hw le_rfl (by have : (1 : Int) ≤ 2 ^ (w - 1) := one_le_pow₀ (by norm_num); unfold intMax; omega)
  split_ifs
  · simp only [h0]
  · rfl

theorem narrow_none {w : Nat} : narrow w (fun _ => Cell.none) = fun _ => Cell.none := rfl

theorem narrow_id {w : Nat} {b : Buf Int} (hw : 0 < w) (h : ∀ p x, b p = .val x → 0 ≤ x ∧ x ≤ intMax w) : narrow w b = b := by
  funext p
  unfold narrow
  cases hb : b p with
  | none => rfl
  | uninit => rfl
  | val x => simp only [wrapInt_self hw (h p x hb).1 (h p x hb).2]

/-- The arrays of a compressed matrix with narrower integers. -/
def narrowCs (w : Nat) (b : CsBufs T) : CsBufs T := { b with ptr := narrow w b.ptr, idxs := narrow w b.idxs }

theorem compressWhileW_sim {w : Nat} {nnz : Int} {major minor : Buf Int} {cvals : Buf T} {j : Int} {fuel : Nat} {ell : Int} {b : CsBufs T} :
    M.SimAt (narrowCs w) b (compressWhile nnz major minor cvals j fuel ell) (compressWhileW w nnz major minor cvals j fuel ell) := by
  induction fuel generalizing ell b with
  | zero => exact M.SimAt.pure _
  | succ fuel ih =>
    unfold compressWhile compressWhileW
    refine M.SimAt.bind (M.SimAt.lift _) fun c s1 _ => ?_
    split_ifs
    · refine M.SimAt.bind (M.SimAt.lift _) fun i s2 _ => ?_
      refine M.SimAt.bind (M.SimAt.zoom (μ := narrow w) rfl (fun _ => rfl) wr_narrow) fun _ s3 _ => ?_
      refine M.SimAt.bind (M.SimAt.lift _) fun v s4 _ => ?_
      refine M.SimAt.bind (M.SimAt.zoom (μ := id) rfl (fun _ => rfl) rfl) fun _ s5 _ => ih
    · exact M.SimAt.pure _

theorem compressSweepW_sim {w : Nat} (hw : 0 < w) {n nnz : Int} {major minor : Buf Int} {cvals : Buf T} {b : CsBufs T} :
    M.SimAt (narrowCs w) b (compressSweep n nnz major minor cvals) (compressSweepW w n nnz major minor cvals) := by
  unfold compressSweep compressSweepW
  have h0 : wrapInt w 0 = 0 := wrapInt_self hw le_rfl (by have : (1 : Int) ≤ 2 ^ (w - 1) := one_le_pow₀ (by norm_num); unfold intMax; omega)
  refine M.SimAt.bind (M.SimAt.zoom (μ := narrow w) rfl (fun _ => rfl) ?_) fun _ s1 _ => ?_
  · have := wr_narrow (w := w) (i := 0) (x := 0) (b := b.ptr)
    rwa [h0] at this
  · refine M.SimAt.bind (M.SimAt.foldI fun i l s => ?_) fun _ s2 _ => M.SimAt.pure _
    refine M.SimAt.bind compressWhileW_sim fun l' s3 _ => ?_
    exact M.SimAt.bind (M.SimAt.zoom (μ := narrow w) rfl (fun _ => rfl) wr_narrow) fun _ s4 _ => M.SimAt.pure _

theorem ptr_narrow {w : Nat} (p : Option (Buf Int)) : ptr (p.map (narrow w)) = narrow w (ptr p) := by cases p <;> rfl

theorem reserveCsc_sim [Zero T] {w : Nat} (hw : 0 < w) {nnz : Int} {A : CscMat T} :
    M.SimAt (narrowCsc w) A (reserveCsc nnz) (reserveCsc nnz) := by
  unfold reserveCsc
  refine M.SimAt.get_bind ?_
  refine M.SimAt.bind (M.SimAt.require Iff.rfl) fun _ s1 _ => ?_
  refine M.SimAt.bind (M.SimAt.require (by simp [narrowCsc])) fun _ s2 _ => ?_
  refine M.SimAt.bind (M.SimAt.require Iff.rfl) fun _ s3 _ => ?_
  refine M.SimAt.bind (M.SimAt.when (by simp [narrowCsc]) fun _ => ?_) fun _ s4 _ => ?_
  · unfold newZero
    show M.SimAt _ _ ((if A.nCols + 1 < 0 then _ else _) >>= _) ((if A.nCols + 1 < 0 then _ else _) >>= _)
    split_ifs
    · rfl
    · refine M.SimAt.bind (M.SimAt.pure _) fun a s5 ha => ?_
      refine M.SimAt.modify ?_
      cases ha
      simp [narrowCsc, narrow_fill hw]
  · refine M.SimAt.bind (M.SimAt.modify (by simp [narrowCsc])) fun _ s6 _ => ?_
    exact M.SimAt.when Iff.rfl fun _ => M.SimAt.modify (by simp [narrowCsc, narrow_fill hw])

theorem reserveCsr_sim [Zero T] {w : Nat} (hw : 0 < w) {nnz : Int} {A : CsrMat T} :
    M.SimAt (narrowCsr w) A (reserveCsr nnz) (reserveCsr nnz) := by
  unfold reserveCsr
  refine M.SimAt.get_bind ?_
  refine M.SimAt.bind (M.SimAt.require Iff.rfl) fun _ s1 _ => ?_
  refine M.SimAt.bind (M.SimAt.require (by simp [narrowCsr])) fun _ s2 _ => ?_
  refine M.SimAt.bind (M.SimAt.require Iff.rfl) fun _ s3 _ => ?_
  refine M.SimAt.bind (M.SimAt.when (by simp [narrowCsr]) fun _ => ?_) fun _ s4 _ => ?_
  · unfold newZero
    show M.SimAt _ _ ((if A.nRows + 1 < 0 then _ else _) >>= _) ((if A.nRows + 1 < 0 then _ else _) >>= _)
    split_ifs
    · rfl
    · refine M.SimAt.bind (M.SimAt.pure _) fun a s5 ha => ?_
      refine M.SimAt.modify ?_
      cases ha
      simp [narrowCsr, narrow_fill hw]
  · refine M.SimAt.bind (M.SimAt.modify (by simp [narrowCsr])) fun _ s6 _ => ?_
    exact M.SimAt.when Iff.rfl fun _ => M.SimAt.modify (by simp [narrowCsr, narrow_fill hw])

end RB
