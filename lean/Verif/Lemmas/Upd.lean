import Verif.Model.HrLapack
import Verif.Lemmas.Mat
import Mathlib.Algebra.BigOperators.Fin

/-! # Column-major regions of buffers, early-return loops, pointer offsets -/

namespace RB
open Spec

variable {T : Type}

namespace M
variable {σ α : Type}

theorem wp_findN {n : Nat} {body : Nat → M σ (Option α)} {s : σ} {Q : Option α → σ → Prop} (Inv : Nat → σ → Prop)
    (h0 : Inv 0 s)
    (step : ∀ k s, k < n → Inv k s → wp (body k) s (fun o s' => (o = none → Inv (k + 1) s') ∧ (o ≠ none → Q o s')))
    (hQ : ∀ s, Inv n s → Q none s) : wp (findN n body) s Q := by
  suffices h : wp (findN n body) s (fun o s' => (o = none → Inv n s') ∧ (o ≠ none → Q o s')) by
    refine wp_mono h ?_
    intro o s' h
    by_cases ho : o = none
    · subst ho; exact hQ _ (h.1 rfl)
    · exact h.2 ho
  clear hQ
  induction n with
  | zero => unfold findN; rw [wp_pure]; exact ⟨fun _ => h0, fun h => absurd rfl h⟩
  | succ n ih =>
    unfold findN
    rw [wp_bind]
    refine wp_mono (ih (fun k s hk => step k s (by omega))) ?_
    intro o s' h
    cases o with
    | none => exact step n s' (by omega) (h.1 rfl)
    | some a =>
      dsimp only
      rw [wp_pure]
      exact ⟨fun h0 => absurd h0 (by simp), fun _ => h.2 (by simp)⟩

theorem wp_findI {lo hi : Int} {body : Int → M σ (Option α)} {s : σ} {Q : Option α → σ → Prop} (Inv : Int → σ → Prop)
    (hle : lo ≤ hi) (h0 : Inv lo s)
    (step : ∀ i s, lo ≤ i → i < hi → Inv i s →
      wp (body i) s (fun o s' => (o = none → Inv (i + 1) s') ∧ (o ≠ none → Q o s')))
    (hQ : ∀ s, Inv hi s → Q none s) : wp (findI lo hi body) s Q := by
  unfold findI
  apply wp_findN (fun k s => Inv (lo + k) s)
  · simpa using h0
  · intro k s hk h
    have := step (lo + k) s (by omega) (by omega) h
    rw [show lo + ((k + 1 : Nat) : Int) = lo + k + 1 by push_cast; ring]; exact this
  · intro s h
    apply hQ
    have : lo + ((hi - lo).toNat : Int) = hi := by omega
    rw [this] at h; exact h

theorem wp_at {o : Int} {m : M (Buf T) α} {b : Buf T} {Q : α → Buf T → Prop} :
    wp (M.at o m) b Q ↔ wp m (b.shift o) (fun a b' => Q a (b'.shift (-o))) := by
  unfold M.at; rw [wp_zoom]

end M

@[simp] theorem wp_blasCheck {σ : Type} {c : Prop} [Decidable c] {s : σ} {Q : Unit → σ → Prop} :
    M.wp (blasCheck c) s Q ↔ c ∧ Q () s := by
  unfold blasCheck
  by_cases h : c
  · simp [h]
  · simp only [h, if_false, false_and, iff_false]
    rintro ⟨a, s', h1, -⟩
    cases h1

/-- Rows are within the leading dimension, so that different entries have different positions. -/
def RowsIn (ld : Int) (P : Int → Int → Prop) : Prop := ∀ i j, P i j → 0 ≤ i ∧ i < ld

theorem cell_inj {ld i j i' j' : Int} (h : 0 ≤ i ∧ i < ld) (h' : 0 ≤ i' ∧ i' < ld) (he : i + j * ld = i' + j' * ld) :
    i = i' ∧ j = j' := by
  obtain ⟨h1, h2⟩ := h
  obtain ⟨h3, h4⟩ := h'
  have hj : j = j' := by
    rcases lt_trichotomy j j' with hlt | heq | hgt
    · nlinarith
    · exact heq
    · nlinarith
  subst hj
  exact ⟨by linarith, rfl⟩

/-- The buffer `b'` is `b` with the entries (i, j) of the region `P` (stored at `i + j * ld`) equal to `X i j`. -/
structure Upd (ld : Int) (P : Int → Int → Prop) (X : Int → Int → T) (b b' : Buf T) : Prop where
  cells : ∀ i j, P i j → b' (i + j * ld) = .val (X i j)
  outside : ∀ p, (∀ i j, P i j → p ≠ i + j * ld) → b' p = b p

section
variable {ld : Int} {P P' : Int → Int → Prop} {X X' : Int → Int → T} {b b' b'' : Buf T}

theorem Upd.refl (h : ∀ i j, P i j → b (i + j * ld) = .val (X i j)) : Upd ld P X b b := ⟨h, fun _ _ => rfl⟩

theorem Upd.congr (h : Upd ld P X b b') (hX : ∀ i j, P i j → X i j = X' i j) : Upd ld P X' b b' :=
  ⟨fun i j hij => by rw [h.cells i j hij, hX i j hij], h.outside⟩

theorem Upd.congrP (h : Upd ld P X b b') (hP : ∀ i j, P i j ↔ P' i j) : Upd ld P' X b b' :=
  ⟨fun i j hij => h.cells i j ((hP i j).2 hij), fun p hp => h.outside p (fun i j hij => hp i j ((hP i j).1 hij))⟩

/-- Entries outside the region but inside the matrix are unchanged. -/
theorem Upd.other (h : Upd ld P X b b') (hr : RowsIn ld P) {i j : Int} (hi : 0 ≤ i ∧ i < ld) (hn : ¬ P i j) :
    b' (i + j * ld) = b (i + j * ld) := by
  apply h.outside
  intro r c hrc he
  obtain ⟨rfl, rfl⟩ := cell_inj hi (hr r c hrc) he
  exact hn hrc

theorem Upd.wp_rd (h : Upd ld P X b b') {i j : Int} (hij : P i j) {Q : T → Buf T → Prop} (hQ : Q (X i j) b') :
    M.wp (M.rd (i + j * ld)) b' Q := by
  rw [M.wp_rd]; exact ⟨X i j, h.cells i j hij, hQ⟩

/-- A store into the region. -/
theorem Upd.set (h : Upd ld P X b b') (hr : RowsIn ld P) {i j : Int} (hij : P i j) {v : T} (hv : X' i j = v)
    (hX : ∀ r c, P r c → ¬ (r = i ∧ c = j) → X' r c = X r c) : Upd ld P X' b (b'.set (i + j * ld) v) := by
  constructor
  · intro r c hrc
    by_cases he : r = i ∧ c = j
    · obtain ⟨rfl, rfl⟩ := he
      rw [Buf.set_same, hv]
    · rw [Buf.set_ne (fun h0 => he (cell_inj (hr r c hrc) (hr i j hij) h0)), h.cells r c hrc, hX r c hrc he]
  · intro p hp
    rw [Buf.set_ne (hp i j hij), h.outside p hp]

theorem Upd.wp_wr (h : Upd ld P X b b') (hr : RowsIn ld P) {i j : Int} (hij : P i j) {v : T} (hv : X' i j = v)
    (hX : ∀ r c, P r c → ¬ (r = i ∧ c = j) → X' r c = X r c) {Q : Unit → Buf T → Prop}
    (hQ : ∀ b2, Upd ld P X' b b2 → Q () b2) : M.wp (M.wr (i + j * ld) v) b' Q := by
  rw [M.wp_wr]
  exact ⟨by rw [h.cells i j hij]; simp, hQ _ (h.set hr hij hv hX)⟩

/-- A store that extends the region. -/
theorem Upd.extend (h : Upd ld P X b b') (hr : RowsIn ld P') {i j : Int} (hij : P' i j)
    (hP : ∀ r c, P' r c ↔ P r c ∨ (r = i ∧ c = j)) {v : T} (hv : X' i j = v)
    (hX : ∀ r c, P r c → ¬ (r = i ∧ c = j) → X' r c = X r c) : Upd ld P' X' b (b'.set (i + j * ld) v) := by
  constructor
  · intro r c hrc
    by_cases he : r = i ∧ c = j
    · obtain ⟨rfl, rfl⟩ := he
      rw [Buf.set_same, hv]
    · have hrc' : P r c := ((hP r c).1 hrc).resolve_right he
      rw [Buf.set_ne (fun h0 => he (cell_inj (hr r c hrc) (hr i j hij) h0)), h.cells r c hrc', hX r c hrc' he]
  · intro p hp
    rw [Buf.set_ne (hp i j hij), h.outside p (fun r c hrc => hp r c ((hP r c).2 (.inl hrc)))]

theorem Upd.wp_extend (h : Upd ld P X b b') (hr : RowsIn ld P') {i j : Int} (hij : P' i j) (hal : b' (i + j * ld) ≠ .none)
    (hP : ∀ r c, P' r c ↔ P r c ∨ (r = i ∧ c = j)) {v : T} (hv : X' i j = v)
    (hX : ∀ r c, P r c → ¬ (r = i ∧ c = j) → X' r c = X r c) {Q : Unit → Buf T → Prop}
    (hQ : ∀ b2, Upd ld P' X' b b2 → Q () b2) : M.wp (M.wr (i + j * ld) v) b' Q := by
  rw [M.wp_wr]
  exact ⟨hal, hQ _ (h.extend hr hij hP hv hX)⟩

/-- An update inside a larger region. -/
theorem Upd.trans_sub (h : Upd ld P X b b') (h' : Upd ld P' X' b' b'') (hr : RowsIn ld P) (hsub : ∀ i j, P' i j → P i j)
    [∀ i j, Decidable (P' i j)] : Upd ld P (fun i j => if P' i j then X' i j else X i j) b b'' := by
  constructor
  · intro i j hij
    by_cases h2 : P' i j
    · simp only [h2, if_true]; exact h'.cells i j h2
    · simp only [h2, if_false]
      rw [h'.other (fun i j h => hr i j (hsub i j h)) (hr i j hij) h2, h.cells i j hij]
  · intro p hp
    rw [h'.outside p (fun i j hij => hp i j (hsub i j hij)), h.outside p hp]

/-- Pointer arithmetic: an update seen from `base + (r + c * ld)`. -/
theorem Upd.of_shift {r c o : Int} (ho : o = r + c * ld) (h : Upd ld P X (b.shift o) b') :
    Upd ld (fun i j => P (i - r) (j - c)) (fun i j => X (i - r) (j - c)) b (b'.shift (-o)) := by
  subst ho
  constructor
  · intro i j hij
    have := h.cells (i - r) (j - c) hij
    rw [Buf.shift, ← this]
    congr 1; ring
  · intro p hp
    have := h.outside (p - (r + c * ld)) (fun i j hij he => hp (i + r) (j + c) (by simpa using hij) (by linarith))
    rw [Buf.shift, show -(r + c * ld) + p = p - (r + c * ld) by ring, this, Buf.shift]
    congr 1; ring

end

end RB
