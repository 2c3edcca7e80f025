import Verif.Core.Res
import Mathlib.Algebra.Order.Ring.Int
import Mathlib.Tactic.Ring
import Mathlib.Tactic.Linarith

/-! # Loops -/

namespace RB

/-- `for (k = 0; k < n; ++k) body(k)` in any monad. -/
def forN {m : Type → Type} [Monad m] (n : Nat) (body : Nat → m Unit) : m Unit :=
  match n with
  | 0 => pure ()
  | n + 1 => do forN n body; body n

/-- `for (i = lo; i < hi; ++i) body(i)` over integers. -/
def forI {m : Type → Type} [Monad m] (lo hi : Int) (body : Int → m Unit) : m Unit :=
  forN (hi - lo).toNat (fun k => body (lo + k))

/-- `for (k = 0; k < n; ++k) acc = body(k, acc)`: a loop with loop-carried local variables. -/
def foldN {m : Type → Type} [Monad m] {α : Type} (n : Nat) (body : Nat → α → m α) (a : α) : m α :=
  match n with
  | 0 => pure a
  | n + 1 => do let a ← foldN n body a; body n a

/-- `for (i = lo; i < hi; ++i) acc = body(i, acc)`. -/
def foldI {m : Type → Type} [Monad m] {α : Type} (lo hi : Int) (body : Int → α → m α) (a : α) : m α :=
  foldN (hi - lo).toNat (fun k => body (lo + k)) a

namespace M
variable {σ α : Type}

theorem wp_forN {n : Nat} {body : Nat → M σ Unit} {s : σ} {Q : Unit → σ → Prop} (Inv : Nat → σ → Prop)
    (h0 : Inv 0 s) (step : ∀ k s, k < n → Inv k s → wp (body k) s (fun _ s' => Inv (k + 1) s'))
    (hQ : ∀ s, Inv n s → Q () s) : wp (forN n body) s Q := by
  suffices h : wp (forN n body) s (fun _ s' => Inv n s') from wp_mono h (fun a s' h => hQ s' h)
  clear hQ
  induction n with
  | zero => simpa [forN] using h0
  | succ n ih =>
    unfold forN
    rw [wp_bind]
    refine wp_mono (ih (fun k s hk => step k s (by omega))) ?_
    intro _ s' h
    exact step n s' (by omega) h

theorem wp_forI {lo hi : Int} {body : Int → M σ Unit} {s : σ} {Q : Unit → σ → Prop} (Inv : Int → σ → Prop)
    (hle : lo ≤ hi) (h0 : Inv lo s)
    (step : ∀ i s, lo ≤ i → i < hi → Inv i s → wp (body i) s (fun _ s' => Inv (i + 1) s'))
    (hQ : ∀ s, Inv hi s → Q () s) : wp (forI lo hi body) s Q := by
  unfold forI
  apply wp_forN (fun k s => Inv (lo + k) s)
  · simpa using h0
  · intro k s hk h
    have := step (lo + k) s (by omega) (by omega) h
    rw [show lo + ((k + 1 : Nat) : Int) = lo + k + 1 by push_cast; ring]; exact this
  · intro s h
    apply hQ
    have : lo + ((hi - lo).toNat : Int) = hi := by omega
    rw [this] at h; exact h

/-- A loop whose bounds are empty does nothing. -/
theorem forI_empty {m : Type → Type} [Monad m] {lo hi : Int} {body : Int → m Unit} (h : hi ≤ lo) :
    forI lo hi body = pure () := by
  unfold forI
  have : (hi - lo).toNat = 0 := by omega
  rw [this]; rfl

/-- Loop rule for any bounds: `max lo hi` is where the counter ends. -/
theorem wp_forI' {lo hi : Int} {body : Int → M σ Unit} {s : σ} {Q : Unit → σ → Prop} (Inv : Int → σ → Prop)
    (h0 : Inv lo s)
    (step : ∀ i s, lo ≤ i → i < hi → Inv i s → wp (body i) s (fun _ s' => Inv (i + 1) s'))
    (hQ : ∀ s, Inv (max lo hi) s → Q () s) : wp (forI lo hi body) s Q := by
  by_cases h : lo ≤ hi
  · refine wp_forI Inv h h0 step (fun s hs => hQ s ?_)
    rwa [max_eq_right h]
  · rw [forI_empty (by omega), wp_pure]
    apply hQ
    rwa [max_eq_left (by omega)]

theorem wp_foldN {n : Nat} {body : Nat → α → M σ α} {a : α} {s : σ} {Q : α → σ → Prop} (Inv : Nat → α → σ → Prop)
    (h0 : Inv 0 a s) (step : ∀ k a s, k < n → Inv k a s → wp (body k a) s (fun a' s' => Inv (k + 1) a' s'))
    (hQ : ∀ a s, Inv n a s → Q a s) : wp (foldN n body a) s Q := by
  suffices h : wp (foldN n body a) s (fun a' s' => Inv n a' s') from wp_mono h (fun a s' h => hQ a s' h)
  clear hQ
  induction n with
  | zero => simpa [foldN] using h0
  | succ n ih =>
    unfold foldN
    rw [wp_bind]
    refine wp_mono (ih (fun k a s hk => step k a s (by omega))) ?_
    intro a' s' h
    exact step n a' s' (by omega) h

theorem wp_foldI {lo hi : Int} {body : Int → α → M σ α} {a : α} {s : σ} {Q : α → σ → Prop}
    (Inv : Int → α → σ → Prop) (hle : lo ≤ hi) (h0 : Inv lo a s)
    (step : ∀ i a s, lo ≤ i → i < hi → Inv i a s → wp (body i a) s (fun a' s' => Inv (i + 1) a' s'))
    (hQ : ∀ a s, Inv hi a s → Q a s) : wp (foldI lo hi body a) s Q := by
  unfold foldI
  apply wp_foldN (fun k a s => Inv (lo + k) a s)
  · simpa using h0
  · intro k a s hk h
    have := step (lo + k) a s (by omega) (by omega) h
    rw [show lo + ((k + 1 : Nat) : Int) = lo + k + 1 by push_cast; ring]; exact this
  · intro a s h
    apply hQ
    have : lo + ((hi - lo).toNat : Int) = hi := by omega
    rw [this] at h; exact h

end M

namespace Res
variable {α : Type}

theorem sat_foldN {n : Nat} {body : Nat → α → Res α} {a : α} {Q : α → Prop} (Inv : Nat → α → Prop)
    (h0 : Inv 0 a) (step : ∀ k a, k < n → Inv k a → sat (body k a) (fun a' => Inv (k + 1) a'))
    (hQ : ∀ a, Inv n a → Q a) : sat (foldN n body a) Q := by
  suffices h : sat (foldN n body a) (fun a' => Inv n a') from sat_mono h (fun a h => hQ a h)
  clear hQ
  induction n with
  | zero => simpa [foldN] using h0
  | succ n ih =>
    unfold foldN
    rw [sat_bind]
    refine sat_mono (ih (fun k a hk => step k a (by omega))) ?_
    intro a' h
    exact step n a' (by omega) h

theorem sat_foldI {lo hi : Int} {body : Int → α → Res α} {a : α} {Q : α → Prop} (Inv : Int → α → Prop)
    (hle : lo ≤ hi) (h0 : Inv lo a)
    (step : ∀ i a, lo ≤ i → i < hi → Inv i a → sat (body i a) (fun a' => Inv (i + 1) a'))
    (hQ : ∀ a, Inv hi a → Q a) : sat (foldI lo hi body a) Q := by
  unfold foldI
  apply sat_foldN (fun k a => Inv (lo + k) a)
  · simpa using h0
  · intro k a hk h
    have := step (lo + k) a (by omega) (by omega) h
    rw [show lo + ((k + 1 : Nat) : Int) = lo + k + 1 by push_cast; ring]; exact this
  · intro a h
    apply hQ
    have : lo + ((hi - lo).toNat : Int) = hi := by omega
    rw [this] at h; exact h

end Res

end RB

namespace RB.Res

/-- A loop of checks: it returns normally iff every check passes, and otherwise raises the error. -/
theorem forN_checks {n : Nat} {body : Nat → Res Unit} {e : Err}
    (h : ∀ k, k < n → body k = .ok () ∨ body k = .throw e) :
    (forN n body = .ok () ∧ ∀ k, k < n → body k = .ok ()) ∨
    (forN n body = .throw e ∧ ∃ k, k < n ∧ body k = .throw e) := by
  induction n with
  | zero => left; exact ⟨rfl, fun k hk => absurd hk (by omega)⟩
  | succ n ih =>
    unfold forN
    rcases ih (fun k hk => h k (by omega)) with ⟨h1, h2⟩ | ⟨h1, k, hk, h2⟩
    · rw [h1]
      rcases h n (by omega) with h3 | h3
      · left
        refine ⟨by simp [h3], fun k hk => ?_⟩
        rcases Nat.lt_succ_iff_lt_or_eq.mp hk with h4 | h4
        · exact h2 k h4
        · rw [h4]; exact h3
      · right; exact ⟨by simp [h3], n, by omega, h3⟩
    · right; rw [h1]; exact ⟨rfl, k, by omega, h2⟩

theorem forI_checks {lo hi : Int} {body : Int → Res Unit} {e : Err}
    (h : ∀ i, lo ≤ i → i < hi → body i = .ok () ∨ body i = .throw e) :
    (forI lo hi body = .ok () ∧ ∀ i, lo ≤ i → i < hi → body i = .ok ()) ∨
    (forI lo hi body = .throw e ∧ ∃ i, lo ≤ i ∧ i < hi ∧ body i = .throw e) := by
  unfold forI
  rcases forN_checks (n := (hi - lo).toNat) (body := fun k => body (lo + k)) (e := e)
    (fun k hk => h (lo + k) (by omega) (by omega)) with ⟨h1, h2⟩ | ⟨h1, k, hk, h2⟩
  · left
    refine ⟨h1, fun i hi0 hi1 => ?_⟩
    have := h2 (i - lo).toNat (by omega)
    rwa [show lo + ((i - lo).toNat : Int) = i by omega] at this
  · right
    exact ⟨h1, lo + k, by omega, by omega, h2⟩

end RB.Res
