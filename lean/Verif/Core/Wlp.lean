import Verif.Core.Wpx

/-!
# Partial correctness

`wlp m s Q E`: a normal return satisfies `Q`, an exception satisfies `E`; nothing is said about undefined behaviour.
-/

namespace RB
namespace M

variable {σ α β : Type}

/-- See the head of the file. -/
def wlp (m : M σ α) (s : σ) (Q : α → σ → Prop) (E : Err → σ → Prop) : Prop :=
  match m s with
  | (.ok a, s') => Q a s'
  | (.throw e, s') => E e s'
  | (.ub, _) => True

theorem wlp_of_wp {m : M σ α} {s : σ} {Q : α → σ → Prop} {E : Err → σ → Prop} (h : wp m s Q) : wlp m s Q E := by
  obtain ⟨a, s', h1, h2⟩ := h
  unfold wlp; rw [h1]; exact h2

theorem wlp_mono {m : M σ α} {s : σ} {Q Q' : α → σ → Prop} {E E' : Err → σ → Prop} (h : wlp m s Q E)
    (hQ : ∀ a s, Q a s → Q' a s) (hE : ∀ e s, E e s → E' e s) : wlp m s Q' E' := by
  unfold wlp at *
  rcases hm : m s with ⟨r, s'⟩
  rw [hm] at h
  cases r with
  | ok a => exact hQ _ _ h
  | throw e => exact hE _ _ h
  | ub => trivial

theorem wlp_bind {m : M σ α} {f : α → M σ β} {s : σ} {Q : β → σ → Prop} {E : Err → σ → Prop} :
    wlp (m >>= f) s Q E ↔ wlp m s (fun a s' => wlp (f a) s' Q E) E := by
  unfold wlp
  rcases hm : m s with ⟨r, s'⟩
  cases r with
  | ok a => rw [M.bind_ok hm]
  | throw e => rw [M.bind_throw hm]
  | ub => rw [M.bind_ub hm]

theorem wlp_pure {a : α} {s : σ} {Q : α → σ → Prop} {E : Err → σ → Prop} : wlp (pure a : M σ α) s Q E ↔ Q a s := Iff.rfl

theorem wlp_get {s : σ} {Q : σ → σ → Prop} {E : Err → σ → Prop} : wlp (M.get : M σ σ) s Q E ↔ Q s s := Iff.rfl

theorem wlp_require {c : Prop} [Decidable c] {s : σ} {Q : Unit → σ → Prop} {E : Err → σ → Prop} :
    wlp (M.require c) s Q E ↔ (c → Q () s) ∧ (¬ c → E .require s) := by
  by_cases h : c <;> simp [wlp, M.require, M.lift, h]

theorem wlp_lift {r : Res α} {s : σ} {Q : α → σ → Prop} {E : Err → σ → Prop} :
    wlp (M.lift r : M σ α) s Q E ↔ (∀ a, r = .ok a → Q a s) ∧ (∀ e, r = .throw e → E e s) := by
  cases r <;> simp [wlp, M.lift]

theorem wlp_zoom {τ : Type} {get : σ → τ} {put : σ → τ → σ} {m : M τ α} {s : σ} {Q : α → σ → Prop} {E : Err → σ → Prop} :
    wlp (M.zoom get put m) s Q E ↔ wlp m (get s) (fun a t => Q a (put s t)) (fun e t => E e (put s t)) := by
  unfold wlp M.zoom
  rcases hm : m (get s) with ⟨r, t⟩
  cases r <;> simp

/-- What holds after every outcome but undefined behaviour. -/
theorem wlp_trivial {m : M σ α} {s : σ} : wlp m s (fun _ _ => True) (fun _ _ => True) := by
  unfold wlp
  rcases m s with ⟨r, t⟩
  cases r <;> trivial

theorem wlp_ok {m : M σ α} {s s' : σ} {a : α} {Q : α → σ → Prop} {E : Err → σ → Prop} (h : wlp m s Q E) (he : m s = (.ok a, s')) : Q a s' := by
  unfold wlp at h; rw [he] at h; exact h

theorem wlp_throw {m : M σ α} {s s' : σ} {e : Err} {Q : α → σ → Prop} {E : Err → σ → Prop} (h : wlp m s Q E) (he : m s = (.throw e, s')) :
    E e s' := by
  unfold wlp at h; rw [he] at h; exact h

/-! More rules for `wpx`. -/

theorem wpx_get {s : σ} {Q : σ → σ → Prop} {E : Err → σ → Prop} : wpx (M.get : M σ σ) s Q E ↔ Q s s := Iff.rfl

theorem wpx_zoom {τ : Type} {get : σ → τ} {put : σ → τ → σ} {m : M τ α} {s : σ} {Q : α → σ → Prop} {E : Err → σ → Prop} :
    wpx (M.zoom get put m) s Q E ↔ wpx m (get s) (fun a t => Q a (put s t)) (fun e t => E e (put s t)) := by
  unfold wpx M.zoom
  rcases hm : m (get s) with ⟨r, t⟩
  cases r <;> simp

theorem wpx_lift {r : Res α} {s : σ} {Q : α → σ → Prop} {E : Err → σ → Prop} :
    wpx (M.lift r : M σ α) s Q E ↔ (match r with | .ok a => Q a s | .throw e => E e s | .ub => False) := by
  cases r <;> simp [wpx, M.lift]

theorem wpx_forN {n : Nat} {body : Nat → M σ Unit} {s : σ} {Q : Unit → σ → Prop} {E : Err → σ → Prop}
    (Inv : Nat → σ → Prop) (h0 : Inv 0 s) (step : ∀ k s, k < n → Inv k s → wpx (body k) s (fun _ s' => Inv (k + 1) s') E)
    (hQ : ∀ s, Inv n s → Q () s) : wpx (forN n body) s Q E := by
  suffices h : wpx (forN n body) s (fun _ s' => Inv n s') E from wpx_mono h (fun _ => hQ) (fun _ _ h => h)
  clear hQ
  induction n with
  | zero => exact h0
  | succ n ih =>
    unfold forN
    rw [wpx_bind]
    refine wpx_mono (ih (fun k s hk => step k s (by omega))) ?_ (fun _ _ h => h)
    intro _ s' h
    exact step n s' (by omega) h

theorem wpx_forI {lo hi : Int} {body : Int → M σ Unit} {s : σ} {Q : Unit → σ → Prop} {E : Err → σ → Prop}
    (Inv : Int → σ → Prop) (hle : lo ≤ hi) (h0 : Inv lo s)
    (step : ∀ i s, lo ≤ i → i < hi → Inv i s → wpx (body i) s (fun _ s' => Inv (i + 1) s') E)
    (hQ : ∀ s, Inv hi s → Q () s) : wpx (forI lo hi body) s Q E := by
  unfold forI
  apply wpx_forN (fun k s => Inv (lo + k) s)
  · simpa using h0
  · intro k s hk h
    have := step (lo + k) s (by omega) (by omega) h
    rw [show lo + ((k + 1 : Nat) : Int) = lo + k + 1 by push_cast; ring]; exact this
  · intro s h
    apply hQ
    have : lo + ((hi - lo).toNat : Int) = hi := by omega
    rw [this] at h; exact h

theorem eq_throw_of_wpx {m : M σ α} {s s' : σ} {e : Err} (h : wpx m s (fun _ _ => False) (fun e' t => e' = e ∧ t = s')) : m s = (.throw e, s') := by
  unfold wpx at h
  rcases hm : m s with ⟨r, t⟩
  rw [hm] at h
  cases r with
  | ok a => exact h.elim
  | throw e => simp only at h; rw [h.1, h.2]
  | ub => exact h.elim

end M
end RB
