import Verif.Core.Loop

/-!
# Specifications that also describe exceptions

`wpx m s Q E`: the computation has no undefined behaviour; a normal return satisfies `Q`, an exception satisfies `E`.
-/

namespace RB.M
variable {σ α β : Type}

/-- See the header. -/
def wpx (m : M σ α) (s : σ) (Q : α → σ → Prop) (E : Err → σ → Prop) : Prop :=
  match m s with
  | (.ok a, s') => Q a s'
  | (.throw e, s') => E e s'
  | (.ub, _) => False

theorem wpx_mono {m : M σ α} {s : σ} {Q Q' : α → σ → Prop} {E E' : Err → σ → Prop} (h : wpx m s Q E)
    (hQ : ∀ a s, Q a s → Q' a s) (hE : ∀ e s, E e s → E' e s) : wpx m s Q' E' := by
  unfold wpx at *
  rcases hm : m s with ⟨r, s'⟩
  rw [hm] at h
  cases r with
  | ok a => exact hQ _ _ h
  | throw e => exact hE _ _ h
  | ub => exact h

@[simp] theorem wpx_pure {a : α} {s : σ} {Q : α → σ → Prop} {E : Err → σ → Prop} : wpx (pure a : M σ α) s Q E ↔ Q a s := Iff.rfl

theorem wpx_bind {m : M σ α} {f : α → M σ β} {s : σ} {Q : β → σ → Prop} {E : Err → σ → Prop} :
    wpx (m >>= f) s Q E ↔ wpx m s (fun a s' => wpx (f a) s' Q E) E := by
  unfold wpx
  rw [bind_eq]
  unfold bind
  rcases h : m s with ⟨r, s'⟩
  cases r <;> rfl

@[simp] theorem wpx_require {c : Prop} [Decidable c] {s : σ} {Q : Unit → σ → Prop} {E : Err → σ → Prop} :
    wpx (require c) s Q E ↔ (c → Q () s) ∧ (¬ c → E .require s) := by
  by_cases h : c <;> simp [wpx, require, lift, h]

@[simp] theorem wpx_errorIf {c : Prop} [Decidable c] {s : σ} {Q : Unit → σ → Prop} {E : Err → σ → Prop} :
    wpx (errorIf c) s Q E ↔ (¬ c → Q () s) ∧ (c → E .errorIf s) := by
  by_cases h : c <;> simp [wpx, errorIf, Res.errorIf, lift, h]

@[simp] theorem wpx_rd {T : Type} {i : Int} {b : Buf T} {Q : T → Buf T → Prop} {E : Err → Buf T → Prop} :
    wpx (rd i) b Q E ↔ ∃ v, b i = .val v ∧ Q v b := by
  unfold wpx rd Buf.rd
  cases h : b i <;> simp

@[simp] theorem wpx_wr {T : Type} {i : Int} {v : T} {b : Buf T} {Q : Unit → Buf T → Prop} {E : Err → Buf T → Prop} :
    wpx (wr i v) b Q E ↔ b i ≠ .none ∧ Q () (b.set i v) := by
  unfold wpx wr
  cases h : b i <;> simp

/-- A normal return is a special case. -/
theorem wpx_of_wp {m : M σ α} {s : σ} {Q : α → σ → Prop} {E : Err → σ → Prop} (h : wp m s Q) : wpx m s Q E := by
  obtain ⟨a, s', h1, h2⟩ := h
  unfold wpx; rw [h1]; exact h2

theorem wp_of_wpx {m : M σ α} {s : σ} {Q : α → σ → Prop} (h : wpx m s Q (fun _ _ => False)) : wp m s Q := by
  unfold wpx at h
  rcases hm : m s with ⟨r, s'⟩
  rw [hm] at h
  cases r with
  | ok a => exact ⟨a, s', hm, h⟩
  | throw e => exact h.elim
  | ub => exact h.elim

theorem wpx_foldN {n : Nat} {body : Nat → α → M σ α} {a : α} {s : σ} {Q : α → σ → Prop} {E : Err → σ → Prop}
    (Inv : Nat → α → σ → Prop) (h0 : Inv 0 a s)
    (step : ∀ k a s, k < n → Inv k a s → wpx (body k a) s (fun a' s' => Inv (k + 1) a' s') E)
    (hQ : ∀ a s, Inv n a s → Q a s) : wpx (foldN n body a) s Q E := by
  suffices h : wpx (foldN n body a) s (fun a' s' => Inv n a' s') E from wpx_mono h hQ (fun _ _ h => h)
  clear hQ
  induction n with
  | zero => exact h0
  | succ n ih =>
    unfold foldN
    rw [wpx_bind]
    refine wpx_mono (ih (fun k a s hk => step k a s (by omega))) ?_ (fun _ _ h => h)
    intro a' s' h
    exact step n a' s' (by omega) h

theorem wpx_foldI {lo hi : Int} {body : Int → α → M σ α} {a : α} {s : σ} {Q : α → σ → Prop} {E : Err → σ → Prop}
    (Inv : Int → α → σ → Prop) (hle : lo ≤ hi) (h0 : Inv lo a s)
    (step : ∀ i a s, lo ≤ i → i < hi → Inv i a s → wpx (body i a) s (fun a' s' => Inv (i + 1) a' s') E)
    (hQ : ∀ a s, Inv hi a s → Q a s) : wpx (foldI lo hi body a) s Q E := by
  unfold foldI
  apply wpx_foldN (fun k a s => Inv (lo + k) a s)
  · simpa using h0
  · intro k a s hk h
    have := step (lo + k) a s (by omega) (by omega) h
    rw [show lo + ((k + 1 : Nat) : Int) = lo + k + 1 by push_cast; ring]; exact this
  · intro a s h
    apply hQ
    have : lo + ((hi - lo).toNat : Int) = hi := by omega
    rw [this] at h; exact h

end RB.M
