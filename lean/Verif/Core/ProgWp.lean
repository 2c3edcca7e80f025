import Verif.Core.Par

/-! # Reasoning about one iteration of a parallel loop together with the cells it accesses -/

namespace RB

namespace Prog
variable {T α β : Type}

/-- Run alone from `b` the program returns normally, accesses only cells in `F`, and ends in a state satisfying `Q`. -/
def wpF (F : Int → Prop) : Prog T α → Buf T → (α → Buf T → Prop) → Prop
  | ret a, b, Q => Q a b
  | throw _, _, _ => False
  | ub, _, _ => False
  | rd i k, b, Q => F i ∧ ∃ v, b i = .val v ∧ wpF F (k v) b Q
  | wr i v k, b, Q => F i ∧ b i ≠ .none ∧ wpF F k (b.set i v) Q

variable {F : Int → Prop} {b : Buf T}

theorem wpF_mono {p : Prog T α} {Q R : α → Buf T → Prop} (h : wpF F p b Q) (hQ : ∀ a b', Q a b' → R a b') : wpF F p b R := by
  induction p generalizing b with
  | ret a => exact hQ _ _ h
  | throw e => exact h
  | ub => exact h
  | rd i k ih => obtain ⟨h1, v, h2, h3⟩ := h; exact ⟨h1, v, h2, ih v h3⟩
  | wr i v k ih => exact ⟨h.1, h.2.1, ih h.2.2⟩

theorem wpF_bind {p : Prog T α} {f : α → Prog T β} {Q : β → Buf T → Prop} :
    wpF F (p >>= f) b Q ↔ wpF F p b (fun a b' => wpF F (f a) b' Q) := by
  show wpF F (Prog.bind p f) b Q ↔ _
  induction p generalizing b with
  | ret a => exact Iff.rfl
  | throw e => exact Iff.rfl
  | ub => exact Iff.rfl
  | rd i k ih => simp only [Prog.bind, wpF, ih]
  | wr i v k ih => simp only [Prog.bind, wpF, ih]

theorem wpF_pure {a : α} {Q : α → Buf T → Prop} : wpF F (pure a : Prog T α) b Q ↔ Q a b := Iff.rfl

theorem wpF_lift {r : Res α} {Q : α → Buf T → Prop} : wpF F (lift r : Prog T α) b Q ↔ ∃ a, r = .ok a ∧ Q a b := by
  cases r <;> simp [lift, wpF]

theorem wpF_load {i : Int} {Q : T → Buf T → Prop} : wpF F (load i) b Q ↔ F i ∧ ∃ v, b i = .val v ∧ Q v b := Iff.rfl

theorem wpF_store {i : Int} {v : T} {Q : Unit → Buf T → Prop} : wpF F (store i v) b Q ↔ F i ∧ b i ≠ .none ∧ Q () (b.set i v) := Iff.rfl

theorem wpF_foldN {n : Nat} {body : Nat → α → Prog T α} {a : α} {Q : α → Buf T → Prop} (Inv : Nat → α → Buf T → Prop)
    (h0 : Inv 0 a b) (step : ∀ k a b, k < n → Inv k a b → wpF F (body k a) b (Inv (k + 1))) (hQ : ∀ a b, Inv n a b → Q a b) :
    wpF F (foldN n body a) b Q := by
  refine wpF_mono (Q := Inv n) ?_ hQ
  clear hQ
  induction n with
  | zero => exact h0
  | succ n ih =>
    unfold foldN
    rw [wpF_bind]
    exact wpF_mono (ih (fun k a b hk => step k a b (by omega))) (fun a b' h => step n a b' (by omega) h)

theorem wpF_foldI {lo hi : Int} {body : Int → α → Prog T α} {a : α} {Q : α → Buf T → Prop} (Inv : Int → α → Buf T → Prop)
    (hle : lo ≤ hi) (h0 : Inv lo a b)
    (step : ∀ i a b, lo ≤ i → i < hi → Inv i a b → wpF F (body i a) b (Inv (i + 1))) (hQ : ∀ a b, Inv hi a b → Q a b) :
    wpF F (foldI lo hi body a) b Q := by
  unfold foldI
  refine wpF_foldN (fun k => Inv (lo + k)) (by simpa using h0) ?_ ?_
  · intro k a b hk h
    have := step (lo + k) a b (by omega) (by omega) h
    rw [show lo + ((k + 1 : Nat) : Int) = lo + k + 1 by push_cast; ring]; exact this
  · intro a b h
    rw [show lo + ((hi - lo).toNat : Int) = hi by omega] at h
    exact hQ a b h

theorem wpF_forN {n : Nat} {body : Nat → Prog T Unit} {Q : Unit → Buf T → Prop} (Inv : Nat → Buf T → Prop)
    (h0 : Inv 0 b) (step : ∀ k b, k < n → Inv k b → wpF F (body k) b (fun _ => Inv (k + 1))) (hQ : ∀ b, Inv n b → Q () b) :
    wpF F (forN n body) b Q := by
  refine wpF_mono (Q := fun _ => Inv n) ?_ (fun _ b h => hQ b h)
  clear hQ
  induction n with
  | zero => exact h0
  | succ n ih =>
    unfold forN
    rw [wpF_bind]
    exact wpF_mono (ih (fun k b hk => step k b (by omega))) (fun _ b' h => step n b' (by omega) h)

theorem wpF_forI {lo hi : Int} {body : Int → Prog T Unit} {Q : Unit → Buf T → Prop} (Inv : Int → Buf T → Prop)
    (hle : lo ≤ hi) (h0 : Inv lo b)
    (step : ∀ i b, lo ≤ i → i < hi → Inv i b → wpF F (body i) b (fun _ => Inv (i + 1))) (hQ : ∀ b, Inv hi b → Q () b) :
    wpF F (forI lo hi body) b Q := by
  unfold forI
  refine wpF_forN (fun k => Inv (lo + k)) (by simpa using h0) ?_ ?_
  · intro k b hk h
    have := step (lo + k) b (by omega) (by omega) h
    rw [show lo + ((k + 1 : Nat) : Int) = lo + k + 1 by push_cast; ring]; exact this
  · intro b h
    rw [show lo + ((hi - lo).toNat : Int) = hi by omega] at h
    exact hQ b h

/-- A loop with an empty range does nothing. -/
theorem wpF_forI_empty {lo hi : Int} {body : Int → Prog T Unit} {Q : Unit → Buf T → Prop} (hle : hi ≤ lo) (h : Q () b) :
    wpF F (forI lo hi body) b Q := by
  unfold forI
  rw [show (hi - lo).toNat = 0 by omega]
  exact h

/-- The program behaves the same from every memory that agrees on `F`. -/
theorem wpF_agree {p : Prog T α} {Q : α → Buf T → Prop} (h : wpF F p b Q) {c : Buf T} (hbc : ∀ q, F q → b q = c q) :
    wpF F p c (fun a c' => ∃ b', Q a b' ∧ (∀ q, F q → b' q = c' q) ∧ ∀ q, ¬ F q → c' q = c q) := by
  induction p generalizing b c with
  | ret a => exact ⟨b, h, hbc, fun _ _ => rfl⟩
  | throw e => exact h
  | ub => exact h
  | rd i k ih =>
    obtain ⟨h1, v, h2, h3⟩ := h
    exact ⟨h1, v, by rw [← hbc i h1, h2], ih v h3 hbc⟩
  | wr i v k ih =>
    obtain ⟨h1, h2, h3⟩ := h
    refine ⟨h1, by rw [← hbc i h1]; exact h2, wpF_mono (ih h3 (c := c.set i v) ?_) ?_⟩
    · intro q hq; rw [Buf.set_apply, Buf.set_apply, hbc q hq]
    · rintro a c' ⟨b', g1, g2, g3⟩
      refine ⟨b', g1, g2, fun q hq => ?_⟩
      have hqi : q ≠ i := fun he => hq (he ▸ h1)
      rw [g3 q hq, Buf.set_ne hqi]

theorem wpF_run {p : Prog T α} {Q : α → Buf T → Prop} (h : wpF F p b Q) : M.wp p.run b Q := by
  induction p generalizing b with
  | ret a => exact ⟨a, b, rfl, h⟩
  | throw e => exact h.elim
  | ub => exact h.elim
  | rd i k ih =>
    obtain ⟨h1, v, h2, h3⟩ := h
    rw [Prog.run, M.wp_bind, M.wp_rd]
    exact ⟨v, h2, ih v h3⟩
  | wr i v k ih =>
    obtain ⟨h1, h2, h3⟩ := h
    rw [Prog.run, M.wp_bind, M.wp_wr]
    exact ⟨h2, ih h3⟩

/-- One access. -/
theorem wpF_step {p : Prog T Unit} {Q : Unit → Buf T → Prop} (h : wpF F p b Q) :
    ∃ p' b', Prog.step p b = (.ok p', b') ∧ wpF F p' b' Q ∧ ∀ q, ¬ F q → b' q = b q := by
  cases p with
  | ret a => exact ⟨.ret a, b, rfl, h, fun _ _ => rfl⟩
  | throw e => exact h.elim
  | ub => exact h.elim
  | rd i k =>
    obtain ⟨h1, v, h2, h3⟩ := h
    have hx : (M.rd i : M (Buf T) T) b = (.ok v, b) := by simp [M.rd, h2, Buf.rd]
    refine ⟨k v, b, ?_, h3, fun _ _ => rfl⟩
    simp only [Prog.step]; rw [M.bind_ok hx]; rfl
  | wr i v k =>
    obtain ⟨h1, h2, h3⟩ := h
    have hx : (M.wr i v : M (Buf T) Unit) b = (.ok (), b.set i v) := by
      cases h0 : b i with
      | none => exact absurd h0 h2
      | uninit => simp [M.wr, h0]
      | val x => simp [M.wr, h0]
    refine ⟨k, b.set i v, ?_, h3, fun q hq => Buf.set_ne (fun he => hq (he ▸ h1))⟩
    simp only [Prog.step]; rw [M.bind_ok hx]; rfl

end Prog

open Prog

/-- Parallel loops: if, run alone from the initial memory, iteration `i` only accesses `F i` and establishes `f i`, the `F i` are disjoint and
`f i` depends only on the cells `F i`, then under every schedule the loop returns normally, establishes all `f i` and changes nothing else. -/
theorem parFor_wpF {T : Type} {n : Nat} {body : Nat → Prog T Unit} {F : Nat → Int → Prop} {b : Buf T} {f : Nat → Buf T → Prop}
    (hdisj : ∀ i j, i < n → j < n → i ≠ j → ∀ p, F i p → ¬ F j p)
    (hlocal : ∀ i, i < n → ∀ c c', (∀ p, F i p → c p = c' p) → f i c → f i c')
    (hrun : ∀ i, i < n → wpF (F i) (body i) b (fun _ => f i)) (sched : List Nat) :
    M.wp (parFor sched n body) b (fun _ b' => (∀ i, i < n → f i b') ∧ ∀ p, (∀ i, i < n → ¬ F i p) → b' p = b p) := by
  induction sched generalizing body b with
  | nil =>
    unfold parFor
    refine M.wp_forN (fun k c => (∀ i, i < k → f i c) ∧ ∀ p, (∀ i, i < k → ¬ F i p) → c p = b p)
      ⟨fun i hi => absurd hi (by omega), fun _ _ => rfl⟩ ?_ (fun c h => h)
    rintro k c hk ⟨h1, h2⟩
    have hk' := wpF_agree (hrun k hk) (c := c) (by
      intro q hq
      rw [h2 q (fun i hi hFi => hdisj i k (by omega) hk (by omega) q hFi hq)])
    obtain ⟨u, c', hc', b', g1, g2, g3⟩ := wpF_run hk'
    refine ⟨(), c', M.terminating_ok hc', ?_, ?_⟩
    · intro i hi
      by_cases hik : i = k
      · subst hik; exact hlocal i hk b' c' g2 g1
      · refine hlocal i (by omega) c c' (fun p hp => (g3 p (hdisj i k (by omega) hk hik p hp)).symm) (h1 i (by omega))
    · intro p hp
      rw [g3 p (hp k (by omega)), h2 p (fun i hi => hp i (by omega))]
  | cons t rest ih =>
    unfold parFor
    by_cases ht : t < n
    · rw [if_pos ht]
      obtain ⟨p', b1, hstep, hp', hun⟩ := wpF_step (hrun t ht)
      rw [M.wp_bind]
      refine ⟨p', b1, hstep, ?_⟩
      refine M.wp_mono (ih (body := Function.update body t p') (b := b1) ?_) ?_
      · intro i hi
        by_cases hit : i = t
        · subst hit; rw [Function.update_self]; exact hp'
        · rw [Function.update_of_ne hit]
          refine wpF_mono (wpF_agree (hrun i hi) (c := b1) (fun q hq => (hun q (hdisj i t hi ht hit q hq)).symm)) ?_
          rintro _ c' ⟨b', g1, g2, g3⟩
          exact hlocal i hi b' c' g2 g1
      · rintro _ b' ⟨h1, h2⟩
        exact ⟨h1, fun p hp => by rw [h2 p hp, hun p (hp t ht)]⟩
    · rw [if_neg ht]; exact ih hrun

/-- The same for an integer range. -/
theorem wpF_parForI {T : Type} {lo hi : Int} {body : Int → Prog T Unit} (F : Int → Int → Prop) {b : Buf T} (f : Int → Buf T → Prop)
    {Q : Unit → Buf T → Prop}
    (hdisj : ∀ i j, lo ≤ i → i < hi → lo ≤ j → j < hi → i ≠ j → ∀ p, F i p → ¬ F j p)
    (hlocal : ∀ i, lo ≤ i → i < hi → ∀ c c', (∀ p, F i p → c p = c' p) → f i c → f i c')
    (hrun : ∀ i, lo ≤ i → i < hi → wpF (F i) (body i) b (fun _ => f i)) (sched : List Nat)
    (hQ : ∀ b', (∀ i, lo ≤ i → i < hi → f i b') → (∀ p, (∀ i, lo ≤ i → i < hi → ¬ F i p) → b' p = b p) → Q () b') :
    M.wp (parForI sched lo hi body) b Q := by
  refine M.wp_mono (parFor_wpF (n := (hi - lo).toNat) (body := fun k => body (lo + k)) (F := fun k => F (lo + k)) (b := b)
    (f := fun k => f (lo + k)) (fun i j hi hj hij p => hdisj _ _ (by omega) (by omega) (by omega) (by omega) (by omega) p)
    (fun i hi => hlocal _ (by omega) (by omega)) (fun i hi => hrun _ (by omega) (by omega)) sched) ?_
  rintro _ b' ⟨h1, h2⟩
  refine hQ b' ?_ ?_
  · intro i hi0 hi1
    have := h1 (i - lo).toNat (by omega)
    rwa [show lo + ((i - lo).toNat : Int) = i by omega] at this
  · intro p hp
    exact h2 p (fun i hi => hp _ (by omega) (by omega))

end RB
