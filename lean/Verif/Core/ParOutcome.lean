import Verif.Core.ProgWp
import Verif.Core.Doom

/-!
# Parallel loops whose iterations may have undefined behaviour

With disjoint footprints and no exceptions, either every schedule has undefined behaviour or every schedule returns normally with the same
memory.
-/

namespace RB

namespace Prog
variable {T α β : Type}

/-- A program that cannot raise an exception does not. -/
theorem All.run_not_throw {Q : α → Prop} {p : Prog T α} (h : p.All Q) (b : Buf T) (e : Err) : (p.run b).1 ≠ .throw e := by
  have := h.run b
  unfold M.wlp at this
  intro he
  rcases hr : p.run b with ⟨r, b'⟩
  rw [hr] at this he
  simp only at he
  subst he
  exact this

theorem All.liftRd {S : Type} {x : Buf S} {i : Int} : (Prog.lift (x.rd i) : Prog T S).All fun _ => True :=
  All.read fun _ _ => trivial

/-- One access, then the rest. -/
theorem step_cases (p : Prog T Unit) (b : Buf T) (hp : (p.All fun _ => True)) :
    (p.step b).1 = .ub ∨ ∃ p' b1, p.step b = (.ok p', b1) ∧ p'.run b1 = p.run b ∧ (p'.All fun _ => True) ∧
      ∀ F : Int → Prop, p.Foot F → p'.Foot F ∧ ∀ q, ¬ F q → b1 q = b q := by
  cases p with
  | ret a => exact .inr ⟨.ret a, b, rfl, rfl, trivial, fun F h => ⟨trivial, fun _ _ => rfl⟩⟩
  | throw e => exact hp.elim
  | ub => exact .inl rfl
  | rd i k =>
    simp only [Prog.step, Prog.run]
    cases hbi : b i with
    | val x =>
      have hx : (M.rd i : M (Buf T) T) b = (.ok x, b) := by simp [M.rd, hbi, Buf.rd]
      rw [M.bind_ok hx, M.bind_ok hx]
      exact .inr ⟨k x, b, rfl, rfl, hp x, fun F h => ⟨h.2 x, fun _ _ => rfl⟩⟩
    | none => rw [M.bind_ub (s' := b) (by simp [M.rd, hbi, Buf.rd])]; exact .inl rfl
    | uninit => rw [M.bind_ub (s' := b) (by simp [M.rd, hbi, Buf.rd])]; exact .inl rfl
  | wr i v k =>
    simp only [Prog.step, Prog.run]
    by_cases hbi : b i = .none
    · rw [M.bind_ub (s' := b) (by simp [M.wr, hbi])]; exact .inl rfl
    · have hx : (M.wr i v : M (Buf T) Unit) b = (.ok (), b.set i v) := by
        cases h0 : b i with
        | none => exact absurd h0 hbi
        | uninit => simp [M.wr, h0]
        | val x => simp [M.wr, h0]
      rw [M.bind_ok hx, M.bind_ok hx]
      exact .inr ⟨k, b.set i v, rfl, rfl, hp, fun F h => ⟨h.2, fun q hq => Buf.set_ne (fun he => hq (he ▸ h.1))⟩⟩

end Prog

variable {T : Type}

/-- If an iteration, run alone from the initial memory, has undefined behaviour, then so has the loop under every schedule. -/
theorem parFor_undef_task {n : Nat} {body : Nat → Prog T Unit} {F : Nat → Int → Prop} {b : Buf T}
    (hdisj : ∀ i j, i < n → j < n → i ≠ j → ∀ p, F i p → ¬ F j p)
    (hfoot : ∀ i, i < n → (body i).Foot (F i)) (hthrow : ∀ i, i < n → (body i).All fun _ => True)
    {i : Nat} (hi : i < n) (hub : ((body i).run b).1 = .ub) (sched : List Nat) :
    M.Undef (parFor sched n body) b := by
  induction sched generalizing body b with
  | nil =>
    unfold parFor
    -- the first iteration with undefined behaviour
    classical
    have hex : ∃ k, k < n ∧ ((body k).run b).1 = .ub := ⟨i, hi, hub⟩
    have hk := Nat.find_spec hex
    have hmin := fun j (hj : j < Nat.find hex) => Nat.find_min hex hj
    generalize Nat.find hex = k at hk hmin
    refine M.Undef.forN (Inv := fun j c => ∀ p, (∀ i, i < j → ¬ F i p) → c p = b p) (k := k) hk.1 (fun _ _ => rfl) ?_ ?_
    · intro j c hj hc
      have hjn : j < n := by omega
      rcases hr : (body j).run b with ⟨r, fj⟩
      obtain ⟨c', hc', -⟩ := (hfoot j hjn).agree (c := c) (b := b) (by
          intro q hq
          rw [hc q (fun i hi hFi => hdisj i j (by omega) hjn (by omega) q hFi hq)]) hr
      cases r with
      | ok u =>
        refine ⟨(), c', M.terminating_ok hc', ?_⟩
        intro p hp
        rw [(hfoot j hjn).unchanged hc' p (hp j (by omega)), hc p (fun i hi => hp i (by omega))]
      | throw e => exact absurd (by rw [hr]) ((hthrow j hjn).run_not_throw b e)
      | ub => exact absurd ⟨hjn, by rw [hr]⟩ (hmin j hj)
    · intro c hc
      rcases hr : (body k).run b with ⟨r, fk⟩
      have hr0 : r = .ub := by have := hk.2; rw [hr] at this; exact this
      subst hr0
      obtain ⟨c', hc', -⟩ := (hfoot k hk.1).agree (c := c) (b := b) (by
          intro q hq
          rw [hc q (fun i hi hFi => hdisj i k (by omega) hk.1 (by omega) q hFi hq)]) hr
      show (M.terminating _ c).1 = _
      unfold M.terminating
      rw [hc']
  | cons t rest ih =>
    unfold parFor
    by_cases ht : t < n
    · rw [if_pos ht]
      rcases Prog.step_cases (body t) b (hthrow t ht) with hs | ⟨p', b1, hs, hr, hnt, hF⟩
      · exact M.Undef.bind hs
      · unfold M.Undef
        rw [M.bind_ok hs]
        obtain ⟨hF1, hun⟩ := hF (F t) (hfoot t ht)
        refine ih (body := Function.update body t p') (b := b1) ?_ ?_ ?_
        · intro i hi
          by_cases hit : i = t
          · subst hit; simpa using hF1
          · rw [Function.update_of_ne hit]; exact hfoot i hi
        · intro i hi
          by_cases hit : i = t
          · subst hit; simpa using hnt
          · rw [Function.update_of_ne hit]; exact hthrow i hi
        · by_cases hit : i = t
          · subst hit; rw [Function.update_self, hr]; exact hub
          · rw [Function.update_of_ne hit]
            rcases hr0 : (body i).run b with ⟨r, fi⟩
            have hr1 : r = .ub := by rw [hr0] at hub; exact hub
            subst hr1
            obtain ⟨c', hc', -⟩ := (hfoot i hi).agree (c := b1) (b := b)
              (fun q hq => (hun q (hdisj i t hi ht hit q hq)).symm) hr0
            rw [hc']
    · rw [if_neg ht]; exact ih hfoot hthrow hub

/-- Two runs have the same effect: both undefined, or the same outcome and the same final state. -/
def SameEffect {σ α : Type} (x y : Res α × σ) : Prop := (x.1 = .ub ∧ y.1 = .ub) ∨ x = y

/-- With disjoint footprints and no exceptions the effect of the loop does not depend on the schedule. -/
theorem parFor_sameEffect {n : Nat} {body : Nat → Prog T Unit} {F : Nat → Int → Prop} {b : Buf T}
    (hdisj : ∀ i j, i < n → j < n → i ≠ j → ∀ p, F i p → ¬ F j p)
    (hfoot : ∀ i, i < n → (body i).Foot (F i)) (hthrow : ∀ i, i < n → (body i).All fun _ => True) (s1 s2 : List Nat) :
    SameEffect (parFor s1 n body b) (parFor s2 n body b) := by
  by_cases h : ∃ i, i < n ∧ ((body i).run b).1 = .ub
  · obtain ⟨i, hi, hub⟩ := h
    exact .inl ⟨parFor_undef_task hdisj hfoot hthrow hi hub s1, parFor_undef_task hdisj hfoot hthrow hi hub s2⟩
  · refine .inr (parFor_schedule_irrelevant hdisj hfoot (fun i hi => ?_) s1 s2)
    rcases hr : (body i).run b with ⟨r, fi⟩
    cases r with
    | ok u => exact ⟨fi, rfl⟩
    | throw e => exact absurd (by rw [hr]) ((hthrow i hi).run_not_throw b e)
    | ub => exact absurd ⟨i, hi, by rw [hr]⟩ h

theorem parForI_sameEffect {lo hi : Int} {body : Int → Prog T Unit} (F : Int → Int → Prop) {b : Buf T}
    (hdisj : ∀ i j, lo ≤ i → i < hi → lo ≤ j → j < hi → i ≠ j → ∀ p, F i p → ¬ F j p)
    (hfoot : ∀ i, lo ≤ i → i < hi → (body i).Foot (F i)) (hthrow : ∀ i, lo ≤ i → i < hi → (body i).All fun _ => True) (s1 s2 : List Nat) :
    SameEffect (parForI s1 lo hi body b) (parForI s2 lo hi body b) :=
  parFor_sameEffect (F := fun k => F (lo + k))
    (fun i j hi hj hij p => hdisj _ _ (by omega) (by omega) (by omega) (by omega) (by omega) p)
    (fun i hi => hfoot _ (by omega) (by omega)) (fun i hi => hthrow _ (by omega) (by omega)) s1 s2

theorem SameEffect.refl {σ α : Type} (x : Res α × σ) : SameEffect x x := .inr rfl

/-- A common prefix. -/
theorem SameEffect.bind_left {σ α β : Type} {m : M σ α} {f g : α → M σ β} {s : σ}
    (h : ∀ a s', m s = (.ok a, s') → SameEffect (f a s') (g a s')) : SameEffect ((m >>= f) s) ((m >>= g) s) := by
  rcases hm : m s with ⟨r, s'⟩
  cases r with
  | ok a => rw [M.bind_ok hm, M.bind_ok hm]; exact h a s' hm
  | throw e => rw [M.bind_throw hm, M.bind_throw hm]; exact .inr rfl
  | ub => rw [M.bind_ub hm, M.bind_ub hm]; exact .inr rfl

/-- A common suffix. -/
theorem SameEffect.bind_right {σ α β : Type} {m m' : M σ α} {f : α → M σ β} {s : σ} (h : SameEffect (m s) (m' s)) :
    SameEffect ((m >>= f) s) ((m' >>= f) s) := by
  rcases h with ⟨h1, h2⟩ | h
  · exact .inl ⟨M.Undef.bind h1, M.Undef.bind h2⟩
  · right
    show (match m s with | (.ok a, s') => f a s' | (.throw e, s') => (.throw e, s') | (.ub, s') => (.ub, s')) = _
    rw [h]; rfl

theorem SameEffect.zoom {σ τ α : Type} {get : σ → τ} {set : σ → τ → σ} {m m' : M τ α} {s : σ}
    (h : SameEffect (m (get s)) (m' (get s))) : SameEffect (M.zoom get set m s) (M.zoom get set m' s) := by
  rcases h with ⟨h1, h2⟩ | h
  · exact .inl ⟨M.Undef.zoom h1, M.Undef.zoom h2⟩
  · right; unfold M.zoom; rw [h]

end RB
