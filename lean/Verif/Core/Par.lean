import Verif.Core.Loop

/-!
# Parallel loops

The iterations of an OpenMP parallel loop are programs made of single loads and stores on the shared output
buffer. A schedule lists which iteration performs its next access; when the list is used up the rest runs
in order. Every assignment of iterations to threads and every interleaving of the threads' accesses is the
effect of some schedule (a thread running several iterations one after another is a special case).
-/

namespace RB

/-- A program over one shared buffer, as a tree of single loads and stores. -/
inductive Prog (T : Type) (α : Type) where
  | ret (a : α)
  | throw (e : Err)
  | ub
  | rd (i : Int) (k : T → Prog T α)
  | wr (i : Int) (v : T) (k : Prog T α)

namespace Prog
variable {T α β : Type}

/-- Sequencing. -/
def bind : Prog T α → (α → Prog T β) → Prog T β
  | ret a, f => f a
  | throw e, _ => throw e
  | ub, _ => ub
  | rd i k, f => rd i (fun v => bind (k v) f)
  | wr i v k, f => wr i v (bind k f)

instance : Monad (Prog T) where
  pure := ret
  bind := bind

instance : LawfulMonad (Prog T) := LawfulMonad.mk'
  (id_map := by
    intro α x
    show bind x _ = x
    induction x with
    | ret a => rfl
    | throw e => rfl
    | ub => rfl
    | rd i k ih => simp only [bind]; congr 1; funext v; exact ih v
    | wr i v k ih => simp only [bind]; rw [ih])
  (pure_bind := by intros; rfl)
  (bind_assoc := by
    intro α β γ x f g
    show bind (bind x f) g = bind x (fun a => bind (f a) g)
    induction x with
    | ret a => rfl
    | throw e => rfl
    | ub => rfl
    | rd i k ih => simp only [bind]; congr 1; funext v; exact ih v
    | wr i v k ih => simp only [bind]; rw [ih])

/-- A pure computation that may fail (for example a load from a buffer that no iteration writes). -/
def lift : Res α → Prog T α
  | .ok a => ret a
  | .throw e => throw e
  | .ub => ub

/-- A single load from the shared buffer. -/
def load (i : Int) : Prog T T := rd i ret
/-- A single store to the shared buffer. -/
def store (i : Int) (v : T) : Prog T Unit := wr i v (ret ())

/-- Run alone, to completion. -/
def run : Prog T α → M (Buf T) α
  | ret a => pure a
  | throw e => M.throw e
  | ub => M.ub
  | rd i k => M.rd i >>= fun v => (k v).run
  | wr i v k => M.wr i v >>= fun _ => k.run

@[simp] theorem run_pure (a : α) : (pure a : Prog T α).run = pure a := rfl
@[simp] theorem run_ret (a : α) : (ret a : Prog T α).run = pure a := rfl
theorem run_load (i : Int) : (load i : Prog T T).run = M.rd i := by
  show M.rd i >>= (fun v => pure v) = M.rd i
  simp
theorem run_store (i : Int) (v : T) : (store i v : Prog T Unit).run = M.wr i v := by
  show M.wr i v >>= (fun _ => pure ()) = M.wr i v
  simp

theorem run_bind (p : Prog T α) (f : α → Prog T β) : (p >>= f).run = p.run >>= fun a => (f a).run := by
  show (bind p f).run = _
  induction p with
  | ret a => rfl
  | throw e => rfl
  | ub => rfl
  | rd i k ih => simp only [bind, run, bind_assoc]; congr 1; funext v; exact ih v
  | wr i v k ih => simp only [bind, run, bind_assoc]; rw [ih]

theorem run_lift (r : Res α) : (lift r : Prog T α).run = M.lift r := by
  cases r <;> rfl

theorem run_forN (n : Nat) (body : Nat → Prog T Unit) : (forN n body).run = forN n (fun k => (body k).run) := by
  induction n with
  | zero => rfl
  | succ n ih => simp only [forN, run_bind, ih]

theorem run_forI (lo hi : Int) (body : Int → Prog T Unit) : (forI lo hi body).run = forI lo hi (fun k => (body k).run) :=
  run_forN _ _

theorem run_foldN (n : Nat) (body : Nat → α → Prog T α) (a : α) :
    (foldN n body a).run = foldN n (fun k a => (body k a).run) a := by
  induction n with
  | zero => rfl
  | succ n ih => simp only [foldN, run_bind, ih]

theorem run_foldI (lo hi : Int) (body : Int → α → Prog T α) (a : α) :
    (foldI lo hi body a).run = foldI lo hi (fun k a => (body k a).run) a :=
  run_foldN _ _ _

/-- All accesses of the program stay in `F`, whatever values its loads return. -/
def Foot (F : Int → Prop) : Prog T α → Prop
  | ret _ => True
  | throw _ => True
  | ub => True
  | rd i k => F i ∧ ∀ v, (k v).Foot F
  | wr i _ k => F i ∧ k.Foot F

theorem Foot.bind {F : Int → Prop} {p : Prog T α} {f : α → Prog T β} (hp : p.Foot F) (hf : ∀ a, (f a).Foot F) :
    (p >>= f).Foot F := by
  show (Prog.bind p f).Foot F
  induction p with
  | ret a => exact hf a
  | throw e => trivial
  | ub => trivial
  | rd i k ih => exact ⟨hp.1, fun v => ih v (hp.2 v)⟩
  | wr i v k ih => exact ⟨hp.1, ih hp.2⟩

theorem Foot.pure {F : Int → Prop} (a : α) : (Pure.pure a : Prog T α).Foot F := trivial
theorem Foot.lift {F : Int → Prop} (r : Res α) : (Prog.lift r : Prog T α).Foot F := by cases r <;> trivial
theorem Foot.load {F : Int → Prop} {i : Int} (h : F i) : (Prog.load i : Prog T T).Foot F := ⟨h, fun _ => trivial⟩
theorem Foot.store {F : Int → Prop} {i : Int} {v : T} (h : F i) : (Prog.store i v).Foot F := ⟨h, trivial⟩

theorem Foot.forN {F : Int → Prop} {n : Nat} {body : Nat → Prog T Unit} (h : ∀ k, k < n → (body k).Foot F) :
    (RB.forN n body).Foot F := by
  induction n with
  | zero => trivial
  | succ n ih => exact Foot.bind (ih (fun k hk => h k (by omega))) (fun _ => h n (by omega))

theorem Foot.forI {F : Int → Prop} {lo hi : Int} {body : Int → Prog T Unit}
    (h : ∀ i, lo ≤ i → i < hi → (body i).Foot F) : (RB.forI lo hi body).Foot F :=
  Foot.forN (fun k hk => h _ (by omega) (by omega))

theorem Foot.foldN {F : Int → Prop} {n : Nat} {body : Nat → α → Prog T α} {a : α}
    (h : ∀ k a, k < n → (body k a).Foot F) : (RB.foldN n body a).Foot F := by
  induction n with
  | zero => trivial
  | succ n ih => exact Foot.bind (ih (fun k a hk => h k a (by omega))) (fun a => h n a (by omega))

theorem Foot.foldI {F : Int → Prop} {lo hi : Int} {body : Int → α → Prog T α} {a : α}
    (h : ∀ i a, lo ≤ i → i < hi → (body i a).Foot F) : (RB.foldI lo hi body a).Foot F :=
  Foot.foldN (fun k a hk => h _ a (by omega) (by omega))

theorem Foot.mono {F G : Int → Prop} {p : Prog T α} (h : p.Foot F) (hFG : ∀ i, F i → G i) : p.Foot G := by
  induction p with
  | ret a => trivial
  | throw e => trivial
  | ub => trivial
  | rd i k ih => exact ⟨hFG _ h.1, fun v => ih v (h.2 v)⟩
  | wr i v k ih => exact ⟨hFG _ h.1, ih h.2⟩

/-- Footprint together with a condition on the returned value. -/
def FootP (F : Int → Prop) (Q : α → Prop) : Prog T α → Prop
  | ret a => Q a
  | throw _ => True
  | ub => True
  | rd i k => F i ∧ ∀ v, (k v).FootP F Q
  | wr i _ k => F i ∧ k.FootP F Q

theorem FootP.foot {F : Int → Prop} {Q : α → Prop} {p : Prog T α} (h : p.FootP F Q) : p.Foot F := by
  induction p with
  | ret a => trivial
  | throw e => trivial
  | ub => trivial
  | rd i k ih => exact ⟨h.1, fun v => ih v (h.2 v)⟩
  | wr i v k ih => exact ⟨h.1, ih h.2⟩

theorem Foot.footP {F : Int → Prop} {p : Prog T α} (h : p.Foot F) : p.FootP F (fun _ => True) := by
  induction p with
  | ret a => trivial
  | throw e => trivial
  | ub => trivial
  | rd i k ih => exact ⟨h.1, fun v => ih v (h.2 v)⟩
  | wr i v k ih => exact ⟨h.1, ih h.2⟩

theorem FootP.bind {F : Int → Prop} {P : α → Prop} {Q : β → Prop} {p : Prog T α} {f : α → Prog T β}
    (hp : p.FootP F P) (hf : ∀ a, P a → (f a).FootP F Q) : (p >>= f).FootP F Q := by
  show (Prog.bind p f).FootP F Q
  induction p with
  | ret a => exact hf a hp
  | throw e => trivial
  | ub => trivial
  | rd i k ih => exact ⟨hp.1, fun v => ih v (hp.2 v)⟩
  | wr i v k ih => exact ⟨hp.1, ih hp.2⟩

theorem FootP.foldN {F : Int → Prop} {n : Nat} {body : Nat → α → Prog T α} {a : α} (Inv : Nat → α → Prop)
    (h0 : Inv 0 a) (h : ∀ k a, k < n → Inv k a → (body k a).FootP F (Inv (k + 1))) :
    (RB.foldN n body a).FootP F (Inv n) := by
  induction n with
  | zero => exact h0
  | succ n ih => exact FootP.bind (ih (fun k a hk => h k a (by omega))) (fun a => h n a (by omega))

theorem FootP.foldI {F : Int → Prop} {lo hi : Int} {body : Int → α → Prog T α} {a : α} (Inv : Int → α → Prop)
    (hle : lo ≤ hi) (h0 : Inv lo a) (h : ∀ i a, lo ≤ i → i < hi → Inv i a → (body i a).FootP F (Inv (i + 1))) :
    (RB.foldI lo hi body a).FootP F (Inv hi) := by
  have := FootP.foldN (F := F) (n := (hi - lo).toNat) (body := fun k => body (lo + k)) (a := a)
    (fun k => Inv (lo + k)) (by simpa using h0) (by
      intro k a hk hi
      have := h (lo + k) a (by omega) (by omega) hi
      rw [show lo + ((k + 1 : Nat) : Int) = lo + k + 1 by push_cast; ring]; exact this)
  have e : lo + ((hi - lo).toNat : Int) = hi := by omega
  rw [e] at this
  exact this

theorem FootP.lift {F : Int → Prop} {Q : α → Prop} {r : Res α} (h : ∀ a, r = .ok a → Q a) :
    (Prog.lift r : Prog T α).FootP F Q := by
  cases r with
  | ok a => exact h a rfl
  | throw e => trivial
  | ub => trivial

/-- A program only changes cells in its footprint. -/
theorem Foot.unchanged {F : Int → Prop} {p : Prog T α} (h : p.Foot F) {b b' : Buf T} {r : Res α}
    (hr : p.run b = (r, b')) : ∀ q, ¬ F q → b' q = b q := by
  induction p generalizing b with
  | ret a => intro q _; cases hr; rfl
  | throw e => intro q _; cases hr; rfl
  | ub => intro q _; cases hr; rfl
  | rd i k ih =>
    intro q hq
    simp only [run] at hr
    rcases hb : (M.rd i : M (Buf T) T) b with ⟨r1, b1⟩
    have hb1 : b1 = b := by simp only [M.rd, Prod.mk.injEq] at hb; exact hb.2.symm
    subst hb1
    cases r1 with
    | ok v => rw [M.bind_ok hb] at hr; exact ih v (h.2 v) hr q hq
    | throw e => rw [M.bind_throw hb] at hr; cases hr; rfl
    | ub => rw [M.bind_ub hb] at hr; cases hr; rfl
  | wr i v k ih =>
    intro q hq
    simp only [run] at hr
    have hqi : q ≠ i := fun he => hq (he ▸ h.1)
    cases hbi : b i with
    | none =>
      rw [M.bind_ub (s' := b) (by simp [M.wr, hbi])] at hr; cases hr; rfl
    | uninit =>
      rw [M.bind_ok (a := ()) (s' := b.set i v) (by simp [M.wr, hbi])] at hr
      rw [ih h.2 hr q hq, Buf.set_ne hqi]
    | val x =>
      rw [M.bind_ok (a := ()) (s' := b.set i v) (by simp [M.wr, hbi])] at hr
      rw [ih h.2 hr q hq, Buf.set_ne hqi]

/-- A program's behaviour depends only on the cells in its footprint. -/
theorem Foot.agree {F : Int → Prop} {p : Prog T α} (h : p.Foot F) {b b' c : Buf T} {r : Res α}
    (hbc : ∀ q, F q → b q = c q) (hr : p.run b = (r, b')) :
    ∃ c', p.run c = (r, c') ∧ ∀ q, F q → b' q = c' q := by
  induction p generalizing b c with
  | ret a => cases hr; exact ⟨c, rfl, hbc⟩
  | throw e => cases hr; exact ⟨c, rfl, hbc⟩
  | ub => cases hr; exact ⟨c, rfl, hbc⟩
  | rd i k ih =>
    simp only [run] at hr ⊢
    have hi := hbc i h.1
    cases hbi : b i with
    | val x =>
      rw [M.bind_ok (a := x) (s' := b) (by simp [M.rd, hbi, Buf.rd])] at hr
      rw [M.bind_ok (a := x) (s' := c) (by rw [hbi] at hi; simp [M.rd, ← hi, Buf.rd])]
      exact ih x (h.2 x) hbc hr
    | none =>
      rw [M.bind_ub (s' := b) (by simp [M.rd, hbi, Buf.rd])] at hr
      rw [M.bind_ub (s' := c) (by rw [hbi] at hi; simp [M.rd, ← hi, Buf.rd])]
      cases hr; exact ⟨c, rfl, hbc⟩
    | uninit =>
      rw [M.bind_ub (s' := b) (by simp [M.rd, hbi, Buf.rd])] at hr
      rw [M.bind_ub (s' := c) (by rw [hbi] at hi; simp [M.rd, ← hi, Buf.rd])]
      cases hr; exact ⟨c, rfl, hbc⟩
  | wr i v k ih =>
    simp only [run] at hr ⊢
    have hi := hbc i h.1
    have hset : ∀ q, F q → b.set i v q = c.set i v q := by
      intro q hq
      rw [Buf.set_apply, Buf.set_apply, hbc q hq]
    cases hbi : b i with
    | none =>
      rw [M.bind_ub (s' := b) (by simp [M.wr, hbi])] at hr
      rw [M.bind_ub (s' := c) (by rw [hbi] at hi; simp [M.wr, ← hi])]
      cases hr; exact ⟨c, rfl, hbc⟩
    | uninit =>
      rw [M.bind_ok (a := ()) (s' := b.set i v) (by simp [M.wr, hbi])] at hr
      rw [M.bind_ok (a := ()) (s' := c.set i v) (by rw [hbi] at hi; simp [M.wr, ← hi])]
      exact ih h.2 hset hr
    | val x =>
      rw [M.bind_ok (a := ()) (s' := b.set i v) (by simp [M.wr, hbi])] at hr
      rw [M.bind_ok (a := ()) (s' := c.set i v) (by rw [hbi] at hi; simp [M.wr, ← hi])]
      exact ih h.2 hset hr

/-- One access of a program. -/
def step : Prog T Unit → M (Buf T) (Prog T Unit)
  | ret a => pure (ret a)
  | throw _ => M.throw .terminate
  | ub => M.ub
  | rd i k => do let v ← M.rd i; pure (k v)
  | wr i v k => do M.wr i v; pure k

end Prog

/-- An exception that leaves a parallel region calls `std::terminate`. -/
def M.terminating {σ α : Type} (m : M σ α) : M σ α := fun s =>
  match m s with
  | (.throw _, s') => (.throw .terminate, s')
  | x => x

/-- `#pragma omp parallel for` over iterations `0 .. n-1` under the given schedule. -/
def parFor {T : Type} (sched : List Nat) (n : Nat) (body : Nat → Prog T Unit) : M (Buf T) Unit :=
  match sched with
  | [] => forN n (fun i => M.terminating (body i).run)
  | t :: rest =>
    if t < n then do
      let p ← Prog.step (body t)
      parFor rest n (Function.update body t p)
    else parFor rest n body

/-- `parFor` over an integer range. -/
def parForI {T : Type} (sched : List Nat) (lo hi : Int) (body : Int → Prog T Unit) : M (Buf T) Unit :=
  parFor sched (hi - lo).toNat (fun k => body (lo + k))

section
variable {T : Type}

theorem M.terminating_ok {σ α : Type} {m : M σ α} {s s' : σ} {a : α} (h : m s = (.ok a, s')) :
    M.terminating m s = (.ok a, s') := by
  unfold M.terminating; rw [h]

/-- **Schedule independence.** If the footprints of the iterations are pairwise disjoint and each iteration, run alone
from the initial memory, returns normally with memory `f i`, then under every schedule the loop returns normally,
the footprint of iteration `i` ends up as in `f i`, and everything else is unchanged. -/
theorem parFor_spec {n : Nat} {body : Nat → Prog T Unit} {F : Nat → Int → Prop} {b : Buf T} {f : Nat → Buf T}
    (hdisj : ∀ i j, i < n → j < n → i ≠ j → ∀ p, F i p → ¬ F j p)
    (hfoot : ∀ i, i < n → (body i).Foot (F i))
    (hrun : ∀ i, i < n → ∃ fi, (body i).run b = (.ok (), fi) ∧ ∀ p, F i p → fi p = f i p)
    (sched : List Nat) :
    ∃ b', parFor sched n body b = (.ok (), b') ∧ (∀ i, i < n → ∀ p, F i p → b' p = f i p) ∧
      (∀ p, (∀ i, i < n → ¬ F i p) → b' p = b p) := by
  induction sched generalizing body b with
  | nil =>
    unfold parFor
    -- invariant of the sequential rest
    have key : M.wp (forN n (fun i => M.terminating (body i).run)) b (fun _ b' =>
        (∀ i, i < n → ∀ p, F i p → b' p = f i p) ∧ (∀ p, (∀ i, i < n → ¬ F i p) → b' p = b p)) := by
      apply M.wp_forN (fun k c => (∀ i, i < k → ∀ p, F i p → c p = f i p) ∧ (∀ p, (∀ i, i < k → ¬ F i p) → c p = b p))
      · exact ⟨fun i hi => absurd hi (by omega), fun _ _ => rfl⟩
      · rintro k c hk ⟨h1, h2⟩
        obtain ⟨fk, hfk, hfk2⟩ := hrun k hk
        obtain ⟨c', hc', hag⟩ := (hfoot k hk).agree (c := c) (b := b) (by
          intro q hq
          rw [h2 q (fun i hi hFi => hdisj i k (by omega) hk (by omega) q hFi hq)]) hfk
        refine ⟨(), c', M.terminating_ok hc', ?_, ?_⟩
        · intro i hi p hp
          by_cases hik : i = k
          · subst hik; rw [← hag p hp, hfk2 p hp]
          · rw [(hfoot k hk).unchanged hc' p (hdisj i k (by omega) hk hik p hp), h1 i (by omega) p hp]
        · intro p hp
          rw [(hfoot k hk).unchanged hc' p (hp k (by omega)), h2 p (fun i hi => hp i (by omega))]
      · intro c h; exact h
    obtain ⟨u, b', hb', h⟩ := key
    exact ⟨b', hb', h⟩
  | cons t rest ih =>
    unfold parFor
    by_cases ht : t < n
    · rw [if_pos ht]
      obtain ⟨ft, hft, hft2⟩ := hrun t ht
      have hF := hfoot t ht
      -- the effect of one step of iteration t
      obtain ⟨p', b1, hstep, hrun', hfoot', hun⟩ : ∃ p' b1, Prog.step (body t) b = (.ok p', b1) ∧
          p'.run b1 = (.ok (), ft) ∧ p'.Foot (F t) ∧ ∀ q, ¬ F t q → b1 q = b q := by
        cases hbt : body t with
        | ret a => rw [hbt] at hft hF; exact ⟨.ret a, b, rfl, hft, hF, fun _ _ => rfl⟩
        | throw e => rw [hbt] at hft; cases hft
        | ub => rw [hbt] at hft; cases hft
        | rd i k =>
          rw [hbt] at hft hF
          simp only [Prog.run] at hft
          cases hbi : b i with
          | val x =>
            have hx : (M.rd i : M (Buf T) T) b = (.ok x, b) := by simp [M.rd, hbi, Buf.rd]
            rw [M.bind_ok hx] at hft
            refine ⟨k x, b, ?_, hft, hF.2 x, fun _ _ => rfl⟩
            simp only [Prog.step]; rw [M.bind_ok hx]; rfl
          | none => rw [M.bind_ub (s' := b) (by simp [M.rd, hbi, Buf.rd])] at hft; cases hft
          | uninit => rw [M.bind_ub (s' := b) (by simp [M.rd, hbi, Buf.rd])] at hft; cases hft
        | wr i v k =>
          rw [hbt] at hft hF
          simp only [Prog.run] at hft
          by_cases hbi : b i = .none
          · rw [M.bind_ub (s' := b) (by simp [M.wr, hbi])] at hft; cases hft
          · have hx : (M.wr i v : M (Buf T) Unit) b = (.ok (), b.set i v) := by
              cases h0 : b i with
              | none => exact absurd h0 hbi
              | uninit => simp [M.wr, h0]
              | val x => simp [M.wr, h0]
            rw [M.bind_ok hx] at hft
            refine ⟨k, b.set i v, ?_, hft, hF.2, fun q hq => Buf.set_ne (fun he => hq (he ▸ hF.1))⟩
            simp only [Prog.step]; rw [M.bind_ok hx]; rfl
      rw [M.bind_ok hstep]
      obtain ⟨b', hb', h1, h2⟩ := ih (body := Function.update body t p') (b := b1)
        (by
          intro i hi
          by_cases hit : i = t
          · subst hit; simpa using hfoot'
          · rw [Function.update_of_ne hit]; exact hfoot i hi)
        (by
          intro i hi
          by_cases hit : i = t
          · subst hit; rw [Function.update_self]; exact ⟨ft, hrun', hft2⟩
          · rw [Function.update_of_ne hit]
            obtain ⟨fi, hfi, hfi2⟩ := hrun i hi
            obtain ⟨c', hc', hag⟩ := (hfoot i hi).agree (c := b1) (b := b)
              (fun q hq => (hun q (hdisj i t hi ht hit q hq)).symm) hfi
            exact ⟨c', hc', fun p hp => by rw [← hag p hp, hfi2 p hp]⟩)
      refine ⟨b', hb', h1, fun p hp => ?_⟩
      rw [h2 p hp, hun p (hp t ht)]
    · rw [if_neg ht]; exact ih hfoot hrun

/-- The same for an integer range, in weakest-precondition form. -/
theorem wp_parForI {lo hi : Int} {body : Int → Prog T Unit} (F : Int → Int → Prop) {b : Buf T} (f : Int → Buf T → Prop)
    {Q : Unit → Buf T → Prop}
    (hdisj : ∀ i j, lo ≤ i → i < hi → lo ≤ j → j < hi → i ≠ j → ∀ p, F i p → ¬ F j p)
    (hfoot : ∀ i, lo ≤ i → i < hi → (body i).Foot (F i))
    (hlocal : ∀ i, lo ≤ i → i < hi → ∀ c c', (∀ p, F i p → c p = c' p) → f i c → f i c')
    (hrun : ∀ i, lo ≤ i → i < hi → M.wp (body i).run b (fun _ b' => f i b'))
    (sched : List Nat)
    (hQ : ∀ b', (∀ i, lo ≤ i → i < hi → f i b') → (∀ p, (∀ i, lo ≤ i → i < hi → ¬ F i p) → b' p = b p) → Q () b') :
    M.wp (parForI sched lo hi body) b Q := by
  have hrun' : ∀ k : Nat, ∃ fk, k < (hi - lo).toNat → (body (lo + k)).run b = (.ok (), fk) ∧ f (lo + k) fk := by
    intro k
    by_cases hk : k < (hi - lo).toNat
    · obtain ⟨u, fk, h1, h2⟩ := hrun (lo + k) (by omega) (by omega)
      exact ⟨fk, fun _ => ⟨h1, h2⟩⟩
    · exact ⟨b, fun h => absurd h hk⟩
  choose g hg using hrun'
  obtain ⟨b', hb', h1, h2⟩ := parFor_spec (n := (hi - lo).toNat) (body := fun k => body (lo + k))
    (F := fun k => F (lo + k)) (b := b) (f := g)
    (fun i j hi hj hij p => hdisj _ _ (by omega) (by omega) (by omega) (by omega) (by omega) p)
    (fun i hi => hfoot _ (by omega) (by omega))
    (fun i hi => ⟨g i, (hg i hi).1, fun _ _ => rfl⟩) sched
  refine ⟨(), b', hb', hQ b' ?_ ?_⟩
  · intro i hi0 hi1
    obtain ⟨k, hk⟩ : ∃ k : Nat, i = lo + k := ⟨(i - lo).toNat, by omega⟩
    have hkn : k < (hi - lo).toNat := by omega
    rw [hk]
    refine hlocal _ (by omega) (by omega) (g k) b' (fun p hp => (h1 k hkn p hp).symm) (hg k hkn).2
  · intro p hp
    exact h2 p (fun i hi => hp _ (by omega) (by omega))

/-- Under disjoint footprints the loop's outcome does not depend on the schedule at all. -/
theorem parFor_schedule_irrelevant {n : Nat} {body : Nat → Prog T Unit} {F : Nat → Int → Prop} {b : Buf T}
    (hdisj : ∀ i j, i < n → j < n → i ≠ j → ∀ p, F i p → ¬ F j p)
    (hfoot : ∀ i, i < n → (body i).Foot (F i))
    (hrun : ∀ i, i < n → ∃ fi, (body i).run b = (.ok (), fi)) (s1 s2 : List Nat) :
    parFor s1 n body b = parFor s2 n body b := by
  have hr : ∀ i, ∃ fi, i < n → (body i).run b = (.ok (), fi) := by
    intro i
    by_cases h : i < n
    · obtain ⟨fi, h1⟩ := hrun i h; exact ⟨fi, fun _ => h1⟩
    · exact ⟨b, fun h0 => absurd h0 h⟩
  choose f hf using hr
  obtain ⟨b1, h1, h1a, h1b⟩ := parFor_spec hdisj hfoot (fun i hi => ⟨f i, hf i hi, fun _ _ => rfl⟩) s1
  obtain ⟨b2, h2, h2a, h2b⟩ := parFor_spec hdisj hfoot (fun i hi => ⟨f i, hf i hi, fun _ _ => rfl⟩) s2
  rw [h1, h2]
  congr 1
  funext p
  by_cases hp : ∃ i, i < n ∧ F i p
  · obtain ⟨i, hi, hFi⟩ := hp
    rw [h1a i hi p hFi, h2a i hi p hFi]
  · push Not at hp
    rw [h1b p hp, h2b p hp]

end
end RB
