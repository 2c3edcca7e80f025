import Mathlib.Logic.Function.Basic
import Mathlib.Tactic.Common

/-!
# Execution model: outcomes, cells, and the state-and-error monad

Outcomes of a C++ function call: normal return, a thrown exception, undefined behaviour.
-/

namespace RB

/-- The exceptions the modelled code can raise.
`require`/`errorIf`: `randblas_require`, `randblas_error_if(_msg)` (RandBLAS/exceptions.hh:112-199);
`overflow`: `std::overflow_error` in `safe_int_product` (RandBLAS/base.hh:254-268);
`runtime`: `std::runtime_error`; `blas`: `blas::Error` raised by BLAS++ argument checks;
`terminate`: `std::terminate`, called when an exception leaves an OpenMP parallel region. -/
inductive Err where
  | require | errorIf | overflow | runtime | blas | terminate
  deriving DecidableEq, Repr

/-- Outcome of a computation. `ub` is C++ undefined behaviour. -/
inductive Res (α : Type) where
  | ok (a : α)
  | throw (e : Err)
  | ub
  deriving DecidableEq, Repr

@[simp] theorem exists_unit {p : Unit → Prop} : (∃ a, p a) ↔ p () := ⟨fun ⟨(), h⟩ => h, fun h => ⟨(), h⟩⟩

namespace Res

/-- Sequencing: exceptions and undefined behaviour propagate. -/
def bind {α β : Type} : Res α → (α → Res β) → Res β
  | ok a, f => f a
  | throw e, _ => throw e
  | ub, _ => ub

instance : Monad Res where
  pure := ok
  bind := bind

@[simp] theorem pure_eq {α : Type} (a : α) : (pure a : Res α) = ok a := rfl
@[simp] theorem ok_bind {α β : Type} (a : α) (f : α → Res β) : (ok a >>= f) = f a := rfl
@[simp] theorem throw_bind {α β : Type} (e : Err) (f : α → Res β) : ((throw e : Res α) >>= f) = throw e := rfl
@[simp] theorem ub_bind {α β : Type} (f : α → Res β) : ((ub : Res α) >>= f) = ub := rfl

instance : LawfulMonad Res := LawfulMonad.mk'
  (id_map := by intro α x; cases x <;> rfl)
  (pure_bind := by intros; rfl)
  (bind_assoc := by intro α β γ x f g; cases x <;> rfl)

/-- `randblas_require(cond)`: raises an error if `cond` is false (RandBLAS/exceptions.hh). -/
def require (c : Prop) [Decidable c] : Res Unit := if c then ok () else throw .require

/-- `randblas_error_if(cond)`: raises an error if `cond` is true (RandBLAS/exceptions.hh). -/
def errorIf (c : Prop) [Decidable c] : Res Unit := if c then throw .errorIf else ok ()

@[simp] theorem require_eq_ok {c : Prop} [Decidable c] (h : c) : require c = ok () := by simp [require, h]
@[simp] theorem require_eq_throw {c : Prop} [Decidable c] (h : ¬ c) : require c = throw .require := by simp [require, h]

/-- `sat r P`: the computation returns normally, and the result satisfies `P`. -/
def sat {α : Type} (r : Res α) (P : α → Prop) : Prop := ∃ a, r = ok a ∧ P a

theorem sat_bind {α β : Type} {r : Res α} {f : α → Res β} {P : β → Prop} :
    sat (r >>= f) P ↔ sat r (fun a => sat (f a) P) := by
  cases r <;> simp [sat]

@[simp] theorem sat_ok {α : Type} {a : α} {P : α → Prop} : sat (ok a) P ↔ P a := by simp [sat]

@[simp] theorem sat_require {c : Prop} [Decidable c] {P : Unit → Prop} : sat (require c) P ↔ c ∧ P () := by
  by_cases h : c <;> simp [sat, require, h]

theorem sat_mono {α : Type} {r : Res α} {P Q : α → Prop} (h : sat r P) (hpq : ∀ a, P a → Q a) : sat r Q := by
  obtain ⟨a, h1, h2⟩ := h
  exact ⟨a, h1, hpq a h2⟩

end Res

/-! ## Cells and buffers -/

/-- One memory cell: not part of any allocation, allocated but uninitialised, or holding a value. -/
inductive Cell (T : Type) where
  | none
  | uninit
  | val (v : T)
  deriving DecidableEq, Repr

/-- A buffer, seen from a base pointer: the cell at each (possibly negative) offset. -/
abbrev Buf (T : Type) := Int → Cell T

namespace Buf

/-- Load; undefined behaviour outside the allocation and on uninitialised cells. -/
def rd {T : Type} (b : Buf T) (i : Int) : Res T :=
  match b i with
  | .val v => .ok v
  | _ => .ub

/-- Store into an allocated cell. -/
def set {T : Type} (b : Buf T) (i : Int) (v : T) : Buf T := Function.update b i (.val v)

/-- `new T[n]`: `n` uninitialised cells. -/
def alloc (T : Type) (n : Int) : Buf T := fun i => if 0 ≤ i ∧ i < n then .uninit else .none

/-- `new T[n]{}` / `std::vector<T>(n, v)`: `n` cells holding `v`. -/
def fill {T : Type} (n : Int) (v : T) : Buf T := fun i => if 0 ≤ i ∧ i < n then .val v else .none

/-- A buffer whose cells `0 .. n-1` are given by `f`. -/
def ofFn {T : Type} (n : Int) (f : Int → T) : Buf T := fun i => if 0 ≤ i ∧ i < n then .val (f i) else .none

/-- A buffer holding the elements of a list. -/
def ofList {T : Type} (l : List T) : Buf T := fun i =>
  if 0 ≤ i then (match l[i.toNat]? with | some v => .val v | Option.none => .none) else .none

/-- Pointer arithmetic: the same memory seen from `b + k`. -/
def shift {T : Type} (b : Buf T) (k : Int) : Buf T := fun i => b (k + i)

@[simp] theorem rd_val {T : Type} {b : Buf T} {i : Int} {v : T} (h : b i = .val v) : b.rd i = .ok v := by
  simp [rd, h]

theorem rd_eq_ok {T : Type} {b : Buf T} {i : Int} {v : T} : b.rd i = .ok v ↔ b i = .val v := by
  unfold rd; cases h : b i <;> simp

@[simp] theorem set_same {T : Type} {b : Buf T} {i : Int} {v : T} : b.set i v i = .val v := by simp [set]
theorem set_ne {T : Type} {b : Buf T} {i j : Int} {v : T} (h : j ≠ i) : b.set i v j = b j := by simp [set, h]
theorem set_apply {T : Type} {b : Buf T} {i j : Int} {v : T} : b.set i v j = if j = i then .val v else b j := by
  by_cases h : j = i
  · subst h; simp
  · simp [set_ne h, h]

end Buf

/-! ## The state-and-error monad for sequential code

The state survives a `throw`: stores made before an exception remain visible. -/

/-- Sequential code acting on a state `σ` (one or several buffers). -/
def M (σ : Type) (α : Type) := σ → Res α × σ

namespace M
variable {σ α β : Type}

/-- Sequencing. -/
def bind (m : M σ α) (f : α → M σ β) : M σ β := fun s =>
  match m s with
  | (.ok a, s') => f a s'
  | (.throw e, s') => (.throw e, s')
  | (.ub, s') => (.ub, s')

instance : Monad (M σ) where
  pure a := fun s => (.ok a, s)
  bind := bind

instance : LawfulMonad (M σ) := LawfulMonad.mk'
  (id_map := by
    intro α x; funext s
    show bind x _ s = x s
    unfold bind
    rcases h : x s with ⟨r, s'⟩
    cases r <;> rfl)
  (pure_bind := by intros; rfl)
  (bind_assoc := by
    intro α β γ x f g; funext s
    show bind (bind x f) g s = bind x (fun a => bind (f a) g) s
    unfold bind
    rcases h : x s with ⟨r, s'⟩
    cases r <;> rfl)

/-- A pure computation that may fail. -/
def lift (r : Res α) : M σ α := fun s => (r, s)

/-- Read the state. -/
def get : M σ σ := fun s => (.ok s, s)
/-- Replace the state. -/
def set (s : σ) : M σ Unit := fun _ => (.ok (), s)
/-- Update the state. -/
def modify (f : σ → σ) : M σ Unit := fun s => (.ok (), f s)

/-- Run code that acts on a component of the state. -/
def zoom {τ : Type} (get : σ → τ) (put : σ → τ → σ) (m : M τ α) : M σ α := fun s =>
  match m (get s) with
  | (r, t) => (r, put s t)

/-- Load from the (single-buffer) state. -/
def rd {T : Type} (i : Int) : M (Buf T) T := fun b => (b.rd i, b)

/-- Store to the (single-buffer) state; undefined behaviour outside the allocation. -/
def wr {T : Type} (i : Int) (v : T) : M (Buf T) Unit := fun b =>
  match b i with
  | .none => (.ub, b)
  | _ => (.ok (), b.set i v)

/-- `randblas_require`. -/
def require (c : Prop) [Decidable c] : M σ Unit := lift (Res.require c)
/-- `randblas_error_if`. -/
def errorIf (c : Prop) [Decidable c] : M σ Unit := lift (Res.errorIf c)
/-- Raise an exception. -/
def throw (e : Err) : M σ α := lift (.throw e)
/-- Undefined behaviour. -/
def ub : M σ α := lift .ub

/-- Run code on a separate (local) memory and return that memory as well. -/
def onLocal {τ : Type} (m : M τ α) (t : τ) : M σ (α × τ) := fun s =>
  match m t with
  | (.ok a, t') => (.ok (a, t'), s)
  | (.throw e, _) => (.throw e, s)
  | (.ub, _) => (.ub, s)

/-- Undefined behaviour if `c` holds. -/
def ubIf (c : Prop) [Decidable c] : M σ Unit := lift (if c then .ub else .ok ())
/-- `if (c) m`. -/
def when (c : Prop) [Decidable c] (m : M σ Unit) : M σ Unit := if c then m else pure ()

/-! ### Weakest preconditions -/

/-- From state `s`, `m` returns normally and `Q` holds of result and final state. -/
def wp (m : M σ α) (s : σ) (Q : α → σ → Prop) : Prop := ∃ a s', m s = (.ok a, s') ∧ Q a s'

theorem wp_mono {m : M σ α} {s : σ} {Q R : α → σ → Prop} (h : wp m s Q) (hqr : ∀ a s', Q a s' → R a s') :
    wp m s R := by
  obtain ⟨a, s', h1, h2⟩ := h
  exact ⟨a, s', h1, hqr _ _ h2⟩

@[simp] theorem wp_pure {a : α} {s : σ} {Q : α → σ → Prop} : wp (pure a : M σ α) s Q ↔ Q a s := by
  constructor
  · rintro ⟨a', s', h, hq⟩
    cases h; exact hq
  · intro h; exact ⟨a, s, rfl, h⟩

theorem bind_eq (m : M σ α) (f : α → M σ β) (s : σ) : (m >>= f) s = bind m f s := rfl

theorem bind_ok {m : M σ α} {f : α → M σ β} {s s' : σ} {a : α} (h : m s = (.ok a, s')) :
    (m >>= f) s = f a s' := by
  rw [bind_eq]; unfold bind; rw [h]

theorem bind_throw {m : M σ α} {f : α → M σ β} {s s' : σ} {e : Err} (h : m s = (.throw e, s')) :
    (m >>= f) s = (.throw e, s') := by
  rw [bind_eq]; unfold bind; rw [h]

theorem bind_ub {m : M σ α} {f : α → M σ β} {s s' : σ} (h : m s = (.ub, s')) :
    (m >>= f) s = (.ub, s') := by
  rw [bind_eq]; unfold bind; rw [h]

theorem wp_bind {m : M σ α} {f : α → M σ β} {s : σ} {Q : β → σ → Prop} :
    wp (m >>= f) s Q ↔ wp m s (fun a s' => wp (f a) s' Q) := by
  rcases h : m s with ⟨r, s'⟩
  cases r with
  | ok a =>
    unfold wp; rw [bind_ok h]
    constructor
    · rintro ⟨b, s'', h1, h2⟩; exact ⟨a, s', h, b, s'', h1, h2⟩
    · rintro ⟨a', s1, h1, b, s'', h2, h3⟩
      rw [h] at h1; cases h1; exact ⟨b, s'', h2, h3⟩
  | throw e =>
    unfold wp; rw [bind_throw h, h]; simp
  | ub =>
    unfold wp; rw [bind_ub h, h]; simp

theorem wp_map {m : M σ α} {f : α → β} {s : σ} {Q : β → σ → Prop} :
    wp (f <$> m) s Q ↔ wp m s (fun a s' => Q (f a) s') := by
  rw [← bind_pure_comp, wp_bind]
  simp

@[simp] theorem wp_lift {r : Res α} {s : σ} {Q : α → σ → Prop} :
    wp (lift r) s Q ↔ ∃ a, r = .ok a ∧ Q a s := by
  constructor
  · rintro ⟨a, s', h, hq⟩
    simp only [lift, Prod.mk.injEq] at h
    obtain ⟨h1, h2⟩ := h; subst h2; exact ⟨a, h1, hq⟩
  · rintro ⟨a, h, hq⟩; exact ⟨a, s, by simp [lift, h], hq⟩

@[simp] theorem wp_require {c : Prop} [Decidable c] {s : σ} {Q : Unit → σ → Prop} :
    wp (require c) s Q ↔ c ∧ Q () s := by
  by_cases h : c <;> simp [require, Res.require, h]

@[simp] theorem wp_errorIf {c : Prop} [Decidable c] {s : σ} {Q : Unit → σ → Prop} :
    wp (errorIf c) s Q ↔ ¬ c ∧ Q () s := by
  by_cases h : c <;> simp [errorIf, Res.errorIf, h]

@[simp] theorem wp_ubIf {c : Prop} [Decidable c] {s : σ} {Q : Unit → σ → Prop} :
    wp (ubIf c) s Q ↔ ¬ c ∧ Q () s := by
  by_cases h : c <;> simp [ubIf, h]

theorem wp_when {c : Prop} [Decidable c] {m : M σ Unit} {s : σ} {Q : Unit → σ → Prop} :
    wp (when c m) s Q ↔ (c → wp m s Q) ∧ (¬ c → Q () s) := by
  by_cases h : c <;> simp [when, h]

@[simp] theorem wp_get {s : σ} {Q : σ → σ → Prop} : wp get s Q ↔ Q s s := by
  constructor
  · rintro ⟨a, s', h, hq⟩; cases h; exact hq
  · intro h; exact ⟨s, s, rfl, h⟩

@[simp] theorem wp_set {s t : σ} {Q : Unit → σ → Prop} : wp (set t) s Q ↔ Q () t := by
  constructor
  · rintro ⟨a, s', h, hq⟩; cases h; exact hq
  · intro h; exact ⟨(), t, rfl, h⟩

@[simp] theorem wp_modify {f : σ → σ} {s : σ} {Q : Unit → σ → Prop} : wp (modify f) s Q ↔ Q () (f s) := by
  constructor
  · rintro ⟨a, s', h, hq⟩; cases h; exact hq
  · intro h; exact ⟨(), f s, rfl, h⟩

@[simp] theorem wp_rd {T : Type} {i : Int} {b : Buf T} {Q : T → Buf T → Prop} :
    wp (rd i) b Q ↔ ∃ v, b i = .val v ∧ Q v b := by
  unfold wp rd Buf.rd
  cases h : b i <;> simp

@[simp] theorem wp_wr {T : Type} {i : Int} {v : T} {b : Buf T} {Q : Unit → Buf T → Prop} :
    wp (wr i v) b Q ↔ b i ≠ .none ∧ Q () (b.set i v) := by
  unfold wp wr
  cases h : b i <;> simp

theorem wp_zoom {τ : Type} {get : σ → τ} {put : σ → τ → σ} {m : M τ α} {s : σ} {Q : α → σ → Prop} :
    wp (zoom get put m) s Q ↔ wp m (get s) (fun a t => Q a (put s t)) := by
  unfold wp zoom
  rcases h : m (get s) with ⟨r, t⟩
  cases r <;> simp

theorem wp_onLocal {τ : Type} {m : M τ α} {t : τ} {s : σ} {Q : α × τ → σ → Prop} :
    wp (onLocal m t) s Q ↔ wp m t (fun a t' => Q (a, t') s) := by
  unfold wp onLocal
  rcases h : m t with ⟨r, t'⟩
  cases r <;> simp

/-- The result of a computation known to satisfy a `wp` is `ok`. -/
theorem wp_ok {m : M σ α} {s : σ} {Q : α → σ → Prop} (h : wp m s Q) :
    ∃ a s', m s = (.ok a, s') ∧ Q a s' := h

end M
end RB
