import Verif.Core.Par
import Verif.Core.Wlp

/-!
# Executions that are certainly undefined

`M.Undef m s`: the execution of `m` from `s` is undefined. For parallel loops: if no iteration can raise an exception and one iteration can only
end in undefined behaviour, then the loop is undefined under every schedule.
-/

namespace RB

/-- The execution of `m` from `s` has undefined behaviour. -/
def M.Undef {σ α : Type} (m : M σ α) (s : σ) : Prop := (m s).1 = .ub

namespace M
variable {σ τ α β : Type}

theorem Undef.bind {m : M σ α} {f : α → M σ β} {s : σ} (h : M.Undef m s) : M.Undef (m >>= f) s := by
  unfold M.Undef at *
  rcases hm : m s with ⟨r, s'⟩
  rw [hm] at h
  simp only at h
  subst h
  rw [M.bind_ub hm]

theorem Undef.after {m : M σ α} {f : α → M σ β} {s : σ} (h : M.wp m s fun a s' => M.Undef (f a) s') : M.Undef (m >>= f) s := by
  obtain ⟨a, s', h1, h2⟩ := h
  unfold M.Undef at *
  rw [M.bind_ok h1]; exact h2

theorem Undef.lift {s : σ} : M.Undef (M.lift (Res.ub : Res α)) s := rfl

theorem Undef.zoom {get : σ → τ} {put : σ → τ → σ} {m : M τ α} {s : σ} (h : M.Undef m (get s)) : M.Undef (M.zoom get put m) s := by
  unfold M.Undef M.zoom at *
  rcases hm : m (get s) with ⟨r, t⟩
  rw [hm] at h
  simp only at h
  subst h
  rfl

/-- A loop is undefined if the rounds before round j end normally and round j is undefined. -/
theorem Undef.forN {n k : Nat} {body : Nat → M σ Unit} {s : σ} (Inv : Nat → σ → Prop) (hk : k < n) (h0 : Inv 0 s)
    (step : ∀ i s, i < k → Inv i s → M.wp (body i) s (fun _ s' => Inv (i + 1) s')) (hu : ∀ s, Inv k s → M.Undef (body k) s) :
    M.Undef (RB.forN n body) s := by
  induction n with
  | zero => omega
  | succ n ih =>
    unfold RB.forN
    rcases Nat.lt_or_ge k n with h | h
    · exact Undef.bind (ih h)
    · obtain rfl : k = n := by omega
      exact Undef.after (M.wp_forN Inv h0 (fun i s hi h => step i s hi h) (fun s h => hu s h))

/-- A loop is undefined if the rounds before round j end normally and round j is undefined. -/
theorem Undef.forI {lo hi j : Int} {body : Int → M σ Unit} {s : σ} (Inv : Int → σ → Prop) (hj : lo ≤ j) (hj' : j < hi) (h0 : Inv lo s)
    (step : ∀ i s, lo ≤ i → i < j → Inv i s → M.wp (body i) s (fun _ s' => Inv (i + 1) s')) (hu : ∀ s, Inv j s → M.Undef (body j) s) :
    M.Undef (RB.forI lo hi body) s := by
  unfold RB.forI
  refine Undef.forN (k := (j - lo).toNat) (fun i s => Inv (lo + i) s) (by omega) (by simpa using h0) (fun i s hi h => ?_) (fun s h => ?_)
  · have := step (lo + i) s (by omega) (by omega) h
    rw [show lo + ((i + 1 : Nat) : Int) = lo + i + 1 by push_cast; ring]; exact this
  · rw [show lo + ((j - lo).toNat : Int) = j by omega] at h ⊢
    exact hu s h

/-- A fold is undefined if the rounds before round j end normally and round j is undefined. -/
theorem Undef.foldN {n k : Nat} {body : Nat → α → M σ α} {a : α} {s : σ} (Inv : Nat → α → σ → Prop) (hk : k < n) (h0 : Inv 0 a s)
    (step : ∀ i a s, i < k → Inv i a s → M.wp (body i a) s (fun a' s' => Inv (i + 1) a' s')) (hu : ∀ a s, Inv k a s → M.Undef (body k a) s) :
    M.Undef (RB.foldN n body a) s := by
  induction n with
  | zero => omega
  | succ n ih =>
    unfold RB.foldN
    rcases Nat.lt_or_ge k n with h | h
    · exact Undef.bind (ih h)
    · obtain rfl : k = n := by omega
      exact Undef.after (M.wp_foldN Inv h0 (fun i a s hi h => step i a s hi h) (fun a s h => hu a s h))

/-- A fold is undefined if the rounds before round j end normally and round j is undefined. -/
theorem Undef.foldI {lo hi j : Int} {body : Int → α → M σ α} {a : α} {s : σ} (Inv : Int → α → σ → Prop) (hj : lo ≤ j) (hj' : j < hi)
    (h0 : Inv lo a s) (step : ∀ i a s, lo ≤ i → i < j → Inv i a s → M.wp (body i a) s (fun a' s' => Inv (i + 1) a' s'))
    (hu : ∀ a s, Inv j a s → M.Undef (body j a) s) : M.Undef (RB.foldI lo hi body a) s := by
  unfold RB.foldI
  refine Undef.foldN (k := (j - lo).toNat) (fun i a s => Inv (lo + i) a s) (by omega) (by simpa using h0) (fun i a s hi h => ?_) (fun a s h => ?_)
  · have := step (lo + i) a s (by omega) (by omega) h
    rw [show lo + ((i + 1 : Nat) : Int) = lo + i + 1 by push_cast; ring]; exact this
  · rw [show lo + ((j - lo).toNat : Int) = j by omega] at h ⊢
    exact hu a s h

theorem Undef.not_wp {m : M σ α} {s : σ} (h : M.Undef m s) (Q : α → σ → Prop) : ¬ M.wp m s Q := by
  rintro ⟨a, s', h1, _⟩
  unfold M.Undef at h
  rw [h1] at h; cases h

end M

namespace Prog
variable {T α β : Type}

/-- Whatever the loads return, the program does not raise an exception, and if it returns `a` then `Q a`. -/
def All (Q : α → Prop) : Prog T α → Prop
  | ret a => Q a
  | throw _ => False
  | ub => True
  | rd _ k => ∀ v, (k v).All Q
  | wr _ _ k => k.All Q

theorem All.bind {P : α → Prop} {Q : β → Prop} {p : Prog T α} {f : α → Prog T β} (hp : p.All P) (hf : ∀ a, P a → (f a).All Q) :
    (p >>= f).All Q := by
  show (Prog.bind p f).All Q
  induction p with
  | ret a => exact hf a hp
  | throw e => exact hp.elim
  | ub => trivial
  | rd i k ih => exact fun v => ih v (hp v)
  | wr i v k ih => exact ih hp

theorem All.mono {P Q : α → Prop} {p : Prog T α} (hp : p.All P) (h : ∀ a, P a → Q a) : p.All Q := by
  induction p with
  | ret a => exact h a hp
  | throw e => exact hp.elim
  | ub => trivial
  | rd i k ih => exact fun v => ih v (hp v)
  | wr i v k ih => exact ih hp

theorem All.lift {Q : α → Prop} {r : Res α} (h1 : ∀ a, r = .ok a → Q a) (h2 : ∀ e, r ≠ .throw e) : (Prog.lift r : Prog T α).All Q := by
  cases r with
  | ok a => exact h1 a rfl
  | throw e => exact (h2 e rfl).elim
  | ub => trivial

theorem _root_.RB.Buf.rd_not_throw {U : Type} (b : Buf U) (i : Int) (e : Err) : b.rd i ≠ .throw e := by
  unfold Buf.rd; cases b i <;> simp

theorem _root_.RB.Buf.rd_ok {U : Type} {b : Buf U} {i : Int} {v : U} (h : b.rd i = .ok v) : b i = .val v := by
  unfold Buf.rd at h; cases hb : b i <;> rw [hb] at h <;> simp_all

/-- A load from an array that no iteration writes. -/
theorem All.read {U : Type} {Q : U → Prop} {b : Buf U} {i : Int} (h : ∀ v, b i = .val v → Q v) : (Prog.lift (b.rd i) : Prog T U).All Q :=
  All.lift (fun a ha => h a (Buf.rd_ok ha)) (Buf.rd_not_throw b i)

/-- A load from a cell that does not exist or has no value. -/
theorem All.bad {U : Type} {Q : U → Prop} {b : Buf U} {i : Int} (h : ∀ v, b i ≠ .val v) : (Prog.lift (b.rd i) : Prog T U).All Q :=
  All.read fun v hv => absurd hv (h v)

theorem All.load {Q : T → Prop} {i : Int} (h : ∀ v, Q v) : (Prog.load i : Prog T T).All Q := fun v => h v
theorem All.store {Q : Unit → Prop} {i : Int} {v : T} (h : Q ()) : (Prog.store i v).All Q := h

theorem All.forN {n : Nat} {body : Nat → Prog T Unit} (h : ∀ k, k < n → (body k).All fun _ => True) : (RB.forN n body).All fun _ => True := by
  induction n with
  | zero => trivial
  | succ n ih => exact All.bind (ih fun k hk => h k (by omega)) fun _ _ => h n (by omega)

/-- One iteration of a loop cannot end normally, so the loop cannot. -/
theorem All.forN_bad {n : Nat} {body : Nat → Prog T Unit} (h : ∀ k, k < n → (body k).All fun _ => True) {k : Nat} (hk : k < n)
    (hb : (body k).All fun _ => False) : (RB.forN n body).All fun _ => False := by
  induction n with
  | zero => omega
  | succ n ih =>
    rcases Nat.lt_succ_iff_lt_or_eq.mp hk with g | rfl
    · exact All.bind (ih (fun k hk => h k (by omega)) g) fun _ hf => hf.elim
    · exact All.bind (All.forN fun j hj => h j (by omega)) fun _ _ => hb

theorem All.forI {lo hi : Int} {body : Int → Prog T Unit} (h : ∀ i, lo ≤ i → i < hi → (body i).All fun _ => True) :
    (RB.forI lo hi body).All fun _ => True :=
  All.forN fun k hk => h _ (by omega) (by omega)

theorem All.forI_bad {lo hi : Int} {body : Int → Prog T Unit} (h : ∀ i, lo ≤ i → i < hi → (body i).All fun _ => True) {i : Int} (h0 : lo ≤ i)
    (h1 : i < hi) (hb : (body i).All fun _ => False) : (RB.forI lo hi body).All fun _ => False := by
  refine All.forN_bad (k := (i - lo).toNat) (fun k hk => h _ (by omega) (by omega)) (by omega) ?_
  rw [show lo + ((i - lo).toNat : Int) = i by omega]; exact hb

theorem All.foldN {n : Nat} {body : Nat → α → Prog T α} {a : α} (h : ∀ k a, k < n → (body k a).All fun _ => True) :
    (RB.foldN n body a).All fun _ => True := by
  induction n with
  | zero => trivial
  | succ n ih => exact All.bind (ih fun k a hk => h k a (by omega)) fun a _ => h n a (by omega)

theorem All.foldI {lo hi : Int} {body : Int → α → Prog T α} {a : α} (h : ∀ i a, lo ≤ i → i < hi → (body i a).All fun _ => True) :
    (RB.foldI lo hi body a).All fun _ => True :=
  All.foldN fun k a hk => h _ a (by omega) (by omega)

/-- A program that cannot raise an exception does not raise one when it runs. -/
theorem All.run {Q : α → Prop} {p : Prog T α} (h : p.All Q) (b : Buf T) : M.wlp p.run b (fun a _ => Q a) fun _ _ => False := by
  induction p generalizing b with
  | ret a => exact h
  | throw e => exact h.elim
  | ub => trivial
  | rd i k ih =>
    simp only [Prog.run]
    rw [M.wlp_bind]
    unfold M.wlp
    simp only [M.rd]
    cases hb : b.rd i with
    | ok v => exact ih v (h v) b
    | throw e => exact absurd hb (Buf.rd_not_throw b i e)
    | ub => trivial
  | wr i v k ih =>
    simp only [Prog.run]
    rw [M.wlp_bind]
    unfold M.wlp
    simp only [M.wr]
    cases hb : b i with
    | none => trivial
    | uninit => exact ih h _
    | val x => exact ih h _

theorem All.step {Q : Unit → Prop} {p : Prog T Unit} (h : p.All Q) (b : Buf T) :
    M.wlp (Prog.step p) b (fun p' _ => p'.All Q) fun _ _ => False := by
  cases p with
  | ret a => exact h
  | throw e => exact h.elim
  | ub => trivial
  | rd i k =>
    simp only [Prog.step]
    rw [M.wlp_bind]
    unfold M.wlp
    simp only [M.rd]
    cases hb : b.rd i with
    | ok v => exact h v
    | throw e => exact absurd hb (Buf.rd_not_throw b i e)
    | ub => trivial
  | wr i v k =>
    simp only [Prog.step]
    rw [M.wlp_bind]
    unfold M.wlp
    simp only [M.wr]
    cases hb : b i with
    | none => trivial
    | uninit => exact h
    | val x => exact h

end Prog

variable {T : Type}

theorem M.undef_of_wlp {σ α : Type} {m : M σ α} {s : σ} (h : M.wlp m s (fun _ _ => False) fun _ _ => False) : M.Undef m s := by
  unfold M.wlp at h
  unfold M.Undef
  rcases hm : m s with ⟨r, s'⟩
  rw [hm] at h
  cases r with
  | ok a => exact h.elim
  | throw e => exact h.elim
  | ub => rfl

theorem M.wlp_terminating {σ α : Type} {m : M σ α} {s : σ} {Q : α → σ → Prop} (h : M.wlp m s Q fun _ _ => False) :
    M.wlp (M.terminating m) s Q fun _ _ => False := by
  unfold M.wlp at *
  unfold M.terminating
  rcases hm : m s with ⟨r, s'⟩
  rw [hm] at h
  cases r with
  | ok a => exact h
  | throw e => exact h.elim
  | ub => trivial

theorem forN_undef {n : Nat} {body : Nat → M (Buf T) Unit} (h : ∀ k, k < n → ∀ b, M.wlp (body k) b (fun _ _ => True) fun _ _ => False) {k : Nat}
    (hk : k < n) (hb : ∀ b, M.wlp (body k) b (fun _ _ => False) fun _ _ => False) (b : Buf T) :
    M.wlp (forN n body) b (fun _ _ => False) fun _ _ => False := by
  have hall : ∀ m, m ≤ n → M.wlp (forN m body) b (fun _ _ => True) fun _ _ => False := by
    intro m
    induction m with
    | zero => intro _; trivial
    | succ m ih =>
      intro hm
      rw [forN, M.wlp_bind]
      exact M.wlp_mono (ih (by omega)) (fun _ b' _ => h m (by omega) b') fun _ _ h => h
  clear h
  suffices ∀ m, k < m → m ≤ n → M.wlp (forN m body) b (fun _ _ => False) fun _ _ => False from this n hk le_rfl
  intro m
  induction m with
  | zero => intro h; omega
  | succ m ih =>
    intro h1 h2
    rw [forN, M.wlp_bind]
    rcases Nat.lt_succ_iff_lt_or_eq.mp h1 with g | rfl
    · exact M.wlp_mono (ih g (by omega)) (fun _ _ h => h.elim) fun _ _ h => h
    · exact M.wlp_mono (hall k (by omega)) (fun _ b' _ => hb b') fun _ _ h => h

/-- If no iteration can raise an exception and one of them cannot end normally, the loop is undefined, under every schedule. -/
theorem parFor_undef {n : Nat} {body : Nat → Prog T Unit} (h : ∀ k, k < n → (body k).All fun _ => True) {k : Nat} (hk : k < n)
    (hb : (body k).All fun _ => False) (sched : List Nat) (b : Buf T) : M.Undef (parFor sched n body) b := by
  refine M.undef_of_wlp ?_
  induction sched generalizing body b with
  | nil =>
    unfold parFor
    exact forN_undef (fun j hj b' => M.wlp_terminating ((h j hj).run b')) hk (fun b' => M.wlp_terminating (hb.run b')) b
  | cons t rest ih =>
    unfold parFor
    by_cases ht : t < n
    · rw [if_pos ht, M.wlp_bind]
      by_cases htk : t = k
      · subst htk
        refine M.wlp_mono (hb.step b) (fun p b' hp => ?_) fun _ _ h => h
        refine ih ?_ (by rw [Function.update_self]; exact hp) b'
        intro j hj
        by_cases hjt : j = t
        · subst hjt; rw [Function.update_self]; exact hp.mono fun _ h => h.elim
        · rw [Function.update_of_ne hjt]; exact h j hj
      · refine M.wlp_mono ((h t ht).step b) (fun p b' hp => ?_) fun _ _ h => h
        refine ih ?_ (by rw [Function.update_of_ne (Ne.symm htk)]; exact hb) b'
        intro j hj
        by_cases hjt : j = t
        · subst hjt; rw [Function.update_self]; exact hp
        · rw [Function.update_of_ne hjt]; exact h j hj
    · rw [if_neg ht]; exact ih h hb b

theorem parForI_undef {lo hi : Int} {body : Int → Prog T Unit} (h : ∀ j, lo ≤ j → j < hi → (body j).All fun _ => True) {j : Int} (h0 : lo ≤ j)
    (h1 : j < hi) (hb : (body j).All fun _ => False) (sched : List Nat) (b : Buf T) : M.Undef (parForI sched lo hi body) b := by
  refine parFor_undef (k := (j - lo).toNat) (fun k hk => h _ (by omega) (by omega)) (by omega) ?_ sched b
  rw [show lo + ((j - lo).toNat : Int) = j by omega]; exact hb

end RB
