import Verif.Spec.Memory
import Verif.Core.Wlp
import Mathlib.Data.List.Nodup
import Mathlib.Tactic.Tauto

/-!
# Invariants of the memory model
-/

namespace RB.M
variable {σ α : Type}

theorem wpx_when {c : Prop} [Decidable c] {m : M σ Unit} {s : σ} {Q : Unit → σ → Prop} {E : Err → σ → Prop} :
    wpx (when c m) s Q E ↔ (c → wpx m s Q E) ∧ (¬ c → Q () s) := by
  by_cases h : c <;> simp [when, h]

theorem wpx_modify {f : σ → σ} {s : σ} {Q : Unit → σ → Prop} {E : Err → σ → Prop} : wpx (modify f) s Q E ↔ Q () (f s) := Iff.rfl

theorem wpx_set {t s : σ} {Q : Unit → σ → Prop} {E : Err → σ → Prop} : wpx (M.set t) s Q E ↔ Q () t := Iff.rfl

end RB.M

namespace RB.Mem

/-- `L` lists, without repetition, the library's arrays that have not been freed; nothing has been freed twice. -/
structure HInv (L : List Nat) (h : Heap) : Prop where
  nodup : L.Nodup
  mem : ∀ a, a ∈ L ↔ ∃ b, h[a]? = some b ∧ b.lib = true ∧ b.frees = 0
  frees : ∀ b ∈ h, b.frees ≤ 1

/-- All arrays of `h` are unchanged in `h'`. -/
def Keeps (h h' : Heap) : Prop := ∀ (a : Nat) (b : Block), h[a]? = some b → h'[a]? = some b

theorem Keeps.refl (h : Heap) : Keeps h h := fun _ _ e => e
theorem Keeps.trans {h1 h2 h3 : Heap} (a : Keeps h1 h2) (b : Keeps h2 h3) : Keeps h1 h3 := fun _ _ e => b _ _ (a _ _ e)

theorem Keeps.live {h h' : Heap} (k : Keeps h h') {a : Nat} (l : Live h a) : Live h' a := by
  obtain ⟨b, e, f⟩ := l
  exact ⟨b, k _ _ e, f⟩

theorem Keeps.dataLive {h h' : Heap} (k : Keeps h h') {o : Obj} (d : DataLive h o) : DataLive h' o := fun a ha => k.live (d a ha)

theorem HInv.perm {L L' : List Nat} {h : Heap} (i : HInv L h) (p : L.Perm L') : HInv L' h :=
  ⟨p.nodup_iff.mp i.nodup, fun a => by rw [← p.mem_iff, i.mem], i.frees⟩

theorem HInv.live {L : List Nat} {h : Heap} (i : HInv L h) {a : Nat} (ha : a ∈ L) : Live h a := by
  obtain ⟨b, e, -, f⟩ := (i.mem a).mp ha
  exact ⟨b, e, f⟩

/-- The arrays an object will free. -/
def owned (o : Obj) : List Nat := if o.own = true then o.ptrs.filterMap id else []

theorem mem_ptrs {o : Obj} {a : Nat} : a ∈ o.ptrs.filterMap id ↔ some a ∈ o.ptrs := by
  simp [List.mem_filterMap]

theorem HInv.dataLive {o : Obj} {R : List Nat} {h : Heap} (i : HInv (owned o ++ R) h) (ho : o.own = true) : DataLive h o := by
  intro a ha
  refine i.live (List.mem_append_left _ ?_)
  rw [owned, if_pos ho, mem_ptrs]; exact ha

theorem Keeps.append (h t : Heap) : Keeps h (h ++ t) := by
  intro a b e
  have : a < h.length := by
    by_contra hc
    rw [List.getElem?_eq_none (by omega)] at e
    simp at e
  rw [List.getElem?_append_left this]; exact e

theorem HInv.new {L : List Nat} {h : Heap} (i : HInv L h) : HInv (h.length :: L) (h ++ [(⟨true, 0⟩ : Block)]) := by
  refine ⟨?_, ?_, ?_⟩
  · rw [List.nodup_cons]
    refine ⟨fun hm => ?_, i.nodup⟩
    obtain ⟨b, e, -⟩ := (i.mem _).mp hm
    simp at e
  · intro a
    rw [List.mem_cons, i.mem]
    rcases Nat.lt_trichotomy a h.length with ha | ha | ha
    · rw [List.getElem?_append_left ha]; simp [Nat.ne_of_lt ha]
    · subst ha; simp
    · rw [List.getElem?_append_right (by omega), List.getElem?_eq_none (l := h) (by omega), List.getElem?_eq_none (by rw [List.length_singleton]; omega)]
      simp; omega
  · intro b hb
    rw [List.mem_append] at hb
    rcases hb with hb | hb
    · exact i.frees b hb
    · simp at hb; subst hb; simp

theorem HInv.userNew {L : List Nat} {h : Heap} (i : HInv L h) : HInv L (h ++ [(⟨false, 0⟩ : Block)]) := by
  refine ⟨i.nodup, ?_, ?_⟩
  · intro a
    rw [i.mem]
    rcases Nat.lt_trichotomy a h.length with ha | ha | ha
    · rw [List.getElem?_append_left ha]
    · subst ha; simp
    · rw [List.getElem?_append_right (by omega), List.getElem?_eq_none (l := h) (by omega), List.getElem?_eq_none (by rw [List.length_singleton]; omega)]
  · intro b hb
    rw [List.mem_append] at hb
    rcases hb with hb | hb
    · exact i.frees b hb
    · simp at hb; subst hb; simp

/-- `h'` differs from `h` at most at the addresses in `L`. -/
def SameBut (L : List Nat) (h h' : Heap) : Prop := h'.length = h.length ∧ ∀ a : Nat, a ∉ L → h'[a]? = h[a]?

theorem SameBut.refl (L : List Nat) (h : Heap) : SameBut L h h := ⟨rfl, fun _ _ => rfl⟩

theorem SameBut.trans {L : List Nat} {h1 h2 h3 : Heap} (a : SameBut L h1 h2) (b : SameBut L h2 h3) : SameBut L h1 h3 :=
  ⟨b.1.trans a.1, fun x hx => (b.2 x hx).trans (a.2 x hx)⟩

theorem SameBut.mono {L L' : List Nat} {h1 h2 : Heap} (a : SameBut L h1 h2) (hl : ∀ x ∈ L, x ∈ L') : SameBut L' h1 h2 :=
  ⟨a.1, fun x hx => a.2 x fun hc => hx (hl x hc)⟩

theorem wpx_delete {a : Nat} {L : List Nat} {h : Heap} (i : HInv (a :: L) h) {Q : Unit → Heap → Prop} {E : Err → Heap → Prop}
    (hQ : ∀ h', HInv L h' → SameBut [a] h h' → Q () h') : M.wpx (deleteArray (some a)) h Q E := by
  obtain ⟨b, e, f1, f2⟩ := (i.mem a).mp List.mem_cons_self
  obtain ⟨n1, n2⟩ := List.nodup_cons.mp i.nodup
  have hlt : a < h.length := by
    by_contra hc
    rw [List.getElem?_eq_none (by omega)] at e
    simp at e
  unfold M.wpx deleteArray
  simp only [e, f2, if_true]
  refine hQ _ ⟨n2, fun x => ?_, ?_⟩ ⟨by simp, fun x hx => ?_⟩
  · by_cases hx : x = a
    · subst hx; simp [n1, hlt]
    · rw [List.getElem?_set_ne (Ne.symm hx), ← i.mem, List.mem_cons]; simp [hx]
  · intro c hc
    rcases List.mem_or_eq_of_mem_set hc with hc | rfl
    · exact i.frees c hc
    · simp
  · rw [List.getElem?_set_ne]; simp at hx; exact Ne.symm hx

theorem wpx_new {L : List Nat} {h : Heap} (i : HInv L h) {Q : Ptr → Heap → Prop} {E : Err → Heap → Prop}
    (hQ : ∀ a h', HInv (a :: L) h' → Keeps h h' → h[a]? = none → Live h' a → Q (some a) h') : M.wpx newArray h Q E :=
  hQ _ _ i.new (Keeps.append _ _) (by simp) ⟨⟨true, 0⟩, by simp, rfl⟩

theorem wpx_touch {a : Nat} {h : Heap} (l : Live h a) {Q : Unit → Heap → Prop} {E : Err → Heap → Prop} (hQ : Q () h) :
    M.wpx (touch (some a)) h Q E := by
  obtain ⟨b, e, f⟩ := l
  unfold M.wpx touch
  simp only [e, f, if_true]
  exact hQ

theorem wpx_touchP {p : Ptr} {h : Heap} (hp : p ≠ none) (l : NullOrLive h p) {Q : Unit → Heap → Prop} {E : Err → Heap → Prop} (hQ : Q () h) :
    M.wpx (touch p) h Q E := by
  cases p with
  | none => exact absurd rfl hp
  | some a => exact wpx_touch (l a rfl) hQ

theorem wpx_onHeap {α : Type} {m : M Heap α} {o : Obj} {h : Heap} {Q : α → Obj × Heap → Prop} {E : Err → Obj × Heap → Prop} :
    M.wpx (onHeap m) (o, h) Q E ↔ M.wpx m h (fun a h' => Q a (o, h')) (fun e h' => E e (o, h')) := M.wpx_zoom

theorem wpx_raise {σ : Type} {r : Option Err} {s : σ} {Q : Unit → σ → Prop} {E : Err → σ → Prop} (h1 : r = none → Q () s) (h2 : r ≠ none → ∀ e, E e s) :
    M.wpx (raise r) s Q E := by
  cases r with
  | none => exact h1 rfl
  | some e => exact h2 (by simp) e

theorem wpx_deletePtr {p : Ptr} {L : List Nat} {h : Heap} (i : HInv (p.toList ++ L) h) {Q : Unit → Heap → Prop} {E : Err → Heap → Prop}
    (hQ : ∀ h', HInv L h' → SameBut p.toList h h' → Q () h') : M.wpx (deleteArray p) h Q E := by
  cases p with
  | none => exact hQ _ i (SameBut.refl _ _)
  | some a => exact wpx_delete i hQ

theorem owned_eq {o : Obj} (ho : o.own = true) : owned o = o.vals.toList ++ (o.p1.toList ++ o.p2.toList) := by
  rw [owned, if_pos ho]
  unfold Obj.ptrs
  rcases o with ⟨_, _, _, v, p, q⟩
  cases v <;> cases p <;> cases q <;> rfl

theorem owned_view {o : Obj} (ho : o.own = false) : owned o = [] := by simp [owned, ho]

theorem wpx_destructor {o : Obj} {R : List Nat} {h : Heap} (i : HInv (owned o ++ R) h) {Q : Unit → Heap → Prop} {E : Err → Heap → Prop}
    (hQ : ∀ h', HInv R h' → SameBut (owned o) h h' → Q () h') : M.wpx (destructor o) h Q E := by
  unfold destructor
  rw [M.wpx_when]
  refine ⟨fun ho => ?_, fun ho => ?_⟩
  · rw [owned_eq ho] at i hQ
    rw [List.append_assoc, List.append_assoc] at i
    rw [M.wpx_bind]
    refine wpx_deletePtr i fun h1 i1 s1 => ?_
    rw [M.wpx_bind]
    refine wpx_deletePtr i1 fun h2 i2 s2 => ?_
    refine wpx_deletePtr i2 fun h3 i3 s3 => ?_
    refine hQ _ i3 (((s1.mono ?_).trans (s2.mono ?_)).trans (s3.mono ?_))
    · intro x hx; simp [hx]
    · intro x hx; simp only [List.mem_append]; exact Or.inr (Or.inl hx)
    · intro x hx; simp only [List.mem_append]; exact Or.inr (Or.inr hx)
  · rw [owned_view (by simpa using ho)] at i
    exact hQ _ i (SameBut.refl _ _)

/-- A matrix or operator with nonzeros has arrays. -/
def Wf (o : Obj) : Prop := 0 < o.nnz → o.vals ≠ none ∧ o.p1 ≠ none ∧ o.p2 ≠ none

/-- The invariant of an object and the heap, with other owned arrays `R`. -/
structure OInv (R : List Nat) (s : Obj × Heap) : Prop where
  heap : HInv (owned s.1 ++ R) s.2
  wf : Wf s.1
  live : DataLive s.2 s.1

/-- Null pointers of an object may have been replaced, if it owns its memory; nothing else. -/
structure Grows (o o' : Obj) : Prop where
  vals : o'.vals = o.vals ∨ o.own = true ∧ o.vals = none
  p1 : o'.p1 = o.p1 ∨ o.own = true ∧ o.p1 = none
  p2 : o'.p2 = o.p2 ∨ o.own = true ∧ o.p2 = none

theorem Grows.refl (o : Obj) : Grows o o := ⟨Or.inl rfl, Or.inl rfl, Or.inl rfl⟩

/-- What all functions on objects guarantee. -/
structure Ok (R : List Nat) (s s' : Obj × Heap) : Prop where
  inv : OInv R s'
  keeps : Keeps s.2 s'.2
  kind : s'.1.kind = s.1.kind
  own : s'.1.own = s.1.own
  grows : Grows s.1 s'.1

theorem Ok.refl {R : List Nat} {s : Obj × Heap} (i : OInv R s) : Ok R s s := ⟨i, Keeps.refl _, rfl, rfl, Grows.refl _⟩
theorem Ok.trans {R : List Nat} {s1 s2 s3 : Obj × Heap} (a : Ok R s1 s2) (b : Ok R s2 s3) : Ok R s1 s3 :=
  by
  refine ⟨b.inv, a.keeps.trans b.keeps, b.kind.trans a.kind, b.own.trans a.own, ?_⟩
  have key : ∀ {x y z : Ptr}, (y = x ∨ s1.1.own = true ∧ x = none) → (z = y ∨ s2.1.own = true ∧ y = none) → (z = x ∨ s1.1.own = true ∧ x = none) := by
    rintro x y z (rfl | h1) (rfl | h2)
    · exact Or.inl rfl
    · exact Or.inr ⟨a.own ▸ h2.1, h2.2⟩
    · exact Or.inr h1
    · exact Or.inr h1
  exact ⟨key a.grows.vals b.grows.vals, key a.grows.p1 b.grows.p1, key a.grows.p2 b.grows.p2⟩

theorem DataLive.ptr {h : Heap} {o : Obj} (d : DataLive h o) {p : Ptr} (hp : p ∈ o.ptrs) : NullOrLive h p := fun a ha => d a (ha ▸ hp)

theorem DataLive.vals {h : Heap} {o : Obj} (d : DataLive h o) : NullOrLive h o.vals := d.ptr (by simp [Obj.ptrs])
theorem DataLive.p1 {h : Heap} {o : Obj} (d : DataLive h o) : NullOrLive h o.p1 := d.ptr (by simp [Obj.ptrs])
theorem DataLive.p2 {h : Heap} {o : Obj} (d : DataLive h o) : NullOrLive h o.p2 := d.ptr (by simp [Obj.ptrs])

theorem dataLive_iff {h : Heap} {o : Obj} : DataLive h o ↔ NullOrLive h o.vals ∧ NullOrLive h o.p1 ∧ NullOrLive h o.p2 := by
  refine ⟨fun d => ⟨d.vals, d.p1, d.p2⟩, fun ⟨a, b, c⟩ x hx => ?_⟩
  simp only [Obj.ptrs, List.mem_cons, List.not_mem_nil, or_false] at hx
  rcases hx with hx | hx | hx
  · exact a x hx.symm
  · exact b x hx.symm
  · exact c x hx.symm

theorem NullOrLive.keeps {h h' : Heap} {p : Ptr} (n : NullOrLive h p) (k : Keeps h h') : NullOrLive h' p := fun a ha => k.live (n a ha)

theorem owned_vals {o : Obj} (ho : o.own = true) (hp : o.vals = none) (a : Nat) : (owned { o with vals := some a }).Perm (a :: owned o) := by
  rw [owned_eq (by exact ho), owned_eq ho, hp]; exact List.Perm.refl _

theorem owned_p1 {o : Obj} (ho : o.own = true) (hp : o.p1 = none) (a : Nat) : (owned { o with p1 := some a }).Perm (a :: owned o) := by
  rw [owned_eq (by exact ho), owned_eq ho, hp]
  exact List.perm_middle

theorem owned_p2 {o : Obj} (ho : o.own = true) (hp : o.p2 = none) (a : Nat) : (owned { o with p2 := some a }).Perm (a :: owned o) := by
  rw [owned_eq (by exact ho), owned_eq ho, hp, ← List.append_assoc, ← List.append_assoc]
  exact List.perm_middle

theorem HInv.fresh {L R : List Nat} {h h' : Heap} (i : HInv R h) (k : Keeps h h') (i' : HInv (L ++ R) h') : ∀ a ∈ L, h[a]? = none := by
  intro a ha
  rcases hb : h[a]? with _ | b
  · rfl
  · exfalso
    obtain ⟨c, e, f1, f2⟩ := (i'.mem a).mp (List.mem_append_left _ ha)
    have := k a b hb
    rw [this] at e
    obtain rfl := Option.some.inj e
    have hR := (i.mem a).mpr ⟨b, hb, f1, f2⟩
    exact (List.disjoint_of_nodup_append i'.nodup) ha hR

theorem Keeps.sameBut {L : List Nat} {h h1 h2 : Heap} (k : Keeps h h1) (sb : SameBut L h1 h2) (hL : ∀ a ∈ L, h[a]? = none) : Keeps h h2 := by
  intro x b hx
  rw [sb.2 x ?_]
  · exact k x b hx
  · intro hc
    rw [hL x hc] at hx; simp at hx

/-- Attaching a new array to one of the three members. -/
theorem wpx_attach {put : Obj → Ptr → Obj} {o : Obj} {h : Heap} {R : List Nat} (i : HInv (owned o ++ R) h)
    (hput : ∀ a, (owned (put o (some a))).Perm (a :: owned o)) {Q : Unit → Obj × Heap → Prop} {E : Err → Obj × Heap → Prop}
    (hQ : ∀ a h', HInv (owned (put o (some a)) ++ R) h' → Keeps h h' → Q () (put o (some a), h')) : M.wpx (attach put) (o, h) Q E := by
  unfold attach
  rw [M.wpx_bind, wpx_onHeap]
  refine wpx_new i fun a h' i' k _ _ => ?_
  rw [M.wpx_modify]
  exact hQ a h' (i'.perm (by simpa using ((hput a).symm.append_right R))) k

theorem wpx_attachIf {c : Prop} [Decidable c] {put : Obj → Ptr → Obj} {o : Obj} {h : Heap} {R : List Nat} (i : OInv R (o, h)) (hc : c → o.own = true)
    (hput : c → ∀ a, (owned (put o (some a))).Perm (a :: owned o) ∧ Wf (put o (some a)) ∧ (put o (some a)).kind = o.kind ∧ (put o (some a)).own = o.own ∧
      Grows o (put o (some a)))
    {Q : Unit → Obj × Heap → Prop} {E : Err → Obj × Heap → Prop}
    (hQ : ∀ o' h', Ok R (o, h) (o', h') → (c ∧ (∃ a, o' = put o (some a)) ∨ ¬ c ∧ o' = o) → Q () (o', h')) :
    M.wpx (M.when c (attach put)) (o, h) Q E := by
  rw [M.wpx_when]
  refine ⟨fun h1 => ?_, fun h1 => hQ _ _ (Ok.refl i) (Or.inr ⟨h1, rfl⟩)⟩
  refine wpx_attach i.heap (fun a => (hput h1 a).1) fun a h' i' k => ?_
  obtain ⟨-, h3, h4, h5, h6⟩ := hput h1 a
  exact hQ _ _ ⟨⟨i', h3, i'.dataLive (by rw [h5]; exact hc h1)⟩, k, h4, h5, h6⟩ (Or.inl ⟨h1, a, rfl⟩)

/-- A temporary array. -/
theorem wpx_temp {L : List Nat} {h : Heap} (i : HInv L h) {body : Ptr → M Heap Unit} {Q : Unit → Heap → Prop} {E : Err → Heap → Prop}
    (hb : ∀ a h', Keeps h h' → Live h' a → ∀ Q' : Unit → Heap → Prop, Q' () h' → M.wpx (body (some a)) h' Q' E)
    (hQ : ∀ h', HInv L h' → Keeps h h' → Q () h') :
    M.wpx (do
      let w ← newArray
      body w
      deleteArray w) h Q E := by
  rw [M.wpx_bind]
  refine wpx_new i fun a h' i' k hn hl => ?_
  rw [M.wpx_bind]
  refine hb a h' k hl _ ?_
  exact wpx_delete i' fun h2 i2 sb => hQ _ i2 (k.sameBut sb (by simpa using hn))

/-- A local object that is destroyed at the end. -/
theorem wpx_withLocal {o : Obj} {h0 h : Heap} {R : List Nat} {body : M (Obj × Heap) Unit} (i0 : HInv R h0)
    (hb : M.wpx body (o, h) (fun _ s => HInv (owned s.1 ++ R) s.2 ∧ Keeps h0 s.2) (fun _ s => HInv (owned s.1 ++ R) s.2 ∧ Keeps h0 s.2)) :
    M.wpx (withLocal o body) h (fun _ h' => HInv R h' ∧ Keeps h0 h') (fun _ h' => HInv R h' ∧ Keeps h0 h') := by
  unfold withLocal
  unfold M.wpx at hb ⊢
  rcases hm : body (o, h) with ⟨r, s⟩
  rw [hm] at hb
  have key : HInv (owned s.1 ++ R) s.2 ∧ Keeps h0 s.2 → ∃ h', destructor s.1 s.2 = (.ok (), h') ∧ HInv R h' ∧ Keeps h0 h' := by
    rintro ⟨i, k⟩
    have := wpx_destructor i (Q := fun _ h' => HInv R h' ∧ Keeps h0 h') (E := fun _ _ => False) fun h' i' sb =>
      ⟨i', k.sameBut sb (i0.fresh k i)⟩
    unfold M.wpx at this
    rcases hd : destructor s.1 s.2 with ⟨r', h'⟩
    rw [hd] at this
    cases r' with
    | ok u => exact ⟨h', rfl, this⟩
    | throw e => exact this.elim
    | ub => exact this.elim
  cases r with
  | ub => exact hb.elim
  | ok u =>
    obtain ⟨h', e, q⟩ := key hb
    simp only [hm, e]; exact q
  | throw u =>
    obtain ⟨h', e, q⟩ := key hb
    simp only [hm, e]; exact q

/-! ## Sketching operators -/

variable {R : List Nat} {o : Obj} {h : Heap}

theorem wpx_touchEntries (w : Wf o) (d : DataLive h o) {Q : Unit → Obj × Heap → Prop} {E : Err → Obj × Heap → Prop} (hQ : Q () (o, h)) :
    M.wpx touchEntries (o, h) Q E := by
  unfold touchEntries
  rw [M.wpx_bind, M.wpx_get, M.wpx_when]
  refine ⟨fun hn => ?_, fun _ => hQ⟩
  obtain ⟨h1, h2, h3⟩ := w hn
  rw [wpx_onHeap, M.wpx_bind]
  exact wpx_touchP h1 d.vals (wpx_touchP h2 d.p1 hQ)

theorem wpx_touchMatrix (w : Wf o) (d : DataLive h o) {mid : Option Err} (hk : o.kind = .coo ∨ o.p2 ≠ none) {Q : Unit → Obj × Heap → Prop}
    {E : Err → Obj × Heap → Prop} (hQ : Q () (o, h)) (hE : mid ≠ none → ∀ e, E e (o, h)) : M.wpx (touchMatrix mid) (o, h) Q E := by
  unfold touchMatrix
  rw [M.wpx_bind]
  refine wpx_raise (fun _ => ?_) hE
  rw [M.wpx_bind]
  refine wpx_touchEntries w d ?_
  rw [M.wpx_bind, M.wpx_get, M.wpx_when]
  refine ⟨fun hc => ?_, fun _ => hQ⟩
  rw [wpx_onHeap]
  refine wpx_touchP ?_ d.p2 hQ
  rcases hk with hk | hk
  · rcases hc with hc | hc
    · exact absurd hk hc
    · exact (w hc).2.2
  · exact hk

theorem wpx_spmmCoo (w : Wf o) (d : DataLive h o) {mid : Option Err} {Q : Unit → Obj × Heap → Prop} {E : Err → Obj × Heap → Prop} (hQ : Q () (o, h))
    (hE : ∀ e, E e (o, h)) : M.wpx (spmmCoo mid) (o, h) Q E := by
  unfold spmmCoo
  rw [M.wpx_bind]
  refine wpx_raise (fun _ => ?_) (fun _ => hE)
  rw [M.wpx_bind]
  refine wpx_touchEntries w d ?_
  rw [M.wpx_bind, M.wpx_get, M.wpx_when]
  refine ⟨fun hc => ?_, fun _ => hQ⟩
  rw [wpx_onHeap]
  exact wpx_touchP (w hc).2.2 d.p2 hQ

theorem wpx_fillDenseUnpacked {L : List Nat} (i : HInv L h) {a : Nat} (l : Live h a) {num : Option Err} {flip : Bool} {Q : Unit → Heap → Prop}
    {E : Err → Heap → Prop} (hQ : ∀ h', HInv L h' → Keeps h h' → Q () h') (hE : num ≠ none → ∀ e, E e h) :
    M.wpx (fillDenseUnpacked num flip (some a)) h Q E := by
  unfold fillDenseUnpacked
  rw [M.wpx_bind]
  refine wpx_raise (fun _ => ?_) hE
  rw [M.wpx_bind]
  refine wpx_touch l ?_
  rw [M.wpx_when]
  refine ⟨fun _ => ?_, fun _ => hQ _ i (Keeps.refl _)⟩
  have := wpx_temp (body := fun w => do
    touch w
    touch (some a)) (Q := Q) (E := E) i (fun x h' k hl Q' hQ' => by
      rw [M.wpx_bind]
      exact wpx_touch hl (wpx_touch (k.live l) hQ')) hQ
  rw [M.wpx_bind] at this ⊢
  refine M.wpx_mono this (fun w s hw => ?_) (fun _ _ e => e)
  rw [M.wpx_bind, M.wpx_bind] at hw
  rw [M.wpx_bind]
  refine M.wpx_mono hw (fun _ s2 hw2 => ?_) (fun _ _ e => e)
  rw [M.wpx_bind]
  exact hw2

theorem fillDense_ok (i : OInv R (o, h)) (num : Option Err) :
    M.wpx (fillDense num) (o, h) (fun _ s => Ok R (o, h) s) (fun _ s => Ok R (o, h) s) := by
  unfold fillDense
  rw [M.wpx_bind, M.wpx_get, M.wpx_bind]
  refine wpx_attachIf i (fun c => c.1) (fun c a => ⟨owned_vals c.1 c.2 a, fun hn => ⟨by simp, (i.wf hn).2⟩, rfl, rfl, Or.inr c, Or.inl rfl, Or.inl rfl⟩) fun o' h' k _ => ?_
  rw [M.wpx_bind, M.wpx_get, M.wpx_bind, M.wpx_require]
  refine ⟨fun hv => ?_, fun _ => k⟩
  obtain ⟨a, ha⟩ := Option.ne_none_iff_exists'.mp hv
  rw [wpx_onHeap]
  simp only at ha ⊢
  rw [ha]
  refine wpx_fillDenseUnpacked k.inv.heap (k.inv.live.vals a ha) (fun h2 i2 k2 => ?_) (fun _ _ => k)
  exact k.trans ⟨⟨i2, k.inv.wf, k2.dataLive k.inv.live⟩, k2, rfl, rfl, Grows.refl _⟩

theorem fillSparse_ok (i : OInv R (o, h)) (num : Option Err) (k : Nat) :
    M.wpx (fillSparse num k) (o, h) (fun _ s => Ok R (o, h) s) (fun _ s => Ok R (o, h) s) := by
  unfold fillSparse
  rw [M.wpx_bind, M.wpx_get, M.wpx_bind]
  refine wpx_attachIf i (fun c => c.1) (fun c a => ⟨owned_p1 c.1 c.2 a, fun hn => ⟨(i.wf hn).1, by simp, (i.wf hn).2.2⟩, rfl, rfl,
    Or.inl rfl, Or.inr c, Or.inl rfl⟩) fun o1 h1 k1 d1 => ?_
  rw [M.wpx_bind]
  have e1 : o1.p2 = o.p2 ∧ o1.vals = o.vals := by rcases d1 with ⟨-, a, rfl⟩ | ⟨-, rfl⟩ <;> exact ⟨rfl, rfl⟩
  refine wpx_attachIf k1.inv (fun c => k1.own.trans c.1) (fun c a => ⟨owned_p2 (k1.own.trans c.1) (e1.1.trans c.2) a,
    fun hn => ⟨(k1.inv.wf hn).1, (k1.inv.wf hn).2.1, by simp⟩, rfl, rfl, Or.inl rfl, Or.inl rfl, Or.inr ⟨k1.own.trans c.1, e1.1.trans c.2⟩⟩) fun o2 h2 k2 d2 => ?_
  rw [M.wpx_bind]
  have e2 : o2.vals = o1.vals := by rcases d2 with ⟨-, a, rfl⟩ | ⟨-, rfl⟩ <;> rfl
  refine wpx_attachIf k2.inv (fun c => k2.own.trans (k1.own.trans c.1)) (fun c a => ⟨owned_vals (k2.own.trans (k1.own.trans c.1))
    (e2.trans (e1.2.trans c.2)) a, fun hn => ⟨by simp, (k2.inv.wf hn).2⟩, rfl, rfl,
    Or.inr ⟨k2.own.trans (k1.own.trans c.1), e2.trans (e1.2.trans c.2)⟩, Or.inl rfl, Or.inl rfl⟩) fun o3 h3 k3 d3 => ?_
  have K := k1.trans (k2.trans k3)
  rw [M.wpx_bind, M.wpx_get, M.wpx_bind, M.wpx_require]
  refine ⟨fun n1 => ?_, fun _ => K⟩
  rw [M.wpx_bind, M.wpx_require]
  refine ⟨fun n2 => ?_, fun _ => K⟩
  rw [M.wpx_bind, M.wpx_require]
  refine ⟨fun n3 => ?_, fun _ => K⟩
  rw [M.wpx_bind]
  refine wpx_raise (fun _ => ?_) (fun _ _ => K)
  have L := K.inv.live
  rw [M.wpx_bind, wpx_onHeap]
  refine wpx_touchP n3 L.vals ?_
  rw [M.wpx_bind, wpx_onHeap]
  refine wpx_touchP n1 L.p1 ?_
  rw [M.wpx_bind, wpx_onHeap]
  refine wpx_touchP n2 L.p2 ?_
  rw [M.wpx_modify]
  exact K.trans ⟨⟨K.inv.heap, fun _ => ⟨n3, n1, n2⟩, L⟩, Keeps.refl _, rfl, rfl, Or.inl rfl, Or.inl rfl, Or.inl rfl⟩

theorem wpx_mkView {k : Kind} {b : Bool} {n : Int} {v p q : Ptr} (hn : 0 < n → v ≠ none ∧ p ≠ none ∧ q ≠ none) (lp : NullOrLive h p) (lq : NullOrLive h q)
    {Q : Obj → Heap → Prop} {E : Err → Heap → Prop} (hQ : Q ⟨k, false, n, v, p, q⟩ h) : M.wpx (mkView k b n v p q) h Q E := by
  unfold mkView
  rw [M.wpx_bind, M.wpx_when]
  refine ⟨fun hc => ?_, fun _ => hQ⟩
  obtain ⟨h1, h2, h3⟩ := hn (by omega)
  rw [M.wpx_bind]
  exact wpx_touchP h2 lp (wpx_touchP h3 lq hQ)

theorem cooViewOfSkop_ok (i : OInv R (o, h)) (num : Option Err) (k : Nat) :
    M.wpx (cooViewOfSkop num k) (o, h) (fun v s => Ok R (o, h) s ∧ v.own = false ∧ Wf v ∧ DataLive s.2 v) (fun _ s => Ok R (o, h) s) := by
  unfold cooViewOfSkop
  rw [M.wpx_bind, M.wpx_get, M.wpx_bind, M.wpx_when]
  have key : ∀ s, Ok R (o, h) s → M.wpx (do
      let s ← M.get
      onHeap (mkView .coo true s.1.nnz s.1.vals s.1.p1 s.1.p2)) s
      (fun v s => Ok R (o, h) s ∧ v.own = false ∧ Wf v ∧ DataLive s.2 v) (fun _ s => Ok R (o, h) s) := by
    rintro ⟨o', h'⟩ K
    rw [M.wpx_bind, M.wpx_get, wpx_onHeap]
    exact wpx_mkView K.inv.wf K.inv.live.p1 K.inv.live.p2 ⟨K, rfl, K.inv.wf, dataLive_iff.mpr ⟨K.inv.live.vals, K.inv.live.p1, K.inv.live.p2⟩⟩
  refine ⟨fun _ => ?_, fun _ => key _ (Ok.refl i)⟩
  exact M.wpx_mono (fillSparse_ok i num k) (fun _ s K => key s K) (fun _ s K => K)

theorem sketchSparseView_ok (i : OInv R (o, h)) (num mid : Option Err) (k : Nat) :
    M.wpx (sketchSparseView num mid k) (o, h) (fun _ s => Ok R (o, h) s) (fun _ s => Ok R (o, h) s) := by
  unfold sketchSparseView
  rw [M.wpx_bind]
  refine M.wpx_mono (cooViewOfSkop_ok i num k) ?_ (fun _ s K => K)
  rintro v ⟨o', h'⟩ ⟨K, hv, hw, hl⟩
  rw [wpx_onHeap]
  have : HInv (owned v ++ (owned o' ++ R)) h' := by rw [owned_view hv]; exact K.inv.heap
  refine M.wpx_mono (wpx_withLocal K.inv.heap (h := h') (o := v) (body := spmmCoo mid) (wpx_spmmCoo hw hl ⟨this, Keeps.refl _⟩ fun _ => ⟨this, Keeps.refl _⟩))
    ?_ ?_
  · rintro _ h2 ⟨i2, k2⟩
    exact K.trans ⟨⟨i2, K.inv.wf, k2.dataLive K.inv.live⟩, k2, rfl, rfl, Grows.refl _⟩
  · rintro _ h2 ⟨i2, k2⟩
    exact K.trans ⟨⟨i2, K.inv.wf, k2.dataLive K.inv.live⟩, k2, rfl, rfl, Grows.refl _⟩

theorem mkNew_inv {k : Kind} (i : HInv R h) : OInv R (mkNew k, h) := by
  refine ⟨by simpa [owned, mkNew, Obj.ptrs] using i, ?_, ?_⟩
  · intro hn
    unfold mkNew at hn
    simp only at hn
    split at hn <;> omega
  · intro a ha
    simp [mkNew, Obj.ptrs] at ha

theorem sketchCopy_ok (i : OInv R (o, h)) (num mid : Option Err) (k : Nat) :
    M.wpx (sketchCopy num mid k) (o, h) (fun _ s => Ok R (o, h) s) (fun _ s => Ok R (o, h) s) := by
  unfold sketchCopy
  rw [wpx_onHeap]
  refine M.wpx_mono (wpx_withLocal i.heap (h := h) ?_)
    (fun _ h2 ⟨i2, k2⟩ => ⟨⟨i2, i.wf, k2.dataLive i.live⟩, k2, rfl, rfl, Grows.refl _⟩) (fun _ h2 ⟨i2, k2⟩ => ⟨⟨i2, i.wf, k2.dataLive i.live⟩, k2, rfl, rfl, Grows.refl _⟩)
  rw [M.wpx_bind]
  refine M.wpx_mono (fillSparse_ok (mkNew_inv i.heap) num k) ?_ (fun _ s K => ⟨K.inv.heap, K.keeps⟩)
  rintro _ ⟨o1, h1⟩ K1
  exact M.wpx_mono (sketchSparseView_ok K1.inv num mid k) (fun _ s K => ⟨K.inv.heap, K1.keeps.trans K.keeps⟩)
    (fun _ s K => ⟨K.inv.heap, K1.keeps.trans K.keeps⟩)

theorem lskges_ok (i : OInv R (o, h)) (num mid : Option Err) (k : Nat) :
    M.wpx (lskges num mid k) (o, h) (fun _ s => Ok R (o, h) s) (fun _ s => Ok R (o, h) s) := by
  unfold lskges
  rw [M.wpx_bind, M.wpx_get]
  dsimp only
  split
  · exact sketchCopy_ok i num mid k
  · exact sketchSparseView_ok i num mid k

theorem rskges_ok (i : OInv R (o, h)) (num mid : Option Err) (k : Nat) :
    M.wpx (rskges num mid k) (o, h) (fun _ s => Ok R (o, h) s) (fun _ s => Ok R (o, h) s) := by
  unfold rskges
  rw [M.wpx_bind, M.wpx_get, M.wpx_bind, M.wpx_when]
  refine ⟨fun _ => ?_, fun _ => sketchSparseView_ok i num mid k⟩
  refine M.wpx_mono (sketchCopy_ok i num mid k) (fun _ s K => ?_) (fun _ s K => K)
  exact M.wpx_mono (sketchSparseView_ok K.inv num mid k) (fun _ s K' => K.trans K') (fun _ s K' => K.trans K')

theorem sketchDense_ok (i : OInv R (o, h)) (pre num mid : Option Err) :
    M.wpx (sketchDense pre num mid true) (o, h) (fun _ s => Ok R (o, h) s)
      (fun _ s => ∃ X, (num = none → X = []) ∧ Ok (R ++ X) (o, h) s) := by
  unfold sketchDense
  have ex : ∀ s, Ok R (o, h) s → ∃ X, (num = none → X = []) ∧ Ok (R ++ X) (o, h) s := fun s K => ⟨[], fun _ => rfl, by simpa using K⟩
  rw [M.wpx_bind, M.wpx_get]
  dsimp only
  split
  · rw [M.wpx_bind, wpx_onHeap]
    unfold submatrixAsBlackbox
    rw [M.wpx_bind]
    refine wpx_raise (fun _ => ?_) (fun _ _ => ex _ (Ok.refl i))
    rw [M.wpx_bind]
    refine wpx_new i.heap fun a h1 i1 k1 hn hl => ?_
    rw [M.wpx_bind]
    refine wpx_fillDenseUnpacked i1 hl (fun h2 i2 k2 => ?_) ?_
    · dsimp only
      rw [M.wpx_bind, M.wpx_when]
      refine ⟨fun hc => by simp at hc, fun _ => ?_⟩
      rw [M.wpx_pure, wpx_onHeap]
      have k12 := k1.trans k2
      have post : ∀ h3, HInv (owned o ++ R) h3 ∧ Keeps h h3 → Ok R (o, h) (o, h3) := fun h3 ⟨i3, k3⟩ =>
        ⟨⟨i3, i.wf, k3.dataLive i.live⟩, k3, rfl, rfl, Grows.refl _⟩
      have hi : HInv (owned ⟨.dense, true, 0, some a, none, none⟩ ++ (owned o ++ R)) h2 := by
        rw [owned_eq rfl]; exact i2
      refine M.wpx_mono (wpx_withLocal i.heap (h := h2) ?_) (fun _ h3 p => post h3 p) (fun _ h3 p => ex _ (post h3 p))
      rw [M.wpx_bind]
      refine wpx_raise (fun _ => ?_) (fun _ _ => ⟨hi, k12⟩)
      rw [wpx_onHeap]
      exact wpx_touch (k2.live hl) ⟨hi, k12⟩
    · intro hnum e
      refine ⟨[a], fun hc => absurd hc hnum, ⟨?_, i.wf, k1.dataLive i.live⟩, k1, rfl, rfl, Grows.refl _⟩
      refine i1.perm ?_
      rw [← List.append_assoc]
      exact (List.perm_append_singleton _ _).symm
  · rename_i hv
    rw [M.wpx_bind]
    refine wpx_raise (fun _ => ?_) (fun _ _ => ex _ (Ok.refl i))
    rw [wpx_onHeap]
    exact wpx_touchP hv i.live.vals (Ok.refl i)

/-! ## Sparse matrices -/

theorem reserveCoo_ok (i : HInv (owned o ++ R) h) (w : Wf o) (n : Int) :
    M.wpx (reserveCoo n) (o, h) (fun _ s => Ok R (o, h) s ∧ s.1.own = true) (fun _ s => s = (o, h)) := by
  unfold reserveCoo
  rw [M.wpx_bind, M.wpx_get, M.wpx_bind, M.wpx_require]
  refine ⟨fun h1 => ?_, fun _ => rfl⟩
  rw [M.wpx_bind, M.wpx_require]
  refine ⟨fun h2 => ?_, fun _ => rfl⟩
  rw [M.wpx_bind, M.wpx_require]
  refine ⟨fun h3 => ?_, fun _ => rfl⟩
  rw [M.wpx_bind, M.wpx_require]
  refine ⟨fun h4 => ?_, fun _ => rfl⟩
  rw [M.wpx_bind, M.wpx_modify, M.wpx_when]
  simp only at h1 h2 h3 h4
  have i' : HInv (owned { o with nnz := n } ++ R) h := i
  refine ⟨fun hn => ?_, fun hn => ⟨⟨⟨i', fun hc => absurd hc hn, i'.dataLive h1⟩, Keeps.refl _, rfl, rfl, Or.inl rfl, Or.inl rfl, Or.inl rfl⟩, h1⟩⟩
  rw [M.wpx_bind]
  refine wpx_attach i' (fun a => owned_vals (by exact h1) (by exact h2) a) fun a1 g1 j1 k1 => ?_
  rw [M.wpx_bind]
  refine wpx_attach j1 (fun a => owned_p1 (by exact h1) (by exact h3) a) fun a2 g2 j2 k2 => ?_
  refine wpx_attach j2 (fun a => owned_p2 (by exact h1) (by exact h4) a) fun a3 g3 j3 k3 => ?_
  exact ⟨⟨⟨j3, fun _ => ⟨by simp, by simp, by simp⟩, j3.dataLive h1⟩, k1.trans (k2.trans k3), rfl, rfl,
    Or.inr ⟨h1, h2⟩, Or.inr ⟨h1, h3⟩, Or.inr ⟨h1, h4⟩⟩, h1⟩

theorem reserveCs_ok (i : HInv (owned o ++ R) h) (w : Wf o) (n : Int) :
    M.wpx (reserveCs n) (o, h) (fun _ s => Ok R (o, h) s ∧ s.1.own = true ∧ s.1.p2 ≠ none) (fun _ s => s = (o, h)) := by
  unfold reserveCs
  rw [M.wpx_bind, M.wpx_get, M.wpx_bind, M.wpx_require]
  refine ⟨fun h1 => ?_, fun _ => rfl⟩
  rw [M.wpx_bind, M.wpx_require]
  refine ⟨fun h2 => ?_, fun _ => rfl⟩
  rw [M.wpx_bind, M.wpx_require]
  refine ⟨fun h3 => ?_, fun _ => rfl⟩
  simp only at h1 h2 h3
  rw [M.wpx_bind]
  refine wpx_attachIf ⟨i, w, i.dataLive h1⟩ (fun _ => h1) (fun c a => ⟨owned_p2 h1 c a, fun hn => ⟨(w hn).1, (w hn).2.1, by simp⟩, rfl, rfl,
    Or.inl rfl, Or.inl rfl, Or.inr ⟨h1, c⟩⟩)
    fun o1 g1 K d => ?_
  have e : o1.own = true ∧ o1.p1 = none ∧ o1.vals = none ∧ o1.p2 ≠ none ∧ o1.kind = o.kind := by
    rcases d with ⟨-, a, rfl⟩ | ⟨hc, rfl⟩
    · exact ⟨h1, h2, h3, by simp, rfl⟩
    · exact ⟨h1, h2, h3, hc, rfl⟩
  rw [M.wpx_bind, M.wpx_modify, M.wpx_when]
  have i' : HInv (owned { o1 with nnz := n } ++ R) g1 := K.inv.heap
  refine ⟨fun hn => ?_, fun hn => ⟨⟨⟨i', fun hc => absurd hc hn, i'.dataLive e.1⟩, K.keeps, e.2.2.2.2, K.own, K.grows.vals, K.grows.p1, K.grows.p2⟩, e.1, e.2.2.2.1⟩⟩
  rw [M.wpx_bind]
  refine wpx_attach i' (fun a => owned_p1 (by exact e.1) (by exact e.2.1) a) fun a1 g2 j1 k1 => ?_
  refine wpx_attach j1 (fun a => owned_vals (by exact e.1) (by exact e.2.2.1) a) fun a2 g3 j2 k2 => ?_
  exact ⟨⟨⟨j2, fun _ => ⟨by simp, by simp, e.2.2.2.1⟩, j2.dataLive e.1⟩, K.keeps.trans (k1.trans k2), e.2.2.2.2, K.own,
    Or.inr ⟨h1, h3⟩, Or.inr ⟨h1, h2⟩, K.grows.p2⟩, e.1, e.2.2.2.1⟩

theorem reserve_ok (i : HInv (owned o ++ R) h) (w : Wf o) (n : Int) :
    M.wpx (reserve n) (o, h) (fun _ s => Ok R (o, h) s ∧ s.1.own = true ∧ (s.1.kind = .coo ∨ s.1.p2 ≠ none)) (fun _ s => s = (o, h)) := by
  unfold reserve
  rw [M.wpx_bind, M.wpx_get]
  dsimp only
  split
  · rename_i hk
    exact M.wpx_mono (reserveCoo_ok i w n) (fun _ s ⟨K, a⟩ => ⟨K, a, Or.inl (K.kind.trans hk)⟩) (fun _ _ e => e)
  · exact M.wpx_mono (reserveCs_ok i w n) (fun _ s ⟨K, a, b⟩ => ⟨K, a, Or.inr b⟩) (fun _ _ e => e)

theorem wpx_tempTouch {L : List Nat} (i : HInv L h) {Q : Unit → Heap → Prop} {E : Err → Heap → Prop}
    (hQ : ∀ h', HInv L h' → Keeps h h' → Q () h') : M.wpx (do
      let w ← newArray
      touch w
      deleteArray w) h Q E :=
  wpx_temp (body := touch) i (fun _ _ _ hl _ hQ' => wpx_touch hl hQ') hQ

theorem spmmCs_ok (i : OInv R (o, h)) (hp : o.p2 ≠ none) (mid : Option Err) (scale blocks : Bool) :
    M.wpx (spmmCs mid scale blocks) (o, h) (fun _ s => Ok R (o, h) s) (fun _ s => Ok R (o, h) s) := by
  unfold spmmCs
  rw [M.wpx_bind]
  refine wpx_raise (fun _ => ?_) (fun _ _ => Ok.refl i)
  rw [M.wpx_bind]
  refine wpx_touchMatrix i.wf i.live (Or.inr hp) ?_ (fun hc => absurd rfl hc)
  have last : ∀ h', HInv (owned o ++ R) h' → Keeps h h' → M.wpx (M.when (blocks = true) (onHeap (do
      let w ← newArray
      touch w
      deleteArray w))) (o, h') (fun _ s => Ok R (o, h) s) (fun _ s => Ok R (o, h) s) := by
    intro h' i' k'
    rw [M.wpx_when]
    refine ⟨fun _ => ?_, fun _ => ⟨⟨i', i.wf, k'.dataLive i.live⟩, k', rfl, rfl, Grows.refl _⟩⟩
    rw [wpx_onHeap]
    exact wpx_tempTouch i' fun h2 i2 k2 => ⟨⟨i2, i.wf, (k'.trans k2).dataLive i.live⟩, k'.trans k2, rfl, rfl, Grows.refl _⟩
  rw [M.wpx_bind, M.wpx_when]
  refine ⟨fun _ => ?_, fun _ => last h i.heap (Keeps.refl _)⟩
  rw [wpx_onHeap]
  exact wpx_tempTouch i.heap fun h2 i2 k2 => last h2 i2 k2

theorem spmm_ok (i : OInv R (o, h)) (hk : o.kind = .coo ∨ o.p2 ≠ none) (mid : Option Err) (tr scale blocks : Bool) :
    M.wpx (spmm mid tr scale blocks) (o, h) (fun _ s => Ok R (o, h) s) (fun _ s => Ok R (o, h) s) := by
  have body : ∀ (k : Kind) (R : List Nat) (o : Obj) (h : Heap), OInv R (o, h) → (k = .coo ∨ o.p2 ≠ none) →
      M.wpx (if k = .coo then spmmCoo mid else spmmCs mid scale blocks) (o, h) (fun _ s => Ok R (o, h) s) (fun _ s => Ok R (o, h) s) := by
    intro k R o h i hk
    split
    · exact wpx_spmmCoo i.wf i.live (Ok.refl i) fun _ => Ok.refl i
    · rename_i hc
      exact spmmCs_ok i (hk.resolve_left hc) mid scale blocks
  unfold spmm
  rw [M.wpx_bind, M.wpx_get]
  dsimp only
  cases tr with
  | false => exact body _ _ _ _ i hk
  | true =>
    rw [if_pos rfl, wpx_onHeap, M.wpx_bind]
    refine wpx_mkView i.wf i.live.p1 i.live.p2 ?_
    have iv : OInv (owned o ++ R) (⟨o.kind, false, o.nnz, o.vals, o.p1, o.p2⟩, h) := ⟨by rw [owned_view rfl]; exact i.heap, i.wf, i.live⟩
    refine M.wpx_mono (wpx_withLocal i.heap ?_) (fun _ h2 ⟨i2, k2⟩ => ⟨⟨i2, i.wf, k2.dataLive i.live⟩, k2, rfl, rfl, Grows.refl _⟩)
      (fun _ h2 ⟨i2, k2⟩ => ⟨⟨i2, i.wf, k2.dataLive i.live⟩, k2, rfl, rfl, Grows.refl _⟩)
    exact M.wpx_mono (body _ _ _ _ iv hk) (fun _ s K => ⟨K.inv.heap, K.keeps⟩) (fun _ s K => ⟨K.inv.heap, K.keeps⟩)

/-! ## Histories -/

/-- The arrays of a variable. -/
def ownedOpt : Option Obj → List Nat
  | some o => owned o
  | none => []

/-- The arrays of all variables. -/
def ownedAll (objs : List (Option Obj)) : List Nat := objs.flatMap ownedOpt

theorem ownedAll_set {objs : List (Option Obj)} {i : Nat} {x : Option Obj} (hi : objs[i]? = some x) (y : Option Obj) :
    (ownedAll (objs.set i y)).Perm (ownedOpt y ++ ownedAll (objs.set i none)) := by
  induction objs generalizing i with
  | nil => simp at hi
  | cons z t ih =>
    cases i with
    | zero => simp [ownedAll, ownedOpt]
    | succ i =>
      have := ih (i := i) (by simpa using hi)
      simp only [List.set_cons_succ, ownedAll, List.flatMap_cons] at this ⊢
      refine (this.append_left _).trans ?_
      rw [← List.append_assoc, ← List.append_assoc]
      exact List.Perm.append_right _ List.perm_append_comm

theorem set_self {objs : List (Option Obj)} {i : Nat} {x : Option Obj} (hi : objs[i]? = some x) : objs.set i x = objs := by
  apply List.ext_getElem?
  intro j
  by_cases hj : i = j
  · subst hj
    have : i < objs.length := by
      by_contra hc
      rw [List.getElem?_eq_none (by omega)] at hi
      simp at hi
    rw [List.getElem?_set_self this, hi]
  · rw [List.getElem?_set_ne hj]

/-- The state invariant; `X` are arrays that have been leaked. -/
structure SInv (X : List Nat) (s : St) : Prop where
  heap : HInv (ownedAll s.objs ++ X) s.heap
  wf : ∀ (i : Nat) (o : Obj), s.objs[i]? = some (some o) → Wf o

theorem wpx_onObj {α : Type} {i : Nat} {m : M (Obj × Heap) α} {s : St} {o : Obj} (hi : s.objs[i]? = some (some o)) {Q : α → St → Prop}
    {E : Err → St → Prop} : M.wpx (onObj i m) s Q E ↔
      M.wpx m (o, s.heap) (fun a t => Q a ⟨t.2, s.objs.set i (some t.1)⟩) (fun e t => E e ⟨t.2, s.objs.set i (some t.1)⟩) := by
  unfold M.wpx onObj
  simp only [hi]
  rcases m (o, s.heap) with ⟨r, t⟩
  cases r <;> rfl

theorem wpx_onStHeap {α : Type} {m : M Heap α} {s : St} {Q : α → St → Prop} {E : Err → St → Prop} :
    M.wpx (onStHeap m) s Q E ↔ M.wpx m s.heap (fun a h' => Q a ⟨h', s.objs⟩) (fun e h' => E e ⟨h', s.objs⟩) := M.wpx_zoom

theorem wpx_addObj {o : Obj} {s : St} {Q : Unit → St → Prop} {E : Err → St → Prop} : M.wpx (addObj o) s Q E ↔ Q () ⟨s.heap, s.objs ++ [some o]⟩ := Iff.rfl

/-- The other arrays. -/
def rest (X : List Nat) (s : St) (i : Nat) : List Nat := ownedAll (s.objs.set i none) ++ X

theorem SInv.hinv {X : List Nat} {s : St} (I : SInv X s) {i : Nat} {o : Obj} (hi : s.objs[i]? = some (some o)) : HInv (owned o ++ rest X s i) s.heap := by
  refine I.heap.perm ?_
  have := ownedAll_set hi (some o)
  rw [set_self hi] at this
  rw [rest, ← List.append_assoc]
  exact this.append_right _

theorem SInv.oinv {X : List Nat} {s : St} (I : SInv X s) {i : Nat} {o : Obj} (hi : s.objs[i]? = some (some o)) (hu : Usable s o) :
    OInv (rest X s i) (o, s.heap) := by
  refine ⟨I.hinv hi, I.wf i o hi, ?_⟩
  rcases ho : o.own with _ | _
  · exact hu ho
  · exact (I.hinv hi).dataLive ho

theorem SInv.put {X Y : List Nat} {s : St} (I : SInv X s) {i : Nat} {o : Obj} (hi : s.objs[i]? = some (some o)) {o' : Obj} {h' : Heap}
    (w : Wf o') (H : HInv (owned o' ++ (rest X s i ++ Y)) h') : SInv (X ++ Y) ⟨h', s.objs.set i (some o')⟩ := by
  constructor
  · refine H.perm ?_
    have := (ownedAll_set hi (some o')).symm
    simp only [rest, ← List.append_assoc]
    exact (this.append_right _).append_right _
  · intro j x hj
    by_cases hij : i = j
    · subst hij
      rw [List.getElem?_set] at hj
      simp only [if_true] at hj
      split at hj
      · simp only [Option.some.injEq] at hj
        exact hj ▸ w
      · simp at hj
    · rw [List.getElem?_set_ne hij] at hj
      exact I.wf j x hj

theorem SInv.put' {X : List Nat} {s : St} (I : SInv X s) {i : Nat} {o : Obj} (hi : s.objs[i]? = some (some o)) {o' : Obj} {h' : Heap}
    (w : Wf o') (H : HInv (owned o' ++ rest X s i) h') : SInv X ⟨h', s.objs.set i (some o')⟩ := by
  have := I.put (Y := []) hi w (h' := h') (by simpa using H)
  simpa using this

theorem SInv.add {X : List Nat} {s : St} (I : SInv X s) {o : Obj} {h' : Heap} (w : Wf o) (H : HInv (owned o ++ (ownedAll s.objs ++ X)) h') :
    SInv X ⟨h', s.objs ++ [some o]⟩ := by
  constructor
  · refine H.perm ?_
    simp only [ownedAll, List.flatMap_append, List.flatMap_cons, List.flatMap_nil, List.append_nil, ownedOpt]
    rw [← List.append_assoc]
    exact List.Perm.append_right _ List.perm_append_comm
  · intro j x hj
    rw [List.getElem?_append] at hj
    split at hj
    · exact I.wf j x hj
    · rw [List.getElem?_singleton] at hj
      split at hj
      · simp only [Option.some.injEq] at hj; exact hj ▸ w
      · simp at hj

theorem SInv.addView {X : List Nat} {s : St} (I : SInv X s) {o : Obj} (w : Wf o) (ho : o.own = false) : SInv X ⟨s.heap, s.objs ++ [some o]⟩ :=
  I.add w (by rw [owned_view ho]; exact I.heap)

end RB.Mem
