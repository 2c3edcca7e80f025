import Verif.Lemmas.Memory
import Verif.Model.DenseSkops

/-!
# Memory management (C43, C52)
-/

namespace RB.Mem

/-- The effect of one valid command. -/
structure Step (X : List Nat) (c : Cmd) (s s' : St) : Prop where
  inv : ∃ Y, (NoThrowInBlackbox c → Y = []) ∧ SInv (X ++ Y) s'
  keeps : ¬ Frees c → Keeps s.heap s'.heap
  user : ∀ (a : Nat) (b : Block), s.heap[a]? = some b → b.lib = false → c ≠ .userDelete a → s'.heap[a]? = some b
  objs : ∀ (i : Nat) (o : Obj), s.objs[i]? = some (some o) → ¬ Reassigns i c → ∃ o', s'.objs[i]? = some (some o') ∧ AttachedOnly o o'

theorem AttachedOnly.refl (o : Obj) : AttachedOnly o o := ⟨rfl, rfl, Or.inl rfl, Or.inl rfl, Or.inl rfl⟩

theorem Step.of {X Y : List Nat} {c : Cmd} {s s' : St} (hY : NoThrowInBlackbox c → Y = []) (I : SInv (X ++ Y) s') (k : Keeps s.heap s'.heap)
    (ho : ∀ (i : Nat) (o : Obj), s.objs[i]? = some (some o) → ¬ Reassigns i c → ∃ o', s'.objs[i]? = some (some o') ∧ AttachedOnly o o') :
    Step X c s s' := ⟨⟨Y, hY, I⟩, fun _ => k, fun a b h _ _ => k a b h, ho⟩

theorem Step.of' {X : List Nat} {c : Cmd} {s s' : St} (I : SInv X s') (k : Keeps s.heap s'.heap)
    (ho : ∀ (i : Nat) (o : Obj), s.objs[i]? = some (some o) → ¬ Reassigns i c → ∃ o', s'.objs[i]? = some (some o') ∧ AttachedOnly o o') :
    Step X c s s' := Step.of (Y := []) (fun _ => rfl) (by simpa using I) k ho

theorem objs_set {c : Cmd} {s : St} {i : Nat} {o o' : Obj} (hi : s.objs[i]? = some (some o)) (hc : Reassigns i c ∨ AttachedOnly o o') :
    ∀ (j : Nat) (x : Obj), s.objs[j]? = some (some x) → ¬ Reassigns j c → ∃ x', (s.objs.set i (some o'))[j]? = some (some x') ∧ AttachedOnly x x' := by
  intro j x hj hr
  by_cases hij : i = j
  · subst hij
    rw [hi] at hj
    obtain rfl : o = x := by simpa using hj
    refine ⟨o', ?_, hc.resolve_left hr⟩
    rw [List.getElem?_set_self]
    by_contra hl
    rw [List.getElem?_eq_none (by omega)] at hi
    simp at hi
  · exact ⟨x, by rw [List.getElem?_set_ne hij]; exact hj, AttachedOnly.refl _⟩

theorem objs_append {objs : List (Option Obj)} {y : Option Obj} {j : Nat} {x : Obj} (hj : objs[j]? = some (some x)) :
    (objs ++ [y])[j]? = some (some x) := by
  rw [List.getElem?_append_left]
  · exact hj
  · by_contra hl
    rw [List.getElem?_eq_none (by omega)] at hj
    simp at hj

theorem Ok.attached {R : List Nat} {s s' : Obj × Heap} (K : Ok R s s') : AttachedOnly s.1 s'.1 :=
  ⟨K.kind, K.own, K.grows.vals, K.grows.p1, K.grows.p2⟩

theorem Step.onObj {X Y : List Nat} {c : Cmd} {s : St} (I : SInv X s) {i : Nat} {o : Obj} (hi : s.objs[i]? = some (some o))
    (hY : NoThrowInBlackbox c → Y = []) {t : Obj × Heap} (K : Ok (rest X s i ++ Y) (o, s.heap) t) : Step X c s ⟨t.2, s.objs.set i (some t.1)⟩ :=
  Step.of hY (I.put hi K.inv.wf K.inv.heap) K.keeps (objs_set hi (Or.inr K.attached))

theorem Step.onObj' {X : List Nat} {c : Cmd} {s : St} (I : SInv X s) {i : Nat} {o : Obj} (hi : s.objs[i]? = some (some o)) {t : Obj × Heap}
    (K : Ok (rest X s i) (o, s.heap) t) : Step X c s ⟨t.2, s.objs.set i (some t.1)⟩ :=
  Step.onObj I hi (Y := []) (fun _ => rfl) (by simpa using K)

theorem Step.same {X : List Nat} {c : Cmd} {s : St} (I : SInv X s) : Step X c s s :=
  Step.of' I (Keeps.refl _) fun _ o ho _ => ⟨o, ho, AttachedOnly.refl _⟩

theorem Step.addView {X : List Nat} {c : Cmd} {s : St} (I : SInv X s) {o : Obj} (w : Wf o) (ho : o.own = false) :
    Step X c s ⟨s.heap, s.objs ++ [some o]⟩ :=
  Step.of' (I.addView w ho) (Keeps.refl _) fun _ x hx _ => ⟨x, objs_append hx, AttachedOnly.refl _⟩

/-- All functions on one object. -/
theorem onObj_step {X : List Nat} {c : Cmd} {s : St} (I : SInv X s) {i : Nat} {o : Obj} (hi : s.objs[i]? = some (some o)) {m : M (Obj × Heap) Unit}
    (hm : M.wpx m (o, s.heap) (fun _ t => Ok (rest X s i) (o, s.heap) t) (fun _ t => Ok (rest X s i) (o, s.heap) t)) :
    M.wpx (onObj i m) s (fun _ s' => Step X c s s') (fun _ s' => Step X c s s') := by
  rw [wpx_onObj hi]
  exact M.wpx_mono hm (fun _ t K => Step.onObj' I hi K) (fun _ t K => Step.onObj' I hi K)

/-- An object that is only read. -/
theorem wpx_onObj_same {α : Type} {s : St} {i : Nat} {o : Obj} (hi : s.objs[i]? = some (some o)) {m : M (Obj × Heap) α} {Q : α → St → Prop}
    {E : Err → St → Prop} (hm : M.wpx m (o, s.heap) (fun a t => t = (o, s.heap) ∧ Q a s) (fun e t => t = (o, s.heap) ∧ E e s)) :
    M.wpx (onObj i m) s Q E := by
  rw [wpx_onObj hi]
  refine M.wpx_mono hm ?_ ?_
  · rintro a t ⟨rfl, q⟩
    simpa [set_self hi] using q
  · rintro a t ⟨rfl, q⟩
    simpa [set_self hi] using q

theorem wpx_onObj_get {s : St} {i : Nat} {o : Obj} (hi : s.objs[i]? = some (some o)) {Q : Obj × Heap → St → Prop} {E : Err → St → Prop}
    (hQ : Q (o, s.heap) s) : M.wpx (onObj i M.get) s Q E := wpx_onObj_same hi (by rw [M.wpx_get]; exact ⟨rfl, hQ⟩)

theorem getElem?_set_other {objs : List (Option Obj)} {i j : Nat} {x y : Option Obj} (hi : objs[i]? = some x) (hij : i ≠ j) :
    (objs.set j y)[i]? = some x := by rw [List.getElem?_set_ne (Ne.symm hij)]; exact hi

theorem getElem?_set_this {objs : List (Option Obj)} {i : Nat} {x y : Option Obj} (hi : objs[i]? = some x) : (objs.set i y)[i]? = some y := by
  rw [List.getElem?_set_self]
  by_contra hl
  rw [List.getElem?_eq_none (by omega)] at hi
  simp at hi

/-- A matrix is copied from variable `i` to a matrix in variable `j` (conversions and transposes). -/
theorem copy_step {X : List Nat} {s : St} (I : SInv X s) {i j : Nat} {A B : Obj} (hi : s.objs[i]? = some (some A))
    (hj : s.objs[j]? = some (some B)) (hij : i ≠ j) (hA : Usable s A) (hkA : A.kind = .coo ∨ A.p2 ≠ none) {res : M (Obj × Heap) Unit}
    (hres : M.wpx res (B, s.heap) (fun _ t => Ok (rest X s j) (B, s.heap) t ∧ t.1.own = true ∧ (t.1.kind = .coo ∨ t.1.p2 ≠ none))
      (fun _ t => t = (B, s.heap))) :
    M.wpx (do
      onObj j res
      onObj i (touchMatrix none)
      onObj j (touchMatrix none)) s
      (fun _ s' => ∃ B' h', s' = ⟨h', s.objs.set j (some B')⟩ ∧ SInv X s' ∧ Keeps s.heap h' ∧ AttachedOnly B B') (fun _ s' => s' = s) := by
  rw [M.wpx_bind, wpx_onObj hj]
  refine M.wpx_mono hres ?_ ?_
  · rintro _ ⟨B', h'⟩ ⟨K, ho, hk⟩
    have I' : SInv X ⟨h', s.objs.set j (some B')⟩ := I.put' hj K.inv.wf K.inv.heap
    have hAl : DataLive h' A := K.keeps.dataLive (I.oinv hi hA).live
    rw [M.wpx_bind]
    refine wpx_onObj_same (o := A) (getElem?_set_other hi hij) (wpx_touchMatrix (I.wf i A hi) hAl hkA ⟨rfl, ?_⟩ (fun hc => absurd rfl hc))
    refine wpx_onObj_same (o := B') (getElem?_set_this hj) (wpx_touchMatrix K.inv.wf K.inv.live hk ⟨rfl, ?_⟩ (fun hc => absurd rfl hc))
    exact ⟨B', h', rfl, I', K.keeps, K.attached⟩
  · rintro _ t rfl
    dsimp only
    rw [set_self hj]

theorem readable_kind {s : St} {o : Obj} (h : Readable s o) : o.kind = .coo ∨ o.p2 ≠ none := by
  rcases h.1 with h | h
  · exact Or.inl h
  · exact Or.inr h.2

theorem exec_ok {X : List Nat} {s : St} (I : SInv X s) {c : Cmd} (hc : Valid s c) (he : Elided c) :
    M.wpx (exec c) s (fun _ s' => Step X c s s') (fun _ s' => Step X c s s') := by
  cases c with
  | new k =>
    refine Step.of' (I.add (mkNew_inv I.heap).wf (mkNew_inv I.heap).heap) (Keeps.refl _) fun _ x hx _ => ⟨x, objs_append hx, AttachedOnly.refl _⟩
  | view k st nnz v p q =>
    obtain ⟨-, h1, h2, h3, h4⟩ := hc
    unfold exec
    rw [M.wpx_bind, wpx_onStHeap]
    refine wpx_mkView h1 h3 h4 ?_
    rw [wpx_addObj]
    exact Step.addView I h1 rfl
  | move i =>
    obtain ⟨o, hi, -⟩ := hc
    unfold exec
    rw [M.wpx_bind, wpx_onObj hi]
    unfold moveFrom
    rw [M.wpx_bind, M.wpx_get, M.wpx_bind, M.wpx_set, M.wpx_pure, wpx_addObj]
    dsimp only
    have H := I.hinv hi
    have w' : Wf { o with nnz := if o.kind = .sparse then -1 else 0, vals := none, p1 := none, p2 := none } := by
      intro hn
      dsimp only at hn
      split at hn <;> omega
    have ho' : owned { o with nnz := if o.kind = .sparse then -1 else 0, vals := none, p1 := none, p2 := none } = [] := by
      simp [owned, Obj.ptrs]
    generalize ({ o with nnz := if o.kind = .sparse then -1 else 0, vals := none, p1 := none, p2 := none } : Obj) = o' at w' ho' ⊢
    refine Step.of' (s' := ⟨s.heap, s.objs.set i (some o') ++ [some o]⟩) ⟨?_, ?_⟩ (Keeps.refl _) fun j x hx hr => ?_
    · refine H.perm ?_
      have := (ownedAll_set hi (some o')).symm
      simp only [ownedOpt, ho', List.nil_append] at this
      rw [rest, ← List.append_assoc]
      refine List.Perm.append_right _ ?_
      simp only [ownedAll, List.flatMap_append, List.flatMap_cons, List.flatMap_nil, List.append_nil, ownedOpt] at this ⊢
      exact List.perm_append_comm.trans (this.append_right _)
    · intro j x hj
      rw [List.getElem?_append] at hj
      split at hj
      · by_cases hij : i = j
        · subst hij
          rw [getElem?_set_this hi] at hj
          simp only [Option.some.injEq] at hj
          exact hj ▸ w'
        · rw [List.getElem?_set_ne hij] at hj
          exact I.wf j x hj
      · rw [List.getElem?_singleton] at hj
        split at hj
        · simp only [Option.some.injEq] at hj; exact hj ▸ I.wf i o hi
        · simp at hj
    · have hij : i ≠ j := hr
      exact ⟨x, objs_append (by rw [List.getElem?_set_ne hij]; exact hx), AttachedOnly.refl _⟩
  | destroy i =>
    obtain ⟨o, hi, -⟩ := hc
    unfold exec
    rw [M.wpx_bind]
    refine wpx_onObj_get hi ?_
    rw [M.wpx_bind, M.wpx_modify, wpx_onStHeap]
    have H := I.hinv hi
    refine wpx_destructor H fun h' H' sb => ?_
    refine ⟨⟨[], fun _ => rfl, ?_, ?_⟩, fun hf => absurd trivial hf, ?_, ?_⟩
    · simpa [rest] using H'
    · intro j x hj
      by_cases hij : i = j
      · subst hij
        rw [getElem?_set_this hi] at hj; simp at hj
      · rw [List.getElem?_set_ne hij] at hj
        exact I.wf j x hj
    · intro a b hb hl _
      rw [sb.2 a ?_]
      · exact hb
      · intro hm
        obtain ⟨b', e, f, -⟩ := (H.mem a).mp (List.mem_append_left _ hm)
        rw [hb] at e
        obtain rfl := Option.some.inj e
        rw [hl] at f; simp at f
    · intro j x hj hr
      have hij : i ≠ j := hr
      exact ⟨x, by rw [List.getElem?_set_ne hij]; exact hj, AttachedOnly.refl _⟩
  | fillDense i num =>
    obtain ⟨o, hi, -, hu⟩ := hc
    exact onObj_step I hi (fillDense_ok (I.oinv hi hu) num)
  | fillDenseUnpacked p num flip =>
    obtain ⟨a, rfl, hl⟩ := hc
    unfold exec
    rw [wpx_onStHeap]
    exact wpx_fillDenseUnpacked I.heap hl (fun h' i' k' => Step.of' ⟨i', I.wf⟩ k' fun _ x hx _ => ⟨x, hx, AttachedOnly.refl _⟩) (fun _ _ => Step.same I)
  | sketchDense i pre num mid elide =>
    obtain ⟨o, hi, -, hu⟩ := hc
    obtain rfl : elide = true := he
    unfold exec
    rw [wpx_onObj hi]
    refine M.wpx_mono (sketchDense_ok (I.oinv hi hu) pre num mid) (fun _ t K => Step.onObj' I hi K) ?_
    rintro e t ⟨Y, hY, K⟩
    exact Step.onObj (c := .sketchDense i pre num mid true) I hi hY K
  | fillSparse i num k =>
    obtain ⟨o, hi, -, hu⟩ := hc
    exact onObj_step I hi (fillSparse_ok (I.oinv hi hu) num k)
  | cooViewOfSkop i num k =>
    obtain ⟨o, hi, -, hu⟩ := hc
    unfold exec
    rw [M.wpx_bind, wpx_onObj hi]
    refine M.wpx_mono (cooViewOfSkop_ok (I.oinv hi hu) num k) ?_ (fun _ t K => Step.onObj' I hi K)
    rintro v t ⟨K, hv, hw, -⟩
    rw [wpx_addObj]
    refine Step.of' ((I.put' hi K.inv.wf K.inv.heap).addView hw hv) K.keeps fun j x hx hr => ?_
    obtain ⟨x', h1, h2⟩ := objs_set hi (Or.inr K.attached) j x hx hr
    exact ⟨x', objs_append h1, h2⟩
  | lskges i num mid k =>
    obtain ⟨o, hi, -, hu⟩ := hc
    exact onObj_step I hi (lskges_ok (I.oinv hi hu) num mid k)
  | rskges i num mid k =>
    obtain ⟨o, hi, -, hu⟩ := hc
    exact onObj_step I hi (rskges_ok (I.oinv hi hu) num mid k)
  | reserve i nnz =>
    obtain ⟨o, hi, -⟩ := hc
    unfold exec
    rw [wpx_onObj hi]
    refine M.wpx_mono (reserve_ok (I.hinv hi) (I.wf i o hi) nnz) (fun _ t K => Step.onObj' I hi K.1) ?_
    rintro e t rfl
    dsimp only
    rw [set_self hi]
    exact Step.same I
  | access i mid =>
    obtain ⟨o, hi, hr⟩ := hc
    have O := I.oinv hi hr.2
    exact onObj_step I hi (wpx_touchMatrix O.wf O.live (readable_kind hr) (Ok.refl O) fun _ _ => Ok.refl O)
  | fromDense i nnz =>
    obtain ⟨o, hi, -⟩ := hc
    unfold exec
    rw [wpx_onObj hi, M.wpx_bind]
    refine M.wpx_mono (reserve_ok (I.hinv hi) (I.wf i o hi) nnz) ?_ ?_
    · rintro _ ⟨o', h'⟩ ⟨K, -, hk⟩
      exact wpx_touchMatrix K.inv.wf K.inv.live hk (Step.onObj' I hi K) (fun hc => absurd rfl hc)
    · rintro e t rfl
      dsimp only
      rw [set_self hi]
      exact Step.same I
  | spmm i mid tr scale blocks =>
    obtain ⟨o, hi, hr⟩ := hc
    exact onObj_step I hi (spmm_ok (I.oinv hi hr.2) (readable_kind hr) mid tr scale blocks)
  | cooToCs mid i j =>
    obtain ⟨⟨A, hi, hA, hu⟩, B, hj, hB⟩ := hc
    have hij : i ≠ j := by
      rintro rfl
      rw [hi] at hj
      obtain rfl : A = B := by simpa using hj
      rw [hA] at hB; simp at hB
    have O := I.oinv hi hu
    unfold exec cooToCs
    rw [M.wpx_bind]
    refine wpx_raise (fun _ => ?_) (fun _ _ => Step.same I)
    rw [M.wpx_bind]
    refine wpx_onObj_same hi (wpx_touchMatrix O.wf O.live (Or.inl hA) ⟨rfl, ?_⟩ (fun hc => absurd rfl hc))
    rw [M.wpx_bind]
    refine wpx_onObj_get hi ?_
    refine M.wpx_mono (copy_step I hi hj hij hu (Or.inl hA) (M.wpx_mono (reserveCs_ok (I.hinv hj) (I.wf j B hj) A.nnz)
      (fun _ t K => ⟨K.1, K.2.1, Or.inr K.2.2⟩) (fun _ _ e => e))) ?_ ?_
    · rintro _ _ ⟨B', h', rfl, I', k, ha⟩
      exact Step.of' I' k (objs_set hj (Or.inr ha))
    · rintro _ _ rfl
      exact Step.same I
  | csToCoo mid i j =>
    obtain ⟨⟨A, hi, hA, hr⟩, B, hj, hB⟩ := hc
    have hij : i ≠ j := by
      rintro rfl
      rw [hi] at hj
      obtain rfl : A = B := by simpa using hj
      exact hA hB
    unfold exec csToCoo
    rw [M.wpx_bind]
    refine wpx_raise (fun _ => ?_) (fun _ _ => Step.same I)
    rw [M.wpx_bind]
    refine wpx_onObj_get hi ?_
    refine M.wpx_mono (copy_step I hi hj hij hr.2 (readable_kind hr) (M.wpx_mono (reserveCoo_ok (I.hinv hj) (I.wf j B hj) A.nnz)
      (fun _ t K => ⟨K.1, K.2, Or.inl (K.1.kind.trans hB)⟩) (fun _ _ e => e))) ?_ ?_
    · rintro _ _ ⟨B', h', rfl, I', k, ha⟩
      exact Step.of' I' k (objs_set hj (Or.inr ha))
    · rintro _ _ rfl
      exact Step.same I
  | transposeCoo i =>
    obtain ⟨A, hi, -⟩ := hc
    have w := I.wf i A hi
    unfold exec transposeCoo
    rw [M.wpx_bind]
    refine wpx_onObj_get hi ?_
    rw [M.wpx_bind, wpx_onStHeap]
    unfold mkView
    rw [M.wpx_bind, M.wpx_when]
    refine ⟨fun hc => by simp at hc, fun _ => ?_⟩
    rw [M.wpx_pure, wpx_addObj]
    exact Step.addView I (fun hn => ⟨(w hn).1, (w hn).2.2, (w hn).2.1⟩) rfl
  | transposeCs share i =>
    obtain ⟨A, hi, hk, hr⟩ := hc
    have w := I.wf i A hi
    unfold exec transposeCs
    rw [M.wpx_bind]
    refine wpx_onObj_get hi ?_
    dsimp only
    cases share with
    | true =>
      rw [if_pos rfl, M.wpx_bind, wpx_onStHeap]
      unfold mkView
      rw [M.wpx_bind, M.wpx_when]
      refine ⟨fun hc => by simp at hc, fun _ => ?_⟩
      rw [M.wpx_pure, wpx_addObj]
      exact Step.addView I w rfl
    | false =>
      have hr := hr rfl
      rw [if_neg (by simp), M.wpx_bind, wpx_addObj, M.wpx_bind, M.wpx_get]
      generalize hkk : (if A.kind = Kind.csc then Kind.csr else Kind.csc) = kk
      have I' : SInv X ⟨s.heap, s.objs ++ [some (mkNew kk)]⟩ := I.add (mkNew_inv I.heap).wf (mkNew_inv I.heap).heap
      have hl : (s.objs ++ [some (mkNew kk)]).length - 1 = s.objs.length := by simp
      dsimp only
      rw [hl]
      have hj : (s.objs ++ [some (mkNew kk)])[s.objs.length]? = some (some (mkNew kk)) := by simp
      have hlt : i < s.objs.length := by
        by_contra hc
        rw [List.getElem?_eq_none (by omega)] at hi
        simp at hi
      refine M.wpx_mono (copy_step I' (i := i) (A := A) (objs_append hi) hj (by omega) hr.2 (readable_kind hr)
        (M.wpx_mono (reserveCs_ok (I'.hinv hj) (I'.wf _ _ hj) A.nnz) (fun _ t K => ⟨K.1, K.2.1, Or.inr K.2.2⟩) (fun _ _ e => e))) ?_ ?_
      · rintro _ _ ⟨B', h', rfl, I2, k, ha⟩
        refine Step.of' I2 k fun m x hx hrm => ?_
        exact objs_set hj (Or.inr ha) m x (objs_append hx) hrm
      · rintro _ _ rfl
        exact Step.of' I' (Keeps.refl _) fun m x hx _ => ⟨x, objs_append hx, AttachedOnly.refl _⟩
  | userNew =>
    refine Step.of' (s' := ⟨s.heap ++ [⟨false, 0⟩], s.objs⟩) ⟨I.heap.userNew, I.wf⟩ (Keeps.append _ _) fun _ x hx _ => ⟨x, hx, AttachedOnly.refl _⟩
  | userDelete a =>
    obtain ⟨b, hb, hl, hf⟩ := hc
    have hlt : a < s.heap.length := by
      by_contra hc
      rw [List.getElem?_eq_none (by omega)] at hb
      simp at hb
    unfold exec
    rw [wpx_onStHeap]
    unfold M.wpx deleteArray
    simp only [hb, hf, if_true]
    refine ⟨⟨[], fun _ => rfl, ⟨by simpa using I.heap.nodup, fun x => ?_, ?_⟩, I.wf⟩, fun hf => absurd trivial hf, ?_, ?_⟩
    · have hm := I.heap.mem x
      simp only [List.append_nil]
      rw [hm]
      by_cases hx : x = a
      · subst hx
        rw [List.getElem?_set_self hlt, hb]
        simp [hl]
      · rw [List.getElem?_set_ne (Ne.symm hx)]
    · intro c hc
      rcases List.mem_or_eq_of_mem_set hc with hc | rfl
      · exact I.heap.frees c hc
      · simp
    · intro x c hx _ hne
      have : a ≠ x := by rintro rfl; exact hne rfl
      dsimp only
      rw [List.getElem?_set_ne this]; exact hx
    · exact fun _ x hx _ => ⟨x, hx, AttachedOnly.refl _⟩
  | attachDense i p =>
    obtain ⟨⟨o, hi, hk, ho⟩, hp⟩ := hc
    unfold exec
    rw [wpx_onObj hi, M.wpx_modify]
    have H : HInv (rest X s i) s.heap := by
      have := I.hinv hi
      have e : owned o = [] := by
        unfold owned
        split
        · rename_i h1
          have := ho h1
          rw [List.filterMap_eq_nil_iff]
          exact this
        · rfl
      rwa [e] at this
    refine Step.of' (I.put' hi (fun hn => ?_) (by rw [owned_view rfl]; exact H)) (Keeps.refl _) (objs_set hi (Or.inl rfl))
    simp at hn

theorem wpx_run {s : St} {c : Cmd} {P : St → Prop} (h : M.wpx (exec c) s (fun _ => P) (fun _ => P)) (cs : List Cmd) :
    ∃ s', run [c] s = some s' ∧ P s' ∧ run (c :: cs) s = run cs s' := by
  unfold M.wpx at h
  rcases hm : exec c s with ⟨r, s'⟩
  rw [hm] at h
  cases r with
  | ok u => exact ⟨s', by simp [run, hm], h, by simp [run, hm]⟩
  | throw e => exact ⟨s', by simp [run, hm], h, by simp [run, hm]⟩
  | ub => exact h.elim

theorem run_ok {X : List Nat} {s : St} (I : SInv X s) {cs : List Cmd} (hv : ValidRun cs s) (he : ∀ c ∈ cs, Elided c) :
    ∃ s', run cs s = some s' ∧ (∃ Y, ((∀ c ∈ cs, NoThrowInBlackbox c) → Y = []) ∧ SInv (X ++ Y) s') ∧
      ∀ (a : Nat) (b : Block), s.heap[a]? = some b → b.lib = false → Cmd.userDelete a ∉ cs → s'.heap[a]? = some b := by
  induction cs generalizing s X with
  | nil => exact ⟨s, rfl, ⟨[], fun _ => rfl, by simpa using I⟩, fun _ _ h _ _ => h⟩
  | cons c cs ih =>
    obtain ⟨h1, h2⟩ := hv
    obtain ⟨s1, e1, S, e2⟩ := wpx_run (exec_ok I h1 (he c List.mem_cons_self)) cs
    obtain ⟨Y, hY, I1⟩ := S.inv
    obtain ⟨s2, e3, ⟨Z, hZ, I2⟩, hu⟩ := ih I1 (h2 s1 e1) fun d hd => he d (List.mem_cons_of_mem _ hd)
    refine ⟨s2, e2.trans e3, ⟨Y ++ Z, fun hn => ?_, by simpa using I2⟩, fun a b hb hl hd => ?_⟩
    · rw [hY (hn c List.mem_cons_self), hZ fun d hd => hn d (List.mem_cons_of_mem _ hd)]; rfl
    · refine hu a b (S.user a b hb hl ?_) hl fun hm => hd (List.mem_cons_of_mem _ hm)
      rintro rfl
      exact hd List.mem_cons_self

theorem start_inv : SInv [] St.start := by
  refine ⟨⟨by simp [ownedAll, St.start], fun a => by simp [ownedAll, St.start], by simp [St.start]⟩, fun i o h => by simp [St.start] at h⟩

theorem run_append (cs ds : List Cmd) (s : St) : run (cs ++ ds) s = (run cs s).bind (run ds) := by
  induction cs generalizing s with
  | nil => rfl
  | cons c cs ih =>
    simp only [List.cons_append, run]
    split
    · rfl
    · exact ih _

theorem validRun_append {cs ds : List Cmd} {s : St} (h : ValidRun (cs ++ ds) s) : ValidRun cs s ∧ ∀ s', run cs s = some s' → ValidRun ds s' := by
  induction cs generalizing s with
  | nil => exact ⟨trivial, fun s' e => by simp only [run, Option.some.injEq] at e; exact e ▸ h⟩
  | cons c cs ih =>
    obtain ⟨h1, h2⟩ := h
    refine ⟨⟨h1, fun s' e => (ih (h2 s' e)).1⟩, fun s' e => ?_⟩
    rcases hm : exec c s with ⟨r, s1⟩
    have : run [c] s = some s1 ∧ run cs s1 = some s' := by
      simp only [run, hm] at e ⊢
      cases r with
      | ub => simp at e
      | ok u => exact ⟨rfl, e⟩
      | throw u => exact ⟨rfl, e⟩
    exact (ih (h2 s1 this.1)).2 s' this.2

/-- C43, safety: no valid history has undefined behaviour (no access through null pointers or to freed arrays, no double deletion), whatever
exceptions are raised on the way, and no array is freed twice. -/
theorem C43_safe {cs : List Cmd} (hv : ValidRun cs St.start) (he : ∀ c ∈ cs, Elided c) :
    ∃ s, run cs St.start = some s ∧ ∀ b ∈ s.heap, b.frees ≤ 1 := by
  obtain ⟨s, e, ⟨Y, -, I⟩, -⟩ := run_ok start_inv hv he
  exact ⟨s, e, I.heap.frees⟩

/-- C43, no leak: when all objects have been destroyed, every array that the library has allocated has been freed exactly once. (Partial: without
exceptions inside `submatrix_as_blackbox`; see `C43_leak_counterexample`.) -/
theorem C43_no_leak_partial {cs : List Cmd} (hv : ValidRun cs St.start) (he : ∀ c ∈ cs, Elided c) (hn : ∀ c ∈ cs, NoThrowInBlackbox c) {s : St}
    (hs : run cs St.start = some s) (hd : ∀ o ∈ s.objs, o = none) : ∀ b ∈ s.heap, b.lib = true → b.frees = 1 := by
  obtain ⟨s', e, ⟨Y, hY, I⟩, -⟩ := run_ok start_inv hv he
  rw [hs] at e
  obtain rfl := Option.some.inj e
  rw [hY hn] at I
  intro b hb hl
  have h0 : ownedAll s.objs = [] := by
    rw [ownedAll, List.flatMap_eq_nil_iff]
    intro x hx
    rw [hd x hx]; rfl
  obtain ⟨a, ha, e⟩ := List.getElem_of_mem hb
  have := (I.heap.mem a).mpr.mt (by simp [h0])
  have h1 := I.heap.frees b hb
  by_contra hc
  exact this ⟨b, by rw [List.getElem?_eq_getElem ha, e], hl, by omega⟩

/-- C43, while objects live: the library's arrays that have not been freed are exactly those of the living objects that own memory, and each has one
owner. -/
theorem C43_owners_partial {cs : List Cmd} (hv : ValidRun cs St.start) (he : ∀ c ∈ cs, Elided c) (hn : ∀ c ∈ cs, NoThrowInBlackbox c) {s : St}
    (hs : run cs St.start = some s) (a : Nat) (b : Block) (hb : s.heap[a]? = some b) (hl : b.lib = true) :
    b.frees = 0 ↔ ∃ (i : Nat) (o : Obj), s.objs[i]? = some (some o) ∧ o.own = true ∧ some a ∈ o.ptrs := by
  obtain ⟨s', e, ⟨Y, hY, I⟩, -⟩ := run_ok start_inv hv he
  rw [hs] at e
  obtain rfl := Option.some.inj e
  rw [hY hn] at I
  have h1 : a ∈ ownedAll s.objs ↔ b.frees = 0 := by
    have := I.heap.mem a
    simp only [List.append_nil, List.nil_append] at this
    rw [this, hb]
    simp [hl]
  rw [← h1, ownedAll, List.mem_flatMap]
  constructor
  · rintro ⟨x, hx, ha⟩
    cases x with
    | none => simp [ownedOpt] at ha
    | some o =>
      obtain ⟨i, hi, e⟩ := List.getElem_of_mem hx
      refine ⟨i, o, by rw [List.getElem?_eq_getElem hi, e], ?_⟩
      simp only [ownedOpt, owned] at ha
      split at ha
      · rename_i ho
        exact ⟨ho, mem_ptrs.mp ha⟩
      · simp at ha
  · rintro ⟨i, o, hi, ho, ha⟩
    refine ⟨some o, List.mem_of_getElem? hi, ?_⟩
    simp only [ownedOpt, owned, ho, if_true]
    exact mem_ptrs.mpr ha

/-- C43, the user's arrays: the library never frees (or otherwise changes the state of) an array allocated by the user. -/
theorem C43_user_arrays {cs ds : List Cmd} (hv : ValidRun (cs ++ ds) St.start) (he : ∀ c ∈ cs ++ ds, Elided c) {s t : St}
    (hs : run cs St.start = some s) (ht : run (cs ++ ds) St.start = some t) {a : Nat} {b : Block} (hb : s.heap[a]? = some b) (hl : b.lib = false)
    (hd : Cmd.userDelete a ∉ ds) : t.heap[a]? = some b := by
  obtain ⟨v1, v2⟩ := validRun_append hv
  obtain ⟨s', e, ⟨Y, -, I⟩, -⟩ := run_ok start_inv v1 fun c hc => he c (List.mem_append_left _ hc)
  rw [hs] at e
  obtain rfl := Option.some.inj e
  obtain ⟨t', e', -, hu⟩ := run_ok I (v2 s hs) fun c hc => he c (List.mem_append_right _ hc)
  rw [run_append, hs, Option.bind_some, e'] at ht
  obtain rfl := Option.some.inj ht
  exact hu a b hb hl hd

/-- C52, deallocation: only destructors free memory. A command other than the destruction of an object (or the user's `delete []`) changes none of
the arrays that exist when it starts. -/
theorem C52_free {cs : List Cmd} {c : Cmd} (hv : ValidRun (cs ++ [c]) St.start) (he : ∀ d ∈ cs ++ [c], Elided d) {s t : St}
    (hs : run cs St.start = some s) (ht : run (cs ++ [c]) St.start = some t) (hc : ¬ Frees c) {a : Nat} {b : Block} (hb : s.heap[a]? = some b) :
    t.heap[a]? = some b := by
  obtain ⟨v1, v2⟩ := validRun_append hv
  obtain ⟨s', e, ⟨Y, -, I⟩, -⟩ := run_ok start_inv v1 fun c hc => he c (List.mem_append_left _ hc)
  rw [hs] at e
  obtain rfl := Option.some.inj e
  obtain ⟨s1, e1, S, e2⟩ := wpx_run (exec_ok I (v2 s hs).1 (he c (by simp))) []
  rw [run_append, hs, Option.bind_some, e1] at ht
  obtain rfl := Option.some.inj ht
  exact S.keeps hc a b hb

/-- C52, allocation: the library overwrites a pointer of an object only if it is null and the object owns its memory, and never changes `own_memory`. -/
theorem C52_attach {cs : List Cmd} {c : Cmd} (hv : ValidRun (cs ++ [c]) St.start) (he : ∀ d ∈ cs ++ [c], Elided d) {s t : St}
    (hs : run cs St.start = some s) (ht : run (cs ++ [c]) St.start = some t) {i : Nat} {o : Obj} (hi : s.objs[i]? = some (some o))
    (hc : ¬ Reassigns i c) : ∃ o', t.objs[i]? = some (some o') ∧ AttachedOnly o o' := by
  obtain ⟨v1, v2⟩ := validRun_append hv
  obtain ⟨s', e, ⟨Y, -, I⟩, -⟩ := run_ok start_inv v1 fun c hc => he c (List.mem_append_left _ hc)
  rw [hs] at e
  obtain rfl := Option.some.inj e
  obtain ⟨s1, e1, S, e2⟩ := wpx_run (exec_ok I (v2 s hs).1 (he c (by simp))) []
  rw [run_append, hs, Option.bind_some, e1] at ht
  obtain rfl := Option.some.inj ht
  exact S.objs i o hi hc

/-- The hypothesis `Elided` is needed: C++ allows, but does not require, that the copy of the result of `submatrix_as_blackbox` is elided. Without it,
every product with a dense operator that has not been filled uses an array after it has been freed. -/
theorem C43_elision_counterexample :
    ∃ cs, ValidRun cs St.start ∧ (∀ c ∈ cs, NoThrowInBlackbox c) ∧ run cs St.start = none := by
  refine ⟨[.new .dense, .sketchDense 0 none none none false], ⟨trivial, fun s hs => ?_⟩, by simp [NoThrowInBlackbox], rfl⟩
  have : s = ⟨[], [some (mkNew .dense)]⟩ := (Option.some.inj hs).symm
  subst this
  refine ⟨⟨mkNew .dense, rfl, rfl, fun h => ?_⟩, fun s' hs' => trivial⟩
  simp [mkNew] at h

/-- An exception in `fill_dense_unpacked`, called by `submatrix_as_blackbox`, leaks an array: after the end of all objects there is an array that has not
been freed. -/
theorem C43_leak_counterexample : ∃ cs s, ValidRun cs St.start ∧ (∀ c ∈ cs, Elided c) ∧ run cs St.start = some s ∧ (∀ o ∈ s.objs, o = none) ∧
    ∃ b ∈ s.heap, b.lib = true ∧ b.frees = 0 := by
  refine ⟨[.new .dense, .sketchDense 0 none (some .overflow) none true, .destroy 0], ⟨[⟨true, 0⟩], [none]⟩, ⟨trivial, fun s hs => ?_⟩, by simp [Elided], rfl,
    by simp, ⟨true, 0⟩, by simp, rfl, rfl⟩
  have : s = ⟨[], [some (mkNew .dense)]⟩ := (Option.some.inj hs).symm
  subst this
  refine ⟨⟨mkNew .dense, rfl, rfl, fun h => by simp [mkNew] at h⟩, fun s' hs' => ?_⟩
  have : s' = ⟨[⟨true, 0⟩], [some (mkNew .dense)]⟩ := (Option.some.inj hs').symm
  subst this
  exact ⟨⟨mkNew .dense, rfl, trivial⟩, fun _ _ => trivial⟩

/-- This exception can occur: there is an operator, accepted by the constructors of `DenseDist` and `DenseSkOp`, and a 1 x 1 window inside it for which
`fill_dense_unpacked` raises an overflow error after `submatrix_as_blackbox` has checked the window and allocated the array. -/
theorem C43_leak_reachable {N : Nat} {K W T : Type} [Mul T] (sched : List Nat) (G : Gen N K W T) (sqrt3 : T) (seed : RNGState N K) :
    ∃ D S, mkDenseDist (2 ^ 32) (2 ^ 32) .Gaussian .Long = .ok D ∧ mkDenseSkOp (T := T) 4 D seed = .ok S ∧
      0 + 1 ≤ S.nRows ∧ 2 ^ 31 + 1 ≤ S.nCols ∧ RB.submatrixAsBlackbox sched G sqrt3 S 1 1 0 (2 ^ 31) = .throw .overflow := by
  refine ⟨_, _, rfl, rfl, by simp, by simp, ?_⟩
  rfl

/-- The condition on CSC and CSR matrices in `Readable` is needed: a newly constructed matrix has no pointer array, although it has valid dimensions and
`nnz = 0`; converting it to a dense matrix, or multiplying by it, dereferences a null pointer. -/
theorem C43_unreserved_counterexample : run [.new .csc, .access 0 none] St.start = none ∧ run [.new .csr, .spmm 0 none false false false] St.start = none ∧
    (run [.new .coo, .access 0 none] St.start).isSome = true := ⟨rfl, rfl, rfl⟩

/-- The array at `a` has been freed. -/
def Gone (a : Nat) (h : Heap) : Prop := ∃ b, h[a]? = some b ∧ b.frees ≠ 0

theorem delete_gone {a : Nat} {h : Heap} (hg : Gone a h) : (deleteArray (some a) h).1 = .ub := by
  obtain ⟨b, hb, hf⟩ := hg
  simp only [deleteArray, hb, if_neg hf]

theorem delete_keeps_gone {a : Nat} {h : Heap} (hg : Gone a h) (p : Ptr) : (deleteArray p h).1 = .ub ∨ ∃ h', deleteArray p h = (.ok (), h') ∧ Gone a h' := by
  cases p with
  | none => exact Or.inr ⟨h, rfl, hg⟩
  | some c =>
    simp only [deleteArray]
    cases hc : h[c]? with
    | none => exact Or.inl rfl
    | some b =>
      by_cases hf : b.frees = 0
      · refine Or.inr ⟨h.set c { b with frees := b.frees + 1 }, by simp only [if_pos hf], ?_⟩
        obtain ⟨b', hb', hf'⟩ := hg
        have hne : c ≠ a := fun e => by subst e; rw [hc] at hb'; cases hb'; exact hf' hf
        exact ⟨b', by rw [List.getElem?_set_ne hne]; exact hb', hf'⟩
      · exact Or.inl (by simp only [if_neg hf])

theorem bind_ub {σ α β : Type} {m : M σ α} {f : α → M σ β} {s : σ} (h : (m s).1 = .ub) : ((m >>= f) s).1 = .ub := by
  show ((M.bind m f) s).1 = .ub
  unfold M.bind
  rcases hm : m s with ⟨r, t⟩
  rw [hm] at h
  simp only at h
  subst h
  rfl

theorem destructor_gone {a : Nat} {h : Heap} (hg : Gone a h) {o : Obj} (ho : o.own = true) (hp : some a ∈ o.ptrs) : (destructor o h).1 = .ub := by
  unfold destructor M.when
  rw [if_pos ho]
  by_cases e1 : (deleteArray o.vals h).1 = .ub
  · exact bind_ub e1
  obtain ⟨h1, f1, g1⟩ := (delete_keeps_gone hg o.vals).resolve_left e1
  rw [M.bind_ok f1]
  by_cases e2 : (deleteArray o.p1 h1).1 = .ub
  · exact bind_ub e2
  obtain ⟨h2, f2, g2⟩ := (delete_keeps_gone g1 o.p1).resolve_left e2
  rw [M.bind_ok f2]
  have n1 : o.vals ≠ some a := fun e => e1 (by rw [e]; exact delete_gone hg)
  have n2 : o.p1 ≠ some a := fun e => e2 (by rw [e]; exact delete_gone g1)
  have : o.p2 = some a := by
    simp only [Obj.ptrs, List.mem_cons, List.not_mem_nil, or_false] at hp
    rcases hp with e | e | e
    · exact absurd e.symm n1
    · exact absurd e.symm n2
    · exact e.symm
  rw [this]
  exact delete_gone g2

/-- The restriction of `userDelete` to arrays of the user is needed: whatever happened before, freeing an array that an object owns makes the end of the object undefined. -/
theorem C43_delete_owned_undefined {cs : List Cmd} {s : St} (hs : run cs St.start = some s) {i a : Nat} {o : Obj} (hi : s.objs[i]? = some (some o)) (ho : o.own = true)
    (hp : some a ∈ o.ptrs) : run (cs ++ [.userDelete a, .destroy i]) St.start = none := by
  rw [run_append, hs, Option.bind_some]
  have hz : ∀ (m : M Heap Unit) (t : St), onStHeap m t = ((m t.heap).1, ⟨(m t.heap).2, t.objs⟩) := fun m t => rfl
  have step : ∀ {c : Cmd} {ds : List Cmd} {t : St}, (exec c t).1 = .ub → run (c :: ds) t = none := by
    intro c ds t h
    rcases hm : exec c t with ⟨r, t'⟩
    rw [hm] at h
    simp only at h
    subst h
    simp only [run, hm]
  cases hb : s.heap[a]? with
  | none =>
    refine step ?_
    rw [show exec (.userDelete a) s = onStHeap (deleteArray (some a)) s from rfl, hz]; simp only [deleteArray, hb]
  | some b =>
    by_cases hf : b.frees = 0
    · have e : exec (.userDelete a) s = (.ok (), ⟨s.heap.set a { b with frees := b.frees + 1 }, s.objs⟩) := by
        rw [show exec (.userDelete a) s = onStHeap (deleteArray (some a)) s from rfl, hz]; simp only [deleteArray, hb, if_pos hf]
      have : run (.userDelete a :: [.destroy i]) s = run [.destroy i] ⟨s.heap.set a { b with frees := b.frees + 1 }, s.objs⟩ := by
        conv_lhs => unfold run
        rw [e]
      rw [this]
      refine step ?_
      have hg : Gone a (s.heap.set a { b with frees := b.frees + 1 }) := by
        refine ⟨{ b with frees := b.frees + 1 }, ?_, by simp⟩
        rw [List.getElem?_set_self]
        by_contra hl
        rw [List.getElem?_eq_none (by omega)] at hb
        cases hb
      set t : St := ⟨s.heap.set a { b with frees := b.frees + 1 }, s.objs⟩ with ht
      have e1 : onObj i (M.get : M (Obj × Heap) (Obj × Heap)) t = (.ok (o, t.heap), ⟨t.heap, t.objs.set i (some o)⟩) := by
        unfold onObj
        rw [show t.objs[i]? = some (some o) from hi]
        rfl
      simp only [exec]
      rw [M.bind_ok e1, M.bind_ok (show M.modify (fun s : St => ⟨s.heap, s.objs.set i none⟩) _ = (.ok (), _) from rfl), hz]
      exact destructor_gone hg ho hp
    · refine step ?_
      rw [show exec (.userDelete a) s = onStHeap (deleteArray (some a)) s from rfl, hz]; simp only [deleteArray, hb, if_neg hf]

/-- For example a COO matrix whose arrays have been allocated. -/
example : ∃ s o, run [.new .coo, .reserve 0 3] St.start = some s ∧ s.objs[0]? = some (some o) ∧ o.own = true ∧ some 1 ∈ o.ptrs :=
  ⟨_, _, rfl, rfl, rfl, by decide⟩
/-- A history with all kinds of objects, moves, views, exceptions and arrays of the user. -/
def sample : List Cmd :=
  [.new .sparse, .fillSparse 0 none 6, .cooViewOfSkop 0 none 6, .lskges 0 none (some .require) 6, .move 0,
   .new .csc, .cooToCs none 1 3, .transposeCs false 3, .spmm 4 none true true true,
   .new .dense, .sketchDense 5 none none (some .require) true, .fillDense 5 none, .userNew, .fillDenseUnpacked (some 13) none true, .userDelete 13,
   .destroy 1, .destroy 2, .destroy 0, .destroy 3, .destroy 4, .destroy 5]

/-- Validity of a history can be checked by running it. -/
theorem validRun_step {c : Cmd} {cs : List Cmd} {s s' : St} (h : run [c] s = some s') (hv : Valid s c) (hr : ValidRun cs s') : ValidRun (c :: cs) s :=
  ⟨hv, fun t ht => by rw [h] at ht; obtain rfl := Option.some.inj ht; exact hr⟩

theorem usable_of_own {s : St} {o : Obj} (h : o.own = true) : Usable s o := fun hc => by rw [h] at hc; simp at hc

/-- The theorems apply to this history, and it ends without objects. -/
theorem sample_valid : ValidRun sample St.start ∧ (∀ c ∈ sample, Elided c) ∧ (∀ c ∈ sample, NoThrowInBlackbox c) := by
  refine ⟨?_, by simp [sample, Elided], by simp [sample, NoThrowInBlackbox]⟩
  unfold sample
  iterate 21
    refine validRun_step rfl (by first
      | exact trivial
      | exact ⟨_, rfl, trivial⟩
      | exact ⟨_, rfl, rfl, usable_of_own rfl⟩
      | exact ⟨_, rfl, Or.inr ⟨Or.inr rfl, Option.some_ne_none _⟩, usable_of_own rfl⟩
      | exact ⟨_, rfl, Or.inl rfl, fun _ => ⟨Or.inr ⟨Or.inl rfl, Option.some_ne_none _⟩, usable_of_own rfl⟩⟩
      | exact ⟨_, rfl, ⟨_, rfl, rfl⟩⟩
      | exact ⟨_, rfl, rfl, rfl⟩
      | exact ⟨⟨_, rfl, rfl, fun _ => dataLive_iff.mpr ⟨fun a ha => ⟨_, by injection ha with ha; subst ha; rfl, rfl⟩,
          fun a ha => ⟨_, by injection ha with ha; subst ha; rfl, rfl⟩, fun a ha => ⟨_, by injection ha with ha; subst ha; rfl, rfl⟩⟩⟩, _, rfl, Or.inl rfl⟩) ?_
  trivial

example : ∃ s, run sample St.start = some s ∧ (∀ b ∈ s.heap, b.frees ≤ 1) := C43_safe sample_valid.1 sample_valid.2.1

example : ∃ s, run sample St.start = some s ∧ s.heap.length = 15 ∧ (∀ o ∈ s.objs, o = none) ∧ ∀ b ∈ s.heap, b.lib = true → b.frees = 1 :=
  ⟨_, rfl, rfl, by decide, C43_no_leak_partial sample_valid.1 sample_valid.2.1 sample_valid.2.2 rfl (by decide)⟩

end RB.Mem
