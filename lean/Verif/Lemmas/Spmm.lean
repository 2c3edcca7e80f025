import Verif.Core.ProgWp
import Verif.Spec.Spmm
import Verif.Lemmas.Mat
import Verif.Lemmas.Convert

/-! # Lemmas about the sparse matrix product kernels -/

namespace RB
open Spec Prog

variable {T : Type}

/-- The cells `ad i`, for `i` in `S`, contain `X i`. -/
def CellSt {ι : Type} (S : ι → Prop) (ad : ι → Int) (X : ι → T) (b : Buf T) : Prop := ∀ i, S i → b (ad i) = .val (X i)

/-- Different members of `S` have different addresses. -/
def InjS {ι : Type} (S : ι → Prop) (ad : ι → Int) : Prop := ∀ i j, S i → S j → ad i = ad j → i = j

theorem CellSt.congr {ι : Type} {S : ι → Prop} {ad : ι → Int} {X Y : ι → T} {b : Buf T} (h : CellSt S ad X b) (hXY : ∀ i, S i → X i = Y i) :
    CellSt S ad Y b := fun i hi => by rw [h i hi, hXY i hi]

theorem addTo_spec {ι : Type} [DecidableEq ι] [Add T] {F : Int → Prop} {S : ι → Prop} {ad : ι → Int} {X : ι → T} {b : Buf T} {r : ι} {x : T}
    (h : CellSt S ad X b) (hinj : InjS S ad) (hr : S r) (hF : F (ad r)) :
    wpF F (addTo (ad r) x) b (fun _ b' => CellSt S ad (fun i => if i = r then X i + x else X i) b') := by
  unfold addTo
  rw [wpF_bind, wpF_load]
  refine ⟨hF, X r, h r hr, ?_⟩
  rw [wpF_store]
  refine ⟨hF, by rw [h r hr]; simp, ?_⟩
  intro i hi
  by_cases he : i = r
  · subst he; simp
  · rw [Buf.set_ne (fun h0 => he (hinj i r hi hr h0)), h i hi]; simp only [if_neg he]

theorem progAxpy_spec [Add T] [Mul T] {F : Int → Prop} {S : Int × Int → Prop} {ad : Int × Int → Int} {X : Int × Int → T} {b : Buf T} {n : Int}
    {a : T} {xb : Buf T} {x0 i : Int} {x : Int → T} {y : Int} (hn : 0 ≤ n) (h : CellSt S ad X b) (hinj : InjS S ad)
    (hS : ∀ j, 0 ≤ j → j < n → S (i, j)) (hF : ∀ j, 0 ≤ j → j < n → F (ad (i, j))) (hy : ∀ j, y + j = ad (i, j))
    (hx : ∀ j, 0 ≤ j → j < n → xb (x0 + j) = .val (x j)) :
    wpF F (progAxpy n a xb x0 y) b
      (fun _ b' => CellSt S ad (fun q => if q.1 = i ∧ 0 ≤ q.2 ∧ q.2 < n then X q + a * x q.2 else X q) b') := by
  unfold progAxpy
  rw [wpF_bind, wpF_lift]
  refine ⟨(), by rw [if_pos hn], ?_⟩
  refine wpF_forI (fun l b' => CellSt S ad (fun q => if q.1 = i ∧ 0 ≤ q.2 ∧ q.2 < l then X q + a * x q.2 else X q) b') hn ?_ ?_ ?_
  · refine h.congr fun q _ => ?_
    rw [if_neg (by omega)]
  · intro l b' l0 l1 hb'
    rw [wpF_bind, wpF_lift]
    refine ⟨_, Buf.rd_val (hx l l0 l1), ?_⟩
    rw [hy l]
    refine wpF_mono (addTo_spec hb' hinj (hS l l0 l1) (hF l l0 l1)) ?_
    intro _ b'' hb''
    refine hb''.congr fun q _ => ?_
    obtain ⟨q1, q2⟩ := q
    simp only [Prod.mk.injEq]
    by_cases hq : q1 = i ∧ q2 = l
    · obtain ⟨rfl, rfl⟩ := hq
      rw [if_pos ⟨rfl, rfl⟩, if_neg (by omega), if_pos (by omega)]
    · rw [if_neg hq]
      by_cases hq' : q1 = i ∧ 0 ≤ q2 ∧ q2 < l
      · rw [if_pos hq', if_pos (by omega)]
      · rw [if_neg hq', if_neg (by omega)]
  · intro b' hb'; exact hb'

section acc
variable [Add T]

theorem acc_nil (w : Entry T → T) (i : Int) (x : T) : acc [] w i x = x := rfl

theorem acc_push {E : List (Entry T)} (w : Entry T → T) (i : Int) (x : T) {l : Nat} (hl : l < E.length) :
    acc (E.take (l + 1)) w i x = if i = E[l].row then acc (E.take l) w i x + w E[l] else acc (E.take l) w i x := by
  rw [← List.take_append_getElem hl]
  unfold acc
  rw [List.foldl_append]
  simp only [List.foldl_cons, List.foldl_nil]
  by_cases h : E[l].row = i
  · rw [if_pos h, if_pos h.symm]
  · rw [if_neg h, if_neg (fun h0 => h h0.symm)]

theorem acc_append (E E' : List (Entry T)) (w : Entry T → T) (i : Int) (x : T) : acc (E ++ E') w i x = acc E' w i (acc E w i x) := by
  unfold acc; rw [List.foldl_append]

theorem acc_none {E : List (Entry T)} {w : Entry T → T} {i : Int} {x : T} (h : ∀ e ∈ E, e.row ≠ i) : acc E w i x = x := by
  induction E using List.reverseRecOn with
  | nil => rfl
  | append_singleton E e ih =>
    rw [acc_append, ih (fun e he => h e (by simp [he]))]
    unfold acc
    simp [h e (by simp)]

theorem acc_congr {E : List (Entry T)} {w w' : Entry T → T} {i : Int} {x : T} (h : ∀ e ∈ E, e.row = i → w e = w' e) :
    acc E w i x = acc E w' i x := by
  induction E using List.reverseRecOn with
  | nil => rfl
  | append_singleton E e ih =>
    rw [acc_append, acc_append, ih (fun e he => h e (by simp [he]))]
    unfold acc
    simp only [List.foldl_cons, List.foldl_nil]
    by_cases hr : e.row = i
    · rw [if_pos hr, if_pos hr, h e (by simp) hr]
    · rw [if_neg hr, if_neg hr]

theorem acc_map (E : List (Entry T)) (f : Entry T → Entry T) (hf : ∀ e, (f e).row = e.row) (w : Entry T → T) (i : Int) (x : T) :
    acc (E.map f) w i x = acc E (fun e => w (f e)) i x := by
  unfold acc
  rw [List.foldl_map]
  simp only [hf]

end acc

/-- The same entries with other values. -/
def mapVals (f : T → T) (E : List (Entry T)) : List (Entry T) := E.map fun e => { e with val := f e.val }

@[simp] theorem mapVals_length (f : T → T) (E : List (Entry T)) : (mapVals f E).length = E.length := by simp [mapVals]

theorem mapVals_getElem (f : T → T) (E : List (Entry T)) {l : Nat} (h : l < (mapVals f E).length) :
    (mapVals f E)[l] = { E[l]'(by simpa using h) with val := f (E[l]'(by simpa using h)).val } := by
  simp [mapVals]

theorem acc_mapVals [Add T] (f : T → T) (E : List (Entry T)) (w : Entry T → T) (i : Int) (x : T) :
    acc (mapVals f E) w i x = acc E (fun e => w { e with val := f e.val }) i x :=
  acc_map E (fun e => { e with val := f e.val }) (fun _ => rfl) w i x

theorem CsIs.mapVals {major minor : Entry T → Int} {n base : Int} {pt idxs : Buf Int} {vals vals' : Buf T} {E : List (Entry T)} {f : T → T}
    (h : CsIs major minor n base pt idxs vals E) (hmaj : ∀ e v, major { e with val := v } = major e)
    (hmin : ∀ e v, minor { e with val := v } = minor e)
    (hv : ∀ (l : Nat) (h : l < E.length), vals' l = .val (f E[l].val)) : CsIs major minor n base pt idxs vals' (mapVals f E) := by
  obtain ⟨p, hp, hp0, hpn, hmono, hsl⟩ := h.ptrs
  refine ⟨⟨p, hp, hp0, by simpa using hpn, hmono, ?_⟩, ?_⟩
  · intro l hl
    rw [mapVals_getElem, hmaj]
    exact hsl l (by simpa using hl)
  · intro l hl
    rw [mapVals_getElem, hmin]
    exact ⟨hv l (by simpa using hl), (h.data l (by simpa using hl)).2⟩

/-- The index set `0 ≤ i < d`. -/
def Rng (d : Int) (i : Int) : Prop := 0 ≤ i ∧ i < d

section vec
variable [Add T] [Mul T]

theorem applyCscVec_spec {E : List (Entry T)} {m d : Int} {pt idxs : Buf Int} {vals v : Buf T} {v0 incv av0 incAv : Int} {x : Int → T}
    {F : Int → Prop} {X : Int → T} {b : Buf T} (h : CsIs Entry.col Entry.row m 0 pt idxs vals E) (hm : 0 ≤ m)
    (hr : ∀ e ∈ E, Rng d e.row) (hv : ∀ k, 0 ≤ k → k < m → v (v0 + k * incv) = .val (x k))
    (hinj : InjS (Rng d) (fun i => av0 + i * incAv)) (hF : ∀ i, Rng d i → F (av0 + i * incAv))
    (hX : CellSt (Rng d) (fun i => av0 + i * incAv) X b) :
    wpF F (applyCscVec vals idxs pt m v v0 incv av0 incAv) b
      (fun _ b' => CellSt (Rng d) (fun i => av0 + i * incAv) (fun i => acc E (fun e => e.val * x e.col) i (X i)) b') := by
  obtain ⟨p, hp, hp0, hpn, hmono, hsl⟩ := h.ptrs
  unfold applyCscVec
  rw [wpF_bind]
  refine wpF_foldI (fun c i b' => i = p c ∧ CellSt (Rng d) (fun i => av0 + i * incAv)
    (fun i => acc (E.take (p c).toNat) (fun e => e.val * x e.col) i (X i)) b') hm ?_ ?_ ?_
  · refine ⟨hp0.symm, hX.congr fun i _ => ?_⟩
    simp [hp0, acc_nil]
  · rintro c i b' c0 c1 ⟨rfl, hb'⟩
    rw [wpF_bind, wpF_lift]
    refine ⟨_, Buf.rd_val (hv c c0 c1), ?_⟩
    rw [wpF_bind, wpF_lift]
    refine ⟨_, Buf.rd_val (hp (c + 1) (by omega) (by omega)), ?_⟩
    rw [wpF_bind]
    have b0 := CsIs.ptr_le hmono le_rfl c0 (by omega)
    have b1 := CsIs.ptr_le hmono (show 0 ≤ c + 1 by omega) (show c + 1 ≤ m by omega) le_rfl
    have hle := hmono c c0 c1
    refine wpF_forI (fun l b' => CellSt (Rng d) (fun i => av0 + i * incAv)
      (fun i => acc (E.take l.toNat) (fun e => e.val * x e.col) i (X i)) b') hle hb' ?_ ?_
    · intro l b'' l0 l1 hb''
      obtain ⟨q, rfl⟩ : ∃ q : Nat, l = q := ⟨l.toNat, by omega⟩
      have hq : q < E.length := by omega
      obtain ⟨d1, d2⟩ := h.data q hq
      have hmaj := CsIs.major_of_slice hmono hsl c0 c1 hq l0 l1
      rw [wpF_bind, wpF_lift]
      refine ⟨_, Buf.rd_val d2, ?_⟩
      rw [wpF_bind, wpF_lift]
      refine ⟨_, Buf.rd_val d1, ?_⟩
      have hrow := hr _ (List.getElem_mem hq)
      rw [add_zero]
      refine wpF_mono (addTo_spec (ad := fun i => av0 + i * incAv) hb'' hinj hrow (hF _ hrow)) ?_
      intro _ b3 hb3
      refine hb3.congr fun i _ => ?_
      rw [show ((q : Int) + 1).toNat = q + 1 by omega, acc_push _ _ _ hq, hmaj]
      simp
    · intro b'' hb''
      rw [wpF_pure]
      exact ⟨max_eq_right hle, hb''⟩
  · rintro i b' ⟨_, hb'⟩
    rw [wpF_pure]
    refine hb'.congr fun i _ => ?_
    rw [hpn]; simp

/-- Only slice 0 (the case of a single column), or no entries at all. -/
theorem applyRegular_spec {E : List (Entry T)} {m d : Int} {pt idxs : Buf Int} {vals v : Buf T} {v0 incv av0 incAv : Int} {x : Int → T}
    {F : Int → Prop} {X : Int → T} {b : Buf T} (h : CsIs Entry.col Entry.row m 0 pt idxs vals E) (hm : 1 ≤ m)
    (hE : m = 1 ∨ E = []) {colNnz : Int} (hpt : pt 1 = .val colNnz)
    (hr : ∀ e ∈ E, Rng d e.row) (hv : ∀ k, 0 ≤ k → k < m → v (v0 + k * incv) = .val (x k))
    (hinj : InjS (Rng d) (fun i => av0 + i * incAv)) (hF : ∀ i, Rng d i → F (av0 + i * incAv))
    (hX : CellSt (Rng d) (fun i => av0 + i * incAv) X b) :
    wpF F (applyRegularCscVec vals idxs colNnz m v v0 incv av0 incAv) b
      (fun _ b' => CellSt (Rng d) (fun i => av0 + i * incAv) (fun i => acc E (fun e => e.val * x e.col) i (X i)) b') := by
  obtain ⟨p, hp, hp0, hpn, hmono, hsl⟩ := h.ptrs
  have hc : colNnz = p 1 := by
    have := hp 1 (by omega) (by omega)
    rw [hpt] at this
    exact Cell.val.inj this
  unfold applyRegularCscVec
  rcases hE with rfl | rfl
  · rw [hpn] at hc
    subst hc
    refine wpF_forI (fun c b' => CellSt (Rng d) (fun i => av0 + i * incAv)
      (fun i => acc (E.take (c * E.length).toNat) (fun e => e.val * x e.col) i (X i)) b') (by omega) ?_ ?_ ?_
    · refine hX.congr fun i _ => ?_
      simp [acc_nil]
    · intro c b' c0 c1 hb'
      have hc0 : c = 0 := by omega
      subst hc0
      rw [wpF_bind, wpF_lift]
      refine ⟨_, Buf.rd_val (hv 0 (by omega) (by omega)), ?_⟩
      refine wpF_forI (fun l b' => CellSt (Rng d) (fun i => av0 + i * incAv)
        (fun i => acc (E.take l.toNat) (fun e => e.val * x e.col) i (X i)) b') (by omega) hb' ?_ ?_
      · intro l b'' l0 l1 hb''
        obtain ⟨q, rfl⟩ : ∃ q : Nat, l = q := ⟨l.toNat, by omega⟩
        have hq : q < E.length := by omega
        obtain ⟨d1, d2⟩ := h.data q hq
        have hmaj := hsl q hq
        have hcol : E[q].col = 0 := by omega
        rw [wpF_bind, wpF_lift]
        refine ⟨_, Buf.rd_val d2, ?_⟩
        rw [wpF_bind, wpF_lift]
        refine ⟨_, Buf.rd_val d1, ?_⟩
        have hrow := hr _ (List.getElem_mem hq)
        rw [add_zero]
        refine wpF_mono (addTo_spec (ad := fun i => av0 + i * incAv) hb'' hinj hrow (hF _ hrow)) ?_
        intro _ b3 hb3
        refine hb3.congr fun i _ => ?_
        rw [show ((q : Int) + 1).toNat = q + 1 by omega, acc_push _ _ _ hq, hcol]
        simp
      · intro b'' hb''
        exact hb''
    · intro b' hb'
      refine hb'.congr fun i _ => ?_
      simp
  · have h1 : p 1 = 0 := by
      have a := CsIs.ptr_le hmono le_rfl (show (0:Int) ≤ 1 by omega) (by omega)
      have b := CsIs.ptr_le hmono (show (0:Int) ≤ 1 by omega) hm le_rfl
      simp at hpn
      omega
    rw [h1] at hc
    subst hc
    refine wpF_forI (fun c b' => CellSt (Rng d) (fun i => av0 + i * incAv) X b') (by omega) hX ?_ ?_
    · intro c b' c0 c1 hb'
      rw [wpF_bind, wpF_lift]
      refine ⟨_, Buf.rd_val (hv c c0 c1), ?_⟩
      exact wpF_forI_empty (by omega) hb'
    · intro b' hb'
      exact hb'.congr fun i _ => by rw [acc_nil]

theorem addr_col (layout : Layout) (ld i j : Int) :
    (layoutToStrides layout ld).ics * j + i * (layoutToStrides layout ld).irs = addr layout ld i j := by
  cases layout <;> simp [layoutToStrides, addr] <;> ring

/-- Footprint of column `j`. -/
def ColF (layout : Layout) (ld d : Int) (j p : Int) : Prop := ∃ i, Rng d i ∧ p = addr layout ld i j

theorem colF_disjoint {layout : Layout} {ld d n : Int} (hld : LdOk layout ld d n) (j j' : Int) (h0 : 0 ≤ j) (h1 : j < n) (h0' : 0 ≤ j')
    (h1' : j' < n) (hne : j ≠ j') (p : Int) (h : ColF layout ld d j p) : ¬ ColF layout ld d j' p := by
  rintro ⟨i', hi', rfl⟩
  obtain ⟨i, hi, he⟩ := h
  exact hne (addr_inj hld ⟨hi.1, hi.2, h0, h1⟩ ⟨hi'.1, hi'.2, h0', h1'⟩ he.symm).2

/-- A parallel loop over columns, each iteration updating its own column. -/
theorem columns_par {layout : Layout} {ld d n : Int} (hld : LdOk layout ld d n) {body : Int → Prog T Unit} {b0 b : Buf T}
    {C : Int → Int → Cell T} {C' : Int → Int → T} (hC : MatSt b0 (addr layout ld) d n C b)
    (h : ∀ j, 0 ≤ j → j < n → wpF (ColF layout ld d j) (body j) b (fun _ b' => CellSt (Rng d) (fun i => addr layout ld i j) (fun i => C' i j) b'))
    (sched : List Nat) :
    M.wp (parForI sched 0 n body) b (fun _ b' => MatSt b0 (addr layout ld) d n (fun i j => .val (C' i j)) b') := by
  refine wpF_parForI (ColF layout ld d) (fun j b' => CellSt (Rng d) (fun i => addr layout ld i j) (fun i => C' i j) b')
    (fun i j h1 h2 h3 h4 h5 => colF_disjoint hld i j h1 h2 h3 h4 h5) ?_ h sched ?_
  · intro j _ _ c c' hcc hc i hi
    rw [← hcc _ ⟨i, hi, rfl⟩]
    exact hc i hi
  · intro b' h1 h2
    constructor
    · intro i j hij
      exact h1 j hij.2.2.1 hij.2.2.2 i ⟨hij.1, hij.2.1⟩
    · intro p hp
      rw [h2 p ?_, hC.outside p hp]
      rintro j j0 j1 ⟨i, hi, rfl⟩
      exact hp i j ⟨hi.1, hi.2, j0, j1⟩ rfl

/-- The condition under which `fixed_nnz_per_col` does not lead the CSC-based column kernels astray. -/
theorem fixed_spec {E : List (Entry T)} {m : Int} {pt idxs : Buf Int} {vals : Buf T} (h : CsIs Entry.col Entry.row m 0 pt idxs vals E)
    (hE : RegularOk m E) : Res.sat (fixedNnzPerCol pt m) (fun r => r = true → m = 1 ∨ E = []) := by
  obtain ⟨p, hp, hp0, hpn, hmono, hsl⟩ := h.ptrs
  obtain ⟨hm, hcol⟩ := hE
  unfold fixedNnzPerCol
  refine Res.sat_foldI (fun ell r => r = true → ∀ l, 2 ≤ l → l < ell → p l = p 1) (by omega) (by intro _ l; omega) ?_ ?_
  · intro ell r h0 h1 hr
    cases r with
    | false => exact ⟨false, rfl, by simp⟩
    | true =>
      rw [if_pos rfl]
      simp only [Res.sat_bind]
      refine ⟨_, Buf.rd_val (hp 1 (by omega) (by omega)), _, Buf.rd_val (hp ell (by omega) (by omega)), _, rfl, ?_⟩
      intro he l l0 l1
      rcases Int.lt_or_eq_of_le (Int.lt_add_one_iff.mp l1) with g | g
      · exact hr rfl l l0 g
      · subst g; exact (of_decide_eq_true he).symm
  · intro r hr hrt
    by_contra hno
    push Not at hno
    obtain ⟨hm1, hne⟩ := hno
    have hm2 : 2 ≤ m := by omega
    obtain ⟨e, he, hec⟩ := hcol hm2 hne
    obtain ⟨l, hl, rfl⟩ := List.getElem_of_mem he
    have hs := hsl l hl
    have h1 := hr hrt m hm2 (by omega)
    have h2 := CsIs.ptr_le hmono (show (0:Int) ≤ 1 by omega) (show 1 ≤ E[l].col by omega) (by omega)
    omega

theorem cscColumns_spec {E : List (Entry T)} {m n d : Int} {pt idxs : Buf Int} {vals B : Buf T} {layoutB layoutC : Layout} {ldb ldc : Int}
    {Bm C : Int → Int → T} {b0 b : Buf T} {fixed : Bool} (h : CsIs Entry.col Entry.row m 0 pt idxs vals E) (hm : 1 ≤ m)
    (hfix : fixed = true → m = 1 ∨ E = []) (hr : ∀ e ∈ E, Rng d e.row) (hB : Holds B layoutB ldb m n Bm)
    (hld : LdOk layoutC ldc d n) (hC : MatSt b0 (addr layoutC ldc) d n (fun i j => .val (C i j)) b) (sched : List Nat) :
    M.wp (cscColumns sched layoutB layoutC n m vals idxs pt fixed B ldb ldc) b (fun _ b' =>
      MatSt b0 (addr layoutC ldc) d n (fun i j => .val (acc E (fun e => e.val * Bm e.col j) i (C i j))) b') := by
  unfold cscColumns
  refine columns_par hld hC ?_ sched
  intro j j0 j1
  have hv : ∀ k, 0 ≤ k → k < m → B ((layoutToStrides layoutB ldb).ics * j + k * (layoutToStrides layoutB ldb).irs) = .val (Bm k j) := by
    intro k k0 k1
    rw [addr_col]
    exact hB k j ⟨k0, k1, j0, j1⟩
  have ha : (fun i => addr layoutC ldc i j) = fun i => (layoutToStrides layoutC ldc).ics * j + i * (layoutToStrides layoutC ldc).irs := by
    funext i; rw [addr_col]
  have hinj : InjS (Rng d) (fun i => addr layoutC ldc i j) := by
    intro i i' hi hi' he
    exact (addr_inj hld ⟨hi.1, hi.2, j0, j1⟩ ⟨hi'.1, hi'.2, j0, j1⟩ he).1
  have hF : ∀ i, Rng d i → ColF layoutC ldc d j ((fun i => addr layoutC ldc i j) i) := fun i hi => ⟨i, hi, rfl⟩
  have hX : CellSt (Rng d) (fun i => addr layoutC ldc i j) (fun i => C i j) b := fun i hi => hC.cells i j ⟨hi.1, hi.2, j0, j1⟩
  rw [ha] at hinj hF hX ⊢
  cases fixed with
  | false =>
    rw [if_neg (by simp)]
    exact applyCscVec_spec (x := fun k => Bm k j) h (by omega) hr hv hinj hF hX
  | true =>
    rw [if_pos rfl, wpF_bind, wpF_lift]
    obtain ⟨p, hp, _⟩ := h.ptrs
    refine ⟨_, Buf.rd_val (hp 1 (by omega) (by omega)), ?_⟩
    exact applyRegular_spec (x := fun k => Bm k j) h hm (hfix rfl) (hp 1 (by omega) (by omega)) hr hv hinj hF hX

/-- The regular kernel on a matrix whose `k` nonzeros are all in the first column, when the arrays go on with zeros: the entries it reads in
excess are zeros. -/
theorem applyRegular_zeros [Zero T] {E : List (Entry T)} {m d : Int} {idxs : Buf Int} {vals : Buf T} {v : Buf T} {v0 incv av0 incAv : Int} {x : Int → T}
    {F : Int → Prop} {X : Int → T} {b : Buf T} (hdat : ∀ (l : Nat) (h : l < E.length), vals l = .val E[l].val ∧ idxs l = .val E[l].row)
    (hcol : ∀ e ∈ E, e.col = 0) (hz : ∀ q, (E.length : Int) ≤ q → q < m * E.length → vals q = .val 0 ∧ idxs q = .val 0)
    (hlaw : ∀ y s : T, y + 0 * s = y) (hm : 1 ≤ m) (hr : ∀ e ∈ E, Rng d e.row)
    (hv : ∀ k, 0 ≤ k → k < m → v (v0 + k * incv) = .val (x k)) (hinj : InjS (Rng d) (fun i => av0 + i * incAv))
    (hF : ∀ i, Rng d i → F (av0 + i * incAv)) (hX : CellSt (Rng d) (fun i => av0 + i * incAv) X b) :
    wpF F (applyRegularCscVec vals idxs E.length m v v0 incv av0 incAv) b
      (fun _ b' => CellSt (Rng d) (fun i => av0 + i * incAv) (fun i => acc E (fun e => e.val * x e.col) i (X i)) b') := by
  unfold applyRegularCscVec
  refine wpF_forI (fun c b' => CellSt (Rng d) (fun i => av0 + i * incAv)
    (fun i => acc (E.take (c * E.length).toNat) (fun e => e.val * x e.col) i (X i)) b') (by omega) ?_ ?_ ?_
  · refine hX.congr fun i _ => ?_
    simp [acc_nil]
  · intro c b' c0 c1 hb'
    rw [wpF_bind, wpF_lift]
    refine ⟨_, Buf.rd_val (hv c c0 c1), ?_⟩
    rcases eq_or_lt_of_le c0 with rfl | c2
    · refine wpF_forI (fun l b' => CellSt (Rng d) (fun i => av0 + i * incAv)
        (fun i => acc (E.take l.toNat) (fun e => e.val * x e.col) i (X i)) b') (by omega) hb' ?_ ?_
      · intro l b'' l0 l1 hb''
        obtain ⟨q, rfl⟩ : ∃ q : Nat, l = q := ⟨l.toNat, by omega⟩
        have hq : q < E.length := by omega
        obtain ⟨d1, d2⟩ := hdat q hq
        rw [wpF_bind, wpF_lift]
        refine ⟨_, Buf.rd_val d2, ?_⟩
        rw [wpF_bind, wpF_lift]
        refine ⟨_, Buf.rd_val d1, ?_⟩
        have hrow := hr _ (List.getElem_mem hq)
        refine wpF_mono (addTo_spec (ad := fun i => av0 + i * incAv) hb'' hinj hrow (hF _ hrow)) ?_
        intro _ b3 hb3
        refine hb3.congr fun i _ => ?_
        rw [show ((q : Int) + 1).toNat = q + 1 by omega, acc_push _ _ _ hq, hcol _ (List.getElem_mem hq)]
        simp
      · intro b'' hb''
        exact hb''
    · have hk : (E.length : Int) ≤ c * E.length := le_mul_of_one_le_left (by omega) (by omega)
      have hk' : (c + 1) * E.length ≤ m * E.length := mul_le_mul_of_nonneg_right (by omega) (by omega)
      have htake : ∀ c' : Int, 1 ≤ c' → E.take (c' * E.length).toNat = E := by
        intro c' hc'
        have : (E.length : Int) ≤ c' * E.length := le_mul_of_one_le_left (by omega) hc'
        exact List.take_of_length_le (by omega)
      rw [htake c (by omega)] at hb'
      rw [htake (c + 1) (by omega)]
      refine wpF_forI (fun _ b' => CellSt (Rng d) (fun i => av0 + i * incAv)
        (fun i => acc E (fun e => e.val * x e.col) i (X i)) b') (by rw [add_mul]; omega) hb' ?_ (fun _ h => h)
      intro q b'' q0 q1 hb''
      obtain ⟨d1, d2⟩ := hz q (by omega) (by omega)
      have hne : 0 < E.length := by
        rcases Nat.eq_zero_or_pos E.length with h0 | h0
        · rw [h0] at q0 q1; simp at q0 q1; omega
        · exact h0
      have hrow : Rng d 0 := by
        have := hr _ (List.getElem_mem hne)
        simp only [Rng] at this ⊢; omega
      rw [wpF_bind, wpF_lift]
      refine ⟨_, Buf.rd_val d2, ?_⟩
      rw [wpF_bind, wpF_lift]
      refine ⟨_, Buf.rd_val d1, ?_⟩
      refine wpF_mono (addTo_spec (ad := fun i => av0 + i * incAv) hb'' hinj hrow (hF _ hrow)) ?_
      intro _ b3 hb3
      refine hb3.congr fun i _ => ?_
      rw [hlaw]; simp
  · intro b' hb'
    refine hb'.congr fun i _ => ?_
    have : (E.length : Int) ≤ m * E.length := le_mul_of_one_le_left (by omega) hm
    rw [List.take_of_length_le (by omega)]

/-- The parallel loop with the regular kernel, if each iteration works. -/
theorem cscColumns_fixed {W : List (Entry T)} {m n d : Int} {pt idxs : Buf Int} {vals B : Buf T} {layoutB layoutC : Layout} {ldb ldc : Int}
    {Bm C : Int → Int → T} {b0 b : Buf T} {colNnz : Int} (hpt : pt 1 = .val colNnz) (hB : Holds B layoutB ldb m n Bm)
    (hld : LdOk layoutC ldc d n) (hC : MatSt b0 (addr layoutC ldc) d n (fun i j => .val (C i j)) b)
    (hv : ∀ {v0 incv av0 incAv : Int} {x : Int → T} {F : Int → Prop} {X : Int → T} {b : Buf T}
      (_ : ∀ k, 0 ≤ k → k < m → B (v0 + k * incv) = .val (x k)) (_ : InjS (Rng d) (fun i => av0 + i * incAv))
      (_ : ∀ i, Rng d i → F (av0 + i * incAv)) (_ : CellSt (Rng d) (fun i => av0 + i * incAv) X b),
      wpF F (applyRegularCscVec vals idxs colNnz m B v0 incv av0 incAv) b
        (fun _ b' => CellSt (Rng d) (fun i => av0 + i * incAv) (fun i => acc W (fun e => e.val * x e.col) i (X i)) b')) (sched : List Nat) :
    M.wp (cscColumns sched layoutB layoutC n m vals idxs pt true B ldb ldc) b (fun _ b' =>
      MatSt b0 (addr layoutC ldc) d n (fun i j => .val (acc W (fun e => e.val * Bm e.col j) i (C i j))) b') := by
  unfold cscColumns
  refine columns_par hld hC ?_ sched
  intro j j0 j1
  have ha : (fun i => addr layoutC ldc i j) = fun i => (layoutToStrides layoutC ldc).ics * j + i * (layoutToStrides layoutC ldc).irs := by
    funext i; rw [addr_col]
  have hinj : InjS (Rng d) (fun i => addr layoutC ldc i j) := by
    intro i i' hi hi' he
    exact (addr_inj hld ⟨hi.1, hi.2, j0, j1⟩ ⟨hi'.1, hi'.2, j0, j1⟩ he).1
  have hF : ∀ i, Rng d i → ColF layoutC ldc d j ((fun i => addr layoutC ldc i j) i) := fun i hi => ⟨i, hi, rfl⟩
  have hX : CellSt (Rng d) (fun i => addr layoutC ldc i j) (fun i => C i j) b := fun i hi => hC.cells i j ⟨hi.1, hi.2, j0, j1⟩
  rw [ha] at hinj hF hX ⊢
  rw [if_pos rfl, wpF_bind, wpF_lift]
  refine ⟨_, Buf.rd_val hpt, hv (x := fun k => Bm k j) ?_ hinj hF hX⟩
  intro k k0 k1
  rw [addr_col]
  exact hB k j ⟨k0, k1, j0, j1⟩

end vec

/-- The values used by the kernels that scale a copy first. -/
def scaleVal [Zero T] [One T] [Add T] [Mul T] [BEq T] (alpha v : T) : T := if alpha == 1 then v else 0 + alpha * v

theorem scaledVals_spec {σ : Type} [Zero T] [One T] [Add T] [Mul T] [BEq T] {alpha : T} {E : List (Entry T)} {vals : Buf T} {s : σ}
    (h : ∀ (l : Nat) (h : l < E.length), vals l = .val E[l].val) :
    M.wp (scaledVals alpha E.length vals) s (fun vals' s' => s' = s ∧
      ∀ (l : Nat) (h : l < E.length), vals' l = .val (scaleVal alpha E[l].val)) := by
  unfold scaledVals scaleVal
  by_cases ha : (alpha == 1) = true
  · simp only [if_pos ha]
    rw [M.wp_pure]
    exact ⟨rfl, h⟩
  · simp only [if_neg ha]
    simp only [M.wp_bind, M.wp_when, M.wp_onLocal, M.wp_pure]
    refine ⟨fun h0 => by omega, fun _ => ?_⟩
    unfold blasAxpy
    rw [M.wp_bind]
    have hck : (blasCheck (0 ≤ (E.length : Int)) : M (Buf T) Unit) = pure () := by unfold blasCheck; rw [if_pos (by omega)]
    rw [hck, M.wp_pure]
    refine M.wp_forI (fun l b => (∀ (q : Nat) (h : q < E.length), (q : Int) < l → b q = .val (0 + alpha * E[q].val)) ∧
      ∀ q, l ≤ q → q < E.length → b q = .val 0) (by omega) ⟨fun q _ hq => by omega, ?_⟩ ?_ ?_
    · intro q q0 q1; simp [Buf.fill, q0, q1]
    · rintro l b l0 l1 ⟨h1, h2⟩
      obtain ⟨q, rfl⟩ : ∃ q : Nat, l = q := ⟨l.toNat, by omega⟩
      have hq : q < E.length := by omega
      simp only [M.wp_bind, M.wp_lift, M.wp_rd, M.wp_wr, mul_one, zero_add]
      refine ⟨_, Buf.rd_val (h q hq), _, h2 q le_rfl l1, by rw [h2 q le_rfl l1]; simp, ?_, ?_⟩
      · intro r hr hrq
        by_cases hrq' : r = q
        · subst hrq'; simp
        · rw [Buf.set_ne (by omega)]; exact h1 r hr (by omega)
      · intro r r0 r1
        rw [Buf.set_ne (by omega)]; exact h2 r (by omega) r1
    · rintro b ⟨h1, _⟩
      exact ⟨trivial, fun l hl => h1 l hl (by omega)⟩

theorem cscLeftJki_spec [Zero T] [One T] [Add T] [Mul T] [BEq T] {E : List (Entry T)} {A : CscMat T} {alpha : T} {n : Int} {B : Buf T}
    {layoutB layoutC : Layout} {ldb ldc : Int} {Bm C : Int → Int → T} {b0 b : Buf T} (h : CscIs A E) (hb : A.indexBase = .Zero)
    (hE : RegularOk A.nCols E) (hr : ∀ e ∈ E, Rng A.nRows e.row) (hB : Holds B layoutB ldb A.nCols n Bm) (hld : LdOk layoutC ldc A.nRows n)
    (hC : MatSt b0 (addr layoutC ldc) A.nRows n (fun i j => .val (C i j)) b) (sched : List Nat) :
    M.wp (cscLeftJki sched alpha layoutB layoutC A.nRows n A.nCols A B ldb ldc) b (fun _ b' => MatSt b0 (addr layoutC ldc) A.nRows n
      (fun i j => .val (acc E (fun e => scaleVal alpha e.val * Bm e.col j) i (C i j))) b') := by
  have hd := h.data
  rw [hb] at hd
  simp only [IndexBase.val] at hd
  unfold cscLeftJki
  rw [M.wp_bind, M.wp_require, M.wp_bind, h.nnz]
  refine ⟨hb, M.wp_mono (scaledVals_spec (fun l hl => (hd.data l hl).1)) ?_⟩
  rintro vals' s' ⟨rfl, hv⟩
  simp only [M.wp_bind, M.wp_require, M.wp_lift]
  refine ⟨trivial, trivial, ?_⟩
  obtain ⟨fixed, hf1, hf2⟩ := fixed_spec hd hE
  refine ⟨fixed, hf1, ?_⟩
  have hd' := CsIs.mapVals (f := scaleVal alpha) hd (fun _ _ => rfl) (fun _ _ => rfl) hv
  refine M.wp_mono (cscColumns_spec (E := mapVals (scaleVal alpha) E) (d := A.nRows) hd' hE.1 ?_ ?_ hB hld hC sched) ?_
  · intro ht
    rcases hf2 ht with g | g
    · exact Or.inl g
    · right; rw [g]; rfl
  · intro e he
    simp only [mapVals, List.mem_map] at he
    obtain ⟨e', he', rfl⟩ := he
    exact hr e' he'
  · intro _ b' hb'
    refine hb'.congr fun i j _ => ?_
    rw [acc_mapVals]

/-! ## CSR kernels -/

section csr
variable [Add T] [Mul T]

theorem acc_slice_lo {E : List (Entry T)} {d : Int} {p : Int → Int}
    (hsl : ∀ (l : Nat) (h : l < E.length), 0 ≤ E[l].row ∧ E[l].row < d ∧ p E[l].row ≤ l ∧ l < p (E[l].row + 1)) (w : Entry T → T) (i : Int) (x : T) :
    acc (E.take (p i).toNat) w i x = x := by
  apply acc_none
  intro e he hrow
  obtain ⟨l, hl, rfl⟩ := List.getElem_of_mem he
  rw [List.getElem_take] at hrow
  have hl' : l < E.length := by simp at hl; omega
  have := hsl l hl'
  rw [hrow] at this
  simp at hl
  omega

theorem acc_slice_hi {E : List (Entry T)} {d : Int} {p : Int → Int}
    (hsl : ∀ (l : Nat) (h : l < E.length), 0 ≤ E[l].row ∧ E[l].row < d ∧ p E[l].row ≤ l ∧ l < p (E[l].row + 1)) (w : Entry T → T) (i : Int) (x : T) :
    acc (E.take (p (i + 1)).toNat) w i x = acc E w i x := by
  conv_rhs => rw [← List.take_append_drop (p (i + 1)).toNat E]
  rw [acc_append, acc_none (E := E.drop _)]
  intro e he hrow
  obtain ⟨l, hl, rfl⟩ := List.getElem_of_mem he
  rw [List.getElem_drop] at hrow
  have hl' : (p (i + 1)).toNat + l < E.length := by simp at hl; omega
  have := hsl _ hl'
  rw [hrow] at this
  omega

theorem applyCsrVec_spec {E : List (Entry T)} {m d : Int} {pt idxs : Buf Int} {vals v : Buf T} {v0 incv av0 incAv : Int} {x : Int → T}
    {F : Int → Prop} {X : Int → T} {b : Buf T} (h : CsIs Entry.row Entry.col d 0 pt idxs vals E) (hd : 0 ≤ d) (hm32 : ∀ e ∈ E, e.col < 2 ^ 31)
    (hr : ∀ e ∈ E, Rng m e.col) (hv : ∀ k, 0 ≤ k → k < m → v (v0 + k * incv) = .val (x k))
    (hinj : InjS (Rng d) (fun i => av0 + i * incAv)) (hF : ∀ i, Rng d i → F (av0 + i * incAv))
    (hX : CellSt (Rng d) (fun i => av0 + i * incAv) X b) :
    wpF F (applyCsrVec vals pt idxs v v0 incv d av0 incAv) b
      (fun _ b' => CellSt (Rng d) (fun i => av0 + i * incAv) (fun i => acc E (fun e => e.val * x e.col) i (X i)) b') := by
  obtain ⟨p, hp, hp0, hpn, hmono, hsl⟩ := h.ptrs
  unfold applyCsrVec
  refine wpF_forI (fun i b' => CellSt (Rng d) (fun i => av0 + i * incAv)
    (fun r => if r < i then acc E (fun e => e.val * x e.col) r (X r) else X r) b') hd ?_ ?_ ?_
  · refine hX.congr fun i hi => ?_
    rw [if_neg (by have := hi.1; omega)]
  · intro i b' i0 i1 hb'
    rw [wpF_bind, wpF_load]
    refine ⟨hF i ⟨i0, i1⟩, _, hb' i ⟨i0, i1⟩, ?_⟩
    rw [wpF_bind, wpF_lift]
    refine ⟨_, Buf.rd_val (hp i i0 (by omega)), ?_⟩
    rw [wpF_bind, wpF_lift]
    refine ⟨_, Buf.rd_val (hp (i + 1) (by omega) (by omega)), ?_⟩
    rw [wpF_bind]
    have b0 := CsIs.ptr_le hmono le_rfl i0 (by omega)
    have b1 := CsIs.ptr_le hmono (show 0 ≤ i + 1 by omega) (show i + 1 ≤ d by omega) le_rfl
    refine wpF_foldI (fun l y b'' => b'' = b' ∧ y = acc (E.take l.toNat) (fun e => e.val * x e.col) i (X i)) (hmono i i0 i1) ?_ ?_ ?_
    · refine ⟨rfl, ?_⟩
      rw [acc_slice_lo hsl]
      exact if_neg (by omega)
    · rintro l y b'' l0 l1 ⟨rfl, rfl⟩
      obtain ⟨q, rfl⟩ : ∃ q : Nat, l = q := ⟨l.toNat, by omega⟩
      have hq : q < E.length := by omega
      obtain ⟨d1, d2⟩ := h.data q hq
      have hmaj := CsIs.major_of_slice hmono hsl i0 i1 hq l0 l1
      have hc := hr _ (List.getElem_mem hq)
      have hw : wrapInt 32 (E[q].col + 0) = E[q].col := by
        have := hc.1; have := hm32 _ (List.getElem_mem hq); unfold wrapInt; omega
      rw [wpF_bind, wpF_lift]
      refine ⟨_, Buf.rd_val d2, ?_⟩
      rw [wpF_bind, wpF_lift]
      refine ⟨_, Buf.rd_val d1, ?_⟩
      rw [wpF_bind, wpF_lift, hw]
      refine ⟨_, Buf.rd_val (hv _ hc.1 hc.2), ?_⟩
      rw [wpF_pure]
      refine ⟨rfl, ?_⟩
      rw [show ((q : Int) + 1).toNat = q + 1 by omega, acc_push _ _ _ hq, if_pos hmaj.symm]
      simp
    · rintro y b'' ⟨rfl, rfl⟩
      rw [wpF_store]
      refine ⟨hF i ⟨i0, i1⟩, by rw [hb' i ⟨i0, i1⟩]; simp, ?_⟩
      intro r hr'
      by_cases he : r = i
      · subst he
        rw [Buf.set_same]; beta_reduce; rw [if_pos (by omega), acc_slice_hi hsl]
      · rw [Buf.set_ne (fun h0 => he (hinj r i hr' ⟨i0, i1⟩ h0)), hb' r hr']
        beta_reduce
        by_cases hri : r < i
        · rw [if_pos hri, if_pos (by omega)]
        · rw [if_neg hri, if_neg (by omega)]
  · intro b' hb'
    refine hb'.congr fun i hi => ?_
    rw [if_pos hi.2]

theorem csrLeftJik_spec [Zero T] [One T] [BEq T] {E : List (Entry T)} {A : CsrMat T} {alpha : T} {n : Int} {B : Buf T}
    {layoutB layoutC : Layout} {ldb ldc : Int} {Bm C : Int → Int → T} {b0 b : Buf T} (h : CsrIs A E) (hb : A.indexBase = .Zero)
    (hd0 : 0 ≤ A.nRows) (h32 : ∀ e ∈ E, e.col < 2 ^ 31) (hr : ∀ e ∈ E, Rng A.nCols e.col) (hB : Holds B layoutB ldb A.nCols n Bm)
    (hld : LdOk layoutC ldc A.nRows n)
    (hC : MatSt b0 (addr layoutC ldc) A.nRows n (fun i j => .val (C i j)) b) (sched : List Nat) :
    M.wp (csrLeftJik sched alpha layoutB layoutC A.nRows n A.nCols A B ldb ldc) b (fun _ b' => MatSt b0 (addr layoutC ldc) A.nRows n
      (fun i j => .val (acc E (fun e => scaleVal alpha e.val * Bm e.col j) i (C i j))) b') := by
  have hd := h.data
  rw [hb] at hd
  simp only [IndexBase.val] at hd
  unfold csrLeftJik
  rw [M.wp_bind, M.wp_require, M.wp_bind, h.nnz]
  refine ⟨hb, M.wp_mono (scaledVals_spec (fun l hl => (hd.data l hl).1)) ?_⟩
  rintro vals' s' ⟨rfl, hv⟩
  simp only [M.wp_bind, M.wp_require]
  refine ⟨trivial, trivial, ?_⟩
  have hd' := CsIs.mapVals (f := scaleVal alpha) hd (fun _ _ => rfl) (fun _ _ => rfl) hv
  refine columns_par hld hC ?_ sched
  intro j j0 j1
  have hv : ∀ k, 0 ≤ k → k < A.nCols → B ((layoutToStrides layoutB ldb).ics * j + k * (layoutToStrides layoutB ldb).irs) = .val (Bm k j) := by
    intro k k0 k1
    rw [addr_col]
    exact hB k j ⟨k0, k1, j0, j1⟩
  have ha : (fun i => addr layoutC ldc i j) = fun i => (layoutToStrides layoutC ldc).ics * j + i * (layoutToStrides layoutC ldc).irs := by
    funext i; rw [addr_col]
  have hinj : InjS (Rng A.nRows) (fun i => addr layoutC ldc i j) := by
    intro i i' hi hi' he
    exact (addr_inj hld ⟨hi.1, hi.2, j0, j1⟩ ⟨hi'.1, hi'.2, j0, j1⟩ he).1
  have hF : ∀ i, Rng A.nRows i → ColF layoutC ldc A.nRows j ((fun i => addr layoutC ldc i j) i) := fun i hi => ⟨i, hi, rfl⟩
  have hX : CellSt (Rng A.nRows) (fun i => addr layoutC ldc i j) (fun i => C i j) s' := fun i hi => hC.cells i j ⟨hi.1, hi.2, j0, j1⟩
  rw [ha] at hinj hF hX ⊢
  refine wpF_mono (applyCsrVec_spec (x := fun k => Bm k j) hd' hd0 ?_ ?_ hv hinj hF hX) ?_
  · intro e he
    simp only [mapVals, List.mem_map] at he
    obtain ⟨e', he', rfl⟩ := he
    exact h32 e' he'
  · intro e he
    simp only [mapVals, List.mem_map] at he
    obtain ⟨e', he', rfl⟩ := he
    exact hr e' he'
  · intro _ b' hb'
    refine hb'.congr fun i _ => ?_
    rw [acc_mapVals]

/-- Footprint of the rows `lo ≤ i < hi`. -/
def RowsF (ld n lo hi : Int) (p : Int) : Prop := ∃ i j, lo ≤ i ∧ i < hi ∧ 0 ≤ j ∧ j < n ∧ p = addr .RowMajor ld i j

theorem csrLeftIkb_spec {E : List (Entry T)} {A : CsrMat T} {alpha : T} {n : Int} {B : Buf T} {ldb ldc : Int} {Bm C : Int → Int → T}
    {b0 b : Buf T} (h : CsrIs A E) (hb : A.indexBase = .Zero) (hn : 0 ≤ n) (hr : ∀ e ∈ E, Rng A.nCols e.col)
    (hB : Holds B .RowMajor ldb A.nCols n Bm) (hld : n ≤ ldc)
    (hC : MatSt b0 (addr .RowMajor ldc) A.nRows n (fun i j => .val (C i j)) b) (sched : List Nat) :
    M.wp (csrLeftIkb sched alpha A.nRows n A.nCols A B ldb ldc) b (fun _ b' => MatSt b0 (addr .RowMajor ldc) A.nRows n
      (fun i j => .val (acc E (fun e => (alpha * e.val) * Bm e.col j) i (C i j))) b') := by
  have hd := h.data
  rw [hb] at hd
  simp only [IndexBase.val] at hd
  obtain ⟨p, hp, hp0, hpn, hmono, hsl⟩ := hd.ptrs
  have hldo : LdOk .RowMajor ldc A.nRows n := hld
  unfold csrLeftIkb
  simp only [M.wp_bind, M.wp_require]
  refine ⟨hb, trivial, trivial, ?_⟩
  refine wpF_parForI (fun i => RowsF ldc n i (i + 1)) (fun i b' => CellSt (fun q : Int × Int => q.1 = i ∧ 0 ≤ q.2 ∧ q.2 < n)
    (fun q => addr .RowMajor ldc q.1 q.2) (fun q => acc E (fun e => (alpha * e.val) * Bm e.col q.2) q.1 (C q.1 q.2)) b') ?_ ?_ ?_ sched ?_
  · rintro i i' i0 i1 i0' i1' hne p ⟨r, j, hr1, hr2, hj1, hj2, he⟩ ⟨r', j', hr1', hr2', hj1', hj2', he'⟩
    have := (addr_inj hldo (m := A.nRows) (n := n) ⟨by omega, by omega, hj1, hj2⟩ ⟨by omega, by omega, hj1', hj2'⟩ (he.symm.trans he')).1
    omega
  · intro i i0 i1 c c' hcc hc q hq
    rw [← hcc _ ⟨q.1, q.2, by omega, by omega, hq.2.1, hq.2.2, rfl⟩]
    exact hc q hq
  · intro i i0 i1
    rw [wpF_bind, wpF_lift]
    refine ⟨_, Buf.rd_val (hp i i0 (by omega)), ?_⟩
    rw [wpF_bind, wpF_lift]
    refine ⟨_, Buf.rd_val (hp (i + 1) (by omega) (by omega)), ?_⟩
    have c0 := CsIs.ptr_le hmono le_rfl i0 (by omega)
    have c1 := CsIs.ptr_le hmono (show 0 ≤ i + 1 by omega) (show i + 1 ≤ A.nRows by omega) le_rfl
    refine wpF_forI (fun l b' => CellSt (fun q : Int × Int => q.1 = i ∧ 0 ≤ q.2 ∧ q.2 < n)
      (fun q => addr .RowMajor ldc q.1 q.2) (fun q => acc (E.take l.toNat) (fun e => (alpha * e.val) * Bm e.col q.2) q.1 (C q.1 q.2)) b')
      (hmono i i0 i1) ?_ ?_ ?_
    · rintro ⟨q1, q2⟩ ⟨rfl, hq⟩
      dsimp only
      rw [acc_slice_lo hsl]
      exact hC.cells _ _ ⟨i0, i1, hq.1, hq.2⟩
    · intro l b' l0 l1 hb'
      obtain ⟨q, rfl⟩ : ∃ q : Nat, l = q := ⟨l.toNat, by omega⟩
      have hq : q < E.length := by omega
      obtain ⟨d1, d2⟩ := hd.data q hq
      have hmaj := CsIs.major_of_slice hmono hsl i0 i1 hq l0 l1
      have hc := hr _ (List.getElem_mem hq)
      rw [wpF_bind, wpF_lift]
      refine ⟨_, Buf.rd_val d1, ?_⟩
      rw [wpF_bind, wpF_lift]
      refine ⟨_, Buf.rd_val d2, ?_⟩
      rw [add_zero]
      refine wpF_mono (progAxpy_spec (x := fun j => Bm E[q].col j) (i := i) hn hb' ?_ ?_ ?_ ?_ ?_) ?_
      · rintro ⟨a1, a2⟩ ⟨b1, b2⟩ ⟨rfl, ha⟩ ⟨rfl, hb⟩ he
        simp only [addr] at he
        simp only [Prod.mk.injEq, true_and]
        omega
      · intro j j0 j1; exact ⟨rfl, j0, j1⟩
      · intro j j0 j1; exact ⟨i, j, le_rfl, by omega, j0, j1, rfl⟩
      · intro j; rfl
      · intro j j0 j1
        exact hB _ j ⟨hc.1, hc.2, j0, j1⟩
      · intro _ b'' hb''
        refine hb''.congr fun r hr' => ?_
        rw [if_pos hr', show ((q : Int) + 1).toNat = q + 1 by omega, acc_push _ _ _ hq, if_pos (by rw [hmaj]; exact hr'.1)]
        simp
    · intro b' hb'
      refine hb'.congr fun r hr' => ?_
      rw [hr'.1, acc_slice_hi hsl]
  · intro b' h1 h2
    constructor
    · intro i j hij
      exact h1 i hij.1 hij.2.1 (i, j) ⟨rfl, hij.2.2.1, hij.2.2.2⟩
    · intro p hp
      rw [h2 p ?_, hC.outside p hp]
      rintro i i0 i1 ⟨r, j, hr1, hr2, hj1, hj2, he⟩
      exact hp r j ⟨by omega, by omega, hj1, hj2⟩ he

end csr

end RB
