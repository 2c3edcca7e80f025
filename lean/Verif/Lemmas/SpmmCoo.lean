import Verif.Lemmas.Spmm

/-! # Lemmas about the COO product kernel -/

namespace RB
open Spec Prog

variable {T : Type}

/-! ## Pointer arrays from sorted locations -/

theorem skipWhile_spec {major : Entry T → Int} {E : List (Entry T)} {sorted : Buf Int} {j : Int}
    (h : ∀ (p : Nat) (h : p < E.length), sorted p = .val (major E[p])) (fuel l : Nat) (hf : l + fuel = E.length) :
    Res.sat (skipWhile sorted j fuel l) (fun l' => ∃ l'' : Nat, l' = l'' ∧ l ≤ l'' ∧ l'' ≤ E.length ∧
      (∀ (q : Nat) (h : q < E.length), l ≤ q → q < l'' → major E[q] = j) ∧ ∀ (h : l'' < E.length), major E[l''] ≠ j) := by
  induction fuel generalizing l with
  | zero =>
    exact ⟨_, rfl, l, rfl, le_rfl, by omega, fun q _ h1 h2 => by omega, fun h => by omega⟩
  | succ fuel ih =>
    unfold skipWhile
    rw [Res.sat_bind]
    refine ⟨_, Buf.rd_val (h l (by omega)), ?_⟩
    beta_reduce
    split_ifs with hj
    · have := ih (l + 1) (by omega)
      push_cast at this
      refine Res.sat_mono this ?_
      rintro l' ⟨l'', r1, r2, r3, r5, r6⟩
      refine ⟨l'', r1, by omega, r3, fun q hq q1 q2 => ?_, r6⟩
      rcases Nat.eq_or_lt_of_le q1 with q3 | q3
      · subst q3; exact hj
      · exact r5 q hq q3 q2
    · exact ⟨_, rfl, l, rfl, le_rfl, by omega, fun q _ h1 h2 => by omega, fun _ => hj⟩

/-- The monotonicity check. -/
theorem sortedCheck_spec {major : Entry T → Int} {E : List (Entry T)} {b : Buf Int}
    (h : ∀ (p : Nat) (h : p < E.length), b p = .val (major E[p])) (hs : E.Pairwise fun a b => major a ≤ major b) :
    M.wp (forI 1 (E.length : Int) (fun i => do
      let a ← M.rd (i - 1)
      let b ← M.rd i
      M.require (a ≤ b))) b (fun _ b' => b' = b) := by
  have hp := List.pairwise_iff_getElem.mp hs
  refine M.wp_forI' (fun _ b' => b' = b) rfl ?_ (fun _ h => h)
  rintro i _ i0 i1 rfl
  obtain ⟨q, rfl⟩ : ∃ q : Nat, i = q + 1 := ⟨(i - 1).toNat, by omega⟩
  simp only [M.wp_bind, M.wp_rd, M.wp_require, add_sub_cancel_right]
  have h2 := h (q + 1) (by omega)
  push_cast at h2
  exact ⟨_, h q (by omega), _, h2, hp q (q + 1) (by omega) (by omega) (by omega), trivial⟩

theorem sortedToPtr_spec {major : Entry T → Int} {E : List (Entry T)} {n : Int} {b : Buf Int}
    (h : ∀ (p : Nat) (h : p < E.length), b p = .val (major E[p])) (hn : 0 ≤ n) (hal : ∀ p, 0 ≤ p → p ≤ n → b p ≠ .none)
    (h0 : ∀ e ∈ E, 0 ≤ major e) (hs : E.Pairwise fun a b => major a ≤ major b) :
    M.wp (sortedToPtr E.length n) b (fun _ b' => (∀ p, 0 ≤ p → p ≤ n → b' p = .val (below major E p)) ∧
      ∀ p, (p < 0 ∨ n < p) → b' p = b p) := by
  have hp := List.pairwise_iff_getElem.mp hs
  unfold sortedToPtr
  rw [M.wp_bind]
  refine M.wp_mono (sortedCheck_spec h hs) ?_
  rintro _ _ rfl
  rename_i b
  simp only [M.wp_bind, M.wp_when, M.wp_get, M.wp_onLocal, M.wp_wr]
  refine ⟨fun g => by omega, fun _ => ⟨by simp [Buf.alloc]; omega, ?_⟩⟩
  refine M.wp_foldI (fun j l t => ∃ l' : Nat, l = l' ∧ l' ≤ E.length ∧ (∀ (q : Nat) (h : q < E.length), q < l' → major E[q] < j) ∧
    (∀ (q : Nat) (h : q < E.length), l' ≤ q → j ≤ major E[q]) ∧ (∀ p, 0 ≤ p → p ≤ j → t p = .val (below major E p)) ∧
    (∀ p, 0 ≤ p → p ≤ n → t p ≠ .none)) hn ?_ ?_ ?_
  · refine ⟨0, rfl, by omega, fun q _ h => by omega, fun q hq _ => h0 _ (List.getElem_mem hq), ?_, ?_⟩
    · intro p p0 p1
      have : p = 0 := by omega
      subst this
      rw [Buf.set_same, below_zero h0]
    · intro p p0 p1
      rw [Buf.set_apply]; split_ifs
      · simp
      · simp [Buf.alloc]; omega
  · rintro j l t j0 j1 ⟨l', rfl, hl, hlt, hge, hpt, hpa⟩
    obtain ⟨_, he, l'', rfl, r2, r3, r5, r6⟩ := skipWhile_spec (j := j) h (E.length - l') l' (by omega)
    rw [M.wp_bind, M.wp_lift, show ((E.length : Int) - l').toNat = E.length - l' by omega]
    refine ⟨_, he, ?_⟩
    simp only [M.wp_bind, M.wp_wr, M.wp_pure]
    have hlt' : ∀ (q : Nat) (h : q < E.length), q < l'' → major E[q] < j + 1 := by
      intro q hq hq'
      rcases Nat.lt_or_ge q l' with g | g
      · have := hlt q hq g; omega
      · have := r5 q hq g hq'; omega
    have hge' : ∀ (q : Nat) (h : q < E.length), l'' ≤ q → j + 1 ≤ major E[q] := by
      intro q hq hq'
      have g1 := r6 (by omega)
      have g2 := hge l'' (by omega) (by omega)
      rcases Nat.eq_or_lt_of_le hq' with g3 | g3
      · subst g3; omega
      · have := hp l'' q (by omega) hq g3; omega
    refine ⟨hpa (j + 1) (by omega) (by omega), l'', rfl, r3, hlt', hge', ?_, ?_⟩
    · intro p p0 p1
      rw [Buf.set_apply]
      split_ifs with hpj
      · rw [hpj, below_split r3 hlt' hge']
      · exact hpt p p0 (by omega)
    · intro p p0 p1
      rw [Buf.set_apply]; split_ifs
      · simp
      · exact hpa p p0 p1
  · rintro l t ⟨l', rfl, hl, hlt, hge, hpt, -⟩
    rw [M.wp_pure]
    refine ⟨hal 0 le_rfl hn, ?_⟩
    refine M.wp_forI (fun j b' => (∀ p, 0 ≤ p → p ≤ j → b' p = .val (below major E p)) ∧ (∀ p, (p < 0 ∨ n < p) → b' p = b p) ∧
      ∀ p, 0 ≤ p → p ≤ n → b' p ≠ .none) hn ⟨?_, ?_, ?_⟩ ?_ (fun b' h => ⟨h.1, h.2.1⟩)
    · intro p p0 p1
      have : p = 0 := by omega
      subst this
      rw [Buf.set_same, below_zero h0]
    · intro p hp; exact Buf.set_ne (by omega)
    · intro p p0 p1
      rw [Buf.set_apply]; split_ifs
      · simp
      · exact hal p p0 p1
    · rintro j b' j0 j1 ⟨g1, g2, g3⟩
      simp only [M.wp_bind, M.wp_lift, M.wp_wr]
      refine ⟨_, Buf.rd_val (hpt (j + 1) (by omega) (by omega)), g3 _ (by omega) (by omega), ?_, ?_, ?_⟩
      · intro p p0 p1
        rw [Buf.set_apply]
        split_ifs with hpj
        · rw [hpj]
        · exact g1 p p0 (by omega)
      · intro p hp
        rw [Buf.set_ne (by omega)]; exact g2 p hp
      · intro p p0 p1
        rw [Buf.set_apply]; split_ifs
        · simp
        · exact g3 p p0 p1

/-! ## Windows -/

theorem window_append (ro co d m : Int) (E E' : List (Entry T)) : window ro co d m (E ++ E') = window ro co d m E ++ window ro co d m E' := by
  simp [window]

theorem window_length_le (ro co d m : Int) (E : List (Entry T)) : (window ro co d m E).length ≤ E.length := by
  simp only [window, List.length_map]; exact List.length_filter_le _ _

theorem window_rng {ro co d m : Int} {E : List (Entry T)} : ∀ e ∈ window ro co d m E, Rng d e.row ∧ Rng m e.col := by
  intro e he
  simp only [window, List.mem_map, List.mem_filter, decide_eq_true_eq] at he
  obtain ⟨e', ⟨_, h⟩, rfl⟩ := he
  simp only [Rng]; omega

theorem window_sorted {ro co d m : Int} {E : List (Entry T)} (h : E.Pairwise cscLe) :
    (window ro co d m E).Pairwise fun a b => a.col ≤ b.col := by
  unfold window
  rw [List.pairwise_map]
  refine (h.filter _).imp ?_
  intro a b hab
  simp only
  rcases hab with g | g <;> omega

theorem setFilteredCoo_spec {A b : CooBufs T} {E : List (Entry T)} (h : CooHolds A.vals A.rows A.cols E) (hal : b.Alloc E.length)
    (ro co d m : Int) :
    M.wp (setFilteredCoo A E.length co (co + m) ro (ro + d)) b (fun k b' => k = (window ro co d m E).length ∧ b' = b.overE (window ro co d m E)) := by
  unfold setFilteredCoo
  refine M.wp_foldI (fun l k b' => k = (window ro co d m (E.take l.toNat)).length ∧ b' = b.overE (window ro co d m (E.take l.toNat)))
    (by omega) ⟨by simp [window], by simp [window, CooBufs.overE_nil]⟩ ?_ ?_
  · rintro l k b' l0 l1 ⟨rfl, rfl⟩
    obtain ⟨q, rfl⟩ : ∃ q : Nat, l = q := ⟨l.toNat, by omega⟩
    have hq : q < E.length := by omega
    obtain ⟨h1, h2, h3⟩ := h q hq
    have hw : window ro co d m (E.take (q + 1)) = window ro co d m (E.take q) ++ window ro co d m [E[q]] := by
      rw [← window_append, List.take_append_getElem hq]
    rw [M.wp_bind, M.wp_lift]
    refine ⟨_, Buf.rd_val h2, ?_⟩
    rw [M.wp_bind, M.wp_lift]
    refine ⟨_, Buf.rd_val h3, ?_⟩
    rw [show ((q : Int) + 1).toNat = q + 1 by omega, show (q : Int).toNat = q by omega, hw]
    by_cases hc : ro ≤ E[q].row ∧ E[q].row < ro + d ∧ co ≤ E[q].col ∧ E[q].col < co + m
    · rw [if_pos hc, M.wp_bind, M.wp_lift]
      refine ⟨_, Buf.rd_val h1, ?_⟩
      have hw1 : window ro co d m [E[q]] = [{ row := E[q].row - ro, col := E[q].col - co, val := E[q].val }] := by
        unfold window
        rw [List.filter_cons_of_pos (by simpa using hc)]; rfl
      have hlen := window_length_le ro co d m (E.take q)
      rw [hw1]
      refine overE_push (k := fun _ => pure (((window ro co d m (E.take q)).length : Int) + 1)) (n := E.length) (E := window ro co d m (E.take q)) (e := { row := E[q].row - ro, col := E[q].col - co, val := E[q].val }) hal (by rw [List.length_take] at hlen; omega) ?_
      rw [M.wp_pure]
      simp
    · rw [if_neg hc, M.wp_pure]
      have hw1 : window ro co d m [E[q]] = [] := by
        unfold window
        rw [List.filter_cons_of_neg (by simpa using hc)]; rfl
      rw [hw1]; simp
  · rintro k b' ⟨rfl, rfl⟩
    simp

theorem blasScal_spec1 [Mul T] {alpha : T} {E : List (Entry T)} {b : Buf T} (h : ∀ (l : Nat) (h : l < E.length), b l = .val E[l].val) :
    M.wp (blasScal E.length alpha 0 1) b (fun _ b' => (∀ (l : Nat) (h : l < E.length), b' l = .val (alpha * E[l].val)) ∧
      ∀ p, (E.length : Int) ≤ p → b' p = b p) := by
  unfold blasScal
  have hck : (blasCheck (0 ≤ (E.length : Int)) : M (Buf T) Unit) = pure () := by unfold blasCheck; rw [if_pos (by omega)]
  have hck1 : (blasCheck ((0 : Int) < 1) : M (Buf T) Unit) = pure () := by unfold blasCheck; rw [if_pos (by omega)]
  rw [hck, hck1]
  simp only [M.wp_bind, M.wp_pure]
  refine M.wp_forI (fun l b' => (∀ (q : Nat) (h : q < E.length), (q : Int) < l → b' q = .val (alpha * E[q].val)) ∧
    (∀ (q : Nat) (h : q < E.length), l ≤ q → b' q = .val E[q].val) ∧ ∀ p, (E.length : Int) ≤ p → b' p = b p) (by omega)
    ⟨fun q _ hq => by omega, fun q hq _ => h q hq, fun _ _ => rfl⟩ ?_ ?_
  · rintro l b' l0 l1 ⟨h1, h2, h3⟩
    obtain ⟨q, rfl⟩ : ∃ q : Nat, l = q := ⟨l.toNat, by omega⟩
    have hq : q < E.length := by omega
    have hv := h2 q hq le_rfl
    simp only [M.wp_bind, M.wp_rd, M.wp_wr, mul_one, zero_add]
    refine ⟨_, hv, by rw [hv]; simp, ?_, ?_, ?_⟩
    · intro r hr hrq
      by_cases hrq' : r = q
      · subst hrq'; simp
      · rw [Buf.set_ne (by omega)]; exact h1 r hr (by omega)
    · intro r hr r0
      rw [Buf.set_ne (by omega)]; exact h2 r hr (by omega)
    · intro p hp
      rw [Buf.set_ne (by omega)]; exact h3 p hp
  · rintro b' ⟨h1, _, h3⟩
    exact ⟨fun l hl => h1 l hl (by omega), h3⟩

/-- Elements behind the entries are those of the arrays before. -/
theorem overE_beyond (W : List (Entry T)) (b : CooBufs T) {q : Int} (h : (W.length : Int) ≤ q) :
    (CooBufs.overE W b).vals q = b.vals q ∧ (CooBufs.overE W b).rows q = b.rows q := by
  simp only [CooBufs.overE]
  rw [Buf.overL_out (by right; simpa using h), Buf.overL_out (by right; simpa using h)]
  exact ⟨rfl, rfl⟩

/-- The loop that sets `fixed_nnz_per_col` ends normally. -/
theorem fixed_ok {pt : Buf Int} {m : Int} (h : ∀ j, 0 ≤ j → j ≤ m → ∃ x, pt j = .val x) : Res.sat (fixedNnzPerCol pt m) (fun _ => True) := by
  unfold fixedNnzPerCol
  by_cases hm : m + 1 ≤ 2
  · unfold foldI
    rw [show (m + 1 - 2).toNat = 0 by omega]
    exact ⟨true, rfl, trivial⟩
  refine Res.sat_foldI (fun _ _ => True) (by omega) trivial ?_ (fun _ _ => trivial)
  intro ell r h0 h1 _
  cases r with
  | false => exact ⟨false, rfl, trivial⟩
  | true =>
    rw [if_pos rfl]
    simp only [Res.sat_bind]
    obtain ⟨x, hx⟩ := h 1 (by omega) (by omega)
    obtain ⟨y, hy⟩ := h ell (by omega) (by omega)
    exact ⟨_, Buf.rd_val hx, _, Buf.rd_val hy, _, rfl, trivial⟩

theorem regularOk_of_window_empty {m : Int} (hm : 1 ≤ m) : RegularOk m ([] : List (Entry T)) := ⟨hm, fun _ h => absurd rfl h⟩

theorem cooLeftCsc_spec [Zero T] [Add T] [Mul T] {E : List (Entry T)} {A : CooMat T} {alpha : T} {d n m ro co : Int} {B : Buf T}
    {layoutB layoutC : Layout} {ldb ldc : Int} {Bm C : Int → Int → T} {b0 b : Buf T} (h : CooIs A E) (hb : A.indexBase = .Zero)
    (hs : E.Pairwise cscLe) (hE : CooOk A.nnz m (window ro co d m E)) (hB : Holds B layoutB ldb m n Bm) (hld : LdOk layoutC ldc d n)
    (hC : MatSt b0 (addr layoutC ldc) d n (fun i j => .val (C i j)) b) (sched : List Nat) :
    M.wp (cooLeftCsc sched alpha layoutB layoutC d n m A ro co B ldb ldc) b (fun _ b' => MatSt b0 (addr layoutC ldc) d n
      (fun i j => .val (acc (window ro co d m E) (fun e => (alpha * e.val) * Bm e.col j) i (C i j))) b') := by
  have hd := h.data
  rw [hb] at hd
  have hre : rebase IndexBase.Zero.val E = E := by simp [rebase, IndexBase.val]
  rw [hre] at hd
  have hm : 0 ≤ m := by
    rcases hE with g | g | g
    · have := g.1; omega
    · omega
    · omega
  unfold cooLeftCsc
  rw [h.nnz] at hE
  simp only [M.wp_bind, M.wp_when, M.wp_onLocal, h.nnz]
  refine ⟨fun g => by omega, fun _ => ?_⟩
  set W := window ro co d m E with hW
  have hWl : W.length ≤ E.length := window_length_le ro co d m E
  refine M.wp_mono (setFilteredCoo_spec (A := A.bufs) hd ?_ ro co d m) ?_
  · intro p p0 p1
    exact ⟨fill_alloc p0 p1, fill_alloc p0 p1, fill_alloc p0 (by omega)⟩
  rintro k r ⟨rfl, rfl⟩
  have hov := overE_holds W (⟨Buf.fill E.length 0, Buf.fill E.length 0, Buf.fill (max E.length (m + 1)) 0⟩ : CooBufs T)
  refine M.wp_mono (blasScal_spec1 (E := W) (fun l hl => (hov l hl).1)) ?_
  rintro _ vals' ⟨hv, hvz⟩
  refine M.wp_mono (sortedToPtr_spec (major := Entry.col) (E := W) (n := m) (fun l hl => (hov l hl).2.2) (by omega) ?_ ?_ (window_sorted hs)) ?_
  · intro p p0 p1
    exact Buf.overL_ne_none (fill_alloc p0 (by omega))
  · intro e he; exact (window_rng e he).2.1
  rintro _ pt ⟨hpt, hpo⟩
  have hcs : CsIs Entry.col Entry.row m 0 pt (CooBufs.overE W ⟨Buf.fill E.length 0, Buf.fill E.length 0, Buf.fill (max E.length (m + 1)) 0⟩).rows
      (CooBufs.overE W ⟨Buf.fill E.length 0, Buf.fill E.length 0, Buf.fill (max E.length (m + 1)) 0⟩ : CooBufs T).vals W := by
    refine ⟨⟨below Entry.col W, hpt, below_zero fun e he => (window_rng e he).2.1, below_all fun e he => (window_rng e he).2.2,
      fun j _ _ => below_mono _ W (by omega), fun l hl => ?_⟩, fun l hl => ?_⟩
    · have := (window_rng _ (List.getElem_mem hl)).2
      exact ⟨this.1, this.2, below_slice (window_sorted hs) hl⟩
    · have := hov l hl
      exact ⟨this.1, by rw [add_zero]; exact this.2.1⟩
  rw [M.wp_lift]
  have hacc : ∀ {b' : Buf T}, MatSt b0 (addr layoutC ldc) d n
      (fun i j => .val (acc (mapVals (fun v => alpha * v) W) (fun e => e.val * Bm e.col j) i (C i j))) b' →
      MatSt b0 (addr layoutC ldc) d n (fun i j => .val (acc W (fun e => (alpha * e.val) * Bm e.col j) i (C i j))) b' :=
    fun hb' => hb'.congr fun i j _ => by rw [acc_mapVals]
  have hcs' := CsIs.mapVals (f := fun v => alpha * v) hcs (fun _ _ => rfl) (fun _ _ => rfl) hv
  have hrng : ∀ e ∈ mapVals (fun v => alpha * v) W, Rng d e.row := by
    intro e he
    simp only [mapVals, List.mem_map] at he
    obtain ⟨e', he', rfl⟩ := he
    exact (window_rng e' he').1
  by_cases hreg : RegularOk m W
  · obtain ⟨fixed, hf1, hf2⟩ := fixed_spec hcs hreg
    refine ⟨fixed, hf1, ?_⟩
    refine M.wp_mono (cscColumns_spec (E := mapVals (fun v => alpha * v) W) (d := d) hcs' hreg.1 ?_ hrng hB hld hC sched) fun _ b' hb' => hacc hb'
    intro ht
    rcases hf2 ht with g | g
    · exact Or.inl g
    · right; rw [g]; rfl
  rcases hE with g | ⟨rfl, hn2⟩ | ⟨hm2, hlen, hlaw⟩
  · exact absurd g hreg
  · -- no columns
    have hWn : W = [] := by
      rcases hWc : W with _ | ⟨e, W'⟩
      · rfl
      · have := window_rng (ro := ro) (co := co) (d := d) (m := 0) (E := E) e (by rw [← hW, hWc]; simp)
        simp only [Rng] at this; omega
    refine ⟨true, rfl, M.wp_mono (cscColumns_fixed (W := mapVals (fun v => alpha * v) W) (colNnz := 0) ?_ hB hld hC ?_ sched) fun _ b' hb' => hacc hb'⟩
    · rw [hpo 1 (by omega), ← hW, hWn, CooBufs.overE_nil]
      simp only [Buf.fill]
      rw [if_pos (by omega)]
    · intro v0 incv av0 incAv x F X b' _ _ _ hX
      unfold applyRegularCscVec
      refine wpF_forI_empty (by omega) (hX.congr fun i _ => ?_)
      rw [hWn]; rfl
  · -- all nonzeros in the first column
    have hcol : ∀ e ∈ W, e.col = 0 := by
      intro e he
      by_contra hc
      exact hreg ⟨by omega, fun _ _ => ⟨e, he, hc⟩⟩
    obtain ⟨fixed, hf1, -⟩ := fixed_ok (pt := pt) (m := m) (fun j j0 j1 => ⟨_, hpt j j0 j1⟩)
    refine ⟨fixed, hf1, ?_⟩
    cases fixed with
    | false => exact M.wp_mono (cscColumns_spec (E := mapVals (fun v => alpha * v) W) (d := d) hcs' (by omega) (by simp) hrng hB hld hC sched) fun _ b' hb' => hacc hb'
    | true =>
      have hbel : below Entry.col W 1 = W.length := below_all fun e he => by rw [hcol e he]; omega
      refine M.wp_mono (cscColumns_fixed (W := mapVals (fun v => alpha * v) W) (colNnz := W.length) ?_ hB hld hC ?_ sched) fun _ b' hb' => hacc hb'
      · rw [hpt 1 (by omega) (by omega), hbel]
      · intro v0 incv av0 incAv x F X b' hx hinj hF hX
        have := applyRegular_zeros (E := mapVals (fun v => alpha * v) W) (m := m) (d := d) (vals := vals')
          (idxs := (CooBufs.overE W ⟨Buf.fill E.length 0, Buf.fill E.length 0, Buf.fill (max E.length (m + 1)) 0⟩ : CooBufs T).rows)
          ?_ ?_ ?_ hlaw (by omega) hrng hx hinj hF hX
        · rwa [mapVals_length] at this
        · intro l hl
          have hl' : l < W.length := by simpa using hl
          rw [mapVals_getElem]
          exact ⟨hv l hl', (hov l hl').2.1⟩
        · intro e he
          simp only [mapVals, List.mem_map] at he
          obtain ⟨e', he', rfl⟩ := he
          exact hcol e' he'
        · intro q q0 q1
          rw [mapVals_length] at q0 q1
          rw [hvz q q0]
          have o := overE_beyond W (⟨Buf.fill E.length 0, Buf.fill E.length 0, Buf.fill (max E.length (m + 1)) 0⟩ : CooBufs T) q0
          rw [o.1, o.2]
          simp only [Buf.fill]
          rw [if_pos (by omega), if_pos (by omega)]
          exact ⟨rfl, rfl⟩

end RB
