import Verif.Lemmas.Spmm

/-! # Lemmas about the row-blocked CSC kernel -/

namespace RB
open Spec Prog

variable {T : Type}

/-- What the block bounds must satisfy: thread `t` gets the rows `q t ≤ i < q (t + 1)`. -/
structure Blocks (nt d : Int) (q : Int → Int) : Prop where
  zero : q 0 = 0
  mono : ∀ t, 0 ≤ t → t < nt → q t ≤ q (t + 1)
  all : d ≤ q nt

theorem Blocks.le {nt d : Int} {q : Int → Int} (h : Blocks nt d q) {t t' : Int} (h0 : 0 ≤ t) (h1 : t ≤ t') (h2 : t' ≤ nt) : q t ≤ q t' :=
  CsIs.ptr_le h.mono h0 h1 h2

/-- Every row belongs to exactly one block. -/
theorem Blocks.unique {nt d : Int} {q : Int → Int} (h : Blocks nt d q) (hnt : 1 ≤ nt) {i : Int} (h0 : 0 ≤ i) (h1 : i < d) :
    ∃! t, (0 ≤ t ∧ t < nt) ∧ q t ≤ i ∧ i < q (t + 1) := by
  have hex : ∀ k : Nat, (k : Int) ≤ nt → i < q k → ∃ t : Int, (0 ≤ t ∧ t < k) ∧ q t ≤ i ∧ i < q (t + 1) := by
    intro k
    induction k with
    | zero => intro _ hk; have := h.zero; simp at hk; omega
    | succ k ih =>
      intro hk hik
      by_cases hc : i < q k
      · obtain ⟨t, ht, h2⟩ := ih (by push_cast at hk; omega) hc
        exact ⟨t, ⟨ht.1, by push_cast; omega⟩, h2⟩
      · push_cast at hik
        exact ⟨k, ⟨by omega, by push_cast; omega⟩, by omega, hik⟩
  obtain ⟨t, ht, h2⟩ := hex nt.toNat (by omega) (by rw [show ((nt.toNat : Nat) : Int) = nt by omega]; have := h.all; omega)
  refine ⟨t, ⟨⟨ht.1, by omega⟩, h2⟩, ?_⟩
  rintro t' ⟨ht', h2'⟩
  by_contra hne
  rcases lt_or_gt_of_ne hne with g | g
  · have := h.le (t := t' + 1) (t' := t) (by omega) (by omega) (by omega)
    omega
  · have := h.le (t := t + 1) (t' := t') (by omega) (by omega) (by omega)
    omega

theorem blockBounds_spec {nt d : Int} (h1 : 1 ≤ nt) (h2 : nt ≤ 2 ^ 30) (h3 : 0 ≤ d) (h4 : d < 2 ^ 31) :
    M.wp (blockBounds nt d) (Buf.fill (nt + 1) 0) (fun _ bb => ∃ q, Blocks nt d q ∧ ∀ t, 0 ≤ t → t ≤ nt → bb t = .val (q t)) := by
  unfold blockBounds
  set q0 := d.tdiv nt with hq0
  have e1 : d.tdiv nt = d / nt := Int.tdiv_eq_ediv_of_nonneg h3
  have e2 : d.tmod nt = d % nt := Int.tmod_eq_emod_of_nonneg h3
  have hdm := Int.mul_ediv_add_emod d nt
  have hm0 := Int.emod_nonneg d (show nt ≠ 0 by omega)
  have hm1 := Int.emod_lt_of_pos d (show 0 < nt by omega)
  have hq : 0 ≤ q0 := by rw [hq0, e1]; exact Int.ediv_nonneg h3 (by omega)
  have hqd : q0 ≤ d := by rw [hq0, e1]; exact Int.ediv_le_self _ h3
  have hw : wrapInt 32 q0 = q0 := by unfold wrapInt; omega
  have hmul : nt * q0 + d % nt = d := by rw [hq0, e1]; exact hdm
  set bs : Int := if wrapInt 32 q0 = 0 then 1 else wrapInt 32 q0 with hbs
  have hbs1 : 1 ≤ bs := by rw [hbs, hw]; split_ifs <;> omega
  have hbound : nt * bs ≤ 2 ^ 31 - 1 ∧ nt * bs + d % nt ≤ 2 ^ 31 - 1 ∧ d ≤ nt * bs + d % nt := by
    rw [hbs, hw]
    by_cases hz : q0 = 0
    · rw [if_pos hz]
      rw [hz] at hmul
      omega
    · rw [if_neg hz]; omega
  have hmulle : ∀ t, 0 ≤ t → t ≤ nt → t * bs ≤ nt * bs := fun t _ ht => by nlinarith
  have hmul0 : ∀ t, 0 ≤ t → 0 ≤ t * bs := fun t ht => by nlinarith
  simp only [M.wp_bind]
  refine M.wp_forI (fun t b => (∀ r, 0 ≤ r → r ≤ t → b r = .val (r * bs)) ∧ ∀ r, 0 ≤ r → r ≤ nt → b r ≠ .none) (by omega) ?_ ?_ ?_
  · refine ⟨fun r r0 r1 => ?_, fun r r0 r1 => fill_alloc r0 (by omega)⟩
    have : r = 0 := by omega
    subst this
    simp [Buf.fill]; omega
  · rintro t b t0 t1 ⟨g1, g2⟩
    have a1 := hmulle (t + 1) (by omega) (by omega)
    have a2 := hmul0 (t + 1) (by omega)
    have a3 := hmul0 t t0
    have hadd : t * bs + bs = (t + 1) * bs := by ring
    simp only [M.wp_bind, M.wp_rd, M.wp_lift, M.wp_wr]
    refine ⟨_, g1 t t0 le_rfl, (t + 1) * bs, ?_, g2 _ (by omega) (by omega), ?_, ?_⟩
    · unfold addI32
      rw [hadd, if_pos (by unfold FitsInt intMin intMax; norm_num; omega)]
    · intro r r0 r1
      by_cases he : r = t + 1
      · subst he; simp
      · rw [Buf.set_ne he]; exact g1 r r0 (by omega)
    · intro r r0 r1
      rw [Buf.set_apply]
      split_ifs
      · simp
      · exact g2 r r0 r1
  · rintro b ⟨g1, g2⟩
    simp only [M.wp_rd, M.wp_wr]
    have a2 := hmul0 nt (by omega)
    refine ⟨_, g1 nt (by omega) le_rfl, g2 nt (by omega) le_rfl, fun t => if t = nt then nt * bs + d % nt else t * bs, ⟨?_, ?_, ?_⟩, ?_⟩
    · rw [if_neg (by omega)]; ring
    · intro t t0 t1
      rw [if_neg (by omega)]
      have a1 := hmulle (t + 1) (by omega) (by omega)
      have hadd : t * bs + bs = (t + 1) * bs := by ring
      split_ifs with hc
      · rw [hc] at hadd; omega
      · omega
    · rw [if_pos rfl]; exact hbound.2.2
    · intro t t0 t1
      beta_reduce
      by_cases hc : t = nt
      · subst hc
        rw [Buf.set_same, if_pos rfl, e2]
        congr 1
        unfold wrapInt; omega
      · rw [Buf.set_ne hc, if_neg hc]; exact g1 t t0 (by omega)

section kib
variable [Add T] [Mul T]

theorem cscKibThread_spec {E : List (Entry T)} {A : CscMat T} {alpha : T} {n : Int} {B : Buf T} {ldb ldc : Int} {Bm C : Int → Int → T}
    {b : Buf T} (h : CscIs A E) (hb : A.indexBase = .Zero) (hn : 0 ≤ n) (hm : 0 ≤ A.nCols) (hr : ∀ e ∈ E, Rng A.nRows e.row)
    (hB : Holds B .RowMajor ldb A.nCols n Bm) (hld : n ≤ ldc) {lo hi : Int}
    (hC : ∀ i j, InR A.nRows n i j → lo ≤ i → i < hi → b (addr .RowMajor ldc i j) = .val (C i j)) :
    wpF (fun p => ∃ i j, InR A.nRows n i j ∧ lo ≤ i ∧ i < hi ∧ p = addr .RowMajor ldc i j) (cscKibThread alpha n A.nCols A B ldb ldc lo hi) b
      (fun _ b' => CellSt (fun q : Int × Int => InR A.nRows n q.1 q.2 ∧ lo ≤ q.1 ∧ q.1 < hi) (fun q => addr .RowMajor ldc q.1 q.2)
        (fun q => acc E (fun e => (alpha * e.val) * Bm e.col q.2) q.1 (C q.1 q.2)) b') := by
  have hd := h.data
  rw [hb] at hd
  simp only [IndexBase.val] at hd
  obtain ⟨p, hp, hp0, hpn, hmono, hsl⟩ := hd.ptrs
  have hldo : LdOk .RowMajor ldc A.nRows n := hld
  unfold cscKibThread
  refine wpF_forI (fun k b' => CellSt (fun q : Int × Int => InR A.nRows n q.1 q.2 ∧ lo ≤ q.1 ∧ q.1 < hi) (fun q => addr .RowMajor ldc q.1 q.2)
        (fun q => acc (E.take (p k).toNat) (fun e => (alpha * e.val) * Bm e.col q.2) q.1 (C q.1 q.2)) b') hm ?_ ?_ ?_
  · intro q hq
    simp only [hp0]
    exact hC q.1 q.2 hq.1 hq.2.1 hq.2.2
  · intro k b' k0 k1 hb'
    rw [wpF_bind, wpF_lift]
    refine ⟨_, Buf.rd_val (hp k k0 (by omega)), ?_⟩
    rw [wpF_bind, wpF_lift]
    refine ⟨_, Buf.rd_val (hp (k + 1) (by omega) (by omega)), ?_⟩
    have c0 := CsIs.ptr_le hmono le_rfl k0 (by omega)
    have c1 := CsIs.ptr_le hmono (show 0 ≤ k + 1 by omega) (show k + 1 ≤ A.nCols by omega) le_rfl
    refine wpF_forI (fun l b' => CellSt (fun q : Int × Int => InR A.nRows n q.1 q.2 ∧ lo ≤ q.1 ∧ q.1 < hi)
        (fun q => addr .RowMajor ldc q.1 q.2)
        (fun q => acc (E.take l.toNat) (fun e => (alpha * e.val) * Bm e.col q.2) q.1 (C q.1 q.2)) b') (hmono k k0 k1) hb' ?_ (fun _ h => h)
    intro l b'' l0 l1 hb''
    obtain ⟨q, rfl⟩ : ∃ q : Nat, l = q := ⟨l.toNat, by omega⟩
    have hq : q < E.length := by omega
    obtain ⟨d1, d2⟩ := hd.data q hq
    have hmaj := CsIs.major_of_slice hmono hsl k0 k1 hq l0 l1
    have hrow := hr _ (List.getElem_mem hq)
    rw [wpF_bind, wpF_lift]
    refine ⟨_, Buf.rd_val d2, ?_⟩
    rw [add_zero]
    by_cases hin : lo ≤ E[q].row ∧ E[q].row < hi
    · rw [if_pos hin, wpF_bind, wpF_lift]
      refine ⟨_, Buf.rd_val d1, ?_⟩
      refine wpF_mono (progAxpy_spec (x := fun j => Bm k j) (i := E[q].row) hn hb'' ?_ ?_ ?_ ?_ ?_) ?_
      · rintro ⟨a1, a2⟩ ⟨b1, b2⟩ ⟨ha, _⟩ ⟨hb, _⟩ he
        have := addr_inj hldo ha hb he
        exact Prod.ext this.1 this.2
      · intro j j0 j1; exact ⟨⟨hrow.1, hrow.2, j0, j1⟩, hin⟩
      · intro j j0 j1; exact ⟨_, j, ⟨hrow.1, hrow.2, j0, j1⟩, hin.1, hin.2, rfl⟩
      · intro j; rfl
      · intro j j0 j1
        exact hB _ j ⟨k0, k1, j0, j1⟩
      · intro _ b3 hb3
        refine hb3.congr fun r hr' => ?_
        rw [show ((q : Int) + 1).toNat = q + 1 by omega, acc_push _ _ _ hq, hmaj]
        have := hr'.1.2.2
        by_cases hc : r.1 = E[q].row
        · rw [if_pos ⟨hc, this.1, this.2⟩, if_pos hc]; simp
        · rw [if_neg (fun h => hc h.1), if_neg hc]; simp
    · rw [if_neg hin, wpF_pure]
      refine hb''.congr fun r hr' => ?_
      rw [show ((q : Int) + 1).toNat = q + 1 by omega, acc_push _ _ _ hq, if_neg (by
        intro hc; exact hin (by rw [← hc]; exact hr'.2))]
      simp
  · intro b' hb'
    refine hb'.congr fun q _ => ?_
    rw [hpn]; simp

theorem cscLeftKib_spec {E : List (Entry T)} {A : CscMat T} {alpha : T} {n : Int} {B : Buf T} {ldb ldc : Int} {Bm C : Int → Int → T}
    {b0 b : Buf T} {nt : Int} (hnt : 1 ≤ nt) (hnt' : nt ≤ 2 ^ 30) (h : CscIs A E) (hb : A.indexBase = .Zero) (hn : 0 ≤ n) (hm : 0 ≤ A.nCols)
    (hd0 : 0 ≤ A.nRows) (hd1 : A.nRows < 2 ^ 31) (hr : ∀ e ∈ E, Rng A.nRows e.row)
    (hB : Holds B .RowMajor ldb A.nCols n Bm) (hld : n ≤ ldc)
    (hC : MatSt b0 (addr .RowMajor ldc) A.nRows n (fun i j => .val (C i j)) b) (sched : List Nat) :
    M.wp (cscLeftKib sched nt alpha A.nRows n A.nCols A B ldb ldc) b (fun _ b' => MatSt b0 (addr .RowMajor ldc) A.nRows n
      (fun i j => .val (acc E (fun e => (alpha * e.val) * Bm e.col j) i (C i j))) b') := by
  have hldo : LdOk .RowMajor ldc A.nRows n := hld
  unfold cscLeftKib
  simp only [M.wp_bind, M.wp_require, M.wp_onLocal]
  refine ⟨hb, trivial, trivial, M.wp_mono (blockBounds_spec hnt hnt' hd0 hd1) ?_⟩
  rintro _ bb ⟨q, hq, hbb⟩
  refine wpF_parForI (fun t p => ∃ i j, InR A.nRows n i j ∧ q t ≤ i ∧ i < q (t + 1) ∧ p = addr .RowMajor ldc i j)
    (fun t b' => CellSt (fun r : Int × Int => InR A.nRows n r.1 r.2 ∧ q t ≤ r.1 ∧ r.1 < q (t + 1)) (fun r => addr .RowMajor ldc r.1 r.2)
        (fun r => acc E (fun e => (alpha * e.val) * Bm e.col r.2) r.1 (C r.1 r.2)) b') ?_ ?_ ?_ sched ?_
  · rintro t t' t0 t1 t0' t1' hne p ⟨i, j, hij, g1, g2, he⟩ ⟨i', j', hij', g1', g2', he'⟩
    have h1 := (addr_inj hldo hij hij' (he.symm.trans he')).1
    subst h1
    obtain ⟨tu, _, hu⟩ := hq.unique hnt hij.1 hij.2.1
    exact hne ((hu t ⟨⟨t0, t1⟩, g1, g2⟩).trans (hu t' ⟨⟨t0', t1'⟩, g1', g2'⟩).symm)
  · intro t _ _ c c' hcc hc r hr'
    rw [← hcc _ ⟨r.1, r.2, hr'.1, hr'.2.1, hr'.2.2, rfl⟩]
    exact hc r hr'
  · intro t t0 t1
    rw [wpF_bind, wpF_lift]
    refine ⟨_, Buf.rd_val (hbb t t0 (by omega)), ?_⟩
    rw [wpF_bind, wpF_lift]
    refine ⟨_, Buf.rd_val (hbb (t + 1) (by omega) (by omega)), ?_⟩
    exact cscKibThread_spec h hb hn hm hr hB hld (fun i j hij _ _ => hC.cells i j hij)
  · intro b' h1 h2
    constructor
    · intro i j hij
      obtain ⟨t, ⟨ht, g⟩, _⟩ := hq.unique hnt hij.1 hij.2.1
      exact h1 t ht.1 ht.2 (i, j) ⟨hij, g⟩
    · intro p hp
      rw [h2 p ?_, hC.outside p hp]
      rintro t t0 t1 ⟨i, j, hij, _, _, he⟩
      exact hp i j hij he

end kib

end RB
