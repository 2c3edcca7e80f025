import Verif.Spec.Qrcp
import Verif.Lemmas.Power
import Verif.Lemmas.ExLapack
import Verif.Lemmas.DenseSparse
import Verif.Lemmas.SpmmRun

/-! # Lemmas about column pivoting and the steps of `sketch_to_tqrcp` -/

namespace RB
open Spec

variable {T : Type}

theorem TqrSt.wp_onQ {α : Type} {t : TqrSt T} {P : α → TqrSt T → Prop} {m : M (Buf T) α} :
    M.wp (TqrSt.onQ m) t P ↔ M.wp m t.q (fun x b => P x { t with q := b }) := by unfold TqrSt.onQ; rw [M.wp_zoom]
theorem TqrSt.wp_onY {α : Type} {t : TqrSt T} {P : α → TqrSt T → Prop} {m : M (Buf T) α} :
    M.wp (TqrSt.onY m) t P ↔ M.wp m t.y (fun x b => P x { t with y := b }) := by unfold TqrSt.onY; rw [M.wp_zoom]
theorem TqrSt.wp_onPiv {α : Type} {t : TqrSt T} {P : α → TqrSt T → Prop} {m : M (Buf Int) α} :
    M.wp (TqrSt.onPiv m) t P ↔ M.wp m t.piv (fun x b => P x { t with piv := b }) := by unfold TqrSt.onPiv; rw [M.wp_zoom]
theorem TqrSt.wp_onPre {α : Type} {t : TqrSt T} {P : α → TqrSt T → Prop} {m : M (Buf T) α} :
    M.wp (TqrSt.onPre m) t P ↔ M.wp m t.pre (fun x b => P x { t with pre := b }) := by unfold TqrSt.onPre; rw [M.wp_zoom]

/-! ## Sequences of exchanges -/

theorem swapSeq_range {p : Int → Int} {n : Int} : ∀ {k : Nat}, (k : Int) ≤ n → (∀ i : Int, 0 ≤ i → i < k → i ≤ p i ∧ p i < n) →
    ∀ q, 0 ≤ q → q < n → 0 ≤ swapSeq p k q ∧ swapSeq p k q < n := by
  intro k
  induction k with
  | zero => intro _ _ q h0 h1; exact ⟨h0, h1⟩
  | succ k ih =>
    intro hk hp q h0 h1
    have := hp k (by omega) (by omega)
    rw [swapSeq]
    refine ih (by omega) (fun i g0 g1 => hp i g0 (by omega)) _ ?_ ?_ <;> split_ifs <;> omega

theorem swapSeq_inj {p : Int → Int} : ∀ {k : Nat} {q q' : Int}, swapSeq p k q = swapSeq p k q' → q = q' := by
  intro k
  induction k with
  | zero => intro q q' h; exact h
  | succ k ih =>
    intro q q' h
    rw [swapSeq] at h
    have := ih h
    split_ifs at this <;> omega

theorem swapSeq_surj {p : Int → Int} {n : Int} : ∀ {k : Nat}, (k : Int) ≤ n → (∀ i : Int, 0 ≤ i → i < k → i ≤ p i ∧ p i < n) →
    ∀ y, 0 ≤ y → y < n → ∃ q, 0 ≤ q ∧ q < n ∧ swapSeq p k q = y := by
  intro k
  induction k with
  | zero => intro _ _ y h0 h1; exact ⟨y, h0, h1, rfl⟩
  | succ k ih =>
    intro hk hp y h0 h1
    obtain ⟨q, g0, g1, rfl⟩ := ih (by omega) (fun i g0 g1 => hp i g0 (by omega)) y h0 h1
    have := hp k (by omega) (by omega)
    refine ⟨if q = k then p k else if q = p k then k else q, ?_, ?_, ?_⟩
    · split_ifs <;> omega
    · split_ifs <;> omega
    · rw [swapSeq]; dsimp only
      congr 1
      split_ifs <;> omega

/-! ## The mathematics of the preconditioner -/

section
variable [Field T] [LinearOrder T] [IsStrictOrderedRing T]

omit [LinearOrder T] [IsStrictOrderedRing T] in
theorem tri_cancel {n : Int} {R X Y : Int → Int → T} (hup : ∀ i j, j < i → R i j = 0) (hd : ∀ i, 0 ≤ i → i < n → R i i ≠ 0) {i : Int}
    (h : ∀ j, 0 ≤ j → j < n → prodEntry n X R i j = prodEntry n Y R i j) : ∀ j, 0 ≤ j → j < n → X i j = Y i j := by
  intro j h0 hj
  have := tri_zero_left (R := fun i j => R i j) n.toNat (fun i j h => hup _ _ (by omega)) (fun k hk => hd k (by omega) (by omega))
    (y := fun l => X i l - Y i l) (fun k hk => by
      have := h k (by omega) (by omega)
      rw [← sub_eq_zero, ← prodEntry_sub_left] at this
      exact this) j.toNat (by omega)
  rw [show ((j.toNat : Nat) : Int) = j by omega] at this
  exact sub_eq_zero.1 this

/-- If the rows of Y are independent, the diagonal of R is nonzero. -/
theorem qrcp_diag {k n : Int} {Y : Int → Int → T} {F : Qrcp T} (h : QrcpIs k n Y F) (hkn : k ≤ n) (hY : FullColRank n k (fun i j => Y j i)) :
    ∀ j, 0 ≤ j → j < k → F.f j j ≠ 0 := by
  intro j h0 hj hz
  obtain ⟨p, hp, hpiv⟩ := h.perm
  obtain ⟨Q, hQ, hfac⟩ := h.factor
  rw [min_eq_left hkn] at hp hpiv
  have hrow : ∀ c, j ≤ c → c < n → F.f j c = 0 := by
    intro c g0 g1
    have := h.greedy j c h0 hj g0 g1
    rw [hz] at this
    have hnn : ∀ l ∈ Finset.range k.toNat, (0 : T) ≤ if j ≤ (l : Int) ∧ (l : Int) ≤ c then F.f l c ^ 2 else 0 := fun l _ => by
      split_ifs
      · exact sq_nonneg _
      · exact le_rfl
    have h1 := Finset.single_le_sum hnn (Finset.mem_range.2 (show j.toNat < k.toNat by omega))
    rw [if_pos (by omega), show ((j.toNat : Nat) : Int) = j by omega] at h1
    have h2 : F.f j c ^ 2 ≤ 0 := by
      refine h1.trans (this.trans ?_)
      simp
    exact pow_eq_zero_iff (two_ne_zero) |>.1 (le_antisymm h2 (sq_nonneg _))
  have hx := hY (fun i => Q i j) ?_
  · have h1 := hQ j j ⟨h0, hj, h0, hj⟩
    rw [if_pos rfl] at h1
    refine one_ne_zero (α := T) (h1.symm.trans ?_)
    exact prodEntry_zero_right fun l g0 g1 => hx l g0 g1
  · intro c g0 g1
    obtain ⟨q, q0, q1, hq⟩ := swapSeq_surj (p := p) (n := n) (k := k.toNat) (by omega) (fun i g0 g1 => hp i g0 (by omega)) c g0 g1
    have hc : F.piv q - 1 = c := by rw [hpiv q q0 q1, hq]; ring
    have e1 : prodEntry k (fun i l => Q l i) (prodEntry k Q fun l j => if l ≤ j then F.f l j else 0) j q = 0 := by
      rw [← prodEntry_assoc]
      have : prodEntry k (prodEntry k (fun i l => Q l i) Q) (fun l j => if l ≤ j then F.f l j else 0) j q =
          prodEntry k (fun r c => if r = c then 1 else 0) (fun l j => if l ≤ j then F.f l j else 0) j q :=
        prodEntry_ext (fun l g0 g1 => hQ j l ⟨h0, hj, g0, g1⟩) (fun _ _ _ => rfl)
      rw [this, prodEntry_one_left _ _ h0 hj]
      split_ifs with h2
      · exact hrow q h2 q1
      · rfl
    rw [← e1]
    unfold prodEntry
    refine Finset.sum_congr rfl fun l hl => ?_
    have hl := Finset.mem_range.1 hl
    have := hfac l q ⟨by omega, by omega, q0, q1⟩
    rw [hc] at this
    show Y l c * Q l j = _
    rw [this, mul_comm]
    rfl

omit [LinearOrder T] in
/-- The preconditioned matrix has independent columns, if Y = S A. -/
theorem precond_fullRank [LinearOrder T] [IsStrictOrderedRing T] {k m n : Int} {A Y S Q1 : Int → Int → T} {F : Qrcp T} (h : QrcpIs k n Y F) (hkn : k ≤ n)
    (hS : ∀ i j, InR k n i j → Y i j = prodEntry m S A i j) (hd : ∀ j, 0 ≤ j → j < k → F.f j j ≠ 0)
    (hQ1 : ∀ i j, InR m k i j → prodEntry k Q1 (fun l j => if l ≤ j then F.f l j else 0) i j = A i (F.piv j - 1)) : FullColRank m k Q1 := by
  obtain ⟨p, hp, hpiv⟩ := h.perm
  obtain ⟨Q, hQ, hfac⟩ := h.factor
  rw [min_eq_left hkn] at hp hpiv
  have e1 : ∀ i j, InR k k i j → prodEntry m S Q1 i j = Q i j := by
    intro i j hij
    refine tri_cancel (R := fun l j => if l ≤ j then F.f l j else 0) (fun i j hji => if_neg (by omega)) (fun i g0 g1 => by rw [if_pos le_rfl]; exact hd i g0 g1)
      (fun c g0 g1 => ?_) j hij.2.2.1 hij.2.2.2
    rw [prodEntry_assoc, ← hfac i c ⟨hij.1, hij.2.1, g0, by omega⟩]
    have hr := swapSeq_range (p := p) (n := n) (k := k.toNat) (by omega) (fun i g0 g1 => hp i g0 (by omega)) c g0 (by omega)
    have hc : F.piv c - 1 = swapSeq p k.toNat c := by rw [hpiv c g0 (by omega)]; ring
    rw [hc, hS i _ ⟨hij.1, hij.2.1, hr.1, hr.2⟩]
    exact prodEntry_ext (B := prodEntry k Q1 fun l j => if l ≤ j then F.f l j else 0) (B' := fun l _ => A l (swapSeq p k.toNat c)) (j := c) (fun _ _ _ => rfl)
      fun l l0 l1 => by rw [hQ1 l c ⟨l0, l1, g0, g1⟩, hc]
  intro x hx
  refine ortho_fullRank hQ x fun i g0 g1 => ?_
  have e2 : prodEntry k (prodEntry m S Q1) (fun j _ => x j) i 0 = 0 := by
    rw [prodEntry_assoc]
    exact prodEntry_zero_right fun l l0 l1 => hx l l0 l1
  rw [← e2]
  unfold prodEntry
  refine Finset.sum_congr rfl fun j hj => ?_
  have hj := Finset.mem_range.1 hj
  have := e1 i j ⟨g0, g1, by omega, by omega⟩
  rw [← this]; rfl

end

/-! ## The steps -/

theorem geqp3_spec [Ring T] [LinearOrder T] {qrcp : Int → Int → (Int → Int) → (Int → Int → T) → Qrcp T} {k n ldy : Int} {Y : Int → Int → T} {s : TqrSt T}
    (hk : 1 ≤ k) (hn : 0 ≤ n) (hl : k ≤ ldy) (hY : HoldsC s.y ldy k n Y) (hp : HoldsVec s.piv n fun _ => 0) (hq : QrcpFor qrcp k n Y) :
    M.wp (geqp3 qrcp k n ldy) s (fun _ s' => ∃ F y' p', QrcpIs k n Y F ∧ s' = { s with y := y', piv := p' } ∧
      Upd ldy (InR k n) F.f s.y y' ∧ HoldsVec p' n F.piv ∧ SameOutsideVec s.piv p' n) := by
  unfold geqp3
  have hY' : ∀ i j, InR k n i j → s.y (i + j * ldy) = .val (Y i j) := fun i j hij => by rw [← addr_colMajor]; exact hY i j hij
  simp only [M.wp_bind, wp_blasCheck, TqrSt.wp_onPiv, TqrSt.wp_onY]
  refine ⟨by omega, hn, by omega, ?_⟩
  refine M.wp_mono (readMat_spec (A := fun _ _ => 0) hn (by omega) (fun i j hij => by
    obtain ⟨h0, h1, h2, h3⟩ := hij
    obtain rfl : j = 0 := by omega
    rw [zero_mul, add_zero]; exact hp i h0 h1)) ?_
  rintro P _ ⟨rfl, hP⟩
  refine M.wp_mono (readMat_spec (by omega) hn hY') ?_
  rintro A _ ⟨rfl, hA⟩
  refine M.wp_mono (writeMat_spec (by omega) hn hl (fun i j hij => by rw [hY' i j hij]; simp)) ?_
  intro _ y' hy'
  refine M.wp_mono (writeVec_spec hn (fun i h0 h1 => by rw [hp i h0 h1]; simp)) ?_
  rintro _ p' ⟨h1, h2⟩
  exact ⟨_, y', p', hq (fun i => P i 0) A (fun i h0 h1 => hP i 0 ⟨h0, h1, by omega, by omega⟩) hA, rfl, hy', h1, h2⟩

theorem overwrite_before [Zero T] {E : List (Entry T)} {r c : Int} (h : ∀ e ∈ E, ¬ (e.row = r ∧ e.col = c)) : overwrite E r c = 0 := by
  induction E using List.reverseRecOn with
  | nil => rfl
  | append_singleton E e ih =>
    rw [overwrite_push, if_neg (fun hc => h e (by simp) ⟨hc.1.symm, hc.2.symm⟩)]
    exact ih fun e he => h e (by simp [he])

theorem overwrite_after [Zero T] {E : List (Entry T)} {r c : Int} {l : Nat} (h : ∀ (i : Nat) (hi : i < E.length), l ≤ i → E[i].col ≠ c) :
    overwrite (E.take l) r c = overwrite E r c := by
  unfold overwrite
  conv_rhs => rw [← List.take_append_drop l E, List.foldl_append]
  have : ∀ (L : List (Entry T)) (x : T), (∀ e ∈ L, e.col ≠ c) → L.foldl (fun x e => if e.row = r ∧ e.col = c then e.val else x) x = x := by
    intro L
    induction L with
    | nil => intro x _; rfl
    | cons e L ih =>
      intro x hL
      rw [List.foldl_cons, if_neg (fun hc => hL e (by simp) hc.2)]
      exact ih x fun e he => hL e (by simp [he])
  refine (this (E.drop l) _ ?_).symm
  intro e he
  obtain ⟨i, hi, rfl⟩ := List.getElem_of_mem he
  rw [List.getElem_drop]
  exact h _ (by rw [List.length_drop] at hi; omega) (by omega)

theorem tqrCopyCol_spec [Semiring T] [DecidableEq T] {A : CscMat T} {E : List (Entry T)} {k ldq j : Int} {pi : Int → Int} {q0 : Buf T} {s : TqrSt T}
    (hA : CscIs A E) (hb : A.indexBase = .Zero) (hr : InRange A.nRows A.nCols E) (hm : 0 ≤ A.nRows) (hl : A.nRows ≤ ldq) (hj0 : 0 ≤ j) (hjk : j < k)
    (hpi : s.piv j = .val (pi j + 1)) (hpr : 0 ≤ pi j ∧ pi j < A.nCols) (hal : ∀ r c, InR A.nRows k r c → q0 (r + c * ldq) ≠ .none)
    (hq : Upd ldq (InR A.nRows j) (fun r c => overwrite E r (pi c)) q0 s.q) :
    M.wp (tqrCopyCol A A.nRows ldq j) s (fun _ s' => ∃ q', s' = { s with q := q' } ∧ Upd ldq (InR A.nRows (j + 1)) (fun r c => overwrite E r (pi c)) q0 q') := by
  have hrows : ∀ c, RowsIn ldq (InR A.nRows c) := fun c r c' h => ⟨h.1, by have := h.2.1; omega⟩
  have hd := hA.data
  rw [hb] at hd
  obtain ⟨p, hp, hp0, hpn, hmono, hsl⟩ := hd.ptrs
  unfold tqrCopyCol
  rw [M.wp_bind, TqrSt.wp_onQ]
  refine M.wp_mono (safeScal_zero_spec hm one_pos (by simp) (fun i h0 h1 => ?_)) ?_
  · have := hq.other (hrows j) (i := i) (j := j) ⟨h0, by omega⟩ (fun h => by have := h.2.2.2; omega)
    rw [show j * ldq + i * 1 = i + j * ldq by ring, this]
    exact hal i j ⟨h0, h1, hj0, hjk⟩
  rintro _ q1 ⟨g1, g2⟩
  rw [M.wp_bind, TqrSt.wp_onPiv, M.wp_rd]
  refine ⟨_, hpi, ?_⟩
  rw [M.wp_bind, M.wp_lift]
  refine ⟨_, Buf.rd_val (hp (pi j + 1 - 1) (by omega) (by omega)), ?_⟩
  rw [M.wp_bind, M.wp_lift]
  refine ⟨_, Buf.rd_val (hp (pi j + 1) (by omega) (by omega)), ?_⟩
  rw [show pi j + 1 - 1 = pi j by ring]
  have hmn : ∀ (d : Nat) (i : Int), 0 ≤ i → i + d ≤ A.nCols → p i ≤ p (i + d) := by
    intro d
    induction d with
    | zero => intro i _ _; simp
    | succ d ih =>
      intro i h0 h1
      have e1 := ih i h0 (by push_cast at h1; omega)
      have e2 := hmono (i + d) (by omega) (by push_cast at h1; omega)
      push_cast; rw [← add_assoc]; omega
  have hlo : 0 ≤ p (pi j) := by
    have := hmn (pi j).toNat 0 le_rfl (by omega)
    rw [show (0 : Int) + (pi j).toNat = pi j by omega] at this
    omega
  have hhi : p (pi j + 1) ≤ E.length := by
    have := hmn (A.nCols - (pi j + 1)).toNat (pi j + 1) (by omega) (by omega)
    rw [show (pi j + 1) + ((A.nCols - (pi j + 1)).toNat : Int) = A.nCols by omega] at this
    omega
  refine M.wp_forI (fun l s' => ∃ q', s' = { s with q := q' } ∧
      Upd ldq (InR A.nRows (j + 1)) (fun r c => if c < j then overwrite E r (pi c) else overwrite (E.take l.toNat) r (pi j)) q0 q') (hmono _ hpr.1 hpr.2) ⟨q1, rfl, ?_⟩ ?_ ?_
  · constructor
    · intro r c hrc
      by_cases hc : c < j
      · rw [if_pos hc, g2 _ (fun i h0 h1 he => ?_), hq.cells r c ⟨hrc.1, hrc.2.1, hrc.2.2.1, hc⟩]
        have := (cell_inj (ld := ldq) ⟨hrc.1, by have := hrc.2.1; omega⟩ ⟨h0, by omega⟩ (show r + c * ldq = i + j * ldq by rw [he]; ring)).2
        omega
      · obtain rfl : c = j := by have := hrc.2.2.2; omega
        rw [if_neg hc, show r + c * ldq = c * ldq + r * 1 by ring, g1 r hrc.1 hrc.2.1, overwrite_before]
        intro e he hc
        obtain ⟨i, hi, rfl⟩ := List.getElem_of_mem he
        rw [List.getElem_take] at hc
        rw [List.length_take] at hi
        have := hsl i (by omega)
        rw [hc.2] at this
        omega
    · intro x hx
      rw [g2 x (fun i h0 h1 he => hx i j ⟨h0, h1, hj0, by omega⟩ (by rw [he]; ring))]
      exact hq.outside x fun r c hrc => hx r c ⟨hrc.1, hrc.2.1, hrc.2.2.1, by have := hrc.2.2.2; omega⟩
  · rintro l _ h0 h1 ⟨q', rfl, hq'⟩
    obtain ⟨l, rfl⟩ := Int.eq_ofNat_of_zero_le (hlo.trans h0)
    have hlE : l < E.length := by omega
    have hcol : E[l].col = pi j := CsIs.major_of_slice hmono hsl hpr.1 hpr.2 hlE h0 h1
    have hdat := hd.data l hlE
    have hrw := hr _ (List.getElem_mem hlE)
    rw [M.wp_bind, M.wp_lift]
    refine ⟨_, Buf.rd_val hdat.2, ?_⟩
    rw [M.wp_bind, M.wp_lift]
    refine ⟨_, Buf.rd_val hdat.1, ?_⟩
    rw [TqrSt.wp_onQ, show E[l].row + IndexBase.Zero.val + ldq * j = E[l].row + j * ldq by simp [IndexBase.val]; ring]
    refine hq'.wp_wr (X' := fun r c => if c < j then overwrite E r (pi c) else overwrite (E.take ((l : Int) + 1).toNat) r (pi j)) (hrows _)
      ⟨hrw.1, hrw.2.1, hj0, by omega⟩ ?_ ?_ fun b2 hb2 => ⟨b2, rfl, hb2⟩
    · rw [if_neg (by omega), show ((l : Int) + 1).toNat = l + 1 by omega, ← List.take_append_getElem hlE, overwrite_push, if_pos ⟨rfl, hcol.symm⟩]
    · intro r c hrc hne
      by_cases hc : c < j
      · rw [if_pos hc, if_pos hc]
      · rw [if_neg hc, if_neg hc, show ((l : Int) + 1).toNat = l + 1 by omega, ← List.take_append_getElem hlE, overwrite_push, if_neg]
        · rfl
        · rintro ⟨rfl, -⟩
          exact hne ⟨rfl, by have := hrc.2.2.2; omega⟩
  · rintro _ ⟨q', rfl, hq'⟩
    refine ⟨q', rfl, hq'.congr fun r c hrc => ?_⟩
    by_cases hc : c < j
    · rw [if_pos hc]
    · obtain rfl : c = j := by have := hrc.2.2.2; omega
      rw [if_neg hc]
      refine overwrite_after fun i hi hli hcol => ?_
      have := hsl i hi
      rw [hcol] at this
      omega

theorem tqrPrecond_spec {k : Int} {Y : Int → Int → T} {s : TqrSt T} (hk : 0 ≤ k) (hY : ∀ i j, InR k k i j → s.y (i + j * k) = .val (Y i j))
    (hal : ∀ i j, InR k k i j → s.pre (i + j * k) ≠ .none) :
    M.wp (tqrPrecond k) s (fun _ s' => ∃ r', s' = { s with pre := r' } ∧ Upd k (InR k k) Y s.pre r') := by
  unfold tqrPrecond
  have hr : ∀ P : Int → Int → Prop, (∀ i j, P i j → 0 ≤ i ∧ i < k) → RowsIn k P := fun P hP i j hij => hP i j hij
  refine M.wp_forI (fun j s' => ∃ r', s' = { s with pre := r' } ∧ Upd k (InR k j) Y s.pre r') hk ⟨s.pre, rfl, fun i j h => by
    have := h.2.2; omega, fun _ _ => rfl⟩ ?_ (fun _ h => h)
  rintro j _ h0 h1 ⟨r1, rfl, hr1⟩
  refine M.wp_forI (fun i s' => ∃ r', s' = { s with pre := r' } ∧ Upd k (fun r c => InR k j r c ∨ (c = j ∧ 0 ≤ r ∧ r < i)) Y s.pre r') hk
    ⟨r1, rfl, hr1.congrP fun r c => ⟨Or.inl, fun h => h.elim id fun h => by omega⟩⟩ ?_ ?_
  · rintro i _ g0 g1 ⟨r2, rfl, hr2⟩
    rw [M.wp_bind, TqrSt.wp_onY, M.wp_rd]
    dsimp only
    rw [show i + k * j = i + j * k by ring]
    refine ⟨_, hY i j ⟨g0, g1, h0, h1⟩, ?_⟩
    rw [TqrSt.wp_onPre]
    dsimp only
    refine hr2.wp_extend (P' := fun r c => InR k j r c ∨ (c = j ∧ 0 ≤ r ∧ r < i + 1)) (hr _ fun r c h => ?_) (Or.inr ⟨rfl, g0, by omega⟩) ?_ ?_ rfl (fun _ _ _ _ => rfl)
      (fun b2 hb2 => ⟨b2, rfl, hb2⟩)
    · rcases h with h | h
      · exact ⟨h.1, h.2.1⟩
      · omega
    · rw [hr2.other (hr _ fun r c (h : InR k j r c ∨ (c = j ∧ 0 ≤ r ∧ r < i)) => h.elim (fun h => ⟨h.1, h.2.1⟩) fun h => by omega) ⟨g0, g1⟩ ?_]
      · exact hal i j ⟨g0, g1, h0, h1⟩
      · rintro (h | h)
        · have := h.2.2.2; omega
        · omega
    · intro r c
      unfold InR
      omega
  · rintro _ ⟨r2, rfl, hr2⟩
    exact ⟨r2, rfl, hr2.congrP fun r c => by unfold InR; omega⟩

end RB
