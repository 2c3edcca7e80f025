import Verif.Spec.Stab
import Verif.Lemmas.Qr
import Verif.Lemmas.ExLapack
import Verif.Lemmas.MatBridge
import Mathlib.LinearAlgebra.Matrix.Block

/-! # Lemmas about the stabilisation of power iterations -/

namespace RB
open Spec

variable {T : Type}

section
variable {α : Type} {t : StabSt T} {P : α → StabSt T → Prop}
theorem StabSt.wp_onA {m : M (Buf T) α} : M.wp (StabSt.onA m) t P ↔ M.wp m t.a (fun x b => P x { t with a := b }) := by unfold StabSt.onA; rw [M.wp_zoom]
theorem StabSt.wp_onPiv {m : M (Buf Int) α} : M.wp (StabSt.onPiv m) t P ↔ M.wp m t.piv (fun x b => P x { t with piv := b }) := by
  unfold StabSt.onPiv; rw [M.wp_zoom]
theorem StabSt.wp_onAT {m : M (Buf T × Buf T) α} : M.wp (StabSt.onAT m) t P ↔ M.wp m (t.a, t.tau) (fun x r => P x { t with a := r.1, tau := r.2 }) := by
  unfold StabSt.onAT; rw [M.wp_zoom]
end

section
variable [Field T] [LinearOrder T]

omit [LinearOrder T] in
theorem trsmLeftLower_spec {m n a0 lda ldb : Int} {L B : Int → Int → T} {Ab b0 b : Buf T} (hm : 0 ≤ m) (hn : 0 ≤ n)
    (hla : m ≤ lda) (hlb : m ≤ ldb) (hA : ∀ i j, 0 ≤ j → j ≤ i → i < m → Ab (a0 + (i + j * lda)) = .val (L i j))
    (hb : Upd ldb (InR m n) B b0 b) :
    M.wp (trsmLeftLower m n Ab a0 lda ldb) b (fun _ b' =>
      Upd ldb (InR m n) (fun i j => rsubF (fun r c => L c r) (fun r c => B c r) i.toNat j) b0 b') := by
  have hr := inR_rows (n := n) hlb
  obtain ⟨X, hX⟩ : ∃ X : Int → Int → T, X = fun i j => rsubF (fun r c => L c r) (fun r c => B c r) i.toNat j := ⟨_, rfl⟩
  have hXe : ∀ i j, 0 ≤ i → X i j = (B i j - ∑ l ∈ Finset.range i.toNat, X l j * L i l) / L i i := fun i j h0 => by
    rw [hX]; dsimp only; rw [rsubF_eq, show ((i.toNat : Nat) : Int) = i by omega]; simp only [Int.toNat_natCast]
  rw [← hX]
  unfold trsmLeftLower
  simp only [M.wp_bind, wp_blasCheck]
  refine ⟨hm, hn, hla, hlb, ?_⟩
  refine M.wp_forI (fun j b => Upd ldb (InR m n) (fun r c => if c < j then X r c else B r c) b0 b) hn ?_ ?_ ?_
  · exact hb.congr (fun i j h => by rw [if_neg (by have := h.2.2.1; omega)])
  · intro j b1 hj0 hjn hst
    refine M.wp_forI (fun k b => Upd ldb (InR m n)
      (fun r c => if c < j then X r c else if c = j then (if r < k then X r j else B r j - ∑ l ∈ Finset.range k.toNat, X l j * L r l) else B r c) b0 b)
      hm ?_ ?_ ?_
    · refine hst.congr (fun r c h => ?_)
      by_cases h1 : c < j
      · simp [h1]
      · rw [if_neg h1, if_neg h1]
        by_cases h2 : c = j
        · subst h2; rw [if_pos rfl, if_neg (by have := h.1; omega)]; simp
        · rw [if_neg h2]
    · intro k b2 hk0 hkm hst2
      simp only [M.wp_bind]
      refine hst2.wp_rd (i := k) (j := j) ⟨hk0, hkm, hj0, hjn⟩ ?_
      rw [M.wp_lift]
      refine ⟨_, Buf.rd_val (hA k k hk0 le_rfl hkm), ?_⟩
      refine hst2.wp_wr (X' := fun r c => if c < j then X r c else if c = j then
        (if r < k + 1 then X r j else B r j - ∑ l ∈ Finset.range k.toNat, X l j * L r l) else B r c) hr ⟨hk0, hkm, hj0, hjn⟩ ?_ ?_ (fun b3 hst3 => ?_)
      · rw [if_neg (lt_irrefl _), if_pos rfl, if_pos (by omega), if_neg (lt_irrefl _), if_pos rfl, if_neg (lt_irrefl _), hXe k j hk0]
      · rintro r c ⟨h1, h2, h3, h4⟩ hne
        by_cases h5 : c < j
        · rw [if_pos h5, if_pos h5]
        · rw [if_neg h5, if_neg h5]
          by_cases h6 : c = j
          · rw [if_pos h6, if_pos h6]
            have : r < k + 1 ↔ r < k := by omega
            simp only [this]
          · rw [if_neg h6, if_neg h6]
      refine M.wp_forI (fun i b => Upd ldb (InR m n)
        (fun r c => if c < j then X r c else if c = j then
          (if r < k + 1 then X r j else if r < i then B r j - ∑ l ∈ Finset.range (k + 1).toNat, X l j * L r l
            else B r j - ∑ l ∈ Finset.range k.toNat, X l j * L r l) else B r c) b0 b) (by omega) ?_ ?_ ?_
      · refine hst3.congr (fun r c h => ?_)
        by_cases h7 : r < k + 1
        · simp [h7]
        · simp [h7]
      · intro i b4 hi0 him hst4
        simp only [M.wp_bind]
        refine hst4.wp_rd (i := i) (j := j) ⟨by omega, him, hj0, hjn⟩ ?_
        refine hst4.wp_rd (i := k) (j := j) ⟨hk0, hkm, hj0, hjn⟩ ?_
        rw [M.wp_lift]
        refine ⟨_, Buf.rd_val (hA i k hk0 (by omega) him), ?_⟩
        refine hst4.wp_wr hr ⟨by omega, him, hj0, hjn⟩ ?_ ?_ (fun b2 h => h)
        · rw [if_neg (lt_irrefl _), if_pos rfl, if_neg (by omega), if_pos (by omega), if_neg (lt_irrefl _), if_pos rfl, if_neg (by omega),
            if_neg (lt_irrefl _), if_neg (lt_irrefl _), if_pos rfl, if_pos (by omega),
            show (k + 1).toNat = k.toNat + 1 by omega, Finset.sum_range_succ, show ((k.toNat : Nat) : Int) = k by omega]
          ring
        · rintro r c ⟨h1, h2, h3, h4⟩ hne
          by_cases h5 : c < j
          · rw [if_pos h5, if_pos h5]
          · rw [if_neg h5, if_neg h5]
            by_cases h6 : c = j
            · rw [if_pos h6, if_pos h6]
              have : r < i + 1 ↔ r < i := by omega
              simp only [this]
            · rw [if_neg h6, if_neg h6]
      · intro b4 hst4
        refine hst4.congr (fun r c h => ?_)
        rw [if_pos (show r < m from h.2.1)]
    · intro b2 hst2
      refine hst2.congr (fun r c h => ?_)
      rw [if_pos (show r < m from h.2.1)]
      by_cases h5 : c < j
      · rw [if_pos h5, if_pos (by omega)]
      · rw [if_neg h5]
        by_cases h6 : c = j
        · rw [if_pos h6, if_pos (by omega), h6]
        · rw [if_neg h6, if_neg (by omega)]
  · intro b1 hst
    exact hst.congr (fun r c h => by rw [if_pos h.2.2.2])

omit [LinearOrder T] in
theorem lsub_mul {L B : Int → Int → T} {m : Int} (hlo : ∀ i j, i < j → L i j = 0) (hd : ∀ i, 0 ≤ i → i < m → L i i ≠ 0) {i j : Int}
    (hi0 : 0 ≤ i) (him : i < m) : prodEntry m L (fun i j => rsubF (fun r c => L c r) (fun r c => B c r) i.toNat j) i j = B i j := by
  have := rsub_mul (R := fun r c => L c r) (B := fun r c => B c r) (n := m) (i := j) (j := i) (fun i j h => hlo j i h) hd hi0 him
  rw [← this]
  exact Finset.sum_congr rfl fun l _ => mul_comm _ _

end

/-! ## LQ -/

theorem gelqf_spec [Zero T] {L : RowLapack T} {m n : Int} {A : Int → Int → T} {s : Buf T × Buf T} (hm : 1 ≤ m) (hn : m ≤ n)
    (hA : ∀ i j, InR m n i j → s.1 (i + j * m) = .val (A i j)) (ht : ∀ i, 0 ≤ i → i < m → s.2 i ≠ .none) :
    M.wp (gelqf L m n) s (fun _ s' => ∃ F : Int → Int → T, (∀ i j, InR m n i j → F i j = A i j) ∧
      Upd m (InR m n) (L.lq m n F).f s.1 s'.1 ∧ HoldsVec s'.2 m (L.lq m n F).tau ∧ SameOutsideVec s.2 s'.2 m) := by
  unfold gelqf
  simp only [M.wp_bind, wp_blasCheck, onFst, onSnd, M.wp_zoom]
  refine ⟨by omega, by omega, hm, ?_⟩
  refine M.wp_mono (readMat_spec (by omega) (by omega) hA) ?_
  rintro F _ ⟨rfl, hF⟩
  refine M.wp_mono (writeMat_spec (by omega) (by omega) le_rfl (fun i j hij => by rw [hA i j hij]; simp)) ?_
  intro _ b hb
  rw [min_eq_left hn]
  refine M.wp_mono (writeVec_spec (by omega) ht) ?_
  rintro _ w ⟨h1, h2⟩
  exact ⟨F, hF, hb, h1, h2⟩

theorem qrRowStabilize_spec [Semiring T] {L : RowLapack T} {m n : Int} {A : Int → Int → T} {s : Buf T × Buf T} (hL : LqFor L m n) (hm : 1 ≤ m) (hn : m < n)
    (hA : ∀ i j, InR m n i j → s.1 (i + j * m) = .val (A i j)) (ht : ∀ i, 0 ≤ i → i < m → s.2 i ≠ .none) :
    M.wp (qrRowStabilize L m n) s (fun r s' => r = 0 ∧ ∃ Lw Q : Int → Int → T, OrthoCols n m (fun i j => Q j i) ∧ (∀ i j, i < j → Lw i j = 0) ∧
      (∀ i j, InR m n i j → A i j = prodEntry m Lw Q i j) ∧ Upd m (InR m n) Q s.1 s'.1 ∧ (∀ i, 0 ≤ i → i < m → s'.2 i ≠ .none) ∧ SameOutsideVec s.2 s'.2 m) := by
  unfold qrRowStabilize
  rw [M.wp_bind]
  refine M.wp_mono (gelqf_spec hm hn.le hA ht) ?_
  rintro _ ⟨a1, t1⟩ ⟨F, hF, ha1, ht1, ht1'⟩
  obtain ⟨Q, hQ, hfac, hun⟩ := hL F
  rw [M.wp_bind, M.wp_require]
  refine ⟨hn, ?_⟩
  unfold unglq
  simp only [M.wp_bind, wp_blasCheck, onFst, onSnd, M.wp_zoom]
  refine ⟨by omega, hn.le, hm, ?_⟩
  refine M.wp_mono (readMat_spec (by omega) (by omega) ha1.cells) ?_
  rintro G _ ⟨rfl, hG⟩
  refine M.wp_mono (readMat_spec (A := fun i _ => (L.lq m n F).tau i) (by omega) (by omega) (fun i j hij => by
    obtain ⟨h1, h2, h3, h4⟩ := hij
    rw [show j = 0 by omega, zero_mul, add_zero]; exact ht1 i h1 h2)) ?_
  rintro t _ ⟨rfl, hT⟩
  refine M.wp_mono (writeMat_spec (by omega) (by omega) le_rfl (fun i j hij => by have := ha1.cells i j hij; dsimp only at this; rw [this]; simp)) ?_
  intro _ a2 ha2
  rw [M.wp_pure]
  refine ⟨rfl, fun i l => if l ≤ i then (L.lq m n F).f i l else 0, Q, hQ, fun i j h => if_neg (by omega), fun i j hij => by rw [← hF i j hij, hfac i j hij],
    ⟨fun i j hij => ?_, fun p hp => ?_⟩, fun i h0 h1 => by rw [ht1 i h0 h1]; simp, ht1'⟩
  · dsimp only
    rw [ha2.cells i j hij, hun _ hG (fun i h0 h1 => hT i 0 ⟨h0, h1, le_rfl, by omega⟩) i j hij]
  · have := ha1.outside p hp
    dsimp only at this ⊢
    rw [ha2.outside p hp, this]


/-! ## LU -/

section
variable [Field T] [LinearOrder T]

omit [LinearOrder T] in
theorem getrf_spec {L : RowLapack T} {m n : Int} {A : Int → Int → T} {s : StabSt T} (hm : 1 ≤ m) (hn : m ≤ n)
    (hA : ∀ i j, InR m n i j → s.a (i + j * m) = .val (A i j)) (hp : ∀ i, 0 ≤ i → i < m → s.piv i ≠ .none) :
    M.wp (getrf L m n) s (fun _ s' => ∃ F : Int → Int → T, (∀ i j, InR m n i j → F i j = A i j) ∧ Upd m (InR m n) (L.lu m n F).2 s.a s'.a ∧
      HoldsVec s'.piv m (L.lu m n F).1 ∧ SameOutsideVec s.piv s'.piv m ∧ s' = { s with a := s'.a, piv := s'.piv }) := by
  unfold getrf
  simp only [M.wp_bind, wp_blasCheck, StabSt.wp_onA, StabSt.wp_onPiv]
  refine ⟨by omega, by omega, hm, ?_⟩
  refine M.wp_mono (readMat_spec (by omega) (by omega) hA) ?_
  rintro F _ ⟨rfl, hF⟩
  refine M.wp_mono (writeMat_spec (by omega) (by omega) le_rfl (fun i j hij => by rw [hA i j hij]; simp)) ?_
  intro _ b hb
  rw [min_eq_left hn]
  refine M.wp_mono (writeVec_spec (by omega) hp) ?_
  rintro _ w ⟨h1, h2⟩
  exact ⟨F, hF, hb, h1, h2, trivial⟩

theorem luClear_spec {tol : T} {m n : Int} {F : Int → Int → T} {b0 b : Buf T} (hm : 1 ≤ m) (hn : m ≤ n) (hb : Upd m (InR m n) F b0 b) :
    M.wp (foldI 0 (m - 1) (fun j ok => if ok then luClearCol tol m j else pure false) true) b (fun ok b' =>
      (ok = true ↔ ∀ j, 0 ≤ j → j < m - 1 → tol < |F j j|) ∧
      (ok = true → Upd m (InR m n) (fun i j => if i ≤ j then F i j else 0) b0 b')) := by
  have hr := inR_rows (ld := m) (n := n) le_rfl
  refine M.wp_foldI (fun j ok b => (ok = true ↔ ∀ l, 0 ≤ l → l < j → tol < |F l l|) ∧
    (ok = true → Upd m (InR m n) (fun r c => if c < j ∧ c < r then 0 else F r c) b0 b)) (by omega) ?_ ?_ ?_
  · exact ⟨⟨fun _ l h0 h1 => by omega, fun _ => rfl⟩, fun _ => hb.congr (fun i j h => by rw [if_neg (by have := h.2.2.1; omega)])⟩
  · rintro j ok b1 hj0 hjm ⟨h1, h2⟩
    cases ok with
    | false =>
      rw [if_neg (by simp), M.wp_pure]
      refine ⟨⟨fun h => absurd h (by simp), fun h => ?_⟩, fun h => absurd h (by simp)⟩
      exact h1.2 fun l h0 hl => h l h0 (by omega)
    | true =>
      rw [if_pos rfl]
      unfold luClearCol
      have hst := h2 rfl
      rw [M.wp_bind]
      refine hst.wp_rd (i := j) (j := j) ⟨hj0, by omega, hj0, by omega⟩ ?_
      rw [if_neg (by omega), M.wp_bind]
      refine M.wp_forI (fun i b => Upd m (InR m n) (fun r c => if (c < j ∧ c < r) ∨ (c = j ∧ j < r ∧ r < i) then 0 else F r c) b0 b) (by omega) ?_ ?_ ?_
      · refine hst.congr (fun r c _ => ?_)
        have : ((c < j ∧ c < r) ∨ (c = j ∧ j < r ∧ r < j + 1)) ↔ (c < j ∧ c < r) := by omega
        simp only [this]
      · intro i b2 hi0 him hst2
        refine hst2.wp_wr hr ⟨by omega, by omega, hj0, by omega⟩ ?_ ?_ (fun b3 h => h)
        · rw [if_pos (by omega)]
        · intro r c h hne
          have : ((c < j ∧ c < r) ∨ (c = j ∧ j < r ∧ r < i + 1)) ↔ ((c < j ∧ c < r) ∨ (c = j ∧ j < r ∧ r < i)) := by omega
          simp only [this]
      · intro b2 hst2
        rw [M.wp_pure]
        refine ⟨?_, fun _ => hst2.congr (fun r c h => ?_)⟩
        · rw [decide_eq_true_eq]
          refine ⟨fun h l h0 hl => ?_, fun h => h j hj0 (by omega)⟩
          rcases eq_or_ne l j with rfl | hne
          · exact h
          · exact h1.1 rfl l h0 (by omega)
        · have : ((c < j ∧ c < r) ∨ (c = j ∧ j < r ∧ r < m)) ↔ (c < j + 1 ∧ c < r) := by have := h.2.1; omega
          simp only [this]
  · rintro ok b1 ⟨h1, h2⟩
    refine ⟨h1, fun h => (h2 h).congr fun r c hrc => ?_⟩
    by_cases hle : r ≤ c
    · rw [if_pos hle, if_neg (by omega)]
    · rw [if_neg hle, if_pos (by have := hrc.2.1; omega)]

omit [LinearOrder T] in
theorem luScale_spec {m n : Int} {U : Int → Int → T} {b0 b : Buf T} (hm : 1 ≤ m) (hn : m ≤ n) (hb : Upd m (InR m n) U b0 b) :
    M.wp (forI 0 m fun i => do
      let d ← M.rd (i + i * m)
      blasScal n (1 / d) i m) b (fun _ b' => Upd m (InR m n) (fun i j => U i j / U i i) b0 b') := by
  refine M.wp_forI (fun i b => Upd m (InR m n) (fun r c => if r < i then U r c / U r r else U r c) b0 b) (by omega) ?_ ?_ ?_
  · exact hb.congr (fun i j h => by rw [if_neg (by have := h.1; omega)])
  · intro i b1 hi0 him hst
    rw [M.wp_bind]
    refine hst.wp_rd (i := i) (j := i) ⟨hi0, him, hi0, by omega⟩ ?_
    rw [if_neg (lt_irrefl _)]
    refine M.wp_mono (blasScal_spec (v := fun j => U i j) (by omega) (by omega) (fun j h0 h1 => by
      rw [hst.cells i j ⟨hi0, him, h0, h1⟩, if_neg (lt_irrefl _)])) ?_
    rintro _ b2 ⟨h1, h2⟩
    refine ⟨fun r c hrc => ?_, fun p hp => ?_⟩
    · rcases eq_or_ne r i with rfl | hne
      · rw [h1 c hrc.2.2.1 hrc.2.2.2, if_pos (by omega)]
        congr 1; ring
      · rw [h2 _ (fun j h0 hj he => hne (cell_inj (ld := m) ⟨hrc.1, hrc.2.1⟩ ⟨hi0, him⟩ he).1), hst.cells r c hrc]
        have : r < i + 1 ↔ r < i := by omega
        simp only [this]
    · rw [h2 p (fun j h0 hj => hp i j ⟨hi0, him, h0, hj⟩), hst.outside p hp]
  · intro b1 h
    exact h.congr (fun i j h => if_pos h.2.1)

theorem lu_rowEquiv {m n : Int} {A F : Int → Int → T} (hF : LuIs m n A F) (hd : ∀ j, 0 ≤ j → j < m → F j j ≠ 0) :
    RowEquiv m n A (fun i j => (if i ≤ j then F i j else 0) / (if i ≤ i then F i i else 0)) := by
  obtain ⟨⟨r, hr, hinj, hfac⟩, -⟩ := hF
  simp only [le_refl, if_true]
  -- the unit lower triangular factor and the permutation are invertible
  set Lw : Int → Int → T := fun i l => if l < i then F i l else if l = i then 1 else 0 with hLw
  set U : Int → Int → T := fun l j => if l ≤ j then F l j else 0 with hU
  set X : Int → Int → T := fun i j => U i j / F i i with hX
  set D : Int → Int → T := fun i l => if i = l then F i i else 0 with hD
  set P : Int → Int → T := fun i l => if r i = l then 1 else 0 with hP
  have hPA : ∀ i j, InR m n i j → prodEntry m P A i j = A (r i) j := by
    intro i j h
    obtain ⟨h1, h2⟩ := hr i h.1 h.2.1
    rw [prodEntry, Finset.sum_eq_single (r i).toNat]
    · rw [hP]; dsimp only; rw [if_pos (by omega), one_mul, show ((r i).toNat : Int) = r i by omega]
    · intro b _ hb; rw [hP]; dsimp only; rw [if_neg (by omega), zero_mul]
    · intro h; exact absurd (Finset.mem_range.2 (by omega)) h
  have hUX : ∀ i j, InR m n i j → U i j = prodEntry m D X i j := by
    intro i j h
    rw [prodEntry, Finset.sum_eq_single i.toNat]
    · rw [hD]; dsimp only; rw [if_pos (by have := h.1; omega), hX]; dsimp only
      rw [show ((i.toNat : Nat) : Int) = i by have := h.1; omega, mul_div_cancel₀ _ (hd i h.1 h.2.1)]
    · intro b _ hb; rw [hD]; dsimp only; rw [if_neg (by omega), zero_mul]
    · intro h'; exact absurd (Finset.mem_range.2 (by have := h.1; have := h.2.1; omega)) h'
  have key : asM m m P * asM m n A = asM m m Lw * (asM m m D * asM m n X) := by
    rw [← asM_mul, ← asM_mul, ← asM_mul, asM_eq]
    intro i j h
    rw [hPA i j h, hfac i j h]
    refine prodEntry_ext (B := U) (B' := prodEntry m D X) (j := j) (fun _ _ _ => rfl) (fun k h0 h1 => hUX k j ⟨h0, h1, h.2.2⟩)
  have hLu : IsUnit (asM m m Lw) := by
    rw [Matrix.isUnit_iff_isUnit_det, Matrix.det_of_isLowerTriangular]
    · simp [asM, hLw]
    · intro i j h
      have h' : (i : Nat) < (j : Nat) := h
      simp only [asM, Matrix.of_apply, hLw]
      rw [if_neg (by omega), if_neg (by omega)]
  have hDu : IsUnit (asM m m D) := by
    rw [Matrix.isUnit_iff_isUnit_det, show asM m m D = Matrix.diagonal (fun i : Fin m.toNat => F (i : Nat) (i : Nat)) by
      ext i j; simp only [asM, Matrix.of_apply, hD, Matrix.diagonal_apply, Fin.ext_iff, Nat.cast_inj], Matrix.det_diagonal, isUnit_iff_ne_zero,
      Finset.prod_ne_zero_iff]
    exact fun i _ => hd _ (by omega) (by have := i.2; omega)
  have hPu : (asM m m P).transpose * asM m m P = 1 := by
    have hsurj : asM m m P * (asM m m P).transpose = 1 := by
      ext i j
      rw [Matrix.mul_apply]
      have hi := hr (i : Nat) (by omega) (by have := i.2; omega)
      simp only [Matrix.transpose_apply, asM, Matrix.of_apply, hP]
      rw [Finset.sum_eq_single (⟨(r (i : Nat)).toNat, by omega⟩ : Fin m.toNat)]
      · simp only [Matrix.one_apply]
        rw [if_pos (by omega), one_mul]
        by_cases hij : i = j
        · subst hij; rw [if_pos rfl, if_pos (by omega)]
        · rw [if_neg hij, if_neg]
          intro h
          have := hinj (i : Nat) (j : Nat) (by omega) (by have := i.2; omega) (by omega) (by have := j.2; omega) (by omega)
          exact hij (Fin.ext (by omega))
      · intro b _ hb
        rw [if_neg (fun h => hb (Fin.ext (by simp; omega))), zero_mul]
      · intro h; exact absurd (Finset.mem_univ _) h
    exact mul_eq_one_comm.1 hsurj
  constructor
  · refine ⟨ofM ((asM m m P).transpose * (asM m m Lw * asM m m D)), asM_eq.1 ?_⟩
    rw [asM_mul, asM_ofM, Matrix.mul_assoc, Matrix.mul_assoc, ← key, ← Matrix.mul_assoc, hPu, Matrix.one_mul]
  · refine ⟨ofM ((asM m m D)⁻¹ * ((asM m m Lw)⁻¹ * asM m m P)), asM_eq.1 ?_⟩
    rw [asM_mul, asM_ofM, Matrix.mul_assoc, Matrix.mul_assoc, key, Matrix.nonsing_inv_mul_cancel_left _ _ ((Matrix.isUnit_iff_isUnit_det _).1 hLu),
      Matrix.nonsing_inv_mul_cancel_left _ _ ((Matrix.isUnit_iff_isUnit_det _).1 hDu)]

end

/-! ## Row spaces -/

/-- If the rows of A = W X are independent, then W is invertible. -/
theorem factor_unit [Field T] {m n : Int} {A W X : Int → Int → T} (h : ∀ i j, InR m n i j → A i j = prodEntry m W X i j)
    (hr : FullColRank n m (fun i j => A j i)) : IsUnit (asM m m W) := by
  have hA : asM m n A = asM m m W * asM m n X := by rw [← asM_mul]; exact asM_congr h
  rw [← Matrix.vecMul_injective_iff_isUnit]
  refine (injective_iff_map_eq_zero (Matrix.vecMulLinear (asM m m W))).2 fun v hv => ?_
  have hv' : Matrix.vecMul v (asM m n A) = 0 := by
    rw [hA, ← Matrix.vecMul_vecMul]
    have : Matrix.vecMul v (asM m m W) = 0 := hv
    rw [this, Matrix.zero_vecMul]
  have := hr (fun i => if h : i.toNat < m.toNat then v ⟨i.toNat, h⟩ else 0) (fun i h0 h1 => by
    have := congrFun hv' ⟨i.toNat, by omega⟩
    simp only [Matrix.vecMul, dotProduct, asM, Matrix.of_apply, Pi.zero_apply] at this
    rw [← Fin.sum_univ_eq_sum_range (fun j => A j i * (if h : (j : Int).toNat < m.toNat then v ⟨(j : Int).toNat, h⟩ else 0)), ← this]
    refine Finset.sum_congr rfl fun l _ => ?_
    rw [dif_pos (by have := l.2; omega), mul_comm, show ((i.toNat : Nat) : Int) = i by omega]
    congr 1)
  funext i
  have := this (i : Nat) (by omega) (by have := i.2; omega)
  rw [dif_pos (by have := i.2; omega)] at this
  exact this

theorem rowEquiv_of_unit [Field T] {m n : Int} {A W X : Int → Int → T} (h : ∀ i j, InR m n i j → A i j = prodEntry m W X i j) (hW : IsUnit (asM m m W)) :
    RowEquiv m n A X := by
  refine ⟨⟨W, h⟩, ofM (asM m m W)⁻¹, asM_eq.1 ?_⟩
  rw [asM_mul, asM_ofM, show asM m n A = asM m m W * asM m n X by rw [← asM_mul]; exact asM_congr h,
    Matrix.nonsing_inv_mul_cancel_left _ _ ((Matrix.isUnit_iff_isUnit_det _).1 hW)]

theorem rowEquiv_of_factor [Field T] {m n : Int} {A W X : Int → Int → T} (h : ∀ i j, InR m n i j → A i j = prodEntry m W X i j)
    (hr : FullColRank n m (fun i j => A j i)) : RowEquiv m n A X := rowEquiv_of_unit h (factor_unit h hr)

theorem lower_unit [Field T] {m : Int} {W : Int → Int → T} (hlo : ∀ i j, i < j → W i j = 0) (hd : ∀ i, 0 ≤ i → i < m → W i i ≠ 0) : IsUnit (asM m m W) := by
  rw [Matrix.isUnit_iff_isUnit_det, Matrix.det_of_isLowerTriangular, isUnit_iff_ne_zero, Finset.prod_ne_zero_iff]
  · exact fun i _ => hd _ (by omega) (by have := i.2; omega)
  · intro i j h
    have h' : (i : Nat) < (j : Nat) := h
    simp only [asM, Matrix.of_apply]
    exact hlo _ _ (by omega)

end RB
