import Verif.Lemmas.QrMath

/-! # Lemmas about the QR decompositions -/

namespace RB
open Spec

variable {T : Type}

/-- Code on a workspace: everything outside `[0, n)` is unchanged, everything inside is still allocated. -/
structure Work (n : Int) (b b' : Buf T) : Prop where
  outside : ∀ p, (p < 0 ∨ n ≤ p) → b' p = b p
  inside : ∀ p, 0 ≤ p → p < n → b' p ≠ .none

theorem pos_split {n p c : Int} (h0 : 0 ≤ p) (hp : p < n * c) (hn : 0 ≤ n) : ∃ i j, InR n c i j ∧ p = i + j * n := by
  have hn1 : 0 < n := by
    rcases hn.lt_or_eq with h | h
    · exact h
    · rw [← h] at hp; omega
  refine ⟨p % n, p / n, ⟨Int.emod_nonneg _ hn1.ne', Int.emod_lt_of_pos _ hn1, Int.ediv_nonneg h0 hn, ?_⟩, ?_⟩
  · exact Int.ediv_lt_of_lt_mul hn1 (by rw [mul_comm]; exact hp)
  · have := Int.emod_add_mul_ediv p n
    rw [mul_comm]; omega

theorem pos_range {n c i j : Int} (h : InR n c i j) : 0 ≤ i + j * n ∧ i + j * n < n * c := by
  obtain ⟨h1, h2, h3, h4⟩ := h
  constructor
  · have := mul_nonneg h3 (h1.trans h2.le); omega
  · have : (j + 1) * n ≤ c * n := mul_le_mul_of_nonneg_right (by omega) (by omega)
    nlinarith

/-- A full update of a matrix at the start of a workspace. -/
theorem Upd.work {n c N : Int} {X : Int → Int → T} {b b' : Buf T} (h : Upd n (InR n c) X b b') (hN : n * c ≤ N)
    (ha : ∀ p, 0 ≤ p → p < N → b p ≠ .none) : Work N b b' := by
  constructor
  · intro p hp
    refine h.outside p fun i j hij he => ?_
    have := pos_range hij
    omega
  · intro p h0 hp
    by_cases hex : ∃ i j, InR n c i j ∧ p = i + j * n
    · obtain ⟨i, j, hij, rfl⟩ := hex
      rw [h.cells i j hij]; simp
    · push Not at hex
      rw [h.outside p hex]
      exact ha p h0 hp

theorem Work.trans {n : Int} {b b' b'' : Buf T} (h : Work n b b') (h' : Work n b' b'') : Work n b b'' :=
  ⟨fun p hp => by rw [h'.outside p hp, h.outside p hp], h'.inside⟩

theorem Work.mono {n n' : Int} {b b' : Buf T} (h : Work n b b') (hn : n ≤ n') (ha : ∀ p, 0 ≤ p → p < n' → b p ≠ .none) : Work n' b b' :=
  ⟨fun p hp => h.outside p (by omega), fun p h0 hp => by
    by_cases hpn : p < n
    · exact h.inside p h0 hpn
    · rw [h.outside p (by omega)]; exact ha p h0 hp⟩

theorem fill_spec [Zero T] {n c : Int} {b : Buf T} (hn : 0 ≤ n) (hc : 0 ≤ c) (ha : ∀ p, 0 ≤ p → p < n * c → b p ≠ .none) :
    M.wp (forI 0 (n * c) fun i => M.wr i (0 : T)) b (fun _ b' => Upd n (InR n c) (fun _ _ => 0) b b') := by
  refine M.wp_forI (fun k b' => (∀ p, 0 ≤ p → p < k → b' p = .val 0) ∧ ∀ p, (p < 0 ∨ k ≤ p) → b' p = b p) (mul_nonneg hn hc) ?_ ?_ ?_
  · exact ⟨fun p h0 h1 => by omega, fun _ _ => rfl⟩
  · rintro k b1 hk0 hk ⟨h1, h2⟩
    rw [M.wp_wr]
    refine ⟨by rw [h2 k (by omega)]; exact ha k hk0 hk, fun p h0 hp => ?_, fun p hp => ?_⟩
    · by_cases hpk : p = k
      · subst hpk; rw [Buf.set_same]
      · rw [Buf.set_ne hpk]; exact h1 p h0 (by omega)
    · rw [Buf.set_ne (by omega)]; exact h2 p (by omega)
  · rintro b1 ⟨h1, h2⟩
    refine ⟨fun i j hij => h1 _ (pos_range hij).1 (pos_range hij).2, fun p hp => h2 p ?_⟩
    by_contra hno
    obtain ⟨i, j, hij, he⟩ := pos_split (n := n) (c := c) (p := p) (by omega) (by omega) hn
    exact hp i j hij he

section
variable [Field T] [LinearOrder T] [IsStrictOrderedRing T]

/-- The result of a QR decomposition. -/
def IsQR (m n : Int) (A Q R : Int → Int → T) : Prop :=
  OrthoCols m n Q ∧ UpperPos n R ∧ ∀ i j, InR m n i j → prodEntry n Q R i j = A i j

theorem wp_onFst {α : Type} {m : M (Buf T) α} {s : Buf T × Buf T} {Q : α → Buf T × Buf T → Prop} :
    M.wp (onFst m) s Q ↔ M.wp m s.1 (fun a b => Q a (b, s.2)) := by unfold onFst; rw [M.wp_zoom]

theorem wp_onSnd {α : Type} {m : M (Buf T) α} {s : Buf T × Buf T} {Q : α → Buf T × Buf T → Prop} :
    M.wp (onSnd m) s Q ↔ M.wp m s.2 (fun a b => Q a (s.1, b)) := by unfold onSnd; rw [M.wp_zoom]

theorem wp_atSnd {α : Type} {o : Int} {m : M (Buf T × Buf T) α} {s : Buf T × Buf T} {Q : α → Buf T × Buf T → Prop} :
    M.wp (atSnd o m) s Q ↔ M.wp m (s.1, s.2.shift o) (fun a t => Q a (t.1, t.2.shift (-o))) := by unfold atSnd; rw [M.wp_zoom]

theorem cholQrOnce_spec {sqrt : T → T} (hs : SqrtOk sqrt) {m n cb : Int} {A : Int → Int → T} {a0 a r : Buf T} (hm : 0 ≤ m) (hn : 0 ≤ n)
    (hcb : 0 < cb) (hA : FullColRank m n A) (ha : Upd m (InR m n) A a0 a) (hr : ∀ p, 0 ≤ p → p < n * n → r p ≠ .none) :
    M.wp (cholQrOnce sqrt m n cb) (a, r) (fun _ s => ∃ Q R, IsQR m n A Q R ∧ Upd m (InR m n) Q a0 s.1 ∧ Upd n (InR n n) R r s.2) := by
  unfold cholQrOnce
  rw [M.wp_bind, wp_onSnd]
  refine M.wp_mono (fill_spec hn hn hr) ?_
  intro _ r1 h1
  rw [M.wp_bind, M.wp_get, M.wp_bind, wp_onSnd]
  refine M.wp_mono (syrkUpperTrans_spec (A := A) (C := fun _ _ => 0) (b0 := r1) hn hm (le_refl _) (le_refl _) (fun i j hij => by
    rw [zero_add]; exact ha.cells i j hij) (Upd.refl fun i j hij => h1.cells i j ⟨hij.1, by have := hij.2; omega, by have := hij.1; have := hij.2; omega, hij.2.2⟩)) ?_
  intro _ r2 h2
  have h2 := h2.congr (X' := prodEntry m (fun r c => A c r) A) (fun i j _ => by simp [prodEntry])
  have hpos := (posDef_iff_pivots hs hn).1 (gram_posDef hA)
  rw [M.wp_bind, wp_onSnd]
  unfold potrfUpper
  refine M.wp_mono (potrfUpperF_spec hcb (n.toNat + 1) hn (le_refl _) (by omega) h2) ?_
  rintro code r3 ⟨h3, -⟩
  have h3 : Upd n (Up n) (cholU sqrt (prodEntry m (fun r c => A c r) A)) r1 r3 :=
    (h3 hpos).congr fun i j hij => by rw [cholU, if_pos hij.2.1]
  have hup : UpperPos n (cholU sqrt (prodEntry m (fun r c => A c r) A)) :=
    ⟨fun i j h => by rw [cholU, if_neg (by omega)], fun i h0 hi => by
      obtain ⟨k, rfl⟩ := Int.eq_ofNat_of_zero_le h0
      exact cholU_diag_pos hs (hpos k hi)⟩
  have hG : ∀ i j, 0 ≤ i → i ≤ j → j < n → prodEntry n (fun r c => cholU sqrt (prodEntry m (fun r c => A c r) A) c r)
      (cholU sqrt (prodEntry m (fun r c => A c r) A)) i j = prodEntry m (fun r c => A c r) A i j := by
    intro i j h0 hij hj
    obtain ⟨i, rfl⟩ := Int.eq_ofNat_of_zero_le h0
    obtain ⟨j, rfl⟩ := Int.eq_ofNat_of_zero_le (h0.trans hij)
    have := chol_sum hs n.toNat (fun k hk => hpos k (by omega)) i j (by exact_mod_cast hij)
    rw [if_pos (by omega)] at this
    exact this
  generalize cholU sqrt (prodEntry m (fun r c => A c r) A) = R at *
  rw [M.wp_bind, M.wp_get, wp_onFst]
  refine M.wp_mono (trsmRightUpper_spec hm hn (le_refl _) (le_refl _) (fun i j hij => by rw [zero_add]; exact h3.cells i j hij) ha) ?_
  intro _ a' h4
  have hQ : ∀ i j, InR m n i j → prodEntry n (fun i j => rsubF R A j.toNat i) R i j = A i j := fun i j hij =>
    rsub_mul hup.1 (fun i h0 hi => (hup.2 i h0 hi).ne') hij.2.2.1 hij.2.2.2
  refine ⟨fun i j => rsubF R A j.toNat i, R, ⟨ortho_of_factor (A := A) hup ?_ hQ, hup, hQ⟩, h4, ?_⟩
  · rintro i j ⟨hi0, hi, hj0, hj⟩
    rcases le_total i j with h | h
    · exact hG i j hi0 h hj
    · rw [← prodEntry_trans, hG j i hj0 h hi]
      exact (prodEntry_trans m (fun r c => A c r) A i j)
  · dsimp only at h1 ⊢
    refine ⟨fun i j hij => ?_, fun p hp => ?_⟩
    · by_cases h : i ≤ j
      · exact h3.cells i j ⟨hij.1, h, hij.2.2.2⟩
      · rw [h3.other (up_rows (le_refl n)) ⟨hij.1, hij.2.1⟩ (fun h' => h h'.2.1), h1.cells i j hij, hup.1 i j (by omega)]
    · rw [h3.outside p (fun i j hij => hp i j ⟨hij.1, by have := hij.2; omega, by have := hij.1; have := hij.2; omega, hij.2.2⟩), h1.outside p hp]

theorem cholQr_spec {sqrt : T → T} (hs : SqrtOk sqrt) {m n cb : Int} {A : Int → Int → T} {a0 a r : Buf T} (hm : 0 ≤ m) (hn : 0 ≤ n)
    (hcb : 0 < cb) (hA : FullColRank m n A) (ha : Upd m (InR m n) A a0 a) (hr : ∀ p, 0 ≤ p → p < 2 * (n * n) → r p ≠ .none) :
    M.wp (cholQr sqrt m n cb true) (a, r) (fun _ s => ∃ Q R, IsQR m n A Q R ∧ Upd m (InR m n) Q a0 s.1 ∧
      (∀ i j, InR n n i j → s.2 (i + j * n) = .val (R i j)) ∧ Work (2 * (n * n)) r s.2) := by
  have hnn : 0 ≤ n * n := mul_nonneg hn hn
  unfold cholQr
  rw [M.wp_bind]
  refine M.wp_mono (cholQrOnce_spec hs hm hn hcb hA ha (fun p h0 hp => hr p h0 (by omega))) ?_
  rintro _ ⟨a1, r1⟩ ⟨Q, R, ⟨hQ1, hQ2, hQ3⟩, h1, h2⟩
  dsimp only at h1 h2
  rw [if_pos rfl, M.wp_bind, wp_atSnd]
  have hr1 : ∀ p, n * n ≤ p → p < 2 * (n * n) → r1 p ≠ .none := by
    intro p h0 hp
    rw [h2.outside p (fun i j hij he => by have := pos_range hij; omega)]
    exact hr p (by omega) hp
  refine M.wp_mono (cholQrOnce_spec (r := r1.shift (n * n)) hs hm hn hcb (ortho_fullRank hQ1) h1 (fun p h0 hp => hr1 _ (by omega) (by omega))) ?_
  rintro _ ⟨a2, r2'⟩ ⟨Q', R', ⟨hq1, hq2, hq3⟩, h3, h4⟩
  dsimp only at h3 h4 ⊢
  -- the buffer of R after the second decomposition
  have h5 : ∀ p, r2'.shift (-(n * n)) p = r2' (p - n * n) := fun p => by rw [Buf.shift]; congr 1; ring
  have h6 : ∀ i j, InR n n i j → r2'.shift (-(n * n)) (n * n + (i + j * n)) = .val (R' i j) := fun i j hij => by
    rw [h5, add_sub_cancel_left]; exact h4.cells i j hij
  have h7 : ∀ p, (p < n * n ∨ 2 * (n * n) ≤ p) → r2'.shift (-(n * n)) p = r1 p := fun p hp => by
    rw [h5, h4.outside _ (fun i j hij he => by have := pos_range hij; omega), Buf.shift]
    congr 1; ring
  generalize r2'.shift (-(n * n)) = r2 at h6 h7 ⊢
  have h8 : Upd n (InR n n) R r2 r2 := Upd.refl fun i j hij => by
    rw [h7 _ (Or.inl (pos_range hij).2)]; exact h2.cells i j hij
  have had : ∀ i j, addr .ColMajor n i j = i + j * n := fun i j => by simp [addr, mul_comm]
  rw [M.wp_bind, wp_onSnd]
  refine M.wp_mono (overwrite_lower_spec (A := fun i j => .val (R i j)) (b0 := r2) hn (by omega) (show LdOk .ColMajor n n n from le_refl _)
    ⟨fun i j hij => by rw [had]; exact h8.cells i j hij, fun p _ => rfl⟩ (fun _ _ _ => by simp)) ?_
  intro _ r3 h9
  have h10 : Upd n (InR n n) R r2 r3 := by
    refine ⟨fun i j hij => ?_, fun p hp => h9.outside p (fun i j hij => by rw [had]; exact hp i j hij)⟩
    have := h9.cells i j hij
    rw [had] at this
    rw [this]
    split
    · rw [hQ2.1 i j (by omega)]
    · rfl
  rw [M.wp_bind, M.wp_get, wp_onSnd]
  have h11 : ∀ p, (p < 0 ∨ n * n ≤ p) → r3 p = r2 p := fun p hp => h10.outside p (fun i j hij he => by have := pos_range hij; omega)
  refine M.wp_mono (trmmLeftUpper_spec (R := R') (b0 := r2) hn hn (le_refl _) (le_refl _) (fun i j hij => by
    have hij' : InR n n i j := ⟨hij.1, by have := hij.2; omega, by have := hij.1; have := hij.2; omega, hij.2.2⟩
    dsimp only
    rw [h11 _ (Or.inr (by have := pos_range hij'; omega)), h6 i j hij']) h10) ?_
  intro _ r4 h12
  refine ⟨Q', prodEntry n R' R, ⟨hq1, upperPos_mul hq2 hQ2, fun i j hij => ?_⟩, h3, fun i j hij => ?_, ?_, ?_⟩
  · rw [← prodEntry_assoc, ← hQ3 i j hij]
    exact prodEntry_ext (fun k hk0 hk => hq3 i k ⟨hij.1, hij.2.1, hk0, hk⟩) (fun _ _ _ => rfl)
  · dsimp only
    rw [h12.cells i j hij]
    congr 1
    refine Finset.sum_congr rfl fun k _ => ?_
    split
    · rfl
    · rw [hq2.1 i k (by omega)]
  · intro p hp
    dsimp only
    rw [h12.outside p (fun i j hij he => by have := pos_range hij; omega), h7 p (by omega),
      h2.outside p (fun i j hij he => by have := pos_range hij; omega)]
  · intro p h0 hp
    dsimp only
    by_cases hpn : p < n * n
    · obtain ⟨i, j, hij, rfl⟩ := pos_split h0 hpn hn
      rw [h12.cells i j hij]; simp
    · rw [h12.outside p (fun i j hij he => by have := pos_range hij; omega)]
      obtain ⟨i, j, hij, he⟩ := pos_split (n := n) (c := n) (p := p - n * n) (by omega) (by omega) hn
      rw [show p = n * n + (i + j * n) by omega, h6 i j hij]; simp

omit [Field T] [LinearOrder T] [IsStrictOrderedRing T] in
/-- Copying the columns of a b x nc matrix into the columns `c0 ..` of another matrix. -/
theorem copyCols_spec {b nc c0 ldr : Int} {w r : Buf T} {X : Int → Int → T} {sp dp : Int → Int} (hb : 0 ≤ b) (hnc : 0 ≤ nc) (hl : b ≤ ldr)
    (hsp : ∀ j, sp j = j * b) (hdp : ∀ j, dp j = (c0 + j) * ldr) (hw : ∀ i j, InR b nc i j → w (i + j * b) = .val (X i j))
    (hr : ∀ i j, InR b nc i j → r (i + (c0 + j) * ldr) ≠ .none) :
    M.wp (forI 0 nc fun j => blasCopy b w (sp j) 1 (dp j) 1) r (fun _ r' =>
      Upd ldr (fun i j => InR b nc i (j - c0)) (fun i j => X i (j - c0)) r r') := by
  refine M.wp_forI (fun k r' => Upd ldr (fun i j => InR b k i (j - c0)) (fun i j => X i (j - c0)) r r') hnc ?_ ?_ (fun _ h => h)
  · exact Upd.refl (fun i j h => by have := h.2.2; omega)
  · intro j r1 hj0 hj h1
    unfold blasCopy
    rw [M.wp_bind, wp_blasCheck]
    refine ⟨hb, ?_⟩
    refine M.wp_forI (fun k r' => Upd ldr (fun i c => InR b j i (c - c0) ∨ (c = c0 + j ∧ 0 ≤ i ∧ i < k)) (fun i j => X i (j - c0)) r r') hb ?_ ?_ ?_
    · exact h1.congrP (fun i c => ⟨Or.inl, fun h => h.resolve_right (by omega)⟩)
    · intro i r2 hi0 hi h2
      have hrows : RowsIn ldr (fun i' c => InR b j i' (c - c0) ∨ (c = c0 + j ∧ 0 ≤ i' ∧ i' < i)) := by
        rintro i' c (h | h)
        · exact ⟨h.1, by have := h.2.1; omega⟩
        · omega
      have hrows' : RowsIn ldr (fun i' c => InR b j i' (c - c0) ∨ (c = c0 + j ∧ 0 ≤ i' ∧ i' < i + 1)) := by
        rintro i' c (h | h)
        · exact ⟨h.1, by have := h.2.1; omega⟩
        · omega
      rw [M.wp_bind, M.wp_lift]
      refine ⟨X i j, Buf.rd_val (by rw [hsp, ← hw i j ⟨hi0, hi, hj0, hj⟩]; congr 1; ring), ?_⟩
      rw [show dp j + i * 1 = i + (c0 + j) * ldr by rw [hdp]; ring]
      refine h2.wp_extend hrows' (Or.inr ⟨rfl, hi0, by omega⟩) ?_ ?_ (by rw [add_sub_cancel_left]) (fun _ _ _ _ => rfl) (fun _ h => h)
      · rw [h2.other hrows ⟨hi0, by omega⟩ (by
          rintro (h | h)
          · have := h.2.2.2; omega
          · omega)]
        exact hr i j ⟨hi0, hi, hj0, hj⟩
      · intro r' c
        constructor
        · rintro (h | ⟨h1, h2, h3⟩)
          · exact Or.inl (Or.inl h)
          · by_cases h4 : r' = i
            · exact Or.inr ⟨h4, h1⟩
            · exact Or.inl (Or.inr ⟨h1, h2, by omega⟩)
        · rintro ((h | h) | h)
          · exact Or.inl h
          · exact Or.inr ⟨h.1, h.2.1, by omega⟩
          · exact Or.inr ⟨h.2, by omega, by omega⟩
    · intro r2 h2
      refine h2.congrP (fun i c => ?_)
      constructor
      · rintro (⟨h1, h2, h3, h4⟩ | h)
        · exact ⟨h1, h2, h3, by omega⟩
        · exact ⟨h.2.1, h.2.2, by omega, by omega⟩
      · rintro ⟨h1, h2, h3, h4⟩
        by_cases h5 : c - c0 < j
        · exact Or.inl ⟨h1, h2, h3, h5⟩
        · exact Or.inr ⟨by omega, h1, h2⟩

theorem wp_onA {α : Type} {m : M (Buf T) α} {s : CgsSt T} {Q : α → CgsSt T → Prop} :
    M.wp (onA m) s Q ↔ M.wp m s.a (fun a b => Q a ⟨b, s.r, s.w⟩) := by unfold onA; rw [M.wp_zoom]
theorem wp_onR {α : Type} {m : M (Buf T) α} {s : CgsSt T} {Q : α → CgsSt T → Prop} :
    M.wp (onR m) s Q ↔ M.wp m s.r (fun a b => Q a ⟨s.a, b, s.w⟩) := by unfold onR; rw [M.wp_zoom]
theorem wp_onW {α : Type} {m : M (Buf T) α} {s : CgsSt T} {Q : α → CgsSt T → Prop} :
    M.wp (onW m) s Q ↔ M.wp m s.w (fun a b => Q a ⟨s.a, s.r, b⟩) := by unfold onW; rw [M.wp_zoom]
theorem wp_onAW {α : Type} {m : M (Buf T × Buf T) α} {s : CgsSt T} {Q : α → CgsSt T → Prop} :
    M.wp (onAW m) s Q ↔ M.wp m (s.a, s.w) (fun a p => Q a ⟨p.1, s.r, p.2⟩) := by unfold onAW; rw [M.wp_zoom]
theorem wp_atAR {α : Type} {oa or : Int} {m : M (CgsSt T) α} {s : CgsSt T} {Q : α → CgsSt T → Prop} :
    M.wp (atAR oa or m) s Q ↔ M.wp m ⟨s.a.shift oa, s.r.shift or, s.w⟩ (fun a t => Q a ⟨t.a.shift (-oa), t.r.shift (-or), t.w⟩) := by
  unfold atAR; rw [M.wp_zoom]

/-- What the n x n matrix R of a QR decomposition looks like afterwards. -/
structure RPost (ldr n : Int) (R : Int → Int → T) (r r' : Buf T) : Prop where
  upper : ∀ i j, Up n i j → r' (i + j * ldr) = .val (R i j)
  outside : ∀ p, (∀ i j, InR n n i j → p ≠ i + j * ldr) → r' p = r p
  alloc : ∀ i j, InR n n i j → r' (i + j * ldr) ≠ .none

theorem qrBlockCgsF_spec {sqrt : T → T} (hs : SqrtOk sqrt) (fuel : Nat) {m n ldr b0 W : Int} {A : Int → Int → T} {a0 a r w : Buf T} (hn : 1 ≤ n)
    (hnm : n ≤ m) (hl : n ≤ ldr) (hb0 : 0 < b0) (hfuel : n < fuel) (hA : FullColRank m n A) (ha : Upd m (InR m n) A a0 a)
    (hr : ∀ i j, InR n n i j → r (i + j * ldr) ≠ .none) (hW : max n (2 * min b0 n) * min b0 n ≤ W) (hw : ∀ p, 0 ≤ p → p < W → w p ≠ .none) :
    M.wp (qrBlockCgsF sqrt fuel m n ldr b0) ⟨a, r, w⟩ (fun _ s => ∃ Q R, IsQR m n A Q R ∧ Upd m (InR m n) Q a0 s.a ∧
      RPost ldr n R r s.r ∧ Work W w s.w) := by
  induction fuel generalizing n b0 A a0 a r w with
  | zero => omega
  | succ fuel ih =>
    unfold qrBlockCgsF
    rw [M.wp_bind, M.wp_when]
    refine ⟨fun h => by omega, fun _ => ?_⟩
    rw [M.wp_bind, M.wp_require]
    refine ⟨hl, ?_⟩
    generalize hbb : min b0 n = b at hW
    have hb : 0 < b := by omega
    have hbn : b ≤ n := by omega
    have hm : 0 ≤ m := by omega
    have hW1 : 2 * (b * b) ≤ W := le_trans (by have := le_max_right n (2 * b); nlinarith) hW
    have hW2 : n * b ≤ W := le_trans (by have := le_max_left n (2 * b); nlinarith) hW
    simp only []
    rw [M.wp_bind, wp_onAW]
    -- the first block
    have hA1 : FullColRank m b A := by
      intro x hx j h0 hj
      have := hA (fun j => if j < b then x j else 0) (fun i hi0 hi => by
        refine Eq.trans ?_ (hx i hi0 hi)
        symm
        refine (Finset.sum_subset_zero_on_sdiff (fun k hk => ?_) (fun k hk => ?_) (fun k hk => ?_))
        · simp at hk ⊢; omega
        · simp at hk; rw [if_neg (by omega), mul_zero]
        · simp at hk; rw [if_pos (by omega)]) j h0 (by omega)
      rwa [if_pos hj] at this
    have ha1 : Upd m (InR m b) A a a := Upd.refl fun i j hij => ha.cells i j ⟨hij.1, hij.2.1, hij.2.2.1, by have := hij.2.2.2; omega⟩
    refine M.wp_mono (cholQr_spec hs hm hb.le hb hA1 ha1 (fun p h0 hp => hw p h0 (by omega))) ?_
    rintro _ ⟨a1, w1⟩ ⟨Q1, R1, ⟨hQ1, hQ2, hQ3⟩, h1, h2, h3⟩
    have h3 := h3.mono hW1 hw
    dsimp only at h1 h2 h3 ⊢
    rw [M.wp_bind, M.wp_get, M.wp_bind, wp_onR]
    refine M.wp_mono (copyCols_spec (c0 := 0) (X := R1) hb.le hb.le (by omega : b ≤ ldr) (fun j => mul_comm _ _) (fun j => by ring) h2
      (fun i j hij => by rw [zero_add]; exact hr i j ⟨hij.1, by have := hij.2; omega, hij.2.2.1, by have := hij.2.2; omega⟩)) ?_
    intro _ r1 h4
    simp only [sub_zero] at h4
    dsimp only at h4 ⊢
    have hrb : RowsIn ldr (InR b b) := inR_rows (by omega)
    by_cases hbn2 : b < n
    swap
    · rw [if_neg hbn2, M.wp_pure]
      obtain rfl : b = n := by omega
      dsimp only
      refine ⟨Q1, R1, ⟨hQ1, hQ2, hQ3⟩, ?_, ⟨?_, h4.outside, fun i j hij => by rw [h4.cells i j hij]; simp⟩, h3⟩
      · exact ⟨h1.cells, fun p hp => by rw [h1.outside p hp, ha.outside p hp]⟩
      · intro i j hij
        exact h4.cells i j ⟨hij.1, by have := hij.2; omega, by have := hij.1; have := hij.2; omega, hij.2.2⟩
    · rw [if_pos hbn2]
      obtain ⟨nt, rfl⟩ : ∃ nt, n = b + nt := ⟨n - b, by ring⟩
      have hnt : 0 < nt := by omega
      simp only [add_sub_cancel_left]
      have hac : ∀ i j, InR m nt i j → a1 (i + (b + j) * m) = .val (A i (b + j)) := by
        intro i j hij
        rw [h1.other (inR_rows (le_refl _)) ⟨hij.1, hij.2.1⟩ (fun h => by have := h.2.2.2; have := hij.2.2.1; omega)]
        exact ha.cells i (b + j) ⟨hij.1, hij.2.1, by have := hij.2.2; omega, by have := hij.2.2; omega⟩
      rw [M.wp_bind, M.wp_get, M.wp_bind, wp_onW]
      have had : ∀ ld i j, addr .ColMajor ld i j = i + j * ld := fun ld i j => by simp [addr, mul_comm]
      have hop1 : ∀ ld i j, opIndex .ColMajor ld .NoTrans i j = i + j * ld := fun ld i j => by
        rw [opIndex, strides_at, had]
      have hop2 : ∀ ld i j, opIndex .ColMajor ld .Trans i j = j + i * ld := fun ld i j => by
        rw [opIndex, strides_at, had]
      have hbnt : b * nt ≤ W := le_trans (by nlinarith) hW2
      refine M.wp_mono (blasGemm_spec (Am := fun r c => Q1 c r) (Bm := fun r c => A r (b + c)) (C := fun _ _ => 0) hb.le hnt.le hm
        (show LdOk .ColMajor m (rowsOf .Trans b m) (colsOf .Trans b m) from le_refl _) (show LdOk .ColMajor m (rowsOf .NoTrans m nt) (colsOf .NoTrans m nt) from le_refl _)
        (show LdOk .ColMajor b b nt from le_refl _) (fun _ i l hil => ?_) (fun _ l j hlj => ?_) (fun i j hij => ?_) (fun h => absurd rfl h)) ?_
      · rw [← h1.cells l i ⟨hil.2.2.1, hil.2.2.2, hil.1, hil.2.1⟩]
        dsimp only
        rw [hop2, zero_add]
      · rw [← hac l j hlj]
        dsimp only
        rw [hop1, show m * b + (l + j * m) = l + (b + j) * m by ring]
      · rw [had]
        have := pos_range hij
        exact h3.inside _ this.1 (by omega)
      intro _ w2 h5
      have h5 := h5.congr (A' := fun i j => .val (prodEntry m (fun r c => Q1 c r) (fun r c => A r (b + c)) i j)) (fun i j _ => by ring_nf)
      obtain ⟨S, hS⟩ : ∃ S : Int → Int → T, S = prodEntry m (fun r c => Q1 c r) (fun r c => A r (b + c)) := ⟨_, rfl⟩
      rw [← hS] at h5
      have h5w : Work W w1 w2 := by
        refine Work.mono (n := b * nt) ⟨fun p hp => h5.outside p (fun i j hij he => ?_), fun p h0 hp => ?_⟩ hbnt h3.inside
        · rw [had] at he
          have := pos_range hij; omega
        · obtain ⟨i, j, hij, rfl⟩ := pos_split h0 hp hb.le
          rw [← had, h5.cells i j hij]; simp
      have h5c : ∀ i j, InR b nt i j → w2 (i + j * b) = .val (S i j) := fun i j hij => by
        rw [← had, h5.cells i j hij]
      rw [M.wp_bind, M.wp_get, M.wp_bind, wp_onA, M.wp_at]
      refine M.wp_mono (blasGemm_spec (Am := Q1) (Bm := S) (C := fun r c => A r (b + c)) hm hnt.le hb.le
        (show LdOk .ColMajor m (rowsOf .NoTrans m b) (colsOf .NoTrans m b) from le_refl _) (show LdOk .ColMajor b (rowsOf .NoTrans b nt) (colsOf .NoTrans b nt) from le_refl _)
        (show LdOk .ColMajor m m nt from le_refl _) (fun _ i l hil => ?_) (fun _ l j hlj => ?_) (fun i j hij => ?_) (fun _ i j hij => ?_)) ?_
      · rw [← h1.cells i l hil]
        dsimp only
        rw [hop1, zero_add]
      · rw [← h5c l j hlj]
        dsimp only
        rw [hop1, zero_add]
      · dsimp only
        rw [had, Buf.shift, show m * b + (i + j * m) = i + (b + j) * m by ring, hac i j hij]; simp
      · dsimp only
        rw [had, Buf.shift, show m * b + (i + j * m) = i + (b + j) * m by ring, hac i j hij]
      intro _ a2' h6
      have h6 : Upd m (InR m nt) (fun i j => A i (b + j) - prodEntry b Q1 S i j) (a1.shift (m * b)) a2' :=
        ⟨fun i j hij => by rw [← had, h6.cells i j hij]; congr 1; ring, fun p hp => h6.outside p (fun i j hij => by rw [had]; exact hp i j hij)⟩
      rw [M.wp_bind, M.wp_get, M.wp_bind, wp_onR]
      dsimp only
      refine M.wp_mono (copyCols_spec (c0 := b) (X := S) hb.le hnt.le (by omega : b ≤ ldr) (fun j => rfl) (fun j => by ring) h5c
        (fun i j hij => by
          rw [h4.other hrb ⟨hij.1, by have := hij.2; omega⟩ (fun h => by have := h.2.2.2; have := hij.2.2.1; omega)]
          exact hr i (b + j) ⟨hij.1, by have := hij.2; omega, by have := hij.2.2; omega, by have := hij.2.2; omega⟩)) ?_
      intro _ r2 h7
      have hrS : RowsIn ldr (fun i j => InR b nt i (j - b)) := fun i j h => ⟨h.1, by have := h.2.1; omega⟩
      rw [wp_atAR]
      dsimp only
      have ebuf : (a2'.shift (-(m * b))).shift (m * b) = a2' := by
        funext p; simp only [Buf.shift]; congr 1; ring
      rw [ebuf]
      have hrl : ∀ i j, InR nt nt i j → r2.shift (ldr * b + b) (i + j * ldr) = r (i + b + (j + b) * ldr) := by
        intro i j hij
        rw [Buf.shift, show ldr * b + b + (i + j * ldr) = i + b + (j + b) * ldr by ring,
          h7.other hrS ⟨by have := hij.1; omega, by have := hij.2.1; omega⟩ (fun h => by have := h.2.1; have := hij.1; omega),
          h4.other hrb ⟨by have := hij.1; omega, by have := hij.2.1; omega⟩ (fun h => by have := h.2.1; have := hij.1; omega)]
      have hmin : min b nt ≤ b := min_le_left _ _
      have hmin0 : 0 < min b nt := lt_min hb hnt
      refine M.wp_mono (ih (n := nt) (b0 := b) (A := fun i j => A i (b + j) - prodEntry b Q1 S i j) (a0 := a1.shift (m * b)) (by omega) (by omega) (by omega) hb (by omega)
        (trail_fullRank hb.le hnt.le hQ2 hA hQ3) h6 (fun i j hij => by
          rw [hrl i j hij]
          exact hr _ _ ⟨by have := hij.1; omega, by have := hij.2.1; omega, by have := hij.2.2.1; omega, by have := hij.2.2.2; omega⟩)
        (le_trans (mul_le_mul (max_le_max (by omega) (by omega)) hmin hmin0.le (by have := le_max_left (b + nt) (2 * b); omega)) hW) h5w.inside) ?_
      rintro _ ⟨a3, r3, w3⟩ ⟨Q2, R2, ⟨hq1, hq2, hq3⟩, h8, h9, h10⟩
      dsimp only at h8 h9 h10 ⊢
      refine ⟨_, _, block_qr hb.le hnt.le hQ1 hQ2 hQ3 (fun i j _ => by rw [hS]) hq1 hq2 hq3, ?_, ?_, (h3.trans h5w).trans h10⟩
      · have h8 := Upd.of_shift (r := 0) (c := b) (by ring) h8
        simp only [sub_zero] at h8
        constructor
        · intro i j hij
          by_cases hj : j < b
          · rw [if_pos hj, h8.other (fun i j h => ⟨h.1, h.2.1⟩) ⟨hij.1, hij.2.1⟩ (fun h => by have := h.2.2.1; omega)]
            exact h1.cells i j ⟨hij.1, hij.2.1, hij.2.2.1, hj⟩
          · rw [if_neg hj]
            exact h8.cells i j ⟨hij.1, hij.2.1, by omega, by have := hij.2.2.2; omega⟩
        · intro p hp
          rw [h8.outside p (fun i j hij => hp i j ⟨hij.1, hij.2.1, by have := hij.2.2.1; omega, by have := hij.2.2.2; omega⟩),
            h1.outside p (fun i j hij => hp i j ⟨hij.1, hij.2.1, hij.2.2.1, by have := hij.2.2.2; omega⟩),
            ha.outside p hp]
      · have hsh : ∀ p, r3.shift (-(ldr * b + b)) p = r3 (p - (ldr * b + b)) := fun p => by rw [Buf.shift]; congr 1; ring
        have hout : ∀ p, (∀ i j, InR nt nt i j → p ≠ i + b + (j + b) * ldr) → r3.shift (-(ldr * b + b)) p = r2 p := by
          intro p hp
          rw [hsh, h9.outside _ (fun i j hij he => hp i j hij (by linarith [he, show i + b + (j + b) * ldr = ldr * b + b + (i + j * ldr) by ring])), Buf.shift]
          congr 1; ring
        have hin : ∀ i j, r3.shift (-(ldr * b + b)) (i + j * ldr) = r3 ((i - b) + (j - b) * ldr) := by
          intro i j; rw [hsh]; congr 1; ring
        have hcell : ∀ i j, InR (b + nt) (b + nt) i j → ¬ (b ≤ i ∧ b ≤ j) → r3.shift (-(ldr * b + b)) (i + j * ldr) = r2 (i + j * ldr) := by
          intro i j hij hno
          refine hout _ (fun i' j' hij' he => hno ?_)
          have := cell_inj (ld := ldr) ⟨hij.1, by have := hij.2.1; omega⟩ ⟨by have := hij'.1; omega, by have := hij'.2.1; omega⟩ he
          have := hij'.1; have := hij'.2.2.1; omega
        refine ⟨fun i j hij => ?_, fun p hp => ?_, fun i j hij => ?_⟩
        · obtain ⟨h0, hle, hj⟩ := hij
          have hij' : InR (b + nt) (b + nt) i j := ⟨h0, by omega, by omega, hj⟩
          by_cases hib : i < b
          · rw [hcell i j hij' (by omega), if_pos hib]
            by_cases hjb : j < b
            · rw [if_pos hjb, h7.other hrS ⟨h0, by omega⟩ (fun h => by have := h.2.2.1; omega)]
              exact h4.cells i j ⟨h0, hib, by omega, hjb⟩
            · rw [if_neg hjb]
              exact h7.cells i j ⟨h0, hib, by omega, by omega⟩
          · rw [if_neg hib, if_neg (by omega), hin]
            exact h9.upper _ _ ⟨by omega, by omega, by omega⟩
        · rw [hout p (fun i j hij => hp _ _ ⟨by have := hij.1; omega, by have := hij.2.1; omega, by have := hij.2.2.1; omega, by have := hij.2.2.2; omega⟩),
            h7.outside p (fun i j hij => hp _ _ ⟨hij.1, by have := hij.2.1; omega, by have := hij.2.2.1; omega, by have := hij.2.2.2; omega⟩),
            h4.outside p (fun i j hij => hp _ _ ⟨hij.1, by have := hij.2.1; omega, hij.2.2.1, by have := hij.2.2.2; omega⟩)]
        · by_cases hbb : b ≤ i ∧ b ≤ j
          · rw [hin]
            exact h9.alloc _ _ ⟨by omega, by have := hij.2.1; omega, by omega, by have := hij.2.2.2; omega⟩
          · rw [hcell i j hij hbb]
            by_cases h11 : InR b nt i (j - b)
            · rw [h7.cells i j h11]; simp
            · rw [h7.other hrS ⟨hij.1, by have := hij.2.1; omega⟩ h11]
              by_cases h12 : InR b b i j
              · rw [h4.cells i j h12]; simp
              · rw [h4.other hrb ⟨hij.1, by have := hij.2.1; omega⟩ h12]
                exact hr i j hij

end

theorem addr_colMajor (ld i j : Int) : addr .ColMajor ld i j = i + j * ld := by simp [addr, mul_comm]

end RB
