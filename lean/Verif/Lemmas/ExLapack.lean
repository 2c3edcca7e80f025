import Verif.Lemmas.Qr
import Verif.Lemmas.ExMath

/-! # Memory effects of the LAPACK routines used by the programs in examples/ -/

namespace RB
open Spec

variable {T : Type}

theorem readMat_spec [Zero T] {m n ld : Int} {A : Int → Int → T} {b : Buf T} (hm : 0 ≤ m) (hn : 0 ≤ n)
    (h : ∀ i j, InR m n i j → b (i + j * ld) = .val (A i j)) :
    M.wp (readMat m n ld) b (fun F b' => b' = b ∧ ∀ i j, InR m n i j → F i j = A i j) := by
  unfold readMat
  rw [M.wp_bind]
  refine M.wp_forI (fun _ b' => b' = b) hn rfl ?_ ?_
  · rintro j _ hj0 hj rfl
    refine M.wp_forI (fun _ b' => b' = _) hm rfl ?_ (fun _ h => h)
    rintro i _ hi0 hi rfl
    rw [M.wp_bind, M.wp_rd]
    refine ⟨_, h i j ⟨hi0, hi, hj0, hj⟩, ?_⟩
    rw [M.wp_pure]
  · rintro _ rfl
    rw [M.wp_bind, M.wp_get, M.wp_pure]
    refine ⟨rfl, fun i j hij => ?_⟩
    dsimp only; rw [h i j hij]; rfl

theorem writeMat_spec {m n ld : Int} {F : Int → Int → T} {b : Buf T} (hm : 0 ≤ m) (hn : 0 ≤ n) (hl : m ≤ ld)
    (h : ∀ i j, InR m n i j → b (i + j * ld) ≠ .none) :
    M.wp (writeMat m n ld F) b (fun _ b' => Upd ld (InR m n) F b b') := by
  have hr : ∀ P : Int → Int → Prop, (∀ i j, P i j → 0 ≤ i ∧ i < m) → RowsIn ld P := fun P hP i j hij => ⟨(hP i j hij).1, by have := (hP i j hij).2; omega⟩
  unfold writeMat
  refine M.wp_forI (fun c b' => Upd ld (InR m c) F b b') hn ⟨fun i j hij => by unfold InR at hij; omega, fun _ _ => rfl⟩ ?_ (fun _ h => h)
  intro j b1 hj0 hj hb1
  refine M.wp_forI (fun r b' => Upd ld (fun i c => InR m j i c ∨ (c = j ∧ 0 ≤ i ∧ i < r)) F b b') hm ?_ ?_ ?_
  · exact hb1.congrP fun i c => by constructor; · exact Or.inl
                                   · rintro (h | h); · exact h
                                     · omega
  · intro i b2 hi0 hi hb2
    refine hb2.wp_extend (P' := fun i' c => InR m j i' c ∨ (c = j ∧ 0 ≤ i' ∧ i' < i + 1)) (X' := F) (hr _ ?_) (Or.inr ⟨rfl, hi0, by omega⟩) ?_ ?_ rfl (fun _ _ _ _ => rfl) (fun b3 h3 => h3)
    · rintro i' c (h | h)
      · exact ⟨h.1, h.2.1⟩
      · omega
    · rw [hb2.other (hr _ ?_) ⟨hi0, by omega⟩ ?_]
      · exact h i j ⟨hi0, hi, hj0, hj⟩
      · rintro i' c (h | h)
        · exact ⟨h.1, h.2.1⟩
        · omega
      · rintro (h | h)
        · unfold InR at h; omega
        · omega
    · intro r c
      constructor
      · rintro (h | h)
        · exact .inl (.inl h)
        · rcases (show r < i ∨ r = i by omega) with h' | h'
          · exact .inl (.inr ⟨h.1, h.2.1, h'⟩)
          · exact .inr ⟨h', h.1⟩
      · rintro ((h | h) | h)
        · exact .inl h
        · exact .inr ⟨h.1, h.2.1, by omega⟩
        · exact .inr ⟨h.2, by omega, by omega⟩
  · intro b2 hb2
    exact hb2.congrP fun i c => by unfold InR; omega

theorem writeVec_spec {n : Int} {x : Int → T} {b : Buf T} (hn : 0 ≤ n) (h : ∀ i, 0 ≤ i → i < n → b i ≠ .none) :
    M.wp (forI 0 n fun i => M.wr i (x i)) b (fun _ b' => HoldsVec b' n x ∧ SameOutsideVec b b' n) := by
  refine M.wp_forI (fun k b' => HoldsVec b' k x ∧ SameOutsideVec b b' k) hn ⟨fun i h0 h1 => by omega, fun _ _ => rfl⟩ ?_ (fun _ h => h)
  rintro i b' h0 hi ⟨h1, h2⟩
  rw [M.wp_wr]
  refine ⟨by rw [h2 i (by omega)]; exact h i h0 hi, fun p hp0 hp => ?_, fun p hp => ?_⟩
  · by_cases he : p = i
    · subst he; rw [Buf.set_same]
    · rw [Buf.set_ne he]; exact h1 p hp0 (by omega)
  · rw [Buf.set_ne (by omega)]; exact h2 p (by omega)

section
variable {α : Type} {s : SvdSt T} {Q : α → SvdSt T → Prop} {m : M (Buf T) α}
theorem SvdSt.wp_onA : M.wp (SvdSt.onA m) s Q ↔ M.wp m s.a (fun x b => Q x { s with a := b }) := by unfold SvdSt.onA; rw [M.wp_zoom]
theorem SvdSt.wp_onS : M.wp (SvdSt.onS m) s Q ↔ M.wp m s.s (fun x b => Q x { s with s := b }) := by unfold SvdSt.onS; rw [M.wp_zoom]
theorem SvdSt.wp_onU : M.wp (SvdSt.onU m) s Q ↔ M.wp m s.u (fun x b => Q x { s with u := b }) := by unfold SvdSt.onU; rw [M.wp_zoom]
theorem SvdSt.wp_onVT : M.wp (SvdSt.onVT m) s Q ↔ M.wp m s.vt (fun x b => Q x { s with vt := b }) := by unfold SvdSt.onVT; rw [M.wp_zoom]
end

/-- `gesdd` for m ≥ n: U in A, VT in its array. -/
theorem gesdd_tall [Zero T] {svd : Int → Int → (Int → Int → T) → Svd T} {m n lda ldu ldvt : Int} {A : Int → Int → T} {s : SvdSt T}
    (hn : 1 ≤ n) (hnm : n ≤ m) (hl : m ≤ lda) (hu : 1 ≤ ldu) (hv : n ≤ ldvt) (hA : ∀ i j, InR m n i j → s.a (i + j * lda) = .val (A i j))
    (hs : ∀ i, 0 ≤ i → i < n → s.s i ≠ .none) (hvt : ∀ i j, InR n n i j → s.vt (i + j * ldvt) ≠ .none) :
    M.wp (gesddOverwrite svd m n lda ldu ldvt) s (fun _ s' => ∃ F0 F, (∀ i j, InR m n i j → F0 i j = A i j) ∧ F = svd m n F0 ∧ Upd lda (InR m n) F.u s.a s'.a ∧
      (HoldsVec s'.s n F.s ∧ SameOutsideVec s.s s'.s n) ∧ Upd ldvt (InR n n) F.vt s.vt s'.vt ∧ s'.u = s.u) := by
  unfold gesddOverwrite
  simp only [M.wp_bind, wp_blasCheck, SvdSt.wp_onA, SvdSt.wp_onS]
  refine ⟨by omega, by omega, by omega, ⟨hu, by omega⟩, ⟨by omega, fun _ => hv⟩, ?_⟩
  refine M.wp_mono (readMat_spec (by omega) (by omega) hA) ?_
  rintro F0 _ ⟨rfl, hF0⟩
  rw [if_pos hnm]
  refine M.wp_mono (writeMat_spec (by omega) (by omega) hl (fun i j hij => by rw [hA i j hij]; simp)) ?_
  intro _ a1 ha1
  rw [min_eq_right hnm]
  refine M.wp_mono (writeVec_spec (by omega) hs) ?_
  intro _ s1 hs1
  rw [if_pos hnm, SvdSt.wp_onVT]
  refine M.wp_mono (writeMat_spec (by omega) (by omega) hv hvt) ?_
  intro _ v1 hv1
  exact ⟨F0, _, hF0, rfl, ha1, hs1, hv1, rfl⟩

/-- `gesdd` for m < n: VT in A, U in its array. -/
theorem gesdd_wide [Zero T] {svd : Int → Int → (Int → Int → T) → Svd T} {m n lda ldu ldvt : Int} {A : Int → Int → T} {s : SvdSt T}
    (hm : 1 ≤ m) (hmn : m < n) (hl : m ≤ lda) (hu : m ≤ ldu) (hv : 1 ≤ ldvt) (hA : ∀ i j, InR m n i j → s.a (i + j * lda) = .val (A i j))
    (hs : ∀ i, 0 ≤ i → i < m → s.s i ≠ .none) (hU : ∀ i j, InR m m i j → s.u (i + j * ldu) ≠ .none) :
    M.wp (gesddOverwrite svd m n lda ldu ldvt) s (fun _ s' => ∃ F0 F, (∀ i j, InR m n i j → F0 i j = A i j) ∧ F = svd m n F0 ∧ Upd lda (InR m n) F.vt s.a s'.a ∧
      (HoldsVec s'.s m F.s ∧ SameOutsideVec s.s s'.s m) ∧ Upd ldu (InR m m) F.u s.u s'.u ∧ s'.vt = s.vt) := by
  unfold gesddOverwrite
  simp only [M.wp_bind, wp_blasCheck, SvdSt.wp_onA, SvdSt.wp_onS]
  refine ⟨by omega, by omega, by omega, ⟨by omega, fun _ => hu⟩, ⟨by omega, by omega⟩, ?_⟩
  refine M.wp_mono (readMat_spec (by omega) (by omega) hA) ?_
  rintro F0 _ ⟨rfl, hF0⟩
  rw [if_neg (by omega)]
  refine M.wp_mono (writeMat_spec (by omega) (by omega) hl (fun i j hij => by rw [hA i j hij]; simp)) ?_
  intro _ a1 ha1
  rw [min_eq_left hmn.le]
  refine M.wp_mono (writeVec_spec (by omega) hs) ?_
  intro _ s1 hs1
  rw [if_neg (by omega), SvdSt.wp_onU]
  refine M.wp_mono (writeMat_spec (by omega) (by omega) hu hU) ?_
  intro _ u1 hu1
  exact ⟨F0, _, hF0, rfl, ha1, hs1, hu1, rfl⟩

end RB
