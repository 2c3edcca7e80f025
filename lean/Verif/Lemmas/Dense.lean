import Verif.Spec.Dense
import Verif.Lemmas.Util
import Verif.Lemmas.SafeInt
import Mathlib.Tactic.Ring
import Mathlib.Tactic.Linarith

namespace RB
open Spec
variable {N : Nat} {K W T : Type}

theorem ctrIncr_eq {c : ZMod N} {n : Int} (h0 : 0 ≤ n) (h1 : n < 2 ^ 64) : ctrIncr c n = c + (n : ZMod N) := by
  unfold ctrIncr; rw [Int.emod_eq_of_lt h0 h1]

/-- `b'` is `b` with the cells `base .. base + t - 1` holding `v 0 .. v (t-1)`. -/
def RowSt (b : Buf T) (base t : Int) (v : Int → T) (b' : Buf T) : Prop :=
  ∀ p, b' p = if base ≤ p ∧ p < base + t then .val (v (p - base)) else b p

theorem RowSt.init (b : Buf T) (base : Int) (v : Int → T) : RowSt b base 0 v b := by
  intro p; rw [if_neg (by omega)]

theorem RowSt.step {b b' : Buf T} {base t : Int} {v : Int → T} (h : RowSt b base t v b') (ht : 0 ≤ t) :
    RowSt b base (t + 1) v (b'.set (base + t) (v t)) := by
  intro p
  rw [Buf.set_apply]
  by_cases hp : p = base + t
  · subst hp
    rw [if_pos rfl, if_pos (by omega)]; congr 2; omega
  · rw [if_neg hp, h p]
    by_cases h1 : base ≤ p ∧ p < base + t
    · rw [if_pos h1, if_pos (by omega)]
    · rw [if_neg h1, if_neg (by omega)]

theorem RowSt.alloc {b b' : Buf T} {base t : Int} {v : Int → T} (h : RowSt b base t v b') {p : Int} (hp : b p ≠ .none) :
    b' p ≠ .none := by
  rw [h p]; split_ifs
  · simp
  · exact hp

/-! ## The generator arrays -/

theorem boxmulall_spec {len : Int} {bm : W → W → T × T} {w : Int → W} (hlen : 0 ≤ len) (hev : len % 2 = 0) :
    M.wp (boxmulall len bm (Buf.ofFn len w)) (Buf.alloc T len) (fun _ b =>
      RowSt (Buf.alloc T len) 0 len (fun i =>
        if i % 2 = 0 then (bm (w (2 * (i / 2))) (w (2 * (i / 2) + 1))).1
        else (bm (w (2 * (i / 2))) (w (2 * (i / 2) + 1))).2) b) := by
  have hdiv : len.tdiv 2 = len / 2 := Int.tdiv_eq_ediv_of_nonneg hlen
  unfold boxmulall
  rw [hdiv]
  set v : Int → T := fun i =>
        if i % 2 = 0 then (bm (w (2 * (i / 2))) (w (2 * (i / 2) + 1))).1
        else (bm (w (2 * (i / 2))) (w (2 * (i / 2) + 1))).2 with hv
  apply M.wp_forI (fun i b => RowSt (Buf.alloc T len) 0 (2 * i) v b) (by omega) (by simpa using RowSt.init _ _ _)
  · intro i b hi0 hi1 hb
    have hal : ∀ p, 0 ≤ p → p < len → (Buf.alloc T len) p ≠ .none := by
      intro p h0 h1; simp [Buf.alloc, h0, h1]
    rw [M.wp_bind, M.wp_lift]
    refine ⟨w (2 * i), ?_, ?_⟩
    · rw [Buf.rd_eq_ok]; simp only [Buf.ofFn]; rw [if_pos (by omega)]
    rw [M.wp_bind, M.wp_lift]
    refine ⟨w (2 * i + 1), ?_, ?_⟩
    · rw [Buf.rd_eq_ok]; simp only [Buf.ofFn]; rw [if_pos (by omega)]
    rw [M.wp_bind, M.wp_wr]
    refine ⟨hb.alloc (hal _ (by omega) (by omega)), ?_⟩
    have e1 : v (2 * i) = (bm (w (2 * i)) (w (2 * i + 1))).1 := by
      simp only [hv]; rw [if_pos (by omega), show 2 * i / 2 = i by omega]
    have e2 : v (2 * i + 1) = (bm (w (2 * i)) (w (2 * i + 1))).2 := by
      simp only [hv]; rw [if_neg (by omega), show (2 * i + 1) / 2 = i by omega]
    have h1 := hb.step (by omega)
    rw [zero_add, e1] at h1
    rw [M.wp_wr]
    refine ⟨h1.alloc (hal _ (by omega) (by omega)), ?_⟩
    have h2 := h1.step (by omega)
    rw [zero_add, e2] at h2
    rw [show 2 * (i + 1) = 2 * i + 1 + 1 by ring]
    exact h2
  · intro b hb
    rw [show 2 * (len / 2) = len by omega] at hb
    exact hb

/-- The array returned by `OP::generate` holds the values of the specification, and has no other cells. -/
theorem generate_spec {G : Gen N K W T} (hG : G.Ok) (family : ScalarDist) (c : ZMod N) (k : K) :
    ∃ b, G.generate family c k = .ok b ∧ ∀ i, 0 ≤ i → i < G.len → b i = .val (genValue G family c k i) := by
  have hlen : 0 ≤ G.len ∧ G.len % 2 = 0 := by rcases hG with h | h <;> rw [h] <;> decide
  cases family with
  | Uniform =>
    refine ⟨_, rfl, fun i h0 h1 => ?_⟩
    simp [Buf.ofFn, h0, h1, genValue]
  | Gaussian =>
    obtain ⟨u, b, hb, hrow⟩ := boxmulall_spec (T := T) (bm := G.boxmuller) (w := G.word c k) hlen.1 hlen.2
    refine ⟨b, ?_, fun i h0 h1 => ?_⟩
    · simp only [Gen.generate, Gen.boxmulGenerate, Gen.words]; rw [hb]
    · rw [hrow i, if_pos (by omega)]
      simp only [genValue, sub_zero]

/-! ## One row -/

theorem copyPromote_spec {n base ind : Int} {a : Buf T} {b b' : Buf T} {v : Int → T} (hn : 0 ≤ n) (hind : 0 ≤ ind)
    (hb : RowSt b base ind v b') (ha : ∀ i, 0 ≤ i → i < n → a i = .val (v (ind + i)))
    (hal : ∀ i, 0 ≤ i → i < n → b (base + ind + i) ≠ .none) :
    M.wp (copyPromote n a (base + ind)).run b' (fun _ b'' => RowSt b base (ind + n) v b'') := by
  unfold copyPromote
  rw [Prog.run_forI]
  apply M.wp_forI (fun i c => RowSt b base (ind + i) v c) hn (by simpa using hb)
  · intro i c h0 h1 hc
    rw [Prog.run_bind, Prog.run_lift, M.wp_bind, M.wp_lift]
    refine ⟨_, Buf.rd_val (ha i h0 h1), ?_⟩
    rw [Prog.run_store, M.wp_wr]
    refine ⟨hc.alloc (hal i h0 h1), ?_⟩
    have := hc.step (by omega)
    rw [← add_assoc] at this ⊢
    exact this
  · intro c hc; exact hc

/-- The value written at position `j` of a row whose first counter is `c` and first word `fs`. -/
def rowVal (g : ZMod N → Int → T) (L : Int) (c : ZMod N) (fs j : Int) : T :=
  g (c + (((fs + j) / L : Int) : ZMod N)) ((fs + j) % L)

theorem fillRow_spec {gen : ZMod N → K → Res (Buf T)} {g : ZMod N → Int → T} {L : Int} {c : ZMod N} {k : K}
    {lda stride pp nScols row : Int} {b : Buf T} (hL : 0 < L)
    (hgen : ∀ c, ∃ a, gen c k = .ok a ∧ ∀ i, 0 ≤ i → i < L → a i = .val (g c i))
    (hpp : 0 ≤ pp) (hn : 0 < nScols) (hrow : 0 ≤ row) (hstride : 0 ≤ stride) (hfit : stride * row ≤ intMax 64)
    (hal : ∀ j, 0 ≤ j → j < nScols → b (row * lda + j) ≠ .none) :
    M.wp (fillRow gen L c k lda stride (pp % L)
      ((if pp / L = (pp + nScols - 1) / L then (pp + nScols - 1) % L + 1 else L) - pp % L)
      (pp / L) ((pp + nScols - 1) / L) ((pp + nScols - 1) % L + 1) (pp / L = (pp + nScols - 1) / L) row).run b
      (fun _ b' => RowSt b (row * lda) nScols
        (rowVal g L (c + ((stride * row : Int) : ZMod N)) (pp % L)) b') := by
  set fs := pp % L with hfs
  set st := pp / L with hst
  set en := (pp + nScols - 1) / L with hen
  set ls := (pp + nScols - 1) % L + 1 with hls
  have e1 : pp = L * st + fs := by rw [hst, hfs]; exact (Int.mul_ediv_add_emod pp L).symm
  have e2 : pp + nScols - 1 = L * en + (ls - 1) := by
    rw [hen, hls]; have := (Int.mul_ediv_add_emod (pp + nScols - 1) L); omega
  have fs0 : 0 ≤ fs := Int.emod_nonneg _ (by omega)
  have fs1 : fs < L := Int.emod_lt_of_pos _ hL
  have ls0 : 1 ≤ ls := by rw [hls]; have := Int.emod_nonneg (pp + nScols - 1) (show L ≠ 0 by omega); omega
  have ls1 : ls ≤ L := by rw [hls]; have := Int.emod_lt_of_pos (pp + nScols - 1) hL; omega
  have hse : st ≤ en := Int.ediv_le_ediv hL (by omega)
  have hprod : 0 ≤ stride * row := mul_nonneg hstride hrow
  have hfits : FitsInt 64 (stride * row) := ⟨by have : intMin 64 ≤ 0 := by decide
                                                omega, hfit⟩
  have hstride_fit : FitsInt 64 stride ∨ row = 0 := by
    rcases eq_or_lt_of_le hrow with h | h
    · right; exact h.symm
    · left
      have : stride ≤ stride * row := by nlinarith
      exact ⟨by have : intMin 64 ≤ 0 := by decide
                omega, by omega⟩
  have hrow_fit : FitsInt 64 row ∨ stride = 0 := by
    rcases eq_or_lt_of_le hstride with h | h
    · right; exact h.symm
    · left
      have : row ≤ stride * row := by nlinarith
      exact ⟨by have : intMin 64 ≤ 0 := by decide
                omega, by omega⟩
  have hsafe : safeIntProduct stride row = .ok (stride * row) := by
    by_cases h0 : stride = 0 ∨ row = 0
    · unfold safeIntProduct safeIntProductM
      rw [if_pos h0]
      rcases h0 with h | h <;> simp [h]
    · push Not at h0
      exact safeIntProductM_ok (hstride_fit.resolve_right h0.2) (hrow_fit.resolve_right h0.1) hfits
  have hmax : intMax 64 < 2 ^ 64 := by decide
  set c0 := c + ((stride * row : Int) : ZMod N) with hc0
  set v := rowVal g L c0 fs with hv
  obtain ⟨a, ha, hav⟩ := hgen c0
  unfold fillRow
  rw [Prog.run_bind, Prog.run_lift, hsafe, M.wp_bind, M.wp_lift]
  refine ⟨_, rfl, ?_⟩
  rw [ctrIncr_eq hprod (by omega), ← hc0]
  simp only [Prog.run_bind, Prog.run_lift, ha, M.wp_bind, M.wp_lift, Prog.run_forI, Prog.run_store]
  refine ⟨a, rfl, ?_⟩
  -- first block
  have hfl : ((if st = en then ls else L) - fs) ≤ L - fs := by split_ifs <;> omega
  have hfl0 : 0 ≤ (if st = en then ls else L) - fs := by
    split_ifs with h
    · have : L * st = L * en := by rw [h]
      omega
    · omega
  have hfln : (if st = en then ls else L) - fs ≤ nScols := by
    split_ifs with h
    · have : L * st = L * en := by rw [h]
      omega
    · have : st + 1 ≤ en := by omega
      have : L * (st + 1) ≤ L * en := Int.mul_le_mul_of_nonneg_left this (by omega)
      rw [mul_add] at this
      omega
  apply M.wp_forI (fun i b' => RowSt b (row * lda) i v b') hfl0 (RowSt.init _ _ _)
  · intro i b' hi0 hi1 hb
    rw [M.wp_bind, M.wp_lift]
    refine ⟨g c0 (i + fs), Buf.rd_val (hav _ (by omega) (by omega)), ?_⟩
    rw [M.wp_wr]
    refine ⟨hb.alloc (hal i hi0 (by omega)), ?_⟩
    have := hb.step hi0
    have ev : v i = g c0 (i + fs) := by
      simp only [hv, rowVal]
      rw [Int.ediv_eq_zero_of_lt (by omega) (by omega), Int.emod_eq_of_lt (by omega) (by omega)]
      simp [add_comm]
    rw [ev] at this
    exact this
  · intro b' hb
    by_cases hone : st = en
    · rw [if_pos hone]
      rw [if_pos hone] at hb
      simp only [Prog.run_pure, M.wp_pure]
      have : ls - fs = nScols := by
        have : L * st = L * en := by rw [hone]
        omega
      rw [this] at hb
      exact hb
    · rw [if_neg hone]
      rw [if_neg hone] at hb
      simp only [if_neg hone, Prog.run_bind, Prog.run_foldI, M.wp_bind]
      have hlt : st + 1 ≤ en := by omega
      -- middle blocks
      apply M.wp_foldI (fun i (x : ZMod N × Int) b' => x.1 = c0 + (i : ZMod N) ∧ x.2 = L - fs + i * L ∧
        RowSt b (row * lda) x.2 v b') (by omega)
      · refine ⟨by simp, by simp, hb⟩
      · rintro i ⟨x1, x2⟩ b' hi0 hi1 ⟨h1, h2, h3⟩
        simp only at h1 h2 h3
        simp only [Prog.run_bind, Prog.run_lift, M.wp_bind, M.wp_lift, Prog.run_pure]
        rw [ctrIncr_eq (by omega) (by omega)]
        obtain ⟨a, ha, hav⟩ := hgen (x1 + ((1 : Int) : ZMod N))
        refine ⟨a, ha, ?_⟩
        have hub : x2 + L ≤ nScols := by
          have : L * (st + i + 2) ≤ L * en := Int.mul_le_mul_of_nonneg_left (by omega) (by omega)
          have e : L * (st + i + 2) = L * st + i * L + 2 * L := by ring
          rw [e] at this
          omega
        have hx2 : 0 ≤ x2 := by
          have : 0 ≤ i * L := mul_nonneg hi0 (by omega)
          omega
        refine M.wp_mono (copyPromote_spec (by omega) hx2 h3 ?_ ?_) ?_
        · intro j hj0 hj1
          rw [hav j hj0 hj1]
          simp only [hv, rowVal]
          have e : fs + (x2 + j) = j + L * (i + 1) := by rw [h2]; ring
          rw [e, Int.add_mul_ediv_left _ _ (by omega), Int.ediv_eq_zero_of_lt hj0 hj1,
            Int.add_mul_emod_self_left, Int.emod_eq_of_lt hj0 hj1, h1]
          congr 2
          push_cast; ring
        · intro j hj0 hj1
          rw [add_assoc]
          exact hal _ (by omega) (by omega)
        · intro _ b'' hb''
          simp only [M.wp_pure]
          refine ⟨?_, ?_, hb''⟩
          · rw [h1]; push_cast; ring
          · rw [h2]; ring
      · rintro ⟨x1, x2⟩ b' ⟨h1, h2, h3⟩
        simp only at h1 h2 h3
        simp only [Prog.run_bind, Prog.run_lift, M.wp_bind, M.wp_lift]
        rw [ctrIncr_eq (by omega) (by omega)]
        obtain ⟨a, ha, hav⟩ := hgen (x1 + ((1 : Int) : ZMod N))
        refine ⟨a, ha, ?_⟩
        have hub : x2 + ls = nScols := by
          have e : L - fs + (en - st - 1) * L = L * en - L * st - fs := by ring
          rw [e] at h2
          omega
        have hx2 : 0 ≤ x2 := by
          have : 0 ≤ (en - st - 1) * L := mul_nonneg (by omega) (by omega)
          omega
        refine M.wp_mono (copyPromote_spec (by omega) hx2 h3 ?_ ?_) ?_
        · intro j hj0 hj1
          rw [hav j hj0 (by omega)]
          simp only [hv, rowVal]
          have e : fs + (x2 + j) = j + L * (en - st) := by rw [h2]; ring
          rw [e, Int.add_mul_ediv_left _ _ (by omega), Int.ediv_eq_zero_of_lt hj0 (by omega),
            Int.add_mul_emod_self_left, Int.emod_eq_of_lt hj0 (by omega), h1]
          congr 2
          push_cast; ring
        · intro j hj0 hj1
          rw [add_assoc]
          exact hal _ (by omega) (by omega)
        · intro _ b'' hb''
          rw [hub] at hb''
          exact hb''

end RB

namespace RB
open Spec
variable {N : Nat} {K W T : Type}

theorem copyPromote_foot {n base lo hi : Int} {a : Buf T} (h0 : lo ≤ base) (h1 : base + n ≤ hi) :
    (copyPromote n a base).Foot (fun p => lo ≤ p ∧ p < hi) := by
  unfold copyPromote
  refine Prog.Foot.forI fun i hi0 hi1 => Prog.Foot.bind (Prog.Foot.lift _) fun v => Prog.Foot.store ?_
  omega

/-- A row only touches its own cells. -/
theorem fillRow_foot {gen : ZMod N → K → Res (Buf T)} {L : Int} {c : ZMod N} {k : K}
    {lda stride pp nScols row : Int} (hL : 0 < L) (hn : 0 < nScols) :
    (fillRow gen L c k lda stride (pp % L)
      ((if pp / L = (pp + nScols - 1) / L then (pp + nScols - 1) % L + 1 else L) - pp % L)
      (pp / L) ((pp + nScols - 1) / L) ((pp + nScols - 1) % L + 1) (pp / L = (pp + nScols - 1) / L) row).Foot
      (fun p => row * lda ≤ p ∧ p < row * lda + nScols) := by
  set fs := pp % L with hfs
  set st := pp / L with hst
  set en := (pp + nScols - 1) / L with hen
  set ls := (pp + nScols - 1) % L + 1 with hls
  have e1 : pp = L * st + fs := by rw [hst, hfs]; exact (Int.mul_ediv_add_emod pp L).symm
  have e2 : pp + nScols - 1 = L * en + (ls - 1) := by
    rw [hen, hls]; have := (Int.mul_ediv_add_emod (pp + nScols - 1) L); omega
  have fs0 : 0 ≤ fs := Int.emod_nonneg _ (by omega)
  have fs1 : fs < L := Int.emod_lt_of_pos _ hL
  have ls0 : 1 ≤ ls := by rw [hls]; have := Int.emod_nonneg (pp + nScols - 1) (show L ≠ 0 by omega); omega
  have ls1 : ls ≤ L := by rw [hls]; have := Int.emod_lt_of_pos (pp + nScols - 1) hL; omega
  have hse : st ≤ en := Int.ediv_le_ediv hL (by omega)
  have hfln : (if st = en then ls else L) - fs ≤ nScols := by
    split_ifs with h
    · have : L * st = L * en := by rw [h]
      omega
    · have : st + 1 ≤ en := by omega
      have : L * (st + 1) ≤ L * en := Int.mul_le_mul_of_nonneg_left this (by omega)
      rw [mul_add] at this
      omega
  unfold fillRow
  refine Prog.Foot.bind (Prog.Foot.lift _) fun _ => Prog.Foot.bind (Prog.Foot.lift _) fun _ => Prog.Foot.bind ?_ fun _ => ?_
  · refine Prog.Foot.forI fun i hi0 hi1 => Prog.Foot.bind (Prog.Foot.lift _) fun v => Prog.Foot.store ?_
    omega
  · by_cases hone : st = en
    · rw [if_pos hone]; exact Prog.Foot.pure _
    · rw [if_neg hone]
      refine Prog.FootP.foot (Q := fun _ => True) (Prog.FootP.bind (Prog.FootP.foldI (fun i (x : ZMod N × Int) => x.2 = L - fs + i * L)
        (by omega) (by simp [hone]) ?_) ?_)
      · rintro i ⟨x1, x2⟩ hi0 hi1 h2
        simp only at h2
        have hub : x2 + L ≤ nScols := by
          have : L * (st + i + 2) ≤ L * en := Int.mul_le_mul_of_nonneg_left (by omega) (by omega)
          have e : L * (st + i + 2) = L * st + i * L + 2 * L := by ring
          rw [e] at this
          omega
        have hx2 : 0 ≤ x2 := by
          have : 0 ≤ i * L := mul_nonneg hi0 (by omega)
          omega
        refine Prog.FootP.bind (Prog.Foot.footP (Prog.Foot.lift _)) fun a _ =>
          Prog.FootP.bind (Prog.Foot.footP (copyPromote_foot ?_ ?_)) fun _ _ => ?_
        · show row * lda ≤ row * lda + x2; omega
        · show row * lda + x2 + L ≤ _; omega
        · show x2 + L = L - fs + (i + 1) * L
          rw [h2]; ring
      · rintro ⟨x1, x2⟩ h2
        simp only at h2
        have hub : x2 + ls = nScols := by
          have e : L - fs + (en - st - 1) * L = L * en - L * st - fs := by ring
          rw [e] at h2
          omega
        have hx2 : 0 ≤ x2 := by
          have : 0 ≤ (en - st - 1) * L := mul_nonneg (by omega) (by omega)
          omega
        refine Prog.FootP.bind (Prog.Foot.footP (Prog.Foot.lift _)) fun a _ =>
          Prog.Foot.footP (copyPromote_foot ?_ ?_)
        · show row * lda ≤ row * lda + x2; omega
        · show row * lda + x2 + ls ≤ _; omega

/-- Padding of `n` to a multiple of `L`. -/
theorem pad_div {n L : Int} (hL : 0 < L) :
    (n + (if n % L ≠ 0 then L - n % L else 0)) = L * countersPerVector L n := by
  unfold countersPerVector
  have h := Int.mul_ediv_add_emod n L
  have h0 := Int.emod_nonneg n (show L ≠ 0 by omega)
  have h1 := Int.emod_lt_of_pos n hL
  split_ifs with hm
  · have : (n + L - 1) / L = n / L + 1 := by
      rw [show n + L - 1 = (n % L - 1) + L * (n / L + 1) by rw [mul_add]; omega,
        Int.add_mul_ediv_left _ _ (by omega), Int.ediv_eq_zero_of_lt (by omega) (by omega)]; omega
    rw [this, mul_add]; omega
  · have : (n + L - 1) / L = n / L := by
      rw [show n + L - 1 = (L - 1) + L * (n / L) by omega,
        Int.add_mul_ediv_left _ _ (by omega), Int.ediv_eq_zero_of_lt (by omega) (by omega)]; omega
    rw [this]; omega

theorem countersPerVector_nonneg {n L : Int} (hL : 0 < L) (hn : 0 ≤ n) : 0 ≤ countersPerVector L n :=
  Int.ediv_nonneg (by omega) (by omega)

theorem countersPerVector_le {n L : Int} (hL : 0 < L) (hn : 0 ≤ n) : countersPerVector L n ≤ n := by
  unfold countersPerVector
  rcases eq_or_lt_of_le hn with h | h
  · rw [← h]; rw [Int.ediv_eq_zero_of_lt (by omega) (by omega)]
  · apply Int.le_of_lt_add_one
    apply Int.ediv_lt_of_lt_mul hL
    nlinarith

/-- What `fill_dense_submat_impl` writes: row `r`, column `j` of the window that starts at (ro, co) of the parent
matrix with `nCols` columns in row-major order. -/
theorem fillSubmat_spec {sched : List Nat} {gen : ZMod N → K → Res (Buf T)} {g : ZMod N → Int → T} {L : Int}
    {nCols nSrows nScols ro co : Int} {seed : RNGState N K} {b : Buf T} (hL : 0 < L) (hL2 : L < 2 ^ 63)
    (hgen : ∀ c, ∃ a, gen c seed.key = .ok a ∧ ∀ i, 0 ≤ i → i < L → a i = .val (g c i))
    (hro : 0 ≤ ro) (hco : 0 ≤ co) (hn : 0 < nScols) (hr : 0 ≤ nSrows) (hin : co + nScols ≤ nCols)
    (hfit : countersPerVector L nCols * (ro + nSrows) ≤ intMax 64)
    (hfit2 : ro * nCols + co ≤ intMax 64)
    (hal : ∀ p, 0 ≤ p → p < nSrows * nScols → b p ≠ .none) :
    M.wp (fillDenseSubmatImpl sched gen L nCols nSrows nScols (ro * nCols + co) seed 0) b (fun s b' =>
      (∀ r j, InR nSrows nScols r j → b' (r * nScols + j) =
        .val (g (seed.counter + (((ro + r) * countersPerVector L nCols + (co + j) / L : Int) : ZMod N)) ((co + j) % L))) ∧
      (∀ p, ¬ (0 ≤ p ∧ p < nSrows * nScols) → b' p = b p) ∧
      s.counter = seed.counter + (((ro + nSrows) * countersPerVector L nCols + co / L : Int) : ZMod N) ∧ s.key = seed.key) := by
  set cv := countersPerVector L nCols with hcv
  have hcv0 : 0 ≤ cv := countersPerVector_nonneg hL (by omega)
  have hmax : intMax 64 = 2 ^ 63 - 1 := by decide
  have hpad := pad_div (n := nCols) hL
  have hptr0 : 0 ≤ ro * nCols + co := by
    have := mul_nonneg hro (show 0 ≤ nCols by omega); omega
  have hptrdiv : (ro * nCols + co).tdiv nCols = ro := by
    rw [Int.tdiv_eq_ediv_of_nonneg hptr0, show ro * nCols + co = co + nCols * ro by ring,
      Int.add_mul_ediv_left _ _ (by omega), Int.ediv_eq_zero_of_lt hco (by omega), zero_add]
  unfold fillDenseSubmatImpl
  simp only [M.wp_bind, M.wp_require, M.wp_ubIf]
  refine ⟨Or.inl (le_refl 0), by omega, by omega, ?_⟩
  rw [if_pos (le_refl (0 : Int)), hptrdiv, Int.tmod_eq_emod_of_nonneg (show 0 ≤ nCols by omega)]
  set pad := (if nCols % L ≠ 0 then L - nCols % L else 0) with hpadd
  set pp := ro * nCols + co + ro * pad with hpp
  have epp : pp = co + L * (ro * cv) := by
    rw [hpp, show ro * nCols + co + ro * pad = co + ro * (nCols + pad) by ring, hpad]; ring
  have hpp0 : 0 ≤ pp := by
    have : 0 ≤ L * (ro * cv) := mul_nonneg (by omega) (mul_nonneg hro hcv0)
    omega
  have estride : (nCols + pad).tdiv L = cv := by
    have hnn : 0 ≤ nCols + pad := by rw [hpad]; exact mul_nonneg (by omega) hcv0
    rw [Int.tdiv_eq_ediv_of_nonneg hnn, hpad, Int.mul_ediv_cancel_left _ (by omega)]
  rw [estride, Int.tdiv_eq_ediv_of_nonneg hpp0, Int.tmod_eq_emod_of_nonneg hpp0,
    Int.tdiv_eq_ediv_of_nonneg (show 0 ≤ pp + nScols - 1 by omega),
    Int.tmod_eq_emod_of_nonneg (show 0 ≤ pp + nScols - 1 by omega)]
  have estart : pp / L = ro * cv + co / L := by
    rw [epp, Int.add_mul_ediv_left _ _ (by omega)]; ring
  have hcoL0 : 0 ≤ co / L := Int.ediv_nonneg hco (by omega)
  have hcoL1 : co / L ≤ co := Int.ediv_le_self _ hco
  have hro_cv : 0 ≤ ro * cv := mul_nonneg hro hcv0
  have hsplit : cv * (ro + nSrows) = ro * cv + nSrows * cv := by ring
  have hns_cv : 0 ≤ nSrows * cv := mul_nonneg hr hcv0
  have hco_le : co ≤ ro * nCols + co := by
    have := mul_nonneg hro (show 0 ≤ nCols by omega); omega
  have hstart_nonneg : 0 ≤ pp / L := by rw [estart]; omega
  have hstart_lt : pp / L < 2 ^ 64 := by rw [estart]; omega
  rw [ctrIncr_eq hstart_nonneg hstart_lt]
  have hval : ∀ r j, InR nSrows nScols r j →
      rowVal g L (seed.counter + ((pp / L : Int) : ZMod N) + ((cv * r : Int) : ZMod N)) (pp % L) j =
      g (seed.counter + (((ro + r) * cv + (co + j) / L : Int) : ZMod N)) ((co + j) % L) := by
    intro r j hrj
    unfold rowVal
    have e1 : pp % L = co % L := by rw [epp, Int.add_mul_emod_self_left]
    have hco := Int.mul_ediv_add_emod co L
    have e2 : co + j = (co % L + j) + L * (co / L) := by omega
    have e3 : (co + j) / L = co / L + (co % L + j) / L := by
      rw [e2, Int.add_mul_ediv_left _ _ (by omega)]; ring
    have e4 : (co + j) % L = (co % L + j) % L := by
      conv_lhs => rw [e2]
      rw [Int.add_mul_emod_self_left]
    rw [e1, e3, e4, estart]
    congr 1
    push_cast; ring
  refine wp_parForI (F := fun r p => r * nScols ≤ p ∧ p < r * nScols + nScols)
    (f := fun r c => ∀ j, 0 ≤ j → j < nScols → c (r * nScols + j) =
        .val (g (seed.counter + (((ro + r) * cv + (co + j) / L : Int) : ZMod N)) ((co + j) % L)))
    ?_ ?_ ?_ ?_ sched ?_
  · intro i j hi0 hi1 hj0 hj1 hij p hp hq
    apply hij
    rcases lt_trichotomy i j with h | h | h
    · nlinarith
    · exact h
    · nlinarith
  · intro i hi0 hi1
    exact fillRow_foot hL hn
  · intro i hi0 hi1 c c' hcc h j hj0 hj1
    rw [← hcc _ ⟨by omega, by omega⟩, h j hj0 hj1]
  · intro r hr0 hr1
    refine M.wp_mono (fillRow_spec hL hgen hpp0 hn hr0 hcv0 ?_ ?_) ?_
    · have h1 : cv * r ≤ cv * (ro + nSrows) := Int.mul_le_mul_of_nonneg_left (by omega) hcv0
      omega
    · intro j hj0 hj1
      apply hal
      · have := mul_nonneg hr0 (show 0 ≤ nScols by omega); omega
      · nlinarith
    · intro _ b' hb' j hj0 hj1
      rw [hb' _, if_pos (by omega), show r * nScols + j - r * nScols = j by ring, hval r j ⟨hr0, hr1, hj0, hj1⟩]
  · intro b' h1 h2
    simp only [M.wp_pure]
    refine ⟨fun r j hrj => h1 r hrj.1 hrj.2.1 j hrj.2.2.1 hrj.2.2.2, fun p hp => ?_, ?_, trivial⟩
    · apply h2
      intro i hi0 hi1 hip
      apply hp
      constructor
      · have := mul_nonneg hi0 (show 0 ≤ nScols by omega); omega
      · nlinarith
    · rw [ctrIncr_eq hns_cv (by omega), estart]
      push_cast; ring

end RB

namespace RB
open Spec
variable {N : Nat} {K W T : Type}

theorem holds_rowMajor_tight {b : Buf T} {m n : Int} {A : Int → Int → T} (hn : 0 < n) :
    Holds b .RowMajor n m n A ↔ ∀ p, 0 ≤ p → p < m * n → b p = .val (A (p / n) (p % n)) := by
  constructor
  · intro h p h0 h1
    have h2 := Int.mul_ediv_add_emod p n
    have h3 := Int.emod_nonneg p (show n ≠ 0 by omega)
    have h4 := Int.emod_lt_of_pos p hn
    have := h (p / n) (p % n) ⟨Int.ediv_nonneg h0 (by omega), Int.ediv_lt_of_lt_mul hn h1, h3, h4⟩
    rw [← this]
    congr 1
    show p = p / n * n + p % n
    rw [mul_comm]; omega
  · rintro h i j ⟨h1, h2, h3, h4⟩
    show b (i * n + j) = _
    rw [h (i * n + j) (by have := mul_nonneg h1 hn.le; omega) (by nlinarith)]
    have e1 : (i * n + j) / n = i := by
      rw [show i * n + j = j + n * i by ring, Int.add_mul_ediv_left _ _ (by omega), Int.ediv_eq_zero_of_lt h3 h4, zero_add]
    have e2 : (i * n + j) % n = j := by
      rw [show i * n + j = j + n * i by ring, Int.add_mul_emod_self_left, Int.emod_eq_of_lt h3 h4]
    rw [e1, e2]

theorem holds_flip {b : Buf T} {layout : Layout} {ld m n : Int} {A : Int → Int → T} :
    Holds b layout.flip ld m n A ↔ Holds b layout ld n m (fun i j => A j i) := by
  unfold Holds
  constructor
  · rintro h i j ⟨h1, h2, h3, h4⟩
    rw [← h j i ⟨h3, h4, h1, h2⟩, addr_flip]
  · rintro h i j ⟨h1, h2, h3, h4⟩
    rw [addr_flip]; exact h j i ⟨h3, h4, h1, h2⟩

theorem tight_ldOk (layout : Layout) (m n : Int) : LdOk layout (tightLd layout m n) m n := by
  cases layout <;> exact le_refl _

theorem tight_addr_mem {layout : Layout} {m n i j : Int} (h : InR m n i j) :
    0 ≤ addr layout (tightLd layout m n) i j ∧ addr layout (tightLd layout m n) i j < m * n := by
  have := InR.addr_bounds h (tight_ldOk layout m n)
  cases layout with
  | ColMajor => exact this
  | RowMajor =>
    have h' : bufLen Layout.RowMajor (tightLd Layout.RowMajor m n) m n = m * n := by
      show n * m = m * n; ring
    rw [h'] at this; exact this

theorem layoutToStrides3_eq (layout : Layout) (m n : Int) :
    layoutToStrides3 layout m n = layoutToStrides layout (tightLd layout m n) := by
  cases layout <;> rfl

theorem flipWork_spec {layout natural : Layout} {m n : Int} {b : Buf T} {A : Int → Int → T} (hm : 0 ≤ m) (hn : 0 ≤ n)
    (hb : Holds b natural (tightLd natural m n) m n A) (hall : ∀ p, 0 ≤ p → p < m * n → ∃ x, b p = .val x) :
    M.wp (flipWork layout natural m n) b (fun _ b' => Holds b' layout (tightLd layout m n) m n A ∧
      ∀ p, ¬ (0 ≤ p ∧ p < m * n) → b' p = b p) := by
  unfold flipWork
  by_cases hl : layout ≠ natural
  · rw [if_pos hl]
    have hsz : 0 ≤ m * n := mul_nonneg hm hn
    simp only [M.wp_bind, M.wp_get]
    rw [if_neg (by omega), M.wp_bind, M.wp_onLocal]
    have hcopy : M.wp (blasCopy (m * n) b 0 1 0 1) (Buf.alloc T (m * n)) (fun _ w =>
        ∀ p, 0 ≤ p → p < m * n → w p = b p) := by
      unfold blasCopy blasCheck
      rw [if_pos hsz]
      simp only [pure_bind]
      apply M.wp_forI (fun i w => (∀ p, 0 ≤ p → p < i → w p = b p) ∧ ∀ p, i ≤ p → p < m * n → w p ≠ .none) hsz
      · exact ⟨fun p h0 h1 => absurd h0 (by omega), fun p h0 h1 => by simp [Buf.alloc, h0, h1]⟩
      · rintro i w hi0 hi1 ⟨h1, h2⟩
        simp only [M.wp_bind, M.wp_lift, zero_add, mul_one, M.wp_wr]
        obtain ⟨x, hx⟩ := hall i hi0 hi1
        refine ⟨x, Buf.rd_val hx, h2 i (le_refl _) hi1, fun p h3 h4 => ?_, fun p h3 h4 => ?_⟩
        · rw [Buf.set_apply]
          split_ifs with h5
          · rw [h5, hx]
          · exact h1 p h3 (by omega)
        · rw [Buf.set_ne (by omega)]; exact h2 p (by omega) h4
      · rintro w ⟨h1, -⟩; exact h1
    refine M.wp_mono hcopy ?_
    intro _ w hw
    simp only [layoutToStrides3_eq]
    refine M.wp_mono (omatcopy_spec (a := A) hm hn (fun i j hij => ?_) ?_ ?_) ?_
    · rw [strides_at']
      obtain ⟨h1, h2⟩ := tight_addr_mem (layout := natural) hij
      rw [hw _ h1 h2]; exact hb i j hij
    · simp only [strides_at']
      exact adInj_addr_off 0 (tight_ldOk layout m n)
    · intro i j hij
      simp only [strides_at', zero_add]
      obtain ⟨h1, h2⟩ := tight_addr_mem (layout := layout) hij
      obtain ⟨x, hx⟩ := hall _ h1 h2
      rw [hx]; simp
    · intro _ b' hb'
      simp only [strides_at', zero_add] at hb'
      refine ⟨hb'.holds, fun p hp => hb'.outside p ?_⟩
      intro i j hij he
      exact hp (he ▸ tight_addr_mem (layout := layout) hij)
  · rw [if_neg hl]
    push Not at hl
    subst hl
    simp only [M.wp_pure]
    exact ⟨hb, fun _ _ => trivial⟩

theorem denseDist_facts {D : DenseDist} (h : DenseDistOk D) : 0 < D.nRows ∧ 0 < D.nCols ∧ D.nRows * D.nCols ≤ intMax 64 ∧
    ((D.naturalLayout = .ColMajor ∧ D.dimMajor = D.nRows ∧ D.dimMinor = D.nCols) ∨
     (D.naturalLayout = .RowMajor ∧ D.dimMajor = D.nCols ∧ D.dimMinor = D.nRows)) := by
  obtain ⟨h1, h2⟩ := h
  unfold mkDenseDist at h1
  by_cases hr : D.nRows > 0
  · by_cases hc : D.nCols > 0
    · simp only [Res.require_eq_ok hr, Res.require_eq_ok hc, Res.ok_bind, Res.pure_eq, Res.ok.injEq] at h1
      refine ⟨hr, hc, h2, ?_⟩
      rw [← h1]
      simp only [naturalLayout]
      cases D.majorAxis <;> by_cases hlt : D.nRows < D.nCols <;> simp [hlt] <;> omega
    · simp only [Res.require_eq_ok hr, Res.require_eq_throw hc, Res.ok_bind, Res.throw_bind] at h1
      cases h1
  · simp only [Res.require_eq_throw hr, Res.throw_bind] at h1
    cases h1

theorem safeIntProduct_ok {a b : Int} (ha : 0 ≤ a) (hb : 0 ≤ b) (h : a * b ≤ intMax 64) :
    safeIntProduct a b = .ok (a * b) := by
  have hmin : intMin 64 ≤ 0 := by decide
  have hab := mul_nonneg ha hb
  by_cases h0 : a = 0 ∨ b = 0
  · unfold safeIntProduct safeIntProductM
    rw [if_pos h0]
    rcases h0 with h | h <;> simp [h]
  · push Not at h0
    have h1 : 1 ≤ a := by omega
    have h2 : 1 ≤ b := by omega
    refine safeIntProductM_ok ⟨by omega, ?_⟩ ⟨by omega, ?_⟩ ⟨by omega, h⟩
    · nlinarith
    · nlinarith

theorem scaleByFamily_spec [Mul T] {family : ScalarDist} {n : Int} {sqrt3 : T} {b : Buf T} {v : Int → T} (hn : 0 ≤ n)
    (hb : ∀ p, 0 ≤ p → p < n → b p = .val (v p)) :
    M.wp (scaleByFamily family n sqrt3) b (fun _ b' =>
      (∀ p, 0 ≤ p → p < n → b' p = .val (famScale family sqrt3 (v p))) ∧ ∀ p, ¬ (0 ≤ p ∧ p < n) → b' p = b p) := by
  cases family with
  | Gaussian => simp only [scaleByFamily, M.wp_pure]; exact ⟨hb, fun _ _ => trivial⟩
  | Uniform =>
    unfold scaleByFamily
    refine M.wp_mono (blasScal_spec (v := v) (x := 0) (incx := 1) hn (by omega) (by simpa using hb)) ?_
    rintro - b' ⟨h1, h2⟩
    refine ⟨by simpa [famScale] using h1, fun p hp => h2 p ?_⟩
    intro i hi0 hi1 he
    apply hp; omega

/-- What `fill_dense_unpacked` writes and returns. -/
theorem fillUnpacked_spec [Mul T] {sched : List Nat} {G : Gen N K W T} {sqrt3 : T} {layout : Layout} {D : DenseDist}
    {m n ro co : Int} {seed : RNGState N K} {b : Buf T} (hG : G.Ok) (hD : DenseDistOk D)
    (hm : 0 < m) (hn : 0 < n) (hro : 0 ≤ ro) (hco : 0 ≤ co) (hrm : ro + m ≤ D.nRows) (hcn : co + n ≤ D.nCols)
    (hal : ∀ p, 0 ≤ p → p < m * n → b p ≠ .none) :
    M.wp (fillDenseUnpacked sched G sqrt3 layout D m n ro co seed) b (fun s b' =>
      Holds b' layout (tightLd layout m n) m n (fun i j => denseEntry G sqrt3 D seed (i + ro) (j + co)) ∧
      (∀ p, ¬ (0 ≤ p ∧ p < m * n) → b' p = b p) ∧
      s.key = seed.key ∧
      s.counter = seed.counter + ((
        (match D.naturalLayout with
         | .ColMajor => (co + n) * countersPerVector G.len D.dimMajor + ro / G.len
         | .RowMajor => (ro + m) * countersPerVector G.len D.dimMajor + co / G.len) : Int) : ZMod N)) := by
  obtain ⟨hR, hC, hfit, hlay⟩ := denseDist_facts hD
  have hlen : 0 < G.len ∧ G.len < 2 ^ 63 := by rcases hG with h | h <;> rw [h] <;> decide
  unfold fillDenseUnpacked
  simp only [M.wp_bind, M.wp_require, M.wp_lift]
  refine ⟨by omega, by omega, ?_⟩
  rcases hlay with ⟨hl, hmaj, hmin⟩ | ⟨hl, hmaj, hmin⟩
  · simp only [hl, if_true, hmaj]
    have hprod : co * D.nRows + ro ≤ intMax 64 := by nlinarith
    refine ⟨_, safeIntProduct_ok hco (by omega) (by nlinarith), ?_⟩
    rw [show ro + co * D.nRows = co * D.nRows + ro by ring]
    refine M.wp_mono (fillSubmat_spec (g := fun c => genValue G D.family c seed.key) hlen.1 hlen.2 (fun c => generate_spec hG D.family c seed.key)
      hco hro hm (by omega) hrm ?_ hprod (by rw [mul_comm]; exact hal)) ?_
    · have h1 := countersPerVector_le (n := D.nRows) hlen.1 (by omega)
      have h0 := countersPerVector_nonneg (n := D.nRows) hlen.1 (by omega)
      nlinarith
    rintro s b1 ⟨h1, h2, h3, h4⟩
    have hrow : Holds b1 .RowMajor m n m (fun r j => denseRaw G D.family D.nRows seed (r + co) (j + ro)) := by
      intro r j hrj
      have := h1 r j hrj
      show b1 (r * m + j) = _
      rw [this]
      simp only [denseRaw]
      rw [add_comm co r, add_comm ro j]
    rw [holds_rowMajor_tight hm] at hrow
    refine M.wp_mono (scaleByFamily_spec (mul_nonneg (by omega) (by omega)) hrow) ?_
    rintro - b2 ⟨h5, h6⟩
    have hrow2 : Holds b2 .RowMajor m n m (fun r j => famScale D.family sqrt3 (denseRaw G D.family D.nRows seed (r + co) (j + ro))) := by
      rw [holds_rowMajor_tight hm]; exact h5
    have hnat : Holds b2 .ColMajor m m n (fun i j => denseEntry G sqrt3 D seed (i + ro) (j + co)) := by
      have := (holds_flip (layout := .RowMajor) (ld := m) (m := m) (n := n) (b := b2)
        (A := fun i j => denseEntry G sqrt3 D seed (i + ro) (j + co))).mpr
      apply this
      intro i j hij
      rw [hrow2 i j hij]
      simp only [denseEntry, hl, hmaj]
    refine M.wp_mono (flipWork_spec (by omega) (by omega) hnat ?_) ?_
    · intro p h0 h7
      exact ⟨_, h5 p h0 (by rw [mul_comm]; exact h7)⟩
    · rintro - b3 ⟨h8, h9⟩
      rw [M.wp_pure]
      refine ⟨h8, fun p hp => ?_, h4, ?_⟩
      · rw [h9 p hp, h6 p (by rw [mul_comm]; exact hp), h2 p (by rw [mul_comm]; exact hp)]
      · rw [h3]
  · simp only [hl, hmaj]
    rw [if_neg (by simp)]
    have hprod : ro * D.nCols + co ≤ intMax 64 := by nlinarith
    refine ⟨_, safeIntProduct_ok hro (by omega) (by nlinarith), ?_⟩
    simp only [reduceCtorEq, if_false]
    refine M.wp_mono (fillSubmat_spec (g := fun c => genValue G D.family c seed.key) hlen.1 hlen.2 (fun c => generate_spec hG D.family c seed.key)
      hro hco hn (by omega) hcn ?_ hprod hal) ?_
    · have h1 := countersPerVector_le (n := D.nCols) hlen.1 (by omega)
      have h0 := countersPerVector_nonneg (n := D.nCols) hlen.1 (by omega)
      nlinarith
    rintro s b1 ⟨h1, h2, h3, h4⟩
    have hrow : Holds b1 .RowMajor n m n (fun r j => denseRaw G D.family D.nCols seed (r + ro) (j + co)) := by
      intro r j hrj
      have := h1 r j hrj
      show b1 (r * n + j) = _
      rw [this]
      simp only [denseRaw]
      rw [add_comm ro r, add_comm co j]
    rw [holds_rowMajor_tight hn] at hrow
    refine M.wp_mono (scaleByFamily_spec (mul_nonneg (by omega) (by omega)) hrow) ?_
    rintro - b2 ⟨h5, h6⟩
    have hrow2 : Holds b2 .RowMajor n m n (fun r j => famScale D.family sqrt3 (denseRaw G D.family D.nCols seed (r + ro) (j + co))) := by
      rw [holds_rowMajor_tight hn]; exact h5
    have hnat : Holds b2 .RowMajor n m n (fun i j => denseEntry G sqrt3 D seed (i + ro) (j + co)) := by
      intro i j hij
      rw [hrow2 i j hij]
      simp only [denseEntry, hl, hmaj]
    refine M.wp_mono (flipWork_spec (by omega) (by omega) hnat ?_) ?_
    · intro p h0 h7
      exact ⟨_, h5 p h0 h7⟩
    · rintro - b3 ⟨h8, h9⟩
      rw [M.wp_pure]
      refine ⟨h8, fun p hp => ?_, h4, ?_⟩
      · rw [h9 p hp, h6 p hp, h2 p hp]
      · rw [h3]

end RB
