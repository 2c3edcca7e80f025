import Verif.Props.IsometryAvg
import Mathlib.Logic.Equiv.Prod
import Mathlib.Order.Lattice.Nat
import Mathlib.Order.Interval.Finset.Nat
import Mathlib.Data.Int.Interval
import Mathlib.Algebra.Order.Floor.Ring

/-!
# C60: long-axis operators preserve squared norms on average, up to the rounding of the sampled indices

The average is over all words that an ideal generator may yield.
-/

namespace RB
open Spec Finset
variable {N : Nat} {K W R : Type}

theorem sum_at {ι W : Type} [Fintype ι] [DecidableEq ι] [Fintype W] (a : ι) (h : W → ℝ) :
    (Fintype.card W : ℝ) * ∑ ω : ι → W, h (ω a) = (Fintype.card W : ℝ) ^ Fintype.card ι * ∑ w, h w := by
  classical
  have e := Equiv.sum_comp (Equiv.funSplitAt a W).symm fun ω => h (ω a)
  rw [← e, Fintype.sum_prod_type]
  have : ∀ (w : W) (y : {j // j ≠ a} → W), h ((Equiv.funSplitAt a W).symm (w, y) a) = h w := by
    intro w y; simp [Equiv.funSplitAt, Equiv.piSplitAt]
  simp only [this, sum_const, nsmul_eq_mul, ← mul_sum]
  have hc := Fintype.card_congr (Equiv.funSplitAt a W)
  rw [Fintype.card_prod, Fintype.card_fun] at hc
  rw [← mul_assoc, card_univ]
  congr 1
  exact_mod_cast hc.symm

/-- The first position at which `l` occurs. -/
noncomputable def firstOcc (x : Int → Int) (l : Int) : Nat := sInf {t : Nat | x t = l}

theorem firstOcc_mem {x : Int → Int} {k l : Int} (h : occurrences x k l ≠ 0) : x (firstOcc x l) = l ∧ (firstOcc x l : Int) < k := by
  unfold occurrences at h
  obtain ⟨t, ht⟩ := card_ne_zero.mp h
  rw [mem_filter, mem_range] at ht
  have hne : {t : Nat | x t = l}.Nonempty := ⟨t, ht.2⟩
  refine ⟨Nat.sInf_mem hne, ?_⟩
  have : firstOcc x l ≤ t := Nat.sInf_le ht.2
  omega

theorem firstOcc_eq {x : Int → Int} {l t : Int} (h0 : 0 ≤ t) (h : x t = l) (hlt : ∀ t', 0 ≤ t' → t' < t → x t' ≠ l) : (firstOcc x l : Int) = t := by
  obtain ⟨m, rfl⟩ : ∃ m : Nat, t = m := ⟨t.toNat, by omega⟩
  have h1 : firstOcc x l ≤ m := Nat.sInf_le h
  have h2 : x (firstOcc x l) = l := Nat.sInf_mem (s := {t : Nat | x t = l}) ⟨m, h⟩
  by_contra hc
  exact hlt (firstOcc x l) (by omega) (by omega) h2

/-- The value of a merged vector at `l`. -/
theorem merged_value {k : Int} {x : Int → Int} {s : Int → ℝ} {out : List (Int × ℝ)} (h : Merged Real.sqrt k x s out) (l : Int) :
    ((out.filter fun e => e.1 = l).map Prod.snd).sum = Real.sqrt (occurrences x k l) * s (firstOcc x l) := by
  have hnd := h.nodup
  by_cases hl : l ∈ out.map Prod.fst
  · obtain ⟨e, he, rfl⟩ := List.mem_map.mp hl
    obtain ⟨t, t0, t1, t2, t3, t4⟩ := h.value e he
    rw [firstOcc_eq t0 t2 t3, ← t4]
    have : ∀ out : List (Int × ℝ), (out.map Prod.fst).Nodup → e ∈ out → (out.filter fun d => d.1 = e.1) = [e] := by
      intro out
      induction out with
      | nil => simp
      | cons d out ih =>
        intro hn hm
        rw [List.map_cons, List.nodup_cons] at hn
        rcases List.mem_cons.mp hm with rfl | hm
        · rw [List.filter_cons, if_pos (by simp)]
          congr 1
          rw [List.filter_eq_nil_iff]
          intro d hd
          simp only [decide_eq_true_eq]
          intro hc
          exact hn.1 (List.mem_map.mpr ⟨d, hd, hc⟩)
        · rw [List.filter_cons, if_neg]
          · exact ih hn.2 hm
          · simp only [decide_eq_true_eq]
            intro hc
            exact hn.1 (List.mem_map.mpr ⟨e, hm, hc.symm⟩)
    rw [this out hnd he]; simp
  · have hz : occurrences x k l = 0 := by
      by_contra hc
      obtain ⟨a, b⟩ := firstOcc_mem hc
      have := h.all (firstOcc x l) (by omega) b
      rw [a] at this
      exact hl this
    rw [hz, List.filter_eq_nil_iff.mpr]
    · simp
    · intro e he
      simp only [decide_eq_true_eq]
      intro hc
      exact hl (List.mem_map.mpr ⟨e, he, hc⟩)

/-- The average of the squared product of one long-axis vector with `y`, over all choices of the words. -/
theorem laso_row {ι W : Type} [Fintype ι] [DecidableEq ι] [Fintype W] (f : W → Int) (g : W → ℝ) (τ : W → W) (hτ : Function.Involutive τ)
    (hg : ∀ w, g (τ w) = -g w) (hg1 : ∀ w, g w * g w = 1) (k n : Nat) (pI pS : Int → ι)
    (hIS : ∀ t t' : Nat, t < k → t' < k → pI t ≠ pS t') (hSS : ∀ t t' : Nat, t < k → t' < k → pS t = pS t' → t = t') (y : Int → ℝ) :
    (Fintype.card W : ℝ) * ∑ ω : ι → W, (∑ l ∈ range n, (Real.sqrt (occurrences (fun t => f (ω (pI t))) k l) *
      g (ω (pS (firstOcc (fun t => f (ω (pI t))) l)))) * y l) ^ 2 =
    (Fintype.card W : ℝ) ^ Fintype.card ι * (k * ∑ l ∈ range n, ((univ.filter fun w => f w = (l : Int)).card : ℝ) * y l ^ 2) := by
  classical
  let x : (ι → W) → Int → Int := fun ω t => f (ω (pI t))
  let A : (ι → W) → Int → ℝ := fun ω l => Real.sqrt (occurrences (x ω) k l) * g (ω (pS (firstOcc (x ω) l)))
  have hcross : ∀ l l' : Nat, l ≠ l' → ∑ ω, A ω l * A ω l' = 0 := by
    intro l l' hll
    -- flip the sign of the first occurrence of `l`
    let flip : (ι → W) → (ι → W) := fun ω => if occurrences (x ω) k l = 0 then ω else
      Function.update ω (pS (firstOcc (x ω) l)) (τ (ω (pS (firstOcc (x ω) l))))
    have hx : ∀ ω (t : Nat), t < k → x (flip ω) t = x ω t := by
      intro ω t ht
      simp only [flip]
      split_ifs with h
      · rfl
      · have hf := firstOcc_mem h
        simp only [x]
        rw [Function.update_of_ne]
        exact hIS t (firstOcc (x ω) l) ht (by omega)
    have hocc : ∀ ω (m : Int), occurrences (x (flip ω)) k m = occurrences (x ω) k m := by
      intro ω m
      unfold occurrences
      congr 1
      refine filter_congr fun t ht => ?_
      rw [mem_range] at ht
      rw [hx ω t (by omega)]
    have hfirst : ∀ ω (m : Int), occurrences (x ω) k m ≠ 0 → firstOcc (x (flip ω)) m = firstOcc (x ω) m := by
      intro ω m h
      have h1 := firstOcc_mem h
      have h2 : (firstOcc (x (flip ω)) m : Int) = firstOcc (x ω) m := by
        refine firstOcc_eq (by omega) ?_ ?_
        · rw [hx ω _ (by omega)]; exact h1.1
        · intro t' a b
          obtain ⟨u, rfl⟩ : ∃ u : Nat, t' = u := ⟨t'.toNat, by omega⟩
          rw [hx ω u (by omega)]
          intro hc
          have : firstOcc (x ω) m ≤ u := Nat.sInf_le hc
          omega
      omega
    have hinv : Function.Involutive flip := by
      intro ω
      by_cases h : occurrences (x ω) k l = 0
      · have : flip ω = ω := by simp only [flip]; rw [if_pos h]
        rw [this, this]
      · have h1 : flip ω = Function.update ω (pS (firstOcc (x ω) l)) (τ (ω (pS (firstOcc (x ω) l)))) := by simp only [flip]; rw [if_neg h]
        have h2 : flip (flip ω) = Function.update (flip ω) (pS (firstOcc (x ω) l)) (τ ((flip ω) (pS (firstOcc (x ω) l)))) := by
          have h3 : occurrences (x (flip ω)) k l ≠ 0 := by rw [hocc]; exact h
          have h4 := hfirst ω l h
          conv_lhs => simp only [flip]
          rw [if_neg h3, h4]
        rw [h2, h1, Function.update_self, hτ, Function.update_idem, Function.update_eq_self]
    have e := Equiv.sum_comp (hinv.toPerm flip) fun ω => A ω l * A ω l'
    have hneg : ∀ ω, A (hinv.toPerm flip ω) l * A (hinv.toPerm flip ω) l' = -(A ω l * A ω l') := by
      intro ω
      show A (flip ω) l * A (flip ω) l' = _
      simp only [A, hocc]
      by_cases h : occurrences (x ω) k l = 0
      · rw [h]; simp
      by_cases h' : occurrences (x ω) k l' = 0
      · rw [h']; simp
      rw [hfirst ω l h, hfirst ω l' h']
      have h1 : flip ω = Function.update ω (pS (firstOcc (x ω) l)) (τ (ω (pS (firstOcc (x ω) l)))) := by simp only [flip]; rw [if_neg h]
      have a := firstOcc_mem h
      have b := firstOcc_mem h'
      have hne : pS (firstOcc (x ω) l') ≠ pS (firstOcc (x ω) l) := by
        intro hc
        have := hSS _ _ (by omega) (by omega) hc
        rw [this] at b
        have := a.1.symm.trans b.1
        omega
      rw [h1, Function.update_self, Function.update_of_ne hne, hg]
      ring
    simp only [hneg, sum_neg_distrib] at e
    linarith
  have hdiag : ∀ l : Nat, ∑ ω, A ω l * A ω l = ∑ ω, (occurrences (x ω) k l : ℝ) := by
    intro l
    refine sum_congr rfl fun ω _ => ?_
    simp only [A]
    rw [mul_mul_mul_comm, Real.mul_self_sqrt (Nat.cast_nonneg _), hg1, mul_one]
  have hoccsum : ∀ l : Nat, (Fintype.card W : ℝ) * ∑ ω, (occurrences (x ω) k l : ℝ) =
      (Fintype.card W : ℝ) ^ Fintype.card ι * (k * ((univ.filter fun w => f w = (l : Int)).card : ℝ)) := by
    intro l
    have h1 : ∀ ω, (occurrences (x ω) k l : ℝ) = ∑ t ∈ range k, if f (ω (pI t)) = (l : Int) then (1 : ℝ) else 0 := by
      intro ω
      unfold occurrences
      rw [card_filter, Int.toNat_natCast]
      push_cast
      rfl
    simp only [h1]
    rw [sum_comm, mul_sum]
    have h2 : ∀ t ∈ range k, (Fintype.card W : ℝ) * ∑ ω : ι → W, (if f (ω (pI t)) = (l : Int) then (1 : ℝ) else 0) =
        (Fintype.card W : ℝ) ^ Fintype.card ι * ((univ.filter fun w => f w = (l : Int)).card : ℝ) := by
      intro t _
      rw [sum_at (pI t) fun w => if f w = (l : Int) then (1 : ℝ) else 0]
      simp
    rw [sum_congr rfl h2, sum_const, card_range, nsmul_eq_mul]
    ring
  have hexp : ∀ ω, (∑ l ∈ range n, A ω l * y l) ^ 2 = ∑ l ∈ range n, ∑ l' ∈ range n, (A ω l * A ω l') * (y l * y l') := by
    intro ω
    rw [sq, sum_mul_sum]
    refine sum_congr rfl fun l _ => sum_congr rfl fun l' _ => by ring
  show (Fintype.card W : ℝ) * ∑ ω : ι → W, (∑ l ∈ range n, A ω l * y l) ^ 2 = _
  simp only [hexp]
  rw [sum_comm, mul_sum, mul_sum, mul_sum]
  refine sum_congr rfl fun l hl => ?_
  rw [sum_comm]
  have : ∀ l' ∈ range n, ∑ ω, (A ω l * A ω l') * (y l * y l') = if l = l' then (∑ ω, (occurrences (x ω) k l : ℝ)) * y l ^ 2 else 0 := by
    intro l' _
    rw [← sum_mul]
    split_ifs with h
    · subst h; rw [hdiag]; ring
    · rw [hcross l l' h, zero_mul]
  rw [sum_congr rfl this, sum_ite_eq (range n) l (fun _ => _), if_pos hl, ← mul_assoc, hoccsum]
  ring

/-- The generator whose words are given by `ω`: word number `i` of counter `c` is `ω (c, i)`. -/
def Spec.fromWords {L : Nat} (G : Gen N K W R) (ω : ZMod N × ZMod L → W) : Gen N K W R := { G with word := fun c _ i => ω (c, (i : ZMod L)) }

/-- The fraction of the words that are mapped to index `l` out of `n`. -/
noncomputable def Spec.indexProb [Field R] [LinearOrder R] [FloorRing R] [Fintype W] (G : Gen N K W R) (n l : Int) : ℝ :=
  ((univ.filter fun w => ⌊(n : R) * ((G.uneg11 w + 1) / 2)⌋ = l).card : ℝ) / Fintype.card W

theorem pos_inj {L : Nat} [NeZero L] {c0 : ZMod N} {m m' : Int} (h0 : 0 ≤ m) (h1 : m < N) (h0' : 0 ≤ m') (h1' : m' < N)
    (h : ((c0 + ((m / L : Int) : ZMod N), ((m % L : Int) : ZMod L)) : ZMod N × ZMod L) = (c0 + ((m' / L : Int) : ZMod N), ((m' % L : Int) : ZMod L))) :
    m = m' := by
  have hL : (0 : Int) < L := by have := NeZero.pos L; omega
  obtain ⟨a, b⟩ := Prod.mk.inj h
  have a' := (ZMod.intCast_eq_intCast_iff _ _ _).mp (add_left_cancel a)
  have b' := (ZMod.intCast_eq_intCast_iff _ _ _).mp b
  unfold Int.ModEq at a' b'
  have hd : ∀ z : Int, 0 ≤ z → z < N → 0 ≤ z / L ∧ z / L < N := fun z h0 h1 =>
    ⟨Int.ediv_nonneg h0 hL.le, lt_of_le_of_lt (Int.ediv_le_self _ h0) h1⟩
  rw [Int.emod_eq_of_lt (hd m h0 h1).1 (hd m h0 h1).2, Int.emod_eq_of_lt (hd m' h0' h1').1 (hd m' h0' h1').2] at a'
  rw [Int.emod_emod_of_dvd _ (dvd_refl _), Int.emod_emod_of_dvd _ (dvd_refl _)] at b'
  have e := Int.mul_ediv_add_emod m L
  have e' := Int.mul_ediv_add_emod m' L
  rw [a', b'] at e
  omega

/-- What filling a long-axis operator stores: the entry at short index `q` and long index `l`. -/
theorem fill_laso [Field R] [LinearOrder R] [IsStrictOrderedRing R] [FloorRing R] {G : Gen N K W R}
    {order : Int → List (Int × ℝ) → List (Int × ℝ)} {S : SparseSkOp N K ℝ} (hG : G.Ok) (hord : ∀ i l, (order i l).Perm l) (hS : SparseOpOk S)
    (hax : S.dist.majorAxis = .Long) (hu : ∀ c t, 0 ≤ unif01 G (advance S.seedState c) t ∧ unif01 G (advance S.seedState c) t < 1) :
    M.wp (fillSparse G Real.sqrt order) S (fun _ S' => ∃ E, OpHolds S' E ∧ ∀ q, 0 ≤ q → q < min S.nRows S.nCols → ∀ l,
      ((E.filter fun e => shortIdx S.nRows S.nCols e = q ∧ longIdx S.nRows S.nCols e = l).map Entry.val).sum =
        Real.sqrt (occurrences (lasoSample G S.seedState (max S.nRows S.nCols) S.dist.vecNnz q) S.dist.vecNnz l) *
          lasoSampleSign G S.seedState S.dist.vecNnz q (firstOcc (lasoSample G S.seedState (max S.nRows S.nCols) S.dist.vecNnz q) l)) := by
  refine M.wp_mono (C12_long_axis hG Real.sqrt_one (fun n => Real.mul_self_sqrt (Nat.cast_nonneg n)) hord hS hax hu) ?_
  rintro - S' ⟨E, hE, -, -, -, -, hvec⟩
  refine ⟨E, hE, fun q h0 h1 l => ?_⟩
  obtain ⟨Eq, rfl, -, -, -, hm⟩ := hvec q h0 h1
  rw [← merged_value hm l, List.filter_map, List.map_map, List.filter_filter]
  simp only [Function.comp_def, Bool.decide_and, Bool.and_comm]

theorem laso_total [NeZero N] [Field R] [LinearOrder R] [IsStrictOrderedRing R] [FloorRing R] [Fintype W] [Nonempty W] {L : Nat} [NeZero L]
    {G : Gen N K W R} {seed : RNGState N K} {k n d : Nat} {τ : W → W} (hL : G.len = L) (hk : 0 < k) (hd : 0 < d) (hn : 0 < n) (hN : 2 * k ≤ N)
    (hτ : Function.Involutive τ) (hsign : ∀ w, 0 ≤ G.uneg11 (τ w) ↔ ¬ 0 ≤ G.uneg11 w) (y : Int → ℝ) (sc : ℝ)
    (hsc : sc * sc = (n : ℝ) / (k * d)) :
    (∑ ω : ZMod N × ZMod L → W, ∑ q ∈ range d, (sc * ∑ l ∈ range n, (Real.sqrt (occurrences (lasoSample (fromWords G ω) seed n k q) k l) *
      lasoSampleSign (fromWords G ω) seed k q (firstOcc (lasoSample (fromWords G ω) seed n k q) l)) * y l) ^ 2) /
        Fintype.card (ZMod N × ZMod L → W) = n * ∑ l ∈ range n, indexProb G n l * y l ^ 2 := by
  have hW : (0 : ℝ) < Fintype.card W := by exact_mod_cast Fintype.card_pos
  have hrow : ∀ q : Nat, ∑ ω : ZMod N × ZMod L → W, (∑ l ∈ range n, (Real.sqrt (occurrences (lasoSample (fromWords G ω) seed n k q) k l) *
      lasoSampleSign (fromWords G ω) seed k q (firstOcc (lasoSample (fromWords G ω) seed n k q) l)) * y l) ^ 2 =
      Fintype.card (ZMod N × ZMod L → W) * (k * ∑ l ∈ range n, indexProb G n l * y l ^ 2) := by
    intro q
    let c0 : ZMod N := seed.counter + (((q : Int) * ((2 * (k : Int) + G.len - 1) / G.len) : Int) : ZMod N)
    let pos : Int → ZMod N × ZMod L := fun m => (c0 + ((m / L : Int) : ZMod N), ((m % L : Int) : ZMod L))
    have key := laso_row (fun w => ⌊((n : Int) : R) * ((G.uneg11 w + 1) / 2)⌋) (fun w => if 0 ≤ G.uneg11 w then (1 : ℝ) else -1) τ hτ
      (fun w => by by_cases h : 0 ≤ G.uneg11 w <;> simp [hsign, h]) (fun w => by split_ifs <;> norm_num) k n
      (fun t => pos (2 * t)) (fun t => pos (2 * t + 1))
      (fun t t' ht ht' h => by have := pos_inj (by omega) (by omega) (by omega) (by omega) h; omega)
      (fun t t' ht ht' h => by have := pos_inj (by omega) (by omega) (by omega) (by omega) h; omega) y
    have hx : ∀ ω : ZMod N × ZMod L → W, lasoSample (fromWords G ω) seed n k q = fun t => ⌊((n : Int) : R) * ((G.uneg11 (ω (pos (2 * t))) + 1) / 2)⌋ := by
      intro ω; funext t
      simp only [lasoSample, unif01, stream, advance, fromWords, pos, c0, hL]
    have hs : ∀ (ω : ZMod N × ZMod L → W) (t : Int), (lasoSampleSign (fromWords G ω) seed k q t : ℝ) = if 0 ≤ G.uneg11 (ω (pos (2 * t + 1))) then (1 : ℝ) else -1 := by
      intro ω t
      simp only [lasoSampleSign, stream, advance, fromWords, pos, c0, hL]
    simp only [hx, hs]
    have hcard : (Fintype.card (ZMod N × ZMod L → W) : ℝ) = (Fintype.card W : ℝ) ^ Fintype.card (ZMod N × ZMod L) := by
      rw [Fintype.card_fun]; push_cast; rfl
    rw [hcard]
    have hp : ∀ l : Nat, ((univ.filter fun w => ⌊((n : Int) : R) * ((G.uneg11 w + 1) / 2)⌋ = (l : Int)).card : ℝ) = Fintype.card W * indexProb G n l := by
      intro l; unfold indexProb; field_simp
    simp only [hp, mul_assoc, ← mul_sum] at key
    have key' := mul_left_cancel₀ hW.ne' (key.trans (show _ = (Fintype.card W : ℝ) * ((Fintype.card W : ℝ) ^ Fintype.card (ZMod N × ZMod L) *
      (k * ∑ l ∈ range n, indexProb G n l * y l ^ 2)) by ring))
    simp only [← mul_assoc] at key' ⊢
    exact key'
  rw [sum_comm]
  have hk' : (0 : ℝ) < k := by exact_mod_cast hk
  have hd' : (0 : ℝ) < d := by exact_mod_cast hd
  have hC : (0 : ℝ) < Fintype.card (ZMod N × ZMod L → W) := by exact_mod_cast Fintype.card_pos
  simp only [mul_pow, ← mul_sum, hrow, sum_const, card_range, nsmul_eq_mul]
  rw [sq, hsc]
  field_simp

theorem unif_fromWords [Field R] [LinearOrder R] [IsStrictOrderedRing R] {L : Nat} {G : Gen N K W R} (hu : ∀ w, -1 ≤ G.uneg11 w ∧ G.uneg11 w < 1)
    (ω : ZMod N × ZMod L → W) (st : RNGState N K) (t : Int) : 0 ≤ unif01 (fromWords G ω) st t ∧ unif01 (fromWords G ω) st t < 1 := by
  unfold unif01 stream fromWords
  simp only
  have h := hu (ω (st.counter + ((t / G.len : Int) : ZMod N), ((t % G.len : Int) : ZMod L)))
  constructor
  · have := h.1; have : 0 ≤ G.uneg11 (ω (st.counter + ((t / G.len : Int) : ZMod N), ((t % G.len : Int) : ZMod L))) + 1 := by linarith
    positivity
  · rw [div_lt_one (by norm_num)]; linarith [h.2]

/-- C60 (long axis, wide). Average over all words that a generator may yield (`G` only fixes how words become uniform values, as many of them are
negative as not, and the values are in [-1, 1)): a wide operator with major axis Long, scaled by `isometry_scale`, maps `y` to a vector of average squared norm `n Σ p_l y_l²`, where `n`
is the number of columns and `p_l` is the fraction of the words that are mapped to index `l`. -/
theorem C60_long_axis_wide [NeZero N] [Field R] [LinearOrder R] [IsStrictOrderedRing R] [FloorRing R] [Fintype W] [Nonempty W] {L : Nat} [NeZero L]
    {G : Gen N K W R} {τ : W → W} {order : Int → List (Int × ℝ) → List (Int × ℝ)} {S : SparseSkOp N K ℝ} (hG : G.Ok) (hL : G.len = L)
    (hu : ∀ w, -1 ≤ G.uneg11 w ∧ G.uneg11 w < 1) (hτ : Function.Involutive τ) (hsign : ∀ w, 0 ≤ G.uneg11 (τ w) ↔ ¬ 0 ≤ G.uneg11 w)
    (hord : ∀ i l, (order i l).Perm l) (hS : SparseOpOk S) (hax : S.dist.majorAxis = .Long) (hN : 2 * S.dist.vecNnz ≤ N)
    (hdim : S.nRows ≤ S.nCols) : ∃ A : (ZMod N × ZMod L → W) → Int → Int → ℝ,
    (∀ ω, M.wp (fillSparse (fromWords G ω) Real.sqrt order) S (fun _ S' => ∃ E, OpHolds S' E ∧ toMat E = A ω)) ∧
    ∀ y : Int → ℝ, (∑ ω, ∑ i ∈ range S.nRows.toNat, (S.dist.isometryScale * ∑ j ∈ range S.nCols.toNat, A ω i j * y j) ^ 2) /
      Fintype.card (ZMod N × ZMod L → W) = S.nCols * ∑ j ∈ range S.nCols.toNat, indexProb G S.nCols j * y j ^ 2 := by
  obtain ⟨hR, hC, hk, hkd, hfull, hfit, hax'⟩ := sparseDist_facts hS.dist
  obtain ⟨hmaj, hmin⟩ : S.dist.dimMajor = max S.dist.nRows S.dist.nCols ∧ S.dist.dimMinor = min S.dist.nRows S.dist.nCols := by
    rcases hax' with ⟨a, b, c⟩ | ⟨a, b, c⟩
    · rw [a] at hax; cases hax
    · exact ⟨b, c⟩
  have hrun := fun ω : ZMod N × ZMod L → W => fill_laso (G := fromWords G ω) (S := S) (order := order) hG hord hS hax (fun c t => unif_fromWords hu ω _ t)
  have hex : ∀ ω : ZMod N × ZMod L → W, ∃ E, M.wp (fillSparse (fromWords G ω) Real.sqrt order) S (fun _ S' => OpHolds S' E) ∧
      ∀ q, 0 ≤ q → q < min S.nRows S.nCols → ∀ l, toMat E q l =
        Real.sqrt (occurrences (lasoSample (fromWords G ω) S.seedState (max S.nRows S.nCols) S.dist.vecNnz q) S.dist.vecNnz l) *
          lasoSampleSign (fromWords G ω) S.seedState S.dist.vecNnz q
            (firstOcc (lasoSample (fromWords G ω) S.seedState (max S.nRows S.nCols) S.dist.vecNnz q) l) := by
    intro ω
    obtain ⟨a, S', h1, E, h2, h3⟩ := hrun ω
    refine ⟨E, ⟨a, S', h1, h2⟩, fun q h0 h1 l => ?_⟩
    rw [← h3 q h0 h1 l]
    unfold toMat shortIdx longIdx
    simp only [if_pos hdim]
  choose E hE1 hE2 using hex
  refine ⟨fun ω => toMat (E ω), fun ω => M.wp_mono (hE1 ω) fun _ S' h => ⟨_, h, rfl⟩, fun y => ?_⟩
  rw [hS.nRows, hS.nCols] at *
  obtain ⟨k, hk'⟩ : ∃ k : Nat, S.dist.vecNnz = k := ⟨S.dist.vecNnz.toNat, by omega⟩
  obtain ⟨d, hd⟩ : ∃ d : Nat, S.dist.nRows = d := ⟨S.dist.nRows.toNat, by omega⟩
  obtain ⟨n, hn⟩ : ∃ n : Nat, S.dist.nCols = n := ⟨S.dist.nCols.toNat, by omega⟩
  have hMn : max S.dist.nRows S.dist.nCols = n := by omega
  have hmd : min S.dist.nRows S.dist.nCols = d := by omega
  have hsc : S.dist.isometryScale * S.dist.isometryScale = (n : ℝ) / (k * d) := by
    unfold SparseDist.isometryScale isometryScale
    rw [if_neg (by rw [hax]; decide), Real.mul_self_sqrt]
    · rw [hmaj, hmin, hMn, hmd, hk']; push_cast; rfl
    · rw [hmaj, hmin, hMn, hmd, hk']; push_cast; positivity
  have key := laso_total (G := G) (seed := S.seedState) (L := L) (k := k) (n := n) (d := d) hL (by omega) (by omega) (by omega) (by omega) hτ hsign y _ hsc
  rw [hMn, hmd, hk'] at hE2
  simp only [hd, hn, Int.toNat_natCast, Int.cast_natCast]
  rw [← key]
  congr 1
  refine sum_congr rfl fun ω _ => sum_congr rfl fun q hq => ?_
  rw [mem_range] at hq
  congr 2
  refine sum_congr rfl fun l _ => ?_
  rw [hE2 ω q (by omega) (by omega) l]

/-- C60 (long axis, tall). The transposed statement for operators with more rows than columns. -/
theorem C60_long_axis_tall [NeZero N] [Field R] [LinearOrder R] [IsStrictOrderedRing R] [FloorRing R] [Fintype W] [Nonempty W] {L : Nat} [NeZero L]
    {G : Gen N K W R} {τ : W → W} {order : Int → List (Int × ℝ) → List (Int × ℝ)} {S : SparseSkOp N K ℝ} (hG : G.Ok) (hL : G.len = L)
    (hu : ∀ w, -1 ≤ G.uneg11 w ∧ G.uneg11 w < 1) (hτ : Function.Involutive τ) (hsign : ∀ w, 0 ≤ G.uneg11 (τ w) ↔ ¬ 0 ≤ G.uneg11 w)
    (hord : ∀ i l, (order i l).Perm l) (hS : SparseOpOk S) (hax : S.dist.majorAxis = .Long) (hN : 2 * S.dist.vecNnz ≤ N)
    (hdim : S.nCols < S.nRows) : ∃ A : (ZMod N × ZMod L → W) → Int → Int → ℝ,
    (∀ ω, M.wp (fillSparse (fromWords G ω) Real.sqrt order) S (fun _ S' => ∃ E, OpHolds S' E ∧ toMat E = A ω)) ∧
    ∀ y : Int → ℝ, (∑ ω, ∑ j ∈ range S.nCols.toNat, (S.dist.isometryScale * ∑ i ∈ range S.nRows.toNat, A ω i j * y i) ^ 2) /
      Fintype.card (ZMod N × ZMod L → W) = S.nRows * ∑ i ∈ range S.nRows.toNat, indexProb G S.nRows i * y i ^ 2 := by
  obtain ⟨hR, hC, hk, hkd, hfull, hfit, hax'⟩ := sparseDist_facts hS.dist
  obtain ⟨hmaj, hmin⟩ : S.dist.dimMajor = max S.dist.nRows S.dist.nCols ∧ S.dist.dimMinor = min S.dist.nRows S.dist.nCols := by
    rcases hax' with ⟨a, b, c⟩ | ⟨a, b, c⟩
    · rw [a] at hax; cases hax
    · exact ⟨b, c⟩
  have hrun := fun ω : ZMod N × ZMod L → W => fill_laso (G := fromWords G ω) (S := S) (order := order) hG hord hS hax (fun c t => unif_fromWords hu ω _ t)
  have hex : ∀ ω : ZMod N × ZMod L → W, ∃ E, M.wp (fillSparse (fromWords G ω) Real.sqrt order) S (fun _ S' => OpHolds S' E) ∧
      ∀ q, 0 ≤ q → q < min S.nRows S.nCols → ∀ l, toMat E l q =
        Real.sqrt (occurrences (lasoSample (fromWords G ω) S.seedState (max S.nRows S.nCols) S.dist.vecNnz q) S.dist.vecNnz l) *
          lasoSampleSign (fromWords G ω) S.seedState S.dist.vecNnz q
            (firstOcc (lasoSample (fromWords G ω) S.seedState (max S.nRows S.nCols) S.dist.vecNnz q) l) := by
    intro ω
    obtain ⟨a, S', h1, E, h2, h3⟩ := hrun ω
    refine ⟨E, ⟨a, S', h1, h2⟩, fun q h0 h1 l => ?_⟩
    rw [← h3 q h0 h1 l]
    unfold toMat shortIdx longIdx
    simp only [if_neg (show ¬ S.nRows ≤ S.nCols by omega), and_comm]
  choose E hE1 hE2 using hex
  refine ⟨fun ω => toMat (E ω), fun ω => M.wp_mono (hE1 ω) fun _ S' h => ⟨_, h, rfl⟩, fun y => ?_⟩
  rw [hS.nRows, hS.nCols] at *
  obtain ⟨k, hk'⟩ : ∃ k : Nat, S.dist.vecNnz = k := ⟨S.dist.vecNnz.toNat, by omega⟩
  obtain ⟨d, hd⟩ : ∃ d : Nat, S.dist.nCols = d := ⟨S.dist.nCols.toNat, by omega⟩
  obtain ⟨n, hn⟩ : ∃ n : Nat, S.dist.nRows = n := ⟨S.dist.nRows.toNat, by omega⟩
  have hMn : max S.dist.nRows S.dist.nCols = n := by omega
  have hmd : min S.dist.nRows S.dist.nCols = d := by omega
  have hsc : S.dist.isometryScale * S.dist.isometryScale = (n : ℝ) / (k * d) := by
    unfold SparseDist.isometryScale isometryScale
    rw [if_neg (by rw [hax]; decide), Real.mul_self_sqrt]
    · rw [hmaj, hmin, hMn, hmd, hk']; push_cast; rfl
    · rw [hmaj, hmin, hMn, hmd, hk']; push_cast; positivity
  have key := laso_total (G := G) (seed := S.seedState) (L := L) (k := k) (n := n) (d := d) hL (by omega) (by omega) (by omega) (by omega) hτ hsign y _ hsc
  rw [hMn, hmd, hk'] at hE2
  simp only [hd, hn, Int.toNat_natCast, Int.cast_natCast]
  rw [← key]
  congr 1
  refine sum_congr rfl fun ω _ => sum_congr rfl fun q hq => ?_
  rw [mem_range] at hq
  congr 2
  refine sum_congr rfl fun l _ => ?_
  rw [hE2 ω q (by omega) (by omega) l]

theorem count_scaled (M n l : Nat) (hn : 0 < n) (hl : l < n) :
    (M : Int) - n ≤ n * (((range M).filter fun j => n * (2 * j + 1) / (2 * M) = l).card : Int) ∧
    (n : Int) * (((range M).filter fun j => n * (2 * j + 1) / (2 * M) = l).card : Int) ≤ M + n := by
  rcases Nat.eq_zero_or_pos M with rfl | hM
  · simp
  -- the smallest `j` with `2 M c <= n (2 j + 1)`
  have hex : ∀ c : Nat, ∃ a : Nat, 2 * M * c ≤ n * (2 * a + 1) ∧ n * (2 * a + 1) ≤ 2 * M * c + 2 * n ∧ ∀ j : Nat, a ≤ j ↔ 2 * M * c ≤ n * (2 * j + 1) := by
    intro c
    have hx : ∃ a : Nat, 2 * M * c ≤ n * (2 * a + 1) := ⟨M * c, (show 2 * M * c ≤ 1 * (2 * (M * c) + 1) by ring_nf; omega).trans (Nat.mul_le_mul_right _ hn)⟩
    classical
    refine ⟨Nat.find hx, Nat.find_spec hx, ?_, fun j => ⟨fun h => ?_, fun h => Nat.find_min' hx h⟩⟩
    · by_cases h0 : Nat.find hx = 0
      · rw [h0]; omega
      · have := Nat.find_min hx (show Nat.find hx - 1 < Nat.find hx by omega)
        obtain ⟨m, hm⟩ : ∃ m, Nat.find hx = m + 1 := ⟨Nat.find hx - 1, by omega⟩
        rw [hm] at this ⊢
        rw [Nat.add_sub_cancel] at this
        nlinarith
    · exact (Nat.find_spec hx).trans (Nat.mul_le_mul_left n (by omega))
  obtain ⟨a, a1, a2, a3⟩ := hex l
  obtain ⟨b, b1, b2, b3⟩ := hex (l + 1)
  have hset : ((range M).filter fun j => n * (2 * j + 1) / (2 * M) = l) = Ico a b := by
    ext j
    rw [mem_filter, mem_range, mem_Ico, a3 j, ← not_le, ← not_le, b3 j, Nat.div_eq_iff (by omega)]
    constructor
    · rintro ⟨_, h1, h2⟩
      refine ⟨by nlinarith, fun hc => ?_⟩
      have : 2 * M * (l + 1) = l * (2 * M) + 2 * M := by ring
      omega
    · rintro ⟨h1, h2⟩
      have e1 : 2 * M * (l + 1) = l * (2 * M) + 2 * M := by ring
      refine ⟨fun hc => ?_, by nlinarith, by omega⟩
      apply h2
      have : 2 * M * (l + 1) ≤ 2 * M * n := Nat.mul_le_mul_left _ (by omega)
      have h3 : n * (2 * M + 1) ≤ n * (2 * j + 1) := Nat.mul_le_mul_left _ (by omega)
      nlinarith
  rw [hset, Nat.card_Ico]
  have hab : a ≤ b := (a3 b).mpr (le_trans (by nlinarith) b1)
  rw [Nat.cast_sub hab]
  zify at a1 a2 b1 b2
  constructor <;> nlinarith

/-- C60 (indices). If the uniform values are the midpoints `(j + 1/2) / M` of `M` equal intervals, one for each word, then the probability of every
index `l` out of `n` is `1/n` up to `1/M`. -/
theorem C60_index_probability [Field R] [LinearOrder R] [IsStrictOrderedRing R] [FloorRing R] [Fintype W] {G : Gen N K W R} {Mw : Nat} (e : W ≃ Fin Mw)
    (hmid : ∀ w, (G.uneg11 w + 1) / 2 = (((e w : Nat) : R) + 1 / 2) / Mw) (hM : 0 < Mw) (n l : Int) (h0 : 0 ≤ l) (hl : l < n) :
    |indexProb G n l - 1 / n| ≤ 1 / Mw := by
  obtain ⟨n, rfl⟩ : ∃ n' : Nat, n = n' := ⟨n.toNat, by omega⟩
  obtain ⟨l, rfl⟩ : ∃ l' : Nat, l = l' := ⟨l.toNat, by omega⟩
  have hcard : Fintype.card W = Mw := by rw [Fintype.card_congr e, Fintype.card_fin]
  have hfl : ∀ w, ⌊((n : Int) : R) * ((G.uneg11 w + 1) / 2)⌋ = ((n * (2 * (e w : Nat) + 1) / (2 * Mw) : Nat) : Int) := by
    intro w
    have hM' : (0 : R) < Mw := by exact_mod_cast hM
    rw [hmid]
    have : ((n : Int) : R) * ((((e w : Nat) : R) + 1 / 2) / Mw) = ((n * (2 * (e w : Nat) + 1) : Nat) : R) / ((2 * Mw : Nat) : R) := by
      push_cast; field_simp
    rw [this, Int.floor_div_natCast, Int.floor_natCast]; rfl
  have hcount : (univ.filter fun w => ⌊((n : Int) : R) * ((G.uneg11 w + 1) / 2)⌋ = (l : Int)).card =
      ((range Mw).filter fun j => n * (2 * j + 1) / (2 * Mw) = l).card := by
    refine card_bij (fun w _ => (e w : Nat)) ?_ ?_ ?_
    · intro w hw
      rw [mem_filter, hfl] at hw
      rw [mem_filter, mem_range]
      exact ⟨(e w).2, by exact_mod_cast hw.2⟩
    · intro w _ w' _ h
      exact e.injective (Fin.ext h)
    · intro j hj
      rw [mem_filter, mem_range] at hj
      refine ⟨e.symm ⟨j, hj.1⟩, ?_, by simp⟩
      rw [mem_filter, hfl]
      simp [hj.2]
  obtain ⟨c1, c2⟩ := count_scaled Mw n l (by omega) (by omega)
  unfold indexProb
  rw [hcount, hcard]
  set c := ((range Mw).filter fun j => n * (2 * j + 1) / (2 * Mw) = l).card
  have hn : (0 : ℝ) < n := by have : 0 < n := by omega
                              exact_mod_cast this
  have hM' : (0 : ℝ) < Mw := by exact_mod_cast hM
  have c1' : (Mw : ℝ) - n ≤ n * c := by exact_mod_cast c1
  have c2' : (n : ℝ) * c ≤ Mw + n := by exact_mod_cast c2
  rw [Int.cast_natCast]
  have : (c : ℝ) / Mw - 1 / n = (n * c - Mw) / (n * Mw) := by field_simp
  rw [this, abs_le]
  constructor
  · rw [le_div_iff₀ (by positivity)]
    have : -(1 / (Mw : ℝ)) * (n * Mw) = -n := by field_simp
    linarith
  · rw [div_le_iff₀ (by positivity)]
    have : 1 / (Mw : ℝ) * (n * Mw) = n := by field_simp
    linarith

theorem weighted_bound {n Mw : Nat} (hn : 0 < n) {p : Nat → ℝ} (hp : ∀ l < n, |p l - 1 / (n : ℝ)| ≤ 1 / Mw) (y : Nat → ℝ) :
    |(n : ℝ) * ∑ l ∈ range n, p l * y l ^ 2 - ∑ l ∈ range n, y l ^ 2| ≤ n / Mw * ∑ l ∈ range n, y l ^ 2 := by
  have hn' : (0 : ℝ) < n := by exact_mod_cast hn
  rw [mul_sum, ← sum_sub_distrib, mul_sum]
  refine (abs_sum_le_sum_abs _ _).trans (sum_le_sum fun l hl => ?_)
  have : (n : ℝ) * (p l * y l ^ 2) - y l ^ 2 = (n * (p l - 1 / n)) * y l ^ 2 := by field_simp
  rw [this, abs_mul, abs_of_nonneg (sq_nonneg (y l))]
  refine mul_le_mul_of_nonneg_right ?_ (sq_nonneg _)
  rw [abs_mul, abs_of_pos hn']
  have := mul_le_mul_of_nonneg_left (hp l (mem_range.mp hl)) hn'.le
  rwa [mul_one_div] at this

/-- C60 (bound, wide). With midpoints of `M` equal intervals as uniform values, the average squared norm of the scaled product with `y` differs from
`‖y‖²` by at most `n/M * ‖y‖²`, where `n` is the number of columns. -/
theorem C60_isometry_wide [NeZero N] [Field R] [LinearOrder R] [IsStrictOrderedRing R] [FloorRing R] [Fintype W] [Nonempty W] {L : Nat} [NeZero L]
    {G : Gen N K W R} {τ : W → W} {order : Int → List (Int × ℝ) → List (Int × ℝ)} {S : SparseSkOp N K ℝ} (hG : G.Ok) (hL : G.len = L)
    (hu : ∀ w, -1 ≤ G.uneg11 w ∧ G.uneg11 w < 1) (hτ : Function.Involutive τ) (hsign : ∀ w, 0 ≤ G.uneg11 (τ w) ↔ ¬ 0 ≤ G.uneg11 w)
    (hord : ∀ i l, (order i l).Perm l) (hS : SparseOpOk S) (hax : S.dist.majorAxis = .Long) (hN : 2 * S.dist.vecNnz ≤ N)
    (hdim : S.nRows ≤ S.nCols) {Mw : Nat} (e : W ≃ Fin Mw) (hmid : ∀ w, (G.uneg11 w + 1) / 2 = (((e w : Nat) : R) + 1 / 2) / Mw) :
    ∃ A : (ZMod N × ZMod L → W) → Int → Int → ℝ,
    (∀ ω, M.wp (fillSparse (fromWords G ω) Real.sqrt order) S (fun _ S' => ∃ E, OpHolds S' E ∧ toMat E = A ω)) ∧
    ∀ y : Int → ℝ, |(∑ ω, ∑ i ∈ range S.nRows.toNat, (S.dist.isometryScale * ∑ j ∈ range S.nCols.toNat, A ω i j * y j) ^ 2) /
      Fintype.card (ZMod N × ZMod L → W) - ∑ j ∈ range S.nCols.toNat, y j ^ 2| ≤ (S.nCols : ℝ) / Mw * ∑ j ∈ range S.nCols.toNat, y j ^ 2 := by
  obtain ⟨hR, hC, -⟩ := sparseDist_facts hS.dist
  obtain ⟨A, hA, h⟩ := C60_long_axis_wide hG hL hu hτ hsign hord hS hax hN hdim
  refine ⟨A, hA, fun y => ?_⟩
  rw [h y]
  rw [← hS.nCols] at hC
  rw [← hS.nRows] at hR
  obtain ⟨n, hn⟩ : ∃ n : Nat, S.nCols = n := ⟨S.nCols.toNat, by omega⟩
  have hM : 0 < Mw := by
    obtain ⟨w⟩ := ‹Nonempty W›
    exact (e w).pos
  rw [hn, Int.toNat_natCast, Int.cast_natCast]
  exact weighted_bound (by omega) (p := fun l => indexProb G n l) (fun l hl => by
    have := C60_index_probability e hmid hM n l (by omega) (by omega)
    rwa [Int.cast_natCast] at this) fun l => y l

/-- C60 (bound, tall). The transposed statement. -/
theorem C60_isometry_tall [NeZero N] [Field R] [LinearOrder R] [IsStrictOrderedRing R] [FloorRing R] [Fintype W] [Nonempty W] {L : Nat} [NeZero L]
    {G : Gen N K W R} {τ : W → W} {order : Int → List (Int × ℝ) → List (Int × ℝ)} {S : SparseSkOp N K ℝ} (hG : G.Ok) (hL : G.len = L)
    (hu : ∀ w, -1 ≤ G.uneg11 w ∧ G.uneg11 w < 1) (hτ : Function.Involutive τ) (hsign : ∀ w, 0 ≤ G.uneg11 (τ w) ↔ ¬ 0 ≤ G.uneg11 w)
    (hord : ∀ i l, (order i l).Perm l) (hS : SparseOpOk S) (hax : S.dist.majorAxis = .Long) (hN : 2 * S.dist.vecNnz ≤ N)
    (hdim : S.nCols < S.nRows) {Mw : Nat} (e : W ≃ Fin Mw) (hmid : ∀ w, (G.uneg11 w + 1) / 2 = (((e w : Nat) : R) + 1 / 2) / Mw) :
    ∃ A : (ZMod N × ZMod L → W) → Int → Int → ℝ,
    (∀ ω, M.wp (fillSparse (fromWords G ω) Real.sqrt order) S (fun _ S' => ∃ E, OpHolds S' E ∧ toMat E = A ω)) ∧
    ∀ y : Int → ℝ, |(∑ ω, ∑ j ∈ range S.nCols.toNat, (S.dist.isometryScale * ∑ i ∈ range S.nRows.toNat, A ω i j * y i) ^ 2) /
      Fintype.card (ZMod N × ZMod L → W) - ∑ j ∈ range S.nRows.toNat, y j ^ 2| ≤ (S.nRows : ℝ) / Mw * ∑ j ∈ range S.nRows.toNat, y j ^ 2 := by
  obtain ⟨hR, hC, -⟩ := sparseDist_facts hS.dist
  obtain ⟨A, hA, h⟩ := C60_long_axis_tall hG hL hu hτ hsign hord hS hax hN hdim
  refine ⟨A, hA, fun y => ?_⟩
  rw [h y]
  rw [← hS.nCols] at hC
  rw [← hS.nRows] at hR
  obtain ⟨n, hn⟩ : ∃ n : Nat, S.nRows = n := ⟨S.nRows.toNat, by omega⟩
  have hM : 0 < Mw := by
    obtain ⟨w⟩ := ‹Nonempty W›
    exact (e w).pos
  rw [hn, Int.toNat_natCast, Int.cast_natCast]
  exact weighted_bound (by omega) (p := fun l => indexProb G n l) (fun l hl => by
    have := C60_index_probability e hmid hM n l (by omega) (by omega)
    rwa [Int.cast_natCast] at this) fun l => y l

/-- A generator of 32-bit words whose uniform values are the midpoints of `2^32` intervals (what `r123::uneg11` computes, up to rounding). -/
def midGen : Gen (2 ^ 128) Nat (Fin (2 ^ 32)) ℚ :=
  { len := 4, word := fun c k i => Fin.ofNat _ (c.val + k + i.toNat), boxmuller := fun _ _ => (0, 0),
    uneg11 := fun w => 2 * ((((w : Nat) : ℚ) + 1 / 2) / (2 ^ 32 : Nat)) - 1, nat := fun w => w }

/-- A tall long-axis distribution. -/
def exLasoTall : SparseDist := ⟨8, 3, .Long, 8, 3, 2, 6⟩

/-- The hypotheses are met by this generator, two words being paired if they are mirror images, and by a wide and a tall operator. -/
example : midGen.Ok ∧ midGen.len = (4 : Nat) ∧ (∀ w, -1 ≤ midGen.uneg11 w ∧ midGen.uneg11 w < 1) ∧ Function.Involutive (Fin.rev (n := 2 ^ 32)) ∧
    (∀ w, 0 ≤ midGen.uneg11 (Fin.rev w) ↔ ¬ 0 ≤ midGen.uneg11 w) ∧
    (∀ w, (midGen.uneg11 w + 1) / 2 = ((((Equiv.refl (Fin (2 ^ 32))) w : Nat) : ℚ) + 1 / 2) / (2 ^ 32 : Nat)) ∧
    SparseOpOk (mkSparseSkOp 4 exLaso ⟨0, 7⟩ : SparseSkOp (2 ^ 128) Nat ℝ) ∧ exLaso.majorAxis = .Long ∧ 2 * exLaso.vecNnz ≤ ((2 ^ 128 : Nat) : Int) ∧
    exLaso.nRows ≤ exLaso.nCols ∧
    SparseOpOk (mkSparseSkOp 4 exLasoTall ⟨0, 7⟩ : SparseSkOp (2 ^ 128) Nat ℝ) ∧ exLasoTall.majorAxis = .Long ∧
    2 * exLasoTall.vecNnz ≤ ((2 ^ 128 : Nat) : Int) ∧ exLasoTall.nCols < exLasoTall.nRows := by
  have hw : ∀ w : Fin (2 ^ 32), ((w : Nat) : ℚ) + 1 ≤ 4294967296 := fun w => by
    have := w.2
    have h : (w : Nat) + 1 ≤ 4294967296 := by omega
    exact_mod_cast h
  refine ⟨Or.inr rfl, rfl, fun w => ?_, Fin.rev_rev, fun w => ?_, fun w => ?_, mkSparseSkOp_ok 4 exLaso_ok _, rfl, by decide, by decide,
    mkSparseSkOp_ok 4 (show SparseDistOk exLasoTall from ⟨by decide, by decide⟩) _, rfl, by decide, by decide⟩
  · have := hw w
    have h0 : (0 : ℚ) ≤ (w : Nat) := Nat.cast_nonneg _
    simp only [midGen]; norm_num
    constructor <;> linarith
  · have e : ((Fin.rev w : Nat) : ℚ) = 4294967295 - (w : Nat) := by
      rw [Fin.val_rev]
      have := w.2
      rw [Nat.cast_sub (by omega)]; push_cast; ring
    simp only [midGen, e]
    norm_num
    constructor
    · intro h
      by_contra hc
      push Not at hc
      have h1 : ((w : Nat) : ℚ) ≤ 4294967295 / 2 := by linarith
      have h2 : (4294967295 : ℚ) / 2 ≤ ((w : Nat) : ℚ) := by linarith
      have h3 : (2 * (w : Nat) : ℚ) = 4294967295 := by linarith
      have h4 : 2 * (w : Nat) = 4294967295 := by exact_mod_cast h3
      omega
    · intro h; linarith
  · simp only [midGen, Equiv.refl_apply]; ring

end RB
