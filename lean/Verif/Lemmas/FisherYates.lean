import Verif.Model.FisherYates
import Verif.Lemmas.Dense
import Mathlib.Logic.Equiv.Basic
import Mathlib.Algebra.Group.End

/-! # Lemmas about `repeated_fisher_yates` -/

namespace RB
variable {N : Nat} {K W R T : Type}

/-- The buffer `b` with cells `0 .. m-1` replaced by `f`. -/
def Buf.over {T : Type} (m : Int) (f : Int → T) (b : Buf T) : Buf T := fun p => if 0 ≤ p ∧ p < m then .val (f p) else b p

theorem Buf.over_zero {T : Type} {m : Int} (h : m ≤ 0) (f : Int → T) (b : Buf T) : Buf.over m f b = b := by
  funext p; simp only [Buf.over]; rw [if_neg (by omega)]

theorem Buf.over_set {T : Type} {m : Int} (h : 0 ≤ m) (f : Int → T) (b : Buf T) :
    (Buf.over m f b).set m (f m) = Buf.over (m + 1) f b := by
  funext p
  rw [Buf.set_apply]
  simp only [Buf.over]
  split_ifs <;> first | rfl | omega | skip
  subst_vars; rfl

theorem Buf.over_in {T : Type} {m p : Int} {f : Int → T} {b : Buf T} (h : 0 ≤ p) (h' : p < m) : Buf.over m f b p = .val (f p) := by
  simp [Buf.over, h, h']

theorem Buf.over_out {T : Type} {m p : Int} {f : Int → T} {b : Buf T} (h : ¬ (0 ≤ p ∧ p < m)) : Buf.over m f b p = b p := by
  simp only [Buf.over]; rw [if_neg h]

theorem Buf.over_ne_none {T : Type} {m p : Int} {f : Int → T} {b : Buf T} (h : b p ≠ .none) : Buf.over m f b p ≠ .none := by
  simp only [Buf.over]; split_ifs <;> simp [h]

theorem Buf.ofFn_in {T : Type} {n p : Int} {f : Int → T} (h : 0 ≤ p) (h' : p < n) : Buf.ofFn n f p = .val (f p) := by
  simp [Buf.ofFn, h, h']

theorem wp_wrOpt {i : Int} {v : T} {b : Option (Buf T)} {Q : Unit → Option (Buf T) → Prop}
    (hb : ∀ c, b = some c → c i ≠ .none) (hQ : Q () (b.map fun c => c.set i v)) : M.wp (wrOpt i v) b Q := by
  cases b with
  | none => exact ⟨(), none, rfl, hQ⟩
  | some c =>
    have := hb c rfl
    refine ⟨(), some (c.set i v), ?_, hQ⟩
    unfold wrOpt M.wr
    cases h : c i <;> simp_all

/-- The permutation after `j` steps of Fisher-Yates with choices `c`. -/
def fyPerm (n : Int) (c : Nat → Nat) : Nat → Equiv.Perm Int
  | 0 => 1
  | j + 1 => fyPerm n c j * Equiv.swap (j : Int) (j + (c j : Int) % (n - j))

/-- The pivot of step `j`. -/
def fyPiv (n : Int) (c : Nat → Nat) (j : Nat) : Int := j + (c j : Int) % (n - j)

theorem fyPiv_bounds {n : Int} {c : Nat → Nat} {j : Nat} (h : (j : Int) < n) : (j : Int) ≤ fyPiv n c j ∧ fyPiv n c j < n := by
  unfold fyPiv
  have h1 := Int.emod_nonneg (c j : Int) (show n - j ≠ 0 by omega)
  have h2 := Int.emod_lt_of_pos (c j : Int) (show 0 < n - j by omega)
  omega

theorem fyPerm_succ (n : Int) (c : Nat → Nat) (j : Nat) (p : Int) :
    fyPerm n c (j + 1) p = fyPerm n c j (Equiv.swap (j : Int) (fyPiv n c j) p) := rfl

theorem fyPerm_self (n : Int) (c : Nat → Nat) (j : Nat) : fyPerm n c (j + 1) j = fyPerm n c j (fyPiv n c j) := by
  rw [fyPerm_succ, Equiv.swap_apply_left]

theorem fyPerm_piv (n : Int) (c : Nat → Nat) (j : Nat) : fyPerm n c (j + 1) (fyPiv n c j) = fyPerm n c j j := by
  rw [fyPerm_succ, Equiv.swap_apply_right]

theorem fyPerm_other (n : Int) (c : Nat → Nat) (j : Nat) {p : Int} (h1 : p ≠ j) (h2 : p ≠ fyPiv n c j) :
    fyPerm n c (j + 1) p = fyPerm n c j p := by
  rw [fyPerm_succ, Equiv.swap_apply_of_ne_of_ne h1 h2]

/-- Positions before `j` are final. -/
theorem fyPerm_final {n : Int} {c : Nat → Nat} {j k : Nat} (hjk : j < k) (hk : (k : Int) ≤ n) :
    fyPerm n c k j = fyPerm n c (j + 1) j := by
  induction k with
  | zero => omega
  | succ k ih =>
    rcases Nat.lt_succ_iff_lt_or_eq.mp hjk with h | h
    · have := fyPiv_bounds (n := n) (c := c) (j := k) (by push_cast at hk; omega)
      rw [fyPerm_other _ _ _ (by omega) (by omega), ih h (by push_cast at hk; omega)]
    · rw [h]

theorem fyPerm_range {n : Int} {c : Nat → Nat} {j : Nat} (hj : (j : Int) ≤ n) {p : Int} (h0 : 0 ≤ p) (h1 : p < n) :
    0 ≤ fyPerm n c j p ∧ fyPerm n c j p < n := by
  induction j generalizing p with
  | zero => exact ⟨h0, h1⟩
  | succ j ih =>
    push_cast at hj
    have hb := fyPiv_bounds (n := n) (c := c) (j := j) (by omega)
    rw [fyPerm_succ]
    by_cases e1 : p = j
    · subst e1; rw [Equiv.swap_apply_left]; exact ih (by omega) (by omega) (by omega)
    · by_cases e2 : p = fyPiv n c j
      · subst e2; rw [Equiv.swap_apply_right]; exact ih (by omega) (by omega) (by omega)
      · rw [Equiv.swap_apply_of_ne_of_ne e1 e2]; exact ih (by omega) h0 h1

/-- The choices of block `i`: word 0 at the block's counters. -/
def fyChoice (G : Gen N K W R) (state : RNGState N K) (k i : Int) (j : Nat) : Nat :=
  G.nat (G.word (state.counter + ((i * k + j : Int) : ZMod N)) state.key 0)

/-- The index at flat position `p` of the output. -/
def fyIdx (G : Gen N K W R) (state : RNGState N K) (k n : Int) (p : Int) : Int :=
  fyPerm n (fyChoice G state k (p / k)) ((p % k).toNat + 1) (p % k)

/-- The sign at flat position `p` of the output: word 1 of the same counter. -/
def fySign [One T] [Neg T] (G : Gen N K W R) (state : RNGState N K) (p : Int) : T :=
  if G.nat (G.word (state.counter + ((p : Int) : ZMod N)) state.key 1) % 2 = 0 then 1 else -1

/-- The outputs after `m` elements have been written. -/
def fyOut [One T] [Neg T] (G : Gen N K W R) (state : RNGState N K) (k n m : Int) (o : SkBufs T) : SkBufs T :=
  { major := Buf.over m (fyIdx G state k n) o.major
    minor := o.minor.map (Buf.over m (fun p => p / k))
    vals := o.vals.map (Buf.over m (fySign G state)) }

/-- The outputs have at least `m` elements. -/
structure SkAlloc (o : SkBufs T) (m : Int) : Prop where
  major : ∀ p, 0 ≤ p → p < m → o.major p ≠ .none
  minor : ∀ b, o.minor = some b → ∀ p, 0 ≤ p → p < m → b p ≠ .none
  vals : ∀ b, o.vals = some b → ∀ p, 0 ≤ p → p < m → b p ≠ .none

theorem div_block {k i j : Int} (hj : 0 ≤ j) (hk : j < k) : (i * k + j) / k = i ∧ (i * k + j) % k = j := by
  constructor
  · rw [add_comm, Int.add_mul_ediv_right _ _ (by omega), Int.ediv_eq_zero_of_lt hj hk, zero_add]
  · rw [add_comm, Int.add_mul_emod_self_right, Int.emod_eq_of_lt hj hk]

theorem words_rd {G : Gen N K W R} {c : ZMod N} {k : K} {i : Int} (h0 : 0 ≤ i) (h1 : i < G.len) :
    (G.words c k).rd i = .ok (G.word c k i) := by
  simp [Gen.words, Buf.rd, Buf.ofFn, h0, h1]

theorem ofFn_swap {n : Int} {σ : Equiv.Perm Int} {a b : Int} (ha : 0 ≤ a ∧ a < n) (hb : 0 ≤ b ∧ b < n) :
    ((Buf.ofFn n σ).set b (σ a)).set a (σ b) = Buf.ofFn n (σ * Equiv.swap a b) := by
  funext p
  rw [Buf.set_apply, Buf.set_apply]
  by_cases h1 : p = a
  · subst h1; simp [Buf.ofFn, ha]
  · by_cases h2 : p = b
    · subst h2; rw [if_neg h1, if_pos rfl]; simp [Buf.ofFn, hb]
    · rw [if_neg h1, if_neg h2]
      simp only [Buf.ofFn, Equiv.Perm.mul_apply, Equiv.swap_apply_of_ne_of_ne h1 h2]

/-- The state of the memory inside block `i` after `j` steps. -/
def fyMem [One T] [Neg T] (G : Gen N K W R) (state : RNGState N K) (k n i : Int) (o : SkBufs T) (piv : Buf Int) (j : Nat) :
    FYMem T :=
  { work := Buf.ofFn n (fyPerm n (fyChoice G state k i) j)
    pivots := Buf.over j (fun p => fyPiv n (fyChoice G state k i) p.toNat) piv
    out := fyOut G state k n (i * k + j) o }

theorem fyStep_spec [One T] [Neg T] {G : Gen N K W R} {state : RNGState N K} {k n i r : Int} {o : SkBufs T} {piv : Buf Int}
    {j : Nat} (hlen : 2 ≤ G.len) (hi : 0 ≤ i) (hir : i < r) (hj : (j : Int) < k) (hkn : k ≤ n) (ho : SkAlloc o (r * k))
    (hpiv : ∀ p, 0 ≤ p → p < k → piv p ≠ .none) :
    M.wp (fyStep G state.key n i (i * k) j (state.counter + ((i * k + j : Int) : ZMod N)))
      (fyMem G state k n i o piv j)
      (fun c m => c = state.counter + ((i * k + (j + 1 : Nat) : Int) : ZMod N) ∧ m = fyMem G state k n i o piv (j + 1)) := by
  have hb := fyPiv_bounds (n := n) (c := fyChoice G state k i) (j := j) (by omega)
  have hlt : i * k + j < r * k := by nlinarith
  have h0 : 0 ≤ i * k + j := by nlinarith
  obtain ⟨d1, d2⟩ := div_block (i := i) (show (0 : Int) ≤ j by omega) hj
  unfold fyStep
  rw [words_rd (le_refl 0) (by omega), words_rd (by decide) (by omega)]
  have hell : (j : Int) + (G.nat (G.word (state.counter + ((i * k + j : Int) : ZMod N)) state.key 0) : Int).tmod (n - j)
      = fyPiv n (fyChoice G state k i) j := by
    rw [Int.tmod_eq_emod_of_nonneg (by omega)]; rfl
  simp only [M.wp_bind, M.wp_lift, Res.ok.injEq, M.wp_ubIf]
  refine ⟨_, rfl, by omega, ?_⟩
  simp only [hell, onPivots, onWork, onMajor, onVals, onMinor, M.wp_zoom, M.wp_wr, M.wp_rd, fyMem]
  refine ⟨Buf.over_ne_none (hpiv _ (by omega) hj), _, Buf.ofFn_in (by omega) hb.2, _, Buf.ofFn_in (by omega) (by omega), ?_⟩
  refine ⟨by rw [Buf.ofFn_in (by omega) hb.2]; simp, ?_, ?_⟩
  · rw [Buf.set_apply]; split_ifs
    · simp
    · rw [Buf.ofFn_in (by omega) (by omega)]; simp
  refine ⟨Buf.over_ne_none (ho.major _ (by omega) (by omega)), _, rfl, ?_⟩
  apply wp_wrOpt
  · intro c hc
    simp only [fyOut, Option.map_eq_some_iff] at hc
    obtain ⟨b, hb1, rfl⟩ := hc
    exact Buf.over_ne_none (ho.vals b hb1 _ (by omega) (by omega))
  apply wp_wrOpt
  · intro c hc
    simp only [fyOut, Option.map_eq_some_iff] at hc
    obtain ⟨b, hb1, rfl⟩ := hc
    exact Buf.over_ne_none (ho.minor b hb1 _ (by omega) (by omega))
  rw [M.wp_pure]
  constructor
  · rw [ctrIncr_eq (by decide) (by decide), add_assoc, ← Int.cast_add]; push_cast; ring_nf
  · have e : (j : Int) + i * k = i * k + j := by ring
    rw [e]
    have e1 : fyPerm n (fyChoice G state k i) j (fyPiv n (fyChoice G state k i) j) = fyIdx G state k n (i * k + j) := by
      unfold fyIdx; rw [d1, d2, Int.toNat_natCast, fyPerm_self]
    have e2 : i * k + ((j + 1 : Nat) : Int) = (i * k + j) + 1 := by push_cast; ring
    rw [e2]
    congr 1
    · exact ofFn_swap ⟨by omega, by omega⟩ ⟨by omega, hb.2⟩
    · have := Buf.over_set (m := (j : Int)) (by omega) (fun p => fyPiv n (fyChoice G state k i) p.toNat) piv
      rw [Int.toNat_natCast] at this
      rw [this]; push_cast; rfl
    · simp only [fyOut]
      congr 1
      · rw [e1, Buf.over_set h0]
      · rw [Option.map_map]; congr 1; funext b
        simp only [Function.comp]
        have := Buf.over_set h0 (fun p => p / k) b
        simp only [d1] at this
        exact this
      · rw [Option.map_map]; congr 1; funext b
        simp only [Function.comp]
        exact Buf.over_set h0 (fySign G state) b

theorem fyRestore_spec [One T] [Neg T] {G : Gen N K W R} {state : RNGState N K} {k n i : Int} {o : SkBufs T}
    {j : Nat} (hi : 0 ≤ i) (hj : (j : Int) < k) (hkn : k ≤ n) {s : FYMem T}
    (hs1 : s.work = Buf.ofFn n (fyPerm n (fyChoice G state k i) (j + 1)))
    (hs2 : s.pivots j = .val (fyPiv n (fyChoice G state k i) j))
    (hs3 : s.out = fyOut G state k n (i * k + k) o) :
    M.wp (fyRestore k (i * k) (k - j)) s (fun _ s' => s' = { s with work := Buf.ofFn n (fyPerm n (fyChoice G state k i) j) }) := by
  have hb := fyPiv_bounds (n := n) (c := fyChoice G state k i) (j := j) (by omega)
  obtain ⟨d1, d2⟩ := div_block (i := i) (show (0 : Int) ≤ j by omega) hj
  have h0 : 0 ≤ i * k + j := by nlinarith
  have hmaj : s.out.major ((j : Int) + i * k) = .val (fyPerm n (fyChoice G state k i) j (fyPiv n (fyChoice G state k i) j)) := by
    rw [hs3, add_comm (j : Int)]; simp only [fyOut]
    rw [Buf.over_in h0 (by omega)]
    unfold fyIdx; rw [d1, d2, Int.toNat_natCast, fyPerm_self]
  unfold fyRestore
  rw [show k - (k - (j : Int)) = j by ring]
  simp only [onPivots, onWork, onMajor, M.wp_bind, M.wp_zoom, M.wp_wr, M.wp_rd]
  refine ⟨_, hmaj, _, hs2, fyPerm n (fyChoice G state k i) j j, ?_, ?_, ?_, ?_⟩
  · rw [hs1, Buf.ofFn_in (by omega) hb.2, fyPerm_piv]
  · rw [hs1, Buf.ofFn_in (by omega) (by omega)]; simp
  · rw [hs1, Buf.set_apply]; split_ifs
    · simp
    · rw [Buf.ofFn_in (by omega) hb.2]; simp
  · congr 1
    rw [hs1]
    funext p
    rw [Buf.set_apply, Buf.set_apply]
    by_cases h1 : p = fyPiv n (fyChoice G state k i) j
    · subst h1; rw [if_pos rfl, Buf.ofFn_in (by omega) hb.2]
    · rw [if_neg h1]
      by_cases h2 : p = j
      · subst h2; rw [if_pos rfl, Buf.ofFn_in (by omega) (by omega)]
      · rw [if_neg h2]
        simp only [Buf.ofFn, fyPerm_other _ _ _ h2 h1]

theorem fyBlock_spec [One T] [Neg T] {G : Gen N K W R} {state : RNGState N K} {k n i r : Int} {o : SkBufs T} {piv : Buf Int}
    (hlen : 2 ≤ G.len) (hk : 0 ≤ k) (hi : 0 ≤ i) (hir : i < r) (hkn : k ≤ n) (ho : SkAlloc o (r * k))
    (hfit : r * k ≤ intMax 64) (hpiv : ∀ p, 0 ≤ p → p < k → piv p ≠ .none) :
    M.wp (fyBlock G state k n i) { work := Buf.ofFn n id, pivots := piv, out := fyOut G state k n (i * k) o }
      (fun _ m => ∃ piv', (∀ p, 0 ≤ p → p < k → piv' p ≠ .none) ∧
        m = { work := Buf.ofFn n id, pivots := piv', out := fyOut G state k n ((i + 1) * k) o }) := by
  have hmax : intMax 64 < 2 ^ 64 := by decide
  have hle : i * k ≤ r * k := by nlinarith
  have hik : 0 ≤ i * k := mul_nonneg hi hk
  unfold fyBlock
  rw [M.wp_bind]
  refine M.wp_foldI (fun j c m => c = state.counter + ((i * k + j : Int) : ZMod N) ∧ m = fyMem G state k n i o piv j.toNat) hk ?_ ?_ ?_
  · constructor
    · rw [ctrIncr_eq hik (by omega)]; simp
    · simp only [fyMem, Int.toNat_zero, fyPerm, Nat.cast_zero, add_zero]
      rw [Buf.over_zero (le_refl 0)]; rfl
  · rintro j c s hj0 hj1 ⟨rfl, rfl⟩
    obtain ⟨j', rfl⟩ := Int.eq_ofNat_of_zero_le hj0
    refine M.wp_mono (fyStep_spec hlen hi hir hj1 hkn ho hpiv) ?_
    rintro c s ⟨rfl, rfl⟩
    exact ⟨by push_cast; rfl, rfl⟩
  · rintro c s ⟨-, rfl⟩
    refine M.wp_forI (fun t s => s = { work := Buf.ofFn n (fyPerm n (fyChoice G state k i) (k + 1 - t).toNat)
                                       pivots := Buf.over k (fun p => fyPiv n (fyChoice G state k i) p.toNat) piv
                                       out := fyOut G state k n (i * k + k) o }) (by omega) ?_ ?_ ?_
    · simp only [fyMem, Int.toNat_of_nonneg hk]; congr 2; congr 1; congr 1; omega
    · rintro t s ht0 ht1 rfl
      obtain ⟨j, hj⟩ := Int.eq_ofNat_of_zero_le (show 0 ≤ k - t by omega)
      have e : t = k - (j : Int) := by omega
      subst e
      have e1 : (k + 1 - (k - (j : Int))).toNat = j + 1 := by omega
      have e2 : (k + 1 - (k - (j : Int) + 1)).toNat = j := by omega
      rw [e1, e2]
      refine M.wp_mono (fyRestore_spec (j := j) hi (by omega) hkn rfl ?_ rfl) ?_
      · simp only
        rw [Buf.over_in (by omega) (by omega), Int.toNat_natCast]
      · rintro - s rfl; rfl
    · rintro s rfl
      refine ⟨Buf.over k (fun p => fyPiv n (fyChoice G state k i) p.toNat) piv, fun p h0 h1 => ?_, ?_⟩
      rotate_left
      · rw [show (k + 1 - (k + 1)).toNat = 0 by omega, show (i + 1) * k = i * k + k by ring]; rfl
      · exact Buf.over_ne_none (hpiv p h0 h1)

/-- What `repeated_fisher_yates` computes. -/
theorem repeatedFisherYates_spec [One T] [Neg T] {G : Gen N K W R} {state : RNGState N K} {k n r : Int} {o : SkBufs T}
    (hlen : 2 ≤ G.len) (hk : 0 ≤ k) (hkn : k ≤ n) (hr : 0 ≤ r) (ho : SkAlloc o (r * k)) (hfit : r * k ≤ intMax 64) :
    repeatedFisherYates G state k n r o =
      (.ok { state with counter := state.counter + ((r * k : Int) : ZMod N) }, fyOut G state k n (r * k) o) := by
  have hmax : intMax 64 < 2 ^ 64 := by decide
  suffices h : M.wp (repeatedFisherYates G state k n r) o (fun st o' =>
      st = { state with counter := state.counter + ((r * k : Int) : ZMod N) } ∧ o' = fyOut G state k n (r * k) o) by
    obtain ⟨a, s, h1, rfl, rfl⟩ := h; exact h1
  unfold repeatedFisherYates
  rw [M.wp_bind, M.wp_errorIf]
  refine ⟨by omega, ?_⟩
  unfold mkVector
  rw [if_neg (by omega), if_neg (by omega)]
  simp only [M.wp_bind, M.wp_pure, M.wp_onLocal]
  refine M.wp_forI (fun j w => w = Buf.over j (fun p => p) (Buf.fill n 0)) (by omega) ?_ ?_ ?_
  · rw [Buf.over_zero (le_refl 0)]
  · rintro j w hj0 hj1 rfl
    rw [M.wp_wr]
    refine ⟨Buf.over_ne_none ?_, Buf.over_set hj0 _ _⟩
    simp [Buf.fill, hj0, hj1]
  rintro w rfl
  rw [M.wp_get]
  have hw : Buf.over n (fun p => p) (Buf.fill n 0) = Buf.ofFn n id := by
    funext p; simp only [Buf.over, Buf.ofFn, Buf.fill, id]; split_ifs <;> rfl
  rw [hw]
  refine M.wp_forI (fun i m => ∃ piv, (∀ p, 0 ≤ p → p < k → piv p ≠ .none) ∧
        m = { work := Buf.ofFn n id, pivots := piv, out := fyOut G state k n (i * k) o }) hr ?_ ?_ ?_
  · refine ⟨Buf.fill k 0, ?_, ?_⟩
    rotate_left
    · congr 1
      have e1 : (Buf.over 0 fun p => p / k) = (fun b => b) := by funext b; exact Buf.over_zero (le_refl 0) _ _
      have e2 : (Buf.over 0 (fySign (T := T) G state)) = (fun b => b) := by funext b; exact Buf.over_zero (le_refl 0) _ _
      simp only [fyOut, zero_mul, Buf.over_zero (le_refl (0 : Int)), e1, e2, Option.map_id']
    · intro p h0 h1; simp [Buf.fill, h0, h1]
  · rintro i m hi0 hi1 ⟨piv, hp, rfl⟩
    exact fyBlock_spec hlen hk hi0 hi1 hkn ho hfit hp
  · rintro m ⟨piv, hp, rfl⟩
    simp only [M.wp_set, RNGState.incr]
    rw [ctrIncr_eq (mul_nonneg hr hk) (by omega)]
    exact ⟨rfl, trivial⟩

end RB
