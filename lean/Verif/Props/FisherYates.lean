import Verif.Lemmas.FisherYates
import Verif.Props.Dense
import Mathlib.Data.Set.Function
import Mathlib.Data.ZMod.Defs

/-!
# C08 - C10: sampling without replacement

`repeatedFisherYatesPublic G k n r state` is `repeated_fisher_yates(k, n, r, samples, state)`; its state is the array `samples`.
-/

namespace RB
open Spec
variable {N : Nat} {K W R : Type}

theorem fyPublic_spec {G : Gen N K W R} {state : RNGState N K} {k n r : Int} {b : Buf Int}
    (hG : G.Ok) (hk : 0 ≤ k) (hkn : k ≤ n) (hr : 0 ≤ r) (hb : AllocTo b (r * k)) (hfit : r * k ≤ intMax 64) :
    repeatedFisherYatesPublic G k n r state b =
      (.ok { state with counter := state.counter + ((r * k : Int) : ZMod N) }, Buf.over (r * k) (fyIdx G state k n) b) := by
  have hlen : 2 ≤ G.len := by rcases hG with h | h <;> rw [h]; decide
  have := repeatedFisherYates_spec (T := Int) (o := { major := b, minor := none, vals := none }) (state := state) (n := n) hlen hk hkn hr
    ⟨hb, fun b h => (by cases h), fun b h => (by cases h)⟩ hfit
  suffices h : M.wp (repeatedFisherYatesPublic G k n r state) b (fun st b' =>
      st = { state with counter := state.counter + ((r * k : Int) : ZMod N) } ∧ b' = Buf.over (r * k) (fyIdx G state k n) b) by
    obtain ⟨a, s, h1, rfl, rfl⟩ := h; exact h1
  unfold repeatedFisherYatesPublic
  rw [M.wp_bind, M.wp_get, M.wp_bind, M.wp_onLocal]
  refine ⟨_, _, this, ?_⟩
  simp only [M.wp_bind, M.wp_set, M.wp_pure, fyOut, true_and]

theorem fyIdx_block {G : Gen N K W R} {state : RNGState N K} {k n i j : Int} (hj : 0 ≤ j) (hk : j < k) :
    fyIdx G state k n (i * k + j) = fyPerm n (fyChoice G state k i) (j.toNat + 1) j := by
  obtain ⟨d1, d2⟩ := div_block (i := i) hj hk
  unfold fyIdx; rw [d1, d2]

theorem fyIdx_block' {G : Gen N K W R} {state : RNGState N K} {k n i j : Int} (hj : 0 ≤ j) (hk : j < k) (hkn : k ≤ n) :
    fyIdx G state k n (i * k + j) = fyPerm n (fyChoice G state k i) k.toNat j := by
  rw [fyIdx_block hj hk]
  obtain ⟨j', rfl⟩ := Int.eq_ofNat_of_zero_le hj
  rw [Int.toNat_natCast, fyPerm_final (k := k.toNat) (by omega) (by omega)]

/-! ## C08 -/

/-- C08. With `0 <= k <= n`, each of the `r` blocks of `k` consecutive elements consists of pairwise distinct indices in
`{0..n-1}`, and nothing else is written (in particular nothing outside the `r * k` elements is accessed). -/
theorem C08_distinct_in_range {G : Gen N K W R} {state : RNGState N K} {k n r : Int} {b : Buf Int}
    (hG : G.Ok) (hk : 0 ≤ k) (hkn : k ≤ n) (hr : 0 ≤ r) (hb : AllocTo b (r * k)) (hfit : r * k ≤ intMax 64) :
    M.wp (repeatedFisherYatesPublic G k n r state) b (fun _ b' =>
      (∀ i j, 0 ≤ i → i < r → 0 ≤ j → j < k → ∃ x, b' (i * k + j) = .val x ∧ 0 ≤ x ∧ x < n) ∧
      (∀ i j j', 0 ≤ i → i < r → 0 ≤ j → j < k → 0 ≤ j' → j' < k → j ≠ j' → b' (i * k + j) ≠ b' (i * k + j')) ∧
      (∀ p, ¬ (0 ≤ p ∧ p < r * k) → b' p = b p)) := by
  refine ⟨_, _, fyPublic_spec hG hk hkn hr hb hfit, ?_, ?_, ?_⟩
  · intro i j hi0 hi1 hj0 hj1
    have h1 : 0 ≤ i * k + j := by nlinarith
    have h2 : i * k + j < r * k := by nlinarith
    refine ⟨_, Buf.over_in h1 h2, ?_⟩
    rw [fyIdx_block' hj0 hj1 hkn]
    exact fyPerm_range (by omega) hj0 (by omega)
  · intro i j j' hi0 hi1 hj0 hj1 hj0' hj1' hne
    have h1 : 0 ≤ i * k + j := by nlinarith
    have h2 : i * k + j < r * k := by nlinarith
    have h3 : 0 ≤ i * k + j' := by nlinarith
    have h4 : i * k + j' < r * k := by nlinarith
    rw [Buf.over_in h1 h2, Buf.over_in h3 h4, fyIdx_block' hj0 hj1 hkn, fyIdx_block' hj0' hj1' hkn]
    intro h
    exact hne ((fyPerm _ _ _).injective (Cell.val.inj h))
  · intro p hp; exact Buf.over_out hp

/-- C08 (error). If `k > n`, an error is raised and nothing is written. -/
theorem C08_too_many {G : Gen N K W R} {state : RNGState N K} {k n r : Int} {b : Buf Int} (h : n < k) :
    repeatedFisherYatesPublic G k n r state b = (.throw .errorIf, b) := by
  have h1 : repeatedFisherYates (T := Int) G state k n r { major := b, minor := none, vals := none } =
      (.throw .errorIf, { major := b, minor := none, vals := none }) := by
    unfold repeatedFisherYates
    rw [M.bind_throw (e := .errorIf)]
    simp [M.errorIf, Res.errorIf, M.lift, h]
  unfold repeatedFisherYatesPublic
  rw [M.bind_ok (show (M.get : M (Buf Int) _) b = (.ok b, b) from rfl), M.bind_throw]
  unfold M.onLocal; rw [h1]

example : exGen.Ok ∧ (0 : Int) ≤ 3 ∧ (3 : Int) ≤ 5 ∧ (0 : Int) ≤ 4 ∧ AllocTo (Buf.alloc Int (4 * 3)) (4 * 3) ∧ (4 * 3 : Int) ≤ intMax 64 :=
  ⟨Or.inr rfl, by decide, by decide, by decide, allocTo_alloc _, by decide⟩

/-! ## C09 -/

/-- C09 (locality). If two generators (possibly used with different seeds and run lengths) have the same first word modulo the
number of remaining candidates at the counters `seed + i*k, ..., seed + i*k + k-1`, then block `i` is the same. -/
theorem C09_block_local {N' : Nat} {K' W' R' : Type} {G : Gen N K W R} {G' : Gen N' K' W' R'} {state : RNGState N K}
    {state' : RNGState N' K'} {k n r r' i i' : Int} {b b' : Buf Int}
    (hG : G.Ok) (hG' : G'.Ok) (hk : 0 ≤ k) (hkn : k ≤ n) (hi : 0 ≤ i) (hr : i < r) (hi' : 0 ≤ i') (hr' : i' < r')
    (hb : AllocTo b (r * k)) (hb' : AllocTo b' (r' * k)) (hfit : r * k ≤ intMax 64) (hfit' : r' * k ≤ intMax 64)
    (hsame : ∀ j : Int, 0 ≤ j → j < k →
      (G.nat (G.word (state.counter + ((i * k + j : Int) : ZMod N)) state.key 0) : Int) % (n - j) =
      (G'.nat (G'.word (state'.counter + ((i' * k + j : Int) : ZMod N')) state'.key 0) : Int) % (n - j)) :
    M.wp (repeatedFisherYatesPublic G k n r state) b (fun _ c =>
      M.wp (repeatedFisherYatesPublic G' k n r' state') b' (fun _ c' =>
        ∀ j, 0 ≤ j → j < k → c (i * k + j) = c' (i' * k + j))) := by
  refine ⟨_, _, fyPublic_spec hG hk hkn (by omega) hb hfit, _, _, fyPublic_spec hG' hk hkn (by omega) hb' hfit', ?_⟩
  intro j hj0 hj1
  have h1 : 0 ≤ i * k + j := by nlinarith
  have h2 : i * k + j < r * k := by nlinarith
  have h3 : 0 ≤ i' * k + j := by nlinarith
  have h4 : i' * k + j < r' * k := by nlinarith
  rw [Buf.over_in h1 h2, Buf.over_in h3 h4, fyIdx_block' hj0 hj1 hkn, fyIdx_block' hj0 hj1 hkn]
  congr 1
  have : ∀ t : Nat, (t : Int) ≤ k → fyPerm n (fyChoice G state k i) t = fyPerm n (fyChoice G' state' k i') t := by
    intro t ht
    induction t with
    | zero => rfl
    | succ t ih =>
      push_cast at ht
      show fyPerm _ _ t * _ = fyPerm _ _ t * _
      rw [ih (by omega)]
      have := hsame t (by omega) (by omega)
      unfold fyChoice
      rw [this]
  rw [this _ (by omega)]

/-- C09 (prefix). The first `r` blocks of a longer run with the same seed are those of the shorter run. -/
theorem C09_prefix {G : Gen N K W R} {state : RNGState N K} {k n r r' : Int} {b b' : Buf Int}
    (hG : G.Ok) (hk : 0 ≤ k) (hkn : k ≤ n) (hr : 0 ≤ r) (hrr : r ≤ r') (hb : AllocTo b (r * k)) (hb' : AllocTo b' (r' * k))
    (hfit' : r' * k ≤ intMax 64) :
    M.wp (repeatedFisherYatesPublic G k n r state) b (fun _ c =>
      M.wp (repeatedFisherYatesPublic G k n r' state) b' (fun _ c' => ∀ p, 0 ≤ p → p < r * k → c p = c' p)) := by
  have hle : r * k ≤ r' * k := by nlinarith
  refine ⟨_, _, fyPublic_spec hG hk hkn (by omega) hb (by omega), _, _, fyPublic_spec hG hk hkn (by omega) hb' hfit', ?_⟩
  intro p h0 h1
  rw [Buf.over_in h0 h1, Buf.over_in h0 (by omega)]

/-- C09 (composition). Running `r1` blocks, then `r2` blocks from the returned state into the following elements, gives the same
elements and the same state as running `r1 + r2` blocks. -/
theorem C09_compose {G : Gen N K W R} {state : RNGState N K} {k n r1 r2 : Int} {b : Buf Int}
    (hG : G.Ok) (hk : 0 ≤ k) (hkn : k ≤ n) (hr1 : 0 ≤ r1) (hr2 : 0 ≤ r2) (hb : AllocTo b ((r1 + r2) * k))
    (hfit : (r1 + r2) * k ≤ intMax 64) :
    M.wp (repeatedFisherYatesPublic G k n (r1 + r2) state) b (fun st c =>
      M.wp (repeatedFisherYatesPublic G k n r1 state) b (fun st1 c1 =>
        M.wp (repeatedFisherYatesPublic G k n r2 st1) (c1.shift (r1 * k)) (fun st2 c2 =>
          st2 = st ∧ (∀ p, 0 ≤ p → p < r1 * k → c1 p = c p) ∧ (∀ p, 0 ≤ p → c2 p = c (r1 * k + p))))) := by
  have e : (r1 + r2) * k = r1 * k + r2 * k := by ring
  have h1 : 0 ≤ r1 * k := mul_nonneg hr1 hk
  have h2 : 0 ≤ r2 * k := mul_nonneg hr2 hk
  refine ⟨_, _, fyPublic_spec hG hk hkn (by omega) hb hfit, _, _,
    fyPublic_spec hG hk hkn hr1 (fun p h0 h1 => hb p h0 (by omega)) (by omega), _, _,
    fyPublic_spec hG hk hkn hr2 (fun p h0 h1 => ?_) (by omega), ?_, ?_, ?_⟩
  · exact Buf.over_ne_none (hb _ (by omega) (by omega))
  · simp only [RNGState.mk.injEq, and_true]; rw [e]; push_cast; ring
  · intro p h0 h1
    rw [Buf.over_in h0 h1, Buf.over_in h0 (by omega)]
  · intro p h0
    by_cases hp : p < r2 * k
    · rw [Buf.over_in h0 hp, Buf.over_in (by omega) (by omega)]
      congr 1
      have hkp : 0 < k := by
        rcases hk.lt_or_eq with h | h
        · exact h
        · rw [← h] at hp; omega
      unfold fyIdx
      have d1 : (r1 * k + p) % k = p % k := by rw [add_comm, Int.add_mul_emod_self_right]
      have d2 : (r1 * k + p) / k = r1 + p / k := by rw [add_comm, Int.add_mul_ediv_right _ _ (by omega)]; ring
      rw [d1, d2]
      congr 2
      funext j
      unfold fyChoice
      congr 2
      push_cast; ring
    · rw [Buf.over_out (by omega), Buf.over_out (by omega)]
      simp only [Buf.shift]
      rw [Buf.over_out (by omega)]

/-! ## C10 -/

theorem fyPerm_choices_unique {n : Int} {c c' : Nat → Nat} {k : Nat} (hk : (k : Int) ≤ n)
    (h : ∀ j : Nat, j < k → fyPerm n c (j + 1) j = fyPerm n c' (j + 1) j) :
    ∀ j, j ≤ k → (fyPerm n c j = fyPerm n c' j ∧ ∀ t, t < j → (c t : Int) % (n - t) = (c' t : Int) % (n - t)) := by
  intro j hj
  induction j with
  | zero => exact ⟨rfl, fun t ht => absurd ht (by omega)⟩
  | succ j ih =>
    obtain ⟨h1, h2⟩ := ih (by omega)
    have h3 := h j (by omega)
    rw [fyPerm_self, fyPerm_self, h1] at h3
    have h4 := (fyPerm n c' j).injective h3
    unfold fyPiv at h4
    have h5 : (c j : Int) % (n - j) = (c' j : Int) % (n - j) := by omega
    constructor
    · show fyPerm _ _ j * _ = fyPerm _ _ j * _
      rw [h1, h5]
    · intro t ht
      rcases Nat.lt_succ_iff_lt_or_eq.mp ht with h | h
      · exact h2 t h
      · rw [h]; exact h5

theorem fyPerm_reach {n : Int} {k : Nat} (hk : (k : Int) ≤ n) (s : Nat → Int) (hs : ∀ j, j < k → 0 ≤ s j ∧ s j < n)
    (hinj : ∀ i j, i < k → j < k → s i = s j → i = j) :
    ∃ c : Nat → Nat, (∀ j, j < k → (c j : Int) < n - j) ∧ ∀ j, j < k → fyPerm n c (j + 1) j = s j := by
  suffices H : ∀ m, m ≤ k → ∃ c : Nat → Nat, (∀ j, j < m → (c j : Int) < n - j) ∧ ∀ j, j < m → fyPerm n c (j + 1) j = s j from
    H k le_rfl
  intro m hm
  induction m with
  | zero => exact ⟨fun _ => 0, fun j hj => absurd hj (by omega), fun j hj => absurd hj (by omega)⟩
  | succ m ih =>
    obtain ⟨c, h1, h2⟩ := ih (by omega)
    -- the position holding s m
    obtain ⟨q, hq⟩ := (fyPerm n c m).surjective (s m)
    have hsm := hs m (by omega)
    have hqr : 0 ≤ q ∧ q < n := by
      -- the permutation maps the range onto itself
      by_contra hcon
      have hfix : ∀ t : Nat, (t : Int) ≤ n → fyPerm n c t q = q := by
        intro t ht
        induction t with
        | zero => rfl
        | succ t iht =>
          push_cast at ht
          have hb := fyPiv_bounds (n := n) (c := c) (j := t) (by omega)
          rw [fyPerm_other _ _ _ (by omega) (by omega), iht (by omega)]
      rw [hfix m (by omega)] at hq
      omega
    have hqm : (m : Int) ≤ q := by
      by_contra hlt
      obtain ⟨q', rfl⟩ := Int.eq_ofNat_of_zero_le hqr.1
      have hlt' : q' < m := by omega
      rw [fyPerm_final hlt' (by omega), h2 q' hlt'] at hq
      have := hinj q' m (by omega) (by omega) hq
      omega
    obtain ⟨x, hx⟩ := Int.eq_ofNat_of_zero_le (show 0 ≤ q - m by omega)
    have hcong : ∀ (c' : Nat → Nat) t, t ≤ m → (∀ u, u < t → c' u = c u) → fyPerm n c' t = fyPerm n c t := by
      intro c' t
      induction t with
      | zero => intros; rfl
      | succ t iht =>
        intro ht hu
        show fyPerm _ _ t * _ = fyPerm _ _ t * _
        rw [iht (by omega) (fun u h => hu u (by omega)), hu t (by omega)]
    refine ⟨Function.update c m x, ?_, ?_⟩
    · intro j hj
      rcases Nat.lt_succ_iff_lt_or_eq.mp hj with h | h
      · rw [Function.update_of_ne (by omega)]; exact h1 j h
      · subst h; rw [Function.update_self]; omega
    · intro j hj
      rcases Nat.lt_succ_iff_lt_or_eq.mp hj with h | h
      · rw [hcong _ (j + 1) (by omega) (fun u hu => Function.update_of_ne (by omega) _ _)]; exact h2 j h
      · subst h
        rw [fyPerm_self, hcong _ j le_rfl (fun u hu => Function.update_of_ne (by omega) _ _)]
        unfold fyPiv
        rw [Function.update_self, Int.emod_eq_of_lt (by omega) (by omega), ← hx, ← hq]
        congr 1; omega

/-- The choices of the first `k` steps, as a function on all numbers. -/
def fyExt {k : Nat} (c : Fin k → Nat) (j : Nat) : Nat := if h : j < k then c ⟨j, h⟩ else 0

/-- The indices that the choices `c` lead to. -/
def fyMap (k : Nat) (n : Int) (c : Fin k → Nat) (j : Fin k) : Int := fyPerm n (fyExt c) ((j : Nat) + 1) ((j : Nat) : Int)

/-- The choices that the words `x` lead to. -/
def fyMod {k : Nat} (n : Int) (x : Fin k → Nat) (t : Fin k) : Nat := x t % (n - (t : Nat)).toNat

theorem fyIdx_eq_fyMap {k : Nat} {n : Int} (hkn : (k : Int) ≤ n) {G : Gen N K W R} {state : RNGState N K} {i : Int} (j : Fin k) :
    fyIdx G state k n (i * k + (j : Nat)) =
      fyMap k n (fyMod n fun t => G.nat (G.word (state.counter + ((i * k + (t : Nat) : Int) : ZMod N)) state.key 0)) j := by
  have hj : ((j : Nat) : Int) < k := by exact_mod_cast j.2
  rw [fyIdx_block (by omega) hj, Int.toNat_natCast]
  have : ∀ t : Nat, t ≤ k → fyPerm n (fyChoice G state k i) t = fyPerm n (fyExt (fyMod n fun t : Fin k => G.nat (G.word (state.counter +
      ((i * k + (t : Nat) : Int) : ZMod N)) state.key 0))) t := by
    intro t ht
    induction t with
    | zero => rfl
    | succ t ih =>
      show fyPerm _ _ t * _ = fyPerm _ _ t * _
      rw [ih (by omega)]
      congr 3
      simp only [fyExt, fyMod, dif_pos (show t < k by omega), fyChoice]
      push_cast
      rw [Int.toNat_of_nonneg (by omega), Int.emod_emod_of_dvd _ (dvd_refl _)]
  rw [this _ (by omega)]
  rfl

theorem fyMap_bijOn (k : Nat) (n : Int) (hkn : (k : Int) ≤ n) :
    Set.BijOn (fyMap k n) {c | ∀ j : Fin k, (c j : Int) < n - (j : Nat)} {s | Function.Injective s ∧ ∀ j, 0 ≤ s j ∧ s j < n} := by
  have hext : ∀ (c : Fin k → Nat) (j : Fin k), fyExt c j = c j := fun c j => by simp [fyExt]
  refine ⟨?_, ?_, ?_⟩
  · intro c hc
    refine ⟨?_, ?_⟩
    · intro i j hij
      simp only [fyMap] at hij
      rw [← fyPerm_final (k := k) i.2 hkn, ← fyPerm_final (k := k) j.2 hkn] at hij
      have := (fyPerm n (fyExt c) k).injective hij
      exact Fin.ext (by exact_mod_cast this)
    · intro j
      have := j.2
      exact fyPerm_range (by push_cast; omega) (by omega) (by omega)
  · intro c hc c' hc' h
    have hu := (fyPerm_choices_unique (n := n) (c := fyExt c) (c' := fyExt c') hkn
      (fun j hj => congrFun h ⟨j, hj⟩) k le_rfl).2
    funext j
    have h1 := hu j j.2
    rw [hext, hext] at h1
    have a := hc j
    have a' := hc' j
    rw [Int.emod_eq_of_lt (by omega) a, Int.emod_eq_of_lt (by omega) a'] at h1
    exact_mod_cast h1
  · rintro s ⟨hinj, hs⟩
    obtain ⟨c, h1, h2⟩ := fyPerm_reach hkn (fun j => if h : j < k then s ⟨j, h⟩ else 0)
      (fun j hj => by simp only [dif_pos hj]; exact hs _)
      (fun i j hi hj hij => by
        simp only [dif_pos hi, dif_pos hj] at hij
        have := hinj hij
        exact congrArg Fin.val this)
    refine ⟨fun j => c j, fun j => h1 j j.2, ?_⟩
    funext j
    have h3 := h2 j j.2
    simp only [dif_pos j.2] at h3
    simp only [fyMap]
    rw [← h3]
    have : ∀ t : Nat, t ≤ k → fyPerm n (fyExt fun j : Fin k => c j) t = fyPerm n c t := by
      intro t ht
      induction t with
      | zero => rfl
      | succ t ih =>
        show fyPerm _ _ t * _ = fyPerm _ _ t * _
        rw [ih (by omega)]
        simp only [fyExt, dif_pos (show t < k by omega)]
    rw [this _ (by omega)]

/-- C10. There is one function `F`, from sequences of choices to sequences of indices, such that (1) every block the program
produces is `F` applied to the block's choices, where the choice of step `j` is the generator word modulo `n - j`, and (2) `F`
is a bijection from the sequences of choices (`c j` out of `n - j` possibilities) onto the sequences of `k` distinct indices in
`{0..n-1}`. -/
theorem C10_bijection (k : Nat) (n : Int) (hkn : (k : Int) ≤ n) :
    ∃ F : (Fin k → Nat) → (Fin k → Int),
      (∀ (N : Nat) (K W R : Type) (G : Gen N K W R) (state : RNGState N K) (r i : Int) (b : Buf Int), G.Ok → 0 ≤ i → i < r →
        AllocTo b (r * k) → r * k ≤ intMax 64 →
        M.wp (repeatedFisherYatesPublic G k n r state) b (fun _ b' => ∀ j : Fin k, b' (i * k + (j : Nat)) =
          .val (F (fun t => (G.nat (G.word (state.counter + ((i * k + (t : Nat) : Int) : ZMod N)) state.key 0)) % (n - (t : Nat)).toNat) j))) ∧
      Set.BijOn F {c | ∀ j : Fin k, (c j : Int) < n - (j : Nat)}
        {s | Function.Injective s ∧ ∀ j, 0 ≤ s j ∧ s j < n} := by
  refine ⟨fyMap k n, ?_, fyMap_bijOn k n hkn⟩
  intro N K W R G state r i b hG hi hir hb hfit
  refine ⟨_, _, fyPublic_spec hG (by omega) hkn (by omega) hb hfit, ?_⟩
  intro j
  have hj : ((j : Nat) : Int) < k := by exact_mod_cast j.2
  have h1 : 0 ≤ i * k + (j : Nat) := by nlinarith
  have h2 : i * k + (j : Nat) < r * k := by nlinarith
  rw [Buf.over_in h1 h2, fyIdx_eq_fyMap hkn]
  rfl

/-- The number of choice sequences is `n (n-1) ... (n-k+1)`; for instance with k = 2, n = 3, the choices (2, 1) give (2, 0). -/
example : fyPerm 3 (fun j => 2 - j) 1 0 = 2 ∧ fyPerm 3 (fun j => 2 - j) 2 1 = 0 := by decide

end RB
