import Verif.Model.SparseSkops
import Verif.Lemmas.FisherYates
import Verif.Lemmas.Sampling
import Verif.Spec.Sparse
import Mathlib.Data.List.Nodup
import Mathlib.Data.Nat.Cast.Defs
import Mathlib.Algebra.BigOperators.Group.Finset.Basic

/-! # Lemmas about sparse sketching operators -/

namespace RB
open Spec
variable {N : Nat} {K W R T V : Type}

/-! ## The map -/

variable {κ : Type} [DecidableEq κ]

theorem mapGet_set (m : List (κ × V)) (k k' : κ) (v : V) :
    mapGet (mapSet m k v) k' = if k' = k then some v else mapGet m k' := by
  induction m with
  | nil =>
    simp only [mapSet, mapGet]
    split_ifs <;> simp_all
  | cons e m ih =>
    obtain ⟨a, w⟩ := e
    simp only [mapSet, mapGet]
    split_ifs with h1 h2 h3 h4 <;> simp only [mapGet] <;> (try rw [ih]) <;> split_ifs <;> first | rfl | (exfalso; grind)

theorem keys_set (m : List (κ × V)) (k : κ) (v : V) :
    (mapSet m k v).map Prod.fst = if k ∈ m.map Prod.fst then m.map Prod.fst else m.map Prod.fst ++ [k] := by
  induction m with
  | nil => simp [mapSet]
  | cons e m ih =>
    obtain ⟨a, w⟩ := e
    simp only [mapSet]
    by_cases h : a = k
    · subst h; simp
    · rw [if_neg h, List.map_cons, ih]
      have h' : ¬ k = a := fun hh => h hh.symm
      by_cases h2 : k ∈ m.map Prod.fst
      · rw [if_pos h2, if_pos (by simp only [List.map_cons, List.mem_cons]; exact Or.inr h2), List.map_cons]
      · rw [if_neg h2, if_neg (by simp only [List.map_cons, List.mem_cons]; exact fun hh => hh.elim h' h2), List.map_cons]; rfl

theorem mapGet_none {m : List (κ × V)} {k : κ} : mapGet m k = none ↔ k ∉ m.map Prod.fst := by
  induction m with
  | nil => simp [mapGet]
  | cons e m ih =>
    obtain ⟨a, w⟩ := e
    simp only [mapGet, List.map_cons, List.mem_cons, not_or]
    by_cases h : a = k
    · subst h; simp
    · rw [if_neg h, ih]; exact ⟨fun hh => ⟨fun h' => h h'.symm, hh⟩, fun hh => hh.2⟩

theorem mapGet_mem {m : List (κ × V)} (hm : (m.map Prod.fst).Nodup) {e : κ × V} (he : e ∈ m) : mapGet m e.1 = some e.2 := by
  induction m with
  | nil => cases he
  | cons d m ih =>
    rw [List.map_cons, List.nodup_cons] at hm
    simp only [mapGet]
    rcases List.mem_cons.mp he with h | h
    · subst h; rw [if_pos rfl]
    · rw [if_neg, ih hm.2 h]
      intro hd
      exact hm.1 (hd ▸ List.mem_map_of_mem h)

/-! ## Merging -/

theorem occurrences_succ (x : Int → Int) {k : Int} (hk : 0 ≤ k) (l : Int) :
    occurrences x (k + 1) l = occurrences x k l + if x k = l then 1 else 0 := by
  unfold occurrences
  rw [show (k + 1).toNat = k.toNat + 1 by omega, Finset.range_add_one, Finset.filter_insert]
  have : ((k.toNat : Nat) : Int) = k := by omega
  rw [this]
  split_ifs
  · rw [Finset.card_insert_of_notMem (by simp)]
  · rfl

theorem occurrences_pos {x : Int → Int} {k l : Int} : 0 < occurrences x k l ↔ ∃ t, 0 ≤ t ∧ t < k ∧ x t = l := by
  unfold occurrences
  rw [Finset.card_pos]
  constructor
  · rintro ⟨t, ht⟩
    simp only [Finset.mem_filter, Finset.mem_range] at ht
    exact ⟨t, by omega, by omega, ht.2⟩
  · rintro ⟨t, h0, h1, h2⟩
    refine ⟨t.toNat, ?_⟩
    simp only [Finset.mem_filter, Finset.mem_range]
    refine ⟨by omega, ?_⟩
    rw [show ((t.toNat : Nat) : Int) = t by omega]; exact h2

/-- The maps after `j` samples. -/
structure MergeInv [Semiring T] (x : Int → Int) (s : Int → T) (j : Int) (maps : List (Int × T) × List (Int × T)) : Prop where
  keys : maps.1.map Prod.fst = maps.2.map Prod.fst
  nodup : (maps.1.map Prod.fst).Nodup
  mem : ∀ l, l ∈ maps.1.map Prod.fst ↔ ∃ t, 0 ≤ t ∧ t < j ∧ x t = l
  cnt : ∀ l, l ∈ maps.1.map Prod.fst → mapGet maps.1 l = some ((occurrences x j l : Nat) : T)
  scale : ∀ l, l ∈ maps.1.map Prod.fst → ∃ t, 0 ≤ t ∧ t < j ∧ x t = l ∧ (∀ t', 0 ≤ t' → t' < t → x t' ≠ l) ∧ mapGet maps.2 l = some (s t)
  le : (maps.1.length : Int) ≤ j
  distinct : (maps.1.length : Int) = j → ∀ t t', 0 ≤ t → t < t' → t' < j → x t ≠ x t'

theorem mergeInv_zero [Semiring T] (x : Int → Int) (s : Int → T) : MergeInv x s 0 ([], []) := by
  refine ⟨rfl, List.nodup_nil, ?_, ?_, ?_, ?_, ?_⟩
  · intro l; simp; intro t h0 h1; omega
  · intro l h; cases h
  · intro l h; cases h
  · simp
  · intro _ t t' h0 h1 h2; omega

theorem mergeInv_step [Semiring T] {x : Int → Int} {s : Int → T} {j : Int} {maps : List (Int × T) × List (Int × T)} (hj : 0 ≤ j)
    (h : MergeInv x s j maps) : MergeInv x s (j + 1) (lasoCount (x j) (s j) maps) := by
  obtain ⟨C, S⟩ := maps
  obtain ⟨hk, hn, hm, hc, hs, hl, hd⟩ := h
  simp only at hk hn hm hc hs hl hd
  have hlen := congrArg List.length hk
  simp only [List.length_map] at hlen
  unfold lasoCount
  simp only
  by_cases hin : x j ∈ C.map Prod.fst
  · obtain ⟨t0, ht0, ht1, ht2, ht3, ht4⟩ := hs _ hin
    rw [ht4]
    have hkeys : (mapSet C (x j) ((mapGet C (x j)).getD 0 + 1)).map Prod.fst = C.map Prod.fst := by rw [keys_set, if_pos hin]
    have hlen' := congrArg List.length hkeys
    simp only [List.length_map] at hlen'
    refine ⟨by simp only; rw [hkeys, hk], by simp only; rw [hkeys]; exact hn, ?_, ?_, ?_, ?_, ?_⟩
    · intro l; simp only; rw [hkeys, hm]
      constructor
      · rintro ⟨t, h0, h1, h2⟩; exact ⟨t, h0, by omega, h2⟩
      · rintro ⟨t, h0, h1, h2⟩
        by_cases htj : t < j
        · exact ⟨t, h0, htj, h2⟩
        · have : t = j := by omega
          subst this; rw [← h2]; exact (hm _).mp hin
    · intro l; simp only; rw [hkeys]; intro hl'
      rw [mapGet_set, occurrences_succ x hj]
      by_cases hlx : l = x j
      · rw [if_pos hlx, if_pos hlx.symm, hc _ hin, hlx]; simp
      · rw [if_neg hlx, if_neg (fun h => hlx h.symm), hc _ hl', Nat.add_zero]
    · intro l; simp only; rw [hkeys]; intro hl'
      obtain ⟨t, h0, h1, h2⟩ := hs _ hl'
      exact ⟨t, h0, by omega, h2⟩
    · simp only; omega
    · simp only; intro hh; omega
  · have hnone : mapGet S (x j) = none := mapGet_none.mpr (hk ▸ hin)
    rw [hnone]
    simp only
    have hkeys : (mapSet C (x j) (1 : T)).map Prod.fst = C.map Prod.fst ++ [x j] := by rw [keys_set, if_neg hin]
    have hkeys2 : (mapSet S (x j) (s j)).map Prod.fst = C.map Prod.fst ++ [x j] := by rw [keys_set, ← hk, if_neg hin]
    have hlen' := congrArg List.length hkeys
    simp only [List.length_map, List.length_append, List.length_singleton] at hlen'
    have hocc : occurrences x j (x j) = 0 := by
      by_contra hcon
      exact hin ((hm _).mpr (occurrences_pos.mp (Nat.pos_of_ne_zero hcon)))
    have hnew : ∀ l, l ∈ C.map Prod.fst → l ≠ x j := fun l h1 h2 => hin (h2 ▸ h1)
    refine ⟨by simp only; rw [hkeys, hkeys2], ?_, ?_, ?_, ?_, ?_, ?_⟩
    · simp only; rw [hkeys]; exact List.nodup_append.mpr ⟨hn, by simp, by intro a ha b hb; simp only [List.mem_singleton] at hb; rw [hb]; exact hnew a ha⟩
    · intro l; simp only; rw [hkeys, List.mem_append, List.mem_singleton, hm]
      constructor
      · rintro (⟨t, h0, h1, h2⟩ | h)
        · exact ⟨t, h0, by omega, h2⟩
        · exact ⟨j, hj, by omega, h.symm⟩
      · rintro ⟨t, h0, h1, h2⟩
        by_cases htj : t < j
        · exact Or.inl ⟨t, h0, htj, h2⟩
        · have : t = j := by omega
          subst this; exact Or.inr h2.symm
    · intro l; simp only; rw [hkeys, List.mem_append, List.mem_singleton, mapGet_set, occurrences_succ x hj]
      rintro (h | h)
      · rw [if_neg (hnew l h), if_neg (fun hh => hnew l h hh.symm), hc _ h, Nat.add_zero]
      · rw [if_pos h, if_pos h.symm, h, hocc]; simp
    · intro l; simp only; rw [hkeys, List.mem_append, List.mem_singleton, mapGet_set]
      rintro (h | h)
      · rw [if_neg (hnew l h)]
        obtain ⟨t, h0, h1, h2⟩ := hs _ h
        exact ⟨t, h0, by omega, h2⟩
      · rw [if_pos h]
        refine ⟨j, hj, by omega, h.symm, ?_, rfl⟩
        intro t' h0 h1 h2
        exact hin ((hm _).mpr ⟨t', h0, h1, h2.trans h⟩)
    · simp only; push_cast [hlen']; omega
    · simp only; intro hh t t' h0 h1 h2
      by_cases htj : t' < j
      · exact hd (by omega) t t' h0 h1 htj
      · have : t' = j := by omega
        subst this
        intro hx
        exact hin ((hm _).mpr ⟨t, h0, h1, hx⟩)

/-- The arrays of one long-axis vector: `l` is stored from position `off`. -/
def VecAt (b : LaxBufs T) (off : Int) (l : List (Int × T)) : Prop :=
  ∀ (p : Nat) (h : p < l.length), b.lax (off + p) = .val l[p].1 ∧ b.vals (off + p) = .val l[p].2

theorem lasoWrite_spec [Zero T] [Mul T] {sqrt : T → T} {scale : List (Int × T)} {off : Int} {l : List (Int × T)} {count : Int}
    {b : LaxBufs T} (hl : ∀ p : Nat, p < l.length → b.lax (off + count + p) ≠ .none)
    (hv : ∀ p : Nat, p < l.length → b.vals (off + count + p) ≠ .none) :
    M.wp (lasoWrite sqrt scale off l count) b (fun _ b' =>
      VecAt b' (off + count) (l.map fun e => (e.1, sqrt e.2 * (mapGet scale e.1).getD 0)) ∧ b'.sax = b.sax ∧
      ∀ p, ¬ (off + count ≤ p ∧ p < off + count + l.length) → b'.lax p = b.lax p ∧ b'.vals p = b.vals p) := by
  induction l generalizing count b with
  | nil =>
    simp only [lasoWrite, M.wp_pure]
    exact ⟨fun p h => absurd h (by simp), by trivial, fun p _ => by simp⟩
  | cons e l ih =>
    obtain ⟨ell, c⟩ := e
    simp only [lasoWrite, onLax, onLVals, M.wp_bind, M.wp_zoom, M.wp_wr]
    have h0l := hl 0 (by simp)
    have h0v := hv 0 (by simp)
    simp only [Nat.cast_zero, add_zero] at h0l h0v
    refine ⟨h0l, h0v, ?_⟩
    refine M.wp_mono (ih (count := count + 1) ?_ ?_) ?_
    · intro p hp
      simp only
      rw [Buf.set_ne (by omega)]
      have := hl (p + 1) (by simpa using hp)
      rw [show off + (count + 1) + (p : Int) = off + count + ((p + 1 : Nat) : Int) by push_cast; omega]
      exact this
    · intro p hp
      simp only
      rw [Buf.set_ne (by omega)]
      have := hv (p + 1) (by simpa using hp)
      rw [show off + (count + 1) + (p : Int) = off + count + ((p + 1 : Nat) : Int) by push_cast; omega]
      exact this
    · rintro - b' ⟨h1, h2, h3⟩
      refine ⟨?_, h2, ?_⟩
      · intro p hp
        cases p with
        | zero =>
          have := h3 (off + count) (by omega)
          simp only [Nat.cast_zero, add_zero]
          rw [this.1, this.2]
          simp
        | succ p =>
          have := h1 p (by simpa using hp)
          rw [show off + count + ((p + 1 : Nat) : Int) = off + (count + 1) + (p : Int) by push_cast; omega]
          simpa using this
      · intro p hp
        simp only [List.length_cons, Nat.cast_add, Nat.cast_one] at hp
        have := h3 p (by omega)
        rw [this.1, this.2]
        simp only
        rw [Buf.set_ne (by omega), Buf.set_ne (by omega)]
        trivial

/-- Merging one vector. -/
theorem lasoMerge_spec [Semiring T] {sqrt : T → T} {order : List (Int × T) → List (Int × T)} {k off i : Int} {x : Int → Int} {s : Int → T}
    {b : LaxBufs T} (hsqrt : sqrt 1 = 1) (hord : ∀ l, (order l).Perm l) (hk : 0 ≤ k)
    (hx : ∀ t, 0 ≤ t → t < k → b.lax (off + t) = .val (x t)) (hs : ∀ t, 0 ≤ t → t < k → b.vals (off + t) = .val (s t))
    (ha : ∀ t, 0 ≤ t → t < k → b.sax (off + t) ≠ .none) :
    M.wp (lasoMerge sqrt order k off i) b (fun r b' => ∃ out, Merged sqrt k x s out ∧ r = (out.length : Int) ∧ r ≤ k ∧ VecAt b' off out ∧
      (∀ t, 0 ≤ t → t < k → b'.sax (off + t) = .val i) ∧
      (∀ p, b.lax p ≠ .none → b'.lax p ≠ .none) ∧ (∀ p, b.vals p ≠ .none → b'.vals p ≠ .none) ∧
      (∀ p, ¬ (off ≤ p ∧ p < off + k) → b'.lax p = b.lax p ∧ b'.sax p = b.sax p ∧ b'.vals p = b.vals p)) := by
  unfold lasoMerge
  rw [M.wp_bind]
  refine M.wp_foldI (Inv := fun j maps b' => MergeInv x s j maps ∧ b'.lax = b.lax ∧ b'.vals = b.vals ∧
    b'.sax = Buf.overAt off j (fun _ => i) b.sax) hk ⟨mergeInv_zero x s, rfl, rfl, (Buf.overAt_zero _ _ _).symm⟩ ?_ ?_
  · rintro j maps b' h0 h1 ⟨hinv, e1, e2, e3⟩
    simp only [onSax, onLax, onLVals, M.wp_bind, M.wp_zoom, M.wp_wr, M.wp_rd, M.wp_pure]
    refine ⟨by rw [e3]; exact Buf.overAt_ne_none (ha j h0 h1), x j, by rw [e1]; exact hx j h0 h1, s j, by rw [e2]; exact hs j h0 h1,
      mergeInv_step h0 hinv, e1, e2, by rw [e3]; exact Buf.overAt_set h0 _ _⟩
  · rintro ⟨C, S⟩ b' ⟨hinv, e1, e2, e3⟩
    simp only [M.wp_bind, M.wp_when, M.wp_pure]
    have hlen := congrArg List.length hinv.keys
    simp only [List.length_map] at hlen
    have hle := hinv.le
    simp only at hle
    constructor
    · intro hlt
      have hperm := hord C
      have hpl : (order C).length = C.length := hperm.length_eq
      refine M.wp_mono (lasoWrite_spec ?_ ?_) ?_
      · intro p hp; rw [e1, show off + 0 + (p : Int) = off + p by omega, hx p (by omega) (by omega)]; simp
      · intro p hp; rw [e2, show off + 0 + (p : Int) = off + p by omega, hs p (by omega) (by omega)]; simp
      · rintro - b'' ⟨g1, g2, g3⟩
        rw [add_zero] at g1 g3
        rw [hpl] at g3
        refine ⟨(order C).map fun e => (e.1, sqrt e.2 * (mapGet S e.1).getD 0), ⟨?_, ?_, ?_⟩, by simp [hpl], hle, g1, ?_, ?_, ?_, ?_⟩
        · have := hinv.nodup
          simp only [List.map_map]
          exact ((hperm.map Prod.fst).nodup_iff).mpr this
        · intro e he
          simp only [List.mem_map] at he
          obtain ⟨d, hd, rfl⟩ := he
          have hd' := hperm.mem_iff.mp hd
          have hdk : d.1 ∈ C.map Prod.fst := List.mem_map_of_mem hd'
          have hc := hinv.cnt d.1 hdk
          have hc' := mapGet_mem (m := C) hinv.nodup hd'
          simp only at hc
          rw [hc', Option.some.injEq] at hc
          obtain ⟨t, t0, t1, t2, t3, t4⟩ := hinv.scale d.1 hdk
          simp only at t4
          exact ⟨t, t0, t1, t2, t3, by simp only; rw [t4, hc]; rfl⟩
        · intro t t0 t1
          have := (hinv.mem (x t)).mpr ⟨t, t0, t1, rfl⟩
          simp only [List.map_map]
          exact (hperm.map Prod.fst).mem_iff.mpr this
        · intro t t0 t1; rw [g2, e3]; exact Buf.overAt_in t0 t1
        · intro p hp
          by_cases hpp : off ≤ p ∧ p < off + (C.length : Int)
          · have := (g1 (p - off).toNat (by simp only [List.length_map]; omega)).1
            rw [show off + ((p - off).toNat : Int) = p by omega] at this
            rw [this]; simp
          · rw [(g3 p hpp).1, e1]; exact hp
        · intro p hp
          by_cases hpp : off ≤ p ∧ p < off + (C.length : Int)
          · have := (g1 (p - off).toNat (by simp only [List.length_map]; omega)).2
            rw [show off + ((p - off).toNat : Int) = p by omega] at this
            rw [this]; simp
          · rw [(g3 p hpp).2, e2]; exact hp
        · intro p hp
          have := g3 p (by omega)
          rw [this.1, this.2, g2, e1, e2, e3]
          exact ⟨rfl, Buf.overAt_out hp, rfl⟩
    · intro hge
      have heq : (C.length : Int) = k := by omega
      have hdist := hinv.distinct heq
      have hinj : ∀ t t', 0 ≤ t → t < k → 0 ≤ t' → t' < k → x t = x t' → t = t' := by
        intro t t' a b c d e
        rcases lt_trichotomy t t' with h | h | h
        · exact absurd e (hdist t t' a h d)
        · exact h
        · exact absurd e.symm (hdist t' t c h b)
      have hocc1 : ∀ t, 0 ≤ t → t < k → occurrences x k (x t) = 1 := by
        intro t t0 t1
        unfold occurrences
        rw [Finset.card_eq_one]
        refine ⟨t.toNat, ?_⟩
        ext u
        simp only [Finset.mem_filter, Finset.mem_range, Finset.mem_singleton]
        constructor
        · rintro ⟨u1, u2⟩
          have := hinj u t (by omega) (by omega) t0 t1 u2
          omega
        · rintro rfl
          exact ⟨by omega, by rw [show ((t.toNat : Nat) : Int) = t by omega]⟩
      refine ⟨(List.range k.toNat).map fun t : Nat => (x t, s t), ⟨?_, ?_, ?_⟩, by simp; omega, by omega, ?_, ?_, ?_, ?_, ?_⟩
      · rw [List.map_map]
        apply List.Nodup.map_on _ List.nodup_range
        intro a ha b hb hab
        simp only [List.mem_range] at ha hb
        have := hinj a b (by omega) (by omega) (by omega) (by omega) hab
        omega
      · intro e he
        simp only [List.mem_map, List.mem_range] at he
        obtain ⟨t, t1, rfl⟩ := he
        refine ⟨t, by omega, by omega, rfl, ?_, ?_⟩
        · intro t' h0 h1
          exact hdist t' t h0 h1 (by omega)
        · simp only
          rw [hocc1 t (by omega) (by omega), Nat.cast_one, hsqrt, one_mul]
      · intro t t0 t1
        simp only [List.map_map, List.mem_map, List.mem_range]
        exact ⟨t.toNat, by omega, by simp only [Function.comp]; rw [show ((t.toNat : Nat) : Int) = t by omega]⟩
      · intro p hp
        simp only [List.length_map, List.length_range] at hp
        rw [e1, e2, hx p (by omega) (by omega), hs p (by omega) (by omega)]
        simp
      · intro t t0 t1; rw [e3]; exact Buf.overAt_in t0 t1
      · intro p hp; rw [e1]; exact hp
      · intro p hp; rw [e2]; exact hp
      · intro p hp; rw [e1, e2, e3]; exact ⟨rfl, Buf.overAt_out hp, rfl⟩

/-! ## Long-axis operators -/

/-- Counters used by one long-axis vector. -/
def lasoStride (len k : Int) : Int := countersPerVector len (2 * k)

/-- Sample `t` of long-axis vector `i`. -/
def lasoIdx [Field R] [LinearOrder R] [FloorRing R] (G : Gen N K W R) (seed : RNGState N K) (n k i t : Int) : Int :=
  unifSample G (advance seed (i * lasoStride G.len k)) n true t

/-- Sign `t` of long-axis vector `i`. -/
def lasoSign [Field R] [LinearOrder R] [One T] [Neg T] (G : Gen N K W R) (seed : RNGState N K) (k i t : Int) : T :=
  unifSign G (advance seed (i * lasoStride G.len k)) t

/-- The triples (short index, long index, value) after `i` long-axis vectors. -/
inductive LasoRun [Field R] [LinearOrder R] [FloorRing R] [Ring T] (G : Gen N K W R) (sqrt : T → T) (seed : RNGState N K) (n k : Int) :
    Nat → List (Int × Int × T) → Prop
  | zero : LasoRun G sqrt seed n k 0 []
  | succ {i : Nat} {E : List (Int × Int × T)} {out : List (Int × T)} : LasoRun G sqrt seed n k i E →
      Merged sqrt k (lasoIdx G seed n k i) (lasoSign G seed k i) out → (out.length : Int) ≤ k →
      LasoRun G sqrt seed n k (i + 1) (E ++ out.map fun e => ((i : Int), e.1, e.2))

theorem advance_advance (st : RNGState N K) (a b : Int) : advance (advance st a) b = advance st (a + b) := by
  unfold advance; simp only; rw [Int.cast_add, add_assoc]

theorem advance_zero (st : RNGState N K) : advance st 0 = st := by unfold advance; simp

/-- The three arrays hold the triples `E`. -/
def TripAt (b : LaxBufs T) (E : List (Int × Int × T)) : Prop :=
  ∀ (p : Nat) (h : p < E.length), b.sax p = .val E[p].1 ∧ b.lax p = .val E[p].2.1 ∧ b.vals p = .val E[p].2.2

theorem fillLaso_spec [Field R] [LinearOrder R] [FloorRing R] [Ring T] {G : Gen N K W R} {sqrt : T → T}
    {order : Int → List (Int × T) → List (Int × T)} {D : SparseDist} {seed : RNGState N K} {b : LaxBufs T} (hG : G.Ok)
    (hsqrt : sqrt 1 = 1) (hord : ∀ i l, (order i l).Perm l) (hk : 0 ≤ D.vecNnz) (hm : 0 ≤ D.dimMinor)
    (ha : ∀ p, 0 ≤ p → p < D.dimMinor * D.vecNnz → b.lax p ≠ .none ∧ b.sax p ≠ .none ∧ b.vals p ≠ .none) :
    M.wp (fillLaso G sqrt order D seed) b (fun r b' => ∃ E, LasoRun G sqrt seed D.dimMajor D.vecNnz D.dimMinor.toNat E ∧
      r.1 = E.length ∧ r.2 = advance seed (D.dimMinor * lasoStride G.len D.vecNnz) ∧ TripAt b' E ∧ (E.length : Int) ≤ D.dimMinor * D.vecNnz ∧
      (∀ p, 0 ≤ p → p < D.dimMinor * D.vecNnz → b'.lax p ≠ .none ∧ b'.sax p ≠ .none ∧ b'.vals p ≠ .none) ∧
      ∀ p, ¬ (0 ≤ p ∧ p < D.dimMinor * D.vecNnz) → b'.lax p = b.lax p ∧ b'.sax p = b.sax p ∧ b'.vals p = b.vals p) := by
  unfold fillLaso
  refine M.wp_foldI (Inv := fun i acc b' => ∃ E, LasoRun G sqrt seed D.dimMajor D.vecNnz i.toNat E ∧
      acc.1 = E.length ∧ acc.2 = advance seed (i * lasoStride G.len D.vecNnz) ∧ TripAt b' E ∧ (E.length : Int) ≤ i * D.vecNnz ∧
      (∀ p, 0 ≤ p → p < D.dimMinor * D.vecNnz → b'.lax p ≠ .none ∧ b'.sax p ≠ .none ∧ b'.vals p ≠ .none) ∧
      ∀ p, ¬ (0 ≤ p ∧ p < D.dimMinor * D.vecNnz) → b'.lax p = b.lax p ∧ b'.sax p = b.sax p ∧ b'.vals p = b.vals p) hm ?_ ?_ ?_
  · exact ⟨[], LasoRun.zero, rfl, by rw [zero_mul, advance_zero], fun p h => absurd h (by simp), by simp, ha, fun p _ => ⟨rfl, rfl, rfl⟩⟩
  · rintro i ⟨off, st⟩ b' h0 h1 ⟨E, hrun, hoff, hst, htrip, hle, hal, hout⟩
    simp only at hoff hst
    have hbound : off + D.vecNnz ≤ D.dimMinor * D.vecNnz := by nlinarith
    have hoff0 : 0 ≤ off := by omega
    rw [M.wp_bind, M.wp_zoom]
    refine ⟨_, _, sampleUniform_spec hG hk ?_ ?_, ?_⟩
    · intro p p0 p1; exact (hal (off + p) (by omega) (by omega)).1
    · intro _ p p0 p1; exact (hal (off + p) (by omega) (by omega)).2.2
    simp only [if_true]
    rw [M.wp_bind]
    refine M.wp_mono (lasoMerge_spec (x := lasoIdx G seed D.dimMajor D.vecNnz i) (s := lasoSign G seed D.vecNnz i) hsqrt (hord i) hk ?_ ?_ ?_) ?_
    · intro t t0 t1; simp only; rw [Buf.overAt_in t0 t1, hst]; rfl
    · intro t t0 t1; simp only; rw [Buf.overAt_in t0 t1, hst]; rfl
    · intro t t0 t1; exact (hal (off + t) (by omega) (by omega)).2.1
    · rintro r b'' ⟨out, hmer, hr, hrk, hvec, hsax, hl', hv', hrest⟩
      rw [M.wp_pure]
      refine ⟨E ++ out.map fun e => ((i : Int), e.1, e.2), ?_, ?_, ?_, ?_, ?_, ?_, ?_⟩
      · have := LasoRun.succ (i := i.toNat) (out := out) hrun (by rw [show ((i.toNat : Nat) : Int) = i by omega]; exact hmer) (by omega)
        rw [show ((i.toNat : Nat) : Int) = i by omega] at this
        rw [show (i + 1).toNat = i.toNat + 1 by omega]
        exact this
      · simp only [List.length_append, List.length_map]; push_cast; omega
      · simp only; rw [hst, advance_advance, add_mul, one_mul]; rfl
      · intro p hp
        simp only [List.length_append, List.length_map] at hp
        by_cases hpE : p < E.length
        · have := htrip p hpE
          rw [List.getElem_append_left hpE]
          have hr := hrest p (by omega)
          rw [hr.1, hr.2.1, hr.2.2]
          simp only
          rw [Buf.overAt_out (by omega), Buf.overAt_out (by omega)]
          exact this
        · rw [List.getElem_append_right (by omega), List.getElem_map]
          have h1 := hvec (p - E.length) (by omega)
          have h2 := hsax (p - E.length) (by omega) (by omega)
          rw [hoff, show (E.length : Int) + ((p - E.length : Nat) : Int) = p by omega] at h1
          rw [hoff, show (E.length : Int) + ((p : Int) - (E.length : Int)) = p by omega] at h2
          exact ⟨h2, h1.1, h1.2⟩
      · simp only [List.length_append, List.length_map]; push_cast; nlinarith
      · intro p p0 p1
        have := hal p p0 p1
        refine ⟨hl' p (Buf.overAt_ne_none this.1), ?_, hv' p (Buf.overAt_ne_none this.2.2)⟩
        by_cases hp : off ≤ p ∧ p < off + D.vecNnz
        · have h2 := hsax (p - off) (by omega) (by omega)
          rw [show off + (p - off) = p by omega] at h2
          rw [h2]; simp
        · rw [(hrest p hp).2.1]; exact this.2.1
      · intro p hp
        have h1 := hrest p (by omega)
        have h2 := hout p hp
        rw [h1.1, h1.2.1, h1.2.2]
        simp only
        rw [Buf.overAt_out (by omega), Buf.overAt_out (by omega)]
        exact h2
  · rintro ⟨r1, r2⟩ b' ⟨E, h1, h2, h3, h4, h5, h6, h7⟩
    exact ⟨E, h1, h2, h3, h4, h5, h6, h7⟩

theorem LasoRun.mem_short [Field R] [LinearOrder R] [FloorRing R] [Ring T] {G : Gen N K W R} {sqrt : T → T} {seed : RNGState N K} {n k : Int}
    {i : Nat} {E : List (Int × Int × T)} (h : LasoRun G sqrt seed n k i E) : ∀ e ∈ E, 0 ≤ e.1 ∧ e.1 < i := by
  induction h with
  | zero => intro e he; cases he
  | @succ i E out hr hm hl ih =>
    intro e he
    rcases List.mem_append.mp he with h | h
    · have := ih e h; push_cast; omega
    · obtain ⟨d, hd, rfl⟩ := List.mem_map.mp h
      simp only; push_cast; omega

theorem LasoRun.filter [Field R] [LinearOrder R] [FloorRing R] [Ring T] {G : Gen N K W R} {sqrt : T → T} {seed : RNGState N K} {n k : Int}
    {i : Nat} {E : List (Int × Int × T)} (h : LasoRun G sqrt seed n k i E) (q : Nat) (hq : q < i) :
    ∃ out, Merged sqrt k (lasoIdx G seed n k q) (lasoSign G seed k q) out ∧ (out.length : Int) ≤ k ∧
      E.filter (fun e => e.1 = (q : Int)) = out.map fun e => ((q : Int), e.1, e.2) := by
  induction h with
  | zero => omega
  | @succ i E out hr hm hl ih =>
    rw [List.filter_append]
    rcases Nat.lt_succ_iff_lt_or_eq.mp hq with h | h
    · obtain ⟨o, h1, h2, h3⟩ := ih h
      refine ⟨o, h1, h2, ?_⟩
      rw [h3, List.filter_eq_nil_iff.mpr, List.append_nil]
      intro e he
      obtain ⟨d, hd, rfl⟩ := List.mem_map.mp he
      simp only [decide_eq_true_eq]; omega
    · subst h
      refine ⟨out, hm, hl, ?_⟩
      rw [List.filter_eq_nil_iff.mpr, List.nil_append, List.filter_eq_self.mpr]
      · intro e he
        obtain ⟨d, hd, rfl⟩ := List.mem_map.mp he
        simp
      · intro e he
        have := hr.mem_short e he
        simp only [decide_eq_true_eq]; omega

theorem LasoRun.nodup [Field R] [LinearOrder R] [FloorRing R] [Ring T] {G : Gen N K W R} {sqrt : T → T} {seed : RNGState N K} {n k : Int}
    {i : Nat} {E : List (Int × Int × T)} (h : LasoRun G sqrt seed n k i E) : (E.map fun e => (e.1, e.2.1)).Nodup := by
  induction h with
  | zero => simp
  | @succ i E out hr hm hl ih =>
    rw [List.map_append, List.nodup_append]
    refine ⟨ih, ?_, ?_⟩
    · rw [List.map_map]
      have := hm.nodup
      exact List.Nodup.of_map Prod.snd (by rw [List.map_map]; exact this)
    · intro a ha b hb hab
      obtain ⟨c, hc, rfl⟩ := List.mem_map.mp ha
      obtain ⟨d, hd, rfl⟩ := List.mem_map.mp hb
      obtain ⟨e, he, rfl⟩ := List.mem_map.mp hd
      have := hr.mem_short c hc
      simp only [Prod.mk.injEq] at hab
      omega

theorem Merged.length_pos [Mul T] [NatCast T] {sqrt : T → T} {k : Int} {x : Int → Int} {s : Int → T} {out : List (Int × T)}
    (h : Merged sqrt k x s out) (hk : 0 < k) : 1 ≤ out.length := by
  have := h.all 0 le_rfl hk
  have := List.length_pos_of_mem this
  rw [List.length_map] at this
  exact this

theorem LasoRun.length_ge [Field R] [LinearOrder R] [FloorRing R] [Ring T] {G : Gen N K W R} {sqrt : T → T} {seed : RNGState N K} {n k : Int}
    {i : Nat} {E : List (Int × Int × T)} (h : LasoRun G sqrt seed n k i E) (hk : 0 < k) : i ≤ E.length := by
  induction h with
  | zero => simp
  | @succ i E out hr hm hl ih =>
    have := Merged.length_pos hm hk
    simp only [List.length_append, List.length_map]; omega

/-! ## Both kinds of operators -/

/-- (short, long, value) as an entry. -/
def mkEntry (D : SparseDist) (e : Int × Int × T) : Entry T :=
  if D.nRows ≤ D.nCols then ⟨e.1, e.2.1, e.2.2⟩ else ⟨e.2.1, e.1, e.2.2⟩

/-- The triples of a short-axis operator. -/
def sasoTriples [One T] [Neg T] (G : Gen N K W R) (seed : RNGState N K) (k n r : Int) : List (Int × Int × T) :=
  (List.range (r * k).toNat).map fun p : Nat => (fyIdx G seed k n p, (p : Int) / k, fySign G seed p)

/-- What filling produces. -/
def SparseRun [Field R] [LinearOrder R] [FloorRing R] [Ring T] (G : Gen N K W R) (sqrt : T → T) (D : SparseDist) (seed : RNGState N K)
    (E : List (Int × Int × T)) : Prop :=
  (D.majorAxis = .Short ∧ E = sasoTriples G seed D.vecNnz D.dimMajor D.dimMinor) ∨
  (D.majorAxis = .Long ∧ LasoRun G sqrt seed D.dimMajor D.vecNnz D.dimMinor.toNat E)

/-- Counters used by an operator. -/
def sparseCounters (len : Int) (D : SparseDist) : Int :=
  D.dimMinor * (if D.majorAxis = .Short then D.vecNnz else lasoStride len D.vecNnz)

/-- A distribution as the constructor builds it, with sizes that fit 64 bits. -/
def SparseDistOk (D : SparseDist) : Prop := mkSparseDist D.nRows D.nCols D.vecNnz D.majorAxis = .ok D ∧ 2 * D.fullNnz ≤ intMax 64

theorem sparseDist_facts {D : SparseDist} (h : SparseDistOk D) : 0 < D.nRows ∧ 0 < D.nCols ∧ 0 < D.vecNnz ∧ D.vecNnz ≤ D.dimMajor ∧
    D.fullNnz = D.vecNnz * D.dimMinor ∧ 2 * D.fullNnz ≤ intMax 64 ∧
    ((D.majorAxis = .Short ∧ D.dimMajor = min D.nRows D.nCols ∧ D.dimMinor = max D.nRows D.nCols) ∨
     (D.majorAxis = .Long ∧ D.dimMajor = max D.nRows D.nCols ∧ D.dimMinor = min D.nRows D.nCols)) := by
  obtain ⟨h, hfit⟩ := h
  unfold mkSparseDist at h
  have h1 : D.nRows > 0 := by by_contra hc; simp [hc] at h
  have h2 : D.nCols > 0 := by by_contra hc; simp [h1, hc] at h
  have h3 : D.vecNnz > 0 := by by_contra hc; simp [h1, h2, hc] at h
  by_cases h4 : D.vecNnz ≤ (if D.majorAxis = .Short then min D.nRows D.nCols else max D.nRows D.nCols)
  · simp only [Res.require_eq_ok h1, Res.require_eq_ok h2, Res.require_eq_ok h3, Res.require_eq_ok h4, Res.ok_bind, Res.pure_eq] at h
    injection h with h
    have e1 : D.dimMajor = (if D.majorAxis = .Short then min D.nRows D.nCols else max D.nRows D.nCols) := by
      conv_lhs => rw [← h]
    have e2 : D.dimMinor = D.nRows + D.nCols - D.dimMajor := by
      rw [e1]; conv_lhs => rw [← h]
    have e3 : D.fullNnz = D.vecNnz * D.dimMinor := by
      rw [e2, e1]; conv_lhs => rw [← h]
    refine ⟨h1, h2, h3, by rw [e1]; exact h4, e3, hfit, ?_⟩
    cases ha : D.majorAxis with
    | Short => left; rw [ha] at e1; simp only [if_true] at e1; refine ⟨rfl, e1, by rw [e2, e1]; omega⟩
    | Long => right; rw [ha] at e1; simp at e1; refine ⟨rfl, e1, by rw [e2, e1]; omega⟩
  · simp [h1, h2, h3, h4] at h

theorem fillSparseUnpacked_spec [Field R] [LinearOrder R] [FloorRing R] [Ring T] {G : Gen N K W R} {sqrt : T → T}
    {order : Int → List (Int × T) → List (Int × T)} {D : SparseDist} {seed : RNGState N K} {b : CooBufs T} (hG : G.Ok)
    (hsqrt : sqrt 1 = 1) (hord : ∀ i l, (order i l).Perm l) (hD : SparseDistOk D)
    (ha : ∀ p, 0 ≤ p → p < D.fullNnz → b.vals p ≠ .none ∧ b.rows p ≠ .none ∧ b.cols p ≠ .none) :
    M.wp (fillSparseUnpackedNosub G sqrt order D seed) b (fun r b' => ∃ E, SparseRun G sqrt D seed E ∧ r.1 = E.length ∧
      r.2 = advance seed (sparseCounters G.len D) ∧ CooHolds b'.vals b'.rows b'.cols (E.map (mkEntry D)) ∧ (E.length : Int) ≤ D.fullNnz ∧
      (∀ p, 0 ≤ p → p < D.fullNnz → b'.vals p ≠ .none ∧ b'.rows p ≠ .none ∧ b'.cols p ≠ .none) ∧
      ∀ p, ¬ (0 ≤ p ∧ p < D.fullNnz) → b'.vals p = b.vals p ∧ b'.rows p = b.rows p ∧ b'.cols p = b.cols p) := by
  obtain ⟨hR, hC, hk, hkd, hfull, hfit, hax⟩ := sparseDist_facts hD
  have hmin : 0 < D.dimMinor := by rcases hax with ⟨-, -, h⟩ | ⟨-, -, h⟩ <;> omega
  have hcomm : D.fullNnz = D.dimMinor * D.vecNnz := by rw [hfull, mul_comm]
  have hfn : 0 ≤ D.fullNnz := by rw [hfull]; exact mul_nonneg hk.le hmin.le
  have hlen : 2 ≤ G.len := by rcases hG with h | h <;> rw [h]; decide
  unfold fillSparseUnpackedNosub
  rcases hax with ⟨hs, hmaj, hmino⟩ | ⟨hs, hmaj, hmino⟩
  · simp only [if_pos hs, M.wp_bind, M.wp_zoom, M.wp_pure]
    refine ⟨_, _, repeatedFisherYates_spec hlen hk.le hkd hmin.le ?_ (by rw [← hcomm]; omega), ?_⟩
    · rw [← hcomm]
      unfold CooBufs.toSk
      split_ifs
      · refine ⟨fun p h0 h1 => (ha p h0 h1).2.1, ?_, ?_⟩
        · rintro c hc p h0 h1; cases hc; exact (ha p h0 h1).2.2
        · rintro c hc p h0 h1; cases hc; exact (ha p h0 h1).1
      · refine ⟨fun p h0 h1 => (ha p h0 h1).2.2, ?_, ?_⟩
        · rintro c hc p h0 h1; cases hc; exact (ha p h0 h1).2.1
        · rintro c hc p h0 h1; cases hc; exact (ha p h0 h1).1
    · refine ⟨_, Or.inl ⟨hs, rfl⟩, ?_, ?_, ?_, ?_, ?_, ?_⟩
      · simp only [sasoTriples, List.length_map, List.length_range]; rw [← hcomm, ← hfull]; omega
      · simp only [sparseCounters, hs, if_true]; rfl
      · intro p hp
        simp only [sasoTriples, List.length_map, List.length_range] at hp
        simp only [sasoTriples, List.getElem_map, List.getElem_range, CooBufs.toSk, CooBufs.ofSk, mkEntry]
        split_ifs with hw <;> simp only [fyOut, Option.map_some, Option.getD_some]
        · refine ⟨Buf.over_in (by omega) (by omega), Buf.over_in (by omega) (by omega), Buf.over_in (by omega) (by omega)⟩
        · refine ⟨Buf.over_in (by omega) (by omega), Buf.over_in (by omega) (by omega), Buf.over_in (by omega) (by omega)⟩
      · simp only [sasoTriples, List.length_map, List.length_range]; rw [← hcomm]; omega
      · intro p h0 h1
        have := ha p h0 h1
        simp only [CooBufs.toSk, CooBufs.ofSk]
        split_ifs with hw <;> simp only [fyOut, Option.map_some, Option.getD_some] <;>
          exact ⟨Buf.over_ne_none this.1, Buf.over_ne_none this.2.1, Buf.over_ne_none this.2.2⟩
      · intro p hp
        rw [hcomm] at hp
        simp only [CooBufs.toSk, CooBufs.ofSk]
        split_ifs with hw <;> simp only [fyOut, Option.map_some, Option.getD_some] <;>
          exact ⟨Buf.over_out hp, Buf.over_out hp, Buf.over_out hp⟩
  · rw [if_neg (by rw [hs]; decide), M.wp_zoom]
    refine M.wp_mono (fillLaso_spec hG hsqrt hord hk.le hmin.le ?_) ?_
    · intro p h0 h1
      rw [← hcomm] at h1
      have := ha p h0 h1
      unfold CooBufs.toLax
      split_ifs
      · exact ⟨this.2.2, this.2.1, this.1⟩
      · exact ⟨this.2.1, this.2.2, this.1⟩
    · rintro r b' ⟨E, h1, h2, h3, h4, h5, h7, h6⟩
      refine ⟨E, Or.inr ⟨hs, h1⟩, h2, by rw [h3]; simp [sparseCounters, hs], ?_, by rw [hcomm]; exact h5, ?_, ?_⟩
      · intro p hp
        rw [List.length_map] at hp
        have := h4 p hp
        simp only [List.getElem_map, CooBufs.ofLax, mkEntry]
        split_ifs
        · exact ⟨this.2.2, this.1, this.2.1⟩
        · exact ⟨this.2.2, this.2.1, this.1⟩
      · intro p h0 h1
        rw [hcomm] at h1
        have := h7 p h0 h1
        revert this
        simp only [CooBufs.ofLax]
        split_ifs
        · rintro ⟨a, b, c⟩; exact ⟨c, b, a⟩
        · rintro ⟨a, b, c⟩; exact ⟨c, a, b⟩
      · intro p hp
        rw [hcomm] at hp
        have := h6 p hp
        revert this
        simp only [CooBufs.ofLax, CooBufs.toLax]
        split_ifs
        · rintro ⟨a, b, c⟩; exact ⟨c, b, a⟩
        · rintro ⟨a, b, c⟩; exact ⟨c, a, b⟩

/-- An operator whose pointers are null (and owned) or point to arrays of length at least `full_nnz`. -/
structure Spec.SparseOpOk (S : SparseSkOp N K T) : Prop where
  dist : SparseDistOk S.dist
  nRows : S.nRows = S.dist.nRows
  nCols : S.nCols = S.dist.nCols
  vals : (S.vals = none ∧ S.ownMemory = true) ∨ ∃ b, S.vals = some b ∧ ∀ p, 0 ≤ p → p < S.dist.fullNnz → b p ≠ .none
  rows : (S.rows = none ∧ S.ownMemory = true) ∨ ∃ b, S.rows = some b ∧ ∀ p, 0 ≤ p → p < S.dist.fullNnz → b p ≠ .none
  cols : (S.cols = none ∧ S.ownMemory = true) ∨ ∃ b, S.cols = some b ∧ ∀ p, 0 ≤ p → p < S.dist.fullNnz → b p ≠ .none

theorem alloc_case {o : Option (Buf V)} {own : Bool} {n : Int}
    (h : (o = none ∧ own = true) ∨ ∃ b, o = some b ∧ ∀ p, 0 ≤ p → p < n → b p ≠ .none) :
    ∃ b, (if own then o.orElse (fun _ => some (Buf.alloc V n)) else o) = some b ∧ (∀ p, 0 ≤ p → p < n → b p ≠ .none) := by
  rcases h with ⟨h1, h2⟩ | ⟨b, h1, h2⟩
  · refine ⟨Buf.alloc V n, by rw [h1, h2]; rfl, fun p h0 h1 => by simp [Buf.alloc, h0, h1]⟩
  · exact ⟨b, by rw [h1]; cases own <;> rfl, h2⟩

theorem fillSparse_spec [Field R] [LinearOrder R] [FloorRing R] [Ring T] {G : Gen N K W R} {sqrt : T → T}
    {order : Int → List (Int × T) → List (Int × T)} {S : SparseSkOp N K T} (hG : G.Ok)
    (hsqrt : sqrt 1 = 1) (hord : ∀ i l, (order i l).Perm l) (hS : Spec.SparseOpOk S) :
    M.wp (fillSparse G sqrt order) S (fun _ S' => ∃ E v r c, SparseRun G sqrt S.dist S.seedState E ∧
      S' = { S with nnz := E.length, vals := some v, rows := some r, cols := some c } ∧ CooHolds v r c (E.map (mkEntry S.dist)) ∧
      (E.length : Int) ≤ S.dist.fullNnz ∧
      (∀ p, 0 ≤ p → p < S.dist.fullNnz → v p ≠ .none ∧ r p ≠ .none ∧ c p ≠ .none)) := by
  obtain ⟨v, hv, hva⟩ := alloc_case hS.vals
  obtain ⟨r, hr, hra⟩ := alloc_case hS.rows
  obtain ⟨c, hc, hca⟩ := alloc_case hS.cols
  have hall : S.allocate = { S with vals := some v, rows := some r, cols := some c } := by
    unfold SparseSkOp.allocate
    cases ho : S.ownMemory
    · rw [ho] at hv hr hc
      simp only [Bool.false_eq_true, if_false] at hv hr hc ⊢
      cases S; simp_all
    · rw [ho] at hv hr hc
      simp only [if_true] at hv hr hc ⊢
      rw [hv, hr, hc]
  unfold fillSparse
  rw [M.wp_bind, M.wp_modify, M.wp_bind, M.wp_get, hall]
  simp only
  rw [M.wp_bind, M.wp_onLocal]
  refine M.wp_mono (fillSparseUnpacked_spec hG hsqrt hord hS.dist (fun p h0 h1 => ⟨hva p h0 h1, hra p h0 h1, hca p h0 h1⟩)) ?_
  rintro ⟨nnz, st⟩ b' ⟨E, h1, h2, h3, h4, h5, h6, -⟩
  rw [M.wp_modify]
  simp only at h2
  exact ⟨E, b'.vals, b'.rows, b'.cols, h1, by rw [h2], h4, h5, h6⟩

end RB
