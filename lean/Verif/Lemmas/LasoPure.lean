import Verif.Lemmas.Sparse

/-! # The long-axis fill as a function of the seed state -/

namespace RB

open Spec
variable {N : Nat} {K W R T : Type}

/-- The two maps after the first `j` samples. -/
def mergeMaps [Zero T] [One T] [Add T] (x : Int → Int) (s : Int → T) : Nat → List (Int × T) × List (Int × T)
  | 0 => ([], [])
  | j + 1 => lasoCount (x j) (s j) (mergeMaps x s j)

/-- The merged vector. -/
def mergedList [Zero T] [One T] [Add T] [Mul T] (sqrt : T → T) (order : List (Int × T) → List (Int × T)) (x : Int → Int) (s : Int → T) (k : Int) : List (Int × T) :=
  if ((mergeMaps x s k.toNat).2.length : Int) < k then
    (order (mergeMaps x s k.toNat).1).map fun e => (e.1, sqrt e.2 * (mapGet (mergeMaps x s k.toNat).2 e.1).getD 0)
  else (List.range k.toNat).map fun t : Nat => (x t, s t)

theorem mergeMaps_inv [Semiring T] (x : Int → Int) (s : Int → T) (j : Nat) : MergeInv x s j (mergeMaps x s j) := by
  induction j with
  | zero => exact mergeInv_zero x s
  | succ j ih => have := mergeInv_step (j := (j : Int)) (by omega) ih; push_cast; exact this

theorem M.wp_and {σ α : Type} {m : M σ α} {s : σ} {P Q : α → σ → Prop} (h1 : M.wp m s P) (h2 : M.wp m s Q) : M.wp m s (fun a s' => P a s' ∧ Q a s') := by
  obtain ⟨a, s', e, h⟩ := h1
  obtain ⟨a', s'', e', h'⟩ := h2
  rw [e] at e'
  cases e'
  exact ⟨a, s', e, h, h'⟩

theorem VecAt.unique {b : LaxBufs T} {off : Int} {l l' : List (Int × T)} (h : VecAt b off l) (h' : VecAt b off l') (hl : l.length = l'.length) : l = l' := by
  refine List.ext_getElem hl fun p h1 h2 => ?_
  obtain ⟨a1, a2⟩ := h p h1
  obtain ⟨b1, b2⟩ := h' p h2
  rw [a1] at b1; rw [a2] at b2
  exact Prod.ext (by simpa using b1) (by simpa using b2)

/-- Merging stores `mergedList`. -/
theorem lasoMerge_list [Semiring T] {sqrt : T → T} {order : List (Int × T) → List (Int × T)} {k off i : Int} {x : Int → Int} {s : Int → T}
    {b : LaxBufs T} (hord : ∀ l, (order l).Perm l) (hk : 0 ≤ k)
    (hx : ∀ t, 0 ≤ t → t < k → b.lax (off + t) = .val (x t)) (hs : ∀ t, 0 ≤ t → t < k → b.vals (off + t) = .val (s t))
    (ha : ∀ t, 0 ≤ t → t < k → b.sax (off + t) ≠ .none) :
    M.wp (lasoMerge sqrt order k off i) b (fun r b' => r = ((mergedList sqrt order x s k).length : Int) ∧ VecAt b' off (mergedList sqrt order x s k)) := by
  unfold lasoMerge
  rw [M.wp_bind]
  refine M.wp_foldI (Inv := fun j maps b' => maps = mergeMaps x s j.toNat ∧ b'.lax = b.lax ∧ b'.vals = b.vals ∧
    b'.sax = Buf.overAt off j (fun _ => i) b.sax) hk ⟨rfl, rfl, rfl, (Buf.overAt_zero _ _ _).symm⟩ ?_ ?_
  · rintro j maps b' h0 h1 ⟨rfl, e1, e2, e3⟩
    simp only [onSax, onLax, onLVals, M.wp_bind, M.wp_zoom, M.wp_wr, M.wp_rd, M.wp_pure]
    refine ⟨by rw [e3]; exact Buf.overAt_ne_none (ha j h0 h1), x j, by rw [e1]; exact hx j h0 h1, s j, by rw [e2]; exact hs j h0 h1,
      ?_, e1, e2, by rw [e3]; exact Buf.overAt_set h0 _ _⟩
    rw [show (j + 1).toNat = j.toNat + 1 by omega, mergeMaps, show ((j.toNat : Nat) : Int) = j by omega]
  · rintro ⟨C, S⟩ b' ⟨hm, e1, e2, e3⟩
    have hinv := mergeMaps_inv x s k.toNat
    have hlen := congrArg List.length hinv.keys
    simp only [List.length_map] at hlen
    have hle := hinv.le
    rw [← hm] at hlen hle
    simp only at hlen hle
    unfold mergedList
    rw [← hm]
    simp only [M.wp_bind, M.wp_when, M.wp_pure]
    constructor
    · intro hlt
      rw [if_pos hlt]
      have hpl : (order C).length = C.length := (hord C).length_eq
      refine M.wp_mono (lasoWrite_spec ?_ ?_) ?_
      · intro p hp; rw [e1, show off + 0 + (p : Int) = off + p by omega, hx p (by omega) (by omega)]; simp
      · intro p hp; rw [e2, show off + 0 + (p : Int) = off + p by omega, hs p (by omega) (by omega)]; simp
      · rintro - b'' ⟨g1, -, -⟩
        rw [add_zero] at g1
        exact ⟨by simp [hpl], g1⟩
    · intro hge
      rw [if_neg hge]
      refine ⟨by simp; omega, ?_⟩
      intro p hp
      simp only [List.length_map, List.length_range] at hp
      rw [e1, e2, hx p (by omega) (by omega), hs p (by omega) (by omega)]
      simp

/-- The triples of the first `i` vectors. -/
def lasoList [Field R] [LinearOrder R] [FloorRing R] [Ring T] (G : Gen N K W R) (sqrt : T → T) (order : Int → List (Int × T) → List (Int × T)) (seed : RNGState N K) (n k : Int) :
    Nat → List (Int × Int × T)
  | 0 => []
  | i + 1 => lasoList G sqrt order seed n k i ++ (mergedList sqrt (order i) (lasoIdx G seed n k i) (lasoSign G seed k i) k).map fun e => ((i : Int), e.1, e.2)

/-- The fill stores `lasoList`. -/
theorem fillLaso_list [Field R] [LinearOrder R] [FloorRing R] [Ring T] {G : Gen N K W R} {sqrt : T → T}
    {order : Int → List (Int × T) → List (Int × T)} {D : SparseDist} {seed : RNGState N K} {b : LaxBufs T} (hG : G.Ok)
    (hsqrt : sqrt 1 = 1) (hord : ∀ i l, (order i l).Perm l) (hk : 0 ≤ D.vecNnz) (hm : 0 ≤ D.dimMinor)
    (ha : ∀ p, 0 ≤ p → p < D.dimMinor * D.vecNnz → b.lax p ≠ .none ∧ b.sax p ≠ .none ∧ b.vals p ≠ .none) :
    M.wp (fillLaso G sqrt order D seed) b (fun r b' => r.1 = (lasoList G sqrt order seed D.dimMajor D.vecNnz D.dimMinor.toNat).length ∧
      TripAt b' (lasoList G sqrt order seed D.dimMajor D.vecNnz D.dimMinor.toNat)) := by
  unfold fillLaso
  refine M.wp_foldI (Inv := fun i acc b' => ∃ E, E = lasoList G sqrt order seed D.dimMajor D.vecNnz i.toNat ∧
      acc.1 = E.length ∧ acc.2 = advance seed (i * lasoStride G.len D.vecNnz) ∧ TripAt b' E ∧ (E.length : Int) ≤ i * D.vecNnz ∧
      (∀ p, 0 ≤ p → p < D.dimMinor * D.vecNnz → b'.lax p ≠ .none ∧ b'.sax p ≠ .none ∧ b'.vals p ≠ .none)) hm ?_ ?_ ?_
  · exact ⟨[], rfl, rfl, by rw [zero_mul, advance_zero], fun p h => absurd h (by simp), by simp, ha⟩
  · rintro i ⟨off, st⟩ b' h0 h1 ⟨E, hrun, hoff, hst, htrip, hle, hal⟩
    simp only at hoff hst
    have hbound : off + D.vecNnz ≤ D.dimMinor * D.vecNnz := by nlinarith
    have hoff0 : 0 ≤ off := by omega
    rw [M.wp_bind, M.wp_zoom]
    refine ⟨_, _, sampleUniform_spec hG hk ?_ ?_, ?_⟩
    · intro p p0 p1; exact (hal (off + p) (by omega) (by omega)).1
    · intro _ p p0 p1; exact (hal (off + p) (by omega) (by omega)).2.2
    simp only [if_true]
    rw [M.wp_bind]
    have hX : ∀ t, 0 ≤ t → t < D.vecNnz → (Buf.overAt off D.vecNnz (unifSample G st D.dimMajor true) b'.lax) (off + t) = .val (lasoIdx G seed D.dimMajor D.vecNnz i t) := by
      intro t t0 t1; rw [Buf.overAt_in t0 t1, hst]; rfl
    have hS : ∀ t, 0 ≤ t → t < D.vecNnz → (Buf.overAt off D.vecNnz (unifSign G st) b'.vals) (off + t) = .val (lasoSign (T := T) G seed D.vecNnz i t) := by
      intro t t0 t1; rw [Buf.overAt_in t0 t1, hst]; rfl
    have hA : ∀ t, 0 ≤ t → t < D.vecNnz → b'.sax (off + t) ≠ .none := fun t t0 t1 => (hal (off + t) (by omega) (by omega)).2.1
    refine M.wp_mono (M.wp_and (lasoMerge_list (x := lasoIdx G seed D.dimMajor D.vecNnz i) (s := lasoSign G seed D.vecNnz i) (hord i) hk hX hS hA)
      (lasoMerge_spec (x := lasoIdx G seed D.dimMajor D.vecNnz i) (s := lasoSign G seed D.vecNnz i) hsqrt (hord i) hk hX hS hA)) ?_
    rintro r b'' ⟨⟨hr', hvec'⟩, out, hmer, hr, hrk, hvec, hsax, hl', hv', hrest⟩
    have hout : out = mergedList sqrt (order i) (lasoIdx G seed D.dimMajor D.vecNnz i) (lasoSign G seed D.vecNnz i) D.vecNnz :=
      hvec.unique hvec' (by omega)
    rw [M.wp_pure]
    refine ⟨E ++ out.map fun e => ((i : Int), e.1, e.2), ?_, ?_, ?_, ?_, ?_, ?_⟩
    · rw [show (i + 1).toNat = i.toNat + 1 by omega, lasoList, show ((i.toNat : Nat) : Int) = i by omega, ← hout, ← hrun]
    · simp only [List.length_append, List.length_map]; push_cast; omega
    · simp only; rw [hst, advance_advance, add_mul, one_mul]; rfl
    · intro p hp
      simp only [List.length_append, List.length_map] at hp
      by_cases hpE : p < E.length
      · have := htrip p hpE
        rw [List.getElem_append_left hpE]
        have hr := hrest p (by omega)
        rw [hr.1, hr.2.1, hr.2.2]
        simp only
        rw [Buf.overAt_out (by omega), Buf.overAt_out (by omega)]
        exact this
      · rw [List.getElem_append_right (by omega), List.getElem_map]
        have h1 := hvec (p - E.length) (by omega)
        have h2 := hsax (p - E.length) (by omega) (by omega)
        rw [hoff, show (E.length : Int) + ((p - E.length : Nat) : Int) = p by omega] at h1
        rw [hoff, show (E.length : Int) + ((p : Int) - (E.length : Int)) = p by omega] at h2
        exact ⟨h2, h1.1, h1.2⟩
    · simp only [List.length_append, List.length_map]; push_cast; nlinarith
    · intro p p0 p1
      have := hal p p0 p1
      refine ⟨hl' p (Buf.overAt_ne_none this.1), ?_, hv' p (Buf.overAt_ne_none this.2.2)⟩
      by_cases hp : off ≤ p ∧ p < off + D.vecNnz
      · have h2 := hsax (p - off) (by omega) (by omega)
        rw [show off + (p - off) = p by omega] at h2
        rw [h2]; simp
      · rw [(hrest p hp).2.1]; exact this.2.1
  · rintro ⟨r1, r2⟩ b' ⟨E, rfl, h2, h3, h4, h5, h6⟩
    exact ⟨h2, h4⟩

/-- The triples of a fill. -/
def fillList [Field R] [LinearOrder R] [FloorRing R] [Ring T] (G : Gen N K W R) (sqrt : T → T) (order : Int → List (Int × T) → List (Int × T)) (D : SparseDist) (seed : RNGState N K) :
    List (Int × Int × T) :=
  if D.majorAxis = .Short then sasoTriples G seed D.vecNnz D.dimMajor D.dimMinor else lasoList G sqrt order seed D.dimMajor D.vecNnz D.dimMinor.toNat

theorem CooHolds.unique {v : Buf T} {r c : Buf Int} {E E' : List (Entry T)} (h : CooHolds v r c E) (h' : CooHolds v r c E') (hl : E.length = E'.length) : E = E' := by
  refine List.ext_getElem hl fun p h1 h2 => ?_
  obtain ⟨a1, a2, a3⟩ := h p h1
  obtain ⟨b1, b2, b3⟩ := h' p h2
  rw [a1] at b1; rw [a2] at b2; rw [a3] at b3
  generalize E[p] = e at *
  generalize E'[p] = e' at *
  cases e; cases e'
  simp_all

/-- The fill stores `fillList` and nothing about it depends on the arrays. -/
theorem fillSparseUnpacked_list [Field R] [LinearOrder R] [FloorRing R] [Ring T] {G : Gen N K W R} {sqrt : T → T}
    {order : Int → List (Int × T) → List (Int × T)} {D : SparseDist} {seed : RNGState N K} {b : CooBufs T} (hG : G.Ok)
    (hsqrt : sqrt 1 = 1) (hord : ∀ i l, (order i l).Perm l) (hD : SparseDistOk D)
    (ha : ∀ p, 0 ≤ p → p < D.fullNnz → b.vals p ≠ .none ∧ b.rows p ≠ .none ∧ b.cols p ≠ .none) :
    M.wp (fillSparseUnpackedNosub G sqrt order D seed) b (fun r b' => SparseRun G sqrt D seed (fillList G sqrt order D seed) ∧ r.1 = (fillList G sqrt order D seed).length ∧
      r.2 = advance seed (sparseCounters G.len D) ∧ CooHolds b'.vals b'.rows b'.cols ((fillList G sqrt order D seed).map (mkEntry D)) ∧ ((fillList G sqrt order D seed).length : Int) ≤ D.fullNnz ∧
      (∀ p, 0 ≤ p → p < D.fullNnz → b'.vals p ≠ .none ∧ b'.rows p ≠ .none ∧ b'.cols p ≠ .none) ∧
      ∀ p, ¬ (0 ≤ p ∧ p < D.fullNnz) → b'.vals p = b.vals p ∧ b'.rows p = b.rows p ∧ b'.cols p = b.cols p) := by
  have main : M.wp (fillSparseUnpackedNosub G sqrt order D seed) b (fun r b' => ∀ E, SparseRun G sqrt D seed E → r.1 = E.length → CooHolds b'.vals b'.rows b'.cols (E.map (mkEntry D)) →
      E = fillList G sqrt order D seed) := by
    obtain ⟨hR, hC, hk, hkd, hfull, hfit, hax⟩ := sparseDist_facts hD
    have hmin : 0 < D.dimMinor := by rcases hax with ⟨-, -, h⟩ | ⟨-, -, h⟩ <;> omega
    have hcomm : D.fullNnz = D.dimMinor * D.vecNnz := by rw [hfull, mul_comm]
    by_cases hs : D.majorAxis = .Short
    · refine M.wp_mono (fillSparseUnpacked_spec hG hsqrt hord hD ha) ?_
      rintro r b' - E hE - -
      unfold fillList
      rw [if_pos hs]
      rcases hE with ⟨-, h⟩ | ⟨h, -⟩
      · exact h
      · rw [hs] at h; cases h
    · unfold fillSparseUnpackedNosub fillList
      rw [if_neg hs, if_neg hs, M.wp_zoom]
      refine M.wp_mono (fillLaso_list hG hsqrt hord hk.le hmin.le ?_) ?_
      · intro p h0 h1
        rw [← hcomm] at h1
        have := ha p h0 h1
        unfold CooBufs.toLax
        split_ifs
        · exact ⟨this.2.2, this.2.1, this.1⟩
        · exact ⟨this.2.1, this.2.2, this.1⟩
      · rintro r b' ⟨h1, h2⟩ E - hl hE
        refine List.ext_getElem (by omega) fun p q1 q2 => ?_
        have e1 := hE p (by rw [List.length_map]; exact q1)
        have e2 := h2 p q2
        simp only [List.getElem_map, CooBufs.ofLax, mkEntry] at e1
        generalize E[p] = e at *
        generalize (lasoList G sqrt order seed D.dimMajor D.vecNnz D.dimMinor.toNat)[p] = e' at *
        rcases e with ⟨x, y, z⟩
        rcases e' with ⟨x', y', z'⟩
        split_ifs at e1 <;> simp_all
  refine M.wp_mono (M.wp_and main (fillSparseUnpacked_spec hG hsqrt hord hD ha)) ?_
  rintro r b' ⟨hm, E, h1, h2, h3, h4, h5, h6, h7⟩
  have := hm E h1 h2 h4
  subst this
  exact ⟨h1, h2, h3, h4, h5, h6, h7⟩

/-- `fill_sparse` stores `fillList`. -/
theorem fillSparse_list [Field R] [LinearOrder R] [FloorRing R] [Ring T] {G : Gen N K W R} {sqrt : T → T}
    {order : Int → List (Int × T) → List (Int × T)} {S : SparseSkOp N K T} (hG : G.Ok)
    (hsqrt : sqrt 1 = 1) (hord : ∀ i l, (order i l).Perm l) (hS : Spec.SparseOpOk S) :
    M.wp (fillSparse G sqrt order) S (fun _ S' => ∃ v r c, SparseRun G sqrt S.dist S.seedState (fillList G sqrt order S.dist S.seedState) ∧
      S' = { S with nnz := (fillList G sqrt order S.dist S.seedState).length, vals := some v, rows := some r, cols := some c } ∧
      CooHolds v r c ((fillList G sqrt order S.dist S.seedState).map (mkEntry S.dist)) ∧ ((fillList G sqrt order S.dist S.seedState).length : Int) ≤ S.dist.fullNnz ∧
      (∀ p, 0 ≤ p → p < S.dist.fullNnz → v p ≠ .none ∧ r p ≠ .none ∧ c p ≠ .none)) := by
  obtain ⟨v, hv, hva⟩ := alloc_case hS.vals
  obtain ⟨r, hr, hra⟩ := alloc_case hS.rows
  obtain ⟨c, hc, hca⟩ := alloc_case hS.cols
  have hall : S.allocate = { S with vals := some v, rows := some r, cols := some c } := by
    unfold SparseSkOp.allocate
    cases ho : S.ownMemory
    · rw [ho] at hv hr hc
      simp only [Bool.false_eq_true, if_false] at hv hr hc ⊢
      cases S; simp_all
    · rw [ho] at hv hr hc
      simp only [if_true] at hv hr hc ⊢
      rw [hv, hr, hc]
  unfold fillSparse
  rw [M.wp_bind, M.wp_modify, M.wp_bind, M.wp_get, hall]
  simp only
  rw [M.wp_bind, M.wp_onLocal]
  refine M.wp_mono (fillSparseUnpacked_list hG hsqrt hord hS.dist fun p h0 h1 => ⟨hva p h0 h1, hra p h0 h1, hca p h0 h1⟩) ?_
  rintro x b ⟨h1, h2, -, h4, h5, h6, -⟩
  rw [M.wp_modify]
  exact ⟨_, _, _, h1, by rw [h2], h4, h5, h6⟩

end RB
