import Verif.Lemmas.Shared
import Verif.Props.SketchApi

/-!
# C110: calls that share an operator or a sparse matrix

Sketches and products only read their operator and their data matrix, so one would expect that several threads can use the same objects at
the same time, each with its own result. This holds for dense operators, CSC and CSR matrices, and COO matrices and operators in the order
the product needs. In the other cases the call sorts the arrays of the shared object in place: it stores to every element of them.
-/

namespace RB
open Spec
variable {N : Nat} {K W WS R T : Type}

/-! ## Products -/

/-- The functions with a list of stores have the outcome and the effect of the functions of the other model. -/
theorem C110_same_left_spmm [Zero T] [One T] [Add T] [Mul T] [BEq T] (env : Env T) (layout : Layout) (opA opB : Op) (d n m : Int) (alpha : T)
    (ro co : Int) (B : Buf T) (ldb : Int) (beta : T) (ldc : Int) (s : SpMat T × Buf T) (l : List Loc) :
    (leftSpmmL env layout opA opB d n m alpha ro co B ldb beta ldc (s, l)).1 = (leftSpmm env layout opA opB d n m alpha ro co B ldb beta ldc s).1 ∧
    (leftSpmmL env layout opA opB d n m alpha ro co B ldb beta ldc (s, l)).2.1 = (leftSpmm env layout opA opB d n m alpha ro co B ldb beta ldc s).2 := by
  obtain ⟨l', h⟩ := leftSpmmL_shadow (env := env) (layout := layout) (opA := opA) (opB := opB) (d := d) (n := n) (m := m) (alpha := alpha)
    (ro := ro) (co := co) (B := B) (ldb := ldb) (beta := beta) (ldc := ldc) s l
  rw [h]
  exact ⟨rfl, rfl⟩

theorem leftSpmmCooN_fst [Zero T] [Add T] [Mul T] [BEq T]
    {srt : (Int × Int × T → Int × Int × T → Bool) → List (Int × Int × T) → List (Int × Int × T)}
    {sched : List Nat} {layout : Layout} {opB : Op} {d n m : Int} {alpha : T} {ro co : Int} {B : Buf T} {ldb : Int} {beta : T} {ldc : Int}
    {A : CooMat T} {b : Buf T} (h : (alpha == 0) = false → A.sort = .CSC) :
    (leftSpmmCooN srt sched layout opB d n m alpha ro co B ldb beta ldc (A, b)).2.1 = A := by
  have key : ∀ {α β : Type} {m : M (CooMat T × Buf T) α} {f : α → M (CooMat T × Buf T) β} {b : Buf T}, (m (A, b)).2.1 = A →
      (∀ a b', (f a (A, b')).2.1 = A) → ((m >>= f) (A, b)).2.1 = A := by
    intro α β m f b h1 h2
    rcases hm : m (A, b) with ⟨r, A', b'⟩
    rw [hm] at h1
    obtain rfl : A' = A := h1
    cases r with
    | ok a => rw [M.bind_ok hm]; exact h2 a b'
    | throw e => rw [M.bind_throw hm]
    | ub => rw [M.bind_ub hm]
  unfold leftSpmmCooN
  refine key rfl fun s b' => ?_
  refine key rfl fun _ b' => key rfl fun _ b' => key rfl fun _ b' => key rfl fun _ b' => ?_
  cases hz : alpha == 0 with
  | true => rfl
  | false =>
    rw [if_neg (by simp)]
    unfold cooLeftJki
    show ((M.require (A.indexBase = .Zero) >>= fun _ => if A.sort ≠ .CSC then _ else _) (A, b')).2.1 = A
    refine key rfl fun _ b' => ?_
    rw [if_neg (by simp [h hz])]
    rfl

/-- A product with a matrix that is in the required order (any CSC or CSR matrix, and COO matrices whose `sort` member says so), or with
`alpha = 0`, stores nothing to the matrix and leaves it as it is, whatever the arguments and the outcome. -/
theorem C110_left_spmm_reads [Zero T] [One T] [Add T] [Mul T] [BEq T] (env : Env T) (layout : Layout) (opA opB : Op) (d n m : Int) (alpha : T)
    (ro co : Int) (B : Buf T) (ldb : Int) (beta : T) (ldc : Int) (A : SpMat T) (b : Buf T) (h : (alpha == 0) = false → ReadySorted A opA) :
    NoStores (leftSpmmL env layout opA opB d n m alpha ro co B ldb beta ldc) (A, b) ∧
    (leftSpmm env layout opA opB d n m alpha ro co B ldb beta ldc (A, b)).2.1 = A := by
  refine ⟨leftSpmmL_noStores h, ?_⟩
  have hsnd : ∀ {x : SpMat T} {m : M (Buf T) Unit}, ((onC m : M (SpMat T × Buf T) Unit) (x, b)).2.1 = x := fun {x m} => rfl
  cases A with
  | coo A =>
    cases opA with
    | NoTrans => exact congrArg SpMat.coo (leftSpmmCooN_fst (A := A) h)
    | Trans =>
      show ((M.lift (cooTranspose A) >>= fun At =>
        asCooT A At (leftSpmmCooN env.srt env.sched layout opB d n m alpha co ro B ldb beta ldc)) (SpMat.coo A, b)).2.1 = SpMat.coo A
      cases ht : cooTranspose A with
      | throw e => rfl
      | ub => rfl
      | ok At =>
        have hs : (alpha == 0) = false → At.sort = .CSC := fun hz => by rw [cooTranspose_sort ht, show A.sort = .CSR from h hz]; rfl
        have hk := leftSpmmCooN_fst (srt := env.srt) (sched := env.sched) (layout := layout) (opB := opB) (d := d) (n := n) (m := m) (ro := co)
          (co := ro) (B := B) (ldb := ldb) (beta := beta) (ldc := ldc) (b := b) hs
        have hv : At.vals = A.vals ∧ At.rows = A.cols ∧ At.cols = A.rows := by
          unfold cooTranspose mkCooExpert at ht
          simp only [Bool.false_eq_true, if_false, Res.pure_eq, Res.ok_bind, Res.ok.injEq] at ht
          rw [← ht]
          split_ifs <;> exact ⟨rfl, rfl, rfl⟩
        show SpMat.coo { A with
          vals := (leftSpmmCooN env.srt env.sched layout opB d n m alpha co ro B ldb beta ldc (At, b)).2.1.vals
          rows := (leftSpmmCooN env.srt env.sched layout opB d n m alpha co ro B ldb beta ldc (At, b)).2.1.cols
          cols := (leftSpmmCooN env.srt env.sched layout opB d n m alpha co ro B ldb beta ldc (At, b)).2.1.rows } = _
        rw [hk, hv.1, hv.2.1, hv.2.2]
  | csc A => cases opA <;> rfl
  | csr A => cases opA <;> rfl

theorem mem_swap_allLocs {n : Nat} {i : Int} {p : Loc} (hp : p = .vals i ∨ p = .rows i ∨ p = .cols i) (hi : 0 ≤ i) :
    p ∈ (allLocs n).filterMap Loc.swap ↔ i < n := by
  simp only [List.mem_filterMap, mem_allLocs]
  constructor
  · rintro ⟨q, ⟨k, hk, rfl | rfl | rfl⟩, h⟩ <;> simp only [Loc.swap, Option.some.injEq] at h <;> subst h <;> simp at hp <;> omega
  · intro h
    have hk : ((i.toNat : Nat) : Int) = i := by omega
    rcases hp with rfl | rfl | rfl
    · exact ⟨.vals i, ⟨i.toNat, by omega, .inl (by rw [hk])⟩, rfl⟩
    · exact ⟨.cols i, ⟨i.toNat, by omega, .inr (.inr (by rw [hk]))⟩, rfl⟩
    · exact ⟨.rows i, ⟨i.toNat, by omega, .inr (.inl (by rw [hk]))⟩, rfl⟩

theorem mem_allLocs' {n : Nat} {i : Int} {p : Loc} (hp : p = .vals i ∨ p = .rows i ∨ p = .cols i) (hi : 0 ≤ i) :
    p ∈ allLocs n ↔ i < n := by
  rw [mem_allLocs]
  constructor
  · rintro ⟨k, hk, rfl | rfl | rfl⟩ <;> simp at hp <;> omega
  · intro h
    have hk : ((i.toNat : Nat) : Int) = i := by omega
    exact ⟨i.toNat, by omega, by rwa [hk]⟩

theorem detected_csc {E : List (Entry T)} : detected E = .CSC ↔ E.Pairwise cscLe := by
  unfold detected
  split_ifs with h1 <;> simp [h1]

theorem detected_csr {E : List (Entry T)} : detected E = .CSR ↔ ¬ E.Pairwise cscLe ∧ E.Pairwise csrLe := by
  unfold detected
  by_cases h1 : E.Pairwise cscLe <;> by_cases h2 : E.Pairwise csrLe <;> simp [h1, h2]

theorem swap_csc {E : List (Entry T)} : (E.map Entry.swap).Pairwise cscLe ↔ E.Pairwise csrLe := by
  rw [List.pairwise_map]
  exact Iff.rfl

/-- Exactly when a product that ends normally stores to a COO matrix (with `alpha ≠ 0`): every element of its three arrays is stored to if
the `sort` member announces the wrong order, or announces none and the entries are not in the required order. Otherwise no element is
stored to. The member `sort` itself is stored to if the matrix is not transposed and the member is not `CSC`. -/
theorem C110_left_spmm_stores [Zero T] [One T] [Add T] [Mul T] [BEq T] {env : Env T} (hs : SortOk env.srt) {layout : Layout} {opA opB : Op}
    {d n m : Int} {alpha : T} {ro co : Int} {B : Buf T} {ldb : Int} {beta : T} {ldc : Int} {A : CooMat T} {b : Buf T} {E : List (Entry T)}
    (h : CooIs A E) (hz : (alpha == 0) = false)
    (hok : (leftSpmm env layout opA opB d n m alpha ro co B ldb beta ldc (.coo A, b)).1 = .ok ()) :
    (∀ i : Int, 0 ≤ i → i < A.nnz → ∀ p, p = Loc.vals i ∨ p = Loc.rows i ∨ p = Loc.cols i →
      (StoresTo (leftSpmmL env layout opA opB d n m alpha ro co B ldb beta ldc) (.coo A, b) p ↔
        ¬ ReadySorted (.coo A) opA ∧ (A.sort = .None → ¬ InOrder opA E))) ∧
    (StoresTo (leftSpmmL env layout opA opB d n m alpha ro co B ldb beta ldc) (.coo A, b) .object ↔ opA = .NoTrans ∧ A.sort ≠ .CSC) := by
  by_cases hr : ReadySorted (.coo A) opA
  · have hn := leftSpmmL_noStores (env := env) (layout := layout) (opA := opA) (opB := opB) (d := d) (n := n) (m := m) (alpha := alpha)
      (ro := ro) (co := co) (B := B) (ldb := ldb) (beta := beta) (ldc := ldc) (s := (.coo A, b)) (fun _ => hr) []
    have hno : ∀ p, ¬ StoresTo (leftSpmmL env layout opA opB d n m alpha ro co B ldb beta ldc) (.coo A, b) p := by
      intro p hp
      unfold StoresTo at hp
      rw [hn] at hp
      cases hp
    refine ⟨fun i _ _ p _ => ⟨fun hp => absurd hp (hno p), fun hp => absurd hr hp.1⟩, fun hp => absurd hp (hno _), ?_⟩
    rintro ⟨rfl, hc⟩
    exact absurd hr hc
  · obtain ⟨l', hsh⟩ := leftSpmmL_shadow (env := env) (layout := layout) (opA := opA) (opB := opB) (d := d) (n := n) (m := m) (alpha := alpha)
      (ro := ro) (co := co) (B := B) (ldb := ldb) (beta := beta) (ldc := ldc) (.coo A, b) []
    rw [hok] at hsh
    cases opA with
    | NoTrans =>
      have hc : A.sort ≠ .CSC := hr
      have hw : M.wlp (leftSpmmL env layout .NoTrans opB d n m alpha ro co B ldb beta ldc) ((.coo A, b), []) (fun _ t =>
          t.2 = [] ++ (if detected E = .CSC then [] else allLocs E.length) ++ [.object] ++ (if A.sort = .CSR then allLocs E.length else []) ++ [.object])
          (fun _ _ => True) := by
        unfold leftSpmmL asCooL zoomL
        rw [M.wlp_bind, M.wlp_get]
        simp only [M.wlp_zoom]
        exact leftSpmmCooNL_log hs h hz hc
      have hl := M.wlp_ok hw hsh
      unfold StoresTo
      rw [hsh]
      simp only at hl ⊢
      rw [hl]
      refine ⟨fun i i0 i1 p hp => ?_, by simp [hc]⟩
      have hpo : p ≠ .object := by rcases hp with rfl | rfl | rfl <;> simp
      rw [h.nnz] at i1
      simp only [List.nil_append, List.mem_append, List.mem_singleton, hpo, or_false]
      cases hso : A.sort with
      | CSC => exact absurd hso hc
      | CSR =>
        simp only [if_true, mem_allLocs' hp i0, i1, or_true, true_iff]
        exact ⟨hr, fun h => by cases h⟩
      | None =>
        simp only [reduceCtorEq, if_false, List.not_mem_nil, or_false, true_imp_iff, InOrder, ← detected_csc]
        by_cases he : detected E = .CSC
        · simp [he]
        · simp only [he, if_false, mem_allLocs' hp i0, i1, true_iff, not_false_iff, and_true]
          exact hr
    | Trans =>
      have hc : A.sort ≠ .CSR := hr
      obtain ⟨At, t1, t2, -⟩ := C29_coo h
      have hts := cooTranspose_sort t1
      have htc : At.sort ≠ .CSC := by
        rw [hts]
        cases hso : A.sort with
        | CSC => simp [flipSort]
        | CSR => exact absurd hso hc
        | None => simp [flipSort]
      have hw : M.wlp (leftSpmmL env layout .Trans opB d n m alpha ro co B ldb beta ldc) ((.coo A, b), []) (fun _ t =>
          t.2 = [] ++ ([] ++ (if detected (E.map Entry.swap) = NonzeroSort.CSC then [] else allLocs (E.map Entry.swap).length) ++ [Loc.object] ++
            (if At.sort = NonzeroSort.CSR then allLocs (E.map Entry.swap).length else []) ++ [Loc.object]).filterMap Loc.swap)
          (fun _ _ => True) := by
        unfold leftSpmmL asCooTL
        rw [M.wlp_bind, M.wlp_get]
        simp only [M.wlp_bind, wlp_quiet, M.wlp_lift, t1, reduceCtorEq, implies_true, and_true, Res.ok.injEq]
        rintro a rfl
        rw [M.wlp_zoom]
        refine M.wlp_mono (leftSpmmCooNL_log hs t2 hz htc) (fun _ t ht => ?_) fun _ _ h => h
        rw [ht]
      have hl := M.wlp_ok hw hsh
      unfold StoresTo
      rw [hsh]
      simp only at hl ⊢
      rw [hl]
      have hno : ∀ q : List Loc, Loc.object ∉ q.filterMap Loc.swap := by
        intro q hq
        obtain ⟨x, -, hx⟩ := List.mem_filterMap.1 hq
        cases x <;> simp [Loc.swap] at hx
      refine ⟨fun i i0 i1 p hp => ?_, ⟨fun h => absurd h (hno _), fun h => by cases h.1⟩⟩
      rw [h.nnz] at i1
      simp only [List.nil_append, List.filterMap_append, List.mem_append, List.length_map]
      have hob : p ∉ List.filterMap Loc.swap [Loc.object] := by simp [Loc.swap]
      simp only [hob, or_false]
      cases hso : A.sort with
      | CSR => exact absurd hso hc
      | CSC =>
        have : At.sort = .CSR := by rw [hts, hso]; rfl
        simp only [this, if_true, mem_swap_allLocs hp i0, i1, or_true, true_iff]
        exact ⟨hr, fun h => by cases h⟩
      | None =>
        have : At.sort ≠ .CSR := by rw [hts, hso]; simp [flipSort]
        simp only [this, if_false, List.filterMap_nil, List.not_mem_nil, or_false, true_imp_iff, InOrder, ← swap_csc, ← detected_csc]
        by_cases he : detected (E.map Entry.swap) = .CSC
        · simp [he]
        · simp only [he, if_false, mem_swap_allLocs hp i0, i1, true_iff, not_false_iff, and_true]
          exact hr

/-! ## Two products at the same time -/

theorem foldN_res_ub {α : Type} {n : Nat} {body : Nat → α → Res α} {a : α} (h : body 0 a = .ub) : foldN (n + 1) body a = .ub := by
  induction n with
  | zero => exact h
  | succ n ih => show (foldN (n + 1) body a >>= body (n + 1)) = .ub; rw [ih]; rfl

theorem cooSortType_race {nnz : Int} {rows cols : Buf Int} (hn : 2 ≤ nnz) (h : rows 0 = .uninit) : cooSortType nnz rows cols = .ub := by
  have hr : rows.rd (1 + ((0 : Nat) : Int) - 1) = .ub := by
    show rows.rd 0 = .ub
    unfold Buf.rd
    rw [h]
  obtain ⟨k, hk⟩ : ∃ k : Nat, (nnz - 1).toNat = k + 1 := ⟨(nnz - 1).toNat - 1, by omega⟩
  unfold cooSortType foldI
  rw [hk, foldN_res_ub]
  · rfl
  · beta_reduce
    rw [hr]
    rfl

theorem M.ok_of_bind {σ α β : Type} {m : M σ α} {f : α → M σ β} {s : σ} {b : β} (h : ((m >>= f) s).1 = .ok b) :
    ∃ a s', m s = (.ok a, s') ∧ (f a s').1 = .ok b := by
  rcases hm : m s with ⟨r, s'⟩
  cases r with
  | ok a => rw [M.bind_ok hm] at h; exact ⟨a, s', rfl, h⟩
  | throw e => rw [M.bind_throw hm] at h; cases h
  | ub => rw [M.bind_ub hm] at h; cases h

theorem M.require_of_ok {σ β : Type} {c : Prop} [Decidable c] {f : Unit → M σ β} {s : σ} {b : β} (h : ((M.require c >>= f) s).1 = .ok b) :
    c ∧ (f () s).1 = .ok b := by
  by_cases hc : c
  · refine ⟨hc, ?_⟩
    rw [show M.require c = (pure () : M σ Unit) from by unfold M.require Res.require; rw [if_pos hc]; rfl] at h
    exact h
  · exfalso
    rw [show M.require c = (M.throw .require : M σ Unit) from by unfold M.require Res.require; rw [if_neg hc]; rfl] at h
    cases h

theorem leftSpmmCooN_race [Zero T] [Add T] [Mul T] [BEq T]
    {srt : (Int × Int × T → Int × Int × T → Bool) → List (Int × Int × T) → List (Int × Int × T)}
    {sched : List Nat} {layout : Layout} {opB : Op} {d n m : Int} {alpha : T} {ro co : Int} {B : Buf T} {ldb : Int} {beta : T} {ldc : Int}
    {A A' : CooMat T} {b : Buf T} (h : (leftSpmmCooN srt sched layout opB d n m alpha ro co B ldb beta ldc (A, b)).1 = .ok ())
    (hz : (alpha == 0) = false) (hs : A.sort ≠ .CSC) (h1 : A'.nRows = A.nRows) (h2 : A'.nCols = A.nCols) (h3 : A'.indexBase = A.indexBase)
    (h4 : A'.sort = A.sort) (h5 : 2 ≤ A'.nnz) (h6 : ptr A'.rows 0 = .uninit) :
    M.Undef (leftSpmmCooN srt sched layout opB d n m alpha ro co B ldb beta ldc) (A', b) := by
  unfold leftSpmmCooN at h ⊢
  obtain ⟨_, _, e0, h⟩ := M.ok_of_bind h
  cases e0
  obtain ⟨c1, h⟩ := M.require_of_ok h
  obtain ⟨c2, h⟩ := M.require_of_ok h
  obtain ⟨c3, h⟩ := M.require_of_ok h
  obtain ⟨_, s1, e1, h⟩ := M.ok_of_bind h
  clear h
  have key : ∀ {c : Prop} [Decidable c] {f : Unit → M (CooMat T × Buf T) Unit} {s}, c → M.Undef (f ()) s → M.Undef (M.require c >>= f) s := by
    intro c _ f s hc hf
    rw [show M.require c = (pure () : M (CooMat T × Buf T) Unit) from by unfold M.require Res.require; rw [if_pos hc]; rfl]
    exact hf
  refine M.Undef.after ?_
  rw [M.wp_get]
  refine key (by rw [h3]; exact c1) (key (by rw [h1]; exact c2) (key (by rw [h2]; exact c3) (M.Undef.after ?_)))
  have hscale : (spmmScale layout opB d n m ldb beta ldc b).1 = .ok () := by
    unfold onC M.zoom at e1
    rcases hsc : spmmScale layout opB d n m ldb beta ldc b with ⟨r, b'⟩
    simp only [hsc, Prod.mk.injEq] at e1
    exact e1.1
  rcases hsc : spmmScale layout opB d n m ldb beta ldc b with ⟨r, b'⟩
  rw [hsc] at hscale
  subst hscale
  refine ⟨(), (A', b'), ?_, ?_⟩
  · unfold onC M.zoom
    simp only [hsc]
  · rw [if_neg (by simp [hz])]
    unfold cooLeftJki
    refine M.Undef.after ?_
    rw [M.wp_get]
    refine key (by rw [h3]; exact c1) ?_
    rw [if_pos (by rw [h4]; exact hs)]
    refine M.Undef.bind (M.Undef.zoom ?_)
    unfold sortCooData
    refine M.Undef.after ?_
    rw [M.wp_get]
    refine M.Undef.bind (M.Undef.zoom ?_)
    unfold sortCooRaw
    rw [if_neg (by simp)]
    refine M.Undef.after ?_
    rw [M.wp_get]
    refine M.Undef.bind ?_
    show M.Undef (M.lift (cooSortType A'.nnz (ptr A'.rows) (ptr A'.cols))) _
    rw [cooSortType_race h5 h6]
    exact M.Undef.lift

/-- Two products that share a COO matrix whose order is not announced by `sort` and is not the one the first product needs (or whose
announced order is wrong for both): if they run at the same time, the second may load elements that the first stores to. This is a data
race, although each of the two calls alone ends normally and both only use the matrix as an input. -/
theorem C110_left_spmm_race [Zero T] [One T] [Add T] [Mul T] [BEq T] {env : Env T} (hs : SortOk env.srt) {A : CooMat T} {E : List (Entry T)}
    (h : CooIs A E) (hE : 2 ≤ A.nnz)
    {layout : Layout} {opA opB : Op} {d n m : Int} {alpha : T} {ro co : Int} {B : Buf T} {ldb : Int} {beta : T} {ldc : Int} {b : Buf T}
    (hz : (alpha == 0) = false) (hr : ¬ ReadySorted (.coo A) opA) (hn : A.sort = .None → ¬ InOrder opA E)
    (hok : (leftSpmm env layout opA opB d n m alpha ro co B ldb beta ldc (.coo A, b)).1 = .ok ())
    {layout' : Layout} {opA' opB' : Op} {d' n' m' : Int} {alpha' : T} {ro' co' : Int} {B' : Buf T} {ldb' : Int} {beta' : T} {ldc' : Int}
    {b' : Buf T} (hz' : (alpha' == 0) = false) (hr' : ¬ ReadySorted (.coo A) opA')
    (hok' : (leftSpmm env layout' opA' opB' d' n' m' alpha' ro' co' B' ldb' beta' ldc' (.coo A, b')).1 = .ok ()) :
    M.Undef (leftSpmm env layout' opA' opB' d' n' m' alpha' ro' co' B' ldb' beta' ldc')
      (.coo (racedCoo (leftSpmmL env layout opA opB d n m alpha ro co B ldb beta ldc ((.coo A, b), [])).2.2 A), b') := by
  have hst := (C110_left_spmm_stores hs h hz hok).1 0 le_rfl (by omega)
  have hrow := (hst (.rows 0) (by simp)).2 ⟨hr, hn⟩
  have hcol := (hst (.cols 0) (by simp)).2 ⟨hr, hn⟩
  unfold StoresTo at hrow hcol
  generalize (leftSpmmL env layout opA opB d n m alpha ro co B ldb beta ldc ((.coo A, b), [])).2.2 = l at hrow hcol
  have hp : ∀ (o : Option (Buf Int)) (w : Int → Prop) [DecidablePred w], w 0 → (∀ c, ptr o 0 = .val c → True) → o.isSome →
      ptr (o.map fun b => racedBuf b w) 0 = .uninit := by
    intro o w _ hw _ ho
    cases o with
    | none => cases ho
    | some b =>
      show racedBuf b w 0 = .uninit
      unfold racedBuf
      rw [if_pos hw]
  have hlen : 2 ≤ E.length := by have := h.nnz; omega
  have hE0 : 0 < (rebase A.indexBase.val E).length := by rw [rebase_length]; omega
  obtain ⟨-, g2, g3⟩ := h.data 0 hE0
  have hrs : A.rows.isSome := by
    cases hh : A.rows with
    | none => rw [hh] at g2; cases g2
    | some _ => rfl
  have hcs : A.cols.isSome := by
    cases hh : A.cols with
    | none => rw [hh] at g3; cases g3
    | some _ => rfl
  unfold leftSpmm at hok' ⊢
  obtain ⟨_, _, e0, hok'⟩ := M.ok_of_bind hok'
  cases e0
  refine M.Undef.after ?_
  rw [M.wp_get]
  cases opA' with
  | NoTrans =>
    refine M.Undef.zoom (leftSpmmCooN_race (A := A) ?_ hz' hr' rfl rfl rfl rfl hE (hp _ _ hrow (fun _ _ => trivial) hrs))
    simpa only [asCoo, M.zoom] using hok'
  | Trans =>
    obtain ⟨At, s1, e1, hok'⟩ := M.ok_of_bind hok'
    have ht : cooTranspose A = .ok At := by
      unfold M.lift at e1
      exact congrArg Prod.fst e1
    have hs1 : s1 = (.coo A, b') := by
      unfold M.lift at e1
      exact (congrArg Prod.snd e1).symm
    subst hs1
    have ht' : cooTranspose (racedCoo l A) = .ok { At with
        vals := (racedCoo l A).vals, rows := (racedCoo l A).cols, cols := (racedCoo l A).rows } := by
      unfold cooTranspose mkCooExpert at ht ⊢
      simp only [Bool.false_eq_true, if_false, Res.pure_eq, Res.ok_bind, Res.ok.injEq] at ht ⊢
      rw [← ht]
      show (if A.sort = .CSC then _ else if A.sort = .CSR then _ else _) = _
      split_ifs <;> rfl
    have hts := cooTranspose_sort ht
    have hnn : At.nnz = A.nnz := by
      unfold cooTranspose mkCooExpert at ht
      simp only [Bool.false_eq_true, if_false, Res.pure_eq, Res.ok_bind, Res.ok.injEq] at ht
      rw [← ht]
      split_ifs <;> rfl
    show M.Undef (M.lift (cooTranspose (racedCoo l A)) >>= fun At => asCooT (racedCoo l A) At _) _
    rw [ht']
    refine M.Undef.after ⟨_, _, rfl, M.Undef.zoom (leftSpmmCooN_race (A := At) ?_ hz' ?_ rfl rfl rfl rfl (by rw [hnn]; exact hE)
      (hp _ _ hcol (fun _ _ => trivial) hcs))⟩
    · simpa only [asCooT, M.zoom] using hok'
    · have : A.sort ≠ .CSR := hr'
      rw [hts]
      cases hh : A.sort <;> simp [flipSort, hh] at this ⊢

/-! ## Sketches -/

section Sk
variable [Field R] [LinearOrder R] [FloorRing R] [Zero T] [One T] [Neg T] [Add T] [Mul T] [BEq T]

/-- The view of a filled operator. -/
noncomputable def skView (S : SparseSkOp N K T) (L : List (Entry T)) : CooMat T :=
  ⟨S.nRows, S.nCols, false, S.nnz, .Zero, S.vals, S.rows, S.cols, detected L⟩

omit [Field R] [LinearOrder R] [FloorRing R] [One T] [Neg T] [Add T] [Mul T] [BEq T] [Zero T] in
theorem skView_is {S : SparseSkOp N K T} {L : List (Entry T)} (h : OpHolds S L) : CooIs (skView S L) L := by
  obtain ⟨v, r, c, h1, h2, h3, h4, h5⟩ := h
  refine ⟨h5, ?_⟩
  show CooHolds (ptr S.vals) (ptr S.rows) (ptr S.cols) (rebase IndexBase.Zero.val L)
  rw [show rebase IndexBase.Zero.val L = L from rebase_zero L, h1, h2, h3]
  exact h4

omit [BEq T] in
theorem cooViewOfSkop_eq {G : Gen N K WS R} {sqrt : T → T} {order : Int → List (Int × T) → List (Int × T)} {S : SparseSkOp N K T}
    {L : List (Entry T)} (hL : L ≠ []) (h : OpHolds S L) : cooViewOfSkop G sqrt order S = (.ok (skView S L), S) := by
  obtain ⟨v, r, c, h1, h2, h3, h4, h5⟩ := h
  have hpos : 0 < L.length := List.length_pos_iff.mpr hL
  have hd : cooSortType (L.length : Int) (ptr S.rows) (ptr S.cols) = .ok (detected L) := by
    refine cooSortType_detected (v := v) (k := 0) ?_
    rw [h2, h3, rebase_zero]
    exact h4
  unfold cooViewOfSkop
  rw [M.bind_ok (show (M.get : M (SparseSkOp N K T) _) S = (.ok S, S) from rfl),
    M.bind_ok (show M.when (S.nnz ≤ 0) _ S = (.ok (), S) by unfold M.when; rw [if_neg (by omega)]; rfl),
    M.bind_ok (show (M.get : M (SparseSkOp N K T) _) S = (.ok S, S) from rfl)]
  unfold mkCooExpert
  rw [if_pos rfl, h5, hd]
  unfold skView
  rw [h5]
  rfl

omit [BEq T] in
theorem cooViewOfSkopL_eq {G : Gen N K WS R} {sqrt : T → T} {order : Int → List (Int × T) → List (Int × T)} {S : SparseSkOp N K T}
    {L : List (Entry T)} (hL : L ≠ []) (h : OpHolds S L) (l : List Loc) :
    cooViewOfSkopL G sqrt order (S, l) = (.ok (skView S L), (S, l)) := by
  have hv := cooViewOfSkop_eq (G := G) (sqrt := sqrt) (order := order) hL h
  have hpos : 0 < L.length := List.length_pos_iff.mpr hL
  have hn : ¬ S.nnz ≤ 0 := by obtain ⟨_, _, _, _, _, _, _, h5⟩ := h; omega
  unfold cooViewOfSkop at hv
  rw [M.bind_ok (show (M.get : M (SparseSkOp N K T) _) S = (.ok S, S) from rfl),
    M.bind_ok (show M.when (S.nnz ≤ 0) _ S = (.ok (), S) by unfold M.when; rw [if_neg hn]; rfl),
    M.bind_ok (show (M.get : M (SparseSkOp N K T) _) S = (.ok S, S) from rfl)] at hv
  unfold cooViewOfSkopL
  rw [M.bind_ok (show (M.get : M (SparseSkOp N K T × List Loc) _) (S, l) = (.ok (S, l), (S, l)) from rfl),
    M.bind_ok (show M.when (S.nnz ≤ 0) _ (S, l) = (.ok (), (S, l)) by unfold M.when; rw [if_neg hn]; rfl),
    M.bind_ok (show (M.get : M (SparseSkOp N K T × List Loc) _) (S, l) = (.ok (S, l), (S, l)) from rfl)]
  unfold quiet M.zoom
  simp only [hv]

omit [Neg T] in
/-- What the stores of a product on the view mean for the operator. -/
theorem skView_stores {env : Env T} (hs : SortOk env.srt) {layout : Layout} {opS opA : Op} {d n m : Int} {alpha : T} {ro co : Int} {A : Buf T}
    {lda : Int} {beta : T} {ldb : Int} {S : SparseSkOp N K T} {L : List (Entry T)} (h : OpHolds S L) {b : Buf T} (hz : (alpha == 0) = false)
    (hok : (leftSpmm env layout opS opA d n m alpha ro co A lda beta ldb (.coo (skView S L), b)).1 = .ok ()) :
    (∀ i : Int, 0 ≤ i → i < S.nnz → ∀ p, p = Loc.vals i ∨ p = Loc.rows i ∨ p = Loc.cols i →
      (p ∈ (leftSpmmL env layout opS opA d n m alpha ro co A lda beta ldb ((.coo (skView S L), b), [])).2.2.filter (· ≠ .object) ↔
        ¬ SketchSorted opS L)) ∧
    Loc.object ∉ (leftSpmmL env layout opS opA d n m alpha ro co A lda beta ldb ((.coo (skView S L), b), [])).2.2.filter (· ≠ .object) := by
  refine ⟨fun i i0 i1 p hp => ?_, by simp⟩
  have hpo : p ≠ .object := by rcases hp with rfl | rfl | rfl <;> simp
  rw [List.mem_filter]
  simp only [ne_eq, hpo, not_false_eq_true, decide_true, and_true]
  refine ((C110_left_spmm_stores hs (skView_is h) hz hok).1 i i0 i1 p hp).trans ?_
  have hsort : (skView S L).sort = detected L := rfl
  cases opS with
  | NoTrans =>
    simp only [ReadySorted, hsort, detected_csc, InOrder, SketchSorted]
    exact ⟨fun h => h.1, fun h => ⟨h, fun _ => h⟩⟩
  | Trans =>
    simp only [ReadySorted, hsort, detected_csr, InOrder, SketchSorted]
    constructor
    · rintro ⟨h, -⟩ ⟨h1, h2⟩
      exact h ⟨h2, h1⟩
    · intro h
      refine ⟨fun h' => h ⟨h'.2, h'.1⟩, fun hno hc => ?_⟩
      have h1 : ¬ L.Pairwise cscLe := fun hc' => by rw [detected_csc.2 hc'] at hno; cases hno
      exact h ⟨hc, h1⟩

variable {E : SkEnv N K W WS R T} {layout : Layout} {d n m : Int} {alpha : T} {roS coS : Int} {A : Buf T} {lda : Int} {beta : T} {ldb : Int}
  {b : Buf T}

theorem lskgesView_eq {opS opA : Op} {S : SparseSkOp N K T} {L : List (Entry T)} (hL : L ≠ []) (h : OpHolds S L) :
    (lskgesView E layout opS opA d n m alpha roS coS A lda beta ldb (S, b)).1 =
      (leftSpmm E.env layout opS opA d n m alpha roS coS A lda beta ldb (.coo (skView S L), b)).1 := by
  unfold lskgesView
  rw [M.bind_ok (show onSp (cooViewOfSkop E.GS E.sqrt E.order) (S, b) = (.ok (skView S L), (S, b)) by
    unfold onSp M.zoom; simp only [cooViewOfSkop_eq hL h])]
  rfl

theorem lskgesViewL_eq {opS opA : Op} {S : SparseSkOp N K T} {L : List (Entry T)} (hL : L ≠ []) (h : OpHolds S L) (l : List Loc) :
    (lskgesViewL E layout opS opA d n m alpha roS coS A lda beta ldb ((S, b), l)).2.2 =
      l ++ (leftSpmmL E.env layout opS opA d n m alpha roS coS A lda beta ldb ((.coo (skView S L), b), [])).2.2.filter (· ≠ .object) := by
  unfold lskgesViewL
  rw [M.bind_ok (show zoomL Prod.fst (fun s b => (b, s.2)) (cooViewOfSkopL E.GS E.sqrt E.order) ((S, b), l) = (.ok (skView S L), ((S, b), l)) by
    unfold zoomL M.zoom; simp only [cooViewOfSkopL_eq hL h])]
  rfl

theorem lskges_eq {opS opA : Op} {S : SparseSkOp N K T} (hn : 0 ≤ S.nnz) :
    lskges E layout opS opA d n m alpha roS coS A lda beta ldb (S, b) = lskgesView E layout opS opA d n m alpha roS coS A lda beta ldb (S, b) := by
  unfold lskges
  rw [M.bind_ok (show (M.get : M (SparseSkOp N K T × Buf T) _) (S, b) = (.ok (S, b), (S, b)) from rfl)]
  rw [if_neg (by simpa using hn)]

theorem lskgesL_eq {opS opA : Op} {S : SparseSkOp N K T} (hn : 0 ≤ S.nnz) (l : List Loc) :
    lskgesL E layout opS opA d n m alpha roS coS A lda beta ldb ((S, b), l) =
      lskgesViewL E layout opS opA d n m alpha roS coS A lda beta ldb ((S, b), l) := by
  unfold lskgesL
  rw [M.bind_ok (show (M.get : M ((SparseSkOp N K T × Buf T) × List Loc) _) ((S, b), l) = (.ok ((S, b), l), ((S, b), l)) from rfl)]
  rw [if_neg (by simpa using hn)]

theorem rskges_eq {opA opS : Op} {S : SparseSkOp N K T} (hn : 0 ≤ S.nnz) :
    rskges E layout opA opS m d n alpha A lda roS coS beta ldb (S, b) =
      lskgesView E layout.flip opS.flip opA d m n alpha roS coS A lda beta ldb (S, b) := by
  unfold rskges
  rw [M.bind_ok (show (M.get : M (SparseSkOp N K T × Buf T) _) (S, b) = (.ok (S, b), (S, b)) from rfl),
    M.bind_ok (show M.when (S.nnz < 0) _ (S, b) = (.ok (), (S, b)) by unfold M.when; rw [if_neg (by omega)]; rfl)]
  rfl

theorem rskgesL_eq {opA opS : Op} {S : SparseSkOp N K T} (hn : 0 ≤ S.nnz) (l : List Loc) :
    rskgesL E layout opA opS m d n alpha A lda roS coS beta ldb ((S, b), l) =
      lskgesViewL E layout.flip opS.flip opA d m n alpha roS coS A lda beta ldb ((S, b), l) := by
  unfold rskgesL
  rw [M.bind_ok (show (M.get : M ((SparseSkOp N K T × Buf T) × List Loc) _) ((S, b), l) = (.ok ((S, b), l), ((S, b), l)) from rfl),
    M.bind_ok (show quiet (M.when (S.nnz < 0) _) ((S, b), l) = (.ok (), ((S, b), l)) by
      unfold M.when; rw [if_neg (by omega)]; rfl)]
  rfl

omit [BEq T] in
theorem filledCopy_snd {σ : Type} {S : SparseSkOp N K T} (s : σ) : (filledCopy E S s).2 = s := by
  unfold filledCopy
  have h : (M.onLocal (fillSparse E.GS E.sqrt E.order) (mkSparseSkOp E.GS.len S.dist S.seedState) s).2 = s := by
    unfold M.onLocal
    split <;> rfl
  rcases hm : M.onLocal (fillSparse E.GS E.sqrt E.order) (mkSparseSkOp E.GS.len S.dist S.seedState) s with ⟨r, s'⟩
  rw [hm] at h
  cases r with
  | ok a => rw [M.bind_ok hm]; exact h
  | throw e => rw [M.bind_throw hm]; exact h
  | ub => rw [M.bind_ub hm]; exact h

theorem wlp_keep {σ α : Type} {m : M σ α} {s : σ} (h : (m s).2 = s) : M.wlp m s (fun _ t => t = s) (fun _ _ => True) := by
  rcases hm : m s with ⟨r, s'⟩
  rw [hm] at h
  unfold M.wlp
  rw [hm]
  cases r with
  | ok a => exact h
  | throw e => trivial
  | ub => trivial

/-- Sketches with a dense operator, filled or not, store nothing to the operator and leave it as it is. -/
theorem C110_dense_reads (opS opA : Op) (S : DenseSkOp N K T) :
    NoStores (sketchGeneralLL E layout opS opA d n m alpha roS coS A lda beta ldb) (.dense S, b) ∧
    NoStores (sketchGeneralRL E layout opA opS m d n alpha A lda roS coS beta ldb) (.dense S, b) ∧
    (sketchGeneralL E layout opS opA d n m alpha roS coS A lda beta ldb (.dense S, b)).2.1 = .dense S ∧
    (sketchGeneralR E layout opA opS m d n alpha A lda roS coS beta ldb (.dense S, b)).2.1 = .dense S :=
  ⟨NoStores.get fun _ => NoStores.quiet, NoStores.get fun _ => NoStores.quiet, rfl, rfl⟩

/-- A sketch from the left with a sparse operator that has not been filled stores nothing to the operator and leaves it as it is: it works
on a copy. -/
theorem C110_unfilled_left_reads (opS opA : Op) (S : SparseSkOp N K T) (hS : S.nnz < 0) :
    NoStores (sketchGeneralLL E layout opS opA d n m alpha roS coS A lda beta ldb) (.sparse S, b) ∧
    (sketchGeneralL E layout opS opA d n m alpha roS coS A lda beta ldb (.sparse S, b)).2.1 = .sparse S := by
  constructor
  · refine NoStores.get fun l => NoStores.zoomL (NoStores.get fun l => ?_)
    rw [if_pos (by simpa using hS)]
    exact NoStores.quiet.bind fun _ _ _ => NoStores.quiet.bind fun _ _ _ => NoStores.quiet
  · show SkOp.sparse (lskges E layout opS opA d n m alpha roS coS A lda beta ldb (S, b)).2.1 = _
    congr 1
    have key : ∀ {α β : Type} {m : M (SparseSkOp N K T × Buf T) α} {f : α → M (SparseSkOp N K T × Buf T) β} {b : Buf T}, (m (S, b)).2.1 = S →
        (∀ a b', (f a (S, b')).2.1 = S) → ((m >>= f) (S, b)).2.1 = S := by
      intro α β m f b h1 h2
      rcases hm : m (S, b) with ⟨r, S', b'⟩
      rw [hm] at h1
      obtain rfl : S' = S := h1
      cases r with
      | ok a => rw [M.bind_ok hm]; exact h2 a b'
      | throw e => rw [M.bind_throw hm]
      | ub => rw [M.bind_ub hm]
    unfold lskges
    rw [M.bind_ok (show (M.get : M (SparseSkOp N K T × Buf T) _) (S, b) = (.ok (S, b), (S, b)) from rfl), if_pos (by simpa using hS)]
    exact key (by rw [filledCopy_snd]) fun S' b' => key rfl fun _ _ => rfl

/-- C110 for filled sparse operators, from the left: exactly when a sketch that ends normally (with `alpha ≠ 0`) stores to the arrays of
the operator. It stores to all of their elements unless the entries are in the order `SketchSorted`. -/
theorem C110_sketch_left_stores (hs : SortOk E.env.srt) {opS opA : Op} {S : SparseSkOp N K T} {L : List (Entry T)} (hL : L ≠ []) (h : OpHolds S L)
    (hz : (alpha == 0) = false)
    (hok : (sketchGeneralL E layout opS opA d n m alpha roS coS A lda beta ldb (.sparse S, b)).1 = .ok ()) :
    (∀ i : Int, 0 ≤ i → i < S.nnz → ∀ p, p = Loc.vals i ∨ p = Loc.rows i ∨ p = Loc.cols i →
      (StoresTo (sketchGeneralLL E layout opS opA d n m alpha roS coS A lda beta ldb) (.sparse S, b) p ↔ ¬ SketchSorted opS L)) ∧
    ¬ StoresTo (sketchGeneralLL E layout opS opA d n m alpha roS coS A lda beta ldb) (.sparse S, b) .object := by
  have hn : 0 ≤ S.nnz := by obtain ⟨_, _, _, _, _, _, _, h5⟩ := h; omega
  have hok1 : (lskges E layout opS opA d n m alpha roS coS A lda beta ldb (S, b)).1 = .ok () := hok
  rw [lskges_eq hn, lskgesView_eq hL h] at hok1
  have hlog : (sketchGeneralLL E layout opS opA d n m alpha roS coS A lda beta ldb ((.sparse S, b), [])).2.2 =
      (lskgesL E layout opS opA d n m alpha roS coS A lda beta ldb ((S, b), [])).2.2 := rfl
  unfold StoresTo
  rw [hlog, lskgesL_eq hn, lskgesViewL_eq hL h, List.nil_append]
  exact skView_stores hs h hz hok1

/-- C110 for filled sparse operators, from the right: the order is the one for the transpose. -/
theorem C110_sketch_right_stores (hs : SortOk E.env.srt) {opA opS : Op} {S : SparseSkOp N K T} {L : List (Entry T)} (hL : L ≠ []) (h : OpHolds S L)
    (hz : (alpha == 0) = false)
    (hok : (sketchGeneralR E layout opA opS m d n alpha A lda roS coS beta ldb (.sparse S, b)).1 = .ok ()) :
    (∀ i : Int, 0 ≤ i → i < S.nnz → ∀ p, p = Loc.vals i ∨ p = Loc.rows i ∨ p = Loc.cols i →
      (StoresTo (sketchGeneralRL E layout opA opS m d n alpha A lda roS coS beta ldb) (.sparse S, b) p ↔ ¬ SketchSorted opS.flip L)) ∧
    ¬ StoresTo (sketchGeneralRL E layout opA opS m d n alpha A lda roS coS beta ldb) (.sparse S, b) .object := by
  have hn : 0 ≤ S.nnz := by obtain ⟨_, _, _, _, _, _, _, h5⟩ := h; omega
  have hok1 : (rskges E layout opA opS m d n alpha A lda roS coS beta ldb (S, b)).1 = .ok () := hok
  rw [rskges_eq hn, lskgesView_eq hL h] at hok1
  have hlog : (sketchGeneralRL E layout opA opS m d n alpha A lda roS coS beta ldb ((.sparse S, b), [])).2.2 =
      (rskgesL E layout opA opS m d n alpha A lda roS coS beta ldb ((S, b), [])).2.2 := rfl
  unfold StoresTo
  rw [hlog, rskgesL_eq hn, lskgesViewL_eq hL h, List.nil_append]
  exact skView_stores hs h hz hok1

/-- A sketch from the right with a sparse operator that has not been filled stores to the operator, whenever it ends normally: it fills it.
(From the left the same call leaves the operator alone.) -/
theorem C110_unfilled_right_stores {opA opS : Op} {S : SparseSkOp N K T} (hS : S.nnz < 0)
    (hok : (sketchGeneralR E layout opA opS m d n alpha A lda roS coS beta ldb (.sparse S, b)).1 = .ok ()) :
    StoresTo (sketchGeneralRL E layout opA opS m d n alpha A lda roS coS beta ldb) (.sparse S, b) .object := by
  obtain ⟨l', hsh⟩ := sketchGeneralRL_shadow (E := E) (layout := layout) (opA := opA) (opS := opS) (d := d) (n := n) (m := m) (alpha := alpha)
    (roS := roS) (coS := coS) (A := A) (lda := lda) (beta := beta) (ldb := ldb) (.sparse S, b) []
  rw [hok] at hsh
  have hw : M.wlp (rskgesL E layout opA opS m d n alpha A lda roS coS beta ldb) ((S, b), []) (fun _ t => Loc.object ∈ t.2) (fun _ _ => True) := by
    unfold rskgesL
    rw [M.wlp_bind, M.wlp_get, M.wlp_bind, wlp_quiet]
    have hkeep : M.wlp (M.when (S.nnz < 0) (do
        let S' ← filledCopy E S
        M.ubIf (S'.nnz < 0)
        M.zoom (fun s => (S', s.2)) (fun s r => (s.1, r.2)) (rskgesView E layout opA opS m d n alpha A lda roS coS beta ldb)))
        (S, b) (fun _ t => t.1 = S) (fun _ _ => True) := by
      unfold M.when
      rw [if_pos hS, M.wlp_bind]
      refine M.wlp_mono (wlp_keep (filledCopy_snd _)) (fun S' t ht => ?_) fun _ _ h => h
      rw [M.wlp_bind]
      refine M.wlp_mono (wlp_keep (m := M.ubIf (S'.nnz < 0)) rfl) (fun _ u hu => ?_) fun _ _ h => h
      rw [M.wlp_zoom]
      exact M.wlp_mono M.wlp_trivial (fun _ _ _ => by rw [hu, ht]) fun _ _ h => h
    refine M.wlp_mono hkeep (fun _ t ht => ?_) fun _ _ h => h
    unfold rskgesViewL
    rw [M.wlp_bind]
    unfold zoomL
    rw [M.wlp_zoom]
    refine M.wlp_mono (Q := fun _ u => Loc.object ∈ u.2) (E := fun _ _ => True) ?_ (fun V u hu => ?_) fun _ _ h => h
    · unfold cooViewOfSkopL
      rw [M.wlp_bind, M.wlp_get, M.wlp_bind]
      unfold M.when
      rw [if_pos (by simp only [ht]; omega)]
      refine wlp_noting (M.wlp_mono M.wlp_trivial (fun _ u _ => ?_) fun _ _ _ => trivial)
      rw [M.wlp_bind, M.wlp_get, wlp_quiet]
      exact M.wlp_mono M.wlp_trivial (fun _ u _ => by simp) fun _ _ _ => trivial
    · unfold onSkArraysL
      rw [M.wlp_zoom]
      refine M.wlp_mono M.wlp_trivial (fun _ v _ => ?_) fun _ _ h => h
      exact List.mem_append_left _ hu
  have hl : (sketchGeneralRL E layout opA opS m d n alpha A lda roS coS beta ldb ((.sparse S, b), [])).2.2 =
      (rskgesL E layout opA opS m d n alpha A lda roS coS beta ldb ((S, b), [])).2.2 := rfl
  have h1 : (sketchGeneralRL E layout opA opS m d n alpha A lda roS coS beta ldb ((.sparse S, b), [])).1 =
      (rskgesL E layout opA opS m d n alpha A lda roS coS beta ldb ((S, b), [])).1 := rfl
  rw [hsh] at h1
  unfold StoresTo
  rw [hl]
  rcases hr : rskgesL E layout opA opS m d n alpha A lda roS coS beta ldb ((S, b), []) with ⟨r, t⟩
  rw [hr] at h1
  obtain rfl : r = .ok () := h1.symm
  have := M.wlp_ok hw hr
  exact this

/-- Two sketches that share a filled sparse operator with at least two entries, not in the order of the first sketch: if they run at the same
time, the second may load elements that the first stores to, whatever its own arguments are. This is a data race. -/
theorem C110_sketch_race (hs : SortOk E.env.srt) {opS opA : Op} {S : SparseSkOp N K T} {L : List (Entry T)} (hL : 2 ≤ L.length) (h : OpHolds S L)
    (hz : (alpha == 0) = false) (hno : ¬ SketchSorted opS L)
    (hok : (sketchGeneralL E layout opS opA d n m alpha roS coS A lda beta ldb (.sparse S, b)).1 = .ok ())
    {layout' : Layout} {opS' opA' : Op} {d' n' m' : Int} {alpha' : T} {ro' co' : Int} {A' : Buf T} {lda' : Int} {beta' : T} {ldb' : Int}
    {b' : Buf T} :
    M.Undef (sketchGeneralL E layout' opS' opA' d' n' m' alpha' ro' co' A' lda' beta' ldb') (.sparse (racedOp
      (sketchGeneralLL E layout opS opA d n m alpha roS coS A lda beta ldb ((.sparse S, b), [])).2.2 S), b') ∧
    M.Undef (sketchGeneralR E layout' opA' opS' m' d' n' alpha' A' lda' ro' co' beta' ldb') (.sparse (racedOp
      (sketchGeneralLL E layout opS opA d n m alpha roS coS A lda beta ldb ((.sparse S, b), [])).2.2 S), b') := by
  have hne : L ≠ [] := by rintro rfl; simp at hL
  obtain ⟨v, r, c, h1, h2, h3, h4, h5⟩ := h
  have hrow := ((C110_sketch_left_stores hs hne ⟨v, r, c, h1, h2, h3, h4, h5⟩ hz hok).1 0 le_rfl (by omega) (.rows 0) (by simp)).2 hno
  unfold StoresTo at hrow
  generalize (sketchGeneralLL E layout opS opA d n m alpha roS coS A lda beta ldb ((.sparse S, b), [])).2.2 = l at hrow
  have hr0 : ptr (racedOp l S).rows 0 = .uninit := by
    unfold racedOp
    simp only [h2, Option.map_some]
    show racedBuf r (fun i => Loc.rows i ∈ l) 0 = .uninit
    unfold racedBuf
    rw [if_pos hrow]
  have hn : 0 ≤ (racedOp l S).nnz := by show 0 ≤ S.nnz; omega
  have hview : ∀ b0 : Buf T, onSp (cooViewOfSkop E.GS E.sqrt E.order) (racedOp l S, b0) = (.ub, (racedOp l S, b0)) := by
    intro b0
    have hu : cooViewOfSkop E.GS E.sqrt E.order (racedOp l S) = (.ub, racedOp l S) := by
      unfold cooViewOfSkop
      rw [M.bind_ok (show (M.get : M (SparseSkOp N K T) _) (racedOp l S) = (.ok (racedOp l S), racedOp l S) from rfl),
        M.bind_ok (show M.when ((racedOp l S).nnz ≤ 0) _ (racedOp l S) = (.ok (), racedOp l S) by
          unfold M.when; rw [if_neg (by show ¬ S.nnz ≤ 0; omega)]; rfl),
        M.bind_ok (show (M.get : M (SparseSkOp N K T) _) (racedOp l S) = (.ok (racedOp l S), racedOp l S) from rfl)]
      unfold mkCooExpert
      rw [if_pos rfl, cooSortType_race (by show 2 ≤ S.nnz; omega) hr0]
      rfl
    unfold onSp M.zoom
    simp only [hu]
  have hundef : ∀ lay o1 o2 (d n m : Int), M.Undef (lskgesView E lay o1 o2 d n m alpha' ro' co' A' lda' beta' ldb') (racedOp l S, b') := by
    intro lay o1 o2 d n m
    unfold lskgesView M.Undef
    rw [M.bind_ub (hview b')]
  constructor
  · show (lskges E layout' opS' opA' d' n' m' alpha' ro' co' A' lda' beta' ldb' (racedOp l S, b')).1 = .ub
    rw [lskges_eq hn]
    exact hundef _ _ _ _ _ _
  · show (rskges E layout' opA' opS' m' d' n' alpha' A' lda' ro' co' beta' ldb' (racedOp l S, b')).1 = .ub
    rw [rskges_eq hn]
    exact hundef _ _ _ _ _ _

/-! ## sketch_sparse -/

theorem quiet_step {σ α β : Type} {m : M σ α} {f : α → M (σ × List Loc) β} {s : σ} {l : List Loc} {r : β} (hm : (m s).2 = s)
    (h : ((quiet m >>= f) (s, l)).1 = .ok r) : ∃ a, (quiet m >>= f) (s, l) = f a (s, l) := by
  obtain ⟨a, s', h1, -⟩ := M.ok_of_bind h
  refine ⟨a, ?_⟩
  have h2 : s' = (s, l) := by
    unfold quiet M.zoom at h1
    rcases hh : m s with ⟨x, y⟩
    rw [hh] at hm h1
    simp only [Prod.mk.injEq] at h1 hm
    rw [← h1.2, hm]
  rw [M.bind_ok h1, h2]

omit [Neg T] [Field R] [LinearOrder R] [FloorRing R] in
theorem rsksp3ViewL_reduce {env : Env T} {opA opS : Op} {V : BFO T} {s : SpMat T × Buf T} {l : List Loc}
    (h : (rsksp3ViewL env layout opA opS m d n alpha 0 0 V roS coS beta ldb (s, l)).1 = .ok ()) :
    ∃ opB B ldb', rsksp3ViewL env layout opA opS m d n alpha 0 0 V roS coS beta ldb (s, l) =
      leftSpmmL env layout opA opB m d n alpha 0 0 B ldb' beta ldb (s, l) := by
  unfold rsksp3ViewL at h ⊢
  obtain ⟨sb, e1⟩ := quiet_step (by unfold BFO.getBuff; cases V.buff <;> rfl) h
  rw [e1] at h ⊢
  rw [M.bind_ok (show (M.get : M ((SpMat T × Buf T) × List Loc) _) (s, l) = (.ok (s, l), (s, l)) from rfl)] at h ⊢
  obtain ⟨_, e2⟩ := quiet_step rfl h
  rw [e2] at h ⊢
  obtain ⟨_, e3⟩ := quiet_step rfl h
  rw [e3] at h ⊢
  obtain ⟨_, e4⟩ := quiet_step rfl h
  rw [e4] at h ⊢
  obtain ⟨_, e5⟩ := quiet_step rfl h
  rw [e5] at h ⊢
  obtain ⟨_, e6⟩ := quiet_step rfl h
  rw [e6] at h ⊢
  exact ⟨_, _, _, rfl⟩

omit [Neg T] [Field R] [LinearOrder R] [FloorRing R] in
theorem lsksp3ViewL_reduce {env : Env T} {opS opA : Op} {V : BFO T} {s : SpMat T × Buf T} {l : List Loc}
    (h : (lsksp3ViewL env layout opS opA d n m alpha V roS coS 0 0 beta ldb (s, l)).1 = .ok ()) :
    ∃ opB B ldb', lsksp3ViewL env layout opS opA d n m alpha V roS coS 0 0 beta ldb (s, l) =
      leftSpmmL env layout.flip opA.flip opB n d m alpha 0 0 B ldb' beta ldb (s, l) := by
  unfold lsksp3ViewL at h ⊢
  obtain ⟨sb, e1⟩ := quiet_step (by unfold BFO.getBuff; cases V.buff <;> rfl) h
  rw [e1] at h ⊢
  rw [M.bind_ok (show (M.get : M ((SpMat T × Buf T) × List Loc) _) (s, l) = (.ok (s, l), (s, l)) from rfl)] at h ⊢
  obtain ⟨_, e2⟩ := quiet_step rfl h
  rw [e2] at h ⊢
  obtain ⟨_, e3⟩ := quiet_step rfl h
  rw [e3] at h ⊢
  obtain ⟨_, e4⟩ := quiet_step rfl h
  rw [e4] at h ⊢
  obtain ⟨_, e5⟩ := quiet_step rfl h
  rw [e5] at h ⊢
  obtain ⟨_, e6⟩ := quiet_step rfl h
  rw [e6] at h ⊢
  exact ⟨_, _, _, rfl⟩

theorem Spec.NoStores.keep {σ α β : Type} {m : M σ α} {fL : α → M (σ × List Loc) β} {s : σ} (hm : (m s).2 = s) (hf : ∀ a, NoStores (fL a) s) :
    NoStores (RB.quiet m >>= fL) s := by
  refine NoStores.quiet.bind fun a s' h => ?_
  have h1 := quiet_ok h
  rw [h1] at hm
  obtain rfl : s' = s := hm
  exact hf a

omit [Field R] [LinearOrder R] [FloorRing R] [Neg T] in
/-- `sketch_sparse`: with a matrix in the required order (any CSC or CSR matrix, and COO matrices whose `sort` member says so), or with
`alpha = 0`, nothing is stored to the data matrix. Required are row-major order from the left and column-major order from the right, and the
opposite for the transpose. -/
theorem C110_sketch_sparse_reads (opS opA : Op) (S : DenseSkOp N K T) (D : SpMat T) :
    (((alpha == 0) = false → ReadySorted D opA.flip) →
      NoStores (sketchSparseLL E layout opS opA d n m alpha S roS coS beta ldb) (D, b)) ∧
    (((alpha == 0) = false → ReadySorted D opA) →
      NoStores (sketchSparseRL E layout opA opS m d n alpha S roS coS beta ldb) (D, b)) := by
  constructor
  · intro h
    have hv : ∀ (V : BFO T) (ro co : Int), NoStores (lsksp3ViewL E.env layout opS opA d n m alpha V ro co 0 0 beta ldb) (D, b) := by
      intro V ro co
      unfold lsksp3ViewL
      refine NoStores.keep (by unfold BFO.getBuff; cases V.buff <;> rfl) fun sb => NoStores.get fun l => ?_
      refine NoStores.keep rfl fun _ => NoStores.keep rfl fun _ => NoStores.keep rfl fun _ => NoStores.keep rfl fun _ => NoStores.keep rfl fun _ => ?_
      exact leftSpmmL_noStores h
    unfold sketchSparseLL
    split_ifs
    · exact NoStores.keep rfl fun V => hv V 0 0
    · exact hv _ _ _
  · intro h
    have hv : ∀ (V : BFO T) (ro co : Int), NoStores (rsksp3ViewL E.env layout opA opS m d n alpha 0 0 V ro co beta ldb) (D, b) := by
      intro V ro co
      unfold rsksp3ViewL
      refine NoStores.keep (by unfold BFO.getBuff; cases V.buff <;> rfl) fun sb => NoStores.get fun l => ?_
      refine NoStores.keep rfl fun _ => NoStores.keep rfl fun _ => NoStores.keep rfl fun _ => NoStores.keep rfl fun _ => NoStores.keep rfl fun _ => ?_
      exact leftSpmmL_noStores h
    unfold sketchSparseRL
    split_ifs
    · exact NoStores.keep rfl fun V => hv V 0 0
    · exact hv _ _ _

omit [Field R] [LinearOrder R] [FloorRing R] [Neg T] in
/-- `sketch_sparse` from the right with a COO matrix, when it ends normally and `alpha ≠ 0`: it stores to all elements of the arrays of the
data matrix in the same cases as `left_spmm`. -/
theorem C110_sketch_sparse_right_stores (hs : SortOk E.env.srt) {opA opS : Op} {S : DenseSkOp N K T} {D : CooMat T} {F : List (Entry T)}
    (h : CooIs D F) (hz : (alpha == 0) = false)
    (hok : (sketchSparseR E layout opA opS m d n alpha S roS coS beta ldb (.coo D, b)).1 = .ok ()) :
    ∀ i : Int, 0 ≤ i → i < D.nnz → ∀ p, p = Loc.vals i ∨ p = Loc.rows i ∨ p = Loc.cols i →
      (StoresTo (sketchSparseRL E layout opA opS m d n alpha S roS coS beta ldb) (.coo D, b) p ↔
        ¬ ReadySorted (.coo D) opA ∧ (D.sort = .None → ¬ InOrder opA F)) := by
  obtain ⟨l', hsh⟩ := sketchSparseRL_shadow (E := E) (layout := layout) (opA := opA) (opS := opS) (d := d) (n := n) (m := m) (alpha := alpha)
    (roS := roS) (coS := coS) (S := S) (beta := beta) (ldb := ldb) (.coo D, b) []
  rw [hok] at hsh
  have hokL : (sketchSparseRL E layout opA opS m d n alpha S roS coS beta ldb ((.coo D, b), [])).1 = .ok () := by rw [hsh]
  clear hsh
  obtain ⟨opB, B, ldb', hred⟩ : ∃ opB B ldb', sketchSparseRL E layout opA opS m d n alpha S roS coS beta ldb ((.coo D, b), []) =
      leftSpmmL E.env layout opA opB m d n alpha 0 0 B ldb' beta ldb ((.coo D, b), []) := by
    unfold sketchSparseRL at hokL ⊢
    split_ifs at hokL ⊢
    · obtain ⟨V, e⟩ := quiet_step rfl hokL
      rw [e] at hokL ⊢
      exact rsksp3ViewL_reduce hokL
    · exact rsksp3ViewL_reduce hokL
  rw [hred] at hokL
  unfold StoresTo
  rw [hred]
  refine (C110_left_spmm_stores hs h hz ?_).1
  rw [← (C110_same_left_spmm _ _ _ _ _ _ _ _ _ _ _ _ _ _ _ []).1]
  exact hokL

omit [Field R] [LinearOrder R] [FloorRing R] [Neg T] in
/-- `sketch_sparse` from the left: the same with row-major for column-major order. -/
theorem C110_sketch_sparse_left_stores (hs : SortOk E.env.srt) {opS opA : Op} {S : DenseSkOp N K T} {D : CooMat T} {F : List (Entry T)}
    (h : CooIs D F) (hz : (alpha == 0) = false)
    (hok : (sketchSparseL E layout opS opA d n m alpha S roS coS beta ldb (.coo D, b)).1 = .ok ()) :
    ∀ i : Int, 0 ≤ i → i < D.nnz → ∀ p, p = Loc.vals i ∨ p = Loc.rows i ∨ p = Loc.cols i →
      (StoresTo (sketchSparseLL E layout opS opA d n m alpha S roS coS beta ldb) (.coo D, b) p ↔
        ¬ ReadySorted (.coo D) opA.flip ∧ (D.sort = .None → ¬ InOrder opA.flip F)) := by
  obtain ⟨l', hsh⟩ := sketchSparseLL_shadow (E := E) (layout := layout) (opA := opA) (opS := opS) (d := d) (n := n) (m := m) (alpha := alpha)
    (roS := roS) (coS := coS) (S := S) (beta := beta) (ldb := ldb) (.coo D, b) []
  rw [hok] at hsh
  have hokL : (sketchSparseLL E layout opS opA d n m alpha S roS coS beta ldb ((.coo D, b), [])).1 = .ok () := by rw [hsh]
  clear hsh
  obtain ⟨opB, B, ldb', hred⟩ : ∃ opB B ldb', sketchSparseLL E layout opS opA d n m alpha S roS coS beta ldb ((.coo D, b), []) =
      leftSpmmL E.env layout.flip opA.flip opB n d m alpha 0 0 B ldb' beta ldb ((.coo D, b), []) := by
    unfold sketchSparseLL at hokL ⊢
    split_ifs at hokL ⊢
    · obtain ⟨V, e⟩ := quiet_step rfl hokL
      rw [e] at hokL ⊢
      exact lsksp3ViewL_reduce hokL
    · exact lsksp3ViewL_reduce hokL
  rw [hred] at hokL
  unfold StoresTo
  rw [hred]
  refine (C110_left_spmm_stores hs h hz ?_).1
  rw [← (C110_same_left_spmm _ _ _ _ _ _ _ _ _ _ _ _ _ _ _ []).1]
  exact hokL

end Sk

/-! ## Examples -/

/-- A filled 3 x 8 operator with two entries per column. -/
def exFilled : SparseSkOp (2 ^ 128) Nat ℤ := (fillSparse exSkEnv.GS exSkEnv.sqrt exSkEnv.order (mkSparseSkOp 4 exSaso ⟨0, 7⟩)).2

/-- The entries of `exFilled` are in neither order. -/
theorem exFilled_is : ∃ L, OpHolds exFilled L ∧ L.length = 16 ∧ ¬ SketchSorted .NoTrans L ∧ ¬ SketchSorted .Trans L := by
  obtain ⟨u, S', e, L, h, -, -⟩ := C11_short_axis (G := exSkEnv.GS) (sqrt := exSkEnv.sqrt) (order := exSkEnv.order)
    (S := mkSparseSkOp 4 exSaso ⟨0, 7⟩) exSkEnv_ok.genS exSkEnv_ok.sqrt exSkEnv_ok.order (mkSparseSkOp_ok 4 exSaso_ok _) rfl
  have hS : exFilled = S' := by unfold exFilled; rw [e]
  subst hS
  have hfacts : exFilled.nnz = 16 ∧ ptr exFilled.rows 0 = .val 1 ∧ ptr exFilled.rows 1 = .val 0 ∧ ptr exFilled.cols 0 = .val 0 ∧
      ptr exFilled.cols 1 = .val 0 := by decide +kernel
  obtain ⟨f0, f1, f2, f3, f4⟩ := hfacts
  obtain ⟨v, r, c, h1, h2, h3, h4, h5⟩ := h
  have hlen : L.length = 16 := by omega
  refine ⟨L, ⟨v, r, c, h1, h2, h3, h4, h5⟩, hlen, ?_⟩
  obtain ⟨-, g1, g2⟩ := h4 0 (by omega)
  obtain ⟨-, g3, g4⟩ := h4 1 (by omega)
  simp only [h2, h3, ptr, Option.getD_some] at f1 f2 f3 f4
  have k1 : L[0].row = 1 := by simpa [f1] using g1.symm
  have k2 : L[0].col = 0 := by simpa [f3] using g2.symm
  have k3 : L[1].row = 0 := by simpa [f2] using g3.symm
  have k4 : L[1].col = 0 := by simpa [f4] using g4.symm
  constructor
  · intro hp
    have := List.pairwise_iff_getElem.1 hp 0 1 (by omega) (by omega) (by omega)
    simp only [cscLe, k1, k2, k3, k4] at this
    omega
  · rintro ⟨hp, -⟩
    have := List.pairwise_iff_getElem.1 hp 0 1 (by omega) (by omega) (by omega)
    simp only [csrLe, k1, k2, k3, k4] at this
    omega

theorem alloc_col {r c k : Int} (hk : r * c ≤ k) : Alloc (Buf.alloc ℤ k) .ColMajor r r c := by
  intro i j hij
  obtain ⟨h1, h2, h3, h4⟩ := hij
  have : 0 ≤ addr .ColMajor r i j ∧ addr .ColMajor r i j < k := by
    simp only [addr]
    constructor <;> nlinarith
  simp only [Buf.alloc]
  rw [if_pos this]
  simp

theorem exVec_holds : Holds (Buf.ofList ([1, 2, 3, 4, 5, 6, 7, 8] : List ℤ)) .ColMajor 8 8 1 (fun i _ => i + 1) := by
  intro i j hij
  obtain ⟨h1, h2, h3, h4⟩ := hij
  obtain rfl : j = 0 := by omega
  obtain rfl | rfl | rfl | rfl | rfl | rfl | rfl | rfl : i = 0 ∨ i = 1 ∨ i = 2 ∨ i = 3 ∨ i = 4 ∨ i = 5 ∨ i = 6 ∨ i = 7 := by omega
  all_goals rfl

theorem exFill_ok : fillSparse exSkEnv.GS exSkEnv.sqrt exSkEnv.order (mkSparseSkOp 4 exSaso ⟨0, 7⟩) = (.ok (), exFilled) := by
  obtain ⟨u, S', e, -⟩ := C11_short_axis (G := exSkEnv.GS) (sqrt := exSkEnv.sqrt) (order := exSkEnv.order)
    (S := mkSparseSkOp 4 exSaso ⟨0, 7⟩) exSkEnv_ok.genS exSkEnv_ok.sqrt exSkEnv_ok.order (mkSparseSkOp_ok 4 exSaso_ok _) rfl
  unfold exFilled
  rw [e]

theorem exSketch_ok : (sketchGeneralL exSkEnv .ColMajor .NoTrans .NoTrans 3 1 8 1 0 0 (Buf.ofList [1, 2, 3, 4, 5, 6, 7, 8]) 8 0 3
    (.sparse exFilled, Buf.alloc ℤ 3)).1 = .ok () := by
  obtain ⟨Sm, hSm⟩ := (C14_well_defined (G := exGenQ) (sqrt := fun x : ℤ => x) (Or.inr rfl) rfl exSaso_ok (seed := ⟨0, 7⟩)).exists
  obtain ⟨u, s', e, -⟩ := C37_left_short_axis (C := fun _ _ => 0) (beta := 0) (alpha := 1) exSkEnv_ok
    (mkSparseSkOp_ok 4 exSaso_ok ⟨0, 7⟩) (by simp [mkSparseSkOp]) rfl
    hSm (Or.inr exFill_ok) (layout := .ColMajor) (opS := .NoTrans) (opA := .NoTrans) (d := 3) (n := 1) (m := 8) (ro := 0) (co := 0) (lda := 8)
    (ldb := 3) (Or.inl ⟨rfl, by decide, rfl, rfl, by decide, by decide⟩) (by decide) (by decide) (by simp [LdOk, rowsOf]) (by simp [LdOk])
    (fun _ => exVec_holds) (alloc_col (k := 3) (by decide)) (fun h => absurd rfl h)
  rw [e]

/-- An operator filled by the library: two sketches of vectors with it at the same time are a data race, although each of them alone ends
normally. -/
theorem C110_counterexample :
    fillSparse exSkEnv.GS exSkEnv.sqrt exSkEnv.order (mkSparseSkOp 4 exSaso ⟨0, 7⟩) = (.ok (), exFilled) ∧
    (sketchGeneralL exSkEnv .ColMajor .NoTrans .NoTrans 3 1 8 1 0 0 (Buf.ofList [1, 2, 3, 4, 5, 6, 7, 8]) 8 0 3
      (.sparse exFilled, Buf.alloc ℤ 3)).1 = .ok () ∧
    (∀ i : Int, 0 ≤ i → i < 16 → ∀ p, p = Loc.vals i ∨ p = Loc.rows i ∨ p = Loc.cols i →
      StoresTo (sketchGeneralLL exSkEnv .ColMajor .NoTrans .NoTrans 3 1 8 1 0 0 (Buf.ofList [1, 2, 3, 4, 5, 6, 7, 8]) 8 0 3)
        (.sparse exFilled, Buf.alloc ℤ 3) p) ∧
    M.Undef (sketchGeneralL exSkEnv .ColMajor .NoTrans .NoTrans 3 1 8 1 0 0 (Buf.ofList [1, 2, 3, 4, 5, 6, 7, 8]) 8 0 3)
      (.sparse (racedOp (sketchGeneralLL exSkEnv .ColMajor .NoTrans .NoTrans 3 1 8 1 0 0 (Buf.ofList [1, 2, 3, 4, 5, 6, 7, 8]) 8 0 3
        ((.sparse exFilled, Buf.alloc ℤ 3), [])).2.2 exFilled), Buf.alloc ℤ 3) := by
  obtain ⟨L, h, hlen, h1, -⟩ := exFilled_is
  have hn : exFilled.nnz = 16 := by obtain ⟨_, _, _, _, _, _, _, h5⟩ := h; omega
  have hne : L ≠ [] := by rintro rfl; simp at hlen
  refine ⟨exFill_ok, exSketch_ok, fun i i0 i1 p hp => ?_, ?_⟩
  · exact ((C110_sketch_left_stores exSkEnv_ok.env.srt hne h rfl exSketch_ok).1 i i0 (by omega) p hp).2 h1
  · exact (C110_sketch_race exSkEnv_ok.env.srt (by omega) h rfl h1 exSketch_ok).1

/-- An unsorted 2 x 2 matrix. -/
def exPair : List (Entry ℤ) := [⟨1, 1, 5⟩, ⟨0, 1, 6⟩, ⟨1, 0, 7⟩]

/-- The hypotheses of `C110_left_spmm_stores` and `C110_left_spmm_race` are met by an unsorted 2 x 2 COO matrix, for both values of `op`. -/
example : CooIs (cooOf 2 2 .Zero exPair) exPair ∧ (cooOf 2 2 .Zero exPair).nnz = 3 ∧
    (∀ op, ¬ ReadySorted (.coo (cooOf 2 2 .Zero exPair)) op) ∧ (∀ op, ¬ InOrder op exPair) ∧
    ∀ op, (leftSpmm exEnv .ColMajor op .NoTrans 2 1 2 1 0 0 (Buf.ofList [3, 4]) 2 0 2 (.coo (cooOf 2 2 .Zero exPair), Buf.alloc ℤ 2)).1 = .ok () := by
  refine ⟨cooOf_is _ _ _ _, rfl, fun op => ?_, fun op => ?_, fun op => ?_⟩
  · cases op <;> simp [ReadySorted, cooOf]
  · cases op <;> simp [InOrder, cscLe, csrLe, exPair]
  · have hB : Holds (Buf.ofList ([3, 4] : List ℤ)) .ColMajor 2 2 1 (fun i _ => i + 3) := by
      intro i j hij
      obtain ⟨h1, h2, h3, h4⟩ := hij
      obtain rfl : j = 0 := by omega
      obtain rfl | rfl : i = 0 ∨ i = 1 := by omega
      all_goals rfl
    obtain ⟨u, s', e, -⟩ := C31_left_spmm_partial (Bm := fun i _ => i + 3) (C := fun _ _ => 0) (alpha := 1) (beta := 0) exEnv_ok
      (A := .coo (cooOf 2 2 .Zero exPair)) (E := exPair) ⟨cooOf_is _ _ _ _, trivial⟩ rfl (by simp [InRange, exPair, spRows, spCols, cooOf])
      (layout := .ColMajor) (opA := op) (opB := .NoTrans) (d := 2) (n := 1) (m := 2) (ro := 0) (co := 0) (ldb := 2) (ldc := 2) (B := Buf.ofList [3, 4])
      (fun _ => Or.inl ⟨by decide, fun _ _ => ⟨⟨1, 1, 5⟩, by cases op <;> decide, by decide⟩⟩) (by cases op <;> simp [WindowOk, cooOf, rowsOf, colsOf])
      (by decide) (by decide) (by decide) (by simp [LdOk, rowsOf]) (by simp [LdOk]) (fun _ => hB) (alloc_col (k := 2) (by decide))
      (fun h => absurd rfl h)
    rw [e]

/-- The hypothesis of `C110_unfilled_right_stores` is met by a new operator. -/
example : (mkSparseSkOp 4 exSaso ⟨0, 7⟩ : SparseSkOp (2 ^ 128) Nat ℤ).nnz < 0 ∧
    (sketchGeneralR exSkEnv .ColMajor .Trans .Trans 1 3 8 1 (Buf.ofList [1, 2, 3, 4, 5, 6, 7, 8]) 8 0 0 0 1
      (.sparse (mkSparseSkOp 4 exSaso ⟨0, 7⟩), Buf.alloc ℤ 3)).1 = .ok () := by
  refine ⟨by simp [mkSparseSkOp], ?_⟩
  obtain ⟨L, hS, L0, rfl, hrun⟩ := sparseIs_of_dist exSkEnv_ok (S := mkSparseSkOp 4 exSaso ⟨0, 7⟩) exSaso_ok rfl rfl (by simp [mkSparseSkOp])
  have hin := sparseRun_inRange exSaso_ok hrun (by intro h; cases h)
  have hreg := (regularOk_saso exSaso_ok rfl hrun (m := 8) (ro := 0) (co := 0) (by decide)).1 (by decide) le_rfl (by decide)
  obtain ⟨u, s', e, -⟩ := C37_right_unfilled (C := fun _ _ => 0) (beta := 0) (alpha := 1) exSkEnv_ok (by simp [mkSparseSkOp])
    (mkSparseSkOp_ok 4 exSaso_ok ⟨0, 7⟩) hS hin (layout := .ColMajor) (opA := .Trans) (opS := .Trans) (m := 1) (d := 3) (n := 8) (ro := 0) (co := 0)
    (lda := 8) (ldb := 1) ⟨le_rfl, le_rfl, by decide, by decide⟩ (fun _ => Or.inl hreg) (by decide) (by decide) (by decide)
    (by simp [LdOk, rowsOf]) (by simp [LdOk]) (fun _ => exVec_holds) (alloc_col (k := 3) (by decide)) (fun h => absurd rfl h)
  rw [e]

/-- The hypotheses of the theorems on `sketch_sparse` are met by the product of a 3 x 7 dense operator and an unsorted 7 x 2 COO matrix. -/
example : (∀ op, ¬ ReadySorted (.coo (cooOf 7 2 .Zero exPair)) op) ∧
    (sketchSparseL exSkEnv .ColMajor .NoTrans .NoTrans 3 2 7 1 exDense 0 0 0 3 (.coo (cooOf 7 2 .Zero exPair), Buf.alloc ℤ 6)).1 = .ok () ∧
    (sketchSparseR exSkEnv .ColMajor .Trans .Trans 2 3 7 1 exDense 0 0 0 2 (.coo (cooOf 7 2 .Zero exPair), Buf.alloc ℤ 6)).1 = .ok () := by
  refine ⟨fun op => by cases op <;> simp [ReadySorted, cooOf], ?_, ?_⟩
  · obtain ⟨u, s', e, -⟩ := C41_left_partial (C := fun _ _ => 0) (alpha := 1) (beta := 0) exEnv_ok exSkEnv_ok.gen exDense_is
      (A := .coo (cooOf 7 2 .Zero exPair)) (L := exPair) ⟨cooOf_is _ _ _ _, trivial⟩ rfl (by simp [InRange, exPair, spRows, spCols, cooOf])
      (layout := .ColMajor) (opS := .NoTrans) (opA := .NoTrans) (d := 3) (n := 2) (m := 7) (ro := 0) (co := 0) (ldb := 3)
      (by unfold InOp exDense; decide) (fun _ => Or.inl (by decide)) (by simp [WindowOk, cooOf, rowsOf, colsOf])
      (fun _ => Or.inl ⟨by decide, fun _ _ => ⟨⟨1, 1, 5⟩, by decide, by decide⟩⟩) (by decide) (by decide) (by decide) (by simp [LdOk])
      (alloc_col (k := 6) (by decide)) (fun h => absurd rfl h)
    rw [e]
  · obtain ⟨u, s', e, -⟩ := C41_right_partial (C := fun _ _ => 0) (alpha := 1) (beta := 0) exEnv_ok exSkEnv_ok.gen exDense_is
      (A := .coo (cooOf 7 2 .Zero exPair)) (L := exPair) ⟨cooOf_is _ _ _ _, trivial⟩ rfl (by simp [InRange, exPair, spRows, spCols, cooOf])
      (layout := .ColMajor) (opS := .Trans) (opA := .Trans) (m := 2) (d := 3) (n := 7) (ro := 0) (co := 0) (ldb := 2)
      (by unfold InOp exDense; decide) (fun _ => Or.inl (by decide)) (by simp [WindowOk, cooOf, rowsOf, colsOf])
      (fun _ => Or.inl ⟨by decide, fun _ _ => ⟨⟨1, 1, 5⟩, by decide, by decide⟩⟩) (by decide) (by decide) (by decide) (by simp [LdOk])
      (alloc_col (k := 6) (by decide)) (fun h => absurd rfl h)
    rw [e]

end RB
