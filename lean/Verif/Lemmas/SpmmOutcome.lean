import Verif.Lemmas.SpmmUndef
import Verif.Core.ParOutcome

/-! # The effect of the sparse kernels under different schedules, whatever the arrays contain -/

namespace RB
open Spec Prog
variable {T : Type}

/-! ## Partial correctness of loops -/

theorem M.wlp_foldN {σ α : Type} {n : Nat} {body : Nat → α → M σ α} {a : α} {s : σ} (Inv : Nat → α → σ → Prop) (h0 : Inv 0 a s)
    (step : ∀ k a s, k < n → Inv k a s → M.wlp (body k a) s (Inv (k + 1)) fun _ _ => True) :
    M.wlp (foldN n body a) s (Inv n) fun _ _ => True := by
  induction n with
  | zero => exact h0
  | succ n ih =>
    unfold foldN
    rw [M.wlp_bind]
    exact M.wlp_mono (ih fun k a s hk => step k a s (by omega)) (fun a s h => step n a s (by omega) h) fun _ _ h => h

theorem M.wlp_foldI {σ α : Type} {lo hi : Int} {body : Int → α → M σ α} {a : α} {s : σ} (Inv : α → σ → Prop) (h0 : Inv a s)
    (step : ∀ k a s, lo ≤ k → k < hi → Inv a s → M.wlp (body k a) s Inv fun _ _ => True) :
    M.wlp (foldI lo hi body a) s Inv fun _ _ => True :=
  M.wlp_foldN (fun _ => Inv) h0 fun k a s hk h => step _ a s (by omega) (by omega) h

theorem M.wlp_forI {σ : Type} {lo hi : Int} {body : Int → M σ Unit} {s : σ} (Inv : Int → σ → Prop) (hle : lo ≤ hi) (h0 : Inv lo s)
    (step : ∀ k s, lo ≤ k → k < hi → Inv k s → M.wlp (body k) s (fun _ => Inv (k + 1)) fun _ _ => True) :
    M.wlp (forI lo hi body) s (fun _ => Inv hi) fun _ _ => True := by
  have key : ∀ n : Nat, n ≤ (hi - lo).toNat → M.wlp (forN n fun k => body (lo + k)) s (fun _ => Inv (lo + n)) fun _ _ => True := by
    intro n
    induction n with
    | zero => intro _; simpa [forN, M.wlp_pure] using h0
    | succ n ih =>
      intro hn
      unfold forN
      rw [M.wlp_bind]
      refine M.wlp_mono (ih (by omega)) (fun _ s h => ?_) fun _ _ h => h
      rw [show lo + ((n + 1 : Nat) : Int) = lo + n + 1 by push_cast; ring]
      exact step _ s (by omega) (by omega) h
  have := key (hi - lo).toNat le_rfl
  rw [show lo + ((hi - lo).toNat : Int) = hi by omega] at this
  exact this

theorem M.wlp_wr {U : Type} {i : Int} {v : U} {b : Buf U} {Q : Unit → Buf U → Prop} (h : b i ≠ .none → Q () (b.set i v)) :
    M.wlp (M.wr i v) b Q fun _ _ => True := by
  unfold M.wlp M.wr
  cases hb : b i with
  | none => simp
  | uninit => simpa [hb] using h
  | val x => simpa [hb] using h

theorem M.wlp_rd {U : Type} {i : Int} {b : Buf U} {Q : U → Buf U → Prop} (h : ∀ v, b i = .val v → Q v b) :
    M.wlp (M.rd i) b Q fun _ _ => True := by
  unfold M.wlp M.rd
  cases hb : b.rd i with
  | ok v => exact h v (Buf.rd_ok hb)
  | throw e => trivial
  | ub => trivial

theorem M.onLocal_ok {σ τ α : Type} {m : M τ α} {t : τ} {s s' : σ} {r : α × τ} (h : M.onLocal m t s = (.ok r, s')) :
    m t = (.ok r.1, r.2) ∧ s' = s := by
  unfold M.onLocal at h
  rcases hm : m t with ⟨o, t'⟩
  rw [hm] at h
  cases o <;> simp at h
  obtain ⟨rfl, rfl⟩ := h
  exact ⟨rfl, rfl⟩

/-! ## Exceptions -/

theorem applyCscVec_all [Add T] [Mul T] {vals : Buf T} {idxs cp : Buf Int} {m : Int} {v : Buf T} {v0 incv av0 incAv : Int} :
    (applyCscVec vals idxs cp m v v0 incv av0 incAv).All fun _ => True := by
  unfold applyCscVec
  refine All.bind (P := fun _ => True) ?_ fun _ _ => trivial
  refine All.foldI fun c i _ _ => ?_
  refine All.bind (All.read fun _ _ => trivial) fun _ _ => ?_
  refine All.bind (All.read fun _ _ => trivial) fun _ _ => ?_
  refine All.bind (P := fun _ => True) ?_ fun _ _ => trivial
  refine All.forI fun j _ _ => ?_
  exact All.bind (All.read fun _ _ => trivial) fun _ _ => All.bind (All.read fun _ _ => trivial) fun _ _ => addTo_all

theorem applyCsrVec_all [Add T] [Mul T] {vals : Buf T} {rp idxs : Buf Int} {v : Buf T} {v0 incv d av0 incAv : Int} :
    (applyCsrVec vals rp idxs v v0 incv d av0 incAv).All fun _ => True := by
  unfold applyCsrVec
  refine All.forI fun i _ _ => ?_
  refine All.bind (All.load (Q := fun _ => True) fun _ => trivial) fun _ _ => ?_
  refine All.bind (All.read fun _ _ => trivial) fun _ _ => ?_
  refine All.bind (All.read fun _ _ => trivial) fun _ _ => ?_
  refine All.bind (P := fun _ => True) ?_ fun _ _ => trivial
  refine All.foldI fun j _ _ _ => ?_
  refine All.bind (All.read fun _ _ => trivial) fun _ _ => ?_
  refine All.bind (All.read fun _ _ => trivial) fun _ _ => ?_
  exact All.bind (All.read fun _ _ => trivial) fun _ _ => trivial

theorem progAxpy_all [Add T] [Mul T] {n : Int} (hn : 0 ≤ n) {a : T} {xb : Buf T} {x y : Int} : (progAxpy n a xb x y).All fun _ => True := by
  unfold progAxpy
  rw [if_pos hn]
  refine All.bind (P := fun _ => True) trivial fun _ _ => ?_
  exact All.forI fun i _ _ => All.bind (All.read fun _ _ => trivial) fun _ _ => addTo_all

/-! ## Footprints -/

theorem addTo_foot [Add T] {F : Int → Prop} {i : Int} {x : T} (h : F i) : (addTo i x).Foot F :=
  Foot.bind (Foot.load h) fun _ => Foot.store h

/-- The values of the elements of an array lie in `[0, hi)`. -/
def ValsIn (x : Buf Int) (hi : Int) : Prop := ∀ p v, x p = .val v → 0 ≤ v ∧ v < hi

theorem liftRd_footP {U : Type} {F : Int → Prop} {x : Buf U} {i : Int} : (Prog.lift (x.rd i) : Prog T U).FootP F (fun v => x i = .val v) :=
  FootP.lift fun _ h => Buf.rd_ok h

/-- Cells of one column: `j` for row-major storage; for column-major storage the rows are bounded. -/
def StrideF (R : Int → Prop) (av0 inc : Int) (p : Int) : Prop := ∃ r, R r ∧ p = av0 + r * inc

theorem applyRegularCscVec_foot [Add T] [Mul T] {vals : Buf T} {idxs : Buf Int} {k m : Int} {v : Buf T} {v0 incv av0 incAv : Int}
    {R : Int → Prop} (hR : ∀ p r, idxs p = .val r → R r) : (applyRegularCscVec vals idxs k m v v0 incv av0 incAv).Foot (StrideF R av0 incAv) := by
  unfold applyRegularCscVec
  refine Foot.forI fun c _ _ => Foot.bind (Foot.lift _) fun _ => Foot.forI fun j _ _ => ?_
  refine FootP.foot (Q := fun _ => True) (FootP.bind liftRd_footP fun r hr => ?_)
  exact (Foot.bind (Foot.lift _) fun _ => addTo_foot ⟨r, hR _ _ hr, rfl⟩).footP

theorem applyCscVec_foot [Add T] [Mul T] {vals : Buf T} {idxs cp : Buf Int} {m : Int} {v : Buf T} {v0 incv av0 incAv : Int}
    {R : Int → Prop} (hR : ∀ p r, idxs p = .val r → R r) : (applyCscVec vals idxs cp m v v0 incv av0 incAv).Foot (StrideF R av0 incAv) := by
  unfold applyCscVec
  refine Foot.bind (Foot.foldI fun c i _ _ => Foot.bind (Foot.lift _) fun _ => Foot.bind (Foot.lift _) fun _ => Foot.bind ?_ fun _ => trivial)
    fun _ => trivial
  refine Foot.forI fun j _ _ => ?_
  refine FootP.foot (Q := fun _ => True) (FootP.bind liftRd_footP fun r hr => ?_)
  exact (Foot.bind (Foot.lift _) fun _ => addTo_foot ⟨r, hR _ _ hr, rfl⟩).footP

theorem applyCsrVec_foot [Add T] [Mul T] {vals : Buf T} {rp idxs : Buf Int} {v : Buf T} {v0 incv d av0 incAv : Int} :
    (applyCsrVec vals rp idxs v v0 incv d av0 incAv).Foot (StrideF (fun r => 0 ≤ r ∧ r < d) av0 incAv) := by
  unfold applyCsrVec
  refine Foot.forI fun i h0 h1 => Foot.bind (Foot.load ⟨i, ⟨h0, h1⟩, rfl⟩) fun _ => Foot.bind (Foot.lift _) fun _ => Foot.bind (Foot.lift _) fun _ =>
    Foot.bind (Foot.foldI fun j _ _ _ => ?_) fun _ => Foot.store ⟨i, ⟨h0, h1⟩, rfl⟩
  exact Foot.bind (Foot.lift _) fun _ => Foot.bind (Foot.lift _) fun _ => Foot.bind (Foot.lift _) fun _ => trivial

theorem progAxpy_foot [Add T] [Mul T] {n : Int} {a : T} {xb : Buf T} {x y : Int} :
    (progAxpy n a xb x y).Foot (fun p => ∃ c, 0 ≤ c ∧ c < n ∧ p = y + c) := by
  unfold progAxpy
  exact Foot.bind (Foot.lift _) fun _ => Foot.forI fun i h0 h1 => Foot.bind (Foot.lift _) fun _ => addTo_foot ⟨i, h0, h1, rfl⟩

/-- The columns of C are disjoint. -/
theorem strideF_disj {layout : Layout} {ldc n : Int} {R : Int → Prop} (hcol : layout = .ColMajor → ∀ r, R r → 0 ≤ r ∧ r < ldc)
    (hrow : layout = .RowMajor → n ≤ ldc) (j j' : Int) (h0 : 0 ≤ j) (h1 : j < n) (h0' : 0 ≤ j') (h1' : j' < n) (hne : j ≠ j') (p : Int)
    (h : StrideF R ((layoutToStrides layout ldc).ics * j) (layoutToStrides layout ldc).irs p) :
    ¬ StrideF R ((layoutToStrides layout ldc).ics * j') (layoutToStrides layout ldc).irs p := by
  obtain ⟨r, hr, hp⟩ := h
  rintro ⟨r', hr', hp'⟩
  have he := hp.symm.trans hp'
  have key : ∀ {a b c d : Int}, 0 ≤ c → c < ldc → 0 ≤ d → d < ldc → ldc * a + c = ldc * b + d → a = b := by
    intro a b c d hc hc' hd hd' h
    have h1 : (ldc * a + c) / ldc = a := by
      rw [Int.add_comm, Int.add_mul_ediv_left _ _ (by omega), Int.ediv_eq_zero_of_lt hc hc']; omega
    have h2 : (ldc * b + d) / ldc = b := by
      rw [Int.add_comm, Int.add_mul_ediv_left _ _ (by omega), Int.ediv_eq_zero_of_lt hd hd']; omega
    rw [← h1, h, h2]
  cases layout with
  | ColMajor =>
    simp only [layoutToStrides, if_true] at he
    have hr1 := hcol rfl r hr
    have hr2 := hcol rfl r' hr'
    exact hne (key hr1.1 hr1.2 hr2.1 hr2.2 (by linarith))
  | RowMajor =>
    have hl := hrow rfl
    simp only [layoutToStrides, reduceCtorEq, if_false] at he
    have := key (a := r) (b := r') (c := j) (d := j') h0 (by omega) h0' (by omega) (by linarith)
    subst this
    omega

/-! ## The kernels -/

variable [Zero T] [One T] [Add T] [Mul T] [BEq T]

omit [Zero T] [One T] [BEq T] in
theorem cscColumns_same {s1 s2 : List Nat} {layoutB layoutC : Layout} {n m : Int} {vals : Buf T} {rowidxs colptr : Buf Int} {fixed : Bool}
    {B b : Buf T} {ldb ldc : Int} (hcol : layoutC = .ColMajor → ValsIn rowidxs ldc) (hrow : layoutC = .RowMajor → n ≤ ldc) :
    SameEffect (cscColumns s1 layoutB layoutC n m vals rowidxs colptr fixed B ldb ldc b)
      (cscColumns s2 layoutB layoutC n m vals rowidxs colptr fixed B ldb ldc b) := by
  unfold cscColumns
  refine parForI_sameEffect (fun j => StrideF (fun r => ∃ p, rowidxs p = .val r) ((layoutToStrides layoutC ldc).ics * j)
    (layoutToStrides layoutC ldc).irs) ?_ ?_ ?_ s1 s2
  · intro i j h0 h1 h2 h3 hne p hp
    refine strideF_disj ?_ hrow i j h0 h1 h2 h3 hne p hp
    rintro hl r ⟨q, hq⟩
    exact hcol hl q r hq
  · intro j _ _
    cases fixed with
    | true => exact Foot.bind (Foot.lift _) fun _ => applyRegularCscVec_foot fun p r h => ⟨p, h⟩
    | false => exact applyCscVec_foot fun p r h => ⟨p, h⟩
  · intro j _ _
    cases fixed with
    | true => exact All.bind (All.read fun _ _ => trivial) fun _ _ => applyRegular_all
    | false => exact applyCscVec_all

theorem cscLeftJki_same {s1 s2 : List Nat} {alpha : T} {layoutB layoutC : Layout} {d n m : Int} {A : CscMat T}
    {B b : Buf T} {ldb ldc : Int} (hA : ValsIn (ptr A.rowidxs) d) (hld : LdOk layoutC ldc d n) :
    SameEffect (cscLeftJki s1 alpha layoutB layoutC d n m A B ldb ldc b) (cscLeftJki s2 alpha layoutB layoutC d n m A B ldb ldc b) := by
  unfold cscLeftJki
  refine SameEffect.bind_left fun _ _ _ => SameEffect.bind_left fun _ _ _ => SameEffect.bind_left fun _ _ _ => SameEffect.bind_left fun _ _ _ =>
    SameEffect.bind_left fun _ _ _ => cscColumns_same ?_ ?_
  · rintro rfl p v hv
    have := hA p v hv
    exact ⟨this.1, lt_of_lt_of_le this.2 hld⟩
  · rintro rfl; exact hld

theorem csrLeftJik_same {s1 s2 : List Nat} {alpha : T} {layoutB layoutC : Layout} {d n m : Int} {A : CsrMat T}
    {B b : Buf T} {ldb ldc : Int} (hld : LdOk layoutC ldc d n) :
    SameEffect (csrLeftJik s1 alpha layoutB layoutC d n m A B ldb ldc b) (csrLeftJik s2 alpha layoutB layoutC d n m A B ldb ldc b) := by
  unfold csrLeftJik
  refine SameEffect.bind_left fun _ _ _ => SameEffect.bind_left fun _ _ _ => SameEffect.bind_left fun _ _ _ => SameEffect.bind_left fun _ _ _ => ?_
  refine parForI_sameEffect (fun j => StrideF (fun r => 0 ≤ r ∧ r < d) ((layoutToStrides layoutC ldc).ics * j)
    (layoutToStrides layoutC ldc).irs) ?_ (fun _ _ _ => applyCsrVec_foot) (fun _ _ _ => applyCsrVec_all) s1 s2
  intro i j h0 h1 h2 h3 hne p hp
  refine strideF_disj ?_ ?_ i j h0 h1 h2 h3 hne p hp
  · rintro rfl r hr; exact ⟨hr.1, lt_of_lt_of_le hr.2 hld⟩
  · rintro rfl; exact hld

/-- Rows of a row-major matrix are disjoint. -/
theorem row_eq {ldc n i i' c c' : Int} (hld : n ≤ ldc) (h0 : 0 ≤ c) (h1 : c < n) (h0' : 0 ≤ c') (h1' : c' < n)
    (he : i * ldc + c = i' * ldc + c') : i = i' := by
  have h1 : (c + i * ldc) / ldc = i := by
    rw [Int.add_mul_ediv_right _ _ (by omega), Int.ediv_eq_zero_of_lt h0 (by omega)]; omega
  have h2 : (c' + i' * ldc) / ldc = i' := by
    rw [Int.add_mul_ediv_right _ _ (by omega), Int.ediv_eq_zero_of_lt h0' (by omega)]; omega
  rw [← h1, ← h2, show c + i * ldc = c' + i' * ldc by linarith]

omit [Zero T] [One T] [BEq T] in
theorem csrLeftIkb_same {s1 s2 : List Nat} {alpha : T} {d n m : Int} {A : CsrMat T} {B b : Buf T} {ldb ldc : Int} (hn : 0 ≤ n) (hld : n ≤ ldc) :
    SameEffect (csrLeftIkb s1 alpha d n m A B ldb ldc b) (csrLeftIkb s2 alpha d n m A B ldb ldc b) := by
  unfold csrLeftIkb
  refine SameEffect.bind_left fun _ _ _ => SameEffect.bind_left fun _ _ _ => SameEffect.bind_left fun _ _ _ => ?_
  refine parForI_sameEffect (fun i p => ∃ c, 0 ≤ c ∧ c < n ∧ p = i * ldc + c) ?_ ?_ ?_ s1 s2
  · rintro i j h0 h1 h2 h3 hne p ⟨c, hc0, hc1, hp⟩ ⟨c', hc0', hc1', hp'⟩
    exact hne (row_eq hld hc0 hc1 hc0' hc1' (hp.symm.trans hp'))
  · intro i _ _
    exact Foot.bind (Foot.lift _) fun _ => Foot.bind (Foot.lift _) fun _ => Foot.forI fun _ _ _ => Foot.bind (Foot.lift _) fun _ =>
      Foot.bind (Foot.lift _) fun _ => progAxpy_foot
  · intro i _ _
    exact All.bind (All.read fun _ _ => trivial) fun _ _ => All.bind (All.read fun _ _ => trivial) fun _ _ => All.forI fun _ _ _ =>
      All.bind (All.read fun _ _ => trivial) fun _ _ => All.bind (All.read fun _ _ => trivial) fun _ _ => progAxpy_all hn

/-- Whatever the sizes, the first `nt` block bounds are the multiples of one number. -/
theorem blockBounds_wlp (nt d : Int) : ∃ bs : Int, M.wlp (blockBounds nt d) (Buf.fill (nt + 1) 0)
    (fun _ x => ∀ t, 0 ≤ t → t < nt → x t = .val (t * bs)) fun _ _ => True := by
  refine ⟨if wrapInt 32 (d.tdiv nt) = 0 then 1 else wrapInt 32 (d.tdiv nt), ?_⟩
  unfold blockBounds
  dsimp only
  generalize (if wrapInt 32 (d.tdiv nt) = 0 then 1 else wrapInt 32 (d.tdiv nt)) = bs
  rw [M.wlp_bind]
  by_cases hnt : 0 ≤ nt
  · have h := M.wlp_forI (lo := 0) (hi := nt) (s := Buf.fill (nt + 1) (0 : Int)) (body := fun t => (do
        let x ← M.rd t
        let y ← M.lift (addI32 x bs)
        M.wr (t + 1) y : M (Buf Int) Unit)) (fun k x => ∀ t, 0 ≤ t → t ≤ k → x t = .val (t * bs)) hnt (by
        intro t h0 h1
        have : t = 0 := by omega
        subst this
        simp [Buf.fill]; omega) (by
        intro k x h0 h1 hx
        rw [M.wlp_bind]
        refine M.wlp_rd fun v hv => ?_
        rw [M.wlp_bind, M.wlp_lift]
        refine ⟨fun y hy => ?_, fun _ _ => trivial⟩
        refine M.wlp_wr fun _ => ?_
        intro t ht0 ht1
        by_cases he : t = k + 1
        · subst he
          rw [Buf.set_apply, if_pos rfl]
          have hv' := hx k h0 le_rfl
          rw [hv'] at hv
          cases hv
          unfold addI32 at hy
          split at hy
          · cases hy; congr 1; ring
          · cases hy
        · rw [Buf.set_ne he]; exact hx t ht0 (by omega))
    refine M.wlp_mono h (fun _ x hx => ?_) fun _ _ h => h
    rw [M.wlp_bind]
    refine M.wlp_rd fun v hv => M.wlp_wr fun _ => ?_
    intro t h0 h1
    rw [Buf.set_ne (by omega)]
    exact hx t h0 (by omega)
  · refine M.wlp_mono M.wlp_trivial (fun _ x _ => ?_) fun _ _ h => h
    refine M.wlp_mono M.wlp_trivial (fun _ x _ => ?_) fun _ _ h => h
    intro t h0 h1; omega

omit [Zero T] [One T] [BEq T] in
theorem cscLeftKib_same {s1 s2 : List Nat} {nt : Int} {alpha : T} {d n m : Int} {A : CscMat T} {B b : Buf T} {ldb ldc : Int} (hn : 0 ≤ n)
    (hld : n ≤ ldc) : SameEffect (cscLeftKib s1 nt alpha d n m A B ldb ldc b) (cscLeftKib s2 nt alpha d n m A B ldb ldc b) := by
  unfold cscLeftKib
  refine SameEffect.bind_left fun _ _ _ => SameEffect.bind_left fun _ _ _ => SameEffect.bind_left fun _ _ _ => SameEffect.bind_left fun r s' hr => ?_
  obtain ⟨bs, hw⟩ := blockBounds_wlp nt d
  have hx := M.wlp_ok hw (M.onLocal_ok hr).1
  refine parForI_sameEffect (fun t p => ∃ lo hi i c, r.2 t = .val lo ∧ r.2 (t + 1) = .val hi ∧ lo ≤ i ∧ i < hi ∧ 0 ≤ c ∧ c < n ∧
    p = i * ldc + c) ?_ ?_ ?_ s1 s2
  · have key : ∀ t t', 0 ≤ t → t < t' → t' < nt → ∀ p, (∃ lo hi i c, r.2 t = .val lo ∧ r.2 (t + 1) = .val hi ∧ lo ≤ i ∧ i < hi ∧ 0 ≤ c ∧
        c < n ∧ p = i * ldc + c) → (∃ lo hi i c, r.2 t' = .val lo ∧ r.2 (t' + 1) = .val hi ∧ lo ≤ i ∧ i < hi ∧ 0 ≤ c ∧ c < n ∧
        p = i * ldc + c) → False := by
      rintro t t' h0 h1 h2 p ⟨lo, hi, i, c, hlo, hhi, hi0, hi1, hc0, hc1, hp⟩ ⟨lo', hi', i', c', hlo', hhi', hi0', hi1', hc0', hc1', hp'⟩
      have hii := row_eq hld hc0 hc1 hc0' hc1' (hp.symm.trans hp')
      subst hii
      rw [hx t h0 (by omega)] at hlo
      rw [hx (t + 1) (by omega) (by omega)] at hhi
      rw [hx t' (by omega) h2] at hlo'
      cases hlo; cases hhi; cases hlo'
      have hbs : 0 < bs := by nlinarith
      nlinarith
    intro i j h0 h1 h2 h3 hne p hp hp'
    rcases lt_or_gt_of_ne hne with h | h
    · exact key i j h0 h h3 p hp hp'
    · exact key j i h2 h h1 p hp' hp
  · intro t _ _
    refine FootP.foot (Q := fun _ => True) (FootP.bind liftRd_footP fun lo hlo => FootP.bind liftRd_footP fun hi hhi => Foot.footP ?_)
    unfold cscKibThread
    refine Foot.forI fun k _ _ => Foot.bind (Foot.lift _) fun _ => Foot.bind (Foot.lift _) fun _ => Foot.forI fun ell _ _ =>
      Foot.bind (Foot.lift _) fun i => ?_
    split
    · rename_i hi'
      refine Foot.bind (Foot.lift _) fun _ => progAxpy_foot.mono ?_
      rintro p ⟨c, hc0, hc1, hp⟩
      exact ⟨lo, hi, i, c, hlo, hhi, hi'.1, hi'.2, hc0, hc1, hp⟩
    · trivial
  · intro t _ _
    refine All.bind (All.read fun _ _ => trivial) fun _ _ => All.bind (All.read fun _ _ => trivial) fun _ _ => ?_
    unfold cscKibThread
    refine All.forI fun k _ _ => All.bind (All.read fun _ _ => trivial) fun _ _ => All.bind (All.read fun _ _ => trivial) fun _ _ =>
      All.forI fun ell _ _ => All.bind (All.read fun _ _ => trivial) fun i _ => ?_
    split
    · exact All.bind (All.read fun _ _ => trivial) fun _ _ => progAxpy_all hn
    · trivial

/-! ## COO -/

omit [Zero T] [One T] [Add T] [Mul T] [BEq T] in
/-- The row indices of the filtered copy are rows of the window, whatever the arrays contain. -/
theorem setFilteredCoo_rows {A : CooBufs T} {nnz cs ce rs re hi : Int} {x : CooBufs T} (h0 : ValsIn x.rows hi) (hhi : re - rs ≤ hi) :
    M.wlp (setFilteredCoo A nnz cs ce rs re) x (fun _ y => ValsIn y.rows hi) fun _ _ => True := by
  unfold setFilteredCoo
  refine M.wlp_foldI (fun _ (y : CooBufs T) => ValsIn y.rows hi) h0 fun ell nn y _ _ hy => ?_
  rw [M.wlp_bind, M.wlp_lift]
  refine ⟨fun r _ => ?_, fun _ _ => trivial⟩
  rw [M.wlp_bind, M.wlp_lift]
  refine ⟨fun c _ => ?_, fun _ _ => trivial⟩
  split
  · rename_i hc
    rw [M.wlp_bind, M.wlp_lift]
    refine ⟨fun v _ => ?_, fun _ _ => trivial⟩
    rw [M.wlp_bind, onCVals, M.wlp_zoom]
    refine M.wlp_wr fun _ => ?_
    rw [M.wlp_bind, onCRows, M.wlp_zoom]
    refine M.wlp_wr fun _ => ?_
    rw [M.wlp_bind, onCCols, M.wlp_zoom]
    refine M.wlp_wr fun _ => ?_
    rw [M.wlp_pure]
    intro p w hw
    simp only at hw
    by_cases hp : p = nn
    · subst hp
      rw [Buf.set_apply, if_pos rfl] at hw
      cases hw
      omega
    · rw [Buf.set_ne hp] at hw; exact hy p w hw
  · exact hy

omit [One T] [BEq T] in
theorem cooLeftCsc_same {s1 s2 : List Nat} {alpha : T} {layoutB layoutC : Layout} {d n m : Int} {A : CooMat T} {ro co : Int}
    {B b : Buf T} {ldb ldc : Int} (hld : LdOk layoutC ldc d n) (hpos : 0 < ldc) :
    SameEffect (cooLeftCsc s1 alpha layoutB layoutC d n m A ro co B ldb ldc b)
      (cooLeftCsc s2 alpha layoutB layoutC d n m A ro co B ldb ldc b) := by
  unfold cooLeftCsc
  refine SameEffect.bind_left fun _ _ _ => SameEffect.bind_left fun r _ hr => SameEffect.bind_left fun _ _ _ => SameEffect.bind_left fun _ _ _ =>
    SameEffect.bind_left fun _ _ _ => cscColumns_same ?_ ?_
  · rintro rfl
    have hf := fun h0 h1 => M.wlp_ok (setFilteredCoo_rows (hi := ldc) h0 h1) (M.onLocal_ok hr).1
    refine hf ?_ ?_
    · intro p v hv
      simp only [Buf.fill] at hv
      split at hv
      · cases hv; omega
      · cases hv
    · have : d ≤ ldc := hld
      omega
  · rintro rfl; exact hld

omit [One T] [BEq T] in
theorem cooLeftJki_same {srt : (Int × Int × T → Int × Int × T → Bool) → List (Int × Int × T) → List (Int × Int × T)}
    {s1 s2 : List Nat} {alpha : T} {layoutB layoutC : Layout} {d n m : Int} {ro co : Int}
    {B : Buf T} {ldb ldc : Int} {s : CooMat T × Buf T} (hld : LdOk layoutC ldc d n) (hpos : 0 < ldc) :
    SameEffect (cooLeftJki srt s1 alpha layoutB layoutC d n m ro co B ldb ldc s)
      (cooLeftJki srt s2 alpha layoutB layoutC d n m ro co B ldb ldc s) := by
  unfold cooLeftJki
  refine SameEffect.bind_left fun st s' _ => SameEffect.bind_left fun _ s'' _ => ?_
  split
  · refine SameEffect.bind_left fun _ _ _ => SameEffect.bind_left fun _ _ _ => SameEffect.bind_right ?_
    exact SameEffect.zoom (cooLeftCsc_same hld hpos)
  · exact SameEffect.zoom (cooLeftCsc_same hld hpos)

/-! ## Dispatch -/

omit [One T] [Add T] in
/-- If the checks pass, the leading dimension of C is large enough. -/
theorem spmmScale_ok {layout : Layout} {opB : Op} {d n m ldb : Int} {beta : T} {ldc : Int} {b b' : Buf T} {u : Unit}
    (h : spmmScale layout opB d n m ldb beta ldc b = (.ok u, b')) : LdOk layout ldc d n := by
  have hw : M.wlp (spmmScale layout opB d n m ldb beta ldc) b (fun _ _ => LdOk layout ldc d n) fun _ _ => True := by
    unfold spmmScale
    cases layout with
    | ColMajor =>
      simp only [if_true]
      rw [M.wlp_bind, M.wlp_require]
      refine ⟨fun _ => ?_, fun _ => trivial⟩
      rw [M.wlp_bind, M.wlp_require]
      refine ⟨fun h => ?_, fun _ => trivial⟩
      exact M.wlp_mono M.wlp_trivial (fun _ _ _ => h) fun _ _ h => h
    | RowMajor =>
      simp only [reduceCtorEq, if_false]
      rw [M.wlp_bind, M.wlp_require]
      refine ⟨fun h => ?_, fun _ => trivial⟩
      rw [M.wlp_bind, M.wlp_require]
      refine ⟨fun _ => ?_, fun _ => trivial⟩
      exact M.wlp_mono M.wlp_trivial (fun _ _ _ => h) fun _ _ h => h
  have := M.wlp_ok hw h
  exact this

theorem leftSpmmCscN_same {s1 s2 : List Nat} {nt : Int} {layout : Layout} {opB : Op} {d n m : Int} {alpha : T} {A : CscMat T} {ro co : Int}
    {B b : Buf T} {ldb : Int} {beta : T} {ldc : Int} (hA : ValsIn (ptr A.rowidxs) d) (hn : 0 ≤ n) :
    SameEffect (leftSpmmCscN s1 nt layout opB d n m alpha A ro co B ldb beta ldc b)
      (leftSpmmCscN s2 nt layout opB d n m alpha A ro co B ldb beta ldc b) := by
  unfold leftSpmmCscN
  refine SameEffect.bind_left fun _ _ _ => SameEffect.bind_left fun _ _ _ => SameEffect.bind_left fun _ _ _ => SameEffect.bind_left fun _ _ _ =>
    SameEffect.bind_left fun _ _ _ => SameEffect.bind_left fun _ _ h => ?_
  have hld := spmmScale_ok h
  split
  · exact SameEffect.refl _
  · split
    · rename_i hl
      refine cscLeftKib_same hn ?_
      rw [hl.2] at hld; exact hld
    · exact cscLeftJki_same hA hld

/-- In the remaining paths the number of threads is not used. -/
theorem leftSpmmCscN_nt {s : List Nat} {nt nt' : Int} {layout : Layout} {opB : Op} {d n m : Int} {alpha : T} {A : CscMat T} {ro co : Int}
    {B : Buf T} {ldb : Int} {beta : T} {ldc : Int} (hl : ¬ (layoutOp layout opB = .RowMajor ∧ layout = .RowMajor)) :
    leftSpmmCscN s nt layout opB d n m alpha A ro co B ldb beta ldc = leftSpmmCscN s nt' layout opB d n m alpha A ro co B ldb beta ldc := by
  unfold leftSpmmCscN
  rw [if_neg hl, if_neg hl]

theorem leftSpmmCsrN_same {s1 s2 : List Nat} {layout : Layout} {opB : Op} {d n m : Int} {alpha : T} {A : CsrMat T} {ro co : Int}
    {B b : Buf T} {ldb : Int} {beta : T} {ldc : Int} (hn : 0 ≤ n) :
    SameEffect (leftSpmmCsrN s1 layout opB d n m alpha A ro co B ldb beta ldc b)
      (leftSpmmCsrN s2 layout opB d n m alpha A ro co B ldb beta ldc b) := by
  unfold leftSpmmCsrN
  refine SameEffect.bind_left fun _ _ _ => SameEffect.bind_left fun _ _ _ => SameEffect.bind_left fun _ _ _ => SameEffect.bind_left fun _ _ _ =>
    SameEffect.bind_left fun _ _ _ => SameEffect.bind_left fun _ _ h => ?_
  have hld := spmmScale_ok h
  split
  · exact SameEffect.refl _
  · split
    · rename_i hl
      refine csrLeftIkb_same hn ?_
      rw [hl.2] at hld; exact hld
    · exact csrLeftJik_same hld

omit [One T] in
theorem leftSpmmCooN_same {srt : (Int × Int × T → Int × Int × T → Bool) → List (Int × Int × T) → List (Int × Int × T)}
    {s1 s2 : List Nat} {layout : Layout} {opB : Op} {d n m : Int} {alpha : T} {ro co : Int}
    {B : Buf T} {ldb : Int} {beta : T} {ldc : Int} {s : CooMat T × Buf T} (hpos : 0 < ldc) :
    SameEffect (leftSpmmCooN srt s1 layout opB d n m alpha ro co B ldb beta ldc s)
      (leftSpmmCooN srt s2 layout opB d n m alpha ro co B ldb beta ldc s) := by
  unfold leftSpmmCooN
  refine SameEffect.bind_left fun _ _ _ => SameEffect.bind_left fun _ _ _ => SameEffect.bind_left fun _ _ _ => SameEffect.bind_left fun _ _ _ =>
    SameEffect.bind_left fun _ s' h => ?_
  have hld : LdOk layout ldc d n := by
    unfold onC M.zoom at h
    rename_i s'' _ _
    rcases hm : spmmScale layout opB d n m ldb beta ldc s''.2 with ⟨r, t⟩
    rw [hm] at h
    cases r with
    | ok u => exact spmmScale_ok hm
    | throw e => cases h
    | ub => cases h
  split
  · exact SameEffect.refl _
  · exact cooLeftJki_same hld hpos

end RB
