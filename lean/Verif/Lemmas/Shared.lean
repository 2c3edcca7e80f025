import Verif.Spec.Shared
import Verif.Lemmas.SpmmRun
import Verif.Core.Wlp
import Verif.Core.Doom

/-! # Lemmas: stores into shared objects -/

namespace RB
open Spec
variable {σ τ α β : Type} {N : Nat} {K W WS R T : Type}

/-- `mL` does what `m` does, and adds something to the list of stores. -/
def ShadowAt (mL : M (σ × List Loc) α) (m : M σ α) (s : σ) : Prop := ∀ l, ∃ l', mL (s, l) = ((m s).1, ((m s).2, l ++ l'))

theorem ShadowAt.bind {mL : M (σ × List Loc) α} {m : M σ α} {fL : α → M (σ × List Loc) β} {f : α → M σ β} {s : σ} (h : ShadowAt mL m s)
    (hf : ∀ a s', m s = (.ok a, s') → ShadowAt (fL a) (f a) s') : ShadowAt (mL >>= fL) (m >>= f) s := by
  intro l
  obtain ⟨l1, h1⟩ := h l
  rcases hm : m s with ⟨r, s'⟩
  rw [hm] at h1
  cases r with
  | ok a =>
    obtain ⟨l2, h2⟩ := hf a s' hm (l ++ l1)
    exact ⟨l1 ++ l2, by rw [M.bind_ok h1, M.bind_ok hm, h2, List.append_assoc]⟩
  | throw e => exact ⟨l1, by rw [M.bind_throw h1, M.bind_throw hm]⟩
  | ub => exact ⟨l1, by rw [M.bind_ub h1, M.bind_ub hm]⟩

theorem ShadowAt.get {fL : σ × List Loc → M (σ × List Loc) β} {f : σ → M σ β} {s : σ} (h : ∀ l, ShadowAt (fL (s, l)) (f s) s) :
    ShadowAt (M.get >>= fL) (M.get >>= f) s := by
  intro l
  exact h l l

theorem ShadowAt.quiet {m : M σ α} {s : σ} : ShadowAt (quiet m) m s := by
  intro l
  refine ⟨[], ?_⟩
  unfold RB.quiet M.zoom
  rcases m s with ⟨r, s'⟩
  simp

theorem ShadowAt.pure {a : α} {s : σ} : ShadowAt (pure a) (pure a) s := fun l => ⟨[], by rw [List.append_nil]; rfl⟩

theorem ShadowAt.noting {p : Loc} {m : M σ α} {s : σ} : ShadowAt (noting p m) m s := by
  intro l
  rcases hm : m s with ⟨r, s'⟩
  have hq : RB.quiet m (s, l) = (r, (s', l)) := by unfold RB.quiet M.zoom; simp only [hm]
  unfold RB.noting
  cases r with
  | ok a => exact ⟨[p], by rw [M.bind_ok hq]; rfl⟩
  | throw e => exact ⟨[], by rw [M.bind_throw hq, List.append_nil]⟩
  | ub => exact ⟨[], by rw [M.bind_ub hq, List.append_nil]⟩

theorem ShadowAt.zoomL {get : σ → τ} {put : σ → τ → σ} {mL : M (τ × List Loc) α} {m : M τ α} {s : σ} (h : ShadowAt mL m (get s)) :
    ShadowAt (zoomL get put mL) (M.zoom get put m) s := by
  intro l
  obtain ⟨l1, h1⟩ := h l
  refine ⟨l1, ?_⟩
  unfold RB.zoomL M.zoom
  simp only [h1]

theorem ShadowAt.when {c : Prop} [Decidable c] {mL : M (σ × List Loc) Unit} {m : M σ Unit} {s : σ} (h : c → ShadowAt mL m s) :
    ShadowAt (M.when c mL) (M.when c m) s := by
  unfold M.when
  split_ifs with hc
  · exact h hc
  · exact ShadowAt.pure

theorem ShadowAt.forN {n : Nat} {bL : Nat → M (σ × List Loc) Unit} {b : Nat → M σ Unit} (h : ∀ k s, ShadowAt (bL k) (b k) s) (s : σ) :
    ShadowAt (forN n bL) (forN n b) s := by
  induction n with
  | zero => exact ShadowAt.pure
  | succ n ih => exact ShadowAt.bind ih fun _ _ _ => h _ _

theorem ShadowAt.forI {lo hi : Int} {bL : Int → M (σ × List Loc) Unit} {b : Int → M σ Unit} (h : ∀ k s, ShadowAt (bL k) (b k) s) (s : σ) :
    ShadowAt (forI lo hi bL) (forI lo hi b) s := ShadowAt.forN (fun _ _ => h _ _) s

theorem sortCooWorkL_shadow {srt : (Int × Int × T → Int × Int × T → Bool) → List (Int × Int × T) → List (Int × Int × T)} {so : NonzeroSort}
    {nnz : Int} (s : CooBufs T) : ShadowAt (sortCooWorkL srt so nnz) (sortCooWork srt so nnz) s := by
  unfold sortCooWorkL sortCooWork
  refine ShadowAt.quiet.bind fun _ _ _ => ShadowAt.quiet.bind fun _ _ _ => ShadowAt.forI (fun k s => ?_) _
  exact ShadowAt.quiet.bind fun _ _ _ => ShadowAt.noting.bind fun _ _ _ => ShadowAt.noting.bind fun _ _ _ => ShadowAt.noting

theorem sortCooRawL_shadow {srt : (Int × Int × T → Int × Int × T → Bool) → List (Int × Int × T) → List (Int × Int × T)} {so : NonzeroSort}
    {nnz : Int} (s : CooBufs T) : ShadowAt (sortCooRawL srt so nnz) (sortCooRaw srt so nnz) s := by
  unfold sortCooRawL sortCooRaw
  split_ifs with h
  · exact ShadowAt.pure
  · exact ShadowAt.get fun l => ShadowAt.quiet.bind fun _ _ _ => ShadowAt.when fun _ => sortCooWorkL_shadow _

theorem sortCooDataL_shadow {srt : (Int × Int × T → Int × Int × T → Bool) → List (Int × Int × T) → List (Int × Int × T)} {so : NonzeroSort}
    (s : CooMat T) : ShadowAt (sortCooDataL srt so) (sortCooData srt so) s := by
  unfold sortCooDataL sortCooData
  exact ShadowAt.get fun l => (ShadowAt.zoomL (sortCooRawL_shadow _)).bind fun _ _ _ => ShadowAt.noting

theorem cooLeftJkiL_shadow [Zero T] [Add T] [Mul T] {srt : (Int × Int × T → Int × Int × T → Bool) → List (Int × Int × T) → List (Int × Int × T)}
    {sched : List Nat} {alpha : T} {layoutB layoutC : Layout} {d n m : Int} {ro co : Int} {B : Buf T} {ldb ldc : Int} (s : CooMat T × Buf T) :
    ShadowAt (cooLeftJkiL srt sched alpha layoutB layoutC d n m ro co B ldb ldc) (cooLeftJki srt sched alpha layoutB layoutC d n m ro co B ldb ldc) s := by
  unfold cooLeftJkiL cooLeftJki
  refine ShadowAt.get fun l => ShadowAt.quiet.bind fun _ s1 _ => ?_
  split_ifs
  · refine (ShadowAt.zoomL (sortCooDataL_shadow _)).bind fun _ s2 _ => ShadowAt.get fun l => ShadowAt.quiet.bind fun _ _ _ => ?_
    exact ShadowAt.zoomL (sortCooDataL_shadow _)
  · exact ShadowAt.quiet

theorem leftSpmmCooNL_shadow [Zero T] [Add T] [Mul T] [BEq T]
    {srt : (Int × Int × T → Int × Int × T → Bool) → List (Int × Int × T) → List (Int × Int × T)}
    {sched : List Nat} {layout : Layout} {opB : Op} {d n m : Int} {alpha : T} {ro co : Int} {B : Buf T} {ldb : Int} {beta : T} {ldc : Int}
    (s : CooMat T × Buf T) :
    ShadowAt (leftSpmmCooNL srt sched layout opB d n m alpha ro co B ldb beta ldc) (leftSpmmCooN srt sched layout opB d n m alpha ro co B ldb beta ldc) s := by
  unfold leftSpmmCooNL leftSpmmCooN
  refine ShadowAt.get fun l => ShadowAt.quiet.bind fun _ _ _ => ShadowAt.quiet.bind fun _ _ _ => ShadowAt.quiet.bind fun _ _ _ =>
    ShadowAt.quiet.bind fun _ _ _ => ?_
  split_ifs
  · exact ShadowAt.pure
  · exact cooLeftJkiL_shadow _

theorem ShadowAt.asCooTL {A At : CooMat T} {mL : M ((CooMat T × Buf T) × List Loc) Unit} {m : M (CooMat T × Buf T) Unit} {s : SpMat T × Buf T}
    (h : ShadowAt mL m (At, s.2)) : ShadowAt (asCooTL A At mL) (asCooT A At m) s := by
  intro l
  obtain ⟨l1, h1⟩ := h []
  refine ⟨l1.filterMap Loc.swap, ?_⟩
  unfold RB.asCooTL asCooT M.zoom
  simp only [h1, List.nil_append]

theorem leftSpmmL_shadow [Zero T] [One T] [Add T] [Mul T] [BEq T] {env : Env T} {layout : Layout} {opA opB : Op} {d n m : Int} {alpha : T}
    {ro co : Int} {B : Buf T} {ldb : Int} {beta : T} {ldc : Int} (s : SpMat T × Buf T) :
    ShadowAt (leftSpmmL env layout opA opB d n m alpha ro co B ldb beta ldc) (leftSpmm env layout opA opB d n m alpha ro co B ldb beta ldc) s := by
  obtain ⟨A, b⟩ := s
  unfold leftSpmmL leftSpmm
  refine ShadowAt.get fun l => ?_
  cases A with
  | coo A =>
    cases opA with
    | NoTrans => exact ShadowAt.zoomL (leftSpmmCooNL_shadow _)
    | Trans => exact ShadowAt.quiet.bind fun _ _ _ => ShadowAt.asCooTL (leftSpmmCooNL_shadow _)
  | csc A => cases opA <;> first | exact ShadowAt.quiet | exact ShadowAt.quiet.bind fun _ _ _ => ShadowAt.quiet
  | csr A => cases opA <;> first | exact ShadowAt.quiet | exact ShadowAt.quiet.bind fun _ _ _ => ShadowAt.quiet

theorem rightSpmmL_shadow [Zero T] [One T] [Add T] [Mul T] [BEq T] {env : Env T} {layout : Layout} {opA opB : Op} {m d n : Int} {alpha : T}
    {A : Buf T} {lda iOff jOff : Int} {beta : T} {ldc : Int} (s : SpMat T × Buf T) :
    ShadowAt (rightSpmmL env layout opA opB m d n alpha A lda iOff jOff beta ldc) (rightSpmm env layout opA opB m d n alpha A lda iOff jOff beta ldc) s :=
  leftSpmmL_shadow s

section Sk
variable [Field R] [LinearOrder R] [FloorRing R] [Zero T] [One T] [Neg T] [Add T] [Mul T] [BEq T]

omit [Zero T] [One T] [Neg T] [Add T] [Mul T] [BEq T] in
theorem ShadowAt.onSkArraysL {A : CooMat T} {mL : M ((SpMat T × Buf T) × List Loc) Unit} {m : M (SpMat T × Buf T) Unit}
    {s : SparseSkOp N K T × Buf T} (h : ShadowAt mL m (.coo A, s.2)) : ShadowAt (onSkArraysL A mL) (onSkArrays A m) s := by
  intro l
  obtain ⟨l1, h1⟩ := h []
  refine ⟨l1.filter (· ≠ .object), ?_⟩
  unfold RB.onSkArraysL onSkArrays M.zoom
  simp only [h1, List.nil_append]
  cases (m (SpMat.coo A, s.2)).2.1 <;> rfl

omit [BEq T] in
theorem cooViewOfSkopL_shadow {G : Gen N K WS R} {sqrt : T → T} {order : Int → List (Int × T) → List (Int × T)} (s : SparseSkOp N K T) :
    ShadowAt (cooViewOfSkopL G sqrt order) (cooViewOfSkop G sqrt order) s := by
  unfold cooViewOfSkopL cooViewOfSkop
  exact ShadowAt.get fun l => (ShadowAt.when fun _ => ShadowAt.noting).bind fun _ _ _ => ShadowAt.get fun l => ShadowAt.quiet

variable {E : SkEnv N K W WS R T} {layout : Layout} {d n m : Int} {alpha : T} {roS coS : Int} {A : Buf T} {lda : Int} {beta : T} {ldb : Int}

theorem lskgesL_shadow {opS opA : Op} (s : SparseSkOp N K T × Buf T) :
    ShadowAt (lskgesL E layout opS opA d n m alpha roS coS A lda beta ldb) (lskges E layout opS opA d n m alpha roS coS A lda beta ldb) s := by
  unfold lskgesL lskges
  refine ShadowAt.get fun l => ?_
  split_ifs
  · exact ShadowAt.quiet.bind fun _ _ _ => ShadowAt.quiet.bind fun _ _ _ => ShadowAt.quiet
  · exact (ShadowAt.zoomL (cooViewOfSkopL_shadow _)).bind fun _ _ _ => ShadowAt.onSkArraysL (leftSpmmL_shadow _)

theorem rskgesL_shadow {opA opS : Op} (s : SparseSkOp N K T × Buf T) :
    ShadowAt (rskgesL E layout opA opS m d n alpha A lda roS coS beta ldb) (rskges E layout opA opS m d n alpha A lda roS coS beta ldb) s := by
  unfold rskgesL rskges
  refine ShadowAt.get fun l => ShadowAt.quiet.bind fun _ _ _ => ?_
  exact (ShadowAt.zoomL (cooViewOfSkopL_shadow _)).bind fun _ _ _ => ShadowAt.onSkArraysL (rightSpmmL_shadow _)

theorem sketchGeneralLL_shadow {opS opA : Op} (s : SkOp N K T × Buf T) :
    ShadowAt (sketchGeneralLL E layout opS opA d n m alpha roS coS A lda beta ldb) (sketchGeneralL E layout opS opA d n m alpha roS coS A lda beta ldb) s := by
  obtain ⟨S, b⟩ := s
  unfold sketchGeneralLL sketchGeneralL
  refine ShadowAt.get fun l => ?_
  cases S with
  | dense S => exact ShadowAt.quiet
  | sparse S => exact ShadowAt.zoomL (lskgesL_shadow _)

theorem sketchGeneralRL_shadow {opA opS : Op} (s : SkOp N K T × Buf T) :
    ShadowAt (sketchGeneralRL E layout opA opS m d n alpha A lda roS coS beta ldb) (sketchGeneralR E layout opA opS m d n alpha A lda roS coS beta ldb) s := by
  obtain ⟨S, b⟩ := s
  unfold sketchGeneralRL sketchGeneralR
  refine ShadowAt.get fun l => ?_
  cases S with
  | dense S => exact ShadowAt.quiet
  | sparse S => exact ShadowAt.zoomL (rskgesL_shadow _)

omit [Field R] [LinearOrder R] [FloorRing R] [Neg T] in
theorem sketchSparseLL_shadow {opS opA : Op} {S : DenseSkOp N K T} (s : SpMat T × Buf T) :
    ShadowAt (sketchSparseLL E layout opS opA d n m alpha S roS coS beta ldb) (sketchSparseL E layout opS opA d n m alpha S roS coS beta ldb) s := by
  have hv : ∀ (V : BFO T) (ro co : Int) (s : SpMat T × Buf T), ShadowAt (lsksp3ViewL E.env layout opS opA d n m alpha V ro co 0 0 beta ldb)
      (lsksp3View E.env layout opS opA d n m alpha V ro co 0 0 beta ldb) s := by
    intro V ro co s
    unfold lsksp3ViewL lsksp3View
    exact ShadowAt.quiet.bind fun _ _ _ => ShadowAt.get fun l => ShadowAt.quiet.bind fun _ _ _ => ShadowAt.quiet.bind fun _ _ _ =>
      ShadowAt.quiet.bind fun _ _ _ => ShadowAt.quiet.bind fun _ _ _ => ShadowAt.quiet.bind fun _ _ _ => rightSpmmL_shadow _
  unfold sketchSparseLL sketchSparseL lsksp3
  split_ifs
  · exact ShadowAt.quiet.bind fun _ _ _ => hv _ _ _ _
  · exact hv _ _ _ _

omit [Field R] [LinearOrder R] [FloorRing R] [Neg T] in
theorem sketchSparseRL_shadow {opA opS : Op} {S : DenseSkOp N K T} (s : SpMat T × Buf T) :
    ShadowAt (sketchSparseRL E layout opA opS m d n alpha S roS coS beta ldb) (sketchSparseR E layout opA opS m d n alpha S roS coS beta ldb) s := by
  have hv : ∀ (V : BFO T) (ro co : Int) (s : SpMat T × Buf T), ShadowAt (rsksp3ViewL E.env layout opA opS m d n alpha 0 0 V ro co beta ldb)
      (rsksp3View E.env layout opA opS m d n alpha 0 0 V ro co beta ldb) s := by
    intro V ro co s
    unfold rsksp3ViewL rsksp3View
    exact ShadowAt.quiet.bind fun _ _ _ => ShadowAt.get fun l => ShadowAt.quiet.bind fun _ _ _ => ShadowAt.quiet.bind fun _ _ _ =>
      ShadowAt.quiet.bind fun _ _ _ => ShadowAt.quiet.bind fun _ _ _ => ShadowAt.quiet.bind fun _ _ _ => leftSpmmL_shadow _
  unfold sketchSparseRL sketchSparseR rsksp3
  split_ifs
  · exact ShadowAt.quiet.bind fun _ _ _ => hv _ _ _ _
  · exact hv _ _ _ _
end Sk

/-! ## Calls that store nothing -/

theorem Spec.NoStores.bind {mL : M (σ × List Loc) α} {fL : α → M (σ × List Loc) β} {s : σ} (h : NoStores mL s)
    (hf : ∀ a s', (∃ l, mL (s, l) = (.ok a, (s', l))) → NoStores (fL a) s') : NoStores (mL >>= fL) s := by
  intro l
  have h1 := h l
  rcases hm : mL (s, l) with ⟨r, s', l'⟩
  rw [hm] at h1
  simp only at h1
  subst h1
  cases r with
  | ok a => rw [M.bind_ok hm]; exact hf a s' ⟨_, hm⟩ _
  | throw e => rw [M.bind_throw hm]
  | ub => rw [M.bind_ub hm]

theorem Spec.NoStores.get {fL : σ × List Loc → M (σ × List Loc) β} {s : σ} (h : ∀ l, NoStores (fL (s, l)) s) : NoStores (M.get >>= fL) s :=
  fun l => h l l

theorem Spec.NoStores.quiet {m : M σ α} {s : σ} : NoStores (quiet m) s := by
  intro l
  unfold RB.quiet M.zoom
  rcases m s with ⟨r, s'⟩
  rfl

theorem quiet_ok {m : M σ α} {s s' : σ} {a : α} (h : ∃ l, quiet m (s, l) = (.ok a, (s', l))) : m s = (.ok a, s') := by
  obtain ⟨l, h⟩ := h
  unfold quiet M.zoom at h
  rcases hm : m s with ⟨r, s1⟩
  rw [hm] at h
  simp only [Prod.mk.injEq] at h
  rw [h.1, h.2.1]

theorem Spec.NoStores.pure {a : α} {s : σ} : NoStores (pure a) s := fun _ => rfl

theorem Spec.NoStores.zoomL {get : σ → τ} {put : σ → τ → σ} {mL : M (τ × List Loc) α} {s : σ} (h : NoStores mL (get s)) :
    NoStores (zoomL get put mL) s := by
  intro l
  have := h l
  unfold RB.zoomL M.zoom
  exact this

theorem leftSpmmCooNL_noStores [Zero T] [Add T] [Mul T] [BEq T]
    {srt : (Int × Int × T → Int × Int × T → Bool) → List (Int × Int × T) → List (Int × Int × T)}
    {sched : List Nat} {layout : Layout} {opB : Op} {d n m : Int} {alpha : T} {ro co : Int} {B : Buf T} {ldb : Int} {beta : T} {ldc : Int}
    {s : CooMat T × Buf T} (h : (alpha == 0) = false → s.1.sort = .CSC) :
    NoStores (leftSpmmCooNL srt sched layout opB d n m alpha ro co B ldb beta ldc) s := by
  unfold leftSpmmCooNL
  refine NoStores.get fun l => NoStores.quiet.bind fun _ s1 h1 => NoStores.quiet.bind fun _ s2 h2 => NoStores.quiet.bind fun _ s3 h3 =>
    NoStores.quiet.bind fun _ s4 h4 => ?_
  have e1 : s1 = s := (congrArg Prod.snd (quiet_ok h1)).symm
  have e2 : s2 = s1 := (congrArg Prod.snd (quiet_ok h2)).symm
  have e3 : s3 = s2 := (congrArg Prod.snd (quiet_ok h3)).symm
  have e4 : s4.1 = s3.1 := (congrArg (fun t => t.2.1) (quiet_ok h4)).symm
  cases hz : alpha == 0 with
  | true => rw [if_pos rfl]; exact NoStores.pure
  | false =>
    rw [if_neg (by simp)]
    have hs : s4.1.sort = .CSC := by rw [e4, e3, e2, e1]; exact h hz
    unfold cooLeftJkiL
    refine NoStores.get fun l => NoStores.quiet.bind fun _ s5 h5 => ?_
    rw [if_neg (by simp [hs])]
    exact NoStores.quiet

theorem leftSpmmL_noStores [Zero T] [One T] [Add T] [Mul T] [BEq T] {env : Env T} {layout : Layout} {opA opB : Op} {d n m : Int} {alpha : T}
    {ro co : Int} {B : Buf T} {ldb : Int} {beta : T} {ldc : Int} {s : SpMat T × Buf T} (h : (alpha == 0) = false → ReadySorted s.1 opA) :
    NoStores (leftSpmmL env layout opA opB d n m alpha ro co B ldb beta ldc) s := by
  obtain ⟨A, b⟩ := s
  unfold leftSpmmL
  refine NoStores.get fun l => ?_
  cases A with
  | coo A =>
    cases opA with
    | NoTrans => exact NoStores.zoomL (leftSpmmCooNL_noStores h)
    | Trans =>
      refine NoStores.quiet.bind fun At s1 h1 l => ?_
      have ht : cooTranspose A = .ok At := congrArg Prod.fst (quiet_ok h1)
      have hs := cooTranspose_sort ht
      have := leftSpmmCooNL_noStores (srt := env.srt) (sched := env.sched) (layout := layout) (opB := opB) (d := d) (n := n) (m := m) (ro := co)
        (co := ro) (B := B) (ldb := ldb) (beta := beta) (ldc := ldc) (s := (At, s1.2)) (fun hz => by
          show At.sort = .CSC
          rw [hs, show A.sort = .CSR from h hz]; rfl) []
      unfold asCooTL M.zoom
      simp only [this, List.filterMap_nil, List.append_nil]
  | csc A => cases opA <;> first | exact NoStores.quiet | exact NoStores.quiet.bind fun _ _ _ => NoStores.quiet
  | csr A => cases opA <;> first | exact NoStores.quiet | exact NoStores.quiet.bind fun _ _ _ => NoStores.quiet

/-! ## Calls that store -/

theorem M.wlp_forN {n : Nat} {body : Nat → M σ Unit} {s : σ} {Q : Unit → σ → Prop} {E : Err → σ → Prop}
    (Inv : Nat → σ → Prop) (h0 : Inv 0 s) (step : ∀ k s, k < n → Inv k s → M.wlp (body k) s (fun _ s' => Inv (k + 1) s') E)
    (hQ : ∀ s, Inv n s → Q () s) : M.wlp (forN n body) s Q E := by
  suffices h : M.wlp (forN n body) s (fun _ s' => Inv n s') E from M.wlp_mono h (fun _ => hQ) (fun _ _ h => h)
  clear hQ
  induction n with
  | zero => exact h0
  | succ n ih =>
    unfold forN
    rw [M.wlp_bind]
    exact M.wlp_mono (ih fun k s hk => step k s (by omega)) (fun _ s h => step n s (by omega) h) fun _ _ h => h

theorem wlp_noting {p : Loc} {m : M σ Unit} {s : σ × List Loc} {Q : Unit → σ × List Loc → Prop} {E : Err → σ × List Loc → Prop}
    (h : M.wlp m s.1 (fun _ s' => Q () (s', s.2 ++ [p])) (fun e s' => E e (s', s.2))) : M.wlp (noting p m) s Q E := by
  unfold noting quiet
  rw [M.wlp_bind, M.wlp_zoom]
  exact M.wlp_mono h (fun a s' h => h) (fun e s' h => h)

theorem wlp_quiet {m : M σ α} {s : σ × List Loc} {Q : α → σ × List Loc → Prop} {E : Err → σ × List Loc → Prop} :
    M.wlp (quiet m) s Q E ↔ M.wlp m s.1 (fun a s' => Q a (s', s.2)) (fun e s' => E e (s', s.2)) := by
  unfold quiet
  rw [M.wlp_zoom]

/-- All elements of the three arrays. -/
def allLocs (n : Nat) : List Loc := (List.range n).flatMap fun i => [.vals i, .rows i, .cols i]

theorem mem_allLocs {n : Nat} {p : Loc} : p ∈ allLocs n ↔ ∃ i : Nat, i < n ∧ (p = .vals i ∨ p = .rows i ∨ p = .cols i) := by
  simp [allLocs]

/-- A completed sort stores to all elements of the three arrays. -/
theorem sortCooWorkL_log {srt : (Int × Int × T → Int × Int × T → Bool) → List (Int × Int × T) → List (Int × Int × T)} {so : NonzeroSort}
    {nnz : Nat} {b : CooBufs T} {l : List Loc} :
    M.wlp (sortCooWorkL srt so nnz) (b, l) (fun _ t => t.2 = l ++ allLocs nnz) (fun _ _ => True) := by
  unfold sortCooWorkL
  rw [M.wlp_bind, wlp_quiet]
  refine M.wlp_mono M.wlp_trivial (fun _ s1 _ => ?_) fun _ _ h => h
  rw [M.wlp_bind, wlp_quiet]
  refine M.wlp_mono M.wlp_trivial (fun nz s2 _ => ?_) fun _ _ h => h
  unfold forI
  refine M.wlp_forN (fun k t => t.2 = l ++ allLocs k) (by simp [allLocs]) ?_ (fun t h => by rw [h]; congr 2)
  intro k t hk ht
  rw [M.wlp_bind, wlp_quiet, M.wlp_lift]
  refine ⟨fun a _ => ?_, fun _ _ => trivial⟩
  rw [M.wlp_bind]
  refine wlp_noting (M.wlp_mono M.wlp_trivial (fun _ s3 _ => ?_) fun _ _ _ => trivial)
  rw [M.wlp_bind]
  refine wlp_noting (M.wlp_mono M.wlp_trivial (fun _ s4 _ => ?_) fun _ _ _ => trivial)
  refine wlp_noting (M.wlp_mono M.wlp_trivial (fun _ s5 _ => ?_) fun _ _ _ => trivial)
  simp [ht, allLocs, List.range_succ]

/-- The order that `coo_sort_type` reports. -/
noncomputable def detected (E : List (Entry T)) : NonzeroSort :=
  open Classical in if E.Pairwise cscLe then .CSC else if E.Pairwise csrLe then .CSR else .None

theorem detected_eq {E : List (Entry T)} {s : NonzeroSort} (h1 : s = .CSC ↔ E.Pairwise cscLe) (h2 : s = .CSR ↔ ¬ E.Pairwise cscLe ∧ E.Pairwise csrLe) :
    s = detected E := by
  classical
  unfold detected
  split_ifs with a b
  · exact h1.2 a
  · exact h2.2 ⟨a, b⟩
  · cases s with
    | CSC => exact absurd (h1.1 rfl) a
    | CSR => exact absurd (h2.1 rfl).2 b
    | None => rfl

theorem pairwise_csc_rebase {k : Int} {E : List (Entry T)} : (rebase k E).Pairwise cscLe ↔ E.Pairwise cscLe := by
  unfold rebase
  rw [List.pairwise_map]
  exact ⟨fun h => h.imp fun h => by simp only [cscLe] at h ⊢; omega, fun h => h.imp fun h => by simp only [cscLe] at h ⊢; omega⟩

theorem pairwise_csr_rebase {k : Int} {E : List (Entry T)} : (rebase k E).Pairwise csrLe ↔ E.Pairwise csrLe := by
  unfold rebase
  rw [List.pairwise_map]
  exact ⟨fun h => h.imp fun h => by simp only [csrLe] at h ⊢; omega, fun h => h.imp fun h => by simp only [csrLe] at h ⊢; omega⟩

theorem cooSortType_detected {v : Buf T} {rows cols : Buf Int} {k : Int} {E : List (Entry T)} (h : CooHolds v rows cols (rebase k E)) :
    cooSortType E.length rows cols = .ok (detected E) := by
  obtain ⟨c, h1, h2, h3⟩ := cooSortType_spec h
  rw [rebase_length] at h1
  rw [pairwise_csc_rebase] at h2
  rw [pairwise_csc_rebase, pairwise_csr_rebase] at h3
  rw [h1, detected_eq h2 h3]

/-- The stores of `sort_coo_data`. -/
theorem sortCooDataL_log {srt : (Int × Int × T → Int × Int × T → Bool) → List (Int × Int × T) → List (Int × Int × T)} (hs : SortOk srt)
    {A : CooMat T} {E : List (Entry T)} (h : CooIs A E) {so : NonzeroSort} {l : List Loc} :
    M.wlp (sortCooDataL srt so) (A, l) (fun _ t => (∃ E', CooIs t.1 E' ∧ E'.Perm E ∧ SortedBy so E') ∧ t.1.sort = so ∧
      t.2 = l ++ (if so = .None ∨ detected E = so then [] else allLocs E.length) ++ [.object]) (fun _ _ => True) := by
  have hspec := sortCooData_spec (s := so) hs h
  obtain ⟨_, A', h1, E', e1, e2, e3, e4, -⟩ := hspec
  obtain ⟨l', h2⟩ := sortCooDataL_shadow (srt := srt) (so := so) A l
  rw [h1] at h2
  have hlog : M.wlp (sortCooDataL srt so) (A, l) (fun _ t =>
      t.2 = l ++ (if so = .None ∨ detected E = so then [] else allLocs E.length) ++ [.object]) (fun _ _ => True) := by
    unfold sortCooDataL
    rw [M.wlp_bind, M.wlp_get, M.wlp_bind]
    unfold zoomL
    rw [M.wlp_zoom]
    suffices hr : M.wlp (sortCooRawL srt so A.nnz) (A.bufs, l) (fun _ t =>
        t.2 = l ++ (if so = .None ∨ detected E = so then [] else allLocs E.length)) (fun _ _ => True) by
      refine M.wlp_mono hr (fun _ t ht => wlp_noting (M.wlp_mono M.wlp_trivial (fun _ s3 _ => ?_) fun _ _ _ => trivial)) fun _ _ h => h
      rw [ht]
    unfold sortCooRawL
    split_ifs with g1 g2 g2
    · simp [M.wlp_pure]
    · exact absurd (.inl g1) g2
    · rw [M.wlp_bind, M.wlp_get, M.wlp_bind, wlp_quiet, M.wlp_lift]
      refine ⟨fun c hc => ?_, fun _ _ => trivial⟩
      have hd : CooHolds A.bufs.vals A.bufs.rows A.bufs.cols (rebase A.indexBase.val E) := h.data
      rw [h.nnz, cooSortType_detected hd] at hc
      cases hc
      unfold M.when
      rw [if_neg (by have := g2.resolve_left g1; simp [this])]
      simp [M.wlp_pure]
    · rw [M.wlp_bind, M.wlp_get, M.wlp_bind, wlp_quiet, M.wlp_lift]
      refine ⟨fun c hc => ?_, fun _ _ => trivial⟩
      have hd : CooHolds A.bufs.vals A.bufs.rows A.bufs.cols (rebase A.indexBase.val E) := h.data
      rw [h.nnz, cooSortType_detected hd] at hc
      cases hc
      unfold M.when
      rw [if_pos (fun hh => g2 (.inr hh)), h.nnz]
      exact sortCooWorkL_log
  have := M.wlp_ok hlog h2
  unfold M.wlp
  rw [h2]
  exact ⟨⟨E', e1, e2, e3⟩, by rw [e4], this⟩

/-- The stores of `left_spmm` for an untransposed COO matrix. -/
theorem leftSpmmCooNL_log [Zero T] [Add T] [Mul T] [BEq T]
    {srt : (Int × Int × T → Int × Int × T → Bool) → List (Int × Int × T) → List (Int × Int × T)} (hs : SortOk srt)
    {sched : List Nat} {layout : Layout} {opB : Op} {d n m : Int} {alpha : T} {ro co : Int} {B : Buf T} {ldb : Int} {beta : T} {ldc : Int}
    {A : CooMat T} {b : Buf T} {E : List (Entry T)} (h : CooIs A E) (hz : (alpha == 0) = false) (hA : A.sort ≠ .CSC) {l : List Loc} :
    M.wlp (leftSpmmCooNL srt sched layout opB d n m alpha ro co B ldb beta ldc) ((A, b), l) (fun _ t =>
      t.2 = l ++ (if detected E = .CSC then [] else allLocs E.length) ++ [.object] ++ (if A.sort = .CSR then allLocs E.length else []) ++ [.object])
      (fun _ _ => True) := by
  have hq : ∀ {α : Type} {m : M (CooMat T × Buf T) α} {b : Buf T} {A : CooMat T} {l : List Loc} {Q : α → (CooMat T × Buf T) × List Loc → Prop},
      (∀ a s', (m (A, b)).2 = s' → Q a (s', l)) → M.wlp (quiet m) ((A, b), l) Q (fun _ _ => True) := by
    intro α m b A l Q hQ
    rw [wlp_quiet]
    unfold M.wlp
    rcases hm : m (A, b) with ⟨r, s'⟩
    cases r with
    | ok a => exact hQ a s' (by rw [hm])
    | throw e => trivial
    | ub => trivial
  unfold leftSpmmCooNL
  rw [M.wlp_bind, M.wlp_get, M.wlp_bind]
  refine hq fun _ s1 e1 => ?_
  obtain rfl : s1 = (A, b) := e1.symm
  rw [M.wlp_bind]
  refine hq fun _ s1 e1 => ?_
  obtain rfl : s1 = (A, b) := e1.symm
  rw [M.wlp_bind]
  refine hq fun _ s1 e1 => ?_
  obtain rfl : s1 = (A, b) := e1.symm
  rw [M.wlp_bind]
  refine hq fun _ s1 e1 => ?_
  obtain ⟨A1, b1⟩ := s1
  obtain rfl : A1 = A := (congrArg Prod.fst e1).symm
  clear e1
  rw [if_neg (by simp [hz])]
  unfold cooLeftJkiL
  rw [M.wlp_bind, M.wlp_get, M.wlp_bind]
  refine hq fun _ s1 e1 => ?_
  obtain rfl : s1 = (A1, b1) := e1.symm
  rw [if_pos hA, M.wlp_bind]
  unfold zoomL
  rw [M.wlp_zoom]
  refine M.wlp_mono (sortCooDataL_log hs h) ?_ fun _ _ h => h
  rintro - ⟨A2, l2⟩ ⟨⟨E', f1, f2, f3⟩, f4, f5⟩
  rw [M.wlp_bind, M.wlp_get, M.wlp_bind]
  refine hq fun _ s1 e1 => ?_
  obtain ⟨A3, b3⟩ := s1
  obtain rfl : A3 = A2 := (congrArg Prod.fst e1).symm
  rw [M.wlp_zoom]
  refine M.wlp_mono (sortCooDataL_log hs f1) ?_ fun _ _ h => h
  rintro - ⟨A4, l4⟩ ⟨-, -, g5⟩
  simp only at f5 g5 ⊢
  have hdet : detected E' = .CSC := by
    unfold detected
    exact if_pos f3
  rw [g5, f5, hdet, f2.length_eq]
  simp only [reduceCtorEq, false_or]
  cases hsr : A1.sort with
  | CSC => exact absurd hsr hA
  | CSR => simp
  | None => simp

end RB
