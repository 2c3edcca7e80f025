import Verif.Props.Sketch

/-!
# C38: results do not depend on whether the operator was filled first

For dense operators and for left sketches with sparse operators the two executions are compared as a whole: outcome and every location of B are
equal for all arguments, and no law of arithmetic is used.
-/

namespace RB
open Spec
variable {N : Nat} {K W WS R T : Type}

theorem require_eq_pure {σ : Type} {c : Prop} [Decidable c] (h : c) : (M.require c : M σ Unit) = pure () := by
  funext s; simp [M.require, M.lift, Res.require, h]; rfl

theorem require_bind_congr {σ α : Type} {c : Prop} [Decidable c] {f g : M σ α} (h : c → f = g) :
    (M.require c >>= fun _ => f) = (M.require c >>= fun _ => g) := by
  by_cases hc : c
  · rw [h hc]
  · funext s
    have : (M.require c : M σ Unit) s = (.throw .require, s) := by simp [M.require, M.lift, Res.require, hc]
    rw [M.bind_throw this, M.bind_throw this]

theorem require_false_run {σ α : Type} {c : Prop} [Decidable c] (hc : ¬ c) (f : Unit → M σ α) (s : σ) : (M.require c >>= f) s = (.throw .require, s) :=
  M.bind_throw (by simp [M.require, M.lift, Res.require, hc])

section
variable [Zero T] [Add T] [Mul T] [BEq T]

/-- What `lskge3` checks before anything is written. -/
theorem lskge3View_throw {layout : Layout} {opS opA : Op} {d n m : Int} {alpha beta : T} {S : BFO T} {sb : Buf T} {ro co : Int} {A b : Buf T}
    {lda ldb : Int} (hb : S.buff = some sb)
    (h : ¬ (rowsOf opS d m + ro ≤ S.nRows ∧ colsOf opS d m + co ≤ S.nCols ∧ LdOk layout lda (rowsOf opA m n) (colsOf opA m n) ∧ LdOk layout ldb d n)) :
    lskge3View layout opS opA d n m alpha S ro co A lda beta ldb b = (.throw .require, b) := by
  apply M.eq_throw_of_wpx
  unfold lskge3View BFO.getBuff
  rw [hb]
  simp only [M.wpx_bind, M.wpx_pure, M.wpx_require, dimsBeforeOp_eq, ldOk_iff]
  exact ⟨fun h1 => ⟨fun h2 => ⟨fun h3 => ⟨fun h4 => absurd ⟨h1, h2, h3, h4⟩ h, fun _ => (by simp)⟩, fun _ => (by simp)⟩, fun _ => (by simp)⟩,
    fun _ => (by simp)⟩

/-- What `rskge3` checks before anything is written. -/
theorem rskge3View_throw {layout : Layout} {opA opS : Op} {m d n : Int} {alpha beta : T} {S : BFO T} {sb : Buf T} {ro co : Int} {A b : Buf T}
    {lda ldb : Int} (hb : S.buff = some sb)
    (h : ¬ (rowsOf opS n d + ro ≤ S.nRows ∧ colsOf opS n d + co ≤ S.nCols ∧ LdOk layout lda (rowsOf opA m n) (colsOf opA m n) ∧ LdOk layout ldb m d)) :
    rskge3View layout opA opS m d n alpha A lda S ro co beta ldb b = (.throw .require, b) := by
  apply M.eq_throw_of_wpx
  unfold rskge3View BFO.getBuff
  rw [hb]
  simp only [M.wpx_bind, M.wpx_pure, M.wpx_require, dimsBeforeOp_eq, ldOk_iff]
  exact ⟨fun h1 => ⟨fun h2 => ⟨fun h3 => ⟨fun h4 => absurd ⟨h1, h2, h3, h4⟩ h, fun _ => (by simp)⟩, fun _ => (by simp)⟩, fun _ => (by simp)⟩,
    fun _ => (by simp)⟩

/-- Two operators with the same entries in the window give the same left product. -/
theorem lskge3View_congr {layout : Layout} {opS opA : Op} {d n m : Int} {alpha beta : T} {S S' : BFO T} {sb sb' : Buf T} {ro co ro' co' : Int}
    {A : Buf T} {lda ldb : Int} {Sm Sm' : Int → Int → T} (hb : S.buff = some sb) (hb' : S'.buff = some sb')
    (hS : Holds sb S.layout (tightLd S.layout S.nRows S.nCols) S.nRows S.nCols Sm)
    (hS' : Holds sb' S'.layout (tightLd S'.layout S'.nRows S'.nCols) S'.nRows S'.nCols Sm')
    (hw : InOp S.nRows S.nCols (rowsOf opS d m) (colsOf opS d m) ro co) (hw' : InOp S'.nRows S'.nCols (rowsOf opS d m) (colsOf opS d m) ro' co')
    (he : ∀ i l, InR d m i l → opMat opS (subMat ro co Sm) i l = opMat opS (subMat ro' co' Sm') i l) :
    lskge3View layout opS opA d n m alpha S ro co A lda beta ldb = lskge3View layout opS opA d n m alpha S' ro' co' A lda beta ldb := by
  have d1 := dimsBeforeOp_eq d m opS
  have d2 := dimsBeforeOp_eq m n opA
  have r1 : S.nRows ≥ (dimsBeforeOp d m opS).1 + ro := by rw [d1]; exact hw.2.2.1
  have r2 : S.nCols ≥ (dimsBeforeOp d m opS).2 + co := by rw [d1]; exact hw.2.2.2
  have r3 : S'.nRows ≥ (dimsBeforeOp d m opS).1 + ro' := by rw [d1]; exact hw'.2.2.1
  have r4 : S'.nCols ≥ (dimsBeforeOp d m opS).2 + co' := by rw [d1]; exact hw'.2.2.2
  unfold lskge3View BFO.getBuff
  rw [hb, hb']
  dsimp only
  rw [require_eq_pure r1, require_eq_pure r2, require_eq_pure r3, require_eq_pure r4]
  simp only [pure_bind]
  refine require_bind_congr fun h1 => congrArg (bind _) (funext fun _ => ?_)
  rw [d2, ldOk_iff] at h1
  exact blasGemm_congr (opWindow_ld hw) (opWindow_ld hw') h1 h1
    (fun i l hil => by rw [opWindow_cells hS hw hil, opWindow_cells hS' hw' hil, he i l hil]) (fun _ _ _ => rfl)

/-- Two operators with the same entries in the window give the same right product. -/
theorem rskge3View_congr {layout : Layout} {opA opS : Op} {m d n : Int} {alpha beta : T} {S S' : BFO T} {sb sb' : Buf T} {ro co ro' co' : Int}
    {A : Buf T} {lda ldb : Int} {Sm Sm' : Int → Int → T} (hb : S.buff = some sb) (hb' : S'.buff = some sb')
    (hS : Holds sb S.layout (tightLd S.layout S.nRows S.nCols) S.nRows S.nCols Sm)
    (hS' : Holds sb' S'.layout (tightLd S'.layout S'.nRows S'.nCols) S'.nRows S'.nCols Sm')
    (hw : InOp S.nRows S.nCols (rowsOf opS n d) (colsOf opS n d) ro co) (hw' : InOp S'.nRows S'.nCols (rowsOf opS n d) (colsOf opS n d) ro' co')
    (he : ∀ i l, InR n d i l → opMat opS (subMat ro co Sm) i l = opMat opS (subMat ro' co' Sm') i l) :
    rskge3View layout opA opS m d n alpha A lda S ro co beta ldb = rskge3View layout opA opS m d n alpha A lda S' ro' co' beta ldb := by
  have d1 := dimsBeforeOp_eq n d opS
  have d2 := dimsBeforeOp_eq m n opA
  have r1 : S.nRows ≥ (dimsBeforeOp n d opS).1 + ro := by rw [d1]; exact hw.2.2.1
  have r2 : S.nCols ≥ (dimsBeforeOp n d opS).2 + co := by rw [d1]; exact hw.2.2.2
  have r3 : S'.nRows ≥ (dimsBeforeOp n d opS).1 + ro' := by rw [d1]; exact hw'.2.2.1
  have r4 : S'.nCols ≥ (dimsBeforeOp n d opS).2 + co' := by rw [d1]; exact hw'.2.2.2
  unfold rskge3View BFO.getBuff
  rw [hb, hb']
  dsimp only
  rw [require_eq_pure r1, require_eq_pure r2, require_eq_pure r3, require_eq_pure r4]
  simp only [pure_bind]
  refine require_bind_congr fun h1 => congrArg (bind _) (funext fun _ => ?_)
  rw [d2, ldOk_iff] at h1
  exact blasGemm_congr h1 h1 (opWindow_ld hw) (opWindow_ld hw') (fun _ _ _ => rfl)
    (fun i l hil => by rw [opWindow_cells hS hw hil, opWindow_cells hS' hw' hil, he i l hil])

omit [Zero T] [Add T] [BEq T] in
/-- If the window is not inside the operator, an operator that has not been filled raises an error. -/
theorem submatrix_throw {sched : List Nat} {G : Gen N K W T} {sqrt3 : T} {S : DenseSkOp N K T} {r c ro co : Int} 
    (hw : ¬ (r + ro ≤ S.nRows ∧ c + co ≤ S.nCols)) : submatrixAsBlackbox sched G sqrt3 S r c ro co = .throw .require := by
  unfold submatrixAsBlackbox
  by_cases h1 : ro + r ≤ S.nRows
  · rw [Res.require_eq_ok h1, Res.require_eq_throw (c := co + c ≤ S.nCols) (fun h2 => hw ⟨by omega, by omega⟩)]; rfl
  · rw [Res.require_eq_throw h1]; rfl

/-- The left product, with the same entries in a filled and an unfilled operator. -/
theorem lskge3_fill {E : SkEnv N K W WS R T} (hG : E.G.Ok) {S S' : DenseSkOp N K T} {Sm : Int → Int → T} (hS : DenseIs E S Sm) (hS' : DenseIs E S' Sm)
    (hn : S.buff = none) (hn' : S'.buff ≠ none) (hr : S'.nRows = S.nRows) (hc : S'.nCols = S.nCols)
    {layout : Layout} {opS opA : Op} {d n m ro co : Int} {alpha beta : T} {A : Buf T} {lda ldb : Int} (hd : 0 ≤ d) (hm : 0 ≤ m)
    (hF : FillOk E.G.len S.dist (rowsOf opS d m) (colsOf opS d m) ro co) (hro : 0 ≤ ro) (hco : 0 ≤ co) :
    lskge3 E layout opS opA d n m alpha S ro co A lda beta ldb = lskge3 E layout opS opA d n m alpha S' ro co A lda beta ldb := by
  obtain ⟨p1, p2⟩ := rowsOf_nonneg (op := opS) hd hm
  obtain ⟨sb, hsb⟩ := Option.ne_none_iff_exists'.mp hn'
  simp only [DenseIs, hn] at hS
  simp only [DenseIs, hsb] at hS'
  obtain ⟨hD, e1, e2, hA⟩ := hS
  unfold lskge3
  rw [hn, hsb]
  simp only [Option.isNone_none, Option.isNone_some, if_true, Bool.false_eq_true, if_false, dimsBeforeOp_eq]
  by_cases hw : rowsOf opS d m + ro ≤ S.nRows ∧ colsOf opS d m + co ≤ S.nCols
  · have hin : InOp S.nRows S.nCols (rowsOf opS d m) (colsOf opS d m) ro co := ⟨hro, hco, hw.1, hw.2⟩
    obtain ⟨b, ld, e, hb⟩ := submatrixAsBlackbox_spec (sched := E.env.sched) hG hD e1 e2 hA p1 p2 hF hin
    rw [e]
    have : (M.lift (.ok ⟨S.layout, rowsOf opS d m, colsOf opS d m, some b, ld⟩) : M (Buf T) (BFO T)) = pure ⟨S.layout, rowsOf opS d m, colsOf opS d m, some b, ld⟩ := rfl
    rw [this, pure_bind]
    refine lskge3View_congr (S := ⟨S.layout, rowsOf opS d m, colsOf opS d m, some b, ld⟩) (S' := S'.view) rfl hsb hb hS' (inOp_zero _ _)
      (by show InOp S'.nRows S'.nCols _ _ _ _; rw [hr, hc]; exact hin) ?_
    intro i l _
    rw [subMat_zero]
  · rw [submatrix_throw hw]
    funext s
    rw [M.bind_throw (show (M.lift (Res.throw .require) : M (Buf T) (BFO T)) s = (.throw .require, s) from rfl)]
    exact (lskge3View_throw (S := S'.view) hsb fun h => hw ⟨hr ▸ h.1, hc ▸ h.2.1⟩).symm

/-- The right product, with the same entries in a filled and an unfilled operator. -/
theorem rskge3_fill {E : SkEnv N K W WS R T} (hG : E.G.Ok) {S S' : DenseSkOp N K T} {Sm : Int → Int → T} (hS : DenseIs E S Sm) (hS' : DenseIs E S' Sm)
    (hn : S.buff = none) (hn' : S'.buff ≠ none) (hr : S'.nRows = S.nRows) (hc : S'.nCols = S.nCols)
    {layout : Layout} {opA opS : Op} {m d n ro co : Int} {alpha beta : T} {A : Buf T} {lda ldb : Int} (hd : 0 ≤ d) (hnn : 0 ≤ n)
    (hF : FillOk E.G.len S.dist (rowsOf opS n d) (colsOf opS n d) ro co) (hro : 0 ≤ ro) (hco : 0 ≤ co) :
    rskge3 E layout opA opS m d n alpha A lda S ro co beta ldb = rskge3 E layout opA opS m d n alpha A lda S' ro co beta ldb := by
  obtain ⟨p1, p2⟩ := rowsOf_nonneg (op := opS) hnn hd
  obtain ⟨sb, hsb⟩ := Option.ne_none_iff_exists'.mp hn'
  simp only [DenseIs, hn] at hS
  simp only [DenseIs, hsb] at hS'
  obtain ⟨hD, e1, e2, hA⟩ := hS
  unfold rskge3
  rw [hn, hsb]
  simp only [Option.isNone_none, Option.isNone_some, if_true, Bool.false_eq_true, if_false, dimsBeforeOp_eq]
  by_cases hw : rowsOf opS n d + ro ≤ S.nRows ∧ colsOf opS n d + co ≤ S.nCols
  · have hin : InOp S.nRows S.nCols (rowsOf opS n d) (colsOf opS n d) ro co := ⟨hro, hco, hw.1, hw.2⟩
    obtain ⟨b, ld, e, hb⟩ := submatrixAsBlackbox_spec (sched := E.env.sched) hG hD e1 e2 hA p1 p2 hF hin
    rw [e]
    have : (M.lift (.ok ⟨S.layout, rowsOf opS n d, colsOf opS n d, some b, ld⟩) : M (Buf T) (BFO T)) = pure ⟨S.layout, rowsOf opS n d, colsOf opS n d, some b, ld⟩ := rfl
    rw [this, pure_bind]
    refine rskge3View_congr (S := ⟨S.layout, rowsOf opS n d, colsOf opS n d, some b, ld⟩) (S' := S'.view) rfl hsb hb hS' (inOp_zero _ _)
      (by show InOp S'.nRows S'.nCols _ _ _ _; rw [hr, hc]; exact hin) ?_
    intro i l _
    rw [subMat_zero]
  · rw [submatrix_throw hw]
    funext s
    rw [M.bind_throw (show (M.lift (Res.throw .require) : M (Buf T) (BFO T)) s = (.throw .require, s) from rfl)]
    exact (rskge3View_throw (S := S'.view) hsb fun h => hw ⟨hr ▸ h.1, hc ▸ h.2.1⟩).symm

end

section
variable [Zero T] [One T] [Neg T] [Add T] [Mul T] [BEq T] [Field R] [LinearOrder R] [FloorRing R]

/-- What `fill_dense` does to an operator without a buffer. -/
theorem fillDense_filled {E : SkEnv N K W WS R T} (hG : E.G.Ok) {sched : List Nat} {S S' : DenseSkOp N K T} (hS : DenseOpOk E.G.len S)
    (hn : S.buff = none) (hf : fillDenseOp sched E.G E.sqrt3 S = (.ok (), S')) :
    ∃ A, DenseIs E S A ∧ DenseIs E S' A ∧ S'.buff ≠ none ∧ S'.nRows = S.nRows ∧ S'.nCols = S.nCols ∧ S'.seedState = S.seedState ∧
      S'.nextState = S.nextState := by
  have hmem : S.ownMemory = true := by
    by_contra hc
    rw [C47_fill_dense_error (by simpa using hc) hn] at hf
    cases (Prod.mk.inj hf).1
  have hA := samples_denseEntry (sqrt3 := E.sqrt3) (seed := S.seedState) hG hS.dist
  obtain ⟨_, S1, e, h1, b', h2⟩ := denseIs_filled hG (sched := sched) hS (Or.inl hmem) hA
  rw [e] at hf
  obtain rfl : S1 = S' := (Prod.mk.inj hf).2
  refine ⟨_, ?_, h1, by rw [h2]; simp, by rw [h2], by rw [h2], by rw [h2], by rw [h2]⟩
  simp only [DenseIs, hn]
  exact ⟨hS.dist, hS.rows, hS.cols, hA⟩

/-- C38 (dense operators, left). Take a dense operator that has no buffer, and the same operator after `fill_dense`. For all arguments (with a
window that the code can fill, see `FillOk`, and that does not start at a negative offset), `sketch_general` has the same outcome (normal return or the same error) with
both and leaves exactly the same contents in B. It changes neither operator: the first one still has no buffer. -/
theorem C38_left_dense {E : SkEnv N K W WS R T} (hG : E.G.Ok) {sched : List Nat} {S S' : DenseSkOp N K T} (hS : DenseOpOk E.G.len S)
    (hn : S.buff = none) (hf : fillDenseOp sched E.G E.sqrt3 S = (.ok (), S')) (layout : Layout) (opS opA : Op) {d m : Int} (hd : 0 ≤ d) (hm : 0 ≤ m)
    (n : Int) {ro co : Int} (hF : FillOk E.G.len S.dist (rowsOf opS d m) (colsOf opS d m) ro co) (hro : 0 ≤ ro) (hco : 0 ≤ co) (alpha beta : T) (A b : Buf T) (lda ldb : Int) :
    ∃ r b', sketchGeneralL E layout opS opA d n m alpha ro co A lda beta ldb (.dense S, b) = (r, (.dense S, b')) ∧
      sketchGeneralL E layout opS opA d n m alpha ro co A lda beta ldb (.dense S', b) = (r, (.dense S', b')) := by
  obtain ⟨Sm, h1, h2, h3, h4, h5, -⟩ := fillDense_filled hG hS hn hf
  have := lskge3_fill hG h1 h2 hn h3 h4 h5 (layout := layout) (opS := opS) (opA := opA) (n := n) (alpha := alpha) (beta := beta) (A := A)
    (lda := lda) (ldb := ldb) hd hm hF hro hco
  rcases hr : lskge3 E layout opS opA d n m alpha S' ro co A lda beta ldb b with ⟨r, b'⟩
  refine ⟨r, b', ?_, ?_⟩
  · unfold sketchGeneralL
    rw [M.bind_ok (show (M.get : M (SkOp N K T × Buf T) _) _ = (.ok _, _) from rfl)]
    simp only [onC, M.zoom, this, hr]
  · unfold sketchGeneralL
    rw [M.bind_ok (show (M.get : M (SkOp N K T × Buf T) _) _ = (.ok _, _) from rfl)]
    simp only [onC, M.zoom, hr]

/-- C38 (dense operators, right). The same for right sketches. -/
theorem C38_right_dense {E : SkEnv N K W WS R T} (hG : E.G.Ok) {sched : List Nat} {S S' : DenseSkOp N K T} (hS : DenseOpOk E.G.len S)
    (hn : S.buff = none) (hf : fillDenseOp sched E.G E.sqrt3 S = (.ok (), S')) (layout : Layout) (opA opS : Op) (m : Int) {d n : Int} (hd : 0 ≤ d)
    (hnn : 0 ≤ n) {ro co : Int} (hF : FillOk E.G.len S.dist (rowsOf opS n d) (colsOf opS n d) ro co) (hro : 0 ≤ ro) (hco : 0 ≤ co) (alpha beta : T) (A b : Buf T) (lda ldb : Int) :
    ∃ r b', sketchGeneralR E layout opA opS m d n alpha A lda ro co beta ldb (.dense S, b) = (r, (.dense S, b')) ∧
      sketchGeneralR E layout opA opS m d n alpha A lda ro co beta ldb (.dense S', b) = (r, (.dense S', b')) := by
  obtain ⟨Sm, h1, h2, h3, h4, h5, -⟩ := fillDense_filled hG hS hn hf
  have := rskge3_fill hG h1 h2 hn h3 h4 h5 (layout := layout) (opS := opS) (opA := opA) (m := m) (alpha := alpha) (beta := beta) (A := A)
    (lda := lda) (ldb := ldb) hd hnn hF hro hco
  rcases hr : rskge3 E layout opA opS m d n alpha A lda S' ro co beta ldb b with ⟨r, b'⟩
  refine ⟨r, b', ?_, ?_⟩
  · unfold sketchGeneralR
    rw [M.bind_ok (show (M.get : M (SkOp N K T × Buf T) _) _ = (.ok _, _) from rfl)]
    simp only [onC, M.zoom, this, hr]
  · unfold sketchGeneralR
    rw [M.bind_ok (show (M.get : M (SkOp N K T × Buf T) _) _ = (.ok _, _) from rfl)]
    simp only [onC, M.zoom, hr]

/-- C38 (sparse operators, left). Take a sparse operator as its constructor leaves it, and the same operator after `fill_sparse`. For all
arguments, `sketch_general` from the left has the same outcome with both (whatever it is) and leaves exactly the same contents in B. The
operator that was not filled is not changed. -/
theorem C38_left_sparse {E : SkEnv N K W WS R T} {D : SparseDist} {seed : RNGState N K} {S S' : SparseSkOp N K T}
    (hS : S = mkSparseSkOp E.GS.len D seed) (hf : fillSparse E.GS E.sqrt E.order S = (.ok (), S')) (hn : 0 ≤ S'.nnz)
    (layout : Layout) (opS opA : Op) (d n m ro co : Int) (alpha beta : T) (A b : Buf T) (lda ldb : Int) :
    ∃ r b' S'', sketchGeneralL E layout opS opA d n m alpha ro co A lda beta ldb (.sparse S, b) = (r, (.sparse S, b')) ∧
      sketchGeneralL E layout opS opA d n m alpha ro co A lda beta ldb (.sparse S', b) = (r, (.sparse S'', b')) := by
  subst hS
  rcases hr : lskgesView E layout opS opA d n m alpha ro co A lda beta ldb (S', b) with ⟨r, S'', b'⟩
  refine ⟨r, b', S'', ?_, ?_⟩
  · unfold sketchGeneralL
    rw [M.bind_ok (show (M.get : M (SkOp N K T × Buf T) _) _ = (.ok _, _) from rfl)]
    have : lskges E layout opS opA d n m alpha ro co A lda beta ldb (mkSparseSkOp E.GS.len D seed, b) =
        (r, (mkSparseSkOp E.GS.len D seed, b')) := by
      unfold lskges
      rw [M.bind_ok (show (M.get : M (SparseSkOp N K T × Buf T) _) _ = (.ok _, _) from rfl), if_pos (by simp [mkSparseSkOp])]
      have hc : (filledCopy E (mkSparseSkOp E.GS.len D seed) : M (SparseSkOp N K T × Buf T) _) (mkSparseSkOp E.GS.len D seed, b) =
          (.ok S', (mkSparseSkOp E.GS.len D seed, b)) := by
        unfold filledCopy
        rw [M.bind_ok (a := ((), S')) (s' := (mkSparseSkOp E.GS.len D seed, b))]
        · rfl
        · have : fillSparse E.GS E.sqrt E.order (mkSparseSkOp E.GS.len (mkSparseSkOp E.GS.len D seed : SparseSkOp N K T).dist
              (mkSparseSkOp E.GS.len D seed : SparseSkOp N K T).seedState) = (.ok (), S') := hf
          simp only [M.onLocal, this]
      rw [M.bind_ok hc, M.bind_ok (show M.ubIf (S'.nnz < 0) _ = (.ok (), _) by simp [M.ubIf, show ¬ S'.nnz < 0 by omega]; rfl)]
      simp only [M.zoom, hr]
    simp only [onSkSparse, M.zoom, this]
  · unfold sketchGeneralL
    rw [M.bind_ok (show (M.get : M (SkOp N K T × Buf T) _) _ = (.ok _, _) from rfl)]
    have : lskges E layout opS opA d n m alpha ro co A lda beta ldb (S', b) = (r, (S'', b')) := by
      unfold lskges
      rw [M.bind_ok (show (M.get : M (SparseSkOp N K T × Buf T) _) _ = (.ok _, _) from rfl), if_neg (by simp only; omega)]
      exact hr
    simp only [onSkSparse, M.zoom, this]

end

/-- `S'` is what filling the new operator `S` gives. -/
def Spec.FilledFrom [Field R] [LinearOrder R] [FloorRing R] [Ring T] (E : SkEnv N K W WS R T) (S S' : SkOp N K T) : Prop :=
  match S, S' with
  | .dense S, .dense S' => (∃ D seed, DenseDistOk D ∧ mkDenseSkOp E.G.len D seed = .ok S) ∧ ∃ sched, fillDenseOp sched E.G E.sqrt3 S = (.ok (), S')
  | .sparse S, .sparse S' => (∃ D seed, SparseDistOk D ∧ S = mkSparseSkOp E.GS.len D seed) ∧ fillSparse E.GS E.sqrt E.order S = (.ok (), S')
  | _, _ => False

/-- The two runs of `f` on B, with operators `S` and `S'`, have the same outcome and leave the same contents in B; `S` is not changed. -/
def Spec.SameRuns {α : Type} (f : M (SkOp N K T × Buf T) α) (S S' : SkOp N K T) (b : Buf T) : Prop :=
  ∃ r b' S'', f (S, b) = (r, (S, b')) ∧ f (S', b) = (r, (S'', b'))

section
variable [Field R] [LinearOrder R] [FloorRing R]

theorem sketchGeneralL_same [Ring T] [BEq T] {E : SkEnv N K W WS R T} (hE : SkEnvOk E) {S S' : SkOp N K T} (h : FilledFrom E S S') (layout : Layout)
    (opS opA : Op) {d m : Int} (hd : 0 ≤ d) (hm : 0 ≤ m) (n : Int) {ro co : Int} (hF : WindowFillOk E.G.len S (rowsOf opS d m) (colsOf opS d m) ro co) (hro : 0 ≤ ro) (hco : 0 ≤ co) (alpha beta : T) (A b : Buf T)
    (lda ldb : Int) : SameRuns (sketchGeneralL E layout opS opA d n m alpha ro co A lda beta ldb) S S' b := by
  cases S with
  | dense S =>
    cases S' with
    | sparse _ => exact h.elim
    | dense S' =>
      obtain ⟨⟨D, seed, h1, h2⟩, sched, h3⟩ := h
      obtain ⟨k1, -, -, k2, -⟩ := mkDenseSkOp_ok h1 h2
      obtain ⟨r, b', e1, e2⟩ := C38_left_dense hE.gen k1 k2 h3 layout opS opA hd hm n (hF k2) hro hco alpha beta A b lda ldb
      exact ⟨r, b', _, e1, e2⟩
  | sparse S =>
    cases S' with
    | dense _ => exact h.elim
    | sparse S' =>
      obtain ⟨⟨D, seed, h1, rfl⟩, h3⟩ := h
      obtain ⟨L, S1, e, k1, -⟩ := fill_run hE (mkSparseSkOp_ok E.GS.len h1 seed : SparseOpOk (mkSparseSkOp E.GS.len D seed : SparseSkOp N K T))
      rw [e] at h3
      obtain rfl : S1 = S' := (Prod.mk.inj h3).2
      obtain ⟨r, b', S'', e1, e2⟩ := C38_left_sparse rfl e (opHolds_nnz k1) layout opS opA d n m ro co alpha beta A b lda ldb
      exact ⟨r, b', _, e1, e2⟩

/-- C38 (`sketch_vector`), for dense and sparse operators. -/
theorem C38_vector [Ring T] [BEq T] {E : SkEnv N K W WS R T} (hE : SkEnvOk E) {S S' : SkOp N K T} (h : FilledFrom E S S')
    (opS : Op) {d m : Int} (hd : 0 ≤ d) (hm : 0 ≤ m) {ro co : Int} (hF : WindowFillOk E.G.len S d m ro co) (hro : 0 ≤ ro) (hco : 0 ≤ co) (alpha beta : T) (x y : Buf T) (incx incy : Int) :
    SameRuns (sketchVector E opS d m alpha ro co x incx beta incy) S S' y := by
  unfold sketchVector
  cases opS with
  | NoTrans => exact sketchGeneralL_same hE h .RowMajor .NoTrans .NoTrans hd hm 1 hF hro hco alpha beta x y incx incy
  | Trans => exact sketchGeneralL_same hE h .RowMajor .Trans .NoTrans hm hd 1 hF hro hco alpha beta x y incx incy

theorem sameRuns_lift {α : Type} {r : Res α} {f : α → M (SkOp N K T × Buf T) Unit} {S S' : SkOp N K T} {b : Buf T}
    (h : ∀ a, r = .ok a → SameRuns (f a) S S' b) : SameRuns (M.lift r >>= f) S S' b := by
  cases r with
  | ok a =>
    obtain ⟨r, b', S'', e1, e2⟩ := h a rfl
    refine ⟨r, b', S'', ?_, ?_⟩
    · rw [M.bind_ok (show (M.lift (Res.ok a) : M (SkOp N K T × Buf T) α) _ = (.ok a, _) from rfl), e1]
    · rw [M.bind_ok (show (M.lift (Res.ok a) : M (SkOp N K T × Buf T) α) _ = (.ok a, _) from rfl), e2]
  | throw e => exact ⟨.throw e, b, S', rfl, rfl⟩
  | ub => exact ⟨.ub, b, S', rfl, rfl⟩

/-- C38 (`sketch_symmetric`, left), for dense and sparse operators. -/
theorem C38_symmetric_left [Field T] [LinearOrder T] {E : SkEnv N K W WS R T} (hE : SkEnvOk E) {S S' : SkOp N K T} (h : FilledFrom E S S')
    (layout : Layout) {d n : Int} (hd : 0 ≤ d) (hn : 0 ≤ n) {ro co : Int} (hF : WindowFillOk E.G.len S d n ro co) (hro : 0 ≤ ro) (hco : 0 ≤ co) (alpha beta tol : T) (A b : Buf T)
    (lda ldb : Int) : SameRuns (sketchSymmetricL E layout d n alpha ro co A lda beta ldb tol) S S' b :=
  sameRuns_lift fun _ _ => sketchGeneralL_same hE h layout .NoTrans .NoTrans hd hn n hF hro hco alpha beta A b lda ldb

/-- C38 (`sketch_symmetric`, right), for dense operators. -/
theorem C38_symmetric_right_dense [Field T] [LinearOrder T] {E : SkEnv N K W WS R T} (hG : E.G.Ok) {sched : List Nat} {S S' : DenseSkOp N K T}
    (hS : DenseOpOk E.G.len S) (hnn : S.buff = none) (hf : fillDenseOp sched E.G E.sqrt3 S = (.ok (), S')) (layout : Layout) {n d : Int} (hd : 0 ≤ d)
    (hn : 0 ≤ n) {ro co : Int} (hF : FillOk E.G.len S.dist n d ro co) (hro : 0 ≤ ro) (hco : 0 ≤ co) (alpha beta tol : T) (A b : Buf T) (lda ldb : Int) :
    SameRuns (sketchSymmetricR E layout n d alpha A lda ro co beta ldb tol) (.dense S) (.dense S') b :=
  sameRuns_lift fun _ _ => by
    obtain ⟨r, b', e1, e2⟩ := C38_right_dense hG hS hnn hf layout .NoTrans .NoTrans n hd hn hF hro hco alpha beta A b lda ldb
    exact ⟨r, b', _, e1, e2⟩

/-- Filling an operator gives the entries that a new operator with the same distribution and seed gets, possibly in another order. -/
theorem fill_perm [Ring T] {E : SkEnv N K W WS R T} (hE : SkEnvOk E) {S S' : SparseSkOp N K T} {L : List (Entry T)} (hok : SparseOpOk S)
    (hf : S.nnz < 0) (hS : SparseIs E S L) (hfill : fillSparse E.GS E.sqrt E.order S = (.ok (), S')) :
    ∃ L', SparseIs E S' L' ∧ L'.Perm L ∧ 0 ≤ S'.nnz ∧ S' = { S with nnz := S'.nnz, vals := S'.vals, rows := S'.rows, cols := S'.cols } := by
  obtain ⟨h1, h2⟩ := hS
  rw [if_pos hf] at h2
  obtain ⟨S1, e1, g1, g2, g3⟩ := h2
  obtain ⟨L0, S2, e2, k1, k2, k3, k4⟩ := fill_run hE hok
  rw [e2] at hfill
  obtain rfl : S2 = S' := (Prod.mk.inj hfill).2
  refine ⟨_, ⟨k3, by rw [if_neg (by have := opHolds_nnz k1; omega)]; exact k1⟩, ?_, opHolds_nnz k1, k2⟩
  obtain ⟨L1, S1', e1', k1', -, -, k4'⟩ := fill_run hE (mkSparseSkOp_ok E.GS.len hok.dist S.seedState :
    SparseOpOk (mkSparseSkOp E.GS.len S.dist S.seedState : SparseSkOp N K T))
  rw [e1'] at e1
  obtain rfl : S1' = S1 := (Prod.mk.inj e1).2
  obtain ⟨v, r, c, a1, a2, a3, a4, a5⟩ := g1
  obtain ⟨v', r', c', b1, b2, b3, b4, b5⟩ := k1'
  rw [a1] at b1; rw [a2] at b2; rw [a3] at b3
  cases b1; cases b2; cases b3
  have := cooHolds_unique a4 b4 (by omega)
  rw [this]
  exact (sparseRun_perm k4 k4').map _

/-- C38 (sparse operators, right, `beta = 0`). With a sparse operator `S` as its constructor leaves it and with the filled operator `S'`, a right
sketch that overwrites B gives the same B. The seed of the operator is not changed, but `S` is filled by the call.

Missing: `beta ≠ 0`, where the results differ (`C38_right_sparse_counterexample`); `op(submat(S))` without the condition `CooOk`, where the
product is not defined. -/
theorem C38_right_sparse_partial [CommRing T] [DecidableEq T] {E : SkEnv N K W WS R T} (hE : SkEnvOk E) {S S' : SparseSkOp N K T}
    {L : List (Entry T)} (hok : SparseOpOk S) (hf : S.nnz < 0) (hS : SparseIs E S L) (hr : InRange S.nRows S.nCols L)
    (hfill : fillSparse E.GS E.sqrt E.order S = (.ok (), S'))
    {layout : Layout} {opA opS : Op} {m d n ro co : Int} {alpha : T} {A b : Buf T} {lda ldb : Int} {Am : Int → Int → T}
    (hw : InOp S.nRows S.nCols (rowsOf opS n d) (colsOf opS n d) ro co)
    (hK : alpha ≠ 0 → CooOk L.length n (opEntries opS.flip (window ro co (rowsOf opS n d) (colsOf opS n d) L)))
    (hm : 0 ≤ m) (hd : 0 ≤ d) (hn : 0 ≤ n) (hlda : LdOk layout lda (rowsOf opA m n) (colsOf opA m n)) (hldb : LdOk layout ldb m d)
    (hA : alpha ≠ 0 → Holds A layout lda (rowsOf opA m n) (colsOf opA m n) Am) (hal : Alloc b layout ldb m d) :
    ∃ b' S1 S2, sketchGeneralR E layout opA opS m d n alpha A lda ro co 0 ldb (.sparse S, b) = (.ok (), (.sparse S1, b')) ∧
      sketchGeneralR E layout opA opS m d n alpha A lda ro co 0 ldb (.sparse S', b) = (.ok (), (.sparse S2, b')) ∧
      S1.seedState = S.seedState ∧ S2.seedState = S.seedState := by
  obtain ⟨_, ⟨So1, b1⟩, e1, P, rfl, h1, h2, S1, L1, h3, h4, h5, h6⟩ := C37_right_unfilled hE hf hok hS hr (C := fun _ _ => 0) (beta := 0) hw hK hm hd hn hlda hldb hA hal
    (fun h => absurd rfl h)
  obtain ⟨L', k1, k2, k3, k4⟩ := fill_perm hE hok hf hS hfill
  have hdim : S'.nRows = S.nRows ∧ S'.nCols = S.nCols ∧ S'.seedState = S.seedState := by rw [k4]; exact ⟨rfl, rfl, rfl⟩
  have hreg : alpha ≠ 0 → CooOk L'.length n (opEntries opS.flip (window ro co (rowsOf opS n d) (colsOf opS n d) L')) := by
    intro ha
    refine CooOk.perm_of (hK ha) k2 ?_
    have := window_perm (ro := ro) (co := co) (d := rowsOf opS n d) (m := colsOf opS n d) k2.symm
    cases opS
    · exact this.map _
    · exact this
  obtain ⟨_, ⟨So2, b2⟩, e2, q1, q2, q3⟩ := C37_right_sparse_partial hE k3 k1 (by rw [hdim.1, hdim.2.1]; exact fun e he => hr e (k2.subset he))
    (C := fun _ _ => 0) (beta := 0) (by rw [hdim.1, hdim.2.1]; exact hw) hreg hm hd hn hlda hldb hA hal (fun h => absurd rfl h)
  have hbb : b1 = b2 := by
    refine MatSt.unique (b0 := b) (ad := addr layout ldb) (m := m) (n := d) ⟨fun i j hij => h1 i j hij, h2⟩ ⟨fun i j hij => ?_, q2⟩
    have := q1 i j hij
    dsimp only at this
    rw [this, show toMat L' = toMat L from funext fun i => funext fun j => toMat_perm k2 i j]
    simp
  subst hbb
  dsimp only at h3 q3
  subst h3
  cases So2 with
  | dense _ => exact q3.elim
  | sparse S2 =>
    refine ⟨b1, S1, S2, e1, e2, by rw [h6], ?_⟩
    rcases q3 with rfl | ⟨-, q3, -⟩
    · exact hdim.2.2
    · rw [q3]; exact hdim.2.2

end

/-- C38 is false for right sketches with a sparse operator and `beta = 1`: with the new 1 x 1 operator `exTinyOp`, A = [1] and B = [0], the result
differs from the one after `fill_sparse`, and the call changes the operator. -/
theorem C38_right_sparse_counterexample : ∃ S' : SparseSkOp (2 ^ 128) Nat ℤ, ∃ b1 b2 S1 S2,
    fillSparse exSkEnv.GS exSkEnv.sqrt exSkEnv.order exTinyOp = (.ok (), S') ∧
    sketchGeneralR exSkEnv .ColMajor .NoTrans .NoTrans 1 1 1 1 (Buf.ofList [1]) 1 0 0 1 1 (.sparse exTinyOp, Buf.ofList [0]) = (.ok (), (S1, b1)) ∧
    sketchGeneralR exSkEnv .ColMajor .NoTrans .NoTrans 1 1 1 1 (Buf.ofList [1]) 1 0 0 1 1 (.sparse S', Buf.ofList [0]) = (.ok (), (S2, b2)) ∧
    b1 ≠ b2 ∧ S1 ≠ .sparse exTinyOp := by
  obtain ⟨x, hx, h1, _, ⟨S1, b1⟩, e1, h2, h3⟩ := C37_right_unfilled_counterexample
  have hok : SparseOpOk exTinyOp := mkSparseSkOp_ok 4 ⟨by decide, by decide⟩ _
  obtain ⟨L0, S', e, -⟩ := fill_run exSkEnv_ok hok
  obtain ⟨L', k1, k2, k3, k4⟩ := fill_perm exSkEnv_ok hok (by simp [exTinyOp, mkSparseSkOp]) h1 e
  obtain rfl : L' = [⟨0, 0, x⟩] := List.perm_singleton.mp k2
  have hdim : S'.nRows = 1 ∧ S'.nCols = 1 := by rw [k4]; exact ⟨rfl, rfl⟩
  have one : ∀ {v : ℤ}, Holds (Buf.ofList [v]) .ColMajor 1 1 1 (fun _ _ => v) := by
    intro v i j hij
    simp only [InR] at hij
    obtain rfl : i = 0 := by omega
    obtain rfl : j = 0 := by omega
    rfl
  obtain ⟨_, ⟨S2, b2⟩, e2, q1, -⟩ := C37_right_sparse_partial exSkEnv_ok k3 k1 (layout := .ColMajor) (opA := .NoTrans) (opS := .NoTrans) (m := 1) (d := 1)
    (n := 1) (ro := 0) (co := 0) (alpha := 1) (beta := 1) (A := Buf.ofList [1]) (b := Buf.ofList [0]) (lda := 1) (ldb := 1) (Am := fun _ _ => 1)
    (C := fun _ _ => 0) (by rw [hdim.1, hdim.2]; intro e he; rw [List.mem_singleton] at he; subst he; simp)
    (by rw [hdim.1, hdim.2]; exact inOp_zero 1 1) (fun _ => Or.inl ⟨le_rfl, by omega⟩) (by decide) (by decide) (by decide)
    (by simp [LdOk, rowsOf]) (by simp [LdOk]) (fun _ => one) (fun i j hij => by rw [one i j hij]; simp) (fun _ => one)
  refine ⟨S', b1, b2, S1, S2, e, e1, e2, ?_, h3⟩
  rintro rfl
  have := q1 0 0 (by simp [InR])
  rw [show addr .ColMajor 1 0 0 = 0 from rfl, h2] at this
  have := Cell.val.inj this
  simp [prodEntry, opMat, subMat, toMat] at this
  omega

/-- The hypotheses of the theorems above are met: by the new operators `exDense` and `exTinyOp`. -/
example : (∃ S', FilledFrom exSkEnv (.dense exDense) S') ∧ (∃ S', FilledFrom exSkEnv (.sparse exTinyOp) S') := by
  refine ⟨?_, ?_⟩
  · have hD : DenseDistOk exDist := ⟨by decide, by decide⟩
    have hmk : mkDenseSkOp exSkEnv.G.len exDist ⟨5, 3⟩ = .ok exDense := rfl
    obtain ⟨h1, -, -, -, h5⟩ := mkDenseSkOp_ok hD hmk
    obtain ⟨_, S', e, -⟩ := C47_fill_dense (sched := [3, 1]) (sqrt3 := exSkEnv.sqrt3) (Or.inr rfl : exSkEnv.G.Ok) h1 (Or.inl h5)
    exact ⟨.dense S', ⟨exDist, ⟨5, 3⟩, hD, hmk⟩, _, e⟩
  · have hD : SparseDistOk ⟨1, 1, .Short, 1, 1, 1, 1⟩ := ⟨by decide, by decide⟩
    obtain ⟨L0, S', e, -⟩ := fill_run exSkEnv_ok (S := exTinyOp) (mkSparseSkOp_ok 4 hD _)
    exact ⟨.sparse S', ⟨_, _, hD, rfl⟩, e⟩

end RB
