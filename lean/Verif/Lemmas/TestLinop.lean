import Verif.Spec.TestLinop
import Verif.Lemmas.Sketch
import Verif.Props.DenseSparse

/-! # Lemmas about the reference products of the tests -/

namespace RB
open Spec
variable {N : Nat} {K W WS R T : Type}

theorem ldOk_tight (layout : Layout) (m n : Int) : LdOk layout (tightLd layout m n) m n := by cases layout <;> exact le_refl _

theorem tightLd_if (layout : Layout) (m n : Int) : (if layout = .ColMajor then m else n) = tightLd layout m n := by cases layout <;> rfl

/-- Loops that write `F i j` to the entries of a matrix. -/
theorem wp_writeMat {ad : Int → Int → Int} {m n : Int} (hm : 0 ≤ m) (hn : 0 ≤ n) (hinj : AdInj ad m n) {F : Int → Int → T} {b : Buf T} {body : Int → Int → M (Buf T) Unit}
    (hal : ∀ i j, InR m n i j → b (ad i j) ≠ .none)
    (hbody : ∀ i j, InR m n i j → ∀ b' : Buf T, b' (ad i j) = b (ad i j) → ∀ Q : Unit → Buf T → Prop, M.wp (M.wr (ad i j) (F i j)) b' Q → M.wp (body i j) b' Q) :
    M.wp (forI 0 m fun i => forI 0 n fun j => body i j) b (fun _ b' => MatSt b ad m n (fun i j => .val (F i j)) b') := by
  refine M.wp_forI (fun i b' => MatSt b ad m n (fun r c => if r < i then .val (F r c) else b (ad r c)) b') hm
    ((MatSt.init b _ m n).congr fun r c hrc => by rw [if_neg (by have := hrc.1; omega)]) ?_
    (fun b' h => h.congr fun r c hrc => by rw [if_pos hrc.2.1])
  intro i b1 i0 i1 h1
  refine M.wp_forI (fun j b' => MatSt b ad m n (fun r c => if r < i ∨ (r = i ∧ c < j) then .val (F r c) else b (ad r c)) b') hn
    (h1.congr fun r c hrc => by
      have : (r < i ∨ r = i ∧ c < 0) ↔ r < i := by have := hrc.2.2.1; omega
      simp only [this]) ?_
    (fun b' h => h.congr fun r c hrc => by
      have : (r < i ∨ r = i ∧ c < n) ↔ r < i + 1 := by have := hrc.2.2.2; omega
      simp only [this])
  intro j b2 j0 j1 h2
  have hij : InR m n i j := ⟨i0, i1, j0, j1⟩
  refine hbody i j hij b2 (by rw [h2.cells i j hij, if_neg (by omega)]) _ ?_
  refine h2.wp_wr hinj hij (by rw [if_neg (by omega)]; exact hal i j hij) fun b3 h3 => h3.congr fun r c _ => ?_
  by_cases e1 : r = i ∧ c = j
  · rw [if_pos e1, if_pos (by omega), e1.1, e1.2]
  · rw [if_neg e1]
    by_cases e2 : r < i ∨ (r = i ∧ c < j)
    · rw [if_pos e2, if_pos (by omega)]
    · rw [if_neg e2, if_neg (by omega)]

/-! ## Explicit copies -/

section
variable [Field R] [LinearOrder R] [FloorRing R] [Field T] [LinearOrder T]

omit [LinearOrder T] in
theorem toExplicitSp_spec {A : SpMat T} {L : List (Entry T)} (h : Copyable A L) (hr : InRange A.numRows A.numCols L) (hnd : (L.map Entry.pos).Nodup) (hm : 0 ≤ A.numRows)
    (hn : 0 ≤ A.numCols) {layout : Layout} {b : Buf T} (hal : Alloc b layout (tightLd layout A.numRows A.numCols) A.numRows A.numCols) :
    M.wp (toExplicitSp A layout) b (fun _ b' => MatSt b (addr layout (tightLd layout A.numRows A.numCols)) A.numRows A.numCols (fun i j => .val (toMat L i j)) b') := by
  have key : ∀ {sr sc : Int}, (∀ i j, i * sr + j * sc = addr layout (tightLd layout A.numRows A.numCols) i j) → ∀ {p : M (Buf T) Unit},
      M.wp p b (fun _ b' => StrHolds b' sr sc A.numRows A.numCols (overwrite L) ∧ StrSame b b' sr sc A.numRows A.numCols) →
      M.wp p b (fun _ b' => MatSt b (addr layout (tightLd layout A.numRows A.numCols)) A.numRows A.numCols (fun i j => .val (toMat L i j)) b') := by
    intro sr sc hs p hp
    refine M.wp_mono hp fun _ b' hb => ⟨fun i j hij => ?_, fun q hq => hb.2 q fun i j hij => ?_⟩
    · rw [← hs, hb.1 i j hij, C28_no_duplicates hnd]
    · rw [hs]; exact hq i j hij
  have inj : ∀ {sr sc : Int}, (∀ i j, i * sr + j * sc = addr layout (tightLd layout A.numRows A.numCols) i j) → StrInj sr sc A.numRows A.numCols :=
    fun hs => strInj_layout hs (ldOk_tight _ _ _)
  have all : ∀ {sr sc : Int}, (∀ i j, i * sr + j * sc = addr layout (tightLd layout A.numRows A.numCols) i j) → StrAlloc b sr sc A.numRows A.numCols :=
    fun hs i j hij => by rw [hs]; exact hal i j hij
  have hstr : ∃ sr sc, (∀ i j, i * sr + j * sc = addr layout (tightLd layout A.numRows A.numCols) i j) ∧
      (if layout = .ColMajor then (1, A.numRows) else (A.numCols, 1)) = (sr, sc) := by
    cases layout
    · exact ⟨1, A.numRows, fun i j => by simp [addr, tightLd], rfl⟩
    · exact ⟨A.numCols, 1, fun i j => by simp [addr, tightLd], rfl⟩
  obtain ⟨sr, sc, hs, he⟩ := hstr
  cases A with
  | coo A =>
    refine key hs ?_
    have : toExplicitSp (.coo A) layout = cooToDenseStr A sr sc := by
      cases layout <;> cases he <;> rfl
    rw [this]
    exact C28_coo_to_dense h hr hm hn (inj hs) (all hs)
  | csc A =>
    refine key hs ?_
    have : toExplicitSp (.csc A) layout = cscToDenseStr A sr sc := by
      cases layout <;> cases he <;> rfl
    rw [this]
    exact C28_csc_to_dense h.1 h.2 hr hm hn (inj hs) (all hs)
  | csr A =>
    refine key hs ?_
    have : toExplicitSp (.csr A) layout = csrToDenseStr A sr sc := by
      cases layout <;> cases he <;> rfl
    rw [this]
    exact C28_csr_to_dense_partial h.1 h.2.1 hr h.2.2 hm hn (inj hs) (all hs)

omit [LinearOrder T] in
theorem toExplicit_spec {E : SkEnv N K W WS R T} (hE : SkEnvOk E) {S : TestOp N K T} {Sm : Int → Int → T} (hS : TestOpIs E S Sm) {layout : Layout} {b : Buf T}
    (hal : Alloc b layout (tightLd layout S.dims.1 S.dims.2) S.dims.1 S.dims.2) :
    M.wp (toExplicit E layout) (S, b) (fun _ s => TestOpIs E s.1 Sm ∧ s.1.dims = S.dims ∧
      MatSt b (addr layout (tightLd layout S.dims.1 S.dims.2)) S.dims.1 S.dims.2 (fun i j => .val (Sm i j)) s.2) := by
  unfold toExplicit
  rw [M.wp_bind, M.wp_get]
  cases S with
  | dense S =>
    obtain ⟨hD, hr, hc, hs⟩ := hS
    obtain ⟨hR, hC, -, hlay⟩ := denseDist_facts hD
    simp only [TestOp.dims] at hal ⊢
    unfold onC
    rw [M.wp_zoom]
    unfold toExplicitDense
    have hlen : 0 < E.G.len := by rcases hE.gen with h | h <;> omega
    obtain ⟨S0, hS0⟩ : ∃ S0 : DenseSkOp N K T, mkDenseSkOp E.G.len S.dist S.seedState = .ok S0 := by
      unfold mkDenseSkOp
      rw [denseNextState_eq hlen hD]
      exact ⟨_, rfl⟩
    obtain ⟨g1, g2, g3, g4, g5⟩ := mkDenseSkOp_ok hD hS0
    rw [M.wp_bind, M.wp_lift]
    refine ⟨S0, hS0, ?_⟩
    rw [M.wp_bind, M.wp_onLocal]
    refine M.wp_mono (C47_fill_dense hE.gen g1 (Or.inl g5)) ?_
    rintro _ S1 ⟨b1, rfl, -, hb1⟩
    dsimp only
    rw [g2, g3] at hb1
    have hlay0 : S0.layout = S.dist.naturalLayout := by rw [g1.layout, g2]
    have hdim0 : S0.nRows = S.dist.nRows ∧ S0.nCols = S.dist.nCols := ⟨by rw [g1.rows, g2], by rw [g1.cols, g2]⟩
    rw [hdim0.1, hdim0.2] at hb1
    have hld : tightLd S0.layout S.dist.nRows S.dist.nCols = S.dist.dimMajor := by
      rw [hlay0]; rcases hlay with ⟨a, b, _⟩ | ⟨a, b, _⟩ <;> rw [a, b] <;> rfl
    refine M.wp_mono (wp_writeMat (ad := addr layout (tightLd layout S.dist.nRows S.dist.nCols)) (F := Sm) hR.le hC.le (adInj_addr (ldOk_tight _ _ _)) ?_ ?_) ?_
    · rw [hr, hc] at hal
      exact hal
    · intro i j hij b' _ Q hQ
      rw [M.wp_bind, M.wp_lift, layoutToStrides3_eq, layoutToStrides3_eq, strides_at', strides_at', hld]
      refine ⟨Sm i j, ?_, hQ⟩
      rw [samples_unique hE.gen hD hs hij]
      exact Buf.rd_val (hb1 i j hij)
    · rintro _ b' hb'
      rw [hr, hc]
      exact ⟨⟨hD, hr, hc, hs⟩, rfl, hb'⟩
  | sparse S =>
    obtain ⟨p1, p2, L, hL, hin, hnd, hm, hf⟩ := hS
    simp only [TestOp.dims] at hal ⊢
    rw [M.wp_zoom]
    unfold toExplicitSparse onSp onC
    rw [M.wp_bind, M.wp_zoom]
    have fin : ∀ S' : SparseSkOp N K T, OpHolds S' L → S'.nRows = S.nRows → S'.nCols = S.nCols → ∀ s,
        CooIs ⟨S'.nRows, S'.nCols, false, S'.nnz, .Zero, S'.vals, S'.rows, S'.cols, s⟩ L →
        M.wp (M.zoom Prod.snd (fun s b => (s.1, b)) (toExplicitSp (.coo (⟨S'.nRows, S'.nCols, false, S'.nnz, .Zero, S'.vals, S'.rows, S'.cols, s⟩ : CooMat T)) layout)) (S', b)
          (fun _ t => TestOpIs E (TestOp.sparse t.1) Sm ∧ (t.1.nRows, t.1.nCols) = (S.nRows, S.nCols) ∧
            MatSt b (addr layout (tightLd layout S.nRows S.nCols)) S.nRows S.nCols (fun i j => .val (Sm i j)) t.2) := by
      intro S' hS' e1 e2 s hcoo
      rw [M.wp_zoom]
      refine M.wp_mono (toExplicitSp_spec (A := .coo ⟨S'.nRows, S'.nCols, false, S'.nnz, .Zero, S'.vals, S'.rows, S'.cols, s⟩) (L := L) (layout := layout) (b := b) hcoo ?_ hnd ?_ ?_ ?_) ?_
      · simp only [SpMat.numRows, SpMat.numCols]; rw [e1, e2]; exact hin
      · simp only [SpMat.numRows]; omega
      · simp only [SpMat.numCols]; omega
      · simp only [SpMat.numRows, SpMat.numCols]; rw [e1, e2]; exact hal
      · rintro _ b' hb'
        simp only [SpMat.numRows, SpMat.numCols] at hb'
        rw [e1, e2, hm] at hb'
        exact ⟨⟨by rw [e1]; exact p1, by rw [e2]; exact p2, L, hL, by rw [e1, e2]; exact hin, hnd, hm, Or.inl hS'⟩, by rw [e1, e2], hb'⟩
    rcases hf with hf | ⟨hneg, S', e, hS', e1, e2⟩
    · obtain ⟨s, es, hcoo, -⟩ := cooViewOfSkop_run (G := E.GS) (sqrt := E.sqrt) (order := E.order) hL hf
      refine ⟨_, _, es, ?_⟩
      exact fin S hf rfl rfl s hcoo
    · obtain ⟨s, es, hcoo, -⟩ := cooViewOfSkop_run (G := E.GS) (sqrt := E.sqrt) (order := E.order) hL hS'
      have hpos : 0 < S'.nnz := by
        obtain ⟨_, _, _, -, -, -, -, h⟩ := hS'
        have := List.length_pos_iff.mpr hL
        omega
      have run : cooViewOfSkop E.GS E.sqrt E.order S = cooViewOfSkop E.GS E.sqrt E.order S' := by
        unfold cooViewOfSkop
        rw [M.bind_ok (show (M.get : M (SparseSkOp N K T) _) S = (.ok S, S) from rfl), M.bind_ok (show (M.get : M (SparseSkOp N K T) _) S' = (.ok S', S') from rfl),
          M.bind_ok (show M.when (S.nnz ≤ 0) (fillSparse E.GS E.sqrt E.order) S = (.ok (), S') by unfold M.when; rw [if_pos (by omega)]; exact e),
          M.bind_ok (show M.when (S'.nnz ≤ 0) (fillSparse E.GS E.sqrt E.order) S' = (.ok (), S') by unfold M.when; rw [if_neg (by omega)]; rfl)]
      refine ⟨_, _, run.trans es, ?_⟩
      exact fin S' hS' e1 e2 s hcoo
  | mat A =>
    obtain ⟨p1, p2, L, hc, hin, hnd, hm⟩ := hS
    simp only [TestOp.dims] at hal ⊢
    unfold onC
    rw [M.wp_zoom]
    refine M.wp_mono (toExplicitSp_spec hc hin hnd p1.le p2.le hal) ?_
    rintro _ b' hb'
    rw [hm] at hb'
    exact ⟨⟨p1, p2, L, hc, hin, hnd, hm⟩, rfl, hb'⟩

end

/-! ## Random matrices -/

theorem randomMatrix_flat [Mul T] {E : SkEnv N K W WS R T} (hG : E.G.Ok) {m n : Int} (hm : 0 < m) (hn : 0 < n) (hfit : m * n ≤ intMax 64) (seed : RNGState N K) [Zero T] :
    randomMatrix E m n seed (zeroVec (m * n)) = (.ok (), Buf.ofFn (m * n) (testData E.G seed m n)) := by
  have hDD := mkDenseDist_eq (r := m) (c := n) (fam := .Gaussian) (ax := .Long) hm hn
  obtain ⟨D, hD⟩ : ∃ D, mkDenseDist m n .Gaussian .Long = .ok D := ⟨_, hDD⟩
  have hDok := denseDistOk_of_mk hD hfit
  obtain ⟨h1, h2, h3, h4, h5⟩ : D.nRows = m ∧ D.nCols = n ∧ D.family = .Gaussian ∧ D.dimMajor = max m n ∧ D.naturalLayout = naturalLayout .Long m n := by
    rw [hDD] at hD; cases hD
    exact ⟨rfl, rfl, rfl, by simp, rfl⟩
  have main : M.wp (randomMatrix E m n seed) (zeroVec (m * n)) (fun _ b => b = Buf.ofFn (m * n) (testData E.G seed m n)) := by
    unfold randomMatrix
    rw [M.wp_bind, M.wp_lift]
    refine ⟨D, hD, ?_⟩
    rw [M.wp_bind]
    unfold fillDense
    refine M.wp_mono (fillUnpacked_spec hG hDok (by omega) (by omega) (le_refl 0) (le_refl 0) (by omega) (by omega) (by
      rw [h1, h2]; intro p p0 p1; unfold zeroVec Buf.ofFn; rw [if_pos ⟨p0, p1⟩]; simp)) ?_
    rintro s b' ⟨g1, g2, -⟩
    rw [M.wp_pure]
    rw [h1, h2] at g1 g2
    funext f
    by_cases hf : 0 ≤ f ∧ f < m * n
    swap
    · rw [g2 f hf]; unfold zeroVec Buf.ofFn; rw [if_neg hf, if_neg hf]
    unfold Buf.ofFn testData
    rw [if_pos hf]
    obtain ⟨f0, f1⟩ := hf
    by_cases hlt : m < n
    · have hmax : max m n = n := by omega
      rw [hmax] at h4 ⊢
      have hq0 : 0 ≤ f / n := Int.ediv_nonneg f0 hn.le
      have hq1 : f / n < m := Int.ediv_lt_of_lt_mul hn f1
      have hp0 := Int.emod_nonneg f hn.ne'
      have hp1 := Int.emod_lt_of_pos f hn
      have hf := Int.emod_add_mul_ediv f n
      have hl : D.naturalLayout = .RowMajor := by rw [h5]; simp [naturalLayout, hlt]
      have := g1 (f / n) (f % n) ⟨hq0, hq1, hp0, hp1⟩
      rw [hl] at this
      simp only [addr, tightLd, add_zero, denseEntry, hl, h3, h4, famScale] at this
      rw [← this]
      congr 1
      rw [mul_comm]
      omega
    · have hmax : max m n = m := by omega
      rw [hmax] at h4 ⊢
      have hq0 : 0 ≤ f / m := Int.ediv_nonneg f0 hm.le
      have hq1 : f / m < n := Int.ediv_lt_of_lt_mul hm (by rw [mul_comm]; exact f1)
      have hp0 := Int.emod_nonneg f hm.ne'
      have hp1 := Int.emod_lt_of_pos f hm
      have hf := Int.emod_add_mul_ediv f m
      have hl : D.naturalLayout = .ColMajor := by rw [h5]; simp [naturalLayout, hlt]
      have := g1 (f % m) (f / m) ⟨hp0, hp1, hq0, hq1⟩
      rw [hl] at this
      simp only [addr, tightLd, add_zero, denseEntry, hl, h3, h4, famScale] at this
      rw [← this]
      congr 1
      rw [mul_comm (f / m)]
      exact hf.symm
  obtain ⟨⟨⟩, b, e, hb⟩ := main
  rw [e, hb]

/-! ## Absolute values -/

section
variable [Field T] [LinearOrder T]

theorem absStr_spec {layout : Layout} {m n : Int} (hm : 0 ≤ m) (hn : 0 ≤ n) {src b : Buf T} {F : Int → Int → T} (hs : Holds src layout (tightLd layout m n) m n F)
    (hal : Alloc b layout (tightLd layout m n) m n) :
    M.wp (absStr m n (if layout = .ColMajor then 1 else tightLd layout m n) (if layout = .ColMajor then tightLd layout m n else 1) src) b
      (fun _ b' => Holds b' layout (tightLd layout m n) m n (fun i j => |F i j|)) := by
  unfold absStr
  have had : ∀ i j, i * (if layout = .ColMajor then 1 else tightLd layout m n) + j * (if layout = .ColMajor then tightLd layout m n else 1) = addr layout (tightLd layout m n) i j := by
    intro i j; cases layout <;> simp [addr]
  refine M.wp_mono (wp_writeMat (ad := addr layout (tightLd layout m n)) (F := fun i j => |F i j|) hm hn (adInj_addr (ldOk_tight _ _ _)) hal ?_) fun _ b' hb => hb.holds
  intro i j hij b' _ Q hQ
  rw [M.wp_bind, M.wp_lift, had]
  exact ⟨F i j, Buf.rd_val (hs i j hij), hQ⟩

theorem absVec_spec {n : Int} {src b : Buf T} (hn : 0 ≤ n) (hs : Full src n) (hal : ∀ p, 0 ≤ p → p < n → b p ≠ .none) :
    M.wp (absVec n src) b (fun _ b' => (∀ p, 0 ≤ p → p < n → ∀ v, src p = .val v → b' p = .val |v|) ∧ ∀ p, ¬ (0 ≤ p ∧ p < n) → b' p = b p) := by
  unfold absVec
  refine M.wp_forI (fun i b' => (∀ p, 0 ≤ p → p < i → ∀ v, src p = .val v → b' p = .val |v|) ∧ ∀ p, ¬ (0 ≤ p ∧ p < i) → b' p = b p) hn
    ⟨fun p h0 h1 => by omega, fun _ _ => rfl⟩ ?_ (fun _ h => h)
  rintro i b' i0 i1 ⟨h1, h2⟩
  obtain ⟨v, hv⟩ := hs i i0 i1
  rw [M.wp_bind, M.wp_lift]
  refine ⟨v, Buf.rd_val hv, ?_⟩
  rw [M.wp_wr]
  refine ⟨by rw [h2 i (by omega)]; exact hal i i0 i1, fun p p0 p1 w hw => ?_, fun p hp => ?_⟩
  · by_cases hpi : p = i
    · subst hpi
      rw [hv] at hw; cases hw
      simp
    · rw [Buf.set_ne hpi]; exact h1 p p0 (by omega) w hw
  · rw [Buf.set_ne (by rintro rfl; omega)]; exact h2 p (by omega)

end

/-! ## Addresses -/

theorem addr_bound {layout : Layout} {ld m n i j : Int} (hld : LdOk layout ld m n) (h : InR m n i j) : 0 ≤ addr layout ld i j ∧ addr layout ld i j < extent layout ld m n := by
  obtain ⟨i0, i1, j0, j1⟩ := h
  cases layout
  · simp only [LdOk, addr, extent] at *
    have : j * ld ≤ (n - 1) * ld := mul_le_mul_of_nonneg_right (by omega) (by omega)
    have := mul_nonneg j0 (show 0 ≤ ld by omega)
    constructor
    · omega
    · rw [mul_comm ld]; omega
  · simp only [LdOk, addr, extent] at *
    have : i * ld ≤ (m - 1) * ld := mul_le_mul_of_nonneg_right (by omega) (by omega)
    have := mul_nonneg i0 (show 0 ≤ ld by omega)
    constructor
    · omega
    · rw [mul_comm ld]; omega

theorem extent_tight (layout : Layout) (m n : Int) : extent layout (tightLd layout m n) m n = m * n := by
  cases layout <;> simp only [extent, tightLd] <;> ring

theorem ofFn_holds (layout : Layout) {m n : Int} (f : Int → T) : Holds (Buf.ofFn (m * n) f) layout (tightLd layout m n) m n (fun i j => f (addr layout (tightLd layout m n) i j)) := by
  intro i j hij
  have := addr_bound (ldOk_tight layout m n) hij
  rw [extent_tight] at this
  unfold Buf.ofFn
  rw [if_pos this]

theorem ofFn_alloc (layout : Layout) {m n : Int} (f : Int → T) : Alloc (Buf.ofFn (m * n) f) layout (tightLd layout m n) m n := fun i j hij => by
  rw [ofFn_holds layout f i j hij]; simp

theorem tight_pos {layout : Layout} {m n p : Int} (hm : 0 < m) (hn : 0 < n) (h0 : 0 ≤ p) (h1 : p < m * n) : ∃ i j, InR m n i j ∧ p = addr layout (tightLd layout m n) i j := by
  cases layout
  · refine ⟨p % m, p / m, ⟨Int.emod_nonneg p hm.ne', Int.emod_lt_of_pos p hm, Int.ediv_nonneg h0 hm.le, Int.ediv_lt_of_lt_mul hm (by rw [mul_comm]; exact h1)⟩, ?_⟩
    simp only [addr, tightLd]
    rw [mul_comm]; exact (Int.emod_add_mul_ediv p m).symm
  · refine ⟨p / n, p % n, ⟨Int.ediv_nonneg h0 hn.le, Int.ediv_lt_of_lt_mul hn h1, Int.emod_nonneg p hn.ne', Int.emod_lt_of_pos p hn⟩, ?_⟩
    simp only [addr, tightLd]
    have := Int.emod_add_mul_ediv p n
    rw [mul_comm (p / n)]; omega

end RB
