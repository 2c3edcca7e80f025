import Verif.Model.TestSketch
import Verif.Props.TestDenseskop
import Verif.Props.SketchApi
import Verif.Props.TestEye

/-!
# C133: the tests of `sketch_vector` and `sketch_symmetric` accept the library
-/

namespace RB
open Spec
variable {N : Nat} {K W WS R T : Type}

/-! ## The BLAS routines -/

section
variable [CommRing T] [DecidableEq T]

theorem blasEntry_spec {k : Int} {alpha beta : T} {a b : Int → Res T} {x y : Int → T} {p : Int} {c : T} {s : Buf T} {Q : Unit → Buf T → Prop} (hk : 0 ≤ k)
    (ha : alpha ≠ 0 → ∀ l, 0 ≤ l → l < k → a l = .ok (x l)) (hb : alpha ≠ 0 → ∀ l, 0 ≤ l → l < k → b l = .ok (y l)) (hc : beta ≠ 0 → s p = .val c)
    (hQ : M.wp (M.wr p (alpha * (∑ l ∈ Finset.range k.toNat, x l * y l) + beta * c)) s Q) : M.wp (blasEntry k alpha a b beta p) s Q := by
  unfold blasEntry
  have hjp : M.wp (if (beta == 0) = true then M.wr p (alpha * ∑ l ∈ Finset.range k.toNat, x l * y l) else do
        let c ← M.rd p
        M.wr p (alpha * (∑ l ∈ Finset.range k.toNat, x l * y l) + beta * c)) s Q := by
    by_cases hb : beta = 0
    · rw [if_pos (by simpa using hb)]
      rwa [hb, zero_mul, add_zero] at hQ
    · rw [if_neg (by simpa using hb), M.wp_bind, M.wp_rd]
      exact ⟨_, hc hb, hQ⟩
  by_cases h0 : alpha = 0
  · rw [if_pos (by simpa using h0), M.wp_bind, M.wp_pure]
    rw [show alpha * (∑ l ∈ Finset.range k.toNat, x l * y l) = 0 by rw [h0, zero_mul]] at hjp
    exact hjp
  · rw [if_neg (by simpa using h0), M.wp_bind]
    refine M.wp_foldI (fun l acc b' => acc = ∑ q ∈ Finset.range l.toNat, x q * y q ∧ b' = s) hk ⟨by simp, rfl⟩ ?_ ?_
    · rintro l acc b' l0 l1 ⟨rfl, rfl⟩
      rw [M.wp_bind, M.wp_lift]
      refine ⟨_, ha h0 l l0 l1, ?_⟩
      rw [M.wp_bind, M.wp_lift]
      refine ⟨_, hb h0 l l0 l1, ?_⟩
      rw [M.wp_pure]
      refine ⟨?_, rfl⟩
      have : (l + 1).toNat = l.toNat + 1 := by omega
      rw [this, Finset.sum_range_succ, Int.toNat_of_nonneg l0]
    · rintro acc b' ⟨rfl, rfl⟩
      rw [M.wp_bind, M.wp_pure]
      exact hjp

omit [CommRing T] [DecidableEq T] in
/-- A loop nest that writes each entry of a matrix once. -/
theorem wp_entries {ad : Int → Int → Int} {m n : Int} {b : Buf T} {V : Int → Int → T} {body : Int → Int → M (Buf T) Unit} (hm : 0 ≤ m) (hn : 0 ≤ n) (hinj : AdInj ad m n)
    (hal : ∀ i j, InR m n i j → b (ad i j) ≠ .none)
    (hbody : ∀ i j s Q, InR m n i j → s (ad i j) = b (ad i j) → M.wp (M.wr (ad i j) (V i j)) s Q → M.wp (body i j) s Q) :
    M.wp (forI 0 m fun i => forI 0 n fun j => body i j) b (fun _ b' => MatSt b ad m n (fun i j => .val (V i j)) b') := by
  refine M.wp_forI (fun i b' => MatSt b ad m n (fun r c => if r < i then .val (V r c) else b (ad r c)) b') hm
    ((MatSt.init b _ m n).congr fun r c hrc => by rw [if_neg (by have := hrc.1; omega)]) ?_
    (fun b' h => h.congr fun r c hrc => by rw [if_pos hrc.2.1])
  intro i b1 i0 i1 h1
  refine M.wp_forI (fun j b' => MatSt b ad m n (fun r c => if r < i ∨ (r = i ∧ c < j) then .val (V r c) else b (ad r c)) b') hn
    (h1.congr fun r c hrc => by
      have : (r < i ∨ r = i ∧ c < 0) ↔ r < i := by have := hrc.2.2.1; omega
      simp only [this]) ?_
    (fun b' h => h.congr fun r c hrc => by
      have : (r < i ∨ r = i ∧ c < n) ↔ r < i + 1 := by have := hrc.2.2.2; omega
      simp only [this])
  intro j b2 j0 j1 h2
  have hij : InR m n i j := ⟨i0, i1, j0, j1⟩
  have hcell : b2 (ad i j) = b (ad i j) := by rw [h2.cells i j hij, if_neg (by omega)]
  refine hbody i j b2 _ hij hcell ?_
  refine h2.wp_wr hinj hij (by rw [if_neg (by omega)]; exact hal i j hij) ?_
  intro b'' h3
  refine h3.congr fun r c hrc => ?_
  by_cases he : r = i ∧ c = j
  · obtain ⟨rfl, rfl⟩ := he
    rw [if_pos ⟨rfl, rfl⟩, if_pos (by omega)]
  · rw [if_neg he]
    have : (r < i ∨ r = i ∧ c < j) ↔ (r < i ∨ r = i ∧ c < j + 1) := by
      constructor <;> rintro (h | h)
      · exact Or.inl h
      · exact Or.inr ⟨h.1, by omega⟩
      · exact Or.inl h
      · refine Or.inr ⟨h.1, ?_⟩
        have : c ≠ j := fun hc => he ⟨h.1, hc⟩
        omega
    simp only [this]

theorem blasGemvOp_spec {layout : Layout} {op : Op} {m n lda incx incy : Int} {alpha beta : T} {A x b : Buf T} {Am : Int → Int → T} {xv yv : Int → T} {rows cols : Int}
    (hdim : (op = .NoTrans ∧ rows = m ∧ cols = n) ∨ (op = .Trans ∧ rows = n ∧ cols = m)) (hm : 0 ≤ m) (hn : 0 ≤ n) (hld : LdOk layout lda m n) (hincx : 1 ≤ incx) (hincy : 1 ≤ incy)
    (hA : Holds A layout lda m n Am) (hx : ∀ j, 0 ≤ j → j < cols → x (j * incx) = .val (xv j)) (hal : ∀ i, 0 ≤ i → i < rows → b (i * incy) ≠ .none)
    (hy : beta ≠ 0 → ∀ i, 0 ≤ i → i < rows → b (i * incy) = .val (yv i)) :
    M.wp (blasGemvOp layout op m n alpha A lda x incx beta incy) b (fun _ b' =>
      ∀ i, 0 ≤ i → i < rows → b' (i * incy) = .val (alpha * (∑ j ∈ Finset.range cols.toNat, opMat op Am i j * xv j) + beta * yv i)) := by
  unfold blasGemvOp
  rw [M.wp_bind]; refine wp_blasCheck.mpr ⟨hm, ?_⟩
  rw [M.wp_bind]; refine wp_blasCheck.mpr ⟨hn, ?_⟩
  rw [M.wp_bind]; refine wp_blasCheck.mpr ⟨(by cases layout <;> simpa [LdOk] using hld), ?_⟩
  rw [M.wp_bind]; refine wp_blasCheck.mpr ⟨(by omega), ?_⟩
  rw [M.wp_bind]; refine wp_blasCheck.mpr ⟨(by omega), ?_⟩
  have hr : (if op = .NoTrans then m else n) = rows ∧ (if op = .NoTrans then n else m) = cols ∧ 0 ≤ rows ∧ 0 ≤ cols := by
    rcases hdim with ⟨rfl, rfl, rfl⟩ | ⟨rfl, rfl, rfl⟩
    · exact ⟨rfl, rfl, hm, hn⟩
    · exact ⟨rfl, rfl, hn, hm⟩
  rw [hr.1, hr.2.1]
  have hloc : ∀ i l, 0 ≤ i → i < rows → 0 ≤ l → l < cols → A.rd (opIndex layout lda op i l) = .ok (opMat op Am i l) := by
    intro i l i0 i1 l0 l1
    rcases hdim with ⟨rfl, rfl, rfl⟩ | ⟨rfl, rfl, rfl⟩
    · exact Buf.rd_val (by unfold opIndex; rw [strides_at]; exact hA i l ⟨i0, i1, l0, l1⟩)
    · exact Buf.rd_val (by unfold opIndex; dsimp only; rw [strides_at]; exact hA l i ⟨l0, l1, i0, i1⟩)
  refine M.wp_forI (fun i b' => (∀ r, 0 ≤ r → r < i → b' (r * incy) = .val (alpha * (∑ j ∈ Finset.range cols.toNat, opMat op Am r j * xv j) + beta * yv r)) ∧
    ∀ r, i ≤ r → r < rows → b' (r * incy) = b (r * incy)) hr.2.2.1 ⟨fun r r0 r1 => by omega, fun _ _ _ => rfl⟩ ?_ (fun b' h => h.1)
  rintro i s i0 i1 ⟨h1, h2⟩
  refine blasEntry_spec (x := fun l => opMat op Am i l) (y := xv) (c := yv i) hr.2.2.2 (fun _ l l0 l1 => hloc i l i0 i1 l0 l1) (fun _ l l0 l1 => Buf.rd_val (hx l l0 l1))
    (fun hb => by rw [h2 i le_rfl i1]; exact hy hb i i0 i1) ?_
  rw [M.wp_wr]
  refine ⟨by rw [h2 i le_rfl i1]; exact hal i i0 i1, fun r r0 r1 => ?_, fun r r0 r1 => ?_⟩
  · by_cases h : r = i
    · subst h; simp [Buf.set]
    · have hne : r * incy ≠ i * incy := fun e => h (by nlinarith [mul_right_cancel₀ (show incy ≠ 0 by omega) e])
      rw [Buf.set, Function.update_of_ne hne]
      exact h1 r r0 (by omega)
  · have hne : r * incy ≠ i * incy := fun e => by have := mul_right_cancel₀ (show incy ≠ 0 by omega) e; omega
    rw [Buf.set, Function.update_of_ne hne]
    exact h2 r (by omega) r1

theorem blasSymm_spec {layout : Layout} {side : Side} {uplo : Uplo} {m n lda ldb ldc : Int} {alpha beta : T} {A B b : Buf T} {Am Bm C : Int → Int → T} (hup : uplo ≠ .General)
    (hm : 0 ≤ m) (hn : 0 ≤ n) (hlda : (if side = .Left then m else n) ≤ lda) (hldb : LdOk layout ldb m n) (hldc : LdOk layout ldc m n)
    (hA : ∀ i j, InR (if side = .Left then m else n) (if side = .Left then m else n) i j → InTri uplo i j → A (addr layout lda i j) = .val (Am i j)) (hsym : ∀ i j, Am i j = Am j i)
    (hB : Holds B layout ldb m n Bm) (hal : Alloc b layout ldc m n) (hC : beta ≠ 0 → Holds b layout ldc m n C) :
    M.wp (blasSymm layout side uplo m n alpha A lda B ldb beta ldc) b (fun _ b' =>
      Holds b' layout ldc m n (fun i j => alpha * (if side = .Left then prodEntry m Am Bm i j else prodEntry n Bm Am i j) + beta * C i j)) := by
  unfold blasSymm
  rw [M.wp_bind]; refine wp_blasCheck.mpr ⟨hup, ?_⟩
  rw [M.wp_bind]; refine wp_blasCheck.mpr ⟨hm, ?_⟩
  rw [M.wp_bind]; refine wp_blasCheck.mpr ⟨hn, ?_⟩
  rw [M.wp_bind]; refine wp_blasCheck.mpr ⟨hlda, ?_⟩
  rw [M.wp_bind]; refine wp_blasCheck.mpr ⟨(by cases layout <;> simpa [LdOk] using hldb), ?_⟩
  rw [M.wp_bind]; refine wp_blasCheck.mpr ⟨(by cases layout <;> simpa [LdOk] using hldc), ?_⟩
  have hrd : ∀ i j, InR (if side = .Left then m else n) (if side = .Left then m else n) i j → A.rd (symIndex layout lda uplo i j) = .ok (Am i j) := by
    rintro i j ⟨i0, i1, j0, j1⟩
    refine Buf.rd_val ?_
    unfold symIndex
    rcases le_total i j with h | h
    · cases uplo
      · dsimp only; rw [strides_at, min_eq_left h, max_eq_right h]; exact hA i j ⟨i0, i1, j0, j1⟩ h
      · dsimp only; rw [strides_at, min_eq_left h, max_eq_right h, hsym i j]; exact hA j i ⟨j0, j1, i0, i1⟩ h
      · exact absurd rfl hup
    · cases uplo
      · dsimp only; rw [strides_at, min_eq_right h, max_eq_left h, hsym i j]; exact hA j i ⟨j0, j1, i0, i1⟩ h
      · dsimp only; rw [strides_at, min_eq_right h, max_eq_left h]; exact hA i j ⟨i0, i1, j0, j1⟩ h
      · exact absurd rfl hup
  refine M.wp_mono (wp_entries (ad := addr layout ldc) hm hn (adInj_addr hldc) hal (V := fun i j => alpha * (if side = .Left then prodEntry m Am Bm i j else prodEntry n Bm Am i j) + beta * C i j) ?_)
    (fun _ b' h => h.holds)
  intro i j s Q hij hs hQ
  cases side
  · dsimp only
    rw [strides_at]
    refine blasEntry_spec (x := fun l => Am i l) (y := fun l => Bm l j) (c := C i j) hm (fun _ l l0 l1 => hrd i l ⟨hij.1, hij.2.1, l0, l1⟩)
      (fun _ l l0 l1 => Buf.rd_val (by unfold opIndex; rw [strides_at]; exact hB l j ⟨l0, l1, hij.2.2⟩)) (fun hb => by rw [hs]; exact hC hb i j hij) ?_
    exact hQ
  · dsimp only
    rw [strides_at]
    refine blasEntry_spec (x := fun l => Bm i l) (y := fun l => Am l j) (c := C i j) hn (fun _ l l0 l1 => Buf.rd_val (by unfold opIndex; rw [strides_at]; exact hB i l ⟨hij.1, hij.2.1, l0, l1⟩))
      (fun _ l l0 l1 => hrd l j ⟨l0, l1, hij.2.2⟩) (fun hb => by rw [hs]; exact hC hb i j hij) ?_
    exact hQ

end

/-! ## Operators and vectors -/

section
variable [Field R] [LinearOrder R] [FloorRing R] [Field T] [LinearOrder T] {E : SkEnv N K W WS R T}

omit [Field R] [LinearOrder R] [FloorRing R] in
theorem onesVec_spec {m incx : Int} (hm : 0 ≤ m) (hinc : 1 ≤ incx) :
    M.wp (onesVec m incx) (Buf.alloc T (incx * m)) (fun _ x => ∀ j, 0 ≤ j → j < m → x (j * incx) = .val 1) := by
  unfold onesVec
  refine M.wp_forI (fun i b' => (∀ r, 0 ≤ r → r < i → b' (r * incx) = .val 1) ∧ ∀ r, i ≤ r → r < m → b' (r * incx) = .uninit) hm ⟨fun r r0 r1 => by omega, fun r r0 r1 => ?_⟩ ?_ (fun b' h => h.1)
  · unfold Buf.alloc
    rw [if_pos ⟨by positivity, by nlinarith⟩]
  · rintro i s i0 i1 ⟨h1, h2⟩
    rw [M.wp_wr]
    refine ⟨by rw [mul_comm, h2 i le_rfl i1]; exact (fun h => by cases h), fun r r0 r1 => ?_, fun r r0 r1 => ?_⟩
    · by_cases h : r = i
      · subst h; simp [Buf.set, mul_comm]
      · have hne : r * incx ≠ incx * i := fun e => by rw [mul_comm incx] at e; exact h (mul_right_cancel₀ (show incx ≠ 0 by omega) e)
        rw [Buf.set, Function.update_of_ne hne]
        exact h1 r r0 (by omega)
    · have hne : r * incx ≠ incx * i := fun e => by
        rw [mul_comm incx] at e
        have := mul_right_cancel₀ (show incx ≠ 0 by omega) e
        omega
      rw [Buf.set, Function.update_of_ne hne]
      exact h2 r (by omega) r1

omit [Field R] [LinearOrder R] [FloorRing R] [LinearOrder T] in
/-- A filled operator holds the matrix of its distribution and seed. -/
theorem filledOp_spec (hE : SkEnvOk E) {nR nC : Int} {fam : ScalarDist} {ax : Axis} (hr : 0 < nR) (hc : 0 < nC) (hfit : nR * nC ≤ intMax 64) (seed : RNGState N K) {Q : DenseSkOp N K T → Unit → Prop}
    (h : ∀ D, mkDenseDist nR nC fam ax = .ok D → DenseDistOk D → D.nRows = nR → D.nCols = nC → D.naturalLayout = naturalLayout ax nR nC →
      ∀ S b, S.buff = some b → S.layout = naturalLayout ax nR nC → S.nRows = nR → S.nCols = nC →
        Holds b (naturalLayout ax nR nC) (tightLd (naturalLayout ax nR nC) nR nC) nR nC (denseEntry E.G E.sqrt3 D seed) → Q S ()) {D : DenseDist} (hD : mkDenseDist nR nC fam ax = .ok D) :
    M.wp (filledOp E D seed) () Q := by
  have hL := (len_facts hE.gen).1
  have okD := denseDistOk_of_mk hD hfit
  obtain ⟨S, hS, lS, -⟩ := mkDenseSkOp_exists (T := T) hL okD seed
  have hD' := mkDenseDist_eq (fam := fam) (ax := ax) hr hc
  have e : D.nRows = nR ∧ D.nCols = nC ∧ D.naturalLayout = naturalLayout ax nR nC ∧ D.dimMajor = tightLd (naturalLayout ax nR nC) nR nC := by
    rw [hD'] at hD
    cases hD
    refine ⟨rfl, rfl, rfl, ?_⟩
    dsimp only
    unfold naturalLayout
    cases ax <;> rcases lt_trichotomy nR nC with h | h | h <;> simp [tightLd, h, not_lt.mpr h.le, h.le]
  obtain ⟨h1, h2, h3, h4, h5⟩ := mkDenseSkOp_ok okD hS
  unfold filledOp
  rw [M.wp_bind, M.wp_lift]
  refine ⟨S, hS, ?_⟩
  rw [M.wp_bind, M.wp_onLocal]
  refine M.wp_mono (filled_op hE.gen okD hS _) ?_
  rintro _ _ ⟨b, rfl, hb⟩
  rw [M.wp_pure]
  rw [e.1, e.2.1, e.2.2.1, e.2.2.2] at hb
  exact h D hD okD e.1 e.2.1 e.2.2.1 _ b rfl (by rw [← e.2.2.1]; exact lS) (by rw [← e.1, ← h2]; exact h1.rows) (by rw [← e.2.1, ← h2]; exact h1.cols) hb


omit [LinearOrder T] in
/-- A filled operator, as an argument of the products. -/
theorem filled_leftOk {S : DenseSkOp N K T} {b : Buf T} {l : Layout} {nR nC d m : Int} {Sm : Int → Int → T} {alpha : T} {op : Op} (hb : S.buff = some b) (hl : S.layout = l) (hr : S.nRows = nR)
    (hc : S.nCols = nC) (h : Holds b l (tightLd l nR nC) nR nC Sm) (h1 : rowsOf op d m = nR) (h2 : colsOf op d m = nC) : LeftOk E alpha (.dense S) Sm op d m 0 0 := by
  subst hl hr hc
  refine ⟨by unfold DenseIs; rw [hb]; exact h, ⟨le_rfl, le_rfl, ?_, ?_⟩, fun h0 => by rw [hb] at h0; cases h0⟩
  · rw [h1, add_zero]
  · rw [h2, add_zero]

omit [Field R] [LinearOrder R] [FloorRing R] in
theorem compare_none [IsStrictOrderedRing T] {d incy : Int} {a e : Buf T} {v w : Int → T} {atol rtol : T} (hd : 0 ≤ d) (ha : ∀ i, 0 ≤ i → i < d → a (i * incy) = .val (v i))
    (he : ∀ i, 0 ≤ i → i < d → e (i * incy) = .val (w i)) :
    Reports (buffsApproxEqualInc d (fltBuf a) incy (fltBuf e) incy (.fin atol) (.fin rtol)) id d (fun i => Close atol rtol (v i) (w i)) :=
  C118_buffs_inc_partial hd (fun i i0 i1 => fltBuf_val (by rw [mul_comm]; exact ha i i0 i1)) (fun i i0 i1 => fltBuf_val (by rw [mul_comm]; exact he i i0 i1)) atol rtol

omit [Field R] [LinearOrder R] [FloorRing R] [Field T] [LinearOrder T] in
theorem alloc_strided {d incy : Int} (hinc : 1 ≤ incy) : ∀ i, 0 ≤ i → i < d → Buf.alloc T (incy * d) (i * incy) ≠ .none := by
  intro i i0 i1
  unfold Buf.alloc
  rw [if_pos ⟨by positivity, by nlinarith⟩]
  exact fun h => by cases h

theorem tightLd_row (l : Layout) (m n : Int) : (if l = .RowMajor then n else m) = tightLd l m n := by cases l <;> rfl

variable [IsStrictOrderedRing T]

/-- What a filled operator is: its buffer holds the matrix of distribution D and the seed, in its natural layout without gaps. -/
def Spec.Filled (E : SkEnv N K W WS R T) (D : DenseDist) (seed : RNGState N K) (S : DenseSkOp N K T) : Prop :=
  S.nRows = D.nRows ∧ S.nCols = D.nCols ∧ S.layout = D.naturalLayout ∧
    ∃ b, S.buff = some b ∧ Holds b D.naturalLayout (tightLd D.naturalLayout D.nRows D.nCols) D.nRows D.nCols (denseEntry E.G E.sqrt3 D seed)

omit [Field R] [LinearOrder R] [FloorRing R] in
/-- C133 (what the vector tests check). Whatever call `sk` is tested: if it ends with the numbers v in y, then the test reports the first i with v i not close to the sum of row i of the operator,
and nothing if there is none. -/
theorem C133_vector_compares (hE : SkEnvOk E) {sk : Buf T → M (SkOp N K T × Buf T) Unit} {atol rtol : T} {d m incx incy : Int} (hd : 0 < d) (hm : 0 < m) (hfit : d * m ≤ intMax 64)
    (hincx : 1 ≤ incx) (hincy : 1 ≤ incy) (seed : RNGState N K) {D : DenseDist} (hD : mkDenseDist d m .Gaussian .Long = .ok D) {v : Int → T}
    (hsk : ∀ S x, Spec.Filled E D seed S → (∀ j, 0 ≤ j → j < m → x (j * incx) = .val 1) →
      M.wp (sk x) (.dense S, Buf.alloc T (incy * d)) (fun _ s => ∀ i, 0 ≤ i → i < d → s.2 (i * incy) = .val (v i))) :
    M.wp (testVecWith E sk atol rtol d m incx incy seed) () (fun r _ => Reports (.ok r) id d (fun i =>
      Close atol rtol (v i) (∑ j ∈ Finset.range m.toNat, denseEntry E.G E.sqrt3 D seed i j))) := by
  unfold testVecWith
  rw [M.wp_bind, M.wp_onLocal]
  refine M.wp_mono (onesVec_spec hm.le hincx) ?_
  rintro _ x hx
  rw [M.wp_bind, M.wp_lift]
  refine ⟨D, hD, ?_⟩
  rw [M.wp_bind]
  refine filledOp_spec hE hd hm hfit seed (fun D' hD' _ eR eC eL S b hb hl hr hc hh => ?_) hD
  obtain rfl : D = D' := by rw [hD] at hD'; cases hD'; rfl
  dsimp only
  rw [M.wp_bind, M.wp_onLocal]
  refine M.wp_mono (hsk S x ⟨by rw [hr, eR], by rw [hc, eC], by rw [hl, eL], b, hb, by rw [eL, eR, eC]; exact hh⟩ hx) ?_
  rintro _ s1 k1
  rw [M.wp_bind, M.wp_onLocal]
  refine M.wp_mono (blasGemvOp_spec (rows := d) (cols := m) (yv := fun _ => 0) (Or.inl ⟨rfl, rfl, rfl⟩) hd.le hm.le ?_ hincx hincy (Am := denseEntry E.G E.sqrt3 D seed) ?_ hx (alloc_strided hincy) (fun h => absurd rfl h)) ?_
  · rw [hl, tightLd_row]; exact ldOk_tight _ _ _
  · rw [hl, hb]
    rw [tightLd_row]
    exact hh
  rintro _ y k2
  have hrep := compare_none (atol := atol) (rtol := rtol) hd.le k1 k2
  obtain ⟨r, hr'⟩ : ∃ r, buffsApproxEqualInc d (fltBuf s1.2) incy (fltBuf y) incy (.fin atol) (.fin rtol) = .ok r := by
    rcases hrep with ⟨e, -⟩ | ⟨i, e, -⟩
    · exact ⟨_, e⟩
    · exact ⟨_, e⟩
  rw [M.wp_lift]
  refine ⟨r, hr', ?_⟩
  rw [hr'] at hrep
  convert hrep using 3
  simp [opMat]

omit [Field R] [LinearOrder R] [FloorRing R] in
/-- C133 (what the test with a transposed operator checks). The same with the columns of an m x d operator. -/
theorem C133_vector_transposed_compares (hE : SkEnvOk E) {sk : Buf T → M (SkOp N K T × Buf T) Unit} {atol rtol : T} {d m incx incy : Int} (hd : 0 < d) (hm : 0 < m) (hfit : m * d ≤ intMax 64)
    (hincx : 1 ≤ incx) (hincy : 1 ≤ incy) (seed : RNGState N K) {D : DenseDist} (hD : mkDenseDist m d .Gaussian .Long = .ok D) {v : Int → T}
    (hsk : ∀ S x, Spec.Filled E D seed S → (∀ j, 0 ≤ j → j < m → x (j * incx) = .val 1) →
      M.wp (sk x) (.dense S, Buf.alloc T (incy * d)) (fun _ s => ∀ i, 0 ≤ i → i < d → s.2 (i * incy) = .val (v i))) :
    M.wp (testVecTransposedWith E sk atol rtol d m incx incy seed) () (fun r _ => Reports (.ok r) id d (fun i =>
      Close atol rtol (v i) (∑ j ∈ Finset.range m.toNat, denseEntry E.G E.sqrt3 D seed j i))) := by
  unfold testVecTransposedWith
  rw [M.wp_bind, M.wp_onLocal]
  refine M.wp_mono (onesVec_spec hm.le hincx) ?_
  rintro _ x hx
  rw [M.wp_bind, M.wp_lift]
  refine ⟨D, hD, ?_⟩
  rw [M.wp_bind]
  refine filledOp_spec hE hm hd hfit seed (fun D' hD' _ eR eC eL S b hb hl hr hc hh => ?_) hD
  obtain rfl : D = D' := by rw [hD] at hD'; cases hD'; rfl
  dsimp only
  rw [M.wp_bind, M.wp_onLocal]
  refine M.wp_mono (hsk S x ⟨by rw [hr, eR], by rw [hc, eC], by rw [hl, eL], b, hb, by rw [eL, eR, eC]; exact hh⟩ hx) ?_
  rintro _ s1 k1
  rw [M.wp_bind, M.wp_onLocal]
  refine M.wp_mono (blasGemvOp_spec (rows := d) (cols := m) (yv := fun _ => 0) (Or.inr ⟨rfl, rfl, rfl⟩) hm.le hd.le ?_ hincx hincy (Am := denseEntry E.G E.sqrt3 D seed) ?_ hx (alloc_strided hincy) (fun h => absurd rfl h)) ?_
  · rw [hl, tightLd_row]; exact ldOk_tight _ _ _
  · rw [hl, hb]
    rw [tightLd_row]
    exact hh
  rintro _ y k2
  have hrep := compare_none (atol := atol) (rtol := rtol) hd.le k1 k2
  obtain ⟨r, hr'⟩ : ∃ r, buffsApproxEqualInc d (fltBuf s1.2) incy (fltBuf y) incy (.fin atol) (.fin rtol) = .ok r := by
    rcases hrep with ⟨e, -⟩ | ⟨i, e, -⟩
    · exact ⟨_, e⟩
    · exact ⟨_, e⟩
  rw [M.wp_lift]
  refine ⟨r, hr', ?_⟩
  rw [hr'] at hrep
  convert hrep using 3
  simp [opMat]

omit [LinearOrder T] [IsStrictOrderedRing T] in
theorem filled_left {D : DenseDist} {seed : RNGState N K} {S : DenseSkOp N K T} {alpha : T} {op : Op} {d m : Int} (h : Spec.Filled E D seed S) (h1 : rowsOf op d m = D.nRows) (h2 : colsOf op d m = D.nCols) :
    LeftOk E alpha (.dense S) (denseEntry E.G E.sqrt3 D seed) op d m 0 0 := by
  obtain ⟨e1, e2, e3, b, hb, hh⟩ := h
  exact filled_leftOk hb e3 e1 e2 hh h1 h2

omit [Field R] [LinearOrder R] [FloorRing R] in
theorem reports_ok_none {r : Option Int} {d : Int} {P : Int → Prop} (h : Reports (.ok r) id d P) (hP : ∀ i, 0 ≤ i → i < d → P i) : r = none := by
  have := (reports_none h).mpr hP
  cases this
  rfl

/-- C133 (vectors). For all sizes, strides, generators, schedules and seeds: `sketch_vector` and `gemv` with the filled operator give the same vector, and the test finds no difference. -/
theorem C133_vector (hE : SkEnvOk E) {atol rtol : T} {d m incx incy : Int} (hd : 0 < d) (hm : 0 < m) (hfit : d * m ≤ intMax 64) (hincx : 1 ≤ incx) (hincy : 1 ≤ incy) (ht : 0 ≤ atol)
    (seed : RNGState N K) : M.wp (testVec E atol rtol d m incx incy seed) () (fun r _ => r = none) := by
  refine M.wp_mono (C133_vector_compares hE hd hm hfit hincx hincy seed (mkDenseDist_eq hd hm) (v := fun i => ∑ j ∈ Finset.range m.toNat, denseEntry E.G E.sqrt3 _ seed i j) ?_)
    fun r _ h => reports_ok_none h fun i _ _ => close_self ht _ _
  intro S x hS hx
  refine M.wp_mono (C39_sketch_vector_partial hE (rows := d) (cols := m) (yv := fun _ => 0) (Or.inl ⟨rfl, rfl, rfl⟩) (filled_left hS rfl rfl) hd.le hm.le hincx hincy (fun _ => hx) (alloc_strided hincy)
    (fun h => absurd rfl h)) ?_
  rintro _ s1 ⟨k1, -, -⟩ i i0 i1
  rw [k1 i i0 i1, subMat_zero]
  simp [opMat]

/-- C133 (vectors, transposed operator). The same for the transpose of an m x d operator. -/
theorem C133_vector_transposed (hE : SkEnvOk E) {atol rtol : T} {d m incx incy : Int} (hd : 0 < d) (hm : 0 < m) (hfit : m * d ≤ intMax 64) (hincx : 1 ≤ incx) (hincy : 1 ≤ incy) (ht : 0 ≤ atol)
    (seed : RNGState N K) : M.wp (testVecTransposed E atol rtol d m incx incy seed) () (fun r _ => r = none) := by
  refine M.wp_mono (C133_vector_transposed_compares hE hd hm hfit hincx hincy seed (mkDenseDist_eq hm hd) (v := fun i => ∑ j ∈ Finset.range m.toNat, denseEntry E.G E.sqrt3 _ seed j i) ?_)
    fun r _ h => reports_ok_none h fun i _ _ => close_self ht _ _
  intro S x hS hx
  refine M.wp_mono (C39_sketch_vector_partial hE (rows := d) (cols := m) (yv := fun _ => 0) (Or.inr ⟨rfl, rfl, rfl⟩) (filled_left hS rfl rfl) hm.le hd.le hincx hincy (fun _ => hx) (alloc_strided hincy)
    (fun h => absurd rfl h)) ?_
  rintro _ s1 ⟨k1, -, -⟩ i i0 i1
  rw [k1 i i0 i1, subMat_zero]
  simp [opMat]

/-- What `test_transpose_compatible` compares: the row sums of the d x m operator with the column sums of the m x d operator of the same seed. -/
theorem C133_vector_compatible_compares (hE : SkEnvOk E) {atol rtol : T} {d m incx incy : Int} (hd : 0 < d) (hm : 0 < m) (hfit : d * m ≤ intMax 64) (hincx : 1 ≤ incx) (hincy : 1 ≤ incy)
    (seed : RNGState N K) {Dw Dt : DenseDist} (hDw : mkDenseDist d m .Gaussian .Long = .ok Dw) (hDt : mkDenseDist m d .Gaussian .Long = .ok Dt) :
    M.wp (testVecCompatible E atol rtol d m incx incy seed) () (fun r _ => Reports (.ok r) id d (fun i =>
      Close atol rtol (∑ j ∈ Finset.range m.toNat, denseEntry E.G E.sqrt3 Dw seed i j) (∑ j ∈ Finset.range m.toNat, denseEntry E.G E.sqrt3 Dt seed j i))) := by
  unfold testVecCompatible
  rw [M.wp_bind, M.wp_onLocal]
  refine M.wp_mono (onesVec_spec hm.le hincx) ?_
  rintro _ x hx
  rw [M.wp_bind, M.wp_lift]
  refine ⟨Dw, hDw, ?_⟩
  rw [M.wp_bind, M.wp_lift]
  refine ⟨Dt, hDt, ?_⟩
  rw [M.wp_bind]
  refine filledOp_spec hE hd hm hfit seed (fun D1 e1 _ _ _ _ Sw bw hbw hlw hrw hcw hhw => ?_) hDw
  obtain rfl : Dw = D1 := by rw [hDw] at e1; cases e1; rfl
  rw [M.wp_bind]
  refine filledOp_spec hE hm hd (by rw [mul_comm]; exact hfit) seed (fun D2 e2 _ _ _ _ St bt hbt hlt hrt hct hht => ?_) hDt
  obtain rfl : Dt = D2 := by rw [hDt] at e2; cases e2; rfl
  rw [M.wp_bind, M.wp_onLocal]
  refine M.wp_mono (C39_sketch_vector_partial hE (rows := d) (cols := m) (yv := fun _ => 0) (Or.inl ⟨rfl, rfl, rfl⟩) (filled_leftOk hbw hlw hrw hcw hhw rfl rfl) hd.le hm.le hincx hincy (fun _ => hx) (alloc_strided hincy)
    (fun h => absurd rfl h)) ?_
  rintro _ s1 ⟨k1, -, -⟩
  rw [M.wp_bind, M.wp_onLocal]
  refine M.wp_mono (C39_sketch_vector_partial hE (rows := d) (cols := m) (yv := fun _ => 0) (Or.inr ⟨rfl, rfl, rfl⟩) (filled_leftOk hbt hlt hrt hct hht rfl rfl) hm.le hd.le hincx hincy (fun _ => hx) (alloc_strided hincy)
    (fun h => absurd rfl h)) ?_
  rintro _ s2 ⟨k2, -, -⟩
  rw [M.wp_lift]
  have hrep := compare_none (atol := atol) (rtol := rtol) hd.le k1 k2
  rw [subMat_zero, subMat_zero] at hrep
  simp only [one_mul, mul_one, mul_zero, add_zero, opMat] at hrep
  rcases hrep with ⟨e, h⟩ | ⟨i, e, h⟩
  · exact ⟨none, e, Or.inl ⟨rfl, h⟩⟩
  · exact ⟨some i, e, Or.inr ⟨i, rfl, h⟩⟩

/-- C133 (vectors, exchanged dimensions). If the dimensions differ, the d x m operator and the transpose of the m x d operator are the same, and the test finds no difference.

Missing: d = m, where the two operators are equal instead of transposes of each other (`C133_vector_compatible_square`). -/
theorem C133_vector_compatible_partial (hE : SkEnvOk E) {atol rtol : T} {d m incx incy : Int} (hd : 0 < d) (hm : 0 < m) (hne : d ≠ m) (hfit : d * m ≤ intMax 64) (hincx : 1 ≤ incx)
    (hincy : 1 ≤ incy) (ht : 0 ≤ atol) (seed : RNGState N K) : M.wp (testVecCompatible E atol rtol d m incx incy seed) () (fun r _ => r = none) := by
  have hDw := mkDenseDist_eq (fam := .Gaussian) (ax := .Long) hd hm
  generalize ({ nRows := d, nCols := m, majorAxis := .Long, dimMajor := if Axis.Long = .Long then max d m else min d m, dimMinor := if Axis.Long = .Long then min d m else max d m, family := .Gaussian, naturalLayout := naturalLayout .Long d m } : DenseDist) = Dw at hDw
  have hDt := mkDenseDist_eq (fam := .Gaussian) (ax := .Long) hm hd
  generalize ({ nRows := m, nCols := d, majorAxis := .Long, dimMajor := if Axis.Long = .Long then max m d else min m d, dimMinor := if Axis.Long = .Long then min m d else max m d, family := .Gaussian, naturalLayout := naturalLayout .Long m d } : DenseDist) = Dt at hDt
  refine M.wp_mono (C133_vector_compatible_compares hE hd hm hfit hincx hincy seed hDw hDt) ?_
  rintro r _ hr
  have key : ∀ i j, denseEntry E.G E.sqrt3 Dw seed i j = denseEntry E.G E.sqrt3 Dt seed j i := by
    intro i j
    have hl : (naturalLayout .Long d m = .RowMajor ∧ naturalLayout .Long m d = .ColMajor) ∨ (naturalLayout .Long d m = .ColMajor ∧ naturalLayout .Long m d = .RowMajor) := by
      unfold naturalLayout
      rcases lt_or_gt_of_ne hne with h | h <;> simp [h, not_lt.mpr h.le]
    rcases hl with ⟨e1, e2⟩ | ⟨e1, e2⟩
    · rw [(denseEntry_rowMajor (G := E.G) (sqrt3 := E.sqrt3) (seed := seed) (i := i) (j := j) hd hm hDw e1).1, (denseEntry_colMajor (G := E.G) (sqrt3 := E.sqrt3) (seed := seed) (i := j) (j := i) hm hd hDt e2).1]
    · rw [(denseEntry_colMajor (G := E.G) (sqrt3 := E.sqrt3) (seed := seed) (i := i) (j := j) hd hm hDw e1).1, (denseEntry_rowMajor (G := E.G) (sqrt3 := E.sqrt3) (seed := seed) (i := j) (j := i) hm hd hDt e2).1]
  have := (reports_none hr).mpr fun i i0 i1 => by
    simp only [key]
    exact close_self ht _ _
  cases this
  rfl


/-- C133 (square operators). For d = m the two operators of `test_transpose_compatible` are the same matrix, not transposes of each other: the test compares its row sums with its column sums. -/
theorem C133_vector_compatible_square_compares (hE : SkEnvOk E) {atol rtol : T} {n incx incy : Int} (hn : 0 < n) (hfit : n * n ≤ intMax 64) (hincx : 1 ≤ incx) (hincy : 1 ≤ incy)
    (seed : RNGState N K) {D : DenseDist} (hD : mkDenseDist n n .Gaussian .Long = .ok D) :
    M.wp (testVecCompatible E atol rtol n n incx incy seed) () (fun r _ => Reports (.ok r) id n (fun i =>
      Close atol rtol (∑ j ∈ Finset.range n.toNat, denseEntry E.G E.sqrt3 D seed i j) (∑ j ∈ Finset.range n.toNat, denseEntry E.G E.sqrt3 D seed j i))) :=
  C133_vector_compatible_compares hE hn hn hfit hincx hincy seed hD hD

/-! ## Symmetric matrices -/

omit [Field R] [LinearOrder R] [FloorRing R] [LinearOrder T] [IsStrictOrderedRing T] in
/-- C133 (the symmetric matrix of the tests). `random_symmetric_mat` makes a symmetric matrix of order n, but `fill_dense_unpacked` writes its n * n numbers without gaps, while the matrix is
read with leading dimension `lda`: entry (i, j) of the upper triangle is the number at position `i + j * lda` if that is below `n * n`, and 0 otherwise. -/
theorem C133_random_symmetric (hE : SkEnvOk E) {n lda : Int} (hn : 0 < n) (hld : n ≤ lda) (hfit : lda * lda ≤ intMax 64) (seed : RNGState N K) {D : DenseDist}
    (hD : mkDenseDist lda lda .Gaussian .Long = .ok D) :
    M.wp (randomSymmetricMat E n lda seed) (zeroVec (lda * lda)) (fun _ b => ∃ A : Int → Int → T, Holds b .ColMajor lda n n A ∧ (∀ i j, A i j = A j i) ∧
      ∀ i j, InR n n i j → i ≤ j → A i j = if i + j * lda < n * n then denseEntry E.G E.sqrt3 D seed ((i + j * lda) % n) ((i + j * lda) / n) else 0) := by
  have okD := denseDistOk_of_mk hD hfit
  have e : D.nRows = lda ∧ D.nCols = lda := by
    rw [mkDenseDist_eq (by omega) (by omega)] at hD
    cases hD
    exact ⟨rfl, rfl⟩
  have hw : InWindow D n n 0 0 := ⟨hn, hn, le_rfl, le_rfl, by rw [e.1]; omega, by rw [e.2]; omega⟩
  have hal : AllocTo (zeroVec (lda * lda) : Buf T) (n * n) := by
    intro p p0 p1
    unfold zeroVec Buf.ofFn
    rw [if_pos ⟨p0, by nlinarith⟩]
    exact fun h => by cases h
  unfold randomSymmetricMat
  rw [M.wp_bind, M.wp_lift]
  refine ⟨D, hD, ?_⟩
  rw [M.wp_bind]
  obtain ⟨w1, w2, w3, w4, w5, w6⟩ := hw
  refine M.wp_mono (fillUnpacked_spec hE.gen okD w1 w2 w3 w4 w5 w6 hal) ?_
  rintro _ b ⟨h1, h2, -⟩
  have hflat := colMajor_flat hn h1
  have hF : Holds b .ColMajor lda n n (fun i j => if i + j * lda < n * n then denseEntry E.G E.sqrt3 D seed ((i + j * lda) % n) ((i + j * lda) / n) else 0) := by
    rintro i j ⟨i0, i1, j0, j1⟩
    show b (i + j * lda) = _
    have p0 : 0 ≤ i + j * lda := by nlinarith
    have p1 : i + j * lda < lda * lda := by nlinarith
    beta_reduce
    by_cases h : i + j * lda < n * n
    · rw [if_pos h, hflat _ p0 h, add_zero, add_zero]
    · rw [if_neg h, h2 _ (fun h' => h h'.2)]
      unfold zeroVec Buf.ofFn
      rw [if_pos ⟨p0, p1⟩]
  refine M.wp_mono (C18_symmetrize hn.le (by decide) hld hF) ?_
  rintro _ b' ⟨A, hA, hs, htri, -⟩
  exact ⟨A, hA, hs, fun i j _ hij => htri i j hij⟩


omit [Field R] [LinearOrder R] [FloorRing R] [LinearOrder T] [IsStrictOrderedRing T] in
/-- C133: without padding the upper triangle is that of the random operator. -/
theorem C133_random_symmetric_tight (hE : SkEnvOk E) {n : Int} (hn : 0 < n) (hfit : n * n ≤ intMax 64) (seed : RNGState N K) {D : DenseDist}
    (hD : mkDenseDist n n .Gaussian .Long = .ok D) :
    M.wp (randomSymmetricMat E n n seed) (zeroVec (n * n)) (fun _ b => ∃ A : Int → Int → T, Holds b .ColMajor n n n A ∧ (∀ i j, A i j = A j i) ∧
      ∀ i j, InR n n i j → i ≤ j → A i j = denseEntry E.G E.sqrt3 D seed i j) := by
  refine M.wp_mono (C133_random_symmetric hE hn le_rfl hfit seed hD) ?_
  rintro _ b ⟨A, h1, h2, h3⟩
  refine ⟨A, h1, h2, fun i j hij hle => ?_⟩
  obtain ⟨i0, i1, j0, j1⟩ := hij
  rw [h3 i j ⟨i0, i1, j0, j1⟩ hle, if_pos (by nlinarith)]
  have e1 : (i + j * n) % n = i := by rw [Int.add_mul_emod_self_right, Int.emod_eq_of_lt i0 i1]
  have e2 : (i + j * n) / n = j := by rw [Int.add_mul_ediv_right _ _ hn.ne', Int.ediv_eq_zero_of_lt i0 i1, zero_add]
  rw [e1, e2]

omit [Field R] [LinearOrder R] [FloorRing R] [LinearOrder T] [IsStrictOrderedRing T] in
/-- C133: with padding, which the comment in the code says leaves a random symmetric matrix of order n, all rows and columns from `n * n / lda` on are zero (in the tests: n = 10, lda = 19, rows and
columns 6 to 9). -/
theorem C133_random_symmetric_padded (hE : SkEnvOk E) {n lda : Int} (hn : 0 < n) (hld : n ≤ lda) (hfit : lda * lda ≤ intMax 64) (seed : RNGState N K) :
    M.wp (randomSymmetricMat E n lda seed) (zeroVec (lda * lda)) (fun _ b => ∃ A : Int → Int → T, Holds b .ColMajor lda n n A ∧
      ∀ i j, InR n n i j → n * n ≤ max i j * lda → A i j = 0) := by
  have hD := mkDenseDist_eq (fam := .Gaussian) (ax := .Long) (show 0 < lda by omega) (show 0 < lda by omega)
  refine M.wp_mono (C133_random_symmetric hE hn hld hfit seed hD) ?_
  rintro _ b ⟨A, h1, h2, h3⟩
  refine ⟨A, h1, fun i j hij hmax => ?_⟩
  obtain ⟨i0, i1, j0, j1⟩ := hij
  rcases le_total i j with h | h
  · rw [max_eq_right h] at hmax
    rw [h3 i j ⟨i0, i1, j0, j1⟩ h, if_neg (by omega)]
  · rw [max_eq_left h] at hmax
    rw [h2, h3 j i ⟨j0, j1, i0, i1⟩ h, if_neg (by omega)]

omit [Field T] [LinearOrder T] [IsStrictOrderedRing T] [Field R] [LinearOrder R] [FloorRing R] in
theorem holds_sym {b : Buf T} {lda n : Int} {A : Int → Int → T} (h : Holds b .ColMajor lda n n A) (hs : ∀ i j, A i j = A j i) (layout : Layout) : Holds b layout lda n n A := by
  cases layout
  · exact h
  · rintro i j ⟨i0, i1, j0, j1⟩
    rw [hs i j, ← h j i ⟨j0, j1, i0, i1⟩]
    congr 1
    simp only [addr]
    ring

/-- The product of the tests, with the operator on the given side. -/
def Spec.symProduct (side : Side) (n : Int) (alpha beta : T) (Sm Am C : Int → Int → T) (i j : Int) : T :=
  alpha * (if side = .Left then prodEntry n Sm Am i j else prodEntry n Am Sm i j) + beta * C i j

theorem side_spec (hE : SkEnvOk E) {side : Side} {layout : Layout} {d n lda : Int} {alpha beta : T} {A b0 : Buf T} {Am C Sm : Int → Int → T} {S : DenseSkOp N K T} {b : Buf T} {l : Layout}
    (hd : 0 < d) (hn : 0 < n) (hlda : n ≤ lda) (hb : S.buff = some b) (hl : S.layout = l) (hr : S.nRows = (symmetricOutputDims d n side).1) (hc : S.nCols = (symmetricOutputDims d n side).2)
    (hh : Holds b l (tightLd l (symmetricOutputDims d n side).1 (symmetricOutputDims d n side).2) (symmetricOutputDims d n side).1 (symmetricOutputDims d n side).2 Sm)
    (hA : Holds A layout lda n n Am) (hs : ∀ i j, Am i j = Am j i)
    (hC : Holds b0 layout (tightLd layout (symmetricOutputDims d n side).1 (symmetricOutputDims d n side).2) (symmetricOutputDims d n side).1 (symmetricOutputDims d n side).2 C) :
    M.wp (sketchSymmetricSide E side layout (symmetricOutputDims d n side).1 (symmetricOutputDims d n side).2 alpha A lda 0 0 beta
        (tightLd layout (symmetricOutputDims d n side).1 (symmetricOutputDims d n side).2)) (.dense S, b0)
      (fun sa s' => sa = (if side = .Left then Side.Right else Side.Left) ∧
        Holds s'.2 layout (tightLd layout (symmetricOutputDims d n side).1 (symmetricOutputDims d n side).2) (symmetricOutputDims d n side).1 (symmetricOutputDims d n side).2
          (symProduct side n alpha beta Sm Am C)) := by
  have hns : NearlySymmetric n Am (0 : T) := Or.inr fun i j _ => by rw [hs i j, sub_self, abs_zero, mul_zero]
  cases side
  · unfold sketchSymmetricSide
    rw [if_pos rfl, M.wp_bind]
    refine M.wp_mono ((C40_left_partial hE (filled_leftOk hb hl hr hc hh rfl rfl) hd.le hn.le hlda (ldOk_tight _ _ _) hA (fun i j hij h => by cases (hC i j hij).symm.trans h) (fun _ => hC)).1 hns) ?_
    rintro _ s' ⟨k1, -, -⟩
    rw [M.wp_pure]
    refine ⟨rfl, ?_⟩
    rw [subMat_zero] at k1
    exact k1
  · unfold sketchSymmetricSide
    rw [if_neg (by decide), M.wp_bind]
    refine M.wp_mono ((C40_right_partial hE (S := .dense S) (Sm := Sm) (d := d) (ro := 0) (co := 0) ?_ hd.le hn.le hlda (ldOk_tight _ _ _) hA (fun i j hij h => by cases (hC i j hij).symm.trans h) (fun _ => hC)).1 hns) ?_
    · exact filled_leftOk (E := E) (alpha := alpha) (op := .NoTrans) hb hl hr hc hh rfl rfl
    rintro _ s' ⟨k1, -, -⟩
    rw [M.wp_pure]
    refine ⟨rfl, ?_⟩
    rw [subMat_zero] at k1
    exact k1

omit [Field R] [LinearOrder R] [FloorRing R] [IsStrictOrderedRing T] in
theorem symm_expected {side : Side} {layout : Layout} {d n lda : Int} {alpha beta : T} {A B b0 : Buf T} {Am C Sm : Int → Int → T} (hd : 0 < d) (hn : 0 < n) (hlda : n ≤ lda)
    (hB : Holds B layout (tightLd layout (symmetricOutputDims d n side).1 (symmetricOutputDims d n side).2) (symmetricOutputDims d n side).1 (symmetricOutputDims d n side).2 Sm)
    (hA : Holds A layout lda n n Am) (hs : ∀ i j, Am i j = Am j i)
    (hC : Holds b0 layout (tightLd layout (symmetricOutputDims d n side).1 (symmetricOutputDims d n side).2) (symmetricOutputDims d n side).1 (symmetricOutputDims d n side).2 C) :
    M.wp (blasSymm layout (if side = .Left then Side.Right else Side.Left) .Upper (symmetricOutputDims d n side).1 (symmetricOutputDims d n side).2 alpha A lda B
        (tightLd layout (symmetricOutputDims d n side).1 (symmetricOutputDims d n side).2) beta (tightLd layout (symmetricOutputDims d n side).1 (symmetricOutputDims d n side).2)) b0
      (fun _ b' => Holds b' layout (tightLd layout (symmetricOutputDims d n side).1 (symmetricOutputDims d n side).2) (symmetricOutputDims d n side).1 (symmetricOutputDims d n side).2
          (symProduct side n alpha beta Sm Am C)) := by
  cases side
  · exact blasSymm_spec (side := .Right) (by decide) hd.le hn.le hlda (ldOk_tight _ _ _) (ldOk_tight _ _ _) (fun i j hij _ => hA i j hij) hs hB (fun i j hij h => by cases (hC i j hij).symm.trans h) (fun _ => hC)
  · exact blasSymm_spec (side := .Left) (by decide) hn.le hd.le hlda (ldOk_tight _ _ _) (ldOk_tight _ _ _) (fun i j hij _ => hA i j hij) hs hB (fun i j hij h => by cases (hC i j hij).symm.trans h) (fun _ => hC)


/-- The symmetric matrix of the tests: entry (i, j) with i ≤ j is the number at position i + j * lda of the n * n numbers, which are stored by columns without gaps, and 0 beyond them. -/
def Spec.symData (E : SkEnv N K W WS R T) (D : DenseDist) (n lda : Int) (seed : RNGState N K) (i j : Int) : T :=
  if min i j + max i j * lda < n * n then denseEntry E.G E.sqrt3 D seed ((min i j + max i j * lda) % n) ((min i j + max i j * lda) / n) else 0

/-- The number at position p of a rows x cols matrix stored without gaps. -/
def Spec.atFlat (layout : Layout) (rows cols : Int) (F : Int → Int → T) (p : Int) : T := if layout = .RowMajor then F (p / cols) (p % cols) else F (p % rows) (p / rows)

omit [Field R] [LinearOrder R] [FloorRing R] [LinearOrder T] [IsStrictOrderedRing T] in
theorem symData_spec (hE : SkEnvOk E) {n lda : Int} (hn : 0 < n) (hld : n ≤ lda) (hfit : lda * lda ≤ intMax 64) (seed : RNGState N K) {D : DenseDist}
    (hD : mkDenseDist lda lda .Gaussian .Long = .ok D) :
    M.wp (randomSymmetricMat E n lda seed) (zeroVec (lda * lda)) (fun _ b => ∀ layout, Holds b layout lda n n (symData E D n lda seed)) := by
  refine M.wp_mono (C133_random_symmetric hE hn hld hfit seed hD) ?_
  rintro _ b ⟨A, h1, h2, h3⟩ layout i j ⟨i0, i1, j0, j1⟩
  rw [holds_sym h1 h2 layout i j ⟨i0, i1, j0, j1⟩]
  congr 1
  unfold symData
  rcases le_total i j with h | h
  · rw [h3 i j ⟨i0, i1, j0, j1⟩ h, min_eq_left h, max_eq_right h]
  · rw [h2, h3 j i ⟨j0, j1, i0, i1⟩ h, min_eq_right h, max_eq_left h]

omit [Field R] [LinearOrder R] [FloorRing R] [IsStrictOrderedRing T] [LinearOrder T] in
theorem symData_symm (D : DenseDist) (n lda : Int) (seed : RNGState N K) (i j : Int) : symData E D n lda seed i j = symData E D n lda seed j i := by
  unfold symData
  rw [min_comm, max_comm]

omit [Field R] [LinearOrder R] [FloorRing R] [Field T] [IsStrictOrderedRing T] [LinearOrder T] in
theorem atFlat_val {b : Buf T} {layout : Layout} {rows cols : Int} {F : Int → Int → T} (hr : 0 < rows) (hc : 0 < cols) (h : Holds b layout (tightLd layout rows cols) rows cols F) (p : Int)
    (p0 : 0 ≤ p) (p1 : p < rows * cols) : b p = .val (atFlat layout rows cols F p) := by
  unfold atFlat
  cases layout
  · rw [if_neg (by decide)]
    exact colMajor_flat hr h p p0 p1
  · rw [if_pos rfl]
    exact (holds_rowMajor_tight hc).mp h p p0 p1

omit [Field R] [LinearOrder R] [FloorRing R] [Field T] [IsStrictOrderedRing T] [LinearOrder T] in
/-- A matrix without gaps, read in another layout. -/
theorem atFlat_holds {b : Buf T} {layout : Layout} {rows cols : Int} {F : Int → Int → T} (hr : 0 < rows) (hc : 0 < cols) (h : Holds b layout (tightLd layout rows cols) rows cols F) (l : Layout) :
    Holds b l (tightLd l rows cols) rows cols (fun i j => atFlat layout rows cols F (addr l (tightLd l rows cols) i j)) := by
  intro i j hij
  have := addr_bound (ldOk_tight l rows cols) hij
  rw [extent_tight] at this
  exact atFlat_val hr hc h _ this.1 this.2

omit [Field R] [LinearOrder R] [FloorRing R] [IsStrictOrderedRing T] [LinearOrder T] in
theorem symB_spec (hE : SkEnvOk E) {rows cols dn : Int} {fam : ScalarDist} {ax : Axis} {D : DenseDist} (hr : 0 < rows) (hc : 0 < cols) (hdn : dn = rows * cols) (hfit : rows * cols ≤ intMax 64)
    (hD : mkDenseDist rows cols fam ax = .ok D) (seed : RNGState N K) :
    M.wp (fillDense E.env.sched E.G E.sqrt3 D seed) (zeroVec dn) (fun _ b => Holds b D.naturalLayout (tightLd D.naturalLayout rows cols) rows cols (denseEntry E.G E.sqrt3 D seed)) := by
  have okD := denseDistOk_of_mk hD hfit
  have e : D.nRows = rows ∧ D.nCols = cols := by
    rw [mkDenseDist_eq hr hc] at hD
    cases hD
    exact ⟨rfl, rfl⟩
  unfold fillDense
  rw [e.1, e.2, hdn]
  refine M.wp_mono (fillUnpacked_spec hE.gen okD hr hc le_rfl le_rfl (by rw [e.1, zero_add]) (by rw [e.2, zero_add]) ?_) fun _ b h => by simpa only [add_zero] using h.1
  intro p p0 p1
  unfold zeroVec Buf.ofFn
  rw [if_pos ⟨p0, p1⟩]
  exact fun h => by cases h

theorem dims_pos {d n : Int} (side : Side) (hd : 0 < d) (hn : 0 < n) :
    0 < (symmetricOutputDims d n side).1 ∧ 0 < (symmetricOutputDims d n side).2 ∧ (symmetricOutputDims d n side).1 * (symmetricOutputDims d n side).2 = d * n := by
  cases side
  · exact ⟨hd, hn, rfl⟩
  · exact ⟨hn, hd, mul_comm _ _⟩

/-- What a comparison of two rows x cols matrices reports: nothing if all entries are close, otherwise an entry that is not. -/
def Spec.ReportsEntry (r : Option (Int × Int)) (rows cols : Int) (P : Int → Int → Prop) : Prop :=
  (r = none ∧ ∀ i j, InR rows cols i j → P i j) ∨ ∃ i j, r = some (i, j) ∧ InR rows cols i j ∧ ¬ P i j

omit [Field R] [LinearOrder R] [FloorRing R] in
theorem reportsEntry_none {r : Option (Int × Int)} {rows cols : Int} {P : Int → Int → Prop} (h : ReportsEntry r rows cols P) (hP : ∀ i j, InR rows cols i j → P i j) : r = none := by
  rcases h with ⟨e, -⟩ | ⟨i, j, -, hij, hn⟩
  · exact e
  · exact absurd (hP i j hij) hn

omit [Field R] [LinearOrder R] [FloorRing R] [IsStrictOrderedRing T] in
theorem compare_entries {layout : Layout} {rows cols ld : Int} {a e : Buf T} {V X : Int → Int → T} {atol rtol : T} (hr : 0 ≤ rows) (hc : 0 ≤ cols) (ha : Holds a layout ld rows cols V)
    (he : Holds e layout ld rows cols X) {s : Unit} :
    M.wp (M.lift (matricesApproxEqual1 layout .NoTrans rows cols (fltBuf a) ld (fltBuf e) ld (.fin atol) (.fin rtol))) s
      (fun r _ => ReportsEntry r rows cols (fun i j => Close atol rtol (V i j) (X i j))) := by
  rw [M.wp_lift]
  unfold matricesApproxEqual1
  rcases C118_matrices_partial (op := .NoTrans) hr hc (fltBuf_holds ha) (fltBuf_holds he) atol rtol with ⟨e, h⟩ | ⟨i, j, e, h1, h2⟩
  · exact ⟨none, e, Or.inl ⟨rfl, h⟩⟩
  · exact ⟨_, e, Or.inr ⟨i, j, rfl, h1, h2⟩⟩

omit [Field R] [LinearOrder R] [FloorRing R] [IsStrictOrderedRing T] in
/-- C133 (what the test with the operator's layout checks). Whatever call `sk` is tested: if it names the other side and ends with the matrix V, the test reports an entry in which V is not close to
alpha times the product of operator and data plus beta times the old contents, and nothing if there is none. -/
theorem C133_symmetric_same_compares (hE : SkEnvOk E) {sk : Layout → Buf T → Int → M (SkOp N K T × Buf T) Side} {atol rtol alpha beta : T} {d n lda : Int} {ax : Axis} {side : Side} (hd : 0 < d)
    (hn : 0 < n) (hld : n ≤ lda) (hfit : d * n ≤ intMax 64) (hfit' : lda * lda ≤ intMax 64) (seedA seedB seedSkop : RNGState N K) {rows cols : Int} (hdims : symmetricOutputDims d n side = (rows, cols))
    {D DA : DenseDist} (hD : mkDenseDist rows cols .Uniform ax = .ok D) (hDA : mkDenseDist lda lda .Gaussian .Long = .ok DA) {V : Int → Int → T}
    (hsk : ∀ S A b0, Spec.Filled E D seedSkop S → (∀ layout, Holds A layout lda n n (symData E DA n lda seedA)) →
      Holds b0 D.naturalLayout (tightLd D.naturalLayout rows cols) rows cols (denseEntry E.G E.sqrt3 D seedB) →
      M.wp (sk D.naturalLayout A (tightLd D.naturalLayout rows cols)) (.dense S, b0) (fun sa s => sa = (if side = .Left then Side.Right else Side.Left) ∧
        Holds s.2 D.naturalLayout (tightLd D.naturalLayout rows cols) rows cols V)) :
    M.wp (testSymSameWith E sk atol rtol seedA seedB seedSkop ax alpha d n lda beta side) () (fun r _ => ReportsEntry r rows cols (fun i j =>
      Close atol rtol (V i j) (symProduct side n alpha beta (denseEntry E.G E.sqrt3 D seedSkop) (symData E DA n lda seedA) (denseEntry E.G E.sqrt3 D seedB) i j))) := by
  obtain ⟨hr, hc, hrc⟩ := dims_pos side hd hn
  obtain rfl : (symmetricOutputDims d n side).1 = rows := by rw [hdims]
  obtain rfl : (symmetricOutputDims d n side).2 = cols := by rw [hdims]
  unfold testSymSameWith
  dsimp only
  rw [M.wp_bind, M.wp_onLocal]
  refine M.wp_mono (symData_spec hE hn hld hfit' seedA hDA) ?_
  rintro _ A hA
  rw [M.wp_bind, M.wp_lift]
  refine ⟨D, hD, ?_⟩
  rw [M.wp_bind]
  refine filledOp_spec hE hr hc (by rw [hrc]; exact hfit) seedSkop (fun D' hD' _ eR eC eL S b hb hl hSr hSc hh => ?_) hD
  obtain rfl : D = D' := by rw [hD] at hD'; cases hD'; rfl
  rw [M.wp_bind, M.wp_onLocal]
  refine M.wp_mono (symB_spec hE hr hc hrc.symm (by rw [hrc]; exact hfit) hD seedB) ?_
  rintro _ b0 hb0
  rw [← eL] at hh hl
  simp only [tightLd_row, hl]
  rw [M.wp_bind, M.wp_onLocal]
  refine M.wp_mono (hsk S A b0 ⟨by rw [hSr, eR], by rw [hSc, eC], hl, b, hb, by rw [eR, eC]; exact hh⟩ hA hb0) ?_
  rintro _ s1 ⟨rfl, k1⟩
  rw [M.wp_bind, M.wp_onLocal]
  refine M.wp_mono (symm_expected hd hn hld (by rw [hb]; exact hh) (hA _) (symData_symm _ _ _ _) hb0) ?_
  rintro _ y k2
  exact compare_entries hr.le hc.le k1 k2

omit [Field R] [LinearOrder R] [FloorRing R] [Field T] [LinearOrder T] [IsStrictOrderedRing T] in
theorem tightLd_flip (l : Layout) (m n : Int) : (if l = .RowMajor then m else n) = tightLd l.flip m n := by cases l <;> rfl

omit [Field R] [LinearOrder R] [FloorRing R] [IsStrictOrderedRing T] in
/-- C133 (what the test with the opposite layout checks). The same if data and sketch are stored in the layout that is not the operator's; the old contents are the numbers of seed B, read in
that layout. -/
theorem C133_symmetric_opposing_compares (hE : SkEnvOk E) {sk : Layout → Buf T → Int → M (SkOp N K T × Buf T) Side} {atol rtol alpha beta : T} {d n lda : Int} {ax : Axis} {side : Side} (hd : 0 < d)
    (hn : 0 < n) (hld : n ≤ lda) (hfit : d * n ≤ intMax 64) (hfit' : lda * lda ≤ intMax 64) (seedA seedB seedSkop : RNGState N K) {rows cols : Int} (hdims : symmetricOutputDims d n side = (rows, cols))
    {D DA : DenseDist} (hD : mkDenseDist rows cols .Uniform ax = .ok D) (hDA : mkDenseDist lda lda .Gaussian .Long = .ok DA) {V C : Int → Int → T}
    (hC : C = fun i j => atFlat D.naturalLayout rows cols (denseEntry E.G E.sqrt3 D seedB) (addr D.naturalLayout.flip (tightLd D.naturalLayout.flip rows cols) i j))
    (hsk : ∀ S A b0, Spec.Filled E D seedSkop S → (∀ layout, Holds A layout lda n n (symData E DA n lda seedA)) →
      Holds b0 D.naturalLayout.flip (tightLd D.naturalLayout.flip rows cols) rows cols C →
      M.wp (sk D.naturalLayout.flip A (tightLd D.naturalLayout.flip rows cols)) (.dense S, b0) (fun sa s => sa = (if side = .Left then Side.Right else Side.Left) ∧
        Holds s.2 D.naturalLayout.flip (tightLd D.naturalLayout.flip rows cols) rows cols V)) :
    M.wp (testSymOpposingWith E sk atol rtol seedA seedB seedSkop ax alpha d n lda beta side) () (fun r _ => ReportsEntry r rows cols (fun i j =>
      Close atol rtol (V i j) (symProduct side n alpha beta (denseEntry E.G E.sqrt3 D seedSkop) (symData E DA n lda seedA) C i j))) := by
  obtain ⟨hr, hc, hrc⟩ := dims_pos side hd hn
  obtain rfl : (symmetricOutputDims d n side).1 = rows := by rw [hdims]
  obtain rfl : (symmetricOutputDims d n side).2 = cols := by rw [hdims]
  unfold testSymOpposingWith
  dsimp only
  rw [M.wp_bind, M.wp_onLocal]
  refine M.wp_mono (symData_spec hE hn hld hfit' seedA hDA) ?_
  rintro _ A hA
  rw [M.wp_bind, M.wp_lift]
  refine ⟨D, hD, ?_⟩
  rw [M.wp_bind]
  refine filledOp_spec hE hr hc (by rw [hrc]; exact hfit) seedSkop (fun D' hD' _ eR eC eL S b hb hl hSr hSc hh => ?_) hD
  obtain rfl : D = D' := by rw [hD] at hD'; cases hD'; rfl
  rw [M.wp_bind, M.wp_onLocal]
  refine M.wp_mono (symB_spec hE hr hc hrc.symm (by rw [hrc]; exact hfit) hD seedB) ?_
  rintro _ b0 hb0
  have hb0' := atFlat_holds hr hc hb0 D.naturalLayout.flip
  rw [← hC] at hb0'
  rw [← eL] at hh hl
  have efl : (if D.naturalLayout = .RowMajor then Layout.ColMajor else Layout.RowMajor) = D.naturalLayout.flip := by cases D.naturalLayout <;> rfl
  simp only [hl, tightLd_row D.naturalLayout (symmetricOutputDims d n side).1 (symmetricOutputDims d n side).2, tightLd_flip D.naturalLayout (symmetricOutputDims d n side).1 (symmetricOutputDims d n side).2, efl]
  rw [M.wp_bind, M.wp_onLocal]
  refine M.wp_mono (hsk S A b0 ⟨by rw [hSr, eR], by rw [hSc, eC], hl, b, hb, by rw [eR, eC]; exact hh⟩ hA hb0') ?_
  rintro _ s1 ⟨rfl, k1⟩
  rw [M.wp_bind, M.wp_onLocal]
  have hh' : Holds (fun p => if 0 ≤ p ∧ p < d * n then ptr S.buff p else .none) D.naturalLayout (tightLd D.naturalLayout (symmetricOutputDims d n side).1 (symmetricOutputDims d n side).2)
      (symmetricOutputDims d n side).1 (symmetricOutputDims d n side).2 (denseEntry E.G E.sqrt3 D seedSkop) := by
    intro i j hij
    have := addr_bound (ldOk_tight D.naturalLayout _ _) hij
    rw [extent_tight, hrc] at this
    beta_reduce
    rw [if_pos this, hb]
    exact hh i j hij
  refine M.wp_mono (C17_flip_layout hr.le hc.le ⟨by positivity, fun p => ?_⟩ (ldOk_tight _ _ _) (ldOk_tight _ _ _) hh') ?_
  · dsimp only
    by_cases h : 0 ≤ p ∧ p < d * n
    · rw [if_pos h, if_pos h, hb]
      exact ⟨_, atFlat_val hr hc hh p h.1 (by rw [hrc]; exact h.2)⟩
    · rw [if_neg h, if_neg h]
  rintro _ v ⟨-, -, hv⟩
  rw [M.wp_bind, M.wp_onLocal]
  refine M.wp_mono (symm_expected hd hn hld hv (hA _) (symData_symm _ _ _ _) hb0') ?_
  rintro _ y k2
  exact compare_entries hr.le hc.le k1 k2

/-- C133 (symmetric data, the layout of the operator). For both sides, all sizes, leading dimensions, scalars, generators, schedules and seeds: `sketch_symmetric` and `symm` give the same matrix,
and the test finds no difference. -/
theorem C133_symmetric_same (hE : SkEnvOk E) {atol rtol alpha beta : T} {d n lda : Int} {ax : Axis} {side : Side} (hd : 0 < d) (hn : 0 < n) (hld : n ≤ lda) (hfit : d * n ≤ intMax 64)
    (hfit' : lda * lda ≤ intMax 64) (ht : 0 ≤ atol) (seedA seedB seedSkop : RNGState N K) :
    M.wp (testSymSame E atol rtol seedA seedB seedSkop ax alpha d n lda beta side) () (fun r _ => r = none) := by
  obtain ⟨hr, hc, hrc⟩ := dims_pos side hd hn
  obtain ⟨D, hD⟩ : ∃ D, mkDenseDist (symmetricOutputDims d n side).1 (symmetricOutputDims d n side).2 .Uniform ax = .ok D := ⟨_, mkDenseDist_eq hr hc⟩
  obtain ⟨DA, hDA⟩ : ∃ D, mkDenseDist lda lda .Gaussian .Long = .ok D := ⟨_, mkDenseDist_eq (by omega) (by omega)⟩
  have e : D.nRows = (symmetricOutputDims d n side).1 ∧ D.nCols = (symmetricOutputDims d n side).2 := by
    rw [mkDenseDist_eq hr hc] at hD
    cases hD
    exact ⟨rfl, rfl⟩
  refine M.wp_mono (C133_symmetric_same_compares hE hd hn hld hfit hfit' seedA seedB seedSkop (side := side) rfl hD hDA
    (V := symProduct side n alpha beta (denseEntry E.G E.sqrt3 D seedSkop) (symData E DA n lda seedA) (denseEntry E.G E.sqrt3 D seedB)) ?_)
    fun r _ h => reportsEntry_none h fun i j _ => close_self ht _ _
  rintro S A b0 ⟨e1, e2, e3, b, hb, hh⟩ hA hb0
  rw [e.1, e.2] at hh
  exact side_spec hE hd hn hld hb e3 (e1.trans e.1) (e2.trans e.2) hh (hA _) (symData_symm _ _ _ _) hb0

/-- C133 (symmetric data, the opposite layout). The same if data and sketch are stored in the layout that is not the operator's: `flip_layout` gives the operator in that layout. -/
theorem C133_symmetric_opposing (hE : SkEnvOk E) {atol rtol alpha beta : T} {d n lda : Int} {ax : Axis} {side : Side} (hd : 0 < d) (hn : 0 < n) (hld : n ≤ lda) (hfit : d * n ≤ intMax 64)
    (hfit' : lda * lda ≤ intMax 64) (ht : 0 ≤ atol) (seedA seedB seedSkop : RNGState N K) :
    M.wp (testSymOpposing E atol rtol seedA seedB seedSkop ax alpha d n lda beta side) () (fun r _ => r = none) := by
  obtain ⟨hr, hc, hrc⟩ := dims_pos side hd hn
  obtain ⟨D, hD⟩ : ∃ D, mkDenseDist (symmetricOutputDims d n side).1 (symmetricOutputDims d n side).2 .Uniform ax = .ok D := ⟨_, mkDenseDist_eq hr hc⟩
  obtain ⟨DA, hDA⟩ : ∃ D, mkDenseDist lda lda .Gaussian .Long = .ok D := ⟨_, mkDenseDist_eq (by omega) (by omega)⟩
  have e : D.nRows = (symmetricOutputDims d n side).1 ∧ D.nCols = (symmetricOutputDims d n side).2 := by
    rw [mkDenseDist_eq hr hc] at hD
    cases hD
    exact ⟨rfl, rfl⟩
  obtain ⟨C, hC⟩ : ∃ C, C = fun i j => atFlat D.naturalLayout (symmetricOutputDims d n side).1 (symmetricOutputDims d n side).2 (denseEntry E.G E.sqrt3 D seedB)
    (addr D.naturalLayout.flip (tightLd D.naturalLayout.flip (symmetricOutputDims d n side).1 (symmetricOutputDims d n side).2) i j) := ⟨_, rfl⟩
  refine M.wp_mono (C133_symmetric_opposing_compares hE hd hn hld hfit hfit' seedA seedB seedSkop (side := side) rfl hD hDA hC
    (V := symProduct side n alpha beta (denseEntry E.G E.sqrt3 D seedSkop) (symData E DA n lda seedA) C) ?_)
    fun r _ h => reportsEntry_none h fun i j _ => close_self ht _ _
  rintro S A b0 ⟨e1, e2, e3, b, hb, hh⟩ hA hb0
  rw [e.1, e.2] at hh
  exact side_spec hE hd hn hld hb e3 (e1.trans e.1) (e2.trans e.2) hh (hA _) (symData_symm _ _ _ _) hb0

end

/-! ## The square case of the transpose test -/

/-- The generator whose words are 0, 1, 2, 3, …, with the numbers of a pair unchanged. -/
def exSketchEnv : SkEnv (2 ^ 128) Nat Int Int ℚ ℚ :=
  ⟨⟨fun lt l => l.mergeSort fun a b => !lt b a, [], 4⟩, ⟨4, fun _ _ i => i, fun a b => (a, b), fun w => w, fun w => w.toNat⟩, 1, exGenQ, fun x => x, fun _ l => l⟩

theorem exSketchEnv_ok : SkEnvOk exSketchEnv := ⟨⟨mergeSort_sortOk, by norm_num [exSketchEnv]⟩, Or.inr rfl, Or.inr rfl, rfl, fun _ l => List.Perm.refl l⟩

/-- C133 fails for square operators: the two operators of `test_transpose_compatible` are then the same matrix, not transposes of each other, and the test compares its row sums with its column
sums. Here the 2 x 2 operator is (0 0; 1 1) up to the generator's numbers and the test reports a difference although the library does what its documentation says. -/
theorem C133_vector_compatible_square : (testVecCompatible exSketchEnv (1 / 1000) (1 / 1000) 2 2 1 1 ⟨0, 7⟩ ()).1 = .ok (some 0) := by decide +kernel

/-! ## The hypotheses are met -/

/-- The sizes, strides and leading dimensions of the tests. -/
example : M.wp (testVec exSketchEnv (1 / 1000) (1 / 1000) 3 10 1 2 ⟨0, 7⟩) () (fun r _ => r = none) :=
  C133_vector exSketchEnv_ok (by norm_num) (by norm_num) (by norm_num [intMax]) (by norm_num) (by norm_num) (by norm_num) _

example : M.wp (testVecTransposed exSketchEnv (1 / 1000) (1 / 1000) 3 10 1 2 ⟨0, 7⟩) () (fun r _ => r = none) :=
  C133_vector_transposed exSketchEnv_ok (by norm_num) (by norm_num) (by norm_num [intMax]) (by norm_num) (by norm_num) (by norm_num) _

example : M.wp (testVecCompatible exSketchEnv (1 / 1000) (1 / 1000) 3 10 1 2 ⟨0, 7⟩) () (fun r _ => r = none) :=
  C133_vector_compatible_partial exSketchEnv_ok (by norm_num) (by norm_num) (by norm_num) (by norm_num [intMax]) (by norm_num) (by norm_num) (by norm_num) _

example : M.wp (testSymSame exSketchEnv (1 / 1000) (1 / 1000) ⟨0, 31⟩ ⟨0, 73⟩ ⟨0, 1⟩ .Long (1 / 2) 3 10 19 (-1) .Left) () (fun r _ => r = none) :=
  C133_symmetric_same exSketchEnv_ok (by norm_num) (by norm_num) (by norm_num) (by norm_num [intMax]) (by norm_num [intMax]) (by norm_num) _ _ _

example : M.wp (testSymOpposing exSketchEnv (1 / 1000) (1 / 1000) ⟨0, 31⟩ ⟨0, 73⟩ ⟨0, 1⟩ .Short (1 / 2) 13 10 19 (-1) .Right) () (fun r _ => r = none) :=
  C133_symmetric_opposing exSketchEnv_ok (by norm_num) (by norm_num) (by norm_num) (by norm_num [intMax]) (by norm_num [intMax]) (by norm_num) _ _ _

/-- A call that leaves zeros is found. -/
example : (testVecWith exSketchEnv (fun _ => M.zoom Prod.snd (fun s b => (s.1, b)) (forI 0 2 fun i => M.wr i 0)) (1 / 1000) (1 / 1000) 2 3 1 1 ⟨0, 7⟩ ()).1 = .ok (some 0) := by decide +kernel

/-- With n = 10 and lda = 19, the leading dimensions of the tests, the last four columns are zero. -/
example : M.wp (randomSymmetricMat exSketchEnv 10 19 ⟨0, 31⟩) (zeroVec (19 * 19)) (fun _ b => ∃ A : Int → Int → ℚ, Holds b .ColMajor 19 10 10 A ∧ ∀ i j, InR 10 10 i j → 6 ≤ j → A i j = 0) := by
  refine M.wp_mono (C133_random_symmetric_padded exSketchEnv_ok (n := 10) (lda := 19) (by norm_num) (by norm_num) (by norm_num [intMax]) _) ?_
  rintro _ b ⟨A, h1, h2⟩
  exact ⟨A, h1, fun i j hij hj => h2 i j hij (by have := le_max_right i j; nlinarith)⟩

end RB
