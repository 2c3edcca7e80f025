import Verif.Lemmas.Util64
import Verif.Props.Util
import Verif.Props.Sampling
import Verif.Props.SparseData
import Verif.Props.Sketch64
import Verif.Props.SketchApi

/-!
# C111 and C112: index arithmetic of the utilities, of sketch_vector and sketch_symmetric, and of conversions between sparse formats

The functions with suffix `64` or `W` compute with `int64_t` and store indices of `w` bits; the functions without suffix compute with integers.
-/

namespace RB
open Spec
variable {N : Nat} {K W WS R T : Type}

/-! ## C111: dense utilities -/

/-- C111 (require_symmetric). If all entries have positions below 2^63, the check behaves as with unbounded integers (C21). -/
theorem C111_require_symmetric [Field T] [LinearOrder T] {layout : Layout} {A : Buf T} {n lda : Int} {tol : T} (hn : n < 2 ^ 63) (hld : 0 ≤ lda)
    (hF : EntriesFit layout lda n n) : requireSymmetric64 layout A n lda tol = requireSymmetric layout A n lda tol := by
  unfold requireSymmetric64 requireSymmetric
  split_ifs
  · rfl
  · refine forI_congr fun i i0 i1 => ?_
    rw [i64_ok (by omega) (by omega), Res.ok_bind]
    refine forI_congr fun j j0 j1 => ?_
    rw [at64_eq hld hF ⟨i0, i1, by omega, j1⟩, at64_eq hld hF ⟨by omega, j1, i0, i1⟩]
    rfl

/-- C111 (symmetrize). See C18. -/
theorem C111_symmetrize {layout : Layout} {uplo : Uplo} {n lda : Int} (hn : n < 2 ^ 63) (hld : 0 ≤ lda) (hF : EntriesFit layout lda n n) :
    (symmetrize64 layout uplo n lda : M (Buf T) Unit) = symmetrize layout uplo n lda := by
  unfold symmetrize64 symmetrize
  cases uplo with
  | General => rfl
  | Upper =>
    refine forI_congr fun i i0 i1 => ?_
    rw [mlift_i64 (by omega) (by omega)]
    refine forI_congr fun j j0 j1 => ?_
    rw [mlift_at64 hld hF ⟨i0, i1, by omega, j1⟩]
    congr 1; funext v
    rw [mlift_at64 hld hF ⟨by omega, j1, i0, i1⟩]
  | Lower =>
    refine forI_congr fun i i0 i1 => ?_
    rw [mlift_i64 (by omega) (by omega)]
    refine forI_congr fun j j0 j1 => ?_
    rw [mlift_at64 hld hF ⟨by omega, j1, i0, i1⟩]
    congr 1; funext v
    rw [mlift_at64 hld hF ⟨i0, i1, by omega, j1⟩]

/-- C111 (overwrite_triangle). See C19; the sum of `n - 1` and `k` must be representable. -/
theorem C111_overwrite_triangle_partial [Zero T] {layout : Layout} {uplo : Uplo} {n k lda : Int} (hk : 0 ≤ k) (hnk : n + k ≤ 2 ^ 63) (hld : 0 ≤ lda)
    (hF : EntriesFit layout lda n n) : (overwriteTriangle64 layout uplo n k lda : M (Buf T) Unit) = overwriteTriangle layout uplo n k lda := by
  unfold overwriteTriangle64 overwriteTriangle
  cases uplo with
  | General => rfl
  | Upper =>
    refine forI_congr fun i i0 i1 => ?_
    rw [mlift_i64 (by omega) (by omega)]
    refine forI_congr fun j j0 j1 => ?_
    rw [mlift_at64 hld hF ⟨i0, i1, by omega, j1⟩]
  | Lower =>
    refine forI_congr fun i i0 i1 => ?_
    rw [mlift_i64 (by omega) (by omega)]
    refine forI_congr fun j j0 j1 => ?_
    rw [mlift_at64 hld hF ⟨by omega, j1, i0, i1⟩]

/-- C111 is false for overwrite_triangle: for diagonals beyond the matrix, where nothing is to be overwritten, `i + k` overflows if `k` is within
`n` of 2^63. -/
theorem C111_overwrite_undefined [Zero T] {layout : Layout} {uplo : Uplo} {n k lda : Int} (hup : uplo ≠ .General) (hn : 0 < n) (hk : n ≤ k)
    (hk' : k < 2 ^ 63) (hbig : 2 ^ 63 < n + k) (b : Buf T) : M.Undef (overwriteTriangle64 layout uplo n k lda) b ∧
      overwriteTriangle layout uplo n k lda b = (.ok (), b) := by
  have hempty : ∀ {i : Int} {f : Int → M (Buf T) Unit}, 0 ≤ i → forI (i + k) n f = pure () := by
    intro i f h0
    unfold forI
    rw [show (n - (i + k)).toNat = 0 by omega]; rfl
  have hq : ∀ {body : Int → M (Buf T) Unit}, (∀ i, 0 ≤ i → body i = pure ()) → forI 0 n body b = (.ok (), b) := by
    intro body h
    rw [forI_congr (g := fun _ => pure ()) fun i h0 _ => h i h0]
    obtain ⟨_, s, h1, rfl⟩ := M.wp_forI (lo := 0) (hi := n) (body := fun _ => pure ()) (Q := fun _ s => s = b) (s := b) (fun _ s => s = b) (by omega) rfl
      (fun i s h0 h1 hs => by subst hs; exact ⟨(), _, rfl, rfl⟩) (fun s hs => hs)
    exact h1
  have hu : ∀ {body : Int → Int → M (Buf T) Unit}, M.Undef (forI 0 n fun i => M.lift (i64 (i + k)) >>= fun first => forI first n (body i)) b := by
    intro body
    refine M.Undef.forI (j := 2 ^ 63 - k) (fun _ s => s = b) (by omega) (by omega) rfl (fun i s h0 h1 hs => ?_) (fun s hs => ?_)
    · subst hs
      rw [mlift_i64 (by omega) (by omega), hempty h0]
      exact ⟨(), _, rfl, rfl⟩
    · refine M.Undef.bind ?_
      show (i64 (2 ^ 63 - k + k)) = .ub
      rw [sub_add_cancel]
      decide
  cases uplo with
  | General => exact absurd rfl hup
  | Upper => exact ⟨hu, by unfold overwriteTriangle; exact hq fun i h0 => hempty h0⟩
  | Lower => exact ⟨hu, by unfold overwriteTriangle; exact hq fun i h0 => hempty h0⟩

example : (0 : Int) < 2 ∧ (2 : Int) ≤ 2 ^ 63 - 1 ∧ (2 ^ 63 - 1 : Int) < 2 ^ 63 ∧ (2 : Int) ^ 63 < 2 + (2 ^ 63 - 1) := by omega

/-- C111 (transpose_square). See C20. -/
theorem C111_transpose_square {n lda : Int} (hn : n < 2 ^ 63) (hld : 0 ≤ lda) (hF : EntriesFit .ColMajor lda n n) :
    (transposeSquare64 n lda : M (Buf T) Unit) = transposeSquare n lda := by
  unfold transposeSquare64 transposeSquare
  refine forI_congr fun i i0 i1 => ?_
  rw [mlift_i64 (by omega) (by omega)]
  refine forI_congr fun j j0 j1 => ?_
  have h1 := hF i j ⟨i0, i1, by omega, j1⟩
  have h2 := hF j i ⟨by omega, j1, i0, i1⟩
  have p1 := mul_nonneg (show (0 : Int) ≤ j by omega) hld
  have p2 := mul_nonneg i0 hld
  simp only [addr] at h1 h2
  rw [mul_comm j] at h1 p1
  rw [mul_comm i] at h2 p2
  rw [mlift_i64 (by omega) (by omega), mlift_i64 (by omega) (by omega), mlift_i64 (by omega) (by omega), mlift_i64 (by omega) (by omega)]

theorem omatcopy64_ld {m n : Int} {A : Buf T} {l l' : Layout} {ld ld' : Int} (hld : 0 ≤ ld) (hld' : 0 ≤ ld') (h : EntriesFit l ld m n)
    (h' : EntriesFit l' ld' m n) :
    omatcopy64 m n A (layoutToStrides l ld).irs (layoutToStrides l ld).ics 0 (layoutToStrides l' ld').irs (layoutToStrides l' ld').ics =
      omatcopy m n A (layoutToStrides l ld).irs (layoutToStrides l ld).ics 0 (layoutToStrides l' ld').irs (layoutToStrides l' ld').ics := by
  unfold omatcopy64 omatcopy
  refine forI_congr fun i i0 i1 => forI_congr fun j j0 j1 => ?_
  have key : ∀ {l : Layout} {ld : Int}, 0 ≤ ld → EntriesFit l ld m n → 0 ≤ i * (layoutToStrides l ld).irs ∧ 0 ≤ j * (layoutToStrides l ld).ics ∧
      i * (layoutToStrides l ld).irs + j * (layoutToStrides l ld).ics < 2 ^ 63 := by
    intro l ld hld h
    have hp := h i j ⟨i0, i1, j0, j1⟩
    have p1 := mul_nonneg i0 hld
    have p2 := mul_nonneg j0 hld
    cases l <;> simp only [layoutToStrides, reduceCtorEq, if_true, if_false, addr, mul_one] at hp ⊢ <;> omega
  obtain ⟨k1, k2, k3⟩ := key hld h
  obtain ⟨k4, k5, k6⟩ := key hld' h'
  rw [mlift_i64 (by omega) (by omega), mlift_i64 (by omega) (by omega), mlift_i64 (by omega) (by omega)]
  congr 1; funext v
  rw [mlift_i64 (by omega) (by omega), mlift_i64 (by omega) (by omega), mlift_i64 (by omega) (by omega)]

/-- C111 (flip_layout). See C17; the length of the new vector must be representable. -/
theorem C111_flip_layout [Zero T] {layout : Layout} {m n ldaIn ldaOut : Int} (hm : 0 ≤ m) (hn : 0 ≤ n) (hin : 0 ≤ ldaIn) (hout : 0 ≤ ldaOut)
    (hF : EntriesFit layout ldaIn m n) (hF' : EntriesFit layout.flip ldaOut m n) (hlen : bufLen layout.flip ldaOut m n < 2 ^ 63) :
    (flipLayout64 layout m n ldaIn ldaOut : M (Vec T) Unit) = flipLayout layout m n ldaIn ldaOut := by
  unfold flipLayout64 flipLayout
  cases layout with
  | ColMajor =>
    have h0 := mul_nonneg hout hm
    simp only [if_true]
    rw [mlift_i64 (by omega) (by simpa [bufLen, Layout.flip, mul_comm] using hlen)]
    unfold flipLayoutBody64 flipLayoutBody
    have h := fun B : Buf T => omatcopy64_ld (A := B) (l' := .RowMajor) hin hout hF hF'
    simp only [h]
  | RowMajor =>
    have h0 := mul_nonneg hout hn
    simp only [reduceCtorEq, if_false]
    rw [mlift_i64 (by omega) (by simpa [bufLen, Layout.flip, mul_comm] using hlen)]
    unfold flipLayoutBody64 flipLayoutBody
    have h := fun B : Buf T => omatcopy64_ld (A := B) (l' := .ColMajor) hin hout hF hF'
    simp only [h]

/-- C111 (flip_layout, long vectors). If the leading dimensions are accepted and the length of the new vector is not representable, the call is undefined;
C17 asks for no such bound. -/
theorem C111_flip_undefined [Zero T] {layout : Layout} {m n ldaIn ldaOut : Int} (h1 : LdOk layout ldaIn m n) (h2 : LdOk layout.flip ldaOut m n)
    (hbig : 2 ^ 63 ≤ bufLen layout.flip ldaOut m n) (A : Vec T) : M.Undef (flipLayout64 layout m n ldaIn ldaOut) A := by
  have hub : ∀ {x : Int}, 2 ^ 63 ≤ x → i64 x = .ub := fun {x} hx => if_neg fun h => by have h1 : x ≤ 2 ^ 63 - 1 := h.2; omega
  unfold flipLayout64 M.Undef
  cases layout with
  | ColMajor =>
    have e1 : ldaIn ≥ m := by simpa [LdOk] using h1
    have e2 : ldaOut ≥ n := by simpa [LdOk, Layout.flip] using h2
    have e3 : i64 (ldaOut * m) = .ub := hub (by simpa [bufLen, Layout.flip] using hbig)
    rw [if_pos rfl, e3]
    simp [M.require, Res.require, M.lift, M.bind_eq, M.bind, e1, e2]
  | RowMajor =>
    have e1 : ldaIn ≥ n := by simpa [LdOk] using h1
    have e2 : ldaOut ≥ m := by simpa [LdOk, Layout.flip] using h2
    have e3 : i64 (ldaOut * n) = .ub := hub (by simpa [bufLen, Layout.flip] using hbig)
    rw [if_neg (by decide), e3]
    simp [M.require, Res.require, M.lift, M.bind_eq, M.bind, e1, e2]

/-- The hypotheses of the theorems above are met: a 3 x 3 matrix with leading dimension 5, and a 2^32 x 1 matrix stored with leading dimension 2^31. -/
example : EntriesFit .ColMajor 5 3 3 ∧ EntriesFit .RowMajor 5 3 3 ∧ bufLen .RowMajor 5 3 3 < 2 ^ 63 ∧
    LdOk .ColMajor (2 ^ 32) (2 ^ 32) 1 ∧ LdOk .RowMajor (2 ^ 31) (2 ^ 32) 1 ∧ (2 : Int) ^ 63 ≤ bufLen .RowMajor (2 ^ 31) (2 ^ 32) 1 := by
  refine ⟨fun i j h => ?_, fun i j h => ?_, by decide, by decide, by decide, by decide⟩ <;> obtain ⟨_, _, _, _⟩ := h <;> simp only [addr] <;> omega

/-! ## C111: sketch_vector and sketch_symmetric -/

section
variable [CommRing T] [DecidableEq T] [Field R] [LinearOrder R] [IsStrictOrderedRing R] [FloorRing R]

/-- C111 (sketch_vector). C39 with machine integers.

Missing: sizes excluded by `SketchFits` (C104), and the cases excluded by `LeftOk`, as for `sketch_general` (C36, C37). -/
theorem C111_vector_partial {w : Nat} {E : SkEnv N K W WS R T} (hE : SkEnvOk E) {S : SkOp N K T} {Sm : Int → Int → T} {opS : Op} {d m ro co : Int}
    {alpha beta : T} {x y : Buf T} {incx incy : Int} {xv yv : Int → T} {rows cols : Int}
    (hdim : (opS = .NoTrans ∧ rows = d ∧ cols = m) ∨ (opS = .Trans ∧ rows = m ∧ cols = d))
    (h : LeftOk E alpha S Sm opS rows cols ro co) (hd : 0 ≤ d) (hm : 0 ≤ m) (hincx : 1 ≤ incx) (hincy : 1 ≤ incy)
    (hx : alpha ≠ 0 → ∀ j, 0 ≤ j → j < cols → x (j * incx) = .val (xv j))
    (hal : ∀ i, 0 ≤ i → i < rows → y (i * incy) ≠ .none) (hy : beta ≠ 0 → ∀ i, 0 ≤ i → i < rows → y (i * incy) = .val (yv i))
    (hF : SketchFits w E S d m .RowMajor incx cols 1 incy rows 1) :
    M.wp (sketchVector64 w E opS d m alpha ro co x incx beta incy) (S, y) (fun _ s' =>
      (∀ i, 0 ≤ i → i < rows →
        s'.2 (i * incy) = .val (alpha * (∑ j ∈ Finset.range cols.toNat, opMat opS (subMat ro co Sm) i j * xv j) + beta * yv i)) ∧
      (∀ p, (∀ i, 0 ≤ i → i < rows → p ≠ i * incy) → s'.2 p = y p) ∧ SameOperator S s'.1) := by
  have hrun : sketchVector64 w E opS d m alpha ro co x incx beta incy =
      (sketchGeneralL64 w E .RowMajor opS .NoTrans rows 1 cols alpha ro co x incx beta incy : M (SkOp N K T × Buf T) Unit) := by
    unfold sketchVector64
    rcases hdim with ⟨rfl, rfl, rfl⟩ | ⟨rfl, rfl, rfl⟩ <;> rfl
  rw [hrun]
  have hF' : SketchFits w E S (rowsOf opS rows cols) (colsOf opS rows cols) .RowMajor incx cols 1 incy rows 1 := by
    rcases hdim with ⟨rfl, rfl, rfl⟩ | ⟨rfl, rfl, rfl⟩ <;> exact hF
  have hrc : 0 ≤ rows ∧ 0 ≤ cols := by rcases hdim with ⟨-, rfl, rfl⟩ | ⟨-, rfl, rfl⟩ <;> exact ⟨by assumption, by assumption⟩
  have hone : ∀ {r i j : Int}, InR r 1 i j → j = 0 := by intro r i j h; obtain ⟨-, -, h1, h2⟩ := h; omega
  refine M.wp_mono (C104_left_partial hE h (opA := .NoTrans) (Am := fun j _ => xv j) (C := fun i _ => yv i) hrc.1 (by decide) hrc.2
    (by simpa [LdOk, colsOf] using hincx) (by simpa [LdOk] using hincy) (fun ha i j hij => ?_) (fun i j hij => ?_) (fun hb i j hij => ?_) hF') ?_
  · obtain rfl := hone (r := cols) hij
    simpa [addr] using hx ha i hij.1 hij.2.1
  · obtain rfl := hone hij
    simpa [addr] using hal i hij.1 hij.2.1
  · obtain rfl := hone hij
    simpa [addr] using hy hb i hij.1 hij.2.1
  · rintro _ s' ⟨k1, k2, k3⟩
    refine ⟨fun i i0 i1 => ?_, fun p hp => k2 p fun i j hij => ?_, k3⟩
    · have := k1 i 0 ⟨i0, i1, le_rfl, by decide⟩
      simpa [addr, prodEntry, opMat] using this
    · obtain rfl := hone hij
      simpa [addr] using hp i hij.1 hij.2.1

end

section
variable [Field T] [LinearOrder T] [IsStrictOrderedRing T] [Field R] [LinearOrder R] [IsStrictOrderedRing R] [FloorRing R]

/-- C111 (sketch_symmetric, left). C40 with machine integers.

Missing: sizes excluded by `SketchFits` (C104), and the cases excluded by `LeftOk`. -/
theorem C111_symmetric_left_partial {w : Nat} {E : SkEnv N K W WS R T} (hE : SkEnvOk E) {S : SkOp N K T} {Sm : Int → Int → T} {layout : Layout}
    {d n ro co : Int} {alpha beta tol : T} {A b : Buf T} {lda ldb : Int} {Am C : Int → Int → T} (h : LeftOk E alpha S Sm .NoTrans d n ro co) (hd : 0 ≤ d)
    (hn : 0 ≤ n) (hn' : n < 2 ^ 63) (hlda : n ≤ lda) (hldb : LdOk layout ldb d n) (hA : Holds A layout lda n n Am) (hal : Alloc b layout ldb d n)
    (hC : beta ≠ 0 → Holds b layout ldb d n C) (hp : EntriesFit layout lda n n) (hF : SketchFits w E S d n layout lda n n ldb d n) :
    (NearlySymmetric n Am tol → M.wp (sketchSymmetricL64 w E layout d n alpha ro co A lda beta ldb tol) (S, b) (fun _ s' =>
      Holds s'.2 layout ldb d n (fun i j => alpha * prodEntry n (subMat ro co Sm) Am i j + beta * C i j) ∧
      SameOutside b s'.2 layout ldb d n ∧ SameOperator S s'.1)) ∧
    (¬ NearlySymmetric n Am tol → sketchSymmetricL64 w E layout d n alpha ro co A lda beta ldb tol (S, b) = (.throw .errorIf, (S, b))) := by
  obtain ⟨h1, h2⟩ := requireSymmetric_cases (tol := tol) hA
  refine ⟨fun hs => ?_, fun hs => ?_⟩
  · unfold sketchSymmetricL64
    rw [M.wp_bind, M.wp_lift, C111_require_symmetric hn' (hn.trans hlda) hp]
    refine ⟨(), h1 hs, ?_⟩
    exact C104_left_partial hE h (opA := .NoTrans) hd hn hn (by cases layout <;> exact hlda) hldb (fun _ => hA) hal hC hF
  · unfold sketchSymmetricL64
    rw [C111_require_symmetric hn' (hn.trans hlda) hp, h2 hs]; rfl

omit [IsStrictOrderedRing R] in
/-- C111 (sketch_symmetric, right). C40 with machine integers.

Missing: sizes excluded by `SketchFits` (C104), and the cases excluded by `RightOk`. -/
theorem C111_symmetric_right_partial {w : Nat} {E : SkEnv N K W WS R T} (hE : SkEnvOk E) {S : SkOp N K T} {Sm : Int → Int → T} {layout : Layout}
    {n d ro co : Int} {alpha beta tol : T} {A b : Buf T} {lda ldb : Int} {Am C : Int → Int → T} (h : RightOk E alpha S Sm .NoTrans n d ro co) (hd : 0 ≤ d)
    (hn : 0 ≤ n) (hn' : n < 2 ^ 63) (hlda : n ≤ lda) (hldb : LdOk layout ldb n d) (hA : Holds A layout lda n n Am) (hal : Alloc b layout ldb n d)
    (hC : beta ≠ 0 → Holds b layout ldb n d C) (hp : EntriesFit layout lda n n) (hF : SketchFits w E S n d layout lda n n ldb n d) :
    (NearlySymmetric n Am tol → M.wp (sketchSymmetricR64 w E layout n d alpha A lda ro co beta ldb tol) (S, b) (fun _ s' =>
      Holds s'.2 layout ldb n d (fun i j => alpha * prodEntry n Am (subMat ro co Sm) i j + beta * C i j) ∧
      SameOutside b s'.2 layout ldb n d ∧ SameOperator S s'.1)) ∧
    (¬ NearlySymmetric n Am tol → sketchSymmetricR64 w E layout n d alpha A lda ro co beta ldb tol (S, b) = (.throw .errorIf, (S, b))) := by
  obtain ⟨h1, h2⟩ := requireSymmetric_cases (tol := tol) hA
  refine ⟨fun hs => ?_, fun hs => ?_⟩
  · unfold sketchSymmetricR64
    rw [M.wp_bind, M.wp_lift, C111_require_symmetric hn' (hn.trans hlda) hp]
    refine ⟨(), h1 hs, ?_⟩
    exact C104_right_partial hE h (opA := .NoTrans) hn hd hn (by cases layout <;> exact hlda) hldb (fun _ => hA) hal hC hF
  · unfold sketchSymmetricR64
    rw [C111_require_symmetric hn' (hn.trans hlda) hp, h2 hs]; rfl

end

/-- The hypotheses about sizes are met by the 2 x 3 window of the dense operator of the examples for C39. -/
example : SketchFits 32 exSkEnv (.dense exDense) 2 3 .RowMajor 2 2 1 3 3 1 ∧ EntriesFit .ColMajor 3 3 3 ∧ SketchFits 32 exSkEnv (.dense exDense) 2 3 .ColMajor 3 3 3 2 2 3 := by
  have h1 : DenseFits exSkEnv.G.len exDense 2 3 := ⟨by decide, fun _ => ⟨by unfold PaddedFits; decide, by decide⟩⟩
  refine ⟨⟨by decide, by decide, h1⟩, fun i j h => ?_, ⟨by decide, by decide, h1⟩⟩
  obtain ⟨_, _, _, _⟩ := h; simp only [addr]; omega

/-! ## C111: sample_indices_iid -/

/-- C111 (sample_indices_iid). With samples of `w` bits the run takes the same decisions, ends in the same RNG state, and stores the samples of the
unbounded run modulo 2^w. -/
theorem C111_samples_narrow [Field R] [LinearOrder R] {w : Nat} {G : Gen N K W R} {n k : Int} {cdf : Buf R} {state : RNGState N K} (b : Buf Int) :
    sampleIndicesIidW w G n cdf k state (narrow w b) =
      ((sampleIndicesIid G n cdf k state b).1, narrow w (sampleIndicesIid G n cdf k state b).2) := by
  refine M.SimAt.bind (M.SimAt.lift _) fun rv s1 _ => ?_
  refine M.SimAt.bind (M.SimAt.foldI fun i st s => ?_) fun st s1 _ => M.SimAt.pure _
  refine M.SimAt.bind (M.SimAt.lift _) fun x s1 _ => ?_
  refine M.SimAt.bind (M.SimAt.lift _) fun x s1 _ => ?_
  refine M.SimAt.bind wr_narrow fun _ s1 _ => ?_
  exact M.SimAt.lift _

/-- An array of `k` samples of an integer type of `w` bits that has been allocated and not initialised. -/
theorem narrow_alloc {w : Nat} {k : Int} : narrow w (Buf.alloc Int k) = Buf.alloc Int k := by
  funext p; unfold narrow Buf.alloc; split_ifs <;> rfl

/-- C111 (sample_indices_iid). C23 with samples of `w` bits, if the number of indices is representable in that type.

Missing: larger `n`, see `C111_samples_counterexample`; and uniform numbers that are 0 (C23). -/
theorem C111_samples_partial [Field R] [LinearOrder R] [IsStrictOrderedRing R] {w : Nat} (hw : 0 < w) {G : Gen N K W R} {n k : Int} {cdf : Buf R} {f : Int → R}
    {state : RNGState N K} (hG : G.Ok) (hf : IsCdf n f) (hcdf : ∀ i, 0 ≤ i → i < n → cdf i = .val (f i)) (hk : 0 ≤ k)
    (hu : ∀ i, 0 ≤ i → i < k → 0 < unif01 G state i ∧ unif01 G state i ≤ 1) (hn : n ≤ 2 ^ (w - 1)) :
    M.wp (sampleIndicesIidW w G n cdf k state) (Buf.alloc Int k) (fun st b' =>
      (∀ i, 0 ≤ i → i < k → ∃ j, b' i = .val j ∧ 0 ≤ j ∧ j < n ∧ unif01 G state i ≤ f j ∧
        (∀ l, 0 ≤ l → l < j → f l < unif01 G state i) ∧ 0 < mass f j) ∧
      (∀ p, ¬ (0 ≤ p ∧ p < k) → b' p = Buf.alloc Int k p) ∧ st = advance state (countersPerVector G.len k)) := by
  have hb : AllocTo (Buf.alloc Int k) k := fun i h0 h1 => by simp only [Buf.alloc]; rw [if_pos ⟨h0, h1⟩]; simp
  obtain ⟨st, b', h1, h2, h3, h4⟩ := C23_inverse_cdf (state := state) hG hf hcdf hk hb hu
  have hs := C111_samples_narrow (w := w) (G := G) (n := n) (k := k) (cdf := cdf) (state := state) (Buf.alloc Int k)
  rw [narrow_alloc, h1] at hs
  dsimp only at hs
  refine ⟨st, _, hs, fun i h0 hi => ?_, fun p hp => ?_, h4⟩
  · obtain ⟨j, e1, e2, e3, e4⟩ := h2 i h0 hi
    refine ⟨j, ?_, e2, e3, e4⟩
    unfold narrow
    rw [e1]
    show Cell.val (wrapInt w j) = _
    rw [wrapInt_self hw e2 (by unfold intMax; omega)]
  · unfold narrow
    rw [h3 p hp]
    simp only [Buf.alloc]
    rw [if_neg hp]

/-- The hypotheses of `C111_samples_partial` are met: two indices with probability 1/2. -/
example : ∃ (G : Gen 16 Nat Int ℚ) (f : Int → ℚ), G.Ok ∧ IsCdf 2 f ∧ (∀ i, 0 < unif01 G ⟨0, 0⟩ i ∧ unif01 G ⟨0, 0⟩ i ≤ 1) ∧ (2 : Int) ≤ 2 ^ (32 - 1) := by
  let G : Gen 16 Nat Int ℚ := { len := 4, word := fun _ _ _ => 0, boxmuller := fun _ _ => (0, 0), uneg11 := fun _ => 0, nat := Int.toNat }
  have hu : ∀ i, unif01 G ⟨0, 0⟩ i = 1 / 2 := fun i => by simp only [unif01, stream, G]; norm_num
  refine ⟨G, fun i => if i = 0 then 1 / 2 else 1, Or.inr rfl, ⟨by decide, fun i _ _ => by split_ifs <;> norm_num,
    fun i j h0 hij hj => by split_ifs <;> norm_num; omega, by simp⟩, fun i => by rw [hu]; norm_num, by decide⟩

/-- C111 (sample_indices_iid, violated). A distribution over 2^31 + 1 indices with all mass at the last one: every sample of 32 bits is -2^31. -/
theorem C111_samples_counterexample : ∃ (G : Gen 16 Nat Int ℚ) (cdf : Buf ℚ) (f : Int → ℚ), G.Ok ∧ IsCdf (2 ^ 31 + 1) f ∧
    (∀ i, 0 ≤ i → i < 2 ^ 31 + 1 → cdf i = .val (f i)) ∧ (∀ i, 0 < unif01 G ⟨0, 0⟩ i ∧ unif01 G ⟨0, 0⟩ i ≤ 1) ∧
    M.wp (sampleIndicesIidW 32 G (2 ^ 31 + 1) cdf 1 ⟨0, 0⟩) (Buf.alloc Int 1) (fun _ b' => b' 0 = .val (-2 ^ 31)) := by
  let G : Gen 16 Nat Int ℚ := { len := 4, word := fun _ _ _ => 0, boxmuller := fun _ _ => (0, 0), uneg11 := fun _ => 1, nat := Int.toNat }
  let f : Int → ℚ := fun i => if i < 2 ^ 31 then 0 else 1
  have hf : IsCdf (2 ^ 31 + 1) f := ⟨by decide, fun i _ _ => by simp only [f]; split_ifs <;> norm_num,
    fun i j h0 hij hj => by simp only [f]; split_ifs <;> norm_num; omega, by simp [f]⟩
  have hu : ∀ i, unif01 G ⟨0, 0⟩ i = 1 := fun i => by simp only [unif01, stream, G]; norm_num
  have hG : G.Ok := Or.inr rfl
  refine ⟨G, fun i => .val (f i), f, hG, hf, fun _ _ _ => rfl, fun i => by rw [hu]; norm_num, ?_⟩
  have hb : AllocTo (Buf.alloc Int 1) 1 := fun i h0 h1 => by simp only [Buf.alloc]; rw [if_pos ⟨h0, h1⟩]; simp
  obtain ⟨st, b', h1, h2, h3, h4⟩ := C23_inverse_cdf (state := ⟨0, 0⟩) (k := 1) hG hf (cdf := fun i => .val (f i)) (fun _ _ _ => rfl) (by decide) hb
    (fun i _ _ => by rw [hu]; norm_num)
  have hs := C111_samples_narrow (w := 32) (G := G) (n := 2 ^ 31 + 1) (k := 1) (cdf := fun i => .val (f i)) (state := ⟨0, 0⟩) (Buf.alloc Int 1)
  rw [narrow_alloc, h1] at hs
  dsimp only at hs
  refine ⟨st, _, hs, ?_⟩
  obtain ⟨j, e1, e2, e3, e4, -⟩ := h2 0 le_rfl (by decide)
  have hj : j = 2 ^ 31 := by
    rw [hu] at e4
    simp only [f] at e4
    split_ifs at e4 with hc
    · norm_num at e4
    · omega
  unfold narrow
  rw [e1, hj]
  decide

end RB
