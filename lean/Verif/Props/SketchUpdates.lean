import Verif.Model.SketchUpdates
import Verif.Props.SketchApi
import Verif.Props.SketchFill
import Verif.Model.Isometry

/-! # C87, C88: the documented workflows for updating sketches -/

namespace RB
open Spec

variable {N : Nat} {K W WS R T : Type}

/-! ## Blocks of a stored matrix -/

theorem addr_rowOff {layout : Layout} {ld r i j : Int} : addr layout ld (r + i) j = rowOff layout ld r + addr layout ld i j := by
  cases layout <;> simp only [addr, rowOff] <;> ring

theorem addr_colOff {layout : Layout} {ld c i j : Int} : addr layout ld i (c + j) = colOff layout ld c + addr layout ld i j := by
  cases layout <;> simp only [addr, colOff] <;> ring

/-- A matrix is written in two steps: the leading `r1 x c1` block, then an `r2 x c2` block at `(r, c)` that is disjoint from it. -/
theorem two_blocks {layout : Layout} {ld m n r1 c1 r2 c2 r c o : Int} {b b1 b2 : Buf T} {X Y : Int → Int → T} (hld : LdOk layout ld m n)
    (hr1 : r1 ≤ m) (hc1 : c1 ≤ n) (hr : 0 ≤ r) (hc : 0 ≤ c) (hr2 : r + r2 ≤ m) (hc2 : c + c2 ≤ n) (hdis : r1 ≤ r ∨ c1 ≤ c)
    (ho : ∀ i j, addr layout ld (r + i) (c + j) = o + addr layout ld i j)
    (h1 : Holds b1 layout ld r1 c1 X) (s1 : SameOutside b b1 layout ld r1 c1)
    (h2 : Holds b2 layout ld r2 c2 Y) (s2 : SameOutside (b1.shift o) b2 layout ld r2 c2) :
    (∀ i j, InR r1 c1 i j → (b2.shift (-o)) (addr layout ld i j) = .val (X i j)) ∧
    (∀ i j, InR r2 c2 i j → (b2.shift (-o)) (addr layout ld (r + i) (c + j)) = .val (Y i j)) ∧
    SameOutside b (b2.shift (-o)) layout ld m n := by
  have key : ∀ p, (∀ i j, InR r2 c2 i j → p ≠ addr layout ld (r + i) (c + j)) → (b2.shift (-o)) p = b1 p := by
    intro p hp
    simp only [Buf.shift]
    rw [s2 (-o + p) fun i j hij he => hp i j hij (by rw [ho]; omega)]
    simp [Buf.shift]
  refine ⟨fun i j hij => ?_, fun i j hij => ?_, fun p hp => ?_⟩
  · rw [key _ fun i' j' hij' he => ?_, h1 i j hij]
    obtain ⟨a1, a2, a3, a4⟩ := hij
    obtain ⟨b1, b2, b3, b4⟩ := hij'
    have := addr_inj (i' := r + i') (j' := c + j') hld ⟨a1, by omega, a3, by omega⟩ ⟨by omega, by omega, by omega, by omega⟩ he
    omega
  · rw [ho]; simp only [Buf.shift]
    rw [show -o + (o + addr layout ld i j) = addr layout ld i j by omega]
    exact h2 i j hij
  · rw [key p fun i j hij => hp _ _ ⟨by have := hij.1; omega, by have := hij.2.1; omega, by have := hij.2.2.1; omega, by have := hij.2.2.2; omega⟩]
    exact s1 p fun i j hij => hp i j ⟨hij.1, by have := hij.2.1; omega, hij.2.2.1, by have := hij.2.2.2; omega⟩

/-- Before the second step, the second block has its old contents. -/
theorem second_block {layout : Layout} {ld m n r1 c1 r2 c2 r c o : Int} {b b1 : Buf T} (hld : LdOk layout ld m n)
    (hr1 : r1 ≤ m) (hc1 : c1 ≤ n) (hr : 0 ≤ r) (hc : 0 ≤ c) (hr2 : r + r2 ≤ m) (hc2 : c + c2 ≤ n) (hdis : r1 ≤ r ∨ c1 ≤ c)
    (ho : ∀ i j, addr layout ld (r + i) (c + j) = o + addr layout ld i j) (s1 : SameOutside b b1 layout ld r1 c1) {i j : Int}
    (hij : InR r2 c2 i j) : (b1.shift o) (addr layout ld i j) = b (addr layout ld (r + i) (c + j)) := by
  simp only [Buf.shift]
  rw [← ho]
  refine s1 _ fun i' j' hij' he => ?_
  obtain ⟨a1, a2, a3, a4⟩ := hij
  obtain ⟨b1, b2, b3, b4⟩ := hij'
  have := addr_inj (i' := i') (j' := j') hld ⟨by omega, by omega, by omega, by omega⟩ ⟨b1, by omega, b3, by omega⟩ he
  omega

/-- Two row blocks written one after the other, and the whole matrix written at once. -/
theorem rows_eq {layout : Layout} {ld d1 d2 n : Int} {b b1 b2 b3 : Buf T} {X Y Z : Int → Int → T} (hld : LdOk layout ld (d1 + d2) n)
    (hd1 : 0 ≤ d1) (hd2 : 0 ≤ d2) (h1 : Holds b1 layout ld d1 n X) (s1 : SameOutside b b1 layout ld d1 n)
    (h2 : Holds b2 layout ld d2 n Y) (s2 : SameOutside (b1.shift (rowOff layout ld d1)) b2 layout ld d2 n)
    (h3 : Holds b3 layout ld (d1 + d2) n Z) (s3 : SameOutside b b3 layout ld (d1 + d2) n)
    (hX : ∀ i j, InR d1 n i j → X i j = Z i j) (hY : ∀ i j, InR d2 n i j → Y i j = Z (d1 + i) j) :
    b2.shift (-rowOff layout ld d1) = b3 := by
  obtain ⟨t1, t2, t3⟩ := two_blocks (r := d1) (c := 0) hld (by omega) le_rfl hd1 le_rfl (le_refl (d1 + d2)) (by omega) (Or.inl le_rfl)
    (fun i j => by rw [zero_add, addr_rowOff]) h1 s1 h2 s2
  refine MatSt.unique (b0 := b) (ad := addr layout ld) (m := d1 + d2) (n := n) ⟨fun i j hij => ?_, t3⟩ ⟨fun i j hij => h3 i j hij, s3⟩
  by_cases hi : i < d1
  · rw [t1 i j ⟨hij.1, hi, hij.2.2⟩, hX i j ⟨hij.1, hi, hij.2.2⟩]
  · have hin : InR d2 n (i - d1) j := ⟨by omega, by have := hij.2.1; omega, hij.2.2⟩
    have := t2 (i - d1) j hin
    rw [hY _ _ hin, show d1 + (i - d1) = i by omega, zero_add] at this
    exact this

/-- Two column blocks written one after the other, and the whole matrix written at once. -/
theorem cols_eq {layout : Layout} {ld m d1 d2 : Int} {b b1 b2 b3 : Buf T} {X Y Z : Int → Int → T} (hld : LdOk layout ld m (d1 + d2))
    (hd1 : 0 ≤ d1) (hd2 : 0 ≤ d2) (h1 : Holds b1 layout ld m d1 X) (s1 : SameOutside b b1 layout ld m d1)
    (h2 : Holds b2 layout ld m d2 Y) (s2 : SameOutside (b1.shift (colOff layout ld d1)) b2 layout ld m d2)
    (h3 : Holds b3 layout ld m (d1 + d2) Z) (s3 : SameOutside b b3 layout ld m (d1 + d2))
    (hX : ∀ i j, InR m d1 i j → X i j = Z i j) (hY : ∀ i j, InR m d2 i j → Y i j = Z i (d1 + j)) :
    b2.shift (-colOff layout ld d1) = b3 := by
  obtain ⟨t1, t2, t3⟩ := two_blocks (r := 0) (c := d1) hld le_rfl (by omega) le_rfl hd1 (by omega) (le_refl (d1 + d2)) (Or.inr le_rfl)
    (fun i j => by rw [zero_add, addr_colOff]) h1 s1 h2 s2
  refine MatSt.unique (b0 := b) (ad := addr layout ld) (m := m) (n := d1 + d2) ⟨fun i j hij => ?_, t3⟩ ⟨fun i j hij => h3 i j hij, s3⟩
  by_cases hi : j < d1
  · rw [t1 i j ⟨hij.1, hij.2.1, hij.2.2.1, hi⟩, hX i j ⟨hij.1, hij.2.1, hij.2.2.1, hi⟩]
  · have hin : InR m d2 i (j - d1) := ⟨hij.1, hij.2.1, by omega, by have := hij.2.2.2; omega⟩
    have := t2 i (j - d1) hin
    rw [hY _ _ hin, show d1 + (j - d1) = j by omega, zero_add] at this
    exact this

theorem ldOk_rows {layout : Layout} {ld d1 d2 n : Int} (hld : LdOk layout ld (d1 + d2) n) (hd1 : 0 ≤ d1) (hd2 : 0 ≤ d2) :
    LdOk layout ld d1 n ∧ LdOk layout ld d2 n := by
  cases layout <;> simp only [LdOk] at hld ⊢ <;> omega

theorem ldOk_cols {layout : Layout} {ld m d1 d2 : Int} (hld : LdOk layout ld m (d1 + d2)) (hd1 : 0 ≤ d1) (hd2 : 0 ≤ d2) :
    LdOk layout ld m d1 ∧ LdOk layout ld m d2 := by
  cases layout <;> simp only [LdOk] at hld ⊢ <;> omega

theorem inR_fewer_rows {d1 d2 n i j : Int} (h : InR d1 n i j) (hd2 : 0 ≤ d2) : InR (d1 + d2) n i j := ⟨h.1, by have := h.2.1; omega, h.2.2⟩

theorem inR_fewer_rows' {d1 d2 n i j : Int} (h : InR d2 n i j) (hd1 : 0 ≤ d1) : InR (d1 + d2) n (d1 + i) j :=
  ⟨by have := h.1; omega, by have := h.2.1; omega, h.2.2⟩

theorem inR_fewer_cols {m d1 d2 i j : Int} (h : InR m d1 i j) (hd2 : 0 ≤ d2) : InR m (d1 + d2) i j :=
  ⟨h.1, h.2.1, h.2.2.1, by have := h.2.2.2; omega⟩

theorem inR_fewer_cols' {m d1 d2 i j : Int} (h : InR m d2 i j) (hd1 : 0 ≤ d1) : InR m (d1 + d2) i (d1 + j) :=
  ⟨h.1, h.2.1, by have := h.2.2.1; omega, by have := h.2.2.2; omega⟩

theorem second_rows {layout : Layout} {ld d1 d2 n : Int} {b b1 : Buf T} (hld : LdOk layout ld (d1 + d2) n) (hd1 : 0 ≤ d1) (hd2 : 0 ≤ d2)
    (s1 : SameOutside b b1 layout ld d1 n) {i j : Int} (hij : InR d2 n i j) :
    (b1.shift (rowOff layout ld d1)) (addr layout ld i j) = b (addr layout ld (d1 + i) j) := by
  rw [second_block (r := d1) (c := 0) hld (by omega) le_rfl hd1 le_rfl (le_refl (d1 + d2)) (by omega) (Or.inl le_rfl)
    (fun i j => by rw [zero_add, addr_rowOff]) s1 hij, zero_add]

theorem second_cols {layout : Layout} {ld m d1 d2 : Int} {b b1 : Buf T} (hld : LdOk layout ld m (d1 + d2)) (hd1 : 0 ≤ d1) (hd2 : 0 ≤ d2)
    (s1 : SameOutside b b1 layout ld m d1) {i j : Int} (hij : InR m d2 i j) :
    (b1.shift (colOff layout ld d1)) (addr layout ld i j) = b (addr layout ld i (d1 + j)) := by
  rw [second_block (r := 0) (c := d1) hld le_rfl (by omega) le_rfl hd1 (by omega) (le_refl (d1 + d2)) (Or.inr le_rfl)
    (fun i j => by rw [zero_add, addr_colOff]) s1 hij, zero_add]

section
variable [CommRing T] [DecidableEq T] [Field R] [LinearOrder R] [FloorRing R]

theorem fullL_run {E : SkEnv N K W WS R T} (hE : SkEnvOk E) {S : SkOp N K T} {Sm : Int → Int → T} {layout : Layout}
    {opS opA : Op} {d n m : Int} {alpha beta : T} {A b : Buf T} {lda ldb : Int} {Am C : Int → Int → T}
    (h : LeftOk E alpha S Sm opS d m 0 0) (h1 : S.nRows = rowsOf opS d m) (h2 : S.nCols = colsOf opS d m)
    (hd : 0 ≤ d) (hn : 0 ≤ n) (hm : 0 ≤ m) (hlda : LdOk layout lda (rowsOf opA m n) (colsOf opA m n)) (hldb : LdOk layout ldb d n)
    (hA : alpha ≠ 0 → Holds A layout lda (rowsOf opA m n) (colsOf opA m n) Am)
    (hal : Alloc b layout ldb d n) (hC : beta ≠ 0 → Holds b layout ldb d n C) :
    ∃ S' b', sketchGeneralLFull E layout opS opA d n m alpha A lda beta ldb (S, b) = (.ok (), (S', b')) ∧
      Holds b' layout ldb d n (fun i j => alpha * prodEntry m (opMat opS Sm) (opMat opA Am) i j + beta * C i j) ∧
      SameOutside b b' layout ldb d n ∧ SameOperator S S' := by
  obtain ⟨_, ⟨S', b'⟩, e, k⟩ := C36_left_full_partial hE h h1 h2 hd hn hm hlda hldb hA hal hC
  exact ⟨S', b', e, k⟩

theorem fullR_run {E : SkEnv N K W WS R T} (hE : SkEnvOk E) {S : SkOp N K T} {Sm : Int → Int → T} {layout : Layout}
    {opA opS : Op} {m d n : Int} {alpha beta : T} {A b : Buf T} {lda ldb : Int} {Am C : Int → Int → T}
    (h : RightOk E alpha S Sm opS n d 0 0) (h1 : S.nRows = rowsOf opS n d) (h2 : S.nCols = colsOf opS n d)
    (hm : 0 ≤ m) (hd : 0 ≤ d) (hn : 0 ≤ n) (hlda : LdOk layout lda (rowsOf opA m n) (colsOf opA m n)) (hldb : LdOk layout ldb m d)
    (hA : alpha ≠ 0 → Holds A layout lda (rowsOf opA m n) (colsOf opA m n) Am)
    (hal : Alloc b layout ldb m d) (hC : beta ≠ 0 → Holds b layout ldb m d C) :
    ∃ S' b', sketchGeneralRFull E layout opA opS m d n alpha A lda beta ldb (S, b) = (.ok (), (S', b')) ∧
      Holds b' layout ldb m d (fun i j => alpha * prodEntry n (opMat opA Am) (opMat opS Sm) i j + beta * C i j) ∧
      SameOutside b b' layout ldb m d ∧ SameOperator S S' := by
  obtain ⟨_, ⟨S', b'⟩, e, k⟩ := C36_right_full_partial hE h h1 h2 hm hd hn hlda hldb hA hal hC
  exact ⟨S', b', e, k⟩

omit [DecidableEq T] in
/-- `RightOk` is kept by right sketches, which may reorder the arrays of a filled sparse operator. -/
theorem RightOk.same {E : SkEnv N K W WS R T} {alpha : T} {S S' : SkOp N K T} {Sm : Int → Int → T} {opS : Op} {n d ro co : Int}
    (h : RightOk E alpha S Sm opS n d ro co) (hs : SameOperator S S') : RightOk E alpha S' Sm opS n d ro co := by
  cases S with
  | dense S =>
    cases S' with
    | sparse _ => exact hs.elim
    | dense S' => cases hs; exact h
  | sparse S =>
    cases S' with
    | dense _ => exact hs.elim
    | sparse S' =>
      rcases hs with rfl | ⟨h0, h1, L1, L2, h2, h3, h4⟩
      · exact h
      · obtain ⟨L, -, ⟨k1, k2⟩, k3, k4, k5, k6⟩ := h
        rw [if_neg (by omega)] at k2
        obtain rfl : L = L1 := by
          obtain ⟨v, r, c, a1, a2, a3, a4, a5⟩ := k2
          obtain ⟨v', r', c', b1, b2, b3, b4, b5⟩ := h2
          rw [a1] at b1; rw [a2] at b2; rw [a3] at b3
          cases b1; cases b2; cases b3
          exact cooHolds_unique a4 b4 (by omega)
        have e1 : S'.nRows = S.nRows := by rw [h1]
        have e2 : S'.nCols = S.nCols := by rw [h1]
        have hnn := opHolds_nnz h3
        refine ⟨L2, by omega, ⟨fun h => k1 (by rw [h] at h4; exact List.Perm.eq_nil h4.symm), ?_⟩, ?_, ?_, ?_, fun ha => ?_⟩
        · rw [if_neg (by omega)]; exact h3
        · rw [e1, e2]; exact fun e he => k3 e (h4.subset he)
        · rw [← k4]; funext i j; exact toMat_perm h4 i j
        · rw [e1, e2]; exact k5
        · refine CooOk.perm_of (k6 ha) h4 ?_
          have := window_perm (ro := ro) (co := co) (d := rowsOf opS n d) (m := colsOf opS n d) h4.symm
          cases opS
          · exact this.map _
          · exact this

/-! ## Increasing the sketch size -/

/-- Row blocks of a left sketch, computed with two operators, are the left sketch with the stacked operator. -/
theorem growL_core {E : SkEnv N K W WS R T} (hE : SkEnvOk E) {S1 S2 S : SkOp N K T} {M1 M2 Sm : Int → Int → T} {layout : Layout}
    {opS opA : Op} {d1 d2 n m : Int} {alpha beta : T} {A b : Buf T} {lda ldb : Int} {Am C : Int → Int → T}
    (h1 : LeftOk E alpha S1 M1 opS d1 m 0 0) (r1 : S1.nRows = rowsOf opS d1 m) (c1 : S1.nCols = colsOf opS d1 m)
    (h2 : LeftOk E alpha S2 M2 opS d2 m 0 0) (r2 : S2.nRows = rowsOf opS d2 m) (c2 : S2.nCols = colsOf opS d2 m)
    (h : LeftOk E alpha S Sm opS (d1 + d2) m 0 0) (r : S.nRows = rowsOf opS (d1 + d2) m) (c : S.nCols = colsOf opS (d1 + d2) m)
    (hst1 : ∀ i j, InR d1 m i j → opMat opS Sm i j = opMat opS M1 i j) (hst2 : ∀ i j, InR d2 m i j → opMat opS Sm (d1 + i) j = opMat opS M2 i j)
    (hd1 : 0 ≤ d1) (hd2 : 0 ≤ d2) (hn : 0 ≤ n) (hm : 0 ≤ m) (hlda : LdOk layout lda (rowsOf opA m n) (colsOf opA m n))
    (hldb : LdOk layout ldb (d1 + d2) n) (hA : alpha ≠ 0 → Holds A layout lda (rowsOf opA m n) (colsOf opA m n) Am)
    (hal : Alloc b layout ldb (d1 + d2) n) (hC : beta ≠ 0 → Holds b layout ldb (d1 + d2) n C) :
    ∃ b' T1 T2 T', growL E layout opS opA d1 d2 n m alpha A lda beta ldb ((S1, S2), b) = (.ok (), ((T1, T2), b')) ∧
      sketchGeneralLFull E layout opS opA (d1 + d2) n m alpha A lda beta ldb (S, b) = (.ok (), (T', b')) := by
  obtain ⟨ld1, ld2⟩ := ldOk_rows hldb hd1 hd2
  obtain ⟨T1, b1, e1, k1, k2, -⟩ := fullL_run hE h1 r1 c1 hd1 hn hm hlda ld1 hA (fun i j hij => hal i j (inR_fewer_rows hij hd2))
    (fun hb i j hij => hC hb i j (inR_fewer_rows hij hd2))
  obtain ⟨T2, b2, e2, q1, q2, -⟩ := fullL_run hE h2 r2 c2 (b := b1.shift (rowOff layout ldb d1)) (C := fun i j => C (d1 + i) j) hd2 hn hm hlda ld2 hA
    (fun i j hij => by rw [second_rows hldb hd1 hd2 k2 hij]; exact hal _ _ (inR_fewer_rows' hij hd1))
    (fun hb i j hij => by rw [second_rows hldb hd1 hd2 k2 hij]; exact hC hb _ _ (inR_fewer_rows' hij hd1))
  obtain ⟨T3, b3, e3, w1, w2, -⟩ := fullL_run hE h r c (by omega) hn hm hlda hldb hA hal hC
  have hbb := rows_eq hldb hd1 hd2 k1 k2 q1 q2 w1 w2
    (fun i j hij => by
      rw [prodEntry_congr (A' := opMat opS M1) (B' := opMat opA Am) (fun l l0 l1 => hst1 i l ⟨hij.1, hij.2.1, l0, l1⟩) fun _ _ _ => rfl])
    (fun i j hij => by
      rw [show prodEntry m (opMat opS Sm) (opMat opA Am) (d1 + i) j = prodEntry m (fun i l => opMat opS Sm (d1 + i) l) (opMat opA Am) i j from rfl,
        prodEntry_congr (A := fun i l => opMat opS Sm (d1 + i) l) (A' := opMat opS M2) (B' := opMat opA Am) (fun l l0 l1 => hst2 i l ⟨hij.1, hij.2.1, l0, l1⟩) fun _ _ _ => rfl])
  refine ⟨b3, T1, T2, T3, ?_, e3⟩
  unfold growL
  rw [M.bind_ok (s' := ((T1, S2), b1)) (a := ())]
  · simp only [M.zoom]; rw [e2, ← hbb]
  · simp only [M.zoom]; rw [e1]

/-- Row blocks of a left sketch, computed with submatrices of one operator. -/
theorem growLSub_core {E : SkEnv N K W WS R T} (hE : SkEnvOk E) {S : SkOp N K T} {Sm : Int → Int → T} {layout : Layout}
    {opS opA : Op} {d1 d2 n m : Int} {alpha beta : T} {A b : Buf T} {lda ldb : Int} {Am C : Int → Int → T}
    (h1 : LeftOk E alpha S Sm opS d1 m 0 0)
    (h2 : LeftOk E alpha S Sm opS d2 m (if opS = .NoTrans then d1 else 0) (if opS = .NoTrans then 0 else d1))
    (h : LeftOk E alpha S Sm opS (d1 + d2) m 0 0) (r : S.nRows = rowsOf opS (d1 + d2) m) (c : S.nCols = colsOf opS (d1 + d2) m)
    (hd1 : 0 ≤ d1) (hd2 : 0 ≤ d2) (hn : 0 ≤ n) (hm : 0 ≤ m) (hlda : LdOk layout lda (rowsOf opA m n) (colsOf opA m n))
    (hldb : LdOk layout ldb (d1 + d2) n) (hA : alpha ≠ 0 → Holds A layout lda (rowsOf opA m n) (colsOf opA m n) Am)
    (hal : Alloc b layout ldb (d1 + d2) n) (hC : beta ≠ 0 → Holds b layout ldb (d1 + d2) n C) :
    ∃ b' T1 T', growLSub E layout opS opA d1 d2 n m alpha A lda beta ldb (S, b) = (.ok (), (T1, b')) ∧
      sketchGeneralLFull E layout opS opA (d1 + d2) n m alpha A lda beta ldb (S, b) = (.ok (), (T', b')) := by
  obtain ⟨ld1, ld2⟩ := ldOk_rows hldb hd1 hd2
  obtain ⟨_, ⟨T1, b1⟩, e1, k1, k2, k3⟩ := sketchGeneralL_spec hE h1 hd1 hn hm hlda ld1 hA (fun i j hij => hal i j (inR_fewer_rows hij hd2))
    (fun hb i j hij => hC hb i j (inR_fewer_rows hij hd2))
  dsimp only at k1 k2 k3
  obtain ⟨_, ⟨T2, b2⟩, e2, q1, q2, -⟩ := sketchGeneralL_spec hE (LeftOk.same h2 k3) (b := b1.shift (rowOff layout ldb d1)) (C := fun i j => C (d1 + i) j)
    hd2 hn hm hlda ld2 hA (fun i j hij => by rw [second_rows hldb hd1 hd2 k2 hij]; exact hal _ _ (inR_fewer_rows' hij hd1))
    (fun hb i j hij => by rw [second_rows hldb hd1 hd2 k2 hij]; exact hC hb _ _ (inR_fewer_rows' hij hd1))
  dsimp only at q1 q2
  obtain ⟨T3, b3, e3, w1, w2, -⟩ := fullL_run hE h r c (by omega) hn hm hlda hldb hA hal hC
  have hbb := rows_eq hldb hd1 hd2 k1 k2 q1 q2 w1 w2
    (fun i j hij => by rw [subMat_zero])
    (fun i j hij => by
      have hS : ∀ l, opMat opS (subMat (if opS = .NoTrans then d1 else 0) (if opS = .NoTrans then 0 else d1) Sm) i l = opMat opS Sm (d1 + i) l := by
        intro l; cases opS <;> simp [opMat, subMat]
      rw [show prodEntry m (opMat opS Sm) (opMat opA Am) (d1 + i) j = prodEntry m (fun i l => opMat opS Sm (d1 + i) l) (opMat opA Am) i j from rfl,
        prodEntry_congr (A := opMat opS (subMat _ _ Sm)) (A' := fun i l => opMat opS Sm (d1 + i) l) (fun l _ _ => hS l) fun _ _ _ => rfl])
  refine ⟨b3, T2, T3, ?_, e3⟩
  unfold growLSub
  rw [M.bind_ok e1]
  simp only [M.zoom]; rw [e2, ← hbb]

/-- Column blocks of a right sketch, computed with two operators, are the right sketch with the concatenated operator. -/
theorem growR_core {E : SkEnv N K W WS R T} (hE : SkEnvOk E) {S1 S2 S : SkOp N K T} {M1 M2 Sm : Int → Int → T} {layout : Layout}
    {opA opS : Op} {m d1 d2 n : Int} {alpha beta : T} {A b : Buf T} {lda ldb : Int} {Am C : Int → Int → T}
    (h1 : RightOk E alpha S1 M1 opS n d1 0 0) (r1 : S1.nRows = rowsOf opS n d1) (c1 : S1.nCols = colsOf opS n d1)
    (h2 : RightOk E alpha S2 M2 opS n d2 0 0) (r2 : S2.nRows = rowsOf opS n d2) (c2 : S2.nCols = colsOf opS n d2)
    (h : RightOk E alpha S Sm opS n (d1 + d2) 0 0) (r : S.nRows = rowsOf opS n (d1 + d2)) (c : S.nCols = colsOf opS n (d1 + d2))
    (hst1 : ∀ i j, InR n d1 i j → opMat opS Sm i j = opMat opS M1 i j) (hst2 : ∀ i j, InR n d2 i j → opMat opS Sm i (d1 + j) = opMat opS M2 i j)
    (hd1 : 0 ≤ d1) (hd2 : 0 ≤ d2) (hm : 0 ≤ m) (hn : 0 ≤ n) (hlda : LdOk layout lda (rowsOf opA m n) (colsOf opA m n))
    (hldb : LdOk layout ldb m (d1 + d2)) (hA : alpha ≠ 0 → Holds A layout lda (rowsOf opA m n) (colsOf opA m n) Am)
    (hal : Alloc b layout ldb m (d1 + d2)) (hC : beta ≠ 0 → Holds b layout ldb m (d1 + d2) C) :
    ∃ b' T1 T2 T', growR E layout opA opS m d1 d2 n alpha A lda beta ldb ((S1, S2), b) = (.ok (), ((T1, T2), b')) ∧
      sketchGeneralRFull E layout opA opS m (d1 + d2) n alpha A lda beta ldb (S, b) = (.ok (), (T', b')) := by
  obtain ⟨ld1, ld2⟩ := ldOk_cols hldb hd1 hd2
  obtain ⟨T1, b1, e1, k1, k2, -⟩ := fullR_run hE h1 r1 c1 hm hd1 hn hlda ld1 hA (fun i j hij => hal i j (inR_fewer_cols hij hd2))
    (fun hb i j hij => hC hb i j (inR_fewer_cols hij hd2))
  obtain ⟨T2, b2, e2, q1, q2, -⟩ := fullR_run hE h2 r2 c2 (b := b1.shift (colOff layout ldb d1)) (C := fun i j => C i (d1 + j)) hm hd2 hn hlda ld2 hA
    (fun i j hij => by rw [second_cols hldb hd1 hd2 k2 hij]; exact hal _ _ (inR_fewer_cols' hij hd1))
    (fun hb i j hij => by rw [second_cols hldb hd1 hd2 k2 hij]; exact hC hb _ _ (inR_fewer_cols' hij hd1))
  obtain ⟨T3, b3, e3, w1, w2, -⟩ := fullR_run hE h r c hm (by omega) hn hlda hldb hA hal hC
  have hbb := cols_eq hldb hd1 hd2 k1 k2 q1 q2 w1 w2
    (fun i j hij => by
      rw [prodEntry_congr (A' := opMat opA Am) (B' := opMat opS M1) (fun _ _ _ => rfl) fun l l0 l1 => hst1 l j ⟨l0, l1, hij.2.2⟩])
    (fun i j hij => by
      rw [show prodEntry n (opMat opA Am) (opMat opS Sm) i (d1 + j) = prodEntry n (opMat opA Am) (fun l j => opMat opS Sm l (d1 + j)) i j from rfl,
        prodEntry_congr (A' := opMat opA Am) (B := fun l j => opMat opS Sm l (d1 + j)) (B' := opMat opS M2) (fun _ _ _ => rfl) fun l l0 l1 => hst2 l j ⟨l0, l1, hij.2.2⟩])
  refine ⟨b3, T1, T2, T3, ?_, e3⟩
  unfold growR
  rw [M.bind_ok (s' := ((T1, S2), b1)) (a := ())]
  · simp only [M.zoom]; rw [e2, ← hbb]
  · simp only [M.zoom]; rw [e1]

/-- Column blocks of a right sketch, computed with submatrices of one operator. -/
theorem growRSub_core {E : SkEnv N K W WS R T} (hE : SkEnvOk E) {S : SkOp N K T} {Sm : Int → Int → T} {layout : Layout}
    {opA opS : Op} {m d1 d2 n : Int} {alpha beta : T} {A b : Buf T} {lda ldb : Int} {Am C : Int → Int → T}
    (h1 : RightOk E alpha S Sm opS n d1 0 0)
    (h2 : RightOk E alpha S Sm opS n d2 (if opS = .NoTrans then 0 else d1) (if opS = .NoTrans then d1 else 0))
    (h : RightOk E alpha S Sm opS n (d1 + d2) 0 0) (r : S.nRows = rowsOf opS n (d1 + d2)) (c : S.nCols = colsOf opS n (d1 + d2))
    (hd1 : 0 ≤ d1) (hd2 : 0 ≤ d2) (hm : 0 ≤ m) (hn : 0 ≤ n) (hlda : LdOk layout lda (rowsOf opA m n) (colsOf opA m n))
    (hldb : LdOk layout ldb m (d1 + d2)) (hA : alpha ≠ 0 → Holds A layout lda (rowsOf opA m n) (colsOf opA m n) Am)
    (hal : Alloc b layout ldb m (d1 + d2)) (hC : beta ≠ 0 → Holds b layout ldb m (d1 + d2) C) :
    ∃ b' T1 T', growRSub E layout opA opS m d1 d2 n alpha A lda beta ldb (S, b) = (.ok (), (T1, b')) ∧
      sketchGeneralRFull E layout opA opS m (d1 + d2) n alpha A lda beta ldb (S, b) = (.ok (), (T', b')) := by
  obtain ⟨ld1, ld2⟩ := ldOk_cols hldb hd1 hd2
  obtain ⟨_, ⟨T1, b1⟩, e1, k1, k2, k3⟩ := sketchGeneralR_spec hE h1 hm hd1 hn hlda ld1 hA (fun i j hij => hal i j (inR_fewer_cols hij hd2))
    (fun hb i j hij => hC hb i j (inR_fewer_cols hij hd2))
  dsimp only at k1 k2 k3
  obtain ⟨_, ⟨T2, b2⟩, e2, q1, q2, -⟩ := sketchGeneralR_spec hE (RightOk.same h2 k3) (b := b1.shift (colOff layout ldb d1)) (C := fun i j => C i (d1 + j))
    hm hd2 hn hlda ld2 hA (fun i j hij => by rw [second_cols hldb hd1 hd2 k2 hij]; exact hal _ _ (inR_fewer_cols' hij hd1))
    (fun hb i j hij => by rw [second_cols hldb hd1 hd2 k2 hij]; exact hC hb _ _ (inR_fewer_cols' hij hd1))
  dsimp only at q1 q2
  obtain ⟨T3, b3, e3, w1, w2, -⟩ := fullR_run hE h r c hm (by omega) hn hlda hldb hA hal hC
  have hbb := cols_eq hldb hd1 hd2 k1 k2 q1 q2 w1 w2
    (fun i j hij => by rw [subMat_zero])
    (fun i j hij => by
      have hS : ∀ l, opMat opS (subMat (if opS = .NoTrans then 0 else d1) (if opS = .NoTrans then d1 else 0) Sm) l j = opMat opS Sm l (d1 + j) := by
        intro l; cases opS <;> simp [opMat, subMat]
      rw [show prodEntry n (opMat opA Am) (opMat opS Sm) i (d1 + j) = prodEntry n (opMat opA Am) (fun l j => opMat opS Sm l (d1 + j)) i j from rfl,
        prodEntry_congr (B := opMat opS (subMat _ _ Sm)) (B' := fun l j => opMat opS Sm l (d1 + j)) (fun _ _ _ => rfl) fun l _ _ => hS l])
  refine ⟨b3, T2, T3, ?_, e3⟩
  unfold growRSub
  rw [M.bind_ok e1]
  simp only [M.zoom]; rw [e2, ← hbb]

/-! ## Adding data -/

/-- A left sketch to which data is added with the trailing columns of a larger operator. -/
theorem addL_core {E : SkEnv N K W WS R T} (hE : SkEnvOk E) {S1 S : SkOp N K T} {M1 Sm : Int → Int → T} {layout : Layout}
    {opS op1 op2 op3 : Op} {d n m k : Int} {alpha beta : T} {A1 A2 A3 b : Buf T} {ld1 ld2 ld3 ldb : Int} {D1 D2 D3 C : Int → Int → T}
    (h1 : LeftOk E alpha S1 M1 opS d m 0 0) (r1 : S1.nRows = rowsOf opS d m) (c1 : S1.nCols = colsOf opS d m)
    (h2 : LeftOk E alpha S Sm opS d k (if opS = .NoTrans then 0 else m) (if opS = .NoTrans then m else 0))
    (h : LeftOk E alpha S Sm opS d (m + k) 0 0) (r : S.nRows = rowsOf opS d (m + k)) (c : S.nCols = colsOf opS d (m + k))
    (hst : ∀ i j, InR d m i j → opMat opS Sm i j = opMat opS M1 i j)
    (hd : 0 ≤ d) (hn : 0 ≤ n) (hm : 0 ≤ m) (hk : 0 ≤ k) (hl1 : LdOk layout ld1 (rowsOf op1 m n) (colsOf op1 m n))
    (hl2 : LdOk layout ld2 (rowsOf op2 k n) (colsOf op2 k n)) (hl3 : LdOk layout ld3 (rowsOf op3 (m + k) n) (colsOf op3 (m + k) n))
    (hldb : LdOk layout ldb d n) (hA1 : Holds A1 layout ld1 (rowsOf op1 m n) (colsOf op1 m n) D1)
    (hA2 : Holds A2 layout ld2 (rowsOf op2 k n) (colsOf op2 k n) D2) (hA3 : Holds A3 layout ld3 (rowsOf op3 (m + k) n) (colsOf op3 (m + k) n) D3)
    (hstack : ∀ i j, InR (m + k) n i j → opMat op3 D3 i j = if i < m then opMat op1 D1 i j else opMat op2 D2 (i - m) j)
    (hal : Alloc b layout ldb d n) (hC : beta ≠ 0 → Holds b layout ldb d n C) :
    ∃ b' T1 T2 T', addL E layout opS op1 op2 d n m k alpha A1 ld1 A2 ld2 beta ldb ((S1, S), b) = (.ok (), ((T1, T2), b')) ∧
      sketchGeneralLFull E layout opS op3 d n (m + k) alpha A3 ld3 beta ldb (S, b) = (.ok (), (T', b')) := by
  obtain ⟨T1, b1, e1, k1, k2, -⟩ := fullL_run hE h1 r1 c1 hd hn hm hl1 hldb (fun _ => hA1) hal hC
  obtain ⟨_, ⟨T2, b2⟩, e2, q1, q2, -⟩ := sketchGeneralL_spec hE h2 (beta := 1) (b := b1) hd hn hk hl2 hldb (fun _ => hA2)
    (fun i j hij => by rw [k1 i j hij]; simp) (fun _ => k1)
  dsimp only at q1 q2
  obtain ⟨T3, b3, e3, w1, w2, -⟩ := fullL_run hE h r c hd hn (by omega) hl3 hldb (fun _ => hA3) hal hC
  have hbb : b2 = b3 := by
    refine MatSt.unique (b0 := b) (ad := addr layout ldb) (m := d) (n := n) ⟨fun i j hij => q1 i j hij, fun p hp => (q2 p hp).trans (k2 p hp)⟩
      ⟨fun i j hij => ?_, w2⟩
    rw [w1 i j hij]
    dsimp only
    rw [prodEntry_split hm hk]
    have f1 : prodEntry m (opMat opS Sm) (opMat op3 D3) i j = prodEntry m (opMat opS M1) (opMat op1 D1) i j := by
      refine prodEntry_congr (fun l l0 l1 => hst i l ⟨hij.1, hij.2.1, l0, l1⟩) fun l l0 l1 => ?_
      rw [hstack l j ⟨l0, by omega, hij.2.2.1, hij.2.2.2⟩, if_pos l1]
    have f2 : prodEntry k (fun i l => opMat opS Sm i (m + l)) (fun l j => opMat op3 D3 (m + l) j) i j =
        prodEntry k (opMat opS (subMat (if opS = .NoTrans then 0 else m) (if opS = .NoTrans then m else 0) Sm)) (opMat op2 D2) i j := by
      refine prodEntry_congr (fun l l0 l1 => ?_) fun l l0 l1 => ?_
      · cases opS <;> simp [opMat, subMat]
      · rw [hstack (m + l) j ⟨by omega, by omega, hij.2.2.1, hij.2.2.2⟩, if_neg (by omega), show m + l - m = l by omega]
    rw [f1, f2]
    congr 1
    ring
  subst hbb
  refine ⟨b2, T1, T2, T3, ?_, e3⟩
  unfold addL
  rw [M.bind_ok (s' := ((T1, S), b1)) (a := ())]
  · simp only [M.zoom]; rw [e2]
  · simp only [M.zoom]; rw [e1]

/-- A right sketch to which data is added with the trailing rows of a larger operator. -/
theorem addR_core {E : SkEnv N K W WS R T} (hE : SkEnvOk E) {S1 S : SkOp N K T} {M1 Sm : Int → Int → T} {layout : Layout}
    {op1 op2 op3 opS : Op} {m d n k : Int} {alpha beta : T} {A1 A2 A3 b : Buf T} {ld1 ld2 ld3 ldb : Int} {D1 D2 D3 C : Int → Int → T}
    (h1 : RightOk E alpha S1 M1 opS n d 0 0) (r1 : S1.nRows = rowsOf opS n d) (c1 : S1.nCols = colsOf opS n d)
    (h2 : RightOk E alpha S Sm opS k d (if opS = .NoTrans then n else 0) (if opS = .NoTrans then 0 else n))
    (h : RightOk E alpha S Sm opS (n + k) d 0 0) (r : S.nRows = rowsOf opS (n + k) d) (c : S.nCols = colsOf opS (n + k) d)
    (hst : ∀ i j, InR n d i j → opMat opS Sm i j = opMat opS M1 i j)
    (hm : 0 ≤ m) (hd : 0 ≤ d) (hn : 0 ≤ n) (hk : 0 ≤ k) (hl1 : LdOk layout ld1 (rowsOf op1 m n) (colsOf op1 m n))
    (hl2 : LdOk layout ld2 (rowsOf op2 m k) (colsOf op2 m k)) (hl3 : LdOk layout ld3 (rowsOf op3 m (n + k)) (colsOf op3 m (n + k)))
    (hldb : LdOk layout ldb m d) (hA1 : Holds A1 layout ld1 (rowsOf op1 m n) (colsOf op1 m n) D1)
    (hA2 : Holds A2 layout ld2 (rowsOf op2 m k) (colsOf op2 m k) D2) (hA3 : Holds A3 layout ld3 (rowsOf op3 m (n + k)) (colsOf op3 m (n + k)) D3)
    (hstack : ∀ i j, InR m (n + k) i j → opMat op3 D3 i j = if j < n then opMat op1 D1 i j else opMat op2 D2 i (j - n))
    (hal : Alloc b layout ldb m d) (hC : beta ≠ 0 → Holds b layout ldb m d C) :
    ∃ b' T1 T2 T', addR E layout op1 op2 opS m d n k alpha A1 ld1 A2 ld2 beta ldb ((S1, S), b) = (.ok (), ((T1, T2), b')) ∧
      sketchGeneralRFull E layout op3 opS m d (n + k) alpha A3 ld3 beta ldb (S, b) = (.ok (), (T', b')) := by
  obtain ⟨T1, b1, e1, k1, k2, -⟩ := fullR_run hE h1 r1 c1 hm hd hn hl1 hldb (fun _ => hA1) hal hC
  obtain ⟨_, ⟨T2, b2⟩, e2, q1, q2, -⟩ := sketchGeneralR_spec hE h2 (beta := 1) (b := b1) hm hd hk hl2 hldb (fun _ => hA2)
    (fun i j hij => by rw [k1 i j hij]; simp) (fun _ => k1)
  dsimp only at q1 q2
  obtain ⟨T3, b3, e3, w1, w2, -⟩ := fullR_run hE h r c hm hd (by omega) hl3 hldb (fun _ => hA3) hal hC
  have hbb : b2 = b3 := by
    refine MatSt.unique (b0 := b) (ad := addr layout ldb) (m := m) (n := d) ⟨fun i j hij => q1 i j hij, fun p hp => (q2 p hp).trans (k2 p hp)⟩
      ⟨fun i j hij => ?_, w2⟩
    rw [w1 i j hij]
    dsimp only
    rw [prodEntry_split hn hk]
    have f1 : prodEntry n (opMat op3 D3) (opMat opS Sm) i j = prodEntry n (opMat op1 D1) (opMat opS M1) i j := by
      refine prodEntry_congr (fun l l0 l1 => ?_) fun l l0 l1 => hst l j ⟨l0, l1, hij.2.2⟩
      rw [hstack i l ⟨hij.1, hij.2.1, l0, by omega⟩, if_pos l1]
    have f2 : prodEntry k (fun i l => opMat op3 D3 i (n + l)) (fun l j => opMat opS Sm (n + l) j) i j =
        prodEntry k (opMat op2 D2) (opMat opS (subMat (if opS = .NoTrans then n else 0) (if opS = .NoTrans then 0 else n) Sm)) i j := by
      refine prodEntry_congr (fun l l0 l1 => ?_) fun l l0 l1 => ?_
      · rw [hstack i (n + l) ⟨hij.1, hij.2.1, by omega, by omega⟩, if_neg (by omega), show n + l - n = l by omega]
      · cases opS <;> simp [opMat, subMat]
    rw [f1, f2]
    congr 1
    ring
  subst hbb
  refine ⟨b2, T1, T2, T3, ?_, e3⟩
  unfold addR
  rw [M.bind_ok (s' := ((T1, S), b1)) (a := ())]
  · simp only [M.zoom]; rw [e2]
  · simp only [M.zoom]; rw [e1]

/-- C49 (right). Sketch A1 with the first n1 rows of `op(submat(S))`, then A2 with the next n2 rows, accumulating: the contents of B are the same as
when [A1, A2] is sketched at once.

Missing: the cases excluded by `RightOk`, as for `sketch_general`. -/
theorem C49_right_partial {E : SkEnv N K W WS R T} (hE : SkEnvOk E) {S : SkOp N K T} {Sm : Int → Int → T} {layout : Layout}
    {opS op1 op2 op3 : Op} {m d n1 n2 ro co : Int} {alpha beta : T} {A1 A2 A3 b : Buf T} {ld1 ld2 ld3 ldb : Int} {M1 M2 M3 C : Int → Int → T}
    (h1 : RightOk E alpha S Sm opS n1 d ro co)
    (h2 : RightOk E alpha S Sm opS n2 d (nextWindow opS.flip ro co n1).1 (nextWindow opS.flip ro co n1).2)
    (h3 : RightOk E alpha S Sm opS (n1 + n2) d ro co) (hm : 0 ≤ m) (hd : 0 ≤ d) (hn1 : 0 ≤ n1) (hn2 : 0 ≤ n2)
    (hl1 : LdOk layout ld1 (rowsOf op1 m n1) (colsOf op1 m n1)) (hl2 : LdOk layout ld2 (rowsOf op2 m n2) (colsOf op2 m n2))
    (hl3 : LdOk layout ld3 (rowsOf op3 m (n1 + n2)) (colsOf op3 m (n1 + n2))) (hldb : LdOk layout ldb m d)
    (hA1 : Holds A1 layout ld1 (rowsOf op1 m n1) (colsOf op1 m n1) M1) (hA2 : Holds A2 layout ld2 (rowsOf op2 m n2) (colsOf op2 m n2) M2)
    (hA3 : Holds A3 layout ld3 (rowsOf op3 m (n1 + n2)) (colsOf op3 m (n1 + n2)) M3)
    (hstack : ∀ i j, InR m (n1 + n2) i j → opMat op3 M3 i j = if j < n1 then opMat op1 M1 i j else opMat op2 M2 i (j - n1))
    (hal : Alloc b layout ldb m d) (hC : beta ≠ 0 → Holds b layout ldb m d C) :
    ∃ b' S1 S2, (do sketchGeneralR E layout op1 opS m d n1 alpha A1 ld1 ro co beta ldb
                    sketchGeneralR E layout op2 opS m d n2 alpha A2 ld2 (nextWindow opS.flip ro co n1).1 (nextWindow opS.flip ro co n1).2 1 ldb) (S, b) =
        (.ok (), (S1, b')) ∧
      sketchGeneralR E layout op3 opS m d (n1 + n2) alpha A3 ld3 ro co beta ldb (S, b) = (.ok (), (S2, b')) ∧ SameOperator S S2 := by
  obtain ⟨_, ⟨T1, b1⟩, e1, k1, k2, k3⟩ := sketchGeneralR_spec hE h1 hm hd hn1 hl1 hldb (fun _ => hA1) hal hC
  dsimp only at k1 k2 k3
  obtain ⟨_, ⟨T2, b2⟩, e2, q1, q2, -⟩ := sketchGeneralR_spec hE (RightOk.same h2 k3) (beta := 1) (b := b1) hm hd hn2 hl2 hldb (fun _ => hA2)
    (fun i j hij => by rw [k1 i j hij]; simp) (fun _ => k1)
  obtain ⟨_, ⟨T3, b3⟩, e3, r1, r2, r3⟩ := sketchGeneralR_spec hE h3 hm hd (by omega) hl3 hldb (fun _ => hA3) hal hC
  dsimp only at q1 q2 r1 r2 r3
  have hbb : b2 = b3 := by
    refine MatSt.unique (b0 := b) (ad := addr layout ldb) (m := m) (n := d) ⟨fun i j hij => q1 i j hij, fun p hp => (q2 p hp).trans (k2 p hp)⟩
      ⟨fun i j hij => ?_, r2⟩
    rw [r1 i j hij]
    dsimp only
    rw [prodEntry_split hn1 hn2]
    have f1 : prodEntry n1 (opMat op3 M3) (opMat opS (subMat ro co Sm)) i j = prodEntry n1 (opMat op1 M1) (opMat opS (subMat ro co Sm)) i j := by
      refine prodEntry_congr (fun l l0 l1 => ?_) fun _ _ _ => rfl
      rw [hstack i l ⟨hij.1, hij.2.1, l0, by omega⟩, if_pos l1]
    have f2 : prodEntry n2 (fun i l => opMat op3 M3 i (n1 + l)) (fun l j => opMat opS (subMat ro co Sm) (n1 + l) j) i j =
        prodEntry n2 (opMat op2 M2) (opMat opS (subMat (nextWindow opS.flip ro co n1).1 (nextWindow opS.flip ro co n1).2 Sm)) i j := by
      refine prodEntry_congr (fun l l0 l1 => ?_) fun l l0 l1 => ?_
      · rw [hstack i (n1 + l) ⟨hij.1, hij.2.1, by omega, by omega⟩, if_neg (by omega), show n1 + l - n1 = l by omega]
      · cases opS <;> simp [opMat, subMat, nextWindow, Op.flip, add_assoc]
    rw [f1, f2]
    congr 1
    ring
  subst hbb
  exact ⟨b2, T2, T3, by rw [M.bind_ok e1, e2], e3, r3⟩

end

/-! ## Operators as their constructors and fill functions leave them -/

/-- `S` was constructed from the distribution `D` and the seed `s`, and has not been changed or has been filled. -/
def Spec.DenseFrom [Mul T] (E : SkEnv N K W WS R T) (D : DenseDist) (s : RNGState N K) (S : DenseSkOp N K T) : Prop :=
  ∃ S0, mkDenseSkOp E.G.len D s = .ok S0 ∧ (S = S0 ∨ ∃ sched, fillDenseOp sched E.G E.sqrt3 S0 = (.ok (), S))

/-- The same for sparse operators. -/
def Spec.SparseFrom [Field R] [LinearOrder R] [FloorRing R] [Zero T] [One T] [Neg T] [Add T] [Mul T] (E : SkEnv N K W WS R T) (D : SparseDist)
    (s : RNGState N K) (S : SparseSkOp N K T) : Prop :=
  S = mkSparseSkOp E.GS.len D s ∨ fillSparse E.GS E.sqrt E.order (mkSparseSkOp E.GS.len D s) = (.ok (), S)

/-- What is known about the dense operators. -/
theorem denseFrom_is [Mul T] {E : SkEnv N K W WS R T} (hG : E.G.Ok) {D : DenseDist} {s : RNGState N K} {S : DenseSkOp N K T} (hD : DenseDistOk D)
    (h : DenseFrom E D s S) {A : Int → Int → T} (hA : Samples E.G E.sqrt3 D s A) :
    DenseIs E S A ∧ S.nRows = D.nRows ∧ S.nCols = D.nCols ∧ ∃ S0 : DenseSkOp N K T, mkDenseSkOp E.G.len D s = .ok S0 ∧ S.nextState = S0.nextState := by
  obtain ⟨S0, h0, h⟩ := h
  obtain ⟨hok, k1, k2, k3, k4⟩ := mkDenseSkOp_ok hD h0
  have hr : S0.nRows = D.nRows := by rw [← k1]; exact hok.rows
  have hc : S0.nCols = D.nCols := by rw [← k1]; exact hok.cols
  rcases h with rfl | ⟨sched, h⟩
  · refine ⟨?_, hr, hc, S, h0, rfl⟩
    unfold DenseIs
    rw [k3]
    dsimp only
    rw [k1, k2]
    exact ⟨hD, hr, hc, hA⟩
  · obtain ⟨_, S', e, g1, b', g2⟩ := denseIs_filled (E := E) (sched := sched) hG hok (Or.inl k4) (A := A) (by rw [k1, k2]; exact hA)
    rw [e] at h
    obtain rfl : S' = S := (Prod.mk.inj h).2
    exact ⟨g1, by rw [g2]; exact hr, by rw [g2]; exact hc, S0, h0, by rw [g2]⟩

section
variable [CommRing T] [DecidableEq T] [Field R] [LinearOrder R] [FloorRing R]

omit [DecidableEq T] in
/-- The entries of the sparse operators. -/
theorem sparseFrom_run {E : SkEnv N K W WS R T} (hE : SkEnvOk E) {D : SparseDist} {s : RNGState N K} {S : SparseSkOp N K T} (hD : SparseDistOk D)
    (h : SparseFrom E D s S) : S.nRows = D.nRows ∧ S.nCols = D.nCols ∧
      S.nextState = (mkSparseSkOp E.GS.len D s : SparseSkOp N K T).nextState ∧
      ∃ L0, SparseRun E.GS E.sqrt D s L0 ∧ SparseIs E S (L0.map (mkEntry D)) := by
  have hok : SparseOpOk (mkSparseSkOp E.GS.len D s : SparseSkOp N K T) := mkSparseSkOp_ok E.GS.len hD s
  rcases h with rfl | h
  · obtain ⟨L, h1, L0, rfl, h2⟩ := sparseIs_of_dist hE (S := mkSparseSkOp E.GS.len D s) hD rfl rfl (by simp [mkSparseSkOp])
    exact ⟨rfl, rfl, rfl, L0, h2, h1⟩
  · obtain ⟨L0, S', e, k1, k2, k3, k4⟩ := fill_run hE hok
    rw [e] at h
    obtain rfl : S' = S := (Prod.mk.inj h).2
    refine ⟨by rw [k2]; rfl, by rw [k2]; rfl, by rw [k2], L0, k4, k3, ?_⟩
    rw [if_neg (by have := opHolds_nnz k1; omega)]
    exact k1

omit [DecidableEq T] in
/-- The entries of an operator are determined. -/
theorem sparseIs_unique {E : SkEnv N K W WS R T} {S : SparseSkOp N K T} {L L' : List (Entry T)} (h : SparseIs E S L) (h' : SparseIs E S L') : L = L' := by
  have key : ∀ {S : SparseSkOp N K T}, OpHolds S L → OpHolds S L' → L = L' := by
    rintro S ⟨v, r, c, a1, a2, a3, a4, a5⟩ ⟨v', r', c', b1, b2, b3, b4, b5⟩
    rw [a1] at b1; rw [a2] at b2; rw [a3] at b3
    cases b1; cases b2; cases b3
    exact cooHolds_unique a4 b4 (by omega)
  obtain ⟨-, h⟩ := h
  obtain ⟨-, h'⟩ := h'
  by_cases hn : S.nnz < 0
  · rw [if_pos hn] at h h'
    obtain ⟨S1, e1, g1, -⟩ := h
    obtain ⟨S2, e2, g2, -⟩ := h'
    rw [e1] at e2
    obtain rfl : S1 = S2 := (Prod.mk.inj e2).2
    exact key g1 g2
  · rw [if_neg hn] at h h'
    exact key h h'

omit [DecidableEq T] in
/-- The matrix of such an operator is the one that its distribution and seed determine. -/
theorem sparseFrom_samples {E : SkEnv N K W WS R T} (hE : SkEnvOk E) {D : SparseDist} {s : RNGState N K} {S : SparseSkOp N K T} (hD : SparseDistOk D)
    (h : SparseFrom E D s S) {L : List (Entry T)} (hL : SparseIs E S L) : SparseSamples E.GS E.sqrt D s (toMat L) := by
  obtain ⟨-, -, -, L0, h1, h2⟩ := sparseFrom_run hE hD h
  obtain rfl := sparseIs_unique hL h2
  exact sparseSamples_of_run hE.genS hE.sqrt hD fun L1 hL1 i j => toMat_perm ((sparseRun_perm hL1 h1).map _) i j

omit [DecidableEq T] in
theorem leftOk_samples {E : SkEnv N K W WS R T} (hE : SkEnvOk E) {D : SparseDist} {s : RNGState N K} {S : SparseSkOp N K T} (hD : SparseDistOk D)
    (h : SparseFrom E D s S) {alpha : T} {Sm : Int → Int → T} {opS : Op} {d m ro co : Int} (hL : LeftOk E alpha (.sparse S) Sm opS d m ro co) :
    SparseSamples E.GS E.sqrt D s Sm := by
  obtain ⟨L, h1, -, rfl, -⟩ := hL
  exact sparseFrom_samples hE hD h h1

omit [DecidableEq T] in
theorem rightOk_samples {E : SkEnv N K W WS R T} (hE : SkEnvOk E) {D : SparseDist} {s : RNGState N K} {S : SparseSkOp N K T} (hD : SparseDistOk D)
    (h : SparseFrom E D s S) {alpha : T} {Sm : Int → Int → T} {opS : Op} {n d ro co : Int} (hL : RightOk E alpha (.sparse S) Sm opS n d ro co) :
    SparseSamples E.GS E.sqrt D s Sm := by
  obtain ⟨L, -, h1, -, rfl, -⟩ := hL
  exact sparseFrom_samples hE hD h h1

omit [DecidableEq T] in
theorem leftOk_short [IsStrictOrderedRing R] {E : SkEnv N K W WS R T} (hE : SkEnvOk E) {D : SparseDist} {s : RNGState N K} {S : SparseSkOp N K T} (hD : SparseDistOk D)
    (h : SparseFrom E D s S) (hax : D.majorAxis = .Short) {alpha : T} {Sm : Int → Int → T} (hSm : SparseSamples E.GS E.sqrt D s Sm)
    (hw : D.nRows ≤ D.nCols) {m co : Int} (hm : 1 ≤ m) (hco : 0 ≤ co) (hmc : m + co ≤ D.nCols) :
    LeftOk E alpha (.sparse S) Sm .NoTrans D.nRows m 0 co := by
  obtain ⟨hr, hc, -, L0, h1, h2⟩ := sparseFrom_run hE hD h
  have hreg := regularOk_saso hD hax h1 (ro := 0) (co := co) hm
  have hin := sparseRun_inRange hD h1 (by rw [hax]; intro h; cases h)
  refine ⟨_, h2, by rw [hr, hc]; exact hin, ?_, ?_, fun _ => Or.inl (hreg.1 hw hco hmc)⟩
  · exact (C14_well_defined hE.genS hE.sqrt hD).unique (sparseFrom_samples hE hD h h2) hSm
  · rw [hr, hc]; exact ⟨le_rfl, hco, by simp [rowsOf], by simpa [colsOf] using hmc⟩

omit [DecidableEq T] in
theorem rightOk_short [IsStrictOrderedRing R] {E : SkEnv N K W WS R T} (hE : SkEnvOk E) {D : SparseDist} {s : RNGState N K} {S : SparseSkOp N K T} (hD : SparseDistOk D)
    (h : fillSparse E.GS E.sqrt E.order (mkSparseSkOp E.GS.len D s) = (.ok (), S)) (hax : D.majorAxis = .Short) {alpha : T} {Sm : Int → Int → T}
    (hSm : SparseSamples E.GS E.sqrt D s Sm)
    (hw : D.nCols < D.nRows) {n ro : Int} (hn : 1 ≤ n) (hro : 0 ≤ ro) (hnr : n + ro ≤ D.nRows) :
    RightOk E alpha (.sparse S) Sm .NoTrans n D.nCols ro 0 := by
  have hfr : SparseFrom E D s S := Or.inr h
  obtain ⟨hr, hc, -, L0, h1, h2⟩ := sparseFrom_run hE hD hfr
  have hreg := regularOk_saso hD hax h1 (ro := ro) (co := 0) hn
  have hin := sparseRun_inRange hD h1 (by rw [hax]; intro h; cases h)
  have hnn : 0 ≤ S.nnz := by
    obtain ⟨L1, S', e, k1, -⟩ := fill_run hE (mkSparseSkOp_ok (T := T) E.GS.len hD s)
    rw [e] at h
    obtain rfl : S' = S := (Prod.mk.inj h).2
    have := opHolds_nnz k1; omega
  refine ⟨_, hnn, h2, by rw [hr, hc]; exact hin, ?_, ?_, fun _ => Or.inl (hreg.2 hw hro hnr)⟩
  · exact (C14_well_defined hE.genS hE.sqrt hD).unique (sparseFrom_samples hE hD hfr h2) hSm
  · rw [hr, hc]; exact ⟨hro, le_rfl, by simpa [rowsOf] using hnr, by simp [colsOf]⟩

omit [CommRing T] [DecidableEq T] in
theorem lasoRun_mem [Ring T] {G : Gen N K W R} {sqrt : T → T} {seed : RNGState N K} {n k : Int} {r : Nat} {E : List (Int × Int × T)}
    (h : LasoRun G sqrt seed n k r E) {i : Nat} (hi : i < r) {t : Int} (t0 : 0 ≤ t) (t1 : t < k) :
    ∃ e ∈ E, e.1 = (i : Int) ∧ e.2.1 = lasoIdx G seed n k i t := by
  induction h with
  | zero => omega
  | @succ q E out h1 h2 h3 ih =>
    rcases Nat.lt_succ_iff_lt_or_eq.mp hi with hi | rfl
    · obtain ⟨e, he, hh⟩ := ih hi
      exact ⟨e, List.mem_append_left _ he, hh⟩
    · obtain ⟨o, ho, e⟩ := List.mem_map.mp (h2.all t t0 t1)
      exact ⟨((i : Int), o.1, o.2), List.mem_append_right _ (List.mem_map_of_mem (f := fun e => ((i : Int), e.1, e.2)) ho), rfl, e⟩

omit [DecidableEq T] in
/-- The condition of `LeftOk` for the row blocks of a wide long-axis operator: one of the positions sampled for the rows of the block is not the first. -/
theorem leftOk_long [IsStrictOrderedRing R] {E : SkEnv N K W WS R T} (hE : SkEnvOk E) {D : SparseDist} {s : RNGState N K} {S : SparseSkOp N K T} (hD : SparseDistOk D)
    (h : SparseFrom E D s S) (hax : D.majorAxis = .Long) {alpha : T} {Sm : Int → Int → T} (hSm : SparseSamples E.GS E.sqrt D s Sm)
    (hu : ∀ c t, 0 ≤ unif01 E.GS (advance s c) t ∧ unif01 E.GS (advance s c) t < 1)
    (hw : D.nRows ≤ D.nCols) {d ro : Int} (hro : 0 ≤ ro) (hdr : d + ro ≤ D.nRows)
    (hex : ∃ i t, ro ≤ i ∧ i < ro + d ∧ 0 ≤ t ∧ t < D.vecNnz ∧ lasoSample E.GS s D.nCols D.vecNnz i t ≠ 0) :
    LeftOk E alpha (.sparse S) Sm .NoTrans d D.nCols ro 0 := by
  obtain ⟨hr, hc, -, L0, h1, h2⟩ := sparseFrom_run hE hD h
  obtain ⟨hR, hC, hk, hkd, hfull, hf, ax⟩ := sparseDist_facts hD
  have hin := sparseRun_inRange hD h1 (fun _ => hu)
  refine ⟨_, h2, by rw [hr, hc]; exact hin, ?_, ?_, fun _ => Or.inl ⟨by omega, fun _ _ => ?_⟩⟩
  · exact (C14_well_defined hE.genS hE.sqrt hD).unique (sparseFrom_samples hE hD h h2) hSm
  · rw [hr, hc]; exact ⟨hro, le_rfl, by simpa [rowsOf] using hdr, by simp [colsOf]⟩
  · rw [hax] at ax
    simp only [reduceCtorEq, false_and, false_or, true_and] at ax
    obtain ⟨i, t, i0, i1, t0, t1, hne⟩ := hex
    rcases h1 with ⟨x, -⟩ | ⟨-, h1⟩
    · rw [hax] at x; cases x
    obtain ⟨e, he, e1, e2⟩ := lasoRun_mem h1 (i := i.toNat) (by omega) t0 t1
    rw [show ((i.toNat : Nat) : Int) = i by omega] at e1 e2
    rw [show D.dimMajor = D.nCols by omega, (lasoIdx_eq hC (hu _ _).1 (hu _ _).2).1] at e2
    have hr' := hin _ (List.mem_map_of_mem (f := mkEntry D) he)
    have hm : mkEntry D e = ⟨e.1, e.2.1, e.2.2⟩ := by unfold mkEntry; rw [if_pos hw]
    rw [hm] at hr'
    dsimp only at hr'
    refine ⟨_, List.mem_map_of_mem (f := fun e : Entry T => { e with row := e.row - ro, col := e.col - 0 })
      (List.mem_filter.mpr ⟨List.mem_map_of_mem (f := mkEntry D) he, ?_⟩), ?_⟩
    · apply decide_eq_true; rw [hm]; simp only [rowsOf, colsOf]; omega
    · rw [hm]; simp only; omega

omit [DecidableEq T] in
/-- The condition of `RightOk` for the column blocks of a tall long-axis operator. -/
theorem rightOk_long [IsStrictOrderedRing R] {E : SkEnv N K W WS R T} (hE : SkEnvOk E) {D : SparseDist} {s : RNGState N K} {S : SparseSkOp N K T} (hD : SparseDistOk D)
    (h : fillSparse E.GS E.sqrt E.order (mkSparseSkOp E.GS.len D s) = (.ok (), S)) (hax : D.majorAxis = .Long) {alpha : T} {Sm : Int → Int → T}
    (hSm : SparseSamples E.GS E.sqrt D s Sm) (hu : ∀ c t, 0 ≤ unif01 E.GS (advance s c) t ∧ unif01 E.GS (advance s c) t < 1)
    (hw : D.nCols < D.nRows) {d co : Int} (hco : 0 ≤ co) (hdc : d + co ≤ D.nCols)
    (hex : ∃ i t, co ≤ i ∧ i < co + d ∧ 0 ≤ t ∧ t < D.vecNnz ∧ lasoSample E.GS s D.nRows D.vecNnz i t ≠ 0) :
    RightOk E alpha (.sparse S) Sm .NoTrans D.nRows d 0 co := by
  have hfr : SparseFrom E D s S := Or.inr h
  obtain ⟨hr, hc, -, L0, h1, h2⟩ := sparseFrom_run hE hD hfr
  obtain ⟨hR, hC, hk, hkd, hfull, hf, ax⟩ := sparseDist_facts hD
  have hin := sparseRun_inRange hD h1 (fun _ => hu)
  have hnn : 0 ≤ S.nnz := by
    obtain ⟨L1, S', e, k1, -⟩ := fill_run hE (mkSparseSkOp_ok (T := T) E.GS.len hD s)
    rw [e] at h
    obtain rfl : S' = S := (Prod.mk.inj h).2
    have := opHolds_nnz k1; omega
  refine ⟨_, hnn, h2, by rw [hr, hc]; exact hin, ?_, ?_, fun _ => Or.inl ⟨by omega, fun _ _ => ?_⟩⟩
  · exact (C14_well_defined hE.genS hE.sqrt hD).unique (sparseFrom_samples hE hD hfr h2) hSm
  · rw [hr, hc]; exact ⟨le_rfl, hco, by simp [rowsOf], by simpa [colsOf] using hdc⟩
  · rw [hax] at ax
    simp only [reduceCtorEq, false_and, false_or, true_and] at ax
    obtain ⟨i, t, i0, i1, t0, t1, hne⟩ := hex
    rcases h1 with ⟨x, -⟩ | ⟨-, h1⟩
    · rw [hax] at x; cases x
    obtain ⟨e, he, e1, e2⟩ := lasoRun_mem h1 (i := i.toNat) (by omega) t0 t1
    rw [show ((i.toNat : Nat) : Int) = i by omega] at e1 e2
    rw [show D.dimMajor = D.nRows by omega, (lasoIdx_eq hR (hu _ _).1 (hu _ _).2).1] at e2
    have hr' := hin _ (List.mem_map_of_mem (f := mkEntry D) he)
    have hm : mkEntry D e = ⟨e.2.1, e.1, e.2.2⟩ := by unfold mkEntry; rw [if_neg (by omega)]
    rw [hm] at hr'
    dsimp only at hr'
    refine ⟨_, List.mem_map_of_mem (f := Entry.swap) (List.mem_map_of_mem (f := fun e : Entry T => { e with row := e.row - 0, col := e.col - co })
      (List.mem_filter.mpr ⟨List.mem_map_of_mem (f := mkEntry D) he, ?_⟩)), ?_⟩
    · apply decide_eq_true; rw [hm]; simp only [rowsOf, colsOf]; omega
    · rw [hm]; simp only [Entry.swap]; omega

/-! ## C87 -/

/-- C87 (dense, left). Let `D1`, `D2`, `D` be long-axis distributions over `d1 x m`, `d2 x m` and `(d1 + d2) x m` matrices, `d1 + d2 < m`; let `S1`
and `S` have the seed `s`, and let the seed of `S2` be `S1.next_state`. Then sketching with `S1` into the first `d1` rows of B and with `S2` into the
next `d2` rows, sketching with the two row blocks of `S`, and sketching once with `S` all succeed with the same contents of B. Each operator may or
may not have been filled. -/
theorem C87_left_dense {E : SkEnv N K W WS R T} (hE : SkEnvOk E) {d1 d2 m n : Int} {fam : ScalarDist} {s : RNGState N K} {D1 D2 D : DenseDist}
    {S1 S2 S : DenseSkOp N K T} (e1 : mkDenseDist d1 m fam .Long = .ok D1) (e2 : mkDenseDist d2 m fam .Long = .ok D2)
    (e : mkDenseDist (d1 + d2) m fam .Long = .ok D) (hlt : d1 + d2 < m) (hfit : (d1 + d2) * m ≤ intMax 64)
    (hS1 : DenseFrom E D1 s S1) (hS2 : DenseFrom E D2 S1.nextState S2) (hS : DenseFrom E D s S)
    {layout : Layout} {opA : Op} {alpha beta : T} {A b : Buf T} {lda ldb : Int} {Am C : Int → Int → T} (hn : 0 ≤ n)
    (hlda : LdOk layout lda (rowsOf opA m n) (colsOf opA m n)) (hldb : LdOk layout ldb (d1 + d2) n)
    (hA : alpha ≠ 0 → Holds A layout lda (rowsOf opA m n) (colsOf opA m n) Am)
    (hal : Alloc b layout ldb (d1 + d2) n) (hC : beta ≠ 0 → Holds b layout ldb (d1 + d2) n C) :
    ∃ b' T1 T2 T3 T4, growL E layout .NoTrans opA d1 d2 n m alpha A lda beta ldb ((.dense S1, .dense S2), b) = (.ok (), ((T1, T2), b')) ∧
      growLSub E layout .NoTrans opA d1 d2 n m alpha A lda beta ldb (.dense S, b) = (.ok (), (T3, b')) ∧
      sketchGeneralLFull E layout .NoTrans opA (d1 + d2) n m alpha A lda beta ldb (.dense S, b) = (.ok (), (T4, b')) := by
  obtain ⟨p1, pm⟩ := mkDenseDist_pos e1
  obtain ⟨p2, -⟩ := mkDenseDist_pos e2
  have hD1 := denseDistOk_of_mk e1 (by nlinarith)
  have hD2 := denseDistOk_of_mk e2 (by nlinarith)
  have hD := denseDistOk_of_mk e hfit
  obtain ⟨S0, hS0, -⟩ := id hS1
  obtain ⟨Sm, M1, M2, a, a1, a2, st1, st2⟩ := C07_long_wide (s := s) (sqrt3 := E.sqrt3) hE.gen e1 e2 e hS0 hlt hfit
  obtain ⟨i1, r1, c1, S0', hS0', hnx⟩ := denseFrom_is hE.gen hD1 hS1 a1
  obtain rfl : S0 = S0' := Res.ok.inj (hS0.symm.trans hS0')
  rw [← hnx] at a2
  obtain ⟨i2, r2, c2, -⟩ := denseFrom_is hE.gen hD2 hS2 a2
  obtain ⟨i, r, c, -⟩ := denseFrom_is hE.gen hD hS a
  rw [mkDenseDist_eq p1 pm] at e1; cases e1
  rw [mkDenseDist_eq p2 pm] at e2; cases e2
  rw [mkDenseDist_eq (by omega) pm] at e; cases e
  dsimp only at r1 c1 r2 c2 r c
  have l1 : LeftOk E alpha (.dense S1) M1 .NoTrans d1 m 0 0 := ⟨i1, by rw [r1, c1]; simp [InOp, rowsOf, colsOf], fun _ => fillOk_dims p1 pm⟩
  have l2 : LeftOk E alpha (.dense S2) M2 .NoTrans d2 m 0 0 := ⟨i2, by rw [r2, c2]; simp [InOp, rowsOf, colsOf], fun _ => fillOk_dims p2 pm⟩
  have l : LeftOk E alpha (.dense S) Sm .NoTrans (d1 + d2) m 0 0 := ⟨i, by rw [r, c]; simp [InOp, rowsOf, colsOf], fun _ => fillOk_dims (by omega) pm⟩
  have l3 : LeftOk E alpha (.dense S) Sm .NoTrans d1 m 0 0 := ⟨i, by rw [r, c]; simp [InOp, rowsOf, colsOf]; omega, fun _ => fillOk_dims p1 pm⟩
  have l4 : LeftOk E alpha (.dense S) Sm .NoTrans d2 m d1 0 := ⟨i, by rw [r, c]; simp [InOp, rowsOf, colsOf]; omega, fun _ => fillOk_dims p2 pm⟩
  obtain ⟨b', T1, T2, T4, k1, k2⟩ := growL_core hE l1 r1 c1 l2 r2 c2 l r c (fun i j h => st1 i j h) (fun i j h => st2 i j h) p1.le p2.le hn pm.le hlda hldb hA hal hC
  obtain ⟨b'', T3, T4', k3, k4⟩ := growLSub_core hE l3 l4 l r c p1.le p2.le hn pm.le hlda hldb hA hal hC
  rw [k2] at k4
  cases k4
  exact ⟨b', T1, T2, T3, T4, k1, k3, k2⟩

/-- C87 (dense, right). The same for long-axis distributions over tall matrices: `A * S1` and `A * S2` in the column blocks of B. -/
theorem C87_right_dense {E : SkEnv N K W WS R T} (hE : SkEnvOk E) {d1 d2 m n : Int} {fam : ScalarDist} {s : RNGState N K} {D1 D2 D : DenseDist}
    {S1 S2 S : DenseSkOp N K T} (e1 : mkDenseDist n d1 fam .Long = .ok D1) (e2 : mkDenseDist n d2 fam .Long = .ok D2)
    (e : mkDenseDist n (d1 + d2) fam .Long = .ok D) (hlt : d1 + d2 < n) (hfit : n * (d1 + d2) ≤ intMax 64)
    (hS1 : DenseFrom E D1 s S1) (hS2 : DenseFrom E D2 S1.nextState S2) (hS : DenseFrom E D s S)
    {layout : Layout} {opA : Op} {alpha beta : T} {A b : Buf T} {lda ldb : Int} {Am C : Int → Int → T} (hm : 0 ≤ m)
    (hlda : LdOk layout lda (rowsOf opA m n) (colsOf opA m n)) (hldb : LdOk layout ldb m (d1 + d2))
    (hA : alpha ≠ 0 → Holds A layout lda (rowsOf opA m n) (colsOf opA m n) Am)
    (hal : Alloc b layout ldb m (d1 + d2)) (hC : beta ≠ 0 → Holds b layout ldb m (d1 + d2) C) :
    ∃ b' T1 T2 T3 T4, growR E layout opA .NoTrans m d1 d2 n alpha A lda beta ldb ((.dense S1, .dense S2), b) = (.ok (), ((T1, T2), b')) ∧
      growRSub E layout opA .NoTrans m d1 d2 n alpha A lda beta ldb (.dense S, b) = (.ok (), (T3, b')) ∧
      sketchGeneralRFull E layout opA .NoTrans m (d1 + d2) n alpha A lda beta ldb (.dense S, b) = (.ok (), (T4, b')) := by
  obtain ⟨pn, p1⟩ := mkDenseDist_pos e1
  obtain ⟨-, p2⟩ := mkDenseDist_pos e2
  have hD1 := denseDistOk_of_mk e1 (by nlinarith)
  have hD2 := denseDistOk_of_mk e2 (by nlinarith)
  have hD := denseDistOk_of_mk e hfit
  obtain ⟨S0, hS0, -⟩ := id hS1
  obtain ⟨Sm, M1, M2, a, a1, a2, st1, st2⟩ := C07_long_tall (s := s) (sqrt3 := E.sqrt3) hE.gen e1 e2 e hS0 hlt hfit
  obtain ⟨i1, r1, c1, S0', hS0', hnx⟩ := denseFrom_is hE.gen hD1 hS1 a1
  obtain rfl : S0 = S0' := Res.ok.inj (hS0.symm.trans hS0')
  rw [← hnx] at a2
  obtain ⟨i2, r2, c2, -⟩ := denseFrom_is hE.gen hD2 hS2 a2
  obtain ⟨i, r, c, -⟩ := denseFrom_is hE.gen hD hS a
  rw [mkDenseDist_eq pn p1] at e1; cases e1
  rw [mkDenseDist_eq pn p2] at e2; cases e2
  rw [mkDenseDist_eq pn (by omega)] at e; cases e
  dsimp only at r1 c1 r2 c2 r c
  have l1 : RightOk E alpha (.dense S1) M1 .NoTrans n d1 0 0 := ⟨i1, by rw [r1, c1]; simp [InOp, rowsOf, colsOf], fun _ => fillOk_dims pn p1⟩
  have l2 : RightOk E alpha (.dense S2) M2 .NoTrans n d2 0 0 := ⟨i2, by rw [r2, c2]; simp [InOp, rowsOf, colsOf], fun _ => fillOk_dims pn p2⟩
  have l : RightOk E alpha (.dense S) Sm .NoTrans n (d1 + d2) 0 0 := ⟨i, by rw [r, c]; simp [InOp, rowsOf, colsOf], fun _ => fillOk_dims pn (by omega)⟩
  have l3 : RightOk E alpha (.dense S) Sm .NoTrans n d1 0 0 := ⟨i, by rw [r, c]; simp [InOp, rowsOf, colsOf]; omega, fun _ => fillOk_dims pn p1⟩
  have l4 : RightOk E alpha (.dense S) Sm .NoTrans n d2 0 d1 := ⟨i, by rw [r, c]; simp [InOp, rowsOf, colsOf]; omega, fun _ => fillOk_dims pn p2⟩
  obtain ⟨b', T1, T2, T4, k1, k2⟩ := growR_core hE l1 r1 c1 l2 r2 c2 l r c (fun i j h => st1 i j h) (fun i j h => st2 i j h) p1.le p2.le hm pn.le hlda hldb hA hal hC
  obtain ⟨b'', T3, T4', k3, k4⟩ := growRSub_core hE l3 l4 l r c p1.le p2.le hm pn.le hlda hldb hA hal hC
  rw [k2] at k4
  cases k4
  exact ⟨b', T1, T2, T3, T4, k1, k3, k2⟩

/-- C87 (sparse, left). The same for sparse operators with `nz` nonzeros per row, for the calls that `LeftOk` describes.

Missing: as for `sketch_general` (C37), row blocks with all nonzeros in the first column. -/
theorem C87_left_sparse_partial {E : SkEnv N K W WS R T} (hE : SkEnvOk E) {d1 d2 m n nz : Int} {s : RNGState N K} {D1 D2 D : SparseDist}
    {S1 S2 S : SparseSkOp N K T} (p1 : 0 < d1) (p2 : 0 < d2) (e1 : mkSparseDist d1 m nz .Long = .ok D1) (e2 : mkSparseDist d2 m nz .Long = .ok D2)
    (e : mkSparseDist (d1 + d2) m nz .Long = .ok D) (hlt : d1 + d2 ≤ m) (hfit : 2 * (nz * (d1 + d2)) ≤ intMax 64)
    (hS1 : SparseFrom E D1 s S1) (hS2 : SparseFrom E D2 S1.nextState S2) (hS : SparseFrom E D s S)
    {layout : Layout} {opA : Op} {alpha beta : T} {A b : Buf T} {lda ldb : Int} {M1 M2 Sm Am C : Int → Int → T}
    (h1 : LeftOk E alpha (.sparse S1) M1 .NoTrans d1 m 0 0) (h2 : LeftOk E alpha (.sparse S2) M2 .NoTrans d2 m 0 0)
    (h : LeftOk E alpha (.sparse S) Sm .NoTrans (d1 + d2) m 0 0) (h3 : LeftOk E alpha (.sparse S) Sm .NoTrans d1 m 0 0)
    (h4 : LeftOk E alpha (.sparse S) Sm .NoTrans d2 m d1 0) (hn : 0 ≤ n)
    (hlda : LdOk layout lda (rowsOf opA m n) (colsOf opA m n)) (hldb : LdOk layout ldb (d1 + d2) n)
    (hA : alpha ≠ 0 → Holds A layout lda (rowsOf opA m n) (colsOf opA m n) Am)
    (hal : Alloc b layout ldb (d1 + d2) n) (hC : beta ≠ 0 → Holds b layout ldb (d1 + d2) n C) :
    ∃ b' T1 T2 T3 T4, growL E layout .NoTrans opA d1 d2 n m alpha A lda beta ldb ((.sparse S1, .sparse S2), b) = (.ok (), ((T1, T2), b')) ∧
      growLSub E layout .NoTrans opA d1 d2 n m alpha A lda beta ldb (.sparse S, b) = (.ok (), (T3, b')) ∧
      sketchGeneralLFull E layout .NoTrans opA (d1 + d2) n m alpha A lda beta ldb (.sparse S, b) = (.ok (), (T4, b')) := by
  obtain ⟨x, y, z, f, g, ok⟩ := sparseDist_of_mk e
  obtain ⟨x1, y1, z1, f1, g1, ok1⟩ := sparseDist_of_mk e1
  obtain ⟨x2, y2, z2, f2, g2, ok2⟩ := sparseDist_of_mk e2
  simp only [if_true] at g g1 g2
  rw [min_eq_left (by omega)] at g g1 g2
  have hk : 0 < nz := by
    by_contra hcon
    rw [(C16_sparse_dist (d1 + d2) m nz .Long).2 (fun h => hcon h.2.2.1)] at e; cases e
  have hD := ok (by rw [g]; exact hfit)
  have hD1 := ok1 (by rw [g1]; nlinarith)
  have hD2 := ok2 (by rw [g2]; nlinarith)
  obtain ⟨r1, c1, hnx, -⟩ := sparseFrom_run hE hD1 hS1
  obtain ⟨r2, c2, -⟩ := sparseFrom_run hE hD2 hS2
  obtain ⟨r, c, -⟩ := sparseFrom_run hE hD hS
  have u1 := leftOk_samples hE hD1 hS1 h1
  have u2 := leftOk_samples hE hD2 hS2 h2
  have u := leftOk_samples hE hD hS h
  obtain ⟨A1, A2, a1, a2, a⟩ := C14_long_wide (seed := s) (T := T) hE.genS hE.sqrt p1 p2 hlt e1 e2 e hfit
  rw [← hnx] at a2
  obtain rfl := (C14_well_defined hE.genS hE.sqrt hD1).unique u1 a1
  obtain rfl := (C14_well_defined hE.genS hE.sqrt hD2).unique u2 a2
  have hSm := (C14_well_defined hE.genS hE.sqrt hD).unique u a
  rw [x1] at r1; rw [y1] at c1; rw [x2] at r2; rw [y2] at c2; rw [x] at r; rw [y] at c
  have hm : 0 ≤ m := by omega
  obtain ⟨b', T1, T2, T4, k1, k2⟩ := growL_core hE h1 r1 c1 h2 r2 c2 h r c
    (fun i j hij => by rw [hSm]; simp only [opMat]; rw [if_pos hij.2.1])
    (fun i j hij => by
      rw [hSm]; simp only [opMat]
      rw [if_neg (by have := hij.1; omega), show d1 + i - d1 = i by omega]) p1.le p2.le hn hm hlda hldb hA hal hC
  obtain ⟨b'', T3, T4', k3, k4⟩ := growLSub_core hE h3 h4 h r c p1.le p2.le hn hm hlda hldb hA hal hC
  rw [k2] at k4
  cases k4
  exact ⟨b', T1, T2, T3, T4, k1, k3, k2⟩

/-- C87 (sparse, right). The same for tall operators that have been filled.

Missing: operators that have not been filled (C37), and column blocks with all nonzeros in the first row. -/
theorem C87_right_sparse_partial {E : SkEnv N K W WS R T} (hE : SkEnvOk E) {d1 d2 m n nz : Int} {s : RNGState N K} {D1 D2 D : SparseDist}
    {S1 S2 S : SparseSkOp N K T} (p1 : 0 < d1) (p2 : 0 < d2) (e1 : mkSparseDist n d1 nz .Long = .ok D1) (e2 : mkSparseDist n d2 nz .Long = .ok D2)
    (e : mkSparseDist n (d1 + d2) nz .Long = .ok D) (hlt : d1 + d2 < n) (hfit : 2 * (nz * (d1 + d2)) ≤ intMax 64)
    (hS1 : SparseFrom E D1 s S1) (hS2 : SparseFrom E D2 S1.nextState S2) (hS : SparseFrom E D s S)
    {layout : Layout} {opA : Op} {alpha beta : T} {A b : Buf T} {lda ldb : Int} {M1 M2 Sm Am C : Int → Int → T}
    (h1 : RightOk E alpha (.sparse S1) M1 .NoTrans n d1 0 0) (h2 : RightOk E alpha (.sparse S2) M2 .NoTrans n d2 0 0)
    (h : RightOk E alpha (.sparse S) Sm .NoTrans n (d1 + d2) 0 0) (h3 : RightOk E alpha (.sparse S) Sm .NoTrans n d1 0 0)
    (h4 : RightOk E alpha (.sparse S) Sm .NoTrans n d2 0 d1) (hm : 0 ≤ m)
    (hlda : LdOk layout lda (rowsOf opA m n) (colsOf opA m n)) (hldb : LdOk layout ldb m (d1 + d2))
    (hA : alpha ≠ 0 → Holds A layout lda (rowsOf opA m n) (colsOf opA m n) Am)
    (hal : Alloc b layout ldb m (d1 + d2)) (hC : beta ≠ 0 → Holds b layout ldb m (d1 + d2) C) :
    ∃ b' T1 T2 T3 T4, growR E layout opA .NoTrans m d1 d2 n alpha A lda beta ldb ((.sparse S1, .sparse S2), b) = (.ok (), ((T1, T2), b')) ∧
      growRSub E layout opA .NoTrans m d1 d2 n alpha A lda beta ldb (.sparse S, b) = (.ok (), (T3, b')) ∧
      sketchGeneralRFull E layout opA .NoTrans m (d1 + d2) n alpha A lda beta ldb (.sparse S, b) = (.ok (), (T4, b')) := by
  obtain ⟨x, y, z, f, g, ok⟩ := sparseDist_of_mk e
  obtain ⟨x1, y1, z1, f1, g1, ok1⟩ := sparseDist_of_mk e1
  obtain ⟨x2, y2, z2, f2, g2, ok2⟩ := sparseDist_of_mk e2
  simp only [if_true] at g g1 g2
  rw [min_eq_right (by omega)] at g g1 g2
  have hk : 0 < nz := by
    by_contra hcon
    rw [(C16_sparse_dist n (d1 + d2) nz .Long).2 (fun h => hcon h.2.2.1)] at e; cases e
  have hD := ok (by rw [g]; exact hfit)
  have hD1 := ok1 (by rw [g1]; nlinarith)
  have hD2 := ok2 (by rw [g2]; nlinarith)
  obtain ⟨r1, c1, hnx, -⟩ := sparseFrom_run hE hD1 hS1
  obtain ⟨r2, c2, -⟩ := sparseFrom_run hE hD2 hS2
  obtain ⟨r, c, -⟩ := sparseFrom_run hE hD hS
  have u1 := rightOk_samples hE hD1 hS1 h1
  have u2 := rightOk_samples hE hD2 hS2 h2
  have u := rightOk_samples hE hD hS h
  obtain ⟨A1, A2, a1, a2, a⟩ := C14_long_tall (seed := s) (T := T) hE.genS hE.sqrt p1 p2 hlt e1 e2 e hfit
  rw [← hnx] at a2
  obtain rfl := (C14_well_defined hE.genS hE.sqrt hD1).unique u1 a1
  obtain rfl := (C14_well_defined hE.genS hE.sqrt hD2).unique u2 a2
  have hSm := (C14_well_defined hE.genS hE.sqrt hD).unique u a
  rw [x1] at r1; rw [y1] at c1; rw [x2] at r2; rw [y2] at c2; rw [x] at r; rw [y] at c
  have hn : 0 ≤ n := by omega
  obtain ⟨b', T1, T2, T4, k1, k2⟩ := growR_core hE h1 r1 c1 h2 r2 c2 h r c
    (fun i j hij => by rw [hSm]; simp only [opMat]; rw [if_pos hij.2.2.2])
    (fun i j hij => by
      rw [hSm]; simp only [opMat]
      rw [if_neg (by have := hij.2.2.1; omega), show d1 + j - d1 = j by omega]) p1.le p2.le hm hn hlda hldb hA hal hC
  obtain ⟨b'', T3, T4', k3, k4⟩ := growRSub_core hE h3 h4 h r c p1.le p2.le hm hn hlda hldb hA hal hC
  rw [k2] at k4
  cases k4
  exact ⟨b', T1, T2, T3, T4, k1, k3, k2⟩

omit [CommRing T] [DecidableEq T] [Field R] [LinearOrder R] [FloorRing R] in
/-- C87 (states, dense). After either workflow the next unused state is the same: `S2.next_state = S.next_state`. -/
theorem C87_next_dense {L d1 d2 m : Int} (hL : 0 < L) {fam : ScalarDist} {s : RNGState N K} {D1 D2 D : DenseDist} {S1 S2 S : DenseSkOp N K T}
    (h : mkDenseDist d1 m fam .Long = .ok D1 ∧ mkDenseDist d2 m fam .Long = .ok D2 ∧ mkDenseDist (d1 + d2) m fam .Long = .ok D ∨
      mkDenseDist m d1 fam .Long = .ok D1 ∧ mkDenseDist m d2 fam .Long = .ok D2 ∧ mkDenseDist m (d1 + d2) fam .Long = .ok D)
    (hlt : d1 + d2 < m) (hfit : (d1 + d2) * m ≤ intMax 64)
    (hS1 : mkDenseSkOp L D1 s = .ok S1) (hS2 : mkDenseSkOp L D2 S1.nextState = .ok S2) (hS : mkDenseSkOp L D s = .ok S) : S2.nextState = S.nextState := by
  have key : DenseDistOk D1 ∧ DenseDistOk D2 ∧ DenseDistOk D ∧ D1.dimMinor = d1 ∧ D2.dimMinor = d2 ∧ D.dimMinor = d1 + d2 ∧
      D1.dimMajor = m ∧ D2.dimMajor = m ∧ D.dimMajor = m := by
    rcases h with ⟨e1, e2, e⟩ | ⟨e1, e2, e⟩
    · obtain ⟨p1, pm⟩ := mkDenseDist_pos e1
      obtain ⟨p2, -⟩ := mkDenseDist_pos e2
      refine ⟨denseDistOk_of_mk e1 (by nlinarith), denseDistOk_of_mk e2 (by nlinarith), denseDistOk_of_mk e hfit, ?_⟩
      rw [mkDenseDist_eq p1 pm] at e1; cases e1
      rw [mkDenseDist_eq p2 pm] at e2; cases e2
      rw [mkDenseDist_eq (by omega) pm] at e; cases e
      simp only [if_true]; omega
    · obtain ⟨pm, p1⟩ := mkDenseDist_pos e1
      obtain ⟨-, p2⟩ := mkDenseDist_pos e2
      refine ⟨denseDistOk_of_mk e1 (by nlinarith), denseDistOk_of_mk e2 (by nlinarith), denseDistOk_of_mk e (by nlinarith), ?_⟩
      rw [mkDenseDist_eq pm p1] at e1; cases e1
      rw [mkDenseDist_eq pm p2] at e2; cases e2
      rw [mkDenseDist_eq pm (by omega)] at e; cases e
      simp only [if_true]; omega
  obtain ⟨k1, k2, k, m1, m2, m0, j1, j2, j⟩ := key
  rw [mkDenseSkOp_next hL k2 hS2, mkDenseSkOp_next hL k1 hS1, mkDenseSkOp_next hL k hS, m1, m2, m0, j1, j2, j]
  simp only [RNGState.mk.injEq, and_true]
  push_cast; ring

omit [CommRing T] [DecidableEq T] [LinearOrder R] [FloorRing R] [Field R] in
/-- C87 (states, sparse). -/
theorem C87_next_sparse {G : Gen N K W R} (hG : G.Ok) {d1 d2 m nz : Int} {s : RNGState N K} {D1 D2 D : SparseDist} (p1 : 0 < d1) (p2 : 0 < d2)
    (h : mkSparseDist d1 m nz .Long = .ok D1 ∧ mkSparseDist d2 m nz .Long = .ok D2 ∧ mkSparseDist (d1 + d2) m nz .Long = .ok D ∨
      mkSparseDist m d1 nz .Long = .ok D1 ∧ mkSparseDist m d2 nz .Long = .ok D2 ∧ mkSparseDist m (d1 + d2) nz .Long = .ok D)
    (hlt : d1 + d2 ≤ m) (hfit : 2 * (nz * (d1 + d2)) ≤ intMax 64) :
    (mkSparseSkOp G.len D2 (mkSparseSkOp G.len D1 s : SparseSkOp N K T).nextState : SparseSkOp N K T).nextState =
      (mkSparseSkOp G.len D s : SparseSkOp N K T).nextState := by
  have key : SparseDistOk D1 ∧ SparseDistOk D2 ∧ SparseDistOk D ∧ D1.dimMinor = d1 ∧ D2.dimMinor = d2 ∧ D.dimMinor = d1 + d2 ∧
      D1.vecNnz = nz ∧ D2.vecNnz = nz ∧ D.vecNnz = nz ∧ D1.majorAxis = .Long ∧ D2.majorAxis = .Long ∧ D.majorAxis = .Long := by
    have aux : ∀ {r c d : Int} {D : SparseDist}, mkSparseDist r c nz .Long = .ok D → min r c = d → d ≤ d1 + d2 → 0 < d →
        SparseDistOk D ∧ D.dimMinor = d ∧ D.vecNnz = nz ∧ D.majorAxis = .Long := by
      intro r c d D e hmin hd hd0
      obtain ⟨x, y, z, f, g, ok⟩ := sparseDist_of_mk e
      simp only [if_true] at g
      have hk : 0 < nz := by
        by_contra hcon
        rw [(C16_sparse_dist r c nz .Long).2 (fun h => hcon h.2.2.1)] at e; cases e
      have hD := ok (by rw [g, hmin]; nlinarith)
      refine ⟨hD, ?_, z, f⟩
      obtain ⟨-, -, -, -, -, -, ax⟩ := sparseDist_facts hD
      rw [f] at ax
      simp only [reduceCtorEq, false_and, false_or, true_and] at ax
      rw [x, y] at ax
      omega
    rcases h with ⟨e1, e2, e⟩ | ⟨e1, e2, e⟩
    · obtain ⟨a1, a2, a3, a4⟩ := aux e1 (d := d1) (by omega) (by omega) p1
      obtain ⟨b1, b2, b3, b4⟩ := aux e2 (d := d2) (by omega) (by omega) p2
      obtain ⟨c1, c2, c3, c4⟩ := aux e (d := d1 + d2) (by omega) (by omega) (by omega)
      exact ⟨a1, b1, c1, a2, b2, c2, a3, b3, c3, a4, b4, c4⟩
    · obtain ⟨a1, a2, a3, a4⟩ := aux e1 (d := d1) (by omega) (by omega) p1
      obtain ⟨b1, b2, b3, b4⟩ := aux e2 (d := d2) (by omega) (by omega) p2
      obtain ⟨c1, c2, c3, c4⟩ := aux e (d := d1 + d2) (by omega) (by omega) (by omega)
      exact ⟨a1, b1, c1, a2, b2, c2, a3, b3, c3, a4, b4, c4⟩
  obtain ⟨k1, k2, k, m1, m2, m0, z1, z2, z0, f1, f2, f⟩ := key
  show sparseNextState G.len D2 (sparseNextState G.len D1 s) = sparseNextState G.len D s
  rw [sparseNextState_eq hG k1, sparseNextState_eq hG k2, sparseNextState_eq hG k]
  unfold sparseCounters advance
  rw [if_neg (by rw [f1]; decide), if_neg (by rw [f2]; decide), if_neg (by rw [f]; decide), m1, m2, m0, z1, z2, z0]
  simp only [RNGState.mk.injEq, and_true]
  push_cast; ring

/-! ## C88 -/

/-- C88 (dense, left). Let `D1` and `D` be short-axis distributions over `d x m` and `d x (m + k)` matrices, `d < m`, and let `S1` and `S` have the
same seed. If a sketch of an `m x n` matrix was computed with `S1`, and the sketch of a `k x n` matrix with the trailing `k` columns of `S` is added,
then the contents of B are those of the sketch of the stacked matrix with `S`. -/
theorem C88_left_dense {E : SkEnv N K W WS R T} (hE : SkEnvOk E) {d m k n : Int} {fam : ScalarDist} {s : RNGState N K} {D1 D : DenseDist}
    {S1 S : DenseSkOp N K T} (e1 : mkDenseDist d m fam .Short = .ok D1) (e : mkDenseDist d (m + k) fam .Short = .ok D) (hlt : d < m) (hk : 0 < k)
    (hfit : d * (m + k) ≤ intMax 64) (hS1 : DenseFrom E D1 s S1) (hS : DenseFrom E D s S)
    {layout : Layout} {op1 op2 op3 : Op} {alpha beta : T} {A1 A2 A3 b : Buf T} {ld1 ld2 ld3 ldb : Int} {X1 X2 X3 C : Int → Int → T} (hn : 0 ≤ n)
    (hl1 : LdOk layout ld1 (rowsOf op1 m n) (colsOf op1 m n)) (hl2 : LdOk layout ld2 (rowsOf op2 k n) (colsOf op2 k n))
    (hl3 : LdOk layout ld3 (rowsOf op3 (m + k) n) (colsOf op3 (m + k) n)) (hldb : LdOk layout ldb d n)
    (hA1 : Holds A1 layout ld1 (rowsOf op1 m n) (colsOf op1 m n) X1) (hA2 : Holds A2 layout ld2 (rowsOf op2 k n) (colsOf op2 k n) X2)
    (hA3 : Holds A3 layout ld3 (rowsOf op3 (m + k) n) (colsOf op3 (m + k) n) X3)
    (hstack : ∀ i j, InR (m + k) n i j → opMat op3 X3 i j = if i < m then opMat op1 X1 i j else opMat op2 X2 (i - m) j)
    (hal : Alloc b layout ldb d n) (hC : beta ≠ 0 → Holds b layout ldb d n C) :
    ∃ b' T1 T2 T', addL E layout .NoTrans op1 op2 d n m k alpha A1 ld1 A2 ld2 beta ldb ((.dense S1, .dense S), b) = (.ok (), ((T1, T2), b')) ∧
      sketchGeneralLFull E layout .NoTrans op3 d n (m + k) alpha A3 ld3 beta ldb (.dense S, b) = (.ok (), (T', b')) := by
  obtain ⟨p1, pm⟩ := mkDenseDist_pos e1
  have hD1 := denseDistOk_of_mk e1 (by nlinarith)
  have hD := denseDistOk_of_mk e hfit
  obtain ⟨Sm, M1, a, a1, st⟩ := C07_short_wide (s := s) (sqrt3 := E.sqrt3) hE.gen e1 e hk.le hlt hfit
  obtain ⟨i1, r1, c1, -⟩ := denseFrom_is hE.gen hD1 hS1 a1
  obtain ⟨i, r, c, -⟩ := denseFrom_is hE.gen hD hS a
  rw [mkDenseDist_eq p1 pm] at e1; cases e1
  rw [mkDenseDist_eq p1 (by omega)] at e; cases e
  dsimp only at r1 c1 r c
  exact addL_core hE (S1 := .dense S1) (S := .dense S) (opS := .NoTrans) ⟨i1, by rw [r1, c1]; simp [InOp, rowsOf, colsOf], fun _ => fillOk_dims p1 pm⟩ r1 c1
    ⟨i, by rw [r, c]; simp [InOp, rowsOf, colsOf]; omega, fun _ => fillOk_dims p1 hk⟩ ⟨i, by rw [r, c]; simp [InOp, rowsOf, colsOf], fun _ => fillOk_dims p1 (by omega)⟩ r c
    (fun i j h => st i j h) p1.le hn pm.le hk.le hl1 hl2 hl3 hldb hA1 hA2 hA3 hstack hal hC

/-- C88 (dense, right). The same for tall operators: `m x n` data, `m x k` new data, `n x d` and `(n + k) x d` operators, `d < n`. -/
theorem C88_right_dense {E : SkEnv N K W WS R T} (hE : SkEnvOk E) {m d n k : Int} {fam : ScalarDist} {s : RNGState N K} {D1 D : DenseDist}
    {S1 S : DenseSkOp N K T} (e1 : mkDenseDist n d fam .Short = .ok D1) (e : mkDenseDist (n + k) d fam .Short = .ok D) (hlt : d < n) (hk : 0 < k)
    (hfit : (n + k) * d ≤ intMax 64) (hS1 : DenseFrom E D1 s S1) (hS : DenseFrom E D s S)
    {layout : Layout} {op1 op2 op3 : Op} {alpha beta : T} {A1 A2 A3 b : Buf T} {ld1 ld2 ld3 ldb : Int} {X1 X2 X3 C : Int → Int → T} (hm : 0 ≤ m)
    (hl1 : LdOk layout ld1 (rowsOf op1 m n) (colsOf op1 m n)) (hl2 : LdOk layout ld2 (rowsOf op2 m k) (colsOf op2 m k))
    (hl3 : LdOk layout ld3 (rowsOf op3 m (n + k)) (colsOf op3 m (n + k))) (hldb : LdOk layout ldb m d)
    (hA1 : Holds A1 layout ld1 (rowsOf op1 m n) (colsOf op1 m n) X1) (hA2 : Holds A2 layout ld2 (rowsOf op2 m k) (colsOf op2 m k) X2)
    (hA3 : Holds A3 layout ld3 (rowsOf op3 m (n + k)) (colsOf op3 m (n + k)) X3)
    (hstack : ∀ i j, InR m (n + k) i j → opMat op3 X3 i j = if j < n then opMat op1 X1 i j else opMat op2 X2 i (j - n))
    (hal : Alloc b layout ldb m d) (hC : beta ≠ 0 → Holds b layout ldb m d C) :
    ∃ b' T1 T2 T', addR E layout op1 op2 .NoTrans m d n k alpha A1 ld1 A2 ld2 beta ldb ((.dense S1, .dense S), b) = (.ok (), ((T1, T2), b')) ∧
      sketchGeneralRFull E layout op3 .NoTrans m d (n + k) alpha A3 ld3 beta ldb (.dense S, b) = (.ok (), (T', b')) := by
  obtain ⟨pn, p1⟩ := mkDenseDist_pos e1
  have hD1 := denseDistOk_of_mk e1 (by nlinarith)
  have hD := denseDistOk_of_mk e hfit
  obtain ⟨Sm, M1, a, a1, st⟩ := C07_short_tall (s := s) (sqrt3 := E.sqrt3) hE.gen e1 e hk.le hlt hfit
  obtain ⟨i1, r1, c1, -⟩ := denseFrom_is hE.gen hD1 hS1 a1
  obtain ⟨i, r, c, -⟩ := denseFrom_is hE.gen hD hS a
  rw [mkDenseDist_eq pn p1] at e1; cases e1
  rw [mkDenseDist_eq (by omega) p1] at e; cases e
  dsimp only at r1 c1 r c
  exact addR_core hE (S1 := .dense S1) (S := .dense S) (opS := .NoTrans) ⟨i1, by rw [r1, c1]; simp [InOp, rowsOf, colsOf], fun _ => fillOk_dims pn p1⟩ r1 c1
    ⟨i, by rw [r, c]; simp [InOp, rowsOf, colsOf]; omega, fun _ => fillOk_dims hk p1⟩ ⟨i, by rw [r, c]; simp [InOp, rowsOf, colsOf], fun _ => fillOk_dims (by omega) p1⟩ r c
    (fun i j h => st i j h) hm p1.le pn.le hk.le hl1 hl2 hl3 hldb hA1 hA2 hA3 hstack hal hC

/-- C88 (sparse, left). The same for sparse operators with `nz` nonzeros per column, filled or not; `d <= m` is enough. -/
theorem C88_left_sparse [IsStrictOrderedRing R] {E : SkEnv N K W WS R T} (hE : SkEnvOk E) {d m k n nz : Int} {s : RNGState N K} {D1 D : SparseDist}
    {S1 S : SparseSkOp N K T} (e1 : mkSparseDist d m nz .Short = .ok D1) (e : mkSparseDist d (m + k) nz .Short = .ok D) (hlt : d ≤ m) (hk : 0 < k)
    (hfit : 2 * (nz * (m + k)) ≤ intMax 64) (hS1 : SparseFrom E D1 s S1) (hS : SparseFrom E D s S)
    {layout : Layout} {op1 op2 op3 : Op} {alpha beta : T} {A1 A2 A3 b : Buf T} {ld1 ld2 ld3 ldb : Int} {X1 X2 X3 C : Int → Int → T} (hn : 0 ≤ n)
    (hl1 : LdOk layout ld1 (rowsOf op1 m n) (colsOf op1 m n)) (hl2 : LdOk layout ld2 (rowsOf op2 k n) (colsOf op2 k n))
    (hl3 : LdOk layout ld3 (rowsOf op3 (m + k) n) (colsOf op3 (m + k) n)) (hldb : LdOk layout ldb d n)
    (hA1 : Holds A1 layout ld1 (rowsOf op1 m n) (colsOf op1 m n) X1) (hA2 : Holds A2 layout ld2 (rowsOf op2 k n) (colsOf op2 k n) X2)
    (hA3 : Holds A3 layout ld3 (rowsOf op3 (m + k) n) (colsOf op3 (m + k) n) X3)
    (hstack : ∀ i j, InR (m + k) n i j → opMat op3 X3 i j = if i < m then opMat op1 X1 i j else opMat op2 X2 (i - m) j)
    (hal : Alloc b layout ldb d n) (hC : beta ≠ 0 → Holds b layout ldb d n C) :
    ∃ b' T1 T2 T', addL E layout .NoTrans op1 op2 d n m k alpha A1 ld1 A2 ld2 beta ldb ((.sparse S1, .sparse S), b) = (.ok (), ((T1, T2), b')) ∧
      sketchGeneralLFull E layout .NoTrans op3 d n (m + k) alpha A3 ld3 beta ldb (.sparse S, b) = (.ok (), (T', b')) := by
  obtain ⟨x, y, z, f, g, ok⟩ := sparseDist_of_mk e
  obtain ⟨x1, y1, z1, f1, g1, ok1⟩ := sparseDist_of_mk e1
  simp only [reduceCtorEq, if_false] at g g1
  rw [max_eq_right (by omega)] at g g1
  have hp : 0 < nz ∧ 0 < d := by
    by_contra hcon
    rw [(C16_sparse_dist d m nz .Short).2 (fun h => hcon ⟨h.2.2.1, h.1⟩)] at e1; cases e1
  have hD := ok (by rw [g]; exact hfit)
  have hD1 := ok1 (by rw [g1]; nlinarith)
  obtain ⟨r1, c1, -⟩ := sparseFrom_run hE hD1 hS1
  obtain ⟨r, c, -⟩ := sparseFrom_run hE hD hS
  obtain ⟨M1, Sm, a1, a, st⟩ := C14_short_wide (seed := s) (T := T) hE.genS hE.sqrt hlt hk.le e1 e hfit
  rw [x1] at r1; rw [y1] at c1; rw [x] at r; rw [y] at c
  have l1 := leftOk_short hE hD1 hS1 f1 (alpha := alpha) a1 (m := m) (co := 0) (by omega) (by omega) le_rfl (by omega)
  have l2 := leftOk_short hE hD hS f (alpha := alpha) a (m := k) (co := m) (by omega) (by omega) (by omega) (by omega)
  have l := leftOk_short hE hD hS f (alpha := alpha) a (m := m + k) (co := 0) (by omega) (by omega) le_rfl (by omega)
  rw [x1] at l1; rw [x] at l l2
  exact addL_core hE l1 r1 c1 l2 l r c (fun i j h => st i j h.2.2.2) hp.2.le hn (by omega) hk.le hl1 hl2 hl3 hldb hA1 hA2 hA3 hstack hal hC

/-- C88 (sparse, right). The same for tall sparse operators that have been filled.

Missing: operators that have not been filled, for which the update is applied twice (`C37_right_unfilled_counterexample`). -/
theorem C88_right_sparse_partial [IsStrictOrderedRing R] {E : SkEnv N K W WS R T} (hE : SkEnvOk E) {m d n k nz : Int} {s : RNGState N K} {D1 D : SparseDist}
    {S1 S : SparseSkOp N K T} (e1 : mkSparseDist n d nz .Short = .ok D1) (e : mkSparseDist (n + k) d nz .Short = .ok D) (hlt : d < n) (hk : 0 < k)
    (hfit : 2 * (nz * (n + k)) ≤ intMax 64) (hS1 : fillSparse E.GS E.sqrt E.order (mkSparseSkOp E.GS.len D1 s) = (.ok (), S1))
    (hS : fillSparse E.GS E.sqrt E.order (mkSparseSkOp E.GS.len D s) = (.ok (), S))
    {layout : Layout} {op1 op2 op3 : Op} {alpha beta : T} {A1 A2 A3 b : Buf T} {ld1 ld2 ld3 ldb : Int} {X1 X2 X3 C : Int → Int → T} (hm : 0 ≤ m)
    (hl1 : LdOk layout ld1 (rowsOf op1 m n) (colsOf op1 m n)) (hl2 : LdOk layout ld2 (rowsOf op2 m k) (colsOf op2 m k))
    (hl3 : LdOk layout ld3 (rowsOf op3 m (n + k)) (colsOf op3 m (n + k))) (hldb : LdOk layout ldb m d)
    (hA1 : Holds A1 layout ld1 (rowsOf op1 m n) (colsOf op1 m n) X1) (hA2 : Holds A2 layout ld2 (rowsOf op2 m k) (colsOf op2 m k) X2)
    (hA3 : Holds A3 layout ld3 (rowsOf op3 m (n + k)) (colsOf op3 m (n + k)) X3)
    (hstack : ∀ i j, InR m (n + k) i j → opMat op3 X3 i j = if j < n then opMat op1 X1 i j else opMat op2 X2 i (j - n))
    (hal : Alloc b layout ldb m d) (hC : beta ≠ 0 → Holds b layout ldb m d C) :
    ∃ b' T1 T2 T', addR E layout op1 op2 .NoTrans m d n k alpha A1 ld1 A2 ld2 beta ldb ((.sparse S1, .sparse S), b) = (.ok (), ((T1, T2), b')) ∧
      sketchGeneralRFull E layout op3 .NoTrans m d (n + k) alpha A3 ld3 beta ldb (.sparse S, b) = (.ok (), (T', b')) := by
  obtain ⟨x, y, z, f, g, ok⟩ := sparseDist_of_mk e
  obtain ⟨x1, y1, z1, f1, g1, ok1⟩ := sparseDist_of_mk e1
  simp only [reduceCtorEq, if_false] at g g1
  rw [max_eq_left (by omega)] at g g1
  have hp : 0 < nz ∧ 0 < d := by
    by_contra hcon
    rw [(C16_sparse_dist n d nz .Short).2 (fun h => hcon ⟨h.2.2.1, h.2.1⟩)] at e1; cases e1
  have hD := ok (by rw [g]; exact hfit)
  have hD1 := ok1 (by rw [g1]; nlinarith)
  obtain ⟨r1, c1, -⟩ := sparseFrom_run hE hD1 (Or.inr hS1)
  obtain ⟨r, c, -⟩ := sparseFrom_run hE hD (Or.inr hS)
  obtain ⟨M1, Sm, a1, a, st⟩ := C14_short_tall (seed := s) (T := T) hE.genS hE.sqrt hlt hk.le e1 e hfit
  rw [x1] at r1; rw [y1] at c1; rw [x] at r; rw [y] at c
  have l1 := rightOk_short hE hD1 hS1 f1 (alpha := alpha) a1 (n := n) (ro := 0) (by omega) (by omega) le_rfl (by omega)
  have l2 := rightOk_short hE hD hS f (alpha := alpha) a (n := k) (ro := n) (by omega) (by omega) (by omega) (by omega)
  have l := rightOk_short hE hD hS f (alpha := alpha) a (n := n + k) (ro := 0) (by omega) (by omega) le_rfl (by omega)
  rw [y1] at l1; rw [y] at l l2
  exact addR_core hE l1 r1 c1 l2 l r c (fun i j h => st i j h.2.1) hm hp.2.le (by omega) hk.le hl1 hl2 hl3 hldb hA1 hA2 hA3 hstack hal hC

end

/-- C88 (dense, explicit second operator). If `d < k`, the second operator can be drawn by itself: the trailing `k` columns of the operator from the
larger distribution are the `d x k` operator whose seed is the first operator's `next_state`. -/
theorem C88_second_dense [Mul T] {G : Gen N K W T} {sqrt3 : T} {d m k : Int} {fam : ScalarDist} {s : RNGState N K}
    {D D1 D2 : DenseDist} {S1 : DenseSkOp N K T} (hG : G.Ok) (h1 : mkDenseDist d m fam .Short = .ok D1)
    (h2 : mkDenseDist d k fam .Short = .ok D2) (h : mkDenseDist d (m + k) fam .Short = .ok D)
    (hS1 : mkDenseSkOp G.len D1 s = .ok S1) (hm : d < m) (hk : d < k) (hfit : d * (m + k) ≤ intMax 64) :
    ∃ A A1 A2, Samples G sqrt3 D s A ∧ Samples G sqrt3 D1 s A1 ∧ Samples G sqrt3 D2 S1.nextState A2 ∧
      (∀ i j, InR d m i j → A i j = A1 i j) ∧ (∀ i j, InR d k i j → A i (m + j) = A2 i j) := by
  have hlen : 0 < G.len := by rcases hG with h | h <;> rw [h] <;> decide
  obtain ⟨hd, hm0⟩ := mkDenseDist_pos h1
  have hD1 := denseDistOk_of_mk h1 (by nlinarith)
  have hD2 := denseDistOk_of_mk h2 (by nlinarith)
  have hD := denseDistOk_of_mk h hfit
  have e := fun i j => denseEntry_colMajor (G := G) (sqrt3 := sqrt3) (seed := s) (i := i) (j := j) hd (by omega) h
    (by simp [naturalLayout, show d < m + k by omega])
  have e1 := fun i j => denseEntry_colMajor (G := G) (sqrt3 := sqrt3) (seed := s) (i := i) (j := j) hd hm0 h1
    (by simp [naturalLayout, hm])
  have e2 := fun i j => denseEntry_colMajor (G := G) (sqrt3 := sqrt3) (seed := S1.nextState) (i := i) (j := j) hd (by omega) h2
    (by simp [naturalLayout, hk])
  refine ⟨_, _, _, samples_denseEntry hG hD, samples_denseEntry hG hD1, samples_denseEntry hG hD2, ?_, ?_⟩
  · intro i j hij
    rw [(e i j).1, (e1 i j).1]
  · intro i j hij
    rw [(e i _).1, (e2 i j).1, mkDenseSkOp_next hlen hD1 hS1, (e1 0 0).2.1, (e1 0 0).2.2]
    unfold denseRaw
    congr 2
    push_cast; ring

theorem saso_stack [One T] [Neg T] {G : Gen N K W R} {seed : RNGState N K} {k n r t : Int} (hk : 0 < k) (hr : 0 ≤ r) (ht : 0 ≤ t) :
    sasoTriples (T := T) G seed k n (r + t) =
      sasoTriples G seed k n r ++ (sasoTriples G (advance seed (r * k)) k n t).map fun e => (e.1, r + e.2.1, e.2.2) := by
  unfold sasoTriples
  have h1 := mul_nonneg hr hk.le
  have h2 := mul_nonneg ht hk.le
  rw [show ((r + t) * k).toNat = (r * k).toNat + (t * k).toNat by rw [add_mul]; omega, List.range_add, List.map_append, List.map_map, List.map_map]
  congr 1
  refine List.map_congr_left fun q _ => ?_
  have hp : ((((r * k).toNat + q : Nat)) : Int) = r * k + q := by push_cast; omega
  simp only [Function.comp_apply]
  rw [hp]
  have hdiv : (r * k + (q : Int)) / k = r + (q : Int) / k := by rw [add_comm, Int.add_mul_ediv_right _ _ hk.ne', add_comm]
  have hmod : (r * k + (q : Int)) % k = (q : Int) % k := by rw [add_comm, Int.add_mul_emod_self_right]
  have hcast : ∀ x : Int, seed.counter + ((r * k + x : Int) : ZMod N) = (advance seed (r * k)).counter + ((x : Int) : ZMod N) := by
    intro x; unfold advance; push_cast; ring
  refine Prod.ext ?_ (Prod.ext hdiv ?_)
  · dsimp only
    unfold fyIdx
    rw [hdiv, hmod]
    have : fyChoice G seed k (r + (q : Int) / k) = fyChoice G (advance seed (r * k)) k ((q : Int) / k) := by
      funext j
      unfold fyChoice
      rw [show (r + (q : Int) / k) * k + (j : Int) = r * k + ((q : Int) / k * k + j) by ring, hcast]
      rfl
    rw [this]
  · dsimp only
    unfold fySign
    rw [hcast]
    rfl

/-- C88 (sparse, explicit second operator). The same for `d x k` sparse operators with `d <= k`. -/
theorem C88_second_sparse [Field R] [LinearOrder R] [FloorRing R] [Ring T] {G : Gen N K W R} {sqrt : T → T} {seed : RNGState N K}
    {d m k nz : Int} {D1 D2 D : SparseDist} (hG : G.Ok) (hsqrt : sqrt 1 = 1) (hm : d ≤ m) (hk : d ≤ k)
    (e1 : mkSparseDist d m nz .Short = .ok D1) (e2 : mkSparseDist d k nz .Short = .ok D2) (e : mkSparseDist d (m + k) nz .Short = .ok D)
    (hfit : 2 * (nz * (m + k)) ≤ intMax 64) :
    ∃ A1 A2, SparseSamples G sqrt D1 seed A1 ∧
      SparseSamples G sqrt D2 (mkSparseSkOp G.len D1 seed : SparseSkOp N K T).nextState A2 ∧
      SparseSamples G sqrt D seed (fun i j => if j < m then A1 i j else A2 i (j - m)) := by
  obtain ⟨a, b, c, f, g, ok⟩ := sparseDist_of_mk e
  obtain ⟨x1, b1, c1, f1, g1, ok1⟩ := sparseDist_of_mk e1
  obtain ⟨x2, b2, c2, f2, g2, ok2⟩ := sparseDist_of_mk e2
  simp only [reduceCtorEq, if_false] at g g1 g2
  have hp : 0 < nz ∧ 0 < d := by
    by_contra hcon
    rw [(C16_sparse_dist d m nz .Short).2 (fun h => hcon ⟨h.2.2.1, h.1⟩)] at e1; cases e1
  rw [max_eq_right (by omega)] at g g1 g2
  have hD := ok (by rw [g]; exact hfit)
  have hD1 := ok1 (by rw [g1]; nlinarith)
  have hD2 := ok2 (by rw [g2]; nlinarith)
  obtain ⟨A1, s1, -⟩ := C14_well_defined (sqrt := sqrt) (G := G) (seed := seed) hG hsqrt hD1
  obtain ⟨A2, s2, -⟩ := C14_well_defined (sqrt := sqrt) (G := G) (seed := (mkSparseSkOp G.len D1 seed : SparseSkOp N K T).nextState) hG hsqrt hD2
  refine ⟨A1, A2, s1, s2, sparseSamples_of_run hG hsqrt hD fun E hE i j => ?_⟩
  obtain ⟨E1, r1, t1⟩ := sparseSamples_run hG hsqrt hD1 s1
  obtain ⟨E2, r2, t2⟩ := sparseSamples_run hG hsqrt hD2 s2
  obtain ⟨-, -, -, -, -, -, ax⟩ := sparseDist_facts hD
  obtain ⟨-, -, -, v1, -, -, ax1⟩ := sparseDist_facts hD1
  obtain ⟨-, -, -, v2, -, -, ax2⟩ := sparseDist_facts hD2
  rw [f] at ax; rw [f1] at ax1; rw [f2] at ax2
  simp only [reduceCtorEq, false_and, or_false, true_and] at ax ax1 ax2
  rw [a, b] at ax; rw [x1, b1] at ax1; rw [x2, b2] at ax2
  have hnext : (mkSparseSkOp G.len D1 seed : SparseSkOp N K T).nextState = advance seed (m * nz) := by
    show sparseNextState G.len D1 seed = _
    rw [sparseNextState_eq hG hD1]
    unfold sparseCounters; rw [if_pos f1, c1]
    obtain ⟨-, -, -, -, -, -, ax1⟩ := sparseDist_facts hD1
    rw [f1] at ax1
    simp only [reduceCtorEq, false_and, or_false, true_and] at ax1
    rw [x1, b1] at ax1
    rw [show D1.dimMinor = m by omega]
  rw [hnext] at r2
  rcases hE with ⟨-, hE⟩ | ⟨x, -⟩
  swap
  · rw [f] at x; cases x
  rcases r1 with ⟨-, r1⟩ | ⟨x, -⟩
  swap
  · rw [f1] at x; cases x
  rcases r2 with ⟨-, r2⟩ | ⟨x, -⟩
  swap
  · rw [f2] at x; cases x
  rw [c, show D.dimMinor = m + k by omega, show D.dimMajor = d by omega, saso_stack hp.1 (by omega) (by omega)] at hE
  rw [c1, show D1.dimMinor = m by omega, show D1.dimMajor = d by omega] at r1
  rw [c2, show D2.dimMinor = k by omega, show D2.dimMajor = d by omega] at r2
  rw [toMat_triples_row (by omega), ← t1 i j, ← t2 i (j - m), toMat_triples_row (by omega), toMat_triples_row (by omega), hE, ← r1, ← r2]
  have m1 : ∀ e ∈ E1, e.2.1 < m := by
    intro e he
    rw [r1] at he
    exact (saso_mem (by omega) (by omega) he).2.2.2.1
  have m2 : ∀ e ∈ E2, 0 ≤ e.2.1 := by
    intro e he
    rw [r2] at he
    exact (saso_mem (by omega) (by omega) he).2.2.1
  rw [List.filter_append]
  split_ifs with h
  · rw [(List.filter_eq_nil_iff (l := E2.map _)).mpr, List.append_nil]
    intro e he
    obtain ⟨e', he', rfl⟩ := List.mem_map.mp he
    have := m2 e' he'
    simp only [decide_eq_true_eq, not_and]; intro; omega
  · rw [(List.filter_eq_nil_iff (l := E1)).mpr, List.nil_append, List.filter_map, List.map_map]
    · congr 2
      refine List.filter_congr fun e _ => ?_
      simp only [Function.comp_apply]
      exact decide_eq_decide.mpr ⟨fun h => ⟨h.1, by omega⟩, fun h => ⟨h.1, by omega⟩⟩
    · intro e he
      have := m1 e he
      simp only [decide_eq_true_eq, not_and]; intro; omega

theorem scale_combine {a b : ℝ} (ha : 0 < a) (hb : 0 < b) :
    ((a + b)⁻¹ ^ ((2 : ℝ)⁻¹)) = ((a⁻¹ ^ ((2 : ℝ)⁻¹)) ^ (-2 : ℝ) + (b⁻¹ ^ ((2 : ℝ)⁻¹)) ^ (-2 : ℝ)) ^ (-(1 / 2) : ℝ) := by
  have h : ∀ x : ℝ, 0 < x → (x⁻¹ ^ ((2 : ℝ)⁻¹)) ^ (-2 : ℝ) = x := by
    intro x hx
    rw [← Real.rpow_mul (by positivity), show ((2 : ℝ)⁻¹) * (-2) = -1 by norm_num, Real.rpow_neg_one, inv_inv]
  rw [h a ha, h b hb, Real.rpow_neg (by positivity), Real.inv_rpow (by positivity), one_div]

/-- C87 (isometry scale, dense). -/
theorem C87_isometry_dense {d1 d2 m : Int} {fam : ScalarDist} {D1 D2 D : DenseDist} (hlt : d1 + d2 < m)
    (h : mkDenseDist d1 m fam .Long = .ok D1 ∧ mkDenseDist d2 m fam .Long = .ok D2 ∧ mkDenseDist (d1 + d2) m fam .Long = .ok D ∨
      mkDenseDist m d1 fam .Long = .ok D1 ∧ mkDenseDist m d2 fam .Long = .ok D2 ∧ mkDenseDist m (d1 + d2) fam .Long = .ok D) :
    D.isometryScale = (D1.isometryScale ^ (-2 : ℝ) + D2.isometryScale ^ (-2 : ℝ)) ^ (-(1 / 2) : ℝ) := by
  have key : D1.dimMinor = d1 ∧ D2.dimMinor = d2 ∧ D.dimMinor = d1 + d2 ∧ 0 < d1 ∧ 0 < d2 := by
    rcases h with ⟨e1, e2, e⟩ | ⟨e1, e2, e⟩
    · obtain ⟨p1, pm⟩ := mkDenseDist_pos e1
      obtain ⟨p2, -⟩ := mkDenseDist_pos e2
      rw [mkDenseDist_eq p1 pm] at e1; cases e1
      rw [mkDenseDist_eq p2 pm] at e2; cases e2
      rw [mkDenseDist_eq (by omega) pm] at e; cases e
      simp only [if_true]; omega
    · obtain ⟨pm, p1⟩ := mkDenseDist_pos e1
      obtain ⟨-, p2⟩ := mkDenseDist_pos e2
      rw [mkDenseDist_eq pm p1] at e1; cases e1
      rw [mkDenseDist_eq pm p2] at e2; cases e2
      rw [mkDenseDist_eq pm (by omega)] at e; cases e
      simp only [if_true]; omega
  obtain ⟨m1, m2, m0, p1, p2⟩ := key
  have q1 : (0 : ℝ) < d1 := by exact_mod_cast p1
  have q2 : (0 : ℝ) < d2 := by exact_mod_cast p2
  have r : ∀ x : ℝ, 0 < x → x ^ (-0.5 : ℝ) = x⁻¹ ^ ((2 : ℝ)⁻¹) := by
    intro x hx
    rw [Real.inv_rpow hx.le, ← Real.rpow_neg hx.le]; norm_num
  unfold DenseDist.isometryScale
  rw [m1, m2, m0, r _ q1, r _ q2, Int.cast_add, r _ (by positivity)]
  exact scale_combine q1 q2

/-- C87 (isometry scale, sparse). -/
theorem C87_isometry_sparse {d1 d2 m nz : Int} {D1 D2 D : SparseDist} (p1 : 0 < d1) (p2 : 0 < d2) (hlt : d1 + d2 ≤ m)
    (h : mkSparseDist d1 m nz .Long = .ok D1 ∧ mkSparseDist d2 m nz .Long = .ok D2 ∧ mkSparseDist (d1 + d2) m nz .Long = .ok D ∨
      mkSparseDist m d1 nz .Long = .ok D1 ∧ mkSparseDist m d2 nz .Long = .ok D2 ∧ mkSparseDist m (d1 + d2) nz .Long = .ok D) :
    D.isometryScale = (D1.isometryScale ^ (-2 : ℝ) + D2.isometryScale ^ (-2 : ℝ)) ^ (-(1 / 2) : ℝ) := by
  have aux : ∀ {r c d : Int} {D : SparseDist}, mkSparseDist r c nz .Long = .ok D → min r c = d → max r c = m →
      D.isometryScale = ((nz : ℝ) * d / m)⁻¹ ^ ((2 : ℝ)⁻¹) ∧ 0 < nz := by
    intro r c d D e hmin hmax
    have hp : 0 < r ∧ 0 < c ∧ 0 < nz ∧ nz ≤ (if (Axis.Long) = .Long then max r c else min r c) := by
      by_contra hcon
      rw [(C16_sparse_dist r c nz .Long).2 hcon] at e; cases e
    obtain ⟨D', e', -, -, z, f, hd, hl, -⟩ := (C16_sparse_dist r c nz .Long).1 hp
    rw [e] at e'; cases e'
    have := hl rfl
    unfold SparseDist.isometryScale isometryScale
    rw [f, z, show D.dimMajor = m by omega, show D.dimMinor = d by omega, if_neg (by decide), Real.sqrt_eq_rpow, inv_div, one_div]
    exact ⟨rfl, hp.2.2.1⟩
  have q1 : (0 : ℝ) < d1 := by exact_mod_cast p1
  have q2 : (0 : ℝ) < d2 := by exact_mod_cast p2
  have qm : (0 : ℝ) < m := by exact_mod_cast (show 0 < m by omega)
  have fin : ∀ {x1 x2 x : ℝ}, 0 < nz → x1 = ((nz : ℝ) * d1 / m)⁻¹ ^ ((2 : ℝ)⁻¹) → x2 = ((nz : ℝ) * d2 / m)⁻¹ ^ ((2 : ℝ)⁻¹) →
      x = ((nz : ℝ) * ((d1 + d2 : Int) : ℝ) / m)⁻¹ ^ ((2 : ℝ)⁻¹) → x = (x1 ^ (-2 : ℝ) + x2 ^ (-2 : ℝ)) ^ (-(1 / 2) : ℝ) := by
    intro x1 x2 x hz h1 h2 h
    have qz : (0 : ℝ) < nz := by exact_mod_cast hz
    rw [h1, h2, h, ← scale_combine (by positivity) (by positivity)]
    congr 2
    push_cast; ring
  rcases h with ⟨e1, e2, e⟩ | ⟨e1, e2, e⟩
  · obtain ⟨a1, hz⟩ := aux e1 (d := d1) (by omega) (by omega)
    exact fin hz a1 (aux e2 (d := d2) (by omega) (by omega)).1 (aux e (d := d1 + d2) (by omega) (by omega)).1
  · obtain ⟨a1, hz⟩ := aux e1 (d := d1) (by omega) (by omega)
    exact fin hz a1 (aux e2 (d := d2) (by omega) (by omega)).1 (aux e (d := d1 + d2) (by omega) (by omega)).1

/-! ## Examples -/

/-- C87 (dense) applies: one row and two more rows of a sketch of a 7 x 2 matrix. -/
example : ∃ (D1 D2 D : DenseDist) (S1 S2 S : DenseSkOp (2 ^ 128) Nat ℤ) (b' : Buf ℤ) (T1 T2 T3 T4 : SkOp (2 ^ 128) Nat ℤ),
    mkDenseDist 1 7 .Uniform .Long = .ok D1 ∧ mkDenseDist 2 7 .Uniform .Long = .ok D2 ∧ mkDenseDist (1 + 2) 7 .Uniform .Long = .ok D ∧
    mkDenseSkOp 4 D1 ⟨5, 3⟩ = .ok S1 ∧ mkDenseSkOp 4 D2 S1.nextState = .ok S2 ∧ mkDenseSkOp 4 D ⟨5, 3⟩ = .ok S ∧
    growL exSkEnv .ColMajor .NoTrans .NoTrans 1 2 2 7 1 (fun p => .val (p + 1)) 7 0 3 ((.dense S1, .dense S2), Buf.alloc ℤ 6) = (.ok (), ((T1, T2), b')) ∧
    growLSub exSkEnv .ColMajor .NoTrans .NoTrans 1 2 2 7 1 (fun p => .val (p + 1)) 7 0 3 (.dense S, Buf.alloc ℤ 6) = (.ok (), (T3, b')) ∧
    sketchGeneralLFull exSkEnv .ColMajor .NoTrans .NoTrans (1 + 2) 2 7 1 (fun p => .val (p + 1)) 7 0 3 (.dense S, Buf.alloc ℤ 6) = (.ok (), (T4, b')) := by
  obtain ⟨b', T1, T2, T3, T4, a, b, c⟩ := C87_left_dense exSkEnv_ok (d1 := 1) (d2 := 2) (m := 7) (n := 2) (fam := .Uniform) (s := ⟨5, 3⟩) rfl rfl rfl
    (by decide) (by decide) ⟨_, rfl, Or.inl rfl⟩ ⟨_, rfl, Or.inl rfl⟩ ⟨_, rfl, Or.inl rfl⟩ (layout := .ColMajor) (opA := .NoTrans) (alpha := 1) (beta := 0)
    (A := fun p => .val (p + 1)) (b := Buf.alloc ℤ 6) (lda := 7) (ldb := 3) (Am := fun i j => addr .ColMajor 7 i j + 1) (C := fun _ _ => 0)
    (by decide) (by unfold LdOk; decide) (by unfold LdOk; decide) (fun _ i j _ => rfl)
    (by
      intro i j hij
      simp only [addr]
      simp only [Buf.alloc]
      unfold InR at hij
      rw [if_pos (by omega)]; simp) (fun h => absurd rfl h)
  exact ⟨_, _, _, _, _, _, b', T1, T2, T3, T4, rfl, rfl, rfl, rfl, rfl, rfl, a, b, c⟩

theorem exGenQ_sample (s : RNGState (2 ^ 128) Nat) (k i t : Int) : lasoSample exGenQ s 8 k i t ≠ 0 := by
  have h : ∀ x : Int, 0 ≤ x → x < 3 → ⌊((8 : Int) : ℚ) * ((((x : ℚ) - 1) / 2 + 1) / 2)⌋ ≠ 0 := by
    intro x h0 h1
    have : ⌊((8 : Int) : ℚ) * ((((x : ℚ) - 1) / 2 + 1) / 2)⌋ = 2 * x + 2 := by
      rw [Int.floor_eq_iff]; push_cast; constructor <;> linarith
    omega
  exact h _ (Int.emod_nonneg _ (by decide)) (Int.emod_lt_of_pos _ (by decide))

/-- C87 (sparse) applies: `LeftOk` holds for the operators and blocks with 1, 2 and 3 rows, 8 columns and 2 nonzeros per row. -/
example : ∃ (D1 D2 D : SparseDist) (M1 M2 Sm : Int → Int → ℤ),
    mkSparseDist 1 8 2 .Long = .ok D1 ∧ mkSparseDist 2 8 2 .Long = .ok D2 ∧ mkSparseDist (1 + 2) 8 2 .Long = .ok D ∧
    LeftOk exSkEnv (1 : ℤ) (.sparse (mkSparseSkOp 4 D1 ⟨0, 7⟩)) M1 .NoTrans 1 8 0 0 ∧
    LeftOk exSkEnv (1 : ℤ) (.sparse (mkSparseSkOp 4 D2 (mkSparseSkOp 4 D1 ⟨0, 7⟩ : SparseSkOp (2 ^ 128) Nat ℤ).nextState)) M2 .NoTrans 2 8 0 0 ∧
    LeftOk exSkEnv (1 : ℤ) (.sparse (mkSparseSkOp 4 D ⟨0, 7⟩)) Sm .NoTrans (1 + 2) 8 0 0 ∧
    LeftOk exSkEnv (1 : ℤ) (.sparse (mkSparseSkOp 4 D ⟨0, 7⟩)) Sm .NoTrans 1 8 0 0 ∧
    LeftOk exSkEnv (1 : ℤ) (.sparse (mkSparseSkOp 4 D ⟨0, 7⟩)) Sm .NoTrans 2 8 1 0 := by
  have key : ∀ (D : SparseDist) (s : RNGState (2 ^ 128) Nat), SparseDistOk D → D.majorAxis = .Long → D.nCols = 8 → D.nRows ≤ 8 →
      ∃ Sm, ∀ d ro, 0 < d → 0 ≤ ro → d + ro ≤ D.nRows → LeftOk exSkEnv (1 : ℤ) (.sparse (mkSparseSkOp 4 D s)) Sm .NoTrans d 8 ro 0 := by
    intro D s hD hax hc hr
    obtain ⟨Sm, hSm, -⟩ := C14_well_defined (G := exSkEnv.GS) (sqrt := exSkEnv.sqrt) (seed := s) exSkEnv_ok.genS exSkEnv_ok.sqrt hD
    refine ⟨Sm, fun d ro hd hro hdr => ?_⟩
    have := leftOk_long exSkEnv_ok (D := D) (s := s) (alpha := 1) hD (Or.inl rfl) hax hSm
      (fun c t => ⟨(exGenQ_unif _ _).1.le, (exGenQ_unif _ _).2⟩) (by omega) hro hdr
      ⟨ro, 0, le_rfl, by omega, le_rfl, (sparseDist_facts hD).2.2.1, by rw [hc]; exact exGenQ_sample _ _ _ _⟩
    rwa [hc] at this
  obtain ⟨M1, a⟩ := key ⟨1, 8, .Long, 8, 1, 2, 2⟩ ⟨0, 7⟩ ⟨rfl, by decide⟩ rfl rfl (by decide)
  obtain ⟨M2, b⟩ := key ⟨2, 8, .Long, 8, 2, 2, 4⟩ (mkSparseSkOp 4 ⟨1, 8, .Long, 8, 1, 2, 2⟩ ⟨0, 7⟩ : SparseSkOp (2 ^ 128) Nat ℤ).nextState
    ⟨rfl, by decide⟩ rfl rfl (by decide)
  obtain ⟨Sm, c⟩ := key ⟨3, 8, .Long, 8, 3, 2, 6⟩ ⟨0, 7⟩ ⟨rfl, by decide⟩ rfl rfl (by decide)
  exact ⟨_, _, _, M1, M2, Sm, rfl, rfl, rfl, a 1 0 (by decide) (by decide) (by decide), b 2 0 (by decide) (by decide) (by decide),
    c _ 0 (by decide) (by decide) (by decide), c 1 0 (by decide) (by decide) (by decide), c 2 1 (by decide) (by decide) (by decide)⟩

/-- The same for tall operators after `fill_sparse`. -/
example : ∃ (D : SparseDist) (S : SparseSkOp (2 ^ 128) Nat ℤ) (Sm : Int → Int → ℤ), mkSparseDist 8 (1 + 2) 2 .Long = .ok D ∧
    fillSparse exSkEnv.GS exSkEnv.sqrt exSkEnv.order (mkSparseSkOp 4 D ⟨0, 7⟩) = (.ok (), S) ∧
    RightOk exSkEnv (1 : ℤ) (.sparse S) Sm .NoTrans 8 (1 + 2) 0 0 ∧
    RightOk exSkEnv (1 : ℤ) (.sparse S) Sm .NoTrans 8 1 0 0 ∧ RightOk exSkEnv (1 : ℤ) (.sparse S) Sm .NoTrans 8 2 0 1 := by
  have hD : SparseDistOk ⟨8, 3, .Long, 8, 3, 2, 6⟩ := ⟨rfl, by decide⟩
  obtain ⟨Sm, hSm, -⟩ := C14_well_defined (G := exSkEnv.GS) (sqrt := exSkEnv.sqrt) (seed := ⟨0, 7⟩) exSkEnv_ok.genS exSkEnv_ok.sqrt hD
  obtain ⟨-, S, e, -⟩ := fill_run exSkEnv_ok (mkSparseSkOp_ok (T := ℤ) exSkEnv.GS.len hD ⟨0, 7⟩)
  have key : ∀ d co, 0 < d → 0 ≤ co → d + co ≤ 3 → RightOk exSkEnv (1 : ℤ) (.sparse S) Sm .NoTrans 8 d 0 co := fun d co hd hco hdc =>
    rightOk_long exSkEnv_ok (alpha := 1) hD e rfl hSm (fun c t => ⟨(exGenQ_unif _ _).1.le, (exGenQ_unif _ _).2⟩) (by decide) hco hdc
      ⟨co, 0, le_rfl, by omega, le_rfl, by decide, exGenQ_sample _ _ _ _⟩
  exact ⟨_, S, Sm, rfl, e, key _ 0 (by decide) (by decide) (by decide), key 1 0 (by decide) (by decide) (by decide), key 2 1 (by decide) (by decide) (by decide)⟩

/-- C88 applies to a sketch of a 7 x 2 matrix to which 4 rows are added, with 3 rows: dense and sparse distributions. -/
example : (∃ D1 D D2, mkDenseDist 3 7 .Gaussian .Short = .ok D1 ∧ mkDenseDist 3 (7 + 4) .Gaussian .Short = .ok D ∧ mkDenseDist 3 4 .Gaussian .Short = .ok D2) ∧
    (∃ D1 D D2, mkSparseDist 3 7 2 .Short = .ok D1 ∧ mkSparseDist 3 (7 + 4) 2 .Short = .ok D ∧ mkSparseDist 3 4 2 .Short = .ok D2) ∧
    (3 : Int) * (7 + 4) ≤ intMax 64 ∧ 2 * (2 * (7 + 4)) ≤ intMax 64 ∧
    Holds (fun p => .val (p + 1) : Buf ℤ) .ColMajor 11 11 2 (fun i j => addr .ColMajor 11 i j + 1) ∧
    Holds (Buf.shift (fun p => .val (p + 1) : Buf ℤ) 7) .ColMajor 11 4 2 (fun i j => addr .ColMajor 11 (7 + i) j + 1) := by
  refine ⟨⟨_, _, _, rfl, rfl, rfl⟩, ⟨_, _, _, rfl, rfl, rfl⟩, by decide, by decide, fun i j _ => rfl, fun i j _ => ?_⟩
  simp only [Buf.shift, addr]; congr 1; ring

/-- The hypotheses of C49 (right) are met: rows 0-1 and row 2 of columns 3-5 of the new operator `exDense`. -/
example : RightOk exSkEnv (1 : ℤ) (.dense exDense) exDenseMat .NoTrans 2 3 0 3 ∧
    RightOk exSkEnv (1 : ℤ) (.dense exDense) exDenseMat .NoTrans 1 3 (nextWindow (Op.flip .NoTrans) 0 3 2).1 (nextWindow (Op.flip .NoTrans) 0 3 2).2 ∧
    RightOk exSkEnv (1 : ℤ) (.dense exDense) exDenseMat .NoTrans (2 + 1) 3 0 3 :=
  ⟨⟨exDense_is, by unfold InOp exDense; decide, fun _ => by decide⟩, ⟨exDense_is, by unfold InOp exDense; decide, fun _ => by decide⟩,
    ⟨exDense_is, by unfold InOp exDense; decide, fun _ => by decide⟩⟩

end RB
