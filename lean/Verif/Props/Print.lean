import Verif.Spec.Print
import Verif.Props.Sparse
import Verif.Props.RngWords
import Std.Data.String.ToNat
import Std.Data.String.ToInt

/-!
# C50, C53, C54: printed text

`fmt p x` is the text the stream writes for the number `x` at precision `p`; it is arbitrary.
-/

namespace RB
open Spec
variable {N : Nat} {K W R T : Type}

namespace OStream

theorem wp_put {t : String} {s : OStream} {Q : Unit → OStream → Prop} : M.wp (put t) s Q ↔ Q () ⟨s.text ++ t, s.prec⟩ := by
  unfold put; rw [M.wp_modify]

theorem wp_num {fmt : Int → T → String} {v : T} {s : OStream} {Q : Unit → OStream → Prop} :
    M.wp (num fmt v) s Q ↔ Q () ⟨s.text ++ fmt s.prec v, s.prec⟩ := by
  unfold num; rw [M.wp_bind, M.wp_get, wp_put]

theorem wp_endl {s : OStream} {Q : Unit → OStream → Prop} : M.wp endl s Q ↔ Q () ⟨s.text ++ "\n", s.prec⟩ := by
  unfold endl; rw [wp_put]

theorem put_run (t : String) (s : OStream) : put t s = (.ok (), ⟨s.text ++ t, s.prec⟩) := rfl

end OStream
open OStream

theorem M.pure_run {σ α : Type} (a : α) (s : σ) : (pure a : M σ α) s = (.ok a, s) := rfl

/-! ## Text lemmas -/

/-- Concatenation of `f 0, ..., f (n - 1)`. -/
def catN : Nat → (Nat → String) → String
  | 0, _ => ""
  | n + 1, f => catN n f ++ f n

theorem intercalate_range (sep : String) (f : Nat → String) (n : Nat) :
    sep.intercalate ((List.range (n + 1)).map f) = catN n (fun k => f k ++ sep) ++ f n := by
  induction n with
  | zero => simp [catN]
  | succ n ih =>
    rw [List.range_succ, List.map_append, String.intercalate_append_of_ne_nil (by simp) (by simp), ih]
    simp [catN, String.append_assoc]

theorem join_append' (a b : List String) : String.join (a ++ b) = String.join a ++ String.join b := by
  simp [String.join_append]

theorem listed_range (f : Nat → String) (n : Nat) : listed ((List.range n).map f) = catN n (fun k => f k ++ ", ") := by
  induction n with
  | zero => simp [listed, catN]
  | succ n ih =>
    unfold listed at ih ⊢
    rw [List.range_succ, List.map_append, List.map_append, join_append', ih]
    simp [catN]

theorem wp_catLoop {n : Nat} {body : Nat → M OStream Unit} {f : Nat → String} {s : OStream}
    (h : ∀ k t, k < n → M.wp (body k) ⟨t, s.prec⟩ (fun _ s' => s' = ⟨t ++ f k, s.prec⟩)) :
    M.wp (forN n body) s (fun _ s' => s' = ⟨s.text ++ catN n f, s.prec⟩) := by
  apply M.wp_forN (fun k s' => s' = ⟨s.text ++ catN k f, s.prec⟩)
  · simp [catN]
  · rintro k s' hk rfl
    refine M.wp_mono (h k _ hk) ?_
    rintro - s' rfl
    simp [catN, String.append_assoc]
  · intro s' h; exact h

/-! ## C50 -/

theorem printRow_spec {fmt : Int → T → String} {nRows nCols : Int} {A : Buf T} {irs ics : Int} {ms me ae : String} {i : Int}
    {X : Int → T} {s : OStream} (hn : 1 ≤ nCols) (hA : ∀ j, 0 ≤ j → j < nCols → A (i * irs + j * ics) = .val (X j)) :
    M.wp (printRow fmt nRows nCols A irs ics ms me ae i) s (fun _ s' => s' = ⟨s.text ++ (ms ++ rowText ((List.range nCols.toNat).map fun j : Nat =>
      fmt s.prec (X j)) ++ if i < nRows - 1 then me else ae), s.prec⟩) := by
  obtain ⟨n, rfl⟩ : ∃ n : Nat, nCols = n + 1 := ⟨(nCols - 1).toNat, by omega⟩
  unfold printRow
  rw [M.wp_bind, wp_put, M.wp_bind]
  unfold forI
  rw [show ((n : Int) + 1 - 1 - 0).toNat = n by omega]
  refine M.wp_mono (wp_catLoop (f := fun k => "  " ++ fmt s.prec (X k) ++ ",") ?_) ?_
  · intro k t hk
    dsimp only
    rw [M.wp_bind, M.wp_lift]
    refine ⟨X k, ?_, ?_⟩
    · rw [Buf.rd_eq_ok]
      have := hA k (by omega) (by omega)
      simpa using this
    · rw [M.wp_bind, wp_put, M.wp_bind, wp_num, wp_put]
      simp [String.append_assoc]
  · rintro - s' rfl
    rw [M.wp_bind, M.wp_lift]
    refine ⟨X n, ?_, ?_⟩
    · rw [Buf.rd_eq_ok, show max 0 ((n : Int) + 1 - 1) = n by omega]
      exact hA n (by omega) (by omega)
    · rw [M.wp_bind, wp_put, M.wp_bind, wp_num]
      have : rowText ((List.range ((n : Int) + 1).toNat).map fun j : Nat => fmt s.prec (X j)) =
          catN n (fun k => "  " ++ fmt s.prec (X k) ++ ",") ++ ("  " ++ fmt s.prec (X n)) := by
        rw [show ((n : Int) + 1).toNat = n + 1 by omega]
        unfold rowText
        rw [List.map_map]
        exact intercalate_range "," (fun k => "  " ++ fmt s.prec (X k)) n
      rw [this]
      split_ifs <;> rw [wp_put] <;> simp [String.append_assoc]

theorem catN_congr {n : Nat} {f g : Nat → String} (h : ∀ k, k < n → f k = g k) : catN n f = catN n g := by
  induction n with
  | zero => rfl
  | succ n ih => unfold catN; rw [ih fun k hk => h k (by omega), h n (by omega)]

/-- C50. For a matrix with at least one row and one column, the text written is exactly the label, the opening of the style, the rows
with their entries from left to right (each formatted at the given precision, and separated by commas) with the style's separators, and the
closing. All reads are inside the matrix (otherwise the call would not return). Missing: matrices without rows or columns, where the code
does not have the property (see the counterexamples). -/
theorem C50_strided_partial {fmt : Int → T → String} {nRows nCols : Int} {A : Buf T} {irs ics : Int} {label : String} {decimals : Int}
    {style : ArrayStyle} {X : Int → Int → T} (s : OStream) (hm : 1 ≤ nRows) (hn : 1 ≤ nCols)
    (hA : ∀ i j, 0 ≤ i → i < nRows → 0 ≤ j → j < nCols → A (i * irs + j * ics) = .val (X i j)) :
    M.wp (printBuffStrided fmt nRows nCols A irs ics label decimals style) s (fun _ s' =>
      s'.text = s.text ++ matrixText style label (table nRows nCols fun i j => fmt decimals (X i j)) ∧ s'.prec = decimals) := by
  obtain ⟨m, rfl⟩ : ∃ m : Nat, nRows = m + 1 := ⟨(nRows - 1).toNat, by omega⟩
  unfold printBuffStrided
  rw [M.wp_bind, wp_endl, M.wp_bind, wp_put, M.wp_bind, wp_put, M.wp_bind]
  unfold setPrecision
  rw [M.wp_modify, M.wp_bind]
  unfold forI
  rw [show ((m : Int) + 1 - 0).toNat = m + 1 by omega]
  refine M.wp_mono (wp_catLoop (f := fun i => (styleStrings style).2.1 ++ rowText (rowOf nCols (fun i j => fmt decimals (X i j)) i) ++
    if (i : Int) < (m : Int) + 1 - 1 then (styleStrings style).2.2.1 else (styleStrings style).2.2.2) ?_) ?_
  · intro k t hk
    dsimp only
    rw [zero_add]
    refine M.wp_mono (printRow_spec (X := X k) hn (fun j h0 h1 => hA k j (by omega) (by omega) h0 h1)) ?_
    rintro - s' rfl
    rfl
  · rintro - s' rfl
    rw [wp_endl]
    refine ⟨?_, rfl⟩
    dsimp only
    unfold matrixText table
    rw [show ((m : Int) + 1).toNat = m + 1 by omega, List.map_map]
    have := intercalate_range (rowSep style) (fun i => rowOpen style ++ rowText (rowOf nCols (fun i j => fmt decimals (X i j)) i)) m
    rw [show ((fun r => rowOpen style ++ rowText r) ∘ fun i : Nat => rowOf nCols (fun i j => fmt decimals (X i j)) (i : Int)) =
      fun i : Nat => rowOpen style ++ rowText (rowOf nCols (fun i j => fmt decimals (X i j)) (i : Int)) from rfl, this]
    rw [show (m + 1) = m.succ from rfl, catN]
    rw [catN_congr (g := fun k : Nat => rowOpen style ++ rowText (rowOf nCols (fun i j => fmt decimals (X i j)) (k : Int)) ++ rowSep style)
      (fun k hk => by
        rw [if_pos (by omega)]
        cases style <;> rfl)]
    rw [if_neg (by omega)]
    cases style <;> simp [styleStrings, openText, closeText, rowOpen, String.append_assoc]

/-- C50 with a layout: a leading dimension that is too small is reported before anything is written; otherwise the text is that of the
matrix stored in `A`. -/
theorem C50_layout_partial {fmt : Int → T → String} {layout : Layout} {nRows nCols : Int} {A : Buf T} {lda : Int} {label : String} {decimals : Int}
    {style : ArrayStyle} {X : Int → Int → T} (s : OStream) (hm : 1 ≤ nRows) (hn : 1 ≤ nCols) :
    (¬ LdOk layout lda nRows nCols → printBuff fmt layout nRows nCols A lda label decimals style s = (.throw .require, s)) ∧
    (LdOk layout lda nRows nCols → Holds A layout lda nRows nCols X →
      M.wp (printBuff fmt layout nRows nCols A lda label decimals style) s (fun _ s' =>
        s'.text = s.text ++ matrixText style label (table nRows nCols fun i j => fmt decimals (X i j)) ∧ s'.prec = decimals)) := by
  constructor
  · intro h
    unfold printBuff
    cases layout <;> exact M.bind_throw (by simp only [LdOk] at h; simp [M.require, Res.require, M.lift]; omega)
  · intro h hA
    unfold printBuff
    cases layout <;> simp only [LdOk] at h ⊢ <;> rw [M.wp_bind, M.wp_require] <;> refine ⟨h, C50_strided_partial s hm hn ?_⟩ <;>
      intro i j a b c d <;> rw [← hA i j ⟨a, b, c, d⟩] <;> simp only [addr] <;> congr 1 <;> ring

/-- The hypotheses of C50 are satisfiable, and the text is what one expects. -/
example : Holds (Buf.ofList [1, 2, 3, 4, 5, 6]) .RowMajor 3 2 3 (fun i j => 3 * i + j + 1) ∧
    matrixText .matlab "A" (table 2 3 fun i j => toString (3 * i + j + 1)) = "\nA = [ ... \n\t  1,  2,  3 ; ...\n\t  4,  5,  6 ; ...\n];\n\n" := by
  refine ⟨?_, by rfl⟩
  intro i j h
  obtain ⟨h1, h2, h3, h4⟩ := h
  have hi : i = 0 ∨ i = 1 := by omega
  have hj : j = 0 ∨ j = 1 ∨ j = 2 := by omega
  rcases hi with rfl | rfl <;> rcases hj with rfl | rfl | rfl <;> rfl

/-- For a matrix without columns the code reads an element all the same: undefined behaviour, for every matrix with a row
whose array is empty. -/
theorem C50_no_columns_counterexample (fmt : Int → T → String) (m irs ics : Int) (label : String) (d : Int) (style : ArrayStyle) (s : OStream)
    (hm : 1 ≤ m) : ∃ s', printBuffStrided fmt m 0 (Buf.alloc T 0) irs ics label d style s = (.ub, s') := by
  obtain ⟨m, rfl⟩ : ∃ k : Nat, m = k + 1 := ⟨(m - 1).toNat, by omega⟩
  have hrow : ∀ i t, ∃ s', printRow fmt (m + 1) 0 (Buf.alloc T 0) irs ics (styleStrings style).2.1 (styleStrings style).2.2.1
      (styleStrings style).2.2.2 i t = (.ub, s') := by
    intro i t
    refine ⟨⟨t.text ++ (styleStrings style).2.1, t.prec⟩, ?_⟩
    unfold printRow
    rw [M.bind_ok (put_run _ _), M.forI_empty (by omega), M.bind_ok (M.pure_run _ _)]
    apply M.bind_ub
    have hx : ∀ x, Buf.alloc T 0 x = .none := fun x => if_neg (by omega)
    simp [M.lift, Buf.rd, hx]
  have hloop : ∀ (n : Nat) t, ∃ s', forN (n + 1) (fun i : Nat => printRow fmt (m + 1) 0 (Buf.alloc T 0) irs ics (styleStrings style).2.1
      (styleStrings style).2.2.1 (styleStrings style).2.2.2 (0 + i)) t = (.ub, s') := by
    intro n
    induction n with
    | zero =>
      intro t
      obtain ⟨s', h⟩ := hrow (0 + ((0 : Nat) : Int)) t
      refine ⟨s', ?_⟩
      unfold forN
      exact (M.bind_ok (a := ()) (s' := t) rfl).trans h
    | succ n ih =>
      intro t
      obtain ⟨s', h⟩ := ih t
      refine ⟨s', ?_⟩
      rw [forN]
      exact M.bind_ub h
  unfold printBuffStrided
  obtain ⟨s', h⟩ := hloop m ⟨s.text ++ "\n" ++ label ++ (styleStrings style).1, d⟩
  refine ⟨s', ?_⟩
  rw [M.bind_ok (show endl s = _ from put_run _ _), M.bind_ok (put_run _ _), M.bind_ok (put_run _ _),
    M.bind_ok (show setPrecision d _ = (.ok (), ⟨s.text ++ "\n" ++ label ++ (styleStrings style).1, d⟩) from rfl)]
  apply M.bind_ub
  unfold forI
  rw [show ((m : Int) + 1 - 0).toNat = m + 1 by omega]
  exact h

/-- For a matrix without rows the closing is missing: the text is not that of a matrix with no rows. -/
theorem C50_no_rows_counterexample (fmt : Int → T → String) (n irs ics : Int) (A : Buf T) (label : String) (d : Int) (style : ArrayStyle) (s : OStream) :
    M.wp (printBuffStrided fmt 0 n A irs ics label d style) s (fun _ s' =>
      s'.text = s.text ++ ("\n" ++ label ++ openText style ++ "\n") ∧ s'.text ≠ s.text ++ matrixText style label []) := by
  unfold printBuffStrided
  rw [M.wp_bind, wp_endl, M.wp_bind, wp_put, M.wp_bind, wp_put, M.wp_bind]
  unfold setPrecision
  rw [M.wp_modify, M.wp_bind, M.forI_empty (le_refl _), M.wp_pure, wp_endl]
  have : s.text ++ "\n" ++ label ++ (styleStrings style).1 ++ "\n" = s.text ++ ("\n" ++ label ++ openText style ++ "\n") := by
    cases style <;> simp [styleStrings, openText, String.append_assoc]
  refine ⟨this, ?_⟩
  dsimp only
  rw [this]
  intro h
  have := congrArg String.length h
  unfold matrixText at this
  cases style <;> simp [closeText, String.length_append] at this

/-! ### The text determines the matrix -/

theorem split_inj {c : Char} {a a' b b' : List Char} (ha : c ∉ a) (ha' : c ∉ a') (h : a ++ c :: b = a' ++ c :: b') : a = a' ∧ b = b' := by
  induction a generalizing a' with
  | nil =>
    cases a' with
    | nil => simpa using h
    | cons x a' => simp at h ha'; exact absurd h.1 ha'.1
  | cons x a ih =>
    cases a' with
    | nil => simp at h ha; exact absurd h.1.symm ha.1
    | cons x' a' =>
      simp only [List.cons_append, List.cons.injEq, List.mem_cons, not_or] at h ha ha'
      obtain ⟨h1, h2⟩ := ih ha.2 ha'.2 h.2
      exact ⟨by rw [h.1, h1], h2⟩

/-- Lists of the same length whose elements do not contain the character `c` of the separator are determined by the joined text. -/
theorem intercalate_inj {sep tail : String} {pre post : List Char} {c : Char} (hsep : sep.toList = pre ++ c :: post) (hpre : c ∉ pre) :
    ∀ {l l' : List String}, l.length = l'.length → (∀ t ∈ l, c ∉ t.toList) → (∀ t ∈ l', c ∉ t.toList) →
    sep.intercalate l ++ tail = sep.intercalate l' ++ tail → l = l'
  | [], [], _, _, _, _ => rfl
  | [x], [x'], _, _, _, h => by simpa using h
  | x :: y :: l, x' :: y' :: l', hl, h1, h2, h => by
    have h := congrArg String.toList h
    rw [String.intercalate_cons_cons, String.intercalate_cons_cons] at h
    simp only [String.toList_append, hsep, List.append_assoc] at h
    have h' : (x.toList ++ pre) ++ c :: (post ++ ((sep.intercalate (y :: l)).toList ++ tail.toList)) =
        (x'.toList ++ pre) ++ c :: (post ++ ((sep.intercalate (y' :: l')).toList ++ tail.toList)) := by simpa using h
    obtain ⟨a, b⟩ := split_inj (by simp [hpre, h1 x (by simp)]) (by simp [hpre, h2 x' (by simp)]) h'
    have hx : x = x' := by rw [← String.toList_inj]; exact List.append_cancel_right a
    have hrest := intercalate_inj (l := y :: l) (l' := y' :: l') hsep hpre (by simpa using hl) (fun t ht => h1 t (List.mem_cons_of_mem _ ht))
      (fun t ht => h2 t (List.mem_cons_of_mem _ ht)) (tail := tail) (by
        rw [← String.toList_inj]; simp only [String.toList_append]; exact List.append_cancel_left b)
    rw [hx, hrest]

theorem rowText_chars {c : Char} {l : List String} (hc : c ≠ ',' ∧ c ≠ ' ') (h : ∀ t ∈ l, c ∉ t.toList) : c ∉ (rowText l).toList := by
  unfold rowText
  induction l with
  | nil => simp
  | cons x l ih =>
    cases l with
    | nil => simpa [hc] using h x (by simp)
    | cons y l =>
      have := ih (fun t ht => h t (List.mem_cons_of_mem _ ht))
      simp only [List.map_cons, String.intercalate_cons_cons, String.toList_append, List.mem_append, not_or] at this ⊢
      exact ⟨⟨⟨by simp [hc], h x (by simp)⟩, by simp [hc]⟩, this⟩

/-- C50. The text determines the printed numbers: two matrices of the same size whose texts agree have the same formatted entries. The
hypothesis on `fmt` is that the text of a number contains no comma and no line break. -/
theorem C50_text_determines {style : ArrayStyle} {label : String} {m n : Int} {f g : Int → Int → String}
    (hf : ∀ i j, ',' ∉ (f i j).toList ∧ '\n' ∉ (f i j).toList) (hg : ∀ i j, ',' ∉ (g i j).toList ∧ '\n' ∉ (g i j).toList)
    (h : matrixText style label (table m n f) = matrixText style label (table m n g)) (i j : Int) (hij : InR m n i j) : f i j = g i j := by
  unfold matrixText at h
  have key : (table m n f).map (fun r => rowOpen style ++ rowText r) = (table m n g).map (fun r => rowOpen style ++ rowText r) := by
    have hsep : ∃ pre, (rowSep style).toList = pre ++ '\n' :: [] ∧ '\n' ∉ pre := by
      cases style
      · exact ⟨[' ', ';', ' ', '.', '.', '.'], rfl, by decide⟩
      · exact ⟨[' ', ']', ','], rfl, by decide⟩
    obtain ⟨pre, h1, h2⟩ := hsep
    have hno : ∀ F : Int → Int → String, (∀ i j, '\n' ∉ (F i j).toList) →
        ∀ t ∈ (table m n F).map (fun r => rowOpen style ++ rowText r), '\n' ∉ t.toList := by
      intro F hF t ht
      obtain ⟨r, hr, rfl⟩ := List.mem_map.mp ht
      obtain ⟨k, -, rfl⟩ := List.mem_map.mp hr
      rw [String.toList_append, List.mem_append, not_or]
      refine ⟨by cases style <;> decide, rowText_chars (by decide) ?_⟩
      intro t ht
      obtain ⟨l, -, rfl⟩ := List.mem_map.mp ht
      exact hF _ _
    refine intercalate_inj (tail := closeText style ++ "\n") h1 h2 (by simp [table]) (hno f fun i j => (hf i j).2) (hno g fun i j => (hg i j).2) ?_
    rw [← String.toList_inj] at h ⊢
    simp only [String.toList_append, List.append_assoc] at h ⊢
    exact List.append_cancel_left (List.append_cancel_left (List.append_cancel_left h))
  have hrow : rowText (rowOf n f i) = rowText (rowOf n g i) := by
    obtain ⟨h1, h2, h3, h4⟩ := hij
    have := congrArg (fun l => l[i.toNat]?) key
    simp only [table, List.map_map, List.getElem?_map, List.getElem?_range (show i.toNat < m.toNat by omega), Option.map_some, Function.comp_def,
      Option.some.injEq] at this
    rw [show ((i.toNat : Nat) : Int) = i by omega] at this
    rw [← String.toList_inj] at this ⊢
    simp only [String.toList_append] at this
    exact List.append_cancel_left this
  have hfields : (rowOf n f i).map (fun t => "  " ++ t) = (rowOf n g i).map (fun t => "  " ++ t) := by
    have hno : ∀ F : Int → Int → String, (∀ i j, ',' ∉ (F i j).toList) → ∀ t ∈ (rowOf n F i).map (fun t => "  " ++ t), ',' ∉ t.toList := by
      intro F hF t ht
      obtain ⟨u, hu, rfl⟩ := List.mem_map.mp ht
      obtain ⟨k, -, rfl⟩ := List.mem_map.mp hu
      rw [String.toList_append, List.mem_append, not_or]
      exact ⟨by decide, hF _ _⟩
    refine intercalate_inj (sep := ",") (tail := "") (pre := []) (post := []) (c := ',') rfl (by simp) (by simp [rowOf])
      (hno f fun i j => (hf i j).1) (hno g fun i j => (hg i j).1) ?_
    unfold rowText at hrow
    rw [hrow]
  obtain ⟨h1, h2, h3, h4⟩ := hij
  have := congrArg (fun l => l[j.toNat]?) hfields
  simp only [rowOf, List.map_map, List.getElem?_map, List.getElem?_range (show j.toNat < n.toNat by omega), Option.map_some, Function.comp_def,
    Option.some.injEq] at this
  rw [show ((j.toNat : Nat) : Int) = j by omega] at this
  rw [← String.toList_inj] at this ⊢
  simp only [String.toList_append] at this
  exact List.append_cancel_left this

/-! ## C53 -/

theorem printArray_some {fmt : Int → T → String} {title null : String} {nnz : Int} {b : Buf T} {f : Nat → T} {s : OStream}
    (h : ∀ k : Nat, (k : Int) < nnz → b k = .val (f k)) :
    M.wp (printArray fmt title null nnz (some b)) s (fun _ s' =>
      s' = ⟨s.text ++ (title ++ listed ((List.range nnz.toNat).map fun k => fmt s.prec (f k)) ++ "\n"), s.prec⟩) := by
  unfold printArray
  dsimp only
  rw [M.wp_bind, M.wp_bind, wp_put]
  unfold forI
  rw [show (nnz - 0).toNat = nnz.toNat by omega]
  refine M.wp_mono (wp_catLoop (f := fun k => fmt s.prec (f k) ++ ", ") ?_) ?_
  · intro k t hk
    dsimp only
    rw [M.wp_bind, M.wp_lift]
    refine ⟨f k, ?_, ?_⟩
    · rw [Buf.rd_eq_ok, zero_add]; exact h k (by omega)
    · rw [M.wp_bind, wp_num, wp_put]
      simp [String.append_assoc]
  · rintro - s' rfl
    rw [wp_endl, listed_range]
    simp [String.append_assoc]

theorem printArray_none {fmt : Int → T → String} {title null : String} {nnz : Int} {s : OStream} :
    M.wp (printArray fmt title null nnz none) s (fun _ s' => s' = ⟨s.text ++ (null ++ "\n"), s.prec⟩) := by
  unfold printArray
  dsimp only
  rw [M.wp_bind, wp_put, wp_endl]
  simp [String.append_assoc]

theorem printSparse_spec {fmtI : Int → Int → String} {fmt : Int → T → String} {S : SparseSkOp N K T} {s : OStream} {tr tc tv : String}
    (hr : ∀ t, M.wp (printArray fmtI "\tvector of row indices\n\t\t" "\trows is the null pointer.\n\t\t"
      (S.dist.vecNnz * (if S.dist.majorAxis = .Short then max S.dist.nRows S.dist.nCols else min S.dist.nRows S.dist.nCols)) S.rows) ⟨t, s.prec⟩
      (fun _ s' => s' = ⟨t ++ tr, s.prec⟩))
    (hc : ∀ t, M.wp (printArray fmtI "\tvector of column indices\n\t\t" "\tcols is the null pointer.\n\t\t"
      (S.dist.vecNnz * (if S.dist.majorAxis = .Short then max S.dist.nRows S.dist.nCols else min S.dist.nRows S.dist.nCols)) S.cols) ⟨t, s.prec⟩
      (fun _ s' => s' = ⟨t ++ tc, s.prec⟩))
    (hv : ∀ t, M.wp (printArray fmt "\tvector of values\n\t\t" "\tvals is the null pointer.\n\t\t"
      (S.dist.vecNnz * (if S.dist.majorAxis = .Short then max S.dist.nRows S.dist.nCols else min S.dist.nRows S.dist.nCols)) S.vals) ⟨t, s.prec⟩
      (fun _ s' => s' = ⟨t ++ tv, s.prec⟩)) :
    M.wp (printSparse fmtI fmt S) s (fun _ s' => s'.prec = s.prec ∧ s'.text = s.text ++ ("SparseSkOp information\n" ++
      (if S.dist.majorAxis = .Short then "\tSASO: short-axis-sparse operator\n" else "\tLASO: long-axis-sparse operator\n") ++
      "\tn_rows = " ++ fmtI s.prec S.dist.nRows ++ "\n" ++ "\tn_cols = " ++ fmtI s.prec S.dist.nCols ++ "\n" ++ tr ++ tc ++ tv)) := by
  unfold printSparse
  rw [M.wp_bind, wp_put, M.wp_bind, wp_endl, M.wp_bind, wp_put, M.wp_bind, wp_endl, M.wp_bind, wp_put, M.wp_bind, wp_num, M.wp_bind, wp_endl,
    M.wp_bind, wp_put, M.wp_bind, wp_num, M.wp_bind, wp_endl]
  dsimp only
  rw [M.wp_bind]
  refine M.wp_mono (hr _) ?_
  rintro - s' rfl
  rw [M.wp_bind]
  refine M.wp_mono (hc _) ?_
  rintro - s' rfl
  refine M.wp_mono (hv _) ?_
  rintro - s' rfl
  refine ⟨rfl, ?_⟩
  dsimp only
  split_ifs <;> simp [String.append_assoc]

/-- C53. Printing a filled operator writes its dimensions and exactly its nonzeros (row indices, column indices, values, in the order of the
coordinate list `E` it represents), provided that no entries were merged when it was filled. Missing: operators with merged entries, where the
code does not have the property (see the counterexamples). -/
theorem C53_print_partial {fmtI : Int → Int → String} {fmt : Int → T → String} {S : SparseSkOp N K T} {E : List (Entry T)} (s : OStream)
    (hD : SparseDistOk S.dist) (hS : OpHolds S E) (hn : S.nnz = S.dist.fullNnz) :
    M.wp (printSparse fmtI fmt S) s (fun _ s' => s'.prec = s.prec ∧
      s'.text = s.text ++ sparseText (S.dist.majorAxis = .Short) (fmtI s.prec S.dist.nRows) (fmtI s.prec S.dist.nCols)
        (some (E.map fun e => fmtI s.prec e.row)) (some (E.map fun e => fmtI s.prec e.col)) (some (E.map fun e => fmt s.prec e.val))) := by
  obtain ⟨v, r, c, h1, h2, h3, hh, hl⟩ := hS
  obtain ⟨hR, hC, hk, hkd, hfull, hfit, hax⟩ := sparseDist_facts hD
  have hz : S.dist.vecNnz * (if S.dist.majorAxis = .Short then max S.dist.nRows S.dist.nCols else min S.dist.nRows S.dist.nCols) = E.length := by
    rw [← hl, hn, hfull]
    rcases hax with ⟨a, b, c⟩ | ⟨a, b, c⟩ <;> rw [a, c] <;> rfl
  have hlist : ∀ {V : Type} (g : Entry T → V) (F : V → String) (d : V), (List.range E.length).map (fun k => F (if h : k < E.length then g E[k] else d)) =
      E.map fun e => F (g e) := by
    intro V g F d
    apply List.ext_getElem
    · simp
    · intro k a b
      simp at a
      simp [a]
  by_cases hE : E = []
  · subst hE
    have : S.dist.fullNnz = 0 := by rw [← hn, hl]; rfl
    have hpos := mul_pos hk (show 0 < S.dist.dimMinor by rcases hax with ⟨-, -, h⟩ | ⟨-, -, h⟩ <;> omega)
    omega
  obtain ⟨e0, -⟩ := List.exists_mem_of_ne_nil E hE
  have hr : ∀ t, M.wp (printArray fmtI "\tvector of row indices\n\t\t" "\trows is the null pointer.\n\t\t" E.length S.rows) ⟨t, s.prec⟩
      (fun _ s' => s' = ⟨t ++ ("\tvector of row indices\n\t\t" ++ listed (E.map fun e => fmtI s.prec e.row) ++ "\n"), s.prec⟩) := by
    intro t
    rw [h2]
    refine M.wp_mono (printArray_some (f := fun k => if h : k < E.length then E[k].row else 0) ?_) ?_
    · intro k hk
      have hk' : k < E.length := by omega
      simp only [hk', dif_pos]
      exact (hh k hk').2.1
    · rintro - s' rfl
      rw [show ((E.length : Int)).toNat = E.length by omega, hlist Entry.row (fmtI s.prec)]
  have hc : ∀ t, M.wp (printArray fmtI "\tvector of column indices\n\t\t" "\tcols is the null pointer.\n\t\t" E.length S.cols) ⟨t, s.prec⟩
      (fun _ s' => s' = ⟨t ++ ("\tvector of column indices\n\t\t" ++ listed (E.map fun e => fmtI s.prec e.col) ++ "\n"), s.prec⟩) := by
    intro t
    rw [h3]
    refine M.wp_mono (printArray_some (f := fun k => if h : k < E.length then E[k].col else 0) ?_) ?_
    · intro k hk
      have hk' : k < E.length := by omega
      simp only [hk', dif_pos]
      exact (hh k hk').2.2
    · rintro - s' rfl
      rw [show ((E.length : Int)).toNat = E.length by omega, hlist Entry.col (fmtI s.prec)]
  have hv : ∀ t, M.wp (printArray fmt "\tvector of values\n\t\t" "\tvals is the null pointer.\n\t\t" E.length S.vals) ⟨t, s.prec⟩
      (fun _ s' => s' = ⟨t ++ ("\tvector of values\n\t\t" ++ listed (E.map fun e => fmt s.prec e.val) ++ "\n"), s.prec⟩) := by
    intro t
    rw [h1]
    refine M.wp_mono (printArray_some (f := fun k => if h : k < E.length then E[k].val else e0.val) ?_) ?_
    · intro k hk
      have hk' : k < E.length := by omega
      simp only [hk', dif_pos]
      exact (hh k hk').1
    · rintro - s' rfl
      rw [show ((E.length : Int)).toNat = E.length by omega, hlist Entry.val (fmt s.prec)]
  refine M.wp_mono (printSparse_spec (by rw [hz]; exact hr) (by rw [hz]; exact hc) (by rw [hz]; exact hv)) ?_
  rintro - s' ⟨h4, h5⟩
  refine ⟨h4, ?_⟩
  rw [h5]
  unfold sparseText
  by_cases ha : S.dist.majorAxis = .Short <;> simp [ha, String.append_assoc]

/-- C53. A short-axis operator can be printed after it was filled, and its nonzeros are what is printed. -/
theorem C53_short_axis [Field R] [LinearOrder R] [FloorRing R] [Ring T] {G : Gen N K W R} {sqrt : T → T} {order : Int → List (Int × T) → List (Int × T)}
    {S : SparseSkOp N K T} {fmtI : Int → Int → String} {fmt : Int → T → String} (s : OStream) (hG : G.Ok) (hsqrt : sqrt 1 = 1)
    (hord : ∀ i l, (order i l).Perm l) (hS : SparseOpOk S) (hax : S.dist.majorAxis = .Short) :
    M.wp (fillSparse G sqrt order) S (fun _ S' => ∃ E, OpHolds S' E ∧ (E.length : Int) = S.dist.vecNnz * max S.nRows S.nCols ∧
      M.wp (printSparse fmtI fmt S') s (fun _ s' => s'.text = s.text ++ sparseText true (fmtI s.prec S.nRows) (fmtI s.prec S.nCols)
        (some (E.map fun e => fmtI s.prec e.row)) (some (E.map fun e => fmtI s.prec e.col)) (some (E.map fun e => fmt s.prec e.val)))) := by
  have hfacts := sparseDist_facts hS.dist
  obtain ⟨hR, hC, hk, hkd, hfull, hfit, hax'⟩ := hfacts
  obtain ⟨_, S', hrun, E, v, r, c, hE, hS', hh, hle, -⟩ := fillSparse_spec hG hsqrt hord hS
  obtain ⟨_, S2, hrun2, E2, hE2, hn2, -⟩ := C11_short_axis hG hsqrt hord hS hax
  rw [hrun] at hrun2
  cases hrun2
  refine ⟨_, S', hrun, E2, hE2, ?_, ?_⟩
  · obtain ⟨_, _, _, _, _, _, _, h⟩ := hE2; rw [← h, hn2]
  · have hd : S'.dist = S.dist := by rw [hS']
    have hmin : S.dist.dimMinor = max S.dist.nRows S.dist.nCols := by
      rcases hax' with ⟨_, _, c⟩ | ⟨a, _, _⟩
      · exact c
      · rw [a] at hax; cases hax
    refine M.wp_mono (C53_print_partial s (by rw [hd]; exact hS.dist) hE2 (by rw [hn2, hd, hfull, hmin, hS.nRows, hS.nCols])) ?_
    rintro - s' ⟨-, h⟩
    rw [h, hd, hS.nRows, hS.nCols, hax]
    simp

example : SparseOpOk (mkSparseSkOp 4 exSaso ⟨0, 7⟩ : SparseSkOp (2 ^ 128) Nat Rat) ∧ exSaso.majorAxis = .Short := ⟨mkSparseSkOp_ok 4 exSaso_ok _, rfl⟩

/-- C53. For an operator that was not filled the remarks about null pointers are printed. -/
theorem C53_unfilled {fmtI : Int → Int → String} {fmt : Int → T → String} {S : SparseSkOp N K T} (s : OStream)
    (hr : S.rows = none) (hc : S.cols = none) (hv : S.vals = none) :
    M.wp (printSparse fmtI fmt S) s (fun _ s' => s'.text = s.text ++
      sparseText (S.dist.majorAxis = .Short) (fmtI s.prec S.dist.nRows) (fmtI s.prec S.dist.nCols) none none none) := by
  refine M.wp_mono (printSparse_spec (fun t => by rw [hr]; exact printArray_none) (fun t => by rw [hc]; exact printArray_none)
    (fun t => by rw [hv]; exact printArray_none)) ?_
  rintro - s' ⟨-, h⟩
  rw [h]
  unfold sparseText
  by_cases ha : S.dist.majorAxis = .Short <;> simp [ha, String.append_assoc]

theorem listed_append (a b : List String) : listed (a ++ b) = listed a ++ listed b := by
  unfold listed; rw [List.map_append, join_append']

/-- The property is false of operators with merged entries, even if the unused array elements hold (stale) values: the elements after the
last nonzero are printed as well, so the text is never that of the nonzeros. -/
theorem C53_merged_counterexample {fmtI : Int → Int → String} {fmt : Int → T → String} {S : SparseSkOp N K T} {E junk : List (Entry T)} (s : OStream)
    (hD : SparseDistOk S.dist) (hS : OpHolds S E) (hlt : S.nnz < S.dist.fullNnz) (hj : ((E ++ junk).length : Int) = S.dist.fullNnz)
    (hall : OpHolds { S with nnz := S.dist.fullNnz } (E ++ junk)) :
    M.wp (printSparse fmtI fmt S) s (fun _ s' =>
      s'.text ≠ s.text ++ sparseText (S.dist.majorAxis = .Short) (fmtI s.prec S.dist.nRows) (fmtI s.prec S.dist.nCols)
        (some (E.map fun e => fmtI s.prec e.row)) (some (E.map fun e => fmtI s.prec e.col)) (some (E.map fun e => fmt s.prec e.val))) := by
  have h := C53_print_partial (fmtI := fmtI) (fmt := fmt) s (S := { S with nnz := S.dist.fullNnz }) (by exact hD) hall rfl
  have heq : printSparse fmtI fmt { S with nnz := S.dist.fullNnz } = printSparse fmtI fmt S := rfl
  rw [heq] at h
  refine M.wp_mono h ?_
  rintro - s' ⟨-, h⟩ h'
  dsimp only at h
  rw [h] at h'
  have hlen := congrArg String.length h'
  unfold sparseText at hlen
  simp only [List.map_append, listed_append, String.length_append] at hlen
  obtain ⟨_, _, _, _, _, _, _, hl⟩ := hS
  have hjunk : junk ≠ [] := by
    rintro rfl
    simp at hj
    omega
  obtain ⟨e, l, rfl⟩ := List.exists_cons_of_ne_nil hjunk
  have hpos : 0 < (listed ((e :: l).map fun e => fmtI s.prec e.row)).length := by
    unfold listed
    simp only [List.map_cons, String.join_cons, String.length_append]
    have : ", ".length = 2 := rfl
    omega
  omega

/-- The same with elements that were never written, as `fill_sparse` leaves them behind: undefined behaviour. A 2 x 2 long-axis
operator with two samples per row, both rows merged. -/
theorem C53_uninitialised_counterexample (fmtI : Int → Int → String) (fmt : Int → ℚ → String) (seed : RNGState (2 ^ 128) Nat) :
    ∃ (D : SparseDist) (S : SparseSkOp (2 ^ 128) Nat ℚ) (E : List (Entry ℚ)), mkSparseDist 2 2 2 .Long = .ok D ∧ S.dist = D ∧ OpHolds S E ∧
      (∃ r, S.rows = some r ∧ r 3 = .uninit) ∧ ∀ s, ∃ s', printSparse fmtI fmt S s = (.ub, s') := by
  refine ⟨⟨2, 2, .Long, 2, 2, 2, 4⟩, ⟨⟨2, 2, .Long, 2, 2, 2, 4⟩, seed, seed, 2, 2, true, 2,
    some (fun i => if i = 3 then .uninit else .val 1), some (fun i => if i = 3 then .uninit else .val i), some (fun i => if i = 3 then .uninit else .val 0)⟩,
    [⟨0, 0, 1⟩, ⟨1, 0, 1⟩], by decide, rfl, ⟨_, _, _, rfl, rfl, rfl, ?_, rfl⟩, ⟨_, rfl, rfl⟩, ?_⟩
  · intro p hp
    have : p = 0 ∨ p = 1 := by simp at hp; omega
    rcases this with rfl | rfl <;> refine ⟨rfl, rfl, rfl⟩
  · intro s
    exact ⟨_, rfl⟩

/-! ## C54 -/

theorem putWords_spec {w len : Nat} {v : List.Vector (BitVec w) (len + 1)} {close : String} {s : OStream} :
    M.wp (putWords v close) s (fun _ s' => s' = ⟨s.text ++ (", ".intercalate ((v.toList.map BitVec.toNat).map Nat.repr) ++ close), s.prec⟩) := by
  obtain ⟨l, hl⟩ := v
  unfold putWords
  simp only [List.Vector.toList, Nat.add_sub_cancel]
  rw [M.wp_bind]
  have hlist : (l.map BitVec.toNat).map Nat.repr = (List.range (len + 1)).map (fun k => Nat.repr ((l[k]?.getD 0).toNat)) := by
    apply List.ext_getElem
    · simp [hl]
    · intro k a b
      simp [hl] at a
      simp [List.getElem?_eq_getElem (show k < l.length by omega)]
  refine M.wp_mono (wp_catLoop (f := fun k => Nat.repr ((l[k]?.getD 0).toNat) ++ ", ") ?_) ?_
  · intro k t hk
    rw [List.getElem?_eq_getElem (show k < l.length by omega)]
    rw [M.wp_bind, M.wp_lift]
    refine ⟨_, rfl, ?_⟩
    rw [M.wp_bind, wp_put, wp_put]
    simp [wordText, String.append_assoc]
  · rintro - s' rfl
    rw [List.getElem?_eq_getElem (show len < l.length by omega)]
    rw [M.wp_bind, M.wp_lift]
    refine ⟨_, rfl, ?_⟩
    rw [M.wp_bind, wp_put, wp_put, hlist, intercalate_range]
    simp [wordText, String.append_assoc, List.getElem?_eq_getElem (show len < l.length by omega)]

/-- C54. Writing a state to a stream writes the words of its counter and of its key in decimal; the state is not modified. -/
theorem C54_text {wc lenC wk lenK : Nat} {state : RNGWords wc (lenC + 1) wk (lenK + 1)} (s : OStream) :
    M.wp (putState state) s (fun _ s' => s'.text = s.text ++ stateText (state.counter.toList.map BitVec.toNat) (state.key.toList.map BitVec.toNat) ∧
      s'.prec = s.prec) := by
  unfold putState
  rw [M.wp_bind, wp_put, M.wp_bind]
  refine M.wp_mono putWords_spec ?_
  rintro - s' rfl
  rw [M.wp_bind, wp_put]
  refine M.wp_mono putWords_spec ?_
  rintro - s' rfl
  refine ⟨?_, rfl⟩
  unfold stateText
  have : "}\nkey     : {" = "}\n" ++ "key     : {" := rfl
  rw [this]
  simp [String.append_assoc]

theorem repr_chars {n : Nat} {c : Char} (h : c.isDigit = false) : c ∉ (Nat.repr n).toList := by
  intro hc
  rw [Nat.toList_repr] at hc
  rw [Nat.isDigit_of_mem_toDigits (by decide) (by decide) hc] at h
  cases h

theorem intercalate_chars {c : Char} {sep : String} {l : List String} (hs : c ∉ sep.toList) (h : ∀ t ∈ l, c ∉ t.toList) : c ∉ (sep.intercalate l).toList := by
  induction l with
  | nil => simp
  | cons x l ih =>
    cases l with
    | nil => simpa using h x (by simp)
    | cons y l =>
      rw [String.intercalate_cons_cons]
      simp only [String.toList_append, List.mem_append, not_or]
      exact ⟨⟨h x (by simp), hs⟩, ih fun t ht => h t (List.mem_cons_of_mem _ ht)⟩

/-- C54. The text identifies the state: two states that are written as the same text are equal. -/
theorem C54_text_determines {wc lenC wk lenK : Nat} {a b : RNGWords wc lenC wk lenK}
    (h : stateText (a.counter.toList.map BitVec.toNat) (a.key.toList.map BitVec.toNat) =
      stateText (b.counter.toList.map BitVec.toNat) (b.key.toList.map BitVec.toNat)) : a = b := by
  have hno : ∀ (c : Char), c.isDigit = false → ∀ l : List Nat, ∀ t ∈ l.map Nat.repr, c ∉ t.toList := by
    intro c hc l t ht
    obtain ⟨n, -, rfl⟩ := List.mem_map.mp ht
    exact repr_chars hc
  have hinj : ∀ {w len : Nat} (u v : List.Vector (BitVec w) len),
      ", ".intercalate ((u.toList.map BitVec.toNat).map Nat.repr) = ", ".intercalate ((v.toList.map BitVec.toNat).map Nat.repr) → u = v := by
    intro w len u v huv
    have h1 := intercalate_inj (tail := "") (sep := ", ") (pre := []) (post := [' ']) (c := ',') rfl (by simp) (by simp)
      (hno ',' rfl (u.toList.map BitVec.toNat)) (hno ',' rfl (v.toList.map BitVec.toNat)) (by rw [huv])
    have h2 := List.map_injective_iff.mpr (fun _ _ => Nat.repr_injective) h1
    have h3 := List.map_injective_iff.mpr (fun _ _ => BitVec.eq_of_toNat_eq) h2
    exact List.Vector.toList_injective h3
  unfold stateText at h
  have h' := congrArg String.toList h
  have e1 : ("}\nkey     : {" : String).toList = '}' :: "\nkey     : {".toList := rfl
  simp only [String.toList_append, e1, List.append_assoc, List.cons_append] at h'
  obtain ⟨h1, h2⟩ := split_inj (intercalate_chars (by decide) (hno '}' rfl _)) (intercalate_chars (by decide) (hno '}' rfl _))
    (List.append_cancel_left h')
  have h3 := List.append_cancel_right (List.append_cancel_left h2)
  have hc := hinj _ _ (String.toList_inj.mp h1)
  have hk := hinj _ _ (String.toList_inj.mp h3)
  cases a; cases b
  simp only at hc hk
  rw [hc, hk]

/-- The text of a state of Philox4x32 (four words of counter, two words of key). -/
example : stateText [5, 0, 0, 0] [42, 0] = "counter : {5, 0, 0, 0}\nkey     : {42, 0}" := by rfl

end RB
