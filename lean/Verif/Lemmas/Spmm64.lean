import Verif.Lemmas.Dense64
import Verif.Lemmas.SpmmRun
import Verif.Lemmas.Sparse64
import Verif.Lemmas.SpmmOutcome
import Verif.Model.Spmm64

/-! # Sparse products with machine integers behave as with integers if nothing overflows -/

namespace RB
open Spec
variable {T α β : Type}

/-- `x` is nonnegative and representable. -/
def N64 (x : Int) : Prop := 0 ≤ x ∧ x < 2 ^ 63

theorem lift_n64 {x : Int} (h : N64 x) {f : Int → Prog T α} : (Prog.lift (i64 x) >>= f) = f x := lift_i64 (by have := h.1; omega) h.2
theorem mlift_n64 {σ : Type} {x : Int} (h : N64 x) {f : Int → M σ α} : (M.lift (i64 x) >>= f) = f x := mlift_i64 (by have := h.1; omega) h.2

/-- Programs that continue after a read of a constant array are equal if their continuations are equal for the value in the array. -/
theorem liftRd_congr {U : Type} {x : Buf U} {i : Int} {f g : U → Prog T α} (h : ∀ v, x i = .val v → f v = g v) :
    (Prog.lift (x.rd i) >>= f) = (Prog.lift (x.rd i) >>= g) := by
  unfold Buf.rd
  split
  all_goals first | rfl | (rename_i v hv; exact h v hv)

theorem n64_mul_of_le {a b c d : Int} (ha : 0 ≤ a) (hb : 0 ≤ b) (hac : a ≤ c) (hbd : b ≤ d) (h : c * d < 2 ^ 63) : N64 (a * b) :=
  ⟨mul_nonneg ha hb, lt_of_le_of_lt (mul_le_mul hac hbd hb (by omega)) h⟩

/-- Conditions under which the CSC-based column kernels do not overflow: stored positions are below `L`, and the rows at positions below `L`
are not too large for C (`incC` is the stride between its rows). -/
structure CscFits (rowidxs colptr : Buf Int) (L m incC : Int) : Prop where
  len : L < 2 ^ 63
  cols : m + 1 < 2 ^ 63
  idx : ∀ p v, 0 ≤ p → p < L → rowidxs p = .val v → N64 (v * incC)
  cp : ∀ c v, 0 ≤ c → c ≤ m → colptr c = .val v → 0 ≤ v ∧ v ≤ L

theorem applyCscVec64_eq [Add T] [Mul T] {vals : Buf T} {rowidxs colptr : Buf Int} {L m : Int} {v : Buf T} {v0 incv av0 incAv : Int}
    (h : CscFits rowidxs colptr L m incAv) (hv : ∀ c, 0 ≤ c → c < m → N64 (c * incv)) :
    applyCscVec64 vals rowidxs colptr m v v0 incv av0 incAv = applyCscVec vals rowidxs colptr m v v0 incv av0 incAv := by
  unfold applyCscVec64 applyCscVec
  congr 1
  refine foldI_congrP (P := fun _ i => 0 ≤ i) le_rfl fun c i c0 c1 hi => ⟨?_, ?_⟩
  · rw [lift_n64 (hv c c0 c1)]
    congr 1; funext scale
    rw [lift_n64 ⟨by omega, by have := h.cols; omega⟩]
    refine liftRd_congr fun hi' hhi => ?_
    have hcp := h.cp (c + 1) hi' (by omega) (by omega) hhi
    congr 1
    refine forI_congr fun p p0 p1 => ?_
    refine liftRd_congr fun row hrow => ?_
    congr 1; funext x
    rw [lift_n64 (h.idx p row (by omega) (by omega) hrow)]
  · refine Prog.Rets.bind Prog.Rets.true fun _ _ => Prog.Rets.bind Prog.Rets.true fun hi' _ => Prog.Rets.bind Prog.Rets.true fun _ _ => ?_
    show 0 ≤ max i hi'
    omega

theorem applyRegularCscVec64_eq [Add T] [Mul T] {vals : Buf T} {rowidxs : Buf Int} {L m k : Int} {v : Buf T} {v0 incv av0 incAv : Int}
    (hm : m + 1 < 2 ^ 63) (hL : L < 2 ^ 63) (hidx : ∀ p v, 0 ≤ p → p < L → rowidxs p = .val v → N64 (v * incAv))
    (hk : 1 ≤ m → 0 ≤ k ∧ m * k ≤ L) (hv : ∀ c, 0 ≤ c → c < m → N64 (c * incv)) :
    applyRegularCscVec64 vals rowidxs k m v v0 incv av0 incAv = applyRegularCscVec vals rowidxs k m v v0 incv av0 incAv := by
  unfold applyRegularCscVec64 applyRegularCscVec
  refine forI_congr fun c c0 c1 => ?_
  obtain ⟨k0, k1⟩ := hk (by omega)
  have h1 : 0 ≤ c * k := mul_nonneg c0 k0
  have h2 : (c + 1) * k ≤ m * k := mul_le_mul_of_nonneg_right (by omega) k0
  have h3 : (c + 1) * k = c * k + k := by ring
  rw [lift_n64 (hv c c0 c1)]
  congr 1; funext scale
  rw [lift_n64 ⟨h1, by omega⟩, lift_n64 ⟨by omega, by omega⟩, lift_n64 ⟨by omega, by omega⟩]
  refine forI_congr fun p p0 p1 => ?_
  refine liftRd_congr fun row hrow => ?_
  congr 1; funext x
  rw [lift_n64 (hidx p row (by omega) (by omega) hrow)]

theorem fixedNnzPerCol64_eq {cp : Buf Int} {m : Int} (h0 : 0 ≤ m) (hm : m + 1 < 2 ^ 63) : fixedNnzPerCol64 cp m = fixedNnzPerCol cp m := by
  unfold fixedNnzPerCol64 fixedNnzPerCol
  rw [i64_ok (by omega) hm]
  rfl

/-- Positions in an r x c matrix are products that do not overflow. -/
structure StridesFit (s : Strides) (r c : Int) : Prop where
  row : ∀ i, 0 ≤ i → i < r → N64 (i * s.irs)
  col : ∀ j, 0 ≤ j → j < c → N64 (s.ics * j)

theorem cscColumns64_eq [Add T] [Mul T] {sched : List Nat} {layoutB layoutC : Layout} {d n m L : Int} {vals : Buf T} {rowidxs colptr : Buf Int}
    {fixed : Bool} {B : Buf T} {ldb ldc : Int} (h : CscFits rowidxs colptr L m (layoutToStrides layoutC ldc).irs)
    (hreg : fixed = true → 1 ≤ m → ∀ v, colptr 1 = .val v → 0 ≤ v ∧ m * v ≤ L)
    (hB : StridesFit (layoutToStrides layoutB ldb) m n) (hC : StridesFit (layoutToStrides layoutC ldc) d n) :
    cscColumns64 sched layoutB layoutC n m vals rowidxs colptr fixed B ldb ldc =
      cscColumns sched layoutB layoutC n m vals rowidxs colptr fixed B ldb ldc := by
  unfold cscColumns64 cscColumns
  refine parForI_congr fun j j0 j1 => ?_
  rw [lift_n64 (hB.col j j0 j1), lift_n64 (hC.col j j0 j1)]
  cases fixed with
  | true =>
    simp only [if_true]
    refine liftRd_congr fun k hk => ?_
    exact applyRegularCscVec64_eq h.cols h.len h.idx (fun h1 => hreg rfl h1 k hk) hB.row
  | false =>
    simp only [Bool.false_eq_true, if_false]
    exact applyCscVec64_eq h hB.row

theorem M.bind_congr {σ : Type} {m : M σ α} {f g : α → M σ β} (h : ∀ a, f a = g a) : (m >>= f) = (m >>= g) := by
  rw [show f = g from funext h]

theorem M.bind_congr_ok {σ : Type} {m : M σ α} {f g : α → M σ β} {s : σ} (h : ∀ a s', m s = (.ok a, s') → f a s' = g a s') :
    (m >>= f) s = (m >>= g) s := by
  show M.bind m f s = M.bind m g s
  unfold M.bind
  rcases hm : m s with ⟨r, s'⟩
  cases r with
  | ok a => exact h a s' hm
  | throw e => rfl
  | ub => rfl

theorem cscLeftJki64_eq [Zero T] [One T] [Add T] [Mul T] [BEq T] {sched : List Nat} {alpha : T} {layoutB layoutC : Layout} {d n m L : Int}
    {A : CscMat T} {B : Buf T} {ldb ldc : Int} (hm : 0 ≤ m) (h : CscFits (ptr A.rowidxs) (ptr A.colptr) L m (layoutToStrides layoutC ldc).irs)
    (hreg : fixedNnzPerCol (ptr A.colptr) m = .ok true → 1 ≤ m → ∀ v, ptr A.colptr 1 = .val v → 0 ≤ v ∧ m * v ≤ L)
    (hB : StridesFit (layoutToStrides layoutB ldb) m n) (hC : StridesFit (layoutToStrides layoutC ldc) d n) :
    cscLeftJki64 sched alpha layoutB layoutC d n m A B ldb ldc = cscLeftJki sched alpha layoutB layoutC d n m A B ldb ldc := by
  unfold cscLeftJki64 cscLeftJki
  rw [fixedNnzPerCol64_eq hm h.cols]
  congr 1; funext _; congr 1; funext vals; congr 1; funext _; congr 1; funext _
  funext b
  refine M.bind_congr_ok fun fixed b' hf => ?_
  have hf' : fixedNnzPerCol (ptr A.colptr) m = .ok fixed := by
    have := congrArg Prod.fst hf
    exact this
  rw [cscColumns64_eq h (fun ht => hreg (by rw [hf', ht])) hB hC]

theorem cscLeftKib64_eq [Add T] [Mul T] {sched : List Nat} {nt : Int} {alpha : T} {d n m L : Int}
    {A : CscMat T} {B : Buf T} {ldb ldc : Int} (h : CscFits (ptr A.rowidxs) (ptr A.colptr) L m ldc)
    (hB : ∀ k, 0 ≤ k → k < m → N64 (k * ldb)) :
    cscLeftKib64 sched nt alpha d n m A B ldb ldc = cscLeftKib sched nt alpha d n m A B ldb ldc := by
  unfold cscLeftKib64 cscLeftKib
  congr 1; funext _; congr 1; funext _; congr 1; funext _; congr 1; funext r
  refine parForI_congr fun t t0 t1 => ?_
  congr 1; funext lo; congr 1; funext hi
  unfold cscKibThread64 cscKibThread
  refine forI_congr fun k k0 k1 => ?_
  rw [lift_n64 (hB k k0 k1)]
  refine liftRd_congr fun a ha => ?_
  rw [lift_n64 ⟨by omega, by have := h.cols; omega⟩]
  refine liftRd_congr fun b hb => ?_
  have h1 := h.cp k a k0 (by omega) ha
  have h2 := h.cp (k + 1) b (by omega) (by omega) hb
  refine forI_congr fun ell e0 e1 => ?_
  refine liftRd_congr fun i hi => ?_
  split
  · rw [lift_n64 (h.idx ell i (by omega) (by omega) hi)]
  · rfl

/-! ## CSR -/

theorem csrLeftJik64_eq [Zero T] [One T] [Add T] [Mul T] [BEq T] {sched : List Nat} {alpha : T} {layoutB layoutC : Layout} {d n m L : Int}
    {A : CsrMat T} {B : Buf T} {ldb ldc : Int} (hd : d + 1 < 2 ^ 63)
    (hidx : ∀ p v, 0 ≤ p → p < L → ptr A.colidxs p = .val v → N64 (wrapInt 32 v * (layoutToStrides layoutB ldb).irs))
    (hcp : ∀ c v, 0 ≤ c → c ≤ d → ptr A.rowptr c = .val v → 0 ≤ v ∧ v ≤ L)
    (hB : StridesFit (layoutToStrides layoutB ldb) m n) (hC : StridesFit (layoutToStrides layoutC ldc) d n) :
    csrLeftJik64 sched alpha layoutB layoutC d n m A B ldb ldc = csrLeftJik sched alpha layoutB layoutC d n m A B ldb ldc := by
  unfold csrLeftJik64 csrLeftJik
  congr 1; funext _; congr 1; funext vals; congr 1; funext _; congr 1; funext _
  refine parForI_congr fun j j0 j1 => ?_
  rw [lift_n64 (hB.col j j0 j1), lift_n64 (hC.col j j0 j1)]
  unfold applyCsrVec64 applyCsrVec
  refine forI_congr fun i i0 i1 => ?_
  rw [lift_n64 (hC.row i i0 i1)]
  congr 1; funext x
  refine liftRd_congr fun lo hlo => ?_
  rw [lift_n64 ⟨by omega, by omega⟩]
  refine liftRd_congr fun hi hhi => ?_
  have h1 := hcp i lo i0 (by omega) hlo
  have h2 := hcp (i + 1) hi (by omega) (by omega) hhi
  congr 1
  refine foldI_congr (fun ell e0 e1 => ?_) x
  funext x
  refine liftRd_congr fun j hj => ?_
  congr 1; funext a
  rw [lift_n64 (hidx ell j (by omega) (by omega) hj)]

theorem csrLeftIkb64_eq [Add T] [Mul T] {sched : List Nat} {alpha : T} {d n m L : Int}
    {A : CsrMat T} {B : Buf T} {ldb ldc : Int} (hd : d + 1 < 2 ^ 63)
    (hidx : ∀ p v, 0 ≤ p → p < L → ptr A.colidxs p = .val v → N64 (v * ldb))
    (hcp : ∀ c v, 0 ≤ c → c ≤ d → ptr A.rowptr c = .val v → 0 ≤ v ∧ v ≤ L) (hC : ∀ i, 0 ≤ i → i < d → N64 (i * ldc)) :
    csrLeftIkb64 sched alpha d n m A B ldb ldc = csrLeftIkb sched alpha d n m A B ldb ldc := by
  unfold csrLeftIkb64 csrLeftIkb
  congr 1; funext _; congr 1; funext _; congr 1; funext _
  refine parForI_congr fun i i0 i1 => ?_
  rw [lift_n64 (hC i i0 i1)]
  refine liftRd_congr fun lo hlo => ?_
  rw [lift_n64 ⟨by omega, by omega⟩]
  refine liftRd_congr fun hi hhi => ?_
  have h1 := hcp i lo i0 (by omega) hlo
  have h2 := hcp (i + 1) hi (by omega) (by omega) hhi
  refine forI_congr fun ell e0 e1 => ?_
  congr 1; funext x
  refine liftRd_congr fun k hk => ?_
  rw [lift_n64 (hidx ell k (by omega) (by omega) hk)]

/-! ## COO -/

theorem foldN_congrM {σ : Type} {n : Nat} {f g : Nat → α → M σ α} {P : α → Prop} {a : α} (h0 : P a)
    (h : ∀ k a, k < n → P a → f k a = g k a ∧ ∀ s b s', g k a s = (.ok b, s') → P b) :
    foldN n f a = foldN n g a ∧ ∀ s b s', foldN n g a s = (.ok b, s') → P b := by
  induction n with
  | zero =>
    refine ⟨rfl, fun s b s' hs => ?_⟩
    cases hs; exact h0
  | succ n ih =>
    obtain ⟨h1, h2⟩ := ih fun k a hk => h k a (by omega)
    unfold foldN
    rw [h1]
    refine ⟨?_, fun s b s' hs => ?_⟩
    · funext s
      exact M.bind_congr_ok fun b s' hs => by rw [(h n b (by omega) (h2 s b s' hs)).1]
    · rcases hm : foldN n g a s with ⟨r, s1⟩
      have hs' : M.bind (foldN n g a) (g n) s = (.ok b, s') := hs
      unfold M.bind at hs'
      rw [hm] at hs'
      cases r with
      | ok c => exact (h n c (by omega) (h2 s c s1 hm)).2 _ _ _ hs'
      | throw e => cases hs'
      | ub => cases hs'

theorem setFilteredCoo64_eq {w : Nat} (hw : 0 < w) {A : CooBufs T} {nnz cs ce rs re : Int} (hr : re - rs ≤ intMax w + 1) (hc : ce - cs ≤ intMax w + 1)
    (hr' : re - rs < 2 ^ 63) (hc' : ce - cs < 2 ^ 63) : setFilteredCoo64 w A nnz cs ce rs re = setFilteredCoo A nnz cs ce rs re := by
  unfold setFilteredCoo64 setFilteredCoo
  refine foldI_congr (fun ell _ _ => ?_) 0
  funext nn
  congr 1; funext r; congr 1; funext c
  split
  · rename_i h
    congr 1; funext v; congr 1; funext _
    rw [mlift_n64 ⟨by omega, by omega⟩, wrapInt_self hw (by omega) (by omega)]
    congr 1; funext _
    rw [mlift_n64 ⟨by omega, by omega⟩, wrapInt_self hw (by omega) (by omega)]
  · rfl

theorem skipWhile_le {sorted : Buf Int} {i : Int} {fuel : Nat} {ell e : Int} (h : skipWhile sorted i fuel ell = .ok e) : ell ≤ e ∧ e ≤ ell + fuel := by
  induction fuel generalizing ell with
  | zero => unfold skipWhile at h; cases h; omega
  | succ n ih =>
    unfold skipWhile at h
    rcases hc : sorted.rd ell with c | _ | _
    · rw [hc] at h
      change (if c = i then skipWhile sorted i n (ell + 1) else pure ell) = .ok e at h
      split at h
      · have := ih h; push_cast; omega
      · cases h; push_cast; omega
    · rw [hc] at h; cases h
    · rw [hc] at h; cases h

theorem sortedToPtr64_eq {w : Nat} (hw : 0 < w) {nnz last : Int} (hn0 : 0 ≤ nnz) (hn : nnz ≤ intMax w) (hl0 : 0 ≤ last) (hl : last + 1 < 2 ^ 63) :
    sortedToPtr64 w nnz last = sortedToPtr nnz last := by
  unfold sortedToPtr64 sortedToPtr
  congr 1; funext _
  rw [mlift_n64 ⟨by omega, hl⟩]
  congr 1; funext _; congr 1; funext sorted
  congr 1
  congr 1
  congr 1; funext _
  congr 1
  refine (foldN_congrM (P := fun ell => 0 ≤ ell ∧ ell ≤ nnz) ⟨le_rfl, hn0⟩ fun k ell hk hell => ⟨?_, ?_⟩).1
  · funext s
    refine M.bind_congr_ok fun e s' he => ?_
    have := skipWhile_le (congrArg Prod.fst he)
    rw [wrapInt_self hw (by omega) (by omega)]
  · intro s b s' hs
    have h : M.wlp (do
      let ell ← (M.lift (skipWhile sorted (0 + (k : Int)) (nnz - ell).toNat ell) : M (Buf Int) Int)
      M.wr (0 + (k : Int) + 1) ell
      pure ell) s (fun e _ => 0 ≤ e ∧ e ≤ nnz) fun _ _ => True := by
      rw [M.wlp_bind, M.wlp_lift]
      refine ⟨fun e he => ?_, fun _ _ => trivial⟩
      have := skipWhile_le he
      rw [M.wlp_bind]
      refine M.wlp_wr fun _ => ?_
      rw [M.wlp_pure]
      omega
    have := M.wlp_ok (Q := fun e (_ : Buf Int) => 0 ≤ e ∧ e ≤ nnz) h hs
    exact this

/-- The window of a COO matrix with indices of `w` bits fits: its corners are representable as `int64_t`, relative indices and positions
of nonzeros as indices. -/
structure CooFits (w : Nat) (nnz d m ro co : Int) : Prop where
  width : 0 < w ∧ w ≤ 64
  nnz : nnz ≤ intMax w
  rows : d ≤ intMax w + 1
  cols : m ≤ intMax w + 1
  rowEnd : FitsInt 64 (ro + d)
  colEnd : FitsInt 64 (co + m)

theorem fits64 {x : Int} (h : FitsInt 64 x) : -2 ^ 63 ≤ x ∧ x < 2 ^ 63 := by
  have h1 : intMax 64 = 2 ^ 63 - 1 := rfl
  have h2 : intMin 64 = -2 ^ 63 := rfl
  have := h.1; have := h.2
  omega

theorem intMax_le64 {w : Nat} (h : w ≤ 64) : intMax w ≤ 2 ^ 63 - 1 := by
  unfold intMax
  have : (2 : Int) ^ (w - 1) ≤ 2 ^ 63 := pow_le_pow_right₀ (by norm_num) (by omega)
  omega

theorem cooLeftCsc64_eq [Zero T] [Add T] [Mul T] {w : Nat} {E : List (Entry T)} {A : CooMat T} {alpha : T} {d n m ro co : Int} {B : Buf T}
    {layoutB layoutC : Layout} {ldb ldc : Int} {b : Buf T} (h : CooIs A E) (hb : A.indexBase = .Zero)
    (hs : E.Pairwise cscLe) (hE : CooOk A.nnz m (window ro co d m E)) (hF : CooFits w A.nnz d m ro co) (hd0 : 0 ≤ d) (hm1 : m + 1 < 2 ^ 63) (hd1 : d < 2 ^ 63)
    (hB : StridesFit (layoutToStrides layoutB ldb) m n) (hC : StridesFit (layoutToStrides layoutC ldc) d n) (sched : List Nat) :
    cooLeftCsc64 w sched alpha layoutB layoutC d n m A ro co B ldb ldc b = cooLeftCsc sched alpha layoutB layoutC d n m A ro co B ldb ldc b := by
  have hd := h.data
  rw [hb] at hd
  have hre : rebase IndexBase.Zero.val E = E := by simp [rebase, IndexBase.val]
  rw [hre] at hd
  have hm : 0 ≤ m := by
    rcases hE with g | g | g
    · have := g.1; omega
    · omega
    · omega
  obtain ⟨⟨hw0, hw1⟩, hnnz, hrows, hcols, hrE, hcE⟩ := hF
  have hmax := intMax_le64 hw1
  unfold cooLeftCsc64 cooLeftCsc
  rw [mlift_n64 ⟨by omega, hm1⟩]
  refine M.bind_congr_ok fun _ b1 _ => ?_
  rw [mlift_i64 (fits64 hcE).1 (fits64 hcE).2, mlift_i64 (fits64 hrE).1 (fits64 hrE).2,
    setFilteredCoo64_eq hw0 (by omega) (by omega) (by omega) (by omega)]
  rw [h.nnz] at hE hnnz ⊢
  set W := window ro co d m E with hW
  have hWl : W.length ≤ E.length := window_length_le ro co d m E
  refine M.bind_congr_ok fun r b2 hr => ?_
  have hov := overE_holds W (⟨Buf.fill E.length 0, Buf.fill E.length 0, Buf.fill (max E.length (m + 1)) 0⟩ : CooBufs T)
  obtain ⟨k, t, hrun, hk, ht⟩ := setFilteredCoo_spec (A := A.bufs) (b := ⟨Buf.fill E.length 0, Buf.fill E.length 0, Buf.fill (max E.length (m + 1)) 0⟩) hd
    (by intro p p0 p1; exact ⟨fill_alloc p0 p1, fill_alloc p0 p1, fill_alloc p0 (by omega)⟩) ro co d m
  have hr1 := (M.onLocal_ok hr).1
  rw [hrun] at hr1
  rw [Prod.mk.injEq, Res.ok.injEq] at hr1
  obtain ⟨r1, r2⟩ := r
  simp only at hr1
  obtain ⟨rfl, rfl⟩ := hr1
  subst hk
  subst ht
  simp only
  refine M.bind_congr_ok fun v b3 hv => ?_
  have hWl' : ((window ro co d m E).length : Int) ≤ E.length := by exact_mod_cast hWl
  rw [sortedToPtr64_eq hw0 (by omega) (by omega) hm hm1]
  refine M.bind_congr_ok fun pt b4 hp => ?_
  obtain ⟨_, pt', hrun', hpt, hpo⟩ := sortedToPtr_spec (major := Entry.col) (E := W) (n := m) (fun l hl => (hov l hl).2.2) (by omega)
    (by intro p p0 p1; exact Buf.overL_ne_none (fill_alloc p0 (by omega))) (by intro e he; exact (window_rng e he).2.1) (window_sorted hs)
  have hp1 := (M.onLocal_ok hp).1
  rw [hrun', Prod.mk.injEq] at hp1
  obtain ⟨p1, p2⟩ := pt
  simp only at hp1
  obtain ⟨-, rfl⟩ := hp1
  simp only
  rw [fixedNnzPerCol64_eq hm hm1]
  refine M.bind_congr_ok fun fixed b5 hf => ?_
  have hf' : fixedNnzPerCol pt' m = .ok fixed := congrArg Prod.fst hf
  have hbel : ∀ c, 0 ≤ (below Entry.col W c : Int) ∧ (below Entry.col W c : Int) ≤ W.length := by
    intro c
    unfold below
    exact ⟨by omega, by exact_mod_cast List.countP_le_length⟩
  have hfit : CscFits (CooBufs.overE W (⟨Buf.fill E.length 0, Buf.fill E.length 0, Buf.fill (max E.length (m + 1)) 0⟩ : CooBufs T)).rows pt' E.length m
      (layoutToStrides layoutC ldc).irs := by
    refine ⟨by omega, hm1, ?_, ?_⟩
    · intro p v p0 p1 hv
      by_cases hpW : p < W.length
      · obtain ⟨q, rfl⟩ : ∃ q : Nat, p = q := ⟨p.toNat, by omega⟩
        have hq : q < W.length := by omega
        rw [(hov q hq).2.1] at hv
        cases hv
        have := (window_rng _ (List.getElem_mem hq)).1
        exact hC.row _ this.1 this.2
      · rw [(overE_beyond W _ (by omega)).2] at hv
        simp only [Buf.fill] at hv
        rw [if_pos ⟨p0, p1⟩] at hv
        cases hv
        rw [zero_mul]
        exact ⟨le_rfl, by norm_num⟩
    · intro c v c0 c1 hv
      rw [hpt c c0 c1] at hv
      cases hv
      have := hbel c
      omega
  rw [cscColumns64_eq hfit ?_ hB hC]
  intro ht h1 v hv
  rw [hpt 1 (by omega) (by omega)] at hv
  cases hv
  have hb1 := hbel 1
  refine ⟨hb1.1, ?_⟩
  rcases hE with g | g | g
  · have hcs : CsIs Entry.col Entry.row m 0 pt' (CooBufs.overE W ⟨Buf.fill E.length 0, Buf.fill E.length 0, Buf.fill (max E.length (m + 1)) 0⟩).rows
        (CooBufs.overE W ⟨Buf.fill E.length 0, Buf.fill E.length 0, Buf.fill (max E.length (m + 1)) 0⟩ : CooBufs T).vals W := by
      refine ⟨⟨below Entry.col W, hpt, below_zero fun e he => (window_rng e he).2.1, below_all fun e he => (window_rng e he).2.2,
        fun j _ _ => below_mono _ W (by omega), fun l hl => ?_⟩, fun l hl => ?_⟩
      · have := (window_rng _ (List.getElem_mem hl)).2
        exact ⟨this.1, this.2, below_slice (window_sorted hs) hl⟩
      · have := hov l hl
        exact ⟨this.1, by rw [add_zero]; exact this.2.1⟩
    obtain ⟨f, hf1, hf2⟩ := fixed_spec hcs g
    rw [hf', Res.ok.injEq] at hf1
    rcases hf2 (by rw [← hf1, ht]) with g1 | g1
    · rw [g1]; omega
    · have : below Entry.col W 1 = 0 := by
        rw [g1]; rfl
      rw [this]; omega
  · omega
  · have := mul_le_mul_of_nonneg_left hb1.2 hm
    omega

/-! ## Dispatch -/

/-- The starts of the columns (rows, if row-major) of an r x c matrix with leading dimension `ld`, and its entries in one of them, have
positions below 2^63. -/
def Spec.PositionsFit (layout : Layout) (ld r c : Int) : Prop :=
  match layout with
  | .ColMajor => (c - 1) * ld < 2 ^ 63 ∧ r ≤ 2 ^ 63
  | .RowMajor => (r - 1) * ld < 2 ^ 63 ∧ c ≤ 2 ^ 63

theorem n64_mul {i r ld : Int} (hi : 0 ≤ i) (hr : i < r) (hld : 0 ≤ ld) (h : (r - 1) * ld < 2 ^ 63) : N64 (i * ld) :=
  n64_mul_of_le hi hld (by omega) le_rfl h

theorem stridesFit {layout : Layout} {ld r c : Int} (hld : 0 ≤ ld) (h : PositionsFit layout ld r c) : StridesFit (layoutToStrides layout ld) r c := by
  cases layout with
  | ColMajor =>
    simp only [PositionsFit] at h
    refine ⟨fun i i0 i1 => ?_, fun j j0 j1 => ?_⟩
    · simp only [layoutToStrides, if_true, mul_one]; exact ⟨i0, by omega⟩
    · simp only [layoutToStrides, if_true, mul_comm ld]; exact n64_mul j0 j1 hld h.1
  | RowMajor =>
    simp only [PositionsFit] at h
    refine ⟨fun i i0 i1 => ?_, fun j j0 j1 => ?_⟩
    · simp only [layoutToStrides, reduceCtorEq, if_false]; exact n64_mul i0 i1 hld h.1
    · simp only [layoutToStrides, reduceCtorEq, if_false, one_mul]; exact ⟨j0, by omega⟩

theorem stridesFit_op {layout : Layout} {opB : Op} {ld m n : Int} (hld : 0 ≤ ld) (h : PositionsFit layout ld (rowsOf opB m n) (colsOf opB m n)) :
    StridesFit (layoutToStrides (layoutOp layout opB) ld) m n := by
  cases opB with
  | NoTrans => exact stridesFit hld h
  | Trans =>
    refine stridesFit hld ?_
    cases layout <;> exact h

theorem ld_nonneg {layout : Layout} {ld r c : Int} (hr : 0 ≤ r) (hc : 0 ≤ c) (h : LdOk layout ld r c) : 0 ≤ ld := by
  cases layout <;> simp only [LdOk] at h <;> omega

theorem spmmScale64_eq [Zero T] [Mul T] [BEq T] {layout : Layout} {opB : Op} {d n m ldb : Int} {beta : T} {ldc : Int} (hld : 0 ≤ ldc)
    (h : PositionsFit layout ldc d n) : spmmScale64 layout opB d n m ldb beta ldc = spmmScale layout opB d n m ldb beta ldc := by
  unfold spmmScale64 spmmScale
  cases layout with
  | ColMajor =>
    simp only [if_true]
    congr 1; funext _; congr 1; funext _
    exact forI_congr fun i i0 i1 => by rw [mlift_n64 (n64_mul i0 i1 hld h.1)]
  | RowMajor =>
    simp only [reduceCtorEq, if_false]
    congr 1; funext _; congr 1; funext _
    exact forI_congr fun i i0 i1 => by rw [mlift_n64 (n64_mul i0 i1 hld h.1)]

theorem csIs_ptr_le {major minor : Entry T → Int} {n base : Int} {pt idxs : Buf Int} {vals : Buf T} {E : List (Entry T)}
    (h : CsIs major minor n base pt idxs vals E) {c v : Int} (hc : 0 ≤ c) (hn : c ≤ n) (hv : pt c = .val v) : 0 ≤ v ∧ v ≤ E.length := by
  obtain ⟨p, hp, hp0, hpn, hmono, -⟩ := h.ptrs
  rw [hp c hc hn] at hv
  cases hv
  have h1 := CsIs.ptr_le hmono le_rfl hc hn
  have h2 := CsIs.ptr_le hmono hc hn le_rfl
  omega

theorem csIs_idx {major minor : Entry T → Int} {n : Int} {pt idxs : Buf Int} {vals : Buf T} {E : List (Entry T)}
    (h : CsIs major minor n 0 pt idxs vals E) {p v : Int} (hp : 0 ≤ p) (hn : p < E.length) (hv : idxs p = .val v) : ∃ e ∈ E, v = minor e := by
  obtain ⟨q, rfl⟩ : ∃ q : Nat, p = q := ⟨p.toNat, by omega⟩
  have hq : q < E.length := by omega
  rw [(h.data q hq).2, add_zero] at hv
  cases hv
  exact ⟨_, List.getElem_mem hq, rfl⟩

theorem csIs_regular [Add T] [Mul T] {m : Int} {pt idxs : Buf Int} {vals : Buf T} {E : List (Entry T)}
    (h : CsIs Entry.col Entry.row m 0 pt idxs vals E) (hK : RegularOk m E) (hf : fixedNnzPerCol pt m = .ok true) (h1 : 1 ≤ m) (v : Int)
    (hv : pt 1 = .val v) : 0 ≤ v ∧ m * v ≤ E.length := by
  have hv' := csIs_ptr_le h (by omega) h1 hv
  refine ⟨hv'.1, ?_⟩
  obtain ⟨f, hf1, hf2⟩ := fixed_spec h hK
  rw [hf, Res.ok.injEq] at hf1
  rcases hf2 hf1.symm with g | g
  · rw [g]; omega
  · have hl : (E.length : Int) = 0 := by rw [g]; rfl
    have : v = 0 := by omega
    rw [this, mul_zero]; omega

section
variable [Zero T] [One T] [Add T] [Mul T] [BEq T]

theorem leftSpmmCscN64_eq {E : List (Entry T)} {A : CscMat T} (h : CscIs A E) (hb : A.indexBase = .Zero) (hr : InRange A.nRows A.nCols E)
    {layout : Layout} {opB : Op} {alpha : T} {n : Int} {beta : T} {B : Buf T} {ldb ldc : Int}
    (hK : (alpha == 0) = false → if layout = .RowMajor ∧ opB = .NoTrans then A.nRows < 2 ^ 31 else RegularOk A.nCols E)
    (hm : 0 ≤ A.nCols) (hldb : 0 ≤ ldb) (hldc : 0 ≤ ldc) (hL : A.nnz < 2 ^ 63) (hm1 : A.nCols + 1 < 2 ^ 63)
    (hB : PositionsFit layout ldb (rowsOf opB A.nCols n) (colsOf opB A.nCols n)) (hC : PositionsFit layout ldc A.nRows n)
    {sched : List Nat} {nt ro co : Int} :
    leftSpmmCscN64 sched nt layout opB A.nRows n A.nCols alpha A ro co B ldb beta ldc =
      leftSpmmCscN sched nt layout opB A.nRows n A.nCols alpha A ro co B ldb beta ldc := by
  have hd := h.data
  rw [hb] at hd
  simp only [IndexBase.val] at hd
  have hSC := stridesFit hldc hC
  have hSB := stridesFit_op hldb hB
  rw [h.nnz] at hL
  have hfit : ∀ {inc : Int}, (∀ i, 0 ≤ i → i < A.nRows → N64 (i * inc)) → CscFits (ptr A.rowidxs) (ptr A.colptr) E.length A.nCols inc := by
    intro inc hinc
    refine ⟨hL, hm1, ?_, fun c v c0 c1 hv => csIs_ptr_le hd c0 c1 hv⟩
    intro p v p0 p1 hv
    obtain ⟨e, he, rfl⟩ := csIs_idx hd p0 p1 hv
    exact hinc _ (hr e he).1 (hr e he).2.1
  unfold leftSpmmCscN64 leftSpmmCscN
  rw [spmmScale64_eq hldc hC]
  refine M.bind_congr fun _ => M.bind_congr fun _ => M.bind_congr fun _ => M.bind_congr fun _ => M.bind_congr fun _ => M.bind_congr fun _ => ?_
  by_cases ha : (alpha == 0) = true
  · rw [if_pos ha, if_pos ha]
  rw [if_neg ha, if_neg ha]
  have ha' : (alpha == 0) = false := by simpa using ha
  replace hK := hK ha'
  by_cases hk : layout = .RowMajor ∧ opB = .NoTrans
  · rw [if_pos (rowRow.mpr hk), if_pos (rowRow.mpr hk)]
    obtain ⟨rfl, rfl⟩ := hk
    exact cscLeftKib64_eq (hfit hSC.row) hSB.row
  · rw [if_neg (rowRow.not.mpr hk), if_neg (rowRow.not.mpr hk)]
    rw [if_neg hk] at hK
    refine cscLeftJki64_eq hm (hfit hSC.row) ?_ hSB hSC
    exact csIs_regular hd hK

theorem leftSpmmCsrN64_eq {E : List (Entry T)} {A : CsrMat T} (h : CsrIs A E) (hb : A.indexBase = .Zero) (hr : InRange A.nRows A.nCols E)
    {layout : Layout} {opB : Op} {alpha : T} {n : Int} {beta : T} {B : Buf T} {ldb ldc : Int}
    (hK : (alpha == 0) = false → if layout = .RowMajor ∧ opB = .NoTrans then True else ∀ e ∈ E, e.col < 2 ^ 31)
    (hldb : 0 ≤ ldb) (hldc : 0 ≤ ldc) (hd1 : A.nRows + 1 < 2 ^ 63)
    (hB : PositionsFit layout ldb (rowsOf opB A.nCols n) (colsOf opB A.nCols n)) (hC : PositionsFit layout ldc A.nRows n)
    {sched : List Nat} {ro co : Int} :
    leftSpmmCsrN64 sched layout opB A.nRows n A.nCols alpha A ro co B ldb beta ldc =
      leftSpmmCsrN sched layout opB A.nRows n A.nCols alpha A ro co B ldb beta ldc := by
  have hd := h.data
  rw [hb] at hd
  simp only [IndexBase.val] at hd
  have hSC := stridesFit hldc hC
  have hSB := stridesFit_op hldb hB
  unfold leftSpmmCsrN64 leftSpmmCsrN
  rw [spmmScale64_eq hldc hC]
  refine M.bind_congr fun _ => M.bind_congr fun _ => M.bind_congr fun _ => M.bind_congr fun _ => M.bind_congr fun _ => M.bind_congr fun _ => ?_
  by_cases ha : (alpha == 0) = true
  · rw [if_pos ha, if_pos ha]
  rw [if_neg ha, if_neg ha]
  have ha' : (alpha == 0) = false := by simpa using ha
  replace hK := hK ha'
  by_cases hk : layout = .RowMajor ∧ opB = .NoTrans
  · rw [if_pos (rowRow.mpr hk), if_pos (rowRow.mpr hk)]
    obtain ⟨rfl, rfl⟩ := hk
    refine csrLeftIkb64_eq (L := E.length) hd1 ?_ (fun c v c0 c1 hv => csIs_ptr_le hd c0 c1 hv) hSC.row
    intro p v p0 p1 hv
    obtain ⟨e, he, rfl⟩ := csIs_idx hd p0 p1 hv
    exact hSB.row _ (hr e he).2.2.1 (hr e he).2.2.2
  · rw [if_neg (rowRow.not.mpr hk), if_neg (rowRow.not.mpr hk)]
    rw [if_neg hk] at hK
    refine csrLeftJik64_eq (L := E.length) hd1 ?_ (fun c v c0 c1 hv => csIs_ptr_le hd c0 c1 hv) hSB hSC
    intro p v p0 p1 hv
    obtain ⟨e, he, rfl⟩ := csIs_idx hd p0 p1 hv
    have h32 : intMax 32 = 2 ^ 31 - 1 := rfl
    rw [wrapInt_self (by norm_num) (hr e he).2.2.1 (by have := hK e he; omega)]
    exact hSB.row _ (hr e he).2.2.1 (hr e he).2.2.2

omit [One T] in
theorem leftSpmmCooN64_eq {w : Nat} {E : List (Entry T)} {A : CooMat T} (h : CooIs A E) (hb : A.indexBase = .Zero) (hs : SortedBy A.sort E)
    {srt : (Int × Int × T → Int × Int × T → Bool) → List (Int × Int × T) → List (Int × Int × T)} (hsrt : SortOk srt) {alpha : T}
    {layout : Layout} {opB : Op} {d n m ro co : Int} {beta : T} {B : Buf T} {ldb ldc : Int} {b : Buf T}
    (hK : (alpha == 0) = false → CooOk A.nnz m (window ro co d m E)) (hF : CooFits w A.nnz d m ro co)
    (hd : 0 ≤ d) (hldb : 0 ≤ ldb) (hldc : 0 ≤ ldc) (hm1 : m + 1 < 2 ^ 63) (hd1 : d < 2 ^ 63)
    (hB : PositionsFit layout ldb (rowsOf opB m n) (colsOf opB m n)) (hC : PositionsFit layout ldc d n) {sched : List Nat} :
    leftSpmmCooN64 w srt sched layout opB d n m alpha ro co B ldb beta ldc (A, b) =
      leftSpmmCooN srt sched layout opB d n m alpha ro co B ldb beta ldc (A, b) := by
  have hSC := stridesFit hldc hC
  have hSB := stridesFit_op hldb hB
  have hz : ∀ {m m' : M (Buf T) Unit} {A1 : CooMat T} {b1 : Buf T}, m b1 = m' b1 → (onC m : M (CooMat T × Buf T) Unit) (A1, b1) = onC m' (A1, b1) := by
    intro m m' A1 b1 he
    unfold onC M.zoom
    simp only [he]
  have hzs : ∀ {m : M (Buf T) Unit} {s s' : CooMat T × Buf T} {u : Unit}, (onC m : M (CooMat T × Buf T) Unit) s = (.ok u, s') → s'.1 = s.1 := by
    intro m s s' u he
    unfold onC M.zoom at he
    rcases hm : m s.2 with ⟨r, t⟩
    rw [hm] at he
    cases r <;> cases he
    rfl
  have hreq : ∀ {P : Prop} [Decidable P] {s s' : CooMat T × Buf T} {u : Unit}, (M.require P : M (CooMat T × Buf T) Unit) s = (.ok u, s') → s' = s := by
    intro P _ s s' u he
    exact (congrArg Prod.snd he).symm
  unfold leftSpmmCooN64 leftSpmmCooN
  rw [spmmScale64_eq hldc hC]
  refine M.bind_congr_ok fun s s1 hs1 => ?_
  cases hs1
  refine M.bind_congr_ok fun _ s2 hs2 => ?_
  obtain rfl := hreq hs2
  refine M.bind_congr_ok fun _ s3 hs3 => ?_
  obtain rfl := hreq hs3
  refine M.bind_congr_ok fun _ s4 hs4 => ?_
  obtain rfl := hreq hs4
  refine M.bind_congr_ok fun _ s5 hs5 => ?_
  have h5 := hzs hs5
  obtain ⟨A5, b5⟩ := s5
  simp only at h5
  subst h5
  by_cases ha : (alpha == 0) = true
  · rw [if_pos ha, if_pos ha]
  rw [if_neg ha, if_neg ha]
  have ha' : (alpha == 0) = false := by simpa using ha
  replace hK := hK ha'
  unfold cooLeftJki64 cooLeftJki
  refine M.bind_congr_ok fun s s6 hs6 => ?_
  cases hs6
  refine M.bind_congr_ok fun _ s7 hs7 => ?_
  obtain rfl := hreq hs7
  simp only
  by_cases hc : A5.sort = .CSC
  · rw [if_neg (by simpa using hc), if_neg (by simpa using hc)]
    rw [hc] at hs
    exact hz (cooLeftCsc64_eq h hb hs hK hF hd hm1 hd1 hSB hSC sched)
  · rw [if_pos hc, if_pos hc]
    obtain ⟨a1, A1, hr1, E1, g1, g2, g3, g4, -⟩ := M.wp_run (sortCooData_spec hsrt (s := .CSC) h)
    have hb1 : A1.indexBase = .Zero := by rw [g4]; exact hb
    have hnn : A1.nnz = A5.nnz := by rw [g1.nnz, h.nnz, g2.length_eq]
    refine M.bind_congr_ok fun _ s8 hs8 => ?_
    have h8 : s8 = (A1, b5) := by
      unfold onSp M.zoom at hs8
      simp only [hr1] at hs8
      cases hs8
      rfl
    subst h8
    refine M.bind_congr_ok fun s s9 hs9 => ?_
    cases hs9
    show M.bind _ _ _ = M.bind _ _ _
    unfold M.bind
    rw [hz (cooLeftCsc64_eq g1 hb1 g3 (by have := CooOk.perm hK (window_perm (ro := ro) (co := co) (d := d) (m := m) g2.symm); rwa [h.nnz, ← g2.length_eq, ← g1.nnz] at this)
      (by rw [hnn]; exact hF) hd hm1 hd1 hSB hSC sched)]

end

theorem wrapInt_zero {w : Nat} (hw : 0 < w) : wrapInt w 0 = 0 := by
  refine wrapInt_self hw le_rfl ?_
  unfold intMax
  have : (0 : Int) < 2 ^ (w - 1) := by positivity
  omega

/-- The pointers are those of the unbounded model, converted to the index type. -/
theorem sortedToPtr64_spec {w : Nat} (hw : 0 < w) {major : Entry T → Int} {E : List (Entry T)} {n : Int} {b : Buf Int}
    (h : ∀ (p : Nat) (h : p < E.length), b p = .val (major E[p])) (hn : 0 ≤ n) (hn1 : n + 1 < 2 ^ 63) (hal : ∀ p, 0 ≤ p → p ≤ n → b p ≠ .none)
    (h0 : ∀ e ∈ E, 0 ≤ major e) (hs : E.Pairwise fun a b => major a ≤ major b) :
    M.wp (sortedToPtr64 w E.length n) b (fun _ b' => (∀ p, 0 ≤ p → p ≤ n → b' p = .val (wrapInt w (below major E p))) ∧
      ∀ p, (p < 0 ∨ n < p) → b' p = b p) := by
  have hp := List.pairwise_iff_getElem.mp hs
  unfold sortedToPtr64
  rw [M.wp_bind]
  refine M.wp_mono (sortedCheck_spec h hs) ?_
  rintro _ _ rfl
  rename_i b
  rw [mlift_n64 ⟨by omega, hn1⟩]
  simp only [M.wp_bind, M.wp_when, M.wp_get, M.wp_onLocal, M.wp_wr]
  refine ⟨fun g => by omega, fun _ => ⟨by simp [Buf.alloc]; omega, ?_⟩⟩
  refine M.wp_foldI (fun j l t => ∃ l' : Nat, l = l' ∧ l' ≤ E.length ∧ (∀ (q : Nat) (h : q < E.length), q < l' → major E[q] < j) ∧
    (∀ (q : Nat) (h : q < E.length), l' ≤ q → j ≤ major E[q]) ∧ (∀ p, 0 ≤ p → p ≤ j → t p = .val (wrapInt w (below major E p))) ∧
    (∀ p, 0 ≤ p → p ≤ n → t p ≠ .none)) hn ?_ ?_ ?_
  · refine ⟨0, rfl, by omega, fun q _ h => by omega, fun q hq _ => h0 _ (List.getElem_mem hq), ?_, ?_⟩
    · intro p p0 p1
      have : p = 0 := by omega
      subst this
      rw [Buf.set_same, below_zero h0, wrapInt_zero hw]
    · intro p p0 p1
      rw [Buf.set_apply]; split_ifs
      · simp
      · simp [Buf.alloc]; omega
  · rintro j l t j0 j1 ⟨l', rfl, hl, hlt, hge, hpt, hpa⟩
    obtain ⟨_, he, l'', rfl, r2, r3, r5, r6⟩ := skipWhile_spec (j := j) h (E.length - l') l' (by omega)
    rw [M.wp_bind, M.wp_lift, show ((E.length : Int) - l').toNat = E.length - l' by omega]
    refine ⟨_, he, ?_⟩
    simp only [M.wp_bind, M.wp_wr, M.wp_pure]
    have hlt' : ∀ (q : Nat) (h : q < E.length), q < l'' → major E[q] < j + 1 := by
      intro q hq hq'
      rcases Nat.lt_or_ge q l' with g | g
      · have := hlt q hq g; omega
      · have := r5 q hq g hq'; omega
    have hge' : ∀ (q : Nat) (h : q < E.length), l'' ≤ q → j + 1 ≤ major E[q] := by
      intro q hq hq'
      have g1 := r6 (by omega)
      have g2 := hge l'' (by omega) (by omega)
      rcases Nat.eq_or_lt_of_le hq' with g3 | g3
      · subst g3; omega
      · have := hp l'' q (by omega) hq g3; omega
    refine ⟨hpa (j + 1) (by omega) (by omega), l'', rfl, r3, hlt', hge', ?_, ?_⟩
    · intro p p0 p1
      rw [Buf.set_apply]
      split_ifs with hpj
      · rw [hpj, below_split r3 hlt' hge']
      · exact hpt p p0 (by omega)
    · intro p p0 p1
      rw [Buf.set_apply]; split_ifs
      · simp
      · exact hpa p p0 p1
  · rintro l t ⟨l', rfl, hl, hlt, hge, hpt, -⟩
    rw [M.wp_pure]
    refine ⟨hal 0 le_rfl hn, ?_⟩
    refine M.wp_forI (fun j b' => (∀ p, 0 ≤ p → p ≤ j → b' p = .val (wrapInt w (below major E p))) ∧ (∀ p, (p < 0 ∨ n < p) → b' p = b p) ∧
      ∀ p, 0 ≤ p → p ≤ n → b' p ≠ .none) hn ⟨?_, ?_, ?_⟩ ?_ (fun b' h => ⟨h.1, h.2.1⟩)
    · intro p p0 p1
      have : p = 0 := by omega
      subst this
      rw [Buf.set_same, below_zero h0, wrapInt_zero hw]
    · intro p hp; exact Buf.set_ne (by omega)
    · intro p p0 p1
      rw [Buf.set_apply]; split_ifs
      · simp
      · exact hal p p0 p1
    · rintro j b' j0 j1 ⟨g1, g2, g3⟩
      simp only [M.wp_bind, M.wp_lift, M.wp_wr]
      refine ⟨_, Buf.rd_val (hpt (j + 1) (by omega) (by omega)), g3 _ (by omega) (by omega), ?_, ?_, ?_⟩
      · intro p p0 p1
        rw [Buf.set_apply]
        split_ifs with hpj
        · rw [hpj]
        · exact g1 p p0 (by omega)
      · intro p hp
        rw [Buf.set_ne (by omega)]; exact g2 p hp
      · intro p p0 p1
        rw [Buf.set_apply]; split_ifs
        · simp
        · exact g3 p p0 p1

end RB
