import Verif.Model.Sparse64
import Verif.Lemmas.Dense64
import Verif.Lemmas.Sparse
import Verif.Lemmas.SafeInt

/-! # Machine integers give the same results as integers in sparse sampling if nothing overflows -/

namespace RB
open Spec
variable {N : Nat} {K W R T α β σ : Type}

theorem intW_ok {w : Nat} {x : Int} (h0 : 0 ≤ x) (h1 : x ≤ intMax w) : intW w x = .ok x := by
  unfold intW; rw [if_pos]
  exact ⟨by have : (0 : Int) < 2 ^ (w - 1) := by positivity
            unfold intMin; omega, h1⟩

theorem mlift_intW {w : Nat} {x : Int} (h0 : 0 ≤ x) (h1 : x ≤ intMax w) {f : Int → M σ α} : (M.lift (intW w x) >>= f) = f x := by
  rw [intW_ok h0 h1]; rfl

theorem wrapInt_self {w : Nat} {x : Int} (hw : 0 < w) (h0 : 0 ≤ x) (h1 : x ≤ intMax w) : wrapInt w x = x := by
  have e : (2 : Int) ^ w = 2 * 2 ^ (w - 1) := by
    obtain ⟨k, rfl⟩ : ∃ k, w = k + 1 := ⟨w - 1, by omega⟩
    simp [pow_succ]; ring
  have hp : (0 : Int) < 2 ^ (w - 1) := by positivity
  unfold wrapInt intMax at *
  rw [Int.emod_eq_of_lt (by omega) (by omega)]; ring

theorem intMax_le {w : Nat} (hw : w ≤ 64) : intMax w < 2 ^ 63 := by
  have : (2 : Int) ^ (w - 1) ≤ 2 ^ 63 := pow_le_pow_right₀ (by norm_num) (by omega)
  unfold intMax; omega

theorem mubIf_false {p : Prop} [Decidable p] (h : ¬ p) {f : Unit → M σ α} : (M.ubIf p >>= f) = f () := by
  have : (M.ubIf p : M σ Unit) = pure () := by
    funext s; simp only [M.ubIf, if_neg h]; rfl
  rw [this]; rfl

/-- All results of an operation meet `P`. -/
def M.Rets (P : α → Prop) (m : M σ α) : Prop := ∀ s a s', m s = (.ok a, s') → P a

theorem M.Rets.true {m : M σ α} : m.Rets fun _ => True := fun _ _ _ _ => trivial

theorem M.Rets.pure {P : α → Prop} {a : α} (h : P a) : (Pure.pure a : M σ α).Rets P := by
  intro s b s' e
  have : (Res.ok a, s) = (Res.ok b, s') := e
  simp only [Prod.mk.injEq, Res.ok.injEq] at this
  rw [← this.1]; exact h

theorem M.Rets.lift {P : α → Prop} {r : Res α} (h : ∀ a, r = .ok a → P a) : (M.lift r : M σ α).Rets P := by
  intro s b s' e
  have : (r, s) = (Res.ok b, s') := e
  simp only [Prod.mk.injEq] at this
  exact h b this.1

theorem M.Rets.bind_congr {P : α → Prop} {m : M σ α} {f g : α → M σ β} (hm : m.Rets P) (h : ∀ a, P a → f a = g a) : m >>= f = m >>= g := by
  funext s
  rcases e : m s with ⟨r, s'⟩
  cases r with
  | ok a => rw [M.bind_ok e, M.bind_ok e, h a (hm s a s' e)]
  | throw x => rw [M.bind_throw e, M.bind_throw e]
  | ub => rw [M.bind_ub e, M.bind_ub e]

theorem M.Rets.bind {P : α → Prop} {Q : β → Prop} {m : M σ α} {f : α → M σ β} (hm : m.Rets P) (h : ∀ a, P a → (f a).Rets Q) : (m >>= f).Rets Q := by
  intro s b s' hb
  rcases e : m s with ⟨r, s1⟩
  cases r with
  | ok a => rw [M.bind_ok e] at hb; exact h a (hm s a s1 e) _ _ _ hb
  | throw x => rw [M.bind_throw e] at hb; simp at hb
  | ub => rw [M.bind_ub e] at hb; simp at hb

theorem M.foldN_congrR {n : Nat} {f g : Nat → α → M σ α} {P : Nat → α → Prop} {a : α} (h0 : P 0 a)
    (h : ∀ k a, k < n → P k a → f k a = g k a ∧ (g k a).Rets (P (k + 1))) : foldN n f a = foldN n g a ∧ (foldN n g a).Rets (P n) := by
  induction n with
  | zero => exact ⟨rfl, M.Rets.pure h0⟩
  | succ n ih =>
    obtain ⟨h1, h2⟩ := ih fun k a hk => h k a (by omega)
    unfold foldN
    rw [h1]
    exact ⟨h2.bind_congr fun a ha => (h n a (by omega) ha).1, h2.bind fun a ha => (h n a (by omega) ha).2⟩

theorem M.foldI_congrR {lo hi : Int} {f g : Int → α → M σ α} {P : Int → α → Prop} {a : α} (hle : lo ≤ hi) (h0 : P lo a)
    (h : ∀ i a, lo ≤ i → i < hi → P i a → f i a = g i a ∧ (g i a).Rets (P (i + 1))) :
    foldI lo hi f a = foldI lo hi g a ∧ (foldI lo hi g a).Rets (P hi) := by
  have := M.foldN_congrR (n := (hi - lo).toNat) (f := fun k => f (lo + k)) (g := fun k => g (lo + k)) (P := fun k => P (lo + k)) (a := a)
    (by simpa using h0) fun k a hk ha => ?_
  · rw [show lo + ((hi - lo).toNat : Int) = hi by omega] at this
    exact this
  · have := h (lo + k) a (by omega) (by omega) ha
    refine ⟨this.1, ?_⟩
    have h2 := this.2
    rw [add_assoc] at h2
    push_cast
    exact h2

theorem fyStepW_eq [One T] [Neg T] {w : Nat} {G : Gen N K W R} {key : K} {n i off j : Int} {ctr : ZMod N} (hw : 0 < w) (hw' : w ≤ 64)
    (hj : 0 ≤ j) (hjn : j < n) (hn : n ≤ intMax w) (ho : 0 ≤ off) (hjo : j + off ≤ intMax w) :
    fyStepW (T := T) w G key n i off j ctr = fyStep G key n i off j ctr := by
  have hm := intMax_le hw'
  unfold fyStepW fyStep
  congr 1; funext rv0
  rw [mlift_i64 (by omega) (by omega)]
  congr 1; funext _
  have b1 := Int.tmod_lt_of_pos (G.nat rv0 : Int) (show 0 < n - j by omega)
  have b0 := Int.tmod_nonneg (n - j) (show (0 : Int) ≤ G.nat rv0 by omega)
  rw [mlift_i64 (by omega) (by omega)]
  dsimp only
  rw [wrapInt_self hw (by omega) (by omega)]
  congr 1; funext _
  congr 1; funext _
  congr 1; funext _
  congr 1; funext _
  congr 1; funext _
  rw [mlift_intW (by omega) hjo]

theorem fyRestoreW_eq {w : Nat} {k off j : Int} (hw : 0 < w) (hw' : w ≤ 64) (hj : 1 ≤ j) (hjk : j ≤ k) (hk : k ≤ intMax w) (ho : 0 ≤ off)
    (hko : k - j + off ≤ intMax w) : fyRestoreW (T := T) w k off j = fyRestore k off j := by
  have hm := intMax_le hw'
  unfold fyRestoreW fyRestore
  rw [mlift_i64 (by omega) (by omega)]
  dsimp only
  rw [wrapInt_self hw (by omega) (by omega), mlift_intW (by omega) hko]

theorem fyBlockW_eq [One T] [Neg T] {w : Nat} {G : Gen N K W R} {state : RNGState N K} {k n i : Int} (hw : 0 < w) (hw' : w ≤ 64)
    (hk : 0 ≤ k) (hkn : k ≤ n) (hkw : k < intMax w) (hn : n ≤ intMax w) (hi : 0 ≤ i) (hik : (i + 1) * k ≤ intMax w + 1) :
    fyBlockW (T := T) w G state k n i = fyBlock G state k n i := by
  have hm := intMax_le hw'
  have h0 : 0 ≤ i * k := mul_nonneg hi hk
  have h1 : (i + 1) * k = i * k + k := by ring
  have h2 : i * k ≤ intMax w := by
    rcases hk.eq_or_lt with h | h
    · rw [← h, mul_zero]; omega
    · omega
  unfold fyBlockW fyBlock
  rw [mlift_i64 (by omega) (by omega)]
  dsimp only
  rw [wrapInt_self hw (by omega) (by omega), mubIf_false (by omega)]
  congr 1
  · exact foldI_congr (fun j j0 j1 => by funext c; exact fyStepW_eq hw hw' j0 (by omega) hn h0 (by omega)) _
  · funext _
    exact forI_congr fun j j0 j1 => fyRestoreW_eq hw hw' j0 (by omega) (by omega) h0 (by omega)

theorem repeatedFisherYatesW_eq [One T] [Neg T] {w : Nat} {G : Gen N K W R} {state : RNGState N K} {k n r : Int} (hw : 0 < w) (hw' : w ≤ 64)
    (hk : 0 ≤ k) (hkw : k < intMax w) (hn : n ≤ intMax w) (hr : 0 ≤ r) (hrw : r ≤ intMax w) (hfit : r * k ≤ intMax w + 1)
    (hfit' : r * k ≤ intMax 64) : repeatedFisherYatesW (T := T) w G state k n r = repeatedFisherYates G state k n r := by
  have hm : intMax 64 < 2 ^ 63 := intMax_le le_rfl
  have h0 : 0 ≤ r * k := mul_nonneg hr hk
  unfold repeatedFisherYatesW repeatedFisherYates
  by_cases hkn : k ≤ n
  · congr 1; funext _
    congr 1; funext work
    rw [mubIf_false (by omega)]
    congr 1; funext p
    obtain ⟨_, work⟩ := p
    dsimp only
    congr 1; funext piv
    rw [mubIf_false (by omega)]
    congr 1; funext out
    rw [forI_congr fun i i0 i1 => fyBlockW_eq hw hw' hk hkn hkw hn i0 (show (i + 1) * k ≤ intMax w + 1 by nlinarith)]
    congr 1; funext p
    obtain ⟨_, mem⟩ := p
    dsimp only
    congr 1; funext _
    rw [mlift_i64 (by omega) (by omega)]
  · have e : (M.errorIf (k > n) : M (SkBufs T) Unit) = M.throw .errorIf := by
      funext s; simp [M.errorIf, Res.errorIf, M.lift, M.throw, show n < k by omega]
    rw [e]; rfl

theorem lasoCount_length [Zero T] [One T] [Add T] (ell : Int) (val : T) (maps : List (Int × T) × List (Int × T)) :
    (lasoCount ell val maps).1.length ≤ maps.1.length + 1 := by
  have hset : ∀ (m : List (Int × T)) (v : T), (mapSet m ell v).length ≤ m.length + 1 := by
    intro m v
    induction m with
    | nil => simp [mapSet]
    | cons p m ih =>
      obtain ⟨a, b⟩ := p
      unfold mapSet
      split_ifs <;> simp [ih]
  unfold lasoCount
  split <;> exact hset _ _

theorem lasoMergeW_eq [Zero T] [One T] [Add T] [Mul T] {w : Nat} {sqrt : T → T} {order : List (Int × T) → List (Int × T)} {k off i : Int} (hw : 0 < w)
    (hk : 0 ≤ k) (hi : 0 ≤ i) (hiw : i ≤ intMax w) :
    lasoMergeW w sqrt order k off i = lasoMerge sqrt order k off i ∧ (lasoMerge sqrt order k off i).Rets fun c => 0 ≤ c ∧ c ≤ k := by
  unfold lasoMergeW lasoMerge
  rw [wrapInt_self hw hi hiw]
  refine ⟨rfl, ?_⟩
  let body : Int → List (Int × T) × List (Int × T) → M (LaxBufs T) (List (Int × T) × List (Int × T)) := fun j maps => do
    onSax (M.wr (off + j) i)
    let ell ← onLax (M.rd (off + j))
    let val ← onLVals (M.rd (off + j))
    pure (lasoCount ell val maps)
  have h := (M.foldI_congrR (lo := 0) (hi := k) (f := body) (g := body) (P := fun j maps => (maps.1.length : Int) ≤ j) (a := ([], [])) hk (by simp) ?_).2
  · refine h.bind fun maps hm => M.Rets.true.bind fun _ _ => M.Rets.pure ?_
    exact ⟨by positivity, hm⟩
  · intro j maps j0 j1 hm
    refine ⟨rfl, M.Rets.true.bind fun _ _ => M.Rets.true.bind fun ell _ => M.Rets.true.bind fun val _ => M.Rets.pure ?_⟩
    have := lasoCount_length ell val maps
    omega

/-- The uniform variates are in [-1, 1]. -/
def UnitRange [Field R] [LinearOrder R] (G : Gen N K W R) : Prop := ∀ c k i, -1 ≤ G.uneg11 (G.word c k i) ∧ G.uneg11 (G.word c k i) ≤ 1

theorem truncW_ok [Field R] [LinearOrder R] [IsStrictOrderedRing R] [FloorRing R] {w : Nat} {n : Int} {u : R} (hn : 0 ≤ n) (hnw : n ≤ intMax w)
    (h0 : -1 ≤ u) (h1 : u ≤ 1) : truncW w ((n : R) * uneg11ToU01 u) = .ok (truncToInt ((n : R) * uneg11ToU01 u)) := by
  have hn' : (0 : R) ≤ n := by exact_mod_cast hn
  have hu0 : 0 ≤ uneg11ToU01 u := by unfold uneg11ToU01; linarith
  have hu1 : uneg11ToU01 u ≤ 1 := by unfold uneg11ToU01; linarith
  have hx : 0 ≤ (n : R) * uneg11ToU01 u := mul_nonneg hn' hu0
  have hx1 : (n : R) * uneg11ToU01 u ≤ n := by nlinarith
  unfold truncW
  refine intW_ok ?_ (le_trans ?_ hnw)
  · unfold truncToInt; rw [if_pos hx]; exact Int.floor_nonneg.mpr hx
  · unfold truncToInt; rw [if_pos hx]
    have := Int.floor_le ((n : R) * uneg11ToU01 u)
    exact_mod_cast this.trans hx1

theorem sampleUniformW_eq [Field R] [LinearOrder R] [IsStrictOrderedRing R] [FloorRing R] [One T] [Neg T] {w : Nat} {G : Gen N K W R} {writeR : Bool}
    {n k off : Int} {state : RNGState N K} (hG : UnitRange G) (hn : 0 ≤ n) (hnw : n ≤ intMax w) :
    sampleIndicesIidUniformW (T := T) w G writeR n k off state = sampleIndicesIidUniform G writeR n k off state := by
  unfold sampleIndicesIidUniformW sampleIndicesIidUniform
  have hrv : ∀ c key, (M.lift (G.uneg11Generate c key) : M (UnifBufs T) (Buf R)).Rets (fun rv => ∀ p x, rv.rd p = .ok x → -1 ≤ x ∧ x ≤ 1) := by
    intro c key
    refine M.Rets.lift fun a ha => ?_
    simp only [Gen.uneg11Generate, Res.ok.injEq] at ha
    subst ha
    intro p x hx
    unfold Buf.rd Buf.ofFn at hx
    split_ifs at hx
    · simp only [Res.ok.injEq] at hx; rw [← hx]; exact hG _ _ _
  refine (hrv _ _).bind_congr fun rv h0 => ?_
  dsimp only
  by_cases hk : 0 ≤ k
  · rw [(M.foldI_congrR (P := fun _ (st : ZMod N × Buf R × Int) => ∀ p x, st.2.1.rd p = .ok x → -1 ≤ x ∧ x ≤ 1) hk h0 ?_).1]
    intro i st i0 i1 hst
    constructor
    · refine (M.Rets.lift (P := fun x => -1 ≤ x ∧ x ≤ 1) fun x hx => hst _ x hx).bind_congr fun x hx => ?_
      rw [mlift_intW hn hnw, truncW_ok hn hnw hx.1 hx.2]
      rfl
    · refine M.Rets.true.bind fun x _ => M.Rets.true.bind fun _ _ => M.Rets.true.bind fun idx _ => M.Rets.lift fun a ha => ?_
      unfold nextWord at ha
      generalize (if writeR = true then 2 * (G.len.tdiv 2) else G.len) = len at ha
      split_ifs at ha
      · simp only [Gen.uneg11Generate] at ha
        have ha' : Res.ok (ctrIncr st.1 1, Buf.ofFn G.len (fun i => G.uneg11 (G.word (ctrIncr st.1 1) state.key i)), (0 : Int)) = Res.ok a := ha
        simp only [Res.ok.injEq] at ha'
        rw [← ha']
        intro p x hx
        simp only [Buf.rd, Buf.ofFn] at hx
        split_ifs at hx
        · simp only [Res.ok.injEq] at hx; rw [← hx]; exact hG _ _ _
      · have ha' : Res.ok (st.1, st.2.1, idx) = Res.ok a := ha
        simp only [Res.ok.injEq] at ha'
        rw [← ha']; exact hst
  · congr 1
    unfold foldI
    rw [show (k - 0).toNat = 0 by omega]; rfl

theorem fillLasoW_eq [Field R] [LinearOrder R] [IsStrictOrderedRing R] [FloorRing R] [Zero T] [One T] [Neg T] [Add T] [Mul T] {w : Nat}
    {G : Gen N K W R} {sqrt : T → T} {order : Int → List (Int × T) → List (Int × T)} {D : SparseDist} {seed : RNGState N K} (hw : 0 < w)
    (hG : UnitRange G) (hk : 0 ≤ D.vecNnz) (hn : 0 ≤ D.dimMajor) (hnw : D.dimMajor ≤ intMax w) (hm : 0 ≤ D.dimMinor) (hmw : D.dimMinor ≤ intMax w)
    (hfit : D.vecNnz * D.dimMinor < 2 ^ 63) : fillLasoW w G sqrt order D seed = fillLaso G sqrt order D seed := by
  unfold fillLasoW fillLaso
  refine (M.foldI_congrR (P := fun i (acc : Int × RNGState N K) => 0 ≤ acc.1 ∧ acc.1 ≤ i * D.vecNnz) hm (by simp) ?_).1
  intro i acc i0 i1 hacc
  obtain ⟨e, hR⟩ := lasoMergeW_eq (sqrt := sqrt) (order := order i) (off := acc.1) hw hk i0 (show i ≤ intMax w by omega)
  rw [sampleUniformW_eq hG hn hnw, e]
  constructor
  · congr 1; funext st
    refine hR.bind_congr fun c hc => ?_
    have : acc.1 + c ≤ D.vecNnz * D.dimMinor := by nlinarith
    rw [mlift_i64 (by omega) (by omega)]
  · refine M.Rets.true.bind fun st _ => hR.bind fun c hc => M.Rets.pure ?_
    exact ⟨by simp only; omega, by simp only; nlinarith⟩

/-! ## What happens if there are too many nonzeros for the index type -/

theorem ub_bind {m : M σ α} {f : α → M σ β} {s : σ} (h : M.wp m s fun a s' => (f a s').1 = .ub) : ((m >>= f) s).1 = .ub := by
  obtain ⟨a, s', h1, h2⟩ := h
  rw [M.bind_ok h1]; exact h2

theorem ub_bind_left {m : M σ α} {f : α → M σ β} {s : σ} (h : (m s).1 = .ub) : ((m >>= f) s).1 = .ub := by
  rcases e : m s with ⟨r, s'⟩
  rw [e] at h
  simp only at h
  subst h
  rw [M.bind_ub e]

theorem ub_forI {lo hi i : Int} {body : Int → M σ Unit} {s : σ} (h0 : lo ≤ i) (h1 : i < hi)
    (h : M.wp (forI lo i body) s fun _ s' => (body i s').1 = .ub) : (forI lo hi body s).1 = .ub := by
  obtain ⟨m, hm⟩ := Int.eq_ofNat_of_zero_le (show 0 ≤ i - lo by omega)
  have hi' : i = lo + m := by omega
  subst hi'
  unfold forI at h ⊢
  rw [show (lo + (m : Int) - lo).toNat = m by omega] at h
  have key : ∀ n, m < n → (forN n (fun k => body (lo + k)) s).1 = .ub := by
    intro n hn
    induction n with
    | zero => omega
    | succ n ih =>
      unfold forN
      rcases Nat.lt_or_ge m n with h2 | h2
      · exact ub_bind_left (ih h2)
      · rw [show n = m by omega]; exact ub_bind h
  exact key _ (by omega)

theorem ub_foldI {lo hi i : Int} {body : Int → α → M σ α} {a : α} {s : σ} (h0 : lo ≤ i) (h1 : i < hi)
    (h : M.wp (foldI lo i body a) s fun a' s' => (body i a' s').1 = .ub) : (foldI lo hi body a s).1 = .ub := by
  obtain ⟨m, hm⟩ := Int.eq_ofNat_of_zero_le (show 0 ≤ i - lo by omega)
  have hi' : i = lo + m := by omega
  subst hi'
  unfold foldI at h ⊢
  rw [show (lo + (m : Int) - lo).toNat = m by omega] at h
  have key : ∀ n, m < n → (foldN n (fun k => body (lo + k)) a s).1 = .ub := by
    intro n hn
    induction n with
    | zero => omega
    | succ n ih =>
      unfold foldN
      rcases Nat.lt_or_ge m n with h2 | h2
      · exact ub_bind_left (ih h2)
      · rw [show n = m by omega]; exact ub_bind h
  exact key _ (by omega)

/-- A step whose position overflows, or lies before the array. -/
theorem fyStepW_ub [One T] [Neg T] {w : Nat} {G : Gen N K W R} {key : K} {n i off : Int} {j : Nat} {ctr : ZMod N} {m : FYMem T} (hw : 0 < w) (hw' : w ≤ 64)
    (hlen : 2 ≤ G.len) (hjn : (j : Int) < n) (hn : n ≤ intMax w) (hwork : ∀ p, 0 ≤ p → p < n → ∃ x, m.work p = .val x)
    (hpiv : m.pivots j ≠ .none) (hpos : intMax w < j + off ∨ m.out.major (j + off) = .none) :
    (fyStepW (T := T) w G key n i off j ctr m).1 = .ub := by
  have hm := intMax_le hw'
  unfold fyStepW
  rw [words_rd (le_refl 0) (by omega)]
  refine ub_bind ?_
  rw [M.wp_lift]
  refine ⟨_, rfl, ?_⟩
  rw [mlift_i64 (by omega) (by omega), mubIf_false (by omega)]
  generalize hrv : G.nat (G.word ctr key 0) = rv0
  have b1 := Int.tmod_lt_of_pos (rv0 : Int) (show 0 < n - j by omega)
  have b0 := Int.tmod_nonneg (n - j) (show (0 : Int) ≤ rv0 by omega)
  rw [mlift_i64 (by omega) (by omega)]
  rw [wrapInt_self hw (by omega) (by omega)]
  generalize hell : (j : Int) + (rv0 : Int).tmod (n - j) = ell
  obtain ⟨x, hx⟩ := hwork ell (by omega) (by omega)
  obtain ⟨y, hy⟩ := hwork j (by omega) hjn
  refine ub_bind ?_
  simp only [onPivots, onWork, M.wp_zoom, M.wp_wr]
  refine ⟨hpiv, ub_bind ?_⟩
  simp only [M.wp_zoom, M.wp_rd]
  refine ⟨x, hx, ub_bind ?_⟩
  simp only [M.wp_zoom, M.wp_rd]
  refine ⟨y, hy, ub_bind ?_⟩
  simp only [M.wp_zoom, M.wp_wr]
  refine ⟨by rw [hx]; simp, ub_bind ?_⟩
  simp only [M.wp_zoom, M.wp_wr]
  refine ⟨by rw [Buf.set_apply]; split_ifs <;> simp [hy], ?_⟩
  by_cases hfit : FitsInt w (j + off)
  · have hnone : m.out.major (j + off) = .none := hpos.resolve_left (by have := hfit.2; omega)
    refine ub_bind ?_
    rw [M.wp_lift]
    refine ⟨_, by unfold intW; rw [if_pos hfit], ub_bind_left ?_⟩
    simp only [onMajor, M.zoom, M.wr, hnone]
  · refine ub_bind_left ?_
    simp only [M.lift, intW, if_neg hfit]

theorem fyBlockW_ub [One T] [Neg T] {w : Nat} {G : Gen N K W R} {state : RNGState N K} {k n i : Int} {o : SkBufs T} {piv : Buf Int} (hw : 0 < w)
    (hw' : w < 64) (hlen : 2 ≤ G.len) (hkn : k ≤ n) (hn : n ≤ intMax w) (hi : 0 ≤ i) (h1 : i * k ≤ intMax w + 1)
    (h2 : intMax w + 1 < (i + 1) * k) (ho : SkAlloc o ((i + 1) * k)) (hneg : ∀ p, p < 0 → o.major p = .none)
    (hpiv : ∀ p, 0 ≤ p → p < k → piv p ≠ .none) :
    (fyBlockW w G state k n i { work := Buf.ofFn n id, pivots := piv, out := fyOut G state k n (i * k) o }).1 = .ub := by
  have hm : intMax w < 2 ^ 63 - 1 := by
    have : (2 : Int) ^ (w - 1) ≤ 2 ^ 62 := pow_le_pow_right₀ (by norm_num) (by omega)
    unfold intMax; omega
  have hpow : (0 : Int) < 2 ^ (w - 1) := by positivity
  have hmp : 0 ≤ intMax w := by unfold intMax; omega
  have e : (i + 1) * k = i * k + k := by ring
  have hk : 0 < k := by omega
  have h0 : 0 ≤ i * k := mul_nonneg hi hk.le
  unfold fyBlockW
  rw [mlift_i64 (by omega) (by omega)]
  by_cases hkw : intMax w ≤ k
  · refine ub_bind_left ?_
    simp only [M.ubIf, if_pos hkw]; rfl
  rw [mubIf_false hkw]
  refine ub_bind_left ?_
  rcases h1.lt_or_eq with hlt | heq
  · -- the position overflows inside the block
    rw [wrapInt_self hw h0 (by omega)]
    obtain ⟨j, hj⟩ := Int.eq_ofNat_of_zero_le (show 0 ≤ intMax w + 1 - i * k by omega)
    refine ub_foldI (i := j) (by omega) (by omega) ?_
    rw [foldI_congr (g := fyStep G state.key n i (i * k)) (fun t t0 t1 => by funext c; exact fyStepW_eq hw (by omega) t0 (by omega) hn h0 (by omega))]
    refine M.wp_foldI (fun t c m => c = state.counter + ((i * k + t : Int) : ZMod N) ∧ m = fyMem G state k n i o piv t.toNat) (by omega) ?_ ?_ ?_
    · constructor
      · rw [ctrIncr_eq h0 (by omega)]; simp
      · simp only [fyMem, Int.toNat_zero, fyPerm, Nat.cast_zero, add_zero]
        rw [Buf.over_zero (le_refl 0)]; rfl
    · rintro t c s t0 t1 ⟨rfl, rfl⟩
      obtain ⟨t', rfl⟩ := Int.eq_ofNat_of_zero_le t0
      refine M.wp_mono (fyStep_spec hlen hi (lt_add_one i) (by omega) hkn ho hpiv) ?_
      rintro c s ⟨rfl, rfl⟩
      exact ⟨by push_cast; rfl, rfl⟩
    · rintro c s ⟨-, rfl⟩
      refine fyStepW_ub hw (by omega) hlen (by omega) hn (fun p p0 p1 => ⟨_, Buf.ofFn_in p0 p1⟩) ?_ (Or.inl (by omega))
      simp only [fyMem]
      exact Buf.over_ne_none (hpiv (j : Int) (by omega) (by omega))
  · -- the offset of the block wraps around
    have hoff : wrapInt w (i * k) < 0 := by
      have e2 : (2 : Int) ^ w = 2 * 2 ^ (w - 1) := by
        obtain ⟨k, rfl⟩ : ∃ k, w = k + 1 := ⟨w - 1, by omega⟩
        simp [pow_succ]; ring
      rw [heq]; unfold wrapInt intMax
      rw [show (2 : Int) ^ (w - 1) - 1 + 1 + 2 ^ (w - 1) = 2 ^ w by omega, Int.emod_self]; omega
    refine ub_foldI (i := 0) le_rfl hk ?_
    have : ∀ {f : Int → ZMod N → M (FYMem T) (ZMod N)} {a : ZMod N}, foldI 0 0 f a = pure a := fun {_ _} => rfl
    rw [this, M.wp_pure]
    refine fyStepW_ub (j := 0) hw (by omega) hlen (by push_cast; omega) hn (fun p p0 p1 => ⟨_, Buf.ofFn_in p0 p1⟩) (hpiv 0 le_rfl hk) (Or.inr ?_)
    simp only [fyOut, Nat.cast_zero, zero_add]
    rw [Buf.over_out (by omega)]
    exact hneg _ hoff

theorem repeatedFisherYatesW_ub [One T] [Neg T] {w : Nat} {G : Gen N K W R} {state : RNGState N K} {k n r : Int} {o : SkBufs T} (hw : 0 < w)
    (hw' : w < 64) (hlen : 2 ≤ G.len) (hk : 0 < k) (hkn : k ≤ n) (hn : n ≤ intMax w) (hr : 0 ≤ r) (hbig : intMax w + 1 < r * k)
    (ho : SkAlloc o (r * k)) (hneg : ∀ p, p < 0 → o.major p = .none) : (repeatedFisherYatesW w G state k n r o).1 = .ub := by
  have hm : intMax w < 2 ^ 63 - 1 := by
    have : (2 : Int) ^ (w - 1) ≤ 2 ^ 62 := pow_le_pow_right₀ (by norm_num) (by omega)
    unfold intMax; omega
  have h64 : intMax 64 = 2 ^ 63 - 1 := rfl
  have hmp : 0 ≤ intMax w := by
    have hpow : (0 : Int) < 2 ^ (w - 1) := by positivity
    unfold intMax; omega
  unfold repeatedFisherYatesW
  refine ub_bind ?_
  rw [M.wp_errorIf]
  refine ⟨by omega, ?_⟩
  unfold mkVector
  rw [if_neg (by omega), if_neg (by omega)]
  refine ub_bind ?_
  rw [M.wp_pure, mubIf_false (by omega)]
  refine ub_bind ?_
  rw [M.wp_onLocal]
  refine M.wp_forI (fun j w => w = Buf.over j (fun p => p) (Buf.fill n 0)) (by omega) ?_ ?_ ?_
  · rw [Buf.over_zero (le_refl 0)]
  · rintro j w hj0 hj1 rfl
    rw [M.wp_wr]
    refine ⟨Buf.over_ne_none ?_, Buf.over_set hj0 _ _⟩
    simp [Buf.fill, hj0, hj1]
  rintro wk rfl
  have hwk : Buf.over n (fun p => p) (Buf.fill n 0) = Buf.ofFn n id := by
    funext p; simp only [Buf.over, Buf.ofFn, Buf.fill, id]; split_ifs <;> rfl
  rw [hwk]
  dsimp only
  refine ub_bind ?_
  rw [M.wp_pure]
  by_cases hrw : intMax w < r
  · refine ub_bind_left ?_
    simp only [M.ubIf, if_pos hrw]; rfl
  rw [mubIf_false hrw]
  refine ub_bind ?_
  rw [M.wp_get]
  refine ub_bind_left ?_
  -- the block in which the positions leave the range of the index type
  let i := (intMax w + 1) / k
  have hi0 : 0 ≤ i := Int.ediv_nonneg (by omega) hk.le
  have hi1 : i * k ≤ intMax w + 1 := Int.ediv_mul_le _ hk.ne'
  have hi2 : intMax w + 1 < (i + 1) * k := Int.lt_ediv_add_one_mul_self _ hk
  have hir : i < r := by
    by_contra hc
    have : r * k ≤ i * k := mul_le_mul_of_nonneg_right (by omega) hk.le
    omega
  have hik : (i + 1) * k ≤ r * k := mul_le_mul_of_nonneg_right (by omega) hk.le
  have hkw : k ≤ intMax w := by omega
  have hloop : (forI 0 r (fyBlockW w G state k n) { work := Buf.ofFn n id, pivots := Buf.fill k 0, out := o }).1 = .ub := by
    by_cases hkw' : intMax w ≤ k
    · -- the loop counter overflows in the first block
      refine ub_forI (i := 0) le_rfl (by omega) ?_
      rw [M.forI_empty le_rfl, M.wp_pure]
      unfold fyBlockW
      rw [mlift_i64 (by omega) (by omega)]
      refine ub_bind_left ?_
      simp only [M.ubIf, if_pos hkw']; rfl
    refine ub_forI (i := i) hi0 hir ?_
    rw [forI_congr fun t t0 t1 => fyBlockW_eq hw hw'.le hk.le hkn (by omega) hn t0 (show (t + 1) * k ≤ intMax w + 1 by nlinarith)]
    refine M.wp_forI (fun t m => ∃ piv, (∀ p, 0 ≤ p → p < k → piv p ≠ .none) ∧
        m = { work := Buf.ofFn n id, pivots := piv, out := fyOut G state k n (t * k) o }) hi0 ?_ ?_ ?_
    · refine ⟨Buf.fill k 0, ?_, ?_⟩
      rotate_left
      · congr 1
        have e1 : (Buf.over 0 fun p => p / k) = (fun b => b) := by funext b; exact Buf.over_zero (le_refl 0) _ _
        have e2 : (Buf.over 0 (fySign (T := T) G state)) = (fun b => b) := by funext b; exact Buf.over_zero (le_refl 0) _ _
        simp only [fyOut, zero_mul, Buf.over_zero (le_refl (0 : Int)), e1, e2, Option.map_id']
      · intro p h0 h1; simp [Buf.fill, h0, h1]
    · rintro t m t0 t1 ⟨piv, hp, rfl⟩
      refine fyBlock_spec hlen hk.le t0 t1 hkn ⟨fun p p0 p1 => ho.major p p0 ?_, fun b hb p p0 p1 => ho.minor b hb p p0 ?_, fun b hb p p0 p1 => ho.vals b hb p p0 ?_⟩ (by omega) hp
      all_goals nlinarith
    · rintro m ⟨piv, hp, rfl⟩
      refine fyBlockW_ub hw hw' hlen hkn hn hi0 hi1 hi2 ⟨fun p p0 p1 => ho.major p p0 ?_, fun b hb p p0 p1 => ho.minor b hb p p0 ?_, fun b hb p p0 p1 => ho.vals b hb p p0 ?_⟩ hneg hp
      all_goals omega
  unfold M.onLocal
  rcases hb : forI 0 r (fyBlockW w G state k n) { work := Buf.ofFn n id, pivots := Buf.fill k 0, out := o } with ⟨res, mem⟩
  rw [hb] at hloop
  simp only at hloop
  subst hloop
  rfl

end RB
