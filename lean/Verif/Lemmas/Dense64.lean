import Verif.Lemmas.Sketch
import Verif.Model.Dense64
import Verif.Lemmas.Dense

/-! # Machine integers give the same results as integers if nothing overflows -/

namespace RB
open Spec
variable {N : Nat} {K W T α β : Type}

theorem i64_ok {x : Int} (h0 : -2 ^ 63 ≤ x) (h1 : x < 2 ^ 63) : i64 x = .ok x := by
  unfold i64; rw [if_pos]
  constructor
  · simpa [intMin] using h0
  · have : intMax 64 = 2 ^ 63 - 1 := rfl
    omega

theorem parFor_congr {sched : List Nat} {n : Nat} {f g : Nat → Prog T Unit} (h : ∀ k, k < n → f k = g k) : parFor sched n f = parFor sched n g := by
  induction sched generalizing f g with
  | nil => unfold parFor; exact forN_congr fun k hk => by rw [h k hk]
  | cons t rest ih =>
    unfold parFor
    split_ifs with ht
    · rw [h t ht]
      congr 1; funext p
      refine ih fun k hk => ?_
      unfold Function.update
      split_ifs
      · rfl
      · exact h k hk
    · exact ih h

theorem parForI_congr {sched : List Nat} {lo hi : Int} {f g : Int → Prog T Unit} (h : ∀ i, lo ≤ i → i < hi → f i = g i) :
    parForI sched lo hi f = parForI sched lo hi g := parFor_congr fun k hk => h _ (by omega) (by omega)

/-- All results of a program meet `P`. -/
def Prog.Rets (P : α → Prop) : Prog T α → Prop
  | .ret a => P a
  | .throw _ => True
  | .ub => True
  | .rd _ k => ∀ v, (k v).Rets P
  | .wr _ _ k => k.Rets P

theorem Prog.Rets.bind_congr {P : α → Prop} {p : Prog T α} {f g : α → Prog T β} (hp : p.Rets P) (h : ∀ a, P a → f a = g a) :
    p >>= f = p >>= g := by
  show Prog.bind p f = Prog.bind p g
  induction p with
  | ret a => exact h a hp
  | throw e => rfl
  | ub => rfl
  | rd i k ih => simp only [Prog.bind]; congr 1; funext v; exact ih v (hp v)
  | wr i v k ih => simp only [Prog.bind]; rw [ih hp]

theorem Prog.Rets.bind {P : α → Prop} {Q : β → Prop} {p : Prog T α} {f : α → Prog T β} (hp : p.Rets P) (h : ∀ a, P a → (f a).Rets Q) :
    (p >>= f).Rets Q := by
  show (Prog.bind p f).Rets Q
  induction p with
  | ret a => exact h a hp
  | throw e => trivial
  | ub => trivial
  | rd i k ih => exact fun v => ih v (hp v)
  | wr i v k ih => exact ih hp

theorem Prog.Rets.true {p : Prog T α} : p.Rets fun _ => True := by
  induction p with
  | ret a => trivial
  | throw e => trivial
  | ub => trivial
  | rd i k ih => exact fun v => ih v
  | wr i v k ih => exact ih

theorem foldN_congrP {n : Nat} {f g : Nat → α → Prog T α} {P : Nat → α → Prop} {a : α} (h0 : P 0 a)
    (h : ∀ k a, k < n → P k a → f k a = g k a ∧ (g k a).Rets (P (k + 1))) : foldN n f a = foldN n g a ∧ (foldN n g a).Rets (P n) := by
  induction n with
  | zero => exact ⟨rfl, h0⟩
  | succ n ih =>
    obtain ⟨h1, h2⟩ := ih fun k a hk => h k a (by omega)
    unfold foldN
    rw [h1]
    exact ⟨h2.bind_congr fun a ha => (h n a (by omega) ha).1, h2.bind fun a ha => (h n a (by omega) ha).2⟩

theorem foldI_congrP {lo hi : Int} {f g : Int → α → Prog T α} {P : Int → α → Prop} {a : α} (h0 : P lo a)
    (h : ∀ i a, lo ≤ i → i < hi → P i a → f i a = g i a ∧ (g i a).Rets (P (i + 1))) : foldI lo hi f a = foldI lo hi g a := by
  refine (foldN_congrP (P := fun k => P (lo + k)) (by simpa using h0) fun k a hk ha => ?_).1
  have := h (lo + k) a (by omega) (by omega) ha
  refine ⟨this.1, ?_⟩
  have h2 := this.2
  rw [add_assoc] at h2
  push_cast
  exact h2

theorem lift_i64 {x : Int} (h0 : -2 ^ 63 ≤ x) (h1 : x < 2 ^ 63) {f : Int → Prog T α} : (Prog.lift (i64 x) >>= f) = f x := by
  rw [i64_ok h0 h1]; rfl

theorem mlift_i64 {σ : Type} {x : Int} (h0 : -2 ^ 63 ≤ x) (h1 : x < 2 ^ 63) {f : Int → M σ α} : (M.lift (i64 x) >>= f) = f x := by
  rw [i64_ok h0 h1]; rfl

theorem fillRow64_eq {gen : ZMod N → K → Res (Buf T)} {L : Int} {c : ZMod N} {k : K} {lda stride fs fl cs ce ls : Int} {one one' : Prop} [Decidable one]
    [Decidable one'] {row : Int} (hone : one' ↔ one) (h1 : 0 ≤ row * lda) (h2 : row * lda < 2 ^ 63) (hL : 0 < L) (hL2 : L < 2 ^ 30) (hce : cs ≤ ce)
    (hfl : 0 ≤ fl) (hfl2 : fl ≤ L) (hb : ce - cs ≤ 2 ^ 31) :
    fillRow64 gen L c k lda stride fs fl cs ce ls one row = fillRow gen L c k lda stride fs fl cs ce ls one' row := by
  unfold fillRow64 fillRow
  congr 1; funext incr
  dsimp only
  congr 1; funext rv
  rw [lift_i64 (by omega) h2]
  congr 1; funext _
  by_cases ho : one
  · rw [if_pos ho, if_pos (hone.mpr ho)]
  · rw [if_neg ho, if_neg fun h => ho (hone.mp h)]
    rw [lift_i64 (by omega) (by omega), lift_i64 (by omega) (by omega)]
    rw [if_pos (show ce - cs - 1 ≤ intMax 32 by have : intMax 32 = 2 ^ 31 - 1 := rfl; omega)]
    have hl : ∀ {β : Type} (f : Unit → Prog T β), (Prog.lift (.ok ()) >>= f) = f () := fun f => rfl
    rw [hl]
    rw [foldI_congrP (P := fun i (st : ZMod N × Int) => st.2 = fl + i * L) (by simp) ?_]
    intro i st hi0 hi1 hst
    constructor
    · congr 1; funext rv
      congr 1; funext _
      have hiL : i * L < 2 ^ 31 * L := mul_lt_mul_of_pos_right (by omega) hL
      have hi2 : 0 ≤ i * L := mul_nonneg hi0 hL.le
      rw [lift_i64 (by rw [hst]; omega) (by rw [hst]; omega)]
    · refine Prog.Rets.bind Prog.Rets.true fun rv _ => Prog.Rets.bind Prog.Rets.true fun _ _ => ?_
      show st.2 + L = fl + (i + 1) * L
      rw [hst]; ring

theorem fillSubmat64_eq {sched : List Nat} {gen : ZMod N → K → Res (Buf T)} {L : Int} {nCols nSrows nScols ro co : Int} {seed : RNGState N K}
    (hL : 0 < L) (hL2 : L < 2 ^ 30) (hro : 0 ≤ ro) (hco : 0 ≤ co) (hn : 0 < nScols) (hr : 0 < nSrows) (hin : co + nScols ≤ nCols)
    (hfit : (ro + nSrows) * (L * countersPerVector L nCols) < 2 ^ 63) (hlen : nScols ≤ L * 2 ^ 31) :
    fillDenseSubmatImpl64 sched gen L nCols nSrows nScols (ro * nCols + co) seed 0 =
      fillDenseSubmatImpl sched gen L nCols nSrows nScols (ro * nCols + co) seed 0 := by
  have hpad := pad_div (n := nCols) hL
  have hmod : nCols.tmod L = nCols % L := Int.tmod_eq_emod_of_nonneg (by omega)
  have h0 := Int.emod_nonneg nCols (show L ≠ 0 by omega)
  have h1 := Int.emod_lt_of_pos nCols hL
  set Q := L * countersPerVector L nCols with hQ
  have hnQ : nCols ≤ Q := by rw [← hpad]; split_ifs <;> omega
  have hQL : Q < nCols + L := by rw [← hpad]; split_ifs <;> omega
  have hrow1 : (ro + 1) * Q ≤ (ro + nSrows) * Q := mul_le_mul_of_nonneg_right (by omega) (by omega)
  have hrow2 : nSrows * Q ≤ (ro + nSrows) * Q := mul_le_mul_of_nonneg_right (by omega) (by omega)
  have hexp : (ro + 1) * Q = ro * Q + Q := by ring
  have hroQ : 0 ≤ ro * Q := mul_nonneg hro (by omega)
  have hrn : ro * nCols ≤ ro * Q := mul_le_mul_of_nonneg_left hnQ hro
  have hrn0 : 0 ≤ ro * nCols := mul_nonneg hro (by omega)
  have hquot : (ro * nCols + co).tdiv nCols = ro := by
    rw [Int.tdiv_eq_ediv_of_nonneg (by omega), Int.add_comm, Int.add_mul_ediv_right _ _ (by omega), Int.ediv_eq_zero_of_lt hco (by omega), zero_add]
  have hpp : ro * nCols + co + ro * (if nCols % L ≠ 0 then L - nCols % L else 0) = ro * Q + co := by rw [← hpad]; ring
  have hextra : 0 ≤ ro * (if nCols % L ≠ 0 then L - nCols % L else 0) ∧ ro * (if nCols % L ≠ 0 then L - nCols % L else 0) < 2 ^ 63 := by
    constructor
    · exact mul_nonneg hro (by split_ifs <;> omega)
    · omega
  have hroQ1 : ro ≤ ro * Q ∨ ro = 0 := by
    rcases eq_or_lt_of_le hro with h | h
    · exact Or.inr h.symm
    · left; nlinarith
  have hrofit : ro < 2 ^ 63 := by omega
  unfold fillDenseSubmatImpl64 fillDenseSubmatImpl
  simp only [hmod, hquot]
  congr 1; funext _
  congr 1; funext _
  have hpadlift : ∀ {f : Int → M (Buf T) (RNGState N K)}, (M.lift (if nCols % L ≠ 0 then i64 (L - nCols % L) else .ok 0) >>= f) =
      f (if nCols % L ≠ 0 then L - nCols % L else 0) := by
    intro f
    split_ifs
    · exact mlift_i64 (by omega) (by omega)
    · rfl
  rw [hpadlift]
  have hdiv : divInt 64 (ro * nCols + co) nCols = .ok ro := by
    unfold divInt
    rw [if_neg (by omega), hquot, if_pos]
    constructor
    · have : intMin 64 = -2 ^ 63 := rfl
      omega
    · have : intMax 64 = 2 ^ 63 - 1 := rfl
      omega
  rw [hdiv]
  have hlift : ∀ {x : Int} {f : Int → M (Buf T) (RNGState N K)}, (M.lift (.ok x) >>= f) = f x := fun {_ _} => rfl
  have hub : ∀ {f : Unit → M (Buf T) (RNGState N K)}, (M.ubIf (nCols = 0) >>= f) = f () := by
    intro f; unfold M.ubIf; rw [if_neg (by omega)]; rfl
  rw [hlift, hub]
  rw [mlift_i64 (by omega) hextra.2, hpp, mlift_i64 (by omega) (by omega), mlift_i64 (by omega) (by omega), mlift_i64 (by omega) (by omega), hpad,
    mlift_i64 (by omega) (by omega)]
  have hstr : Q.tdiv L = countersPerVector L nCols := by
    rw [Int.tdiv_eq_ediv_of_nonneg (by omega), hQ, Int.mul_ediv_cancel_left _ (by omega)]
  have hcv : 0 ≤ countersPerVector L nCols := countersPerVector_nonneg hL (by omega)
  have htot : nSrows * countersPerVector L nCols ≤ nSrows * Q := mul_le_mul_of_nonneg_left (by rw [hQ]; nlinarith) (by omega)
  rw [hstr, if_pos (le_refl 0)]
  have htot0 : 0 ≤ nSrows * countersPerVector L nCols := mul_nonneg (by omega) hcv
  have hpp0 : (ro * Q + co).tdiv L = (ro * Q + co) / L := Int.tdiv_eq_ediv_of_nonneg (by omega)
  have hpp1 : (ro * Q + co + nScols - 1).tdiv L = (ro * Q + co + nScols - 1) / L := Int.tdiv_eq_ediv_of_nonneg (by omega)
  have hpm0 : (ro * Q + co).tmod L = (ro * Q + co) % L := Int.tmod_eq_emod_of_nonneg (by omega)
  have hpm1 : (ro * Q + co + nScols - 1).tmod L = (ro * Q + co + nScols - 1) % L := Int.tmod_eq_emod_of_nonneg (by omega)
  rw [hpp0, hpp1, hpm0, hpm1]
  set a := ro * Q + co with ha
  have e1 := Int.mul_ediv_add_emod a L
  have e2 := Int.mul_ediv_add_emod (a + nScols - 1) L
  have m1 := Int.emod_nonneg a (show L ≠ 0 by omega)
  have m2 := Int.emod_lt_of_pos a hL
  have m3 := Int.emod_nonneg (a + nScols - 1) (show L ≠ 0 by omega)
  have m4 := Int.emod_lt_of_pos (a + nScols - 1) hL
  have d1 : 0 ≤ a / L := Int.ediv_nonneg (by omega) (by omega)
  have d2 : a / L ≤ (a + nScols - 1) / L := Int.ediv_le_ediv hL (by omega)
  have d3 : (a + nScols - 1) / L ≤ a + nScols - 1 := Int.ediv_le_self _ (by omega)
  have d4 : (a + nScols - 1) / L - a / L ≤ 2 ^ 31 := by
    have : L * ((a + nScols - 1) / L - a / L) < L * (2 ^ 31 + 1) := by rw [mul_sub, mul_add]; omega
    have := lt_of_mul_lt_mul_left this hL.le
    omega
  have d5 : a / L = (a + nScols - 1) / L → a % L ≤ (a + nScols - 1) % L := by intro h; rw [h] at e1; omega
  congr 1
  · apply parForI_congr
    intro row r0 r1
    have hrl : row * nScols ≤ nSrows * Q := mul_le_mul (by omega) (by omega) (by omega) (by omega)
    have hrl0 : 0 ≤ row * nScols := mul_nonneg r0 (by omega)
    apply fillRow64_eq (by rw [hmod, hquot, hpp, hpp0, hpp1]) hrl0 (by omega) hL hL2 d2
    · split_ifs with h
      · have := d5 h; omega
      · omega
    · split_ifs <;> omega
    · exact d4
  · funext _
    rw [mlift_i64 (by omega) (by omega)]

theorem omatcopy64_eq {m n : Int} {A : Buf T} {l l' : Layout} {b0 : Int} (h : m * n < 2 ^ 63) :
    omatcopy64 m n A (layoutToStrides3 l m n).irs (layoutToStrides3 l m n).ics b0 (layoutToStrides3 l' m n).irs (layoutToStrides3 l' m n).ics =
      omatcopy m n A (layoutToStrides3 l m n).irs (layoutToStrides3 l m n).ics b0 (layoutToStrides3 l' m n).irs (layoutToStrides3 l' m n).ics := by
  unfold omatcopy64 omatcopy
  apply forI_congr
  intro i i0 i1
  apply forI_congr
  intro j j0 j1
  have key : ∀ l : Layout, 0 ≤ i * (layoutToStrides3 l m n).irs ∧ 0 ≤ j * (layoutToStrides3 l m n).ics ∧
      i * (layoutToStrides3 l m n).irs + j * (layoutToStrides3 l m n).ics < 2 ^ 63 := by
    intro l
    unfold layoutToStrides3
    split_ifs
    · simp only [mul_one]
      exact ⟨i0, mul_nonneg j0 (by omega), by nlinarith⟩
    · simp only [mul_one]
      exact ⟨mul_nonneg i0 (by omega), j0, by nlinarith⟩
  obtain ⟨k1, k2, k3⟩ := key l
  obtain ⟨k4, k5, k6⟩ := key l'
  rw [mlift_i64 (by omega) (by omega), mlift_i64 (by omega) (by omega), mlift_i64 (by omega) (by omega)]
  congr 1; funext v
  rw [mlift_i64 (by omega) (by omega), mlift_i64 (by omega) (by omega), mlift_i64 (by omega) (by omega)]

theorem flipWork64_eq {l l' : Layout} {m n : Int} (h0 : 0 ≤ m * n) (h : m * n < 2 ^ 63) : (flipWork64 l l' m n : M (Buf T) Unit) = flipWork l l' m n := by
  unfold flipWork64 flipWork
  rw [mlift_i64 (by omega) h]
  simp only [omatcopy64_eq h]

theorem scaleByFamily64_eq [Mul T] {f : ScalarDist} {a b : Int} {x : T} (h0 : 0 ≤ a * b) (h : a * b < 2 ^ 63) :
    (scaleByFamily64 f a b x : M (Buf T) Unit) = scaleByFamily f (a * b) x := by
  cases f
  · rfl
  · show (M.lift (i64 (a * b)) >>= fun n => _) = _
    rw [mlift_i64 (by omega) h]; rfl

end RB
