import Verif.Model.Util
import Verif.Lemmas.Mat

/-! # Lemmas about the dense utilities -/

namespace RB
open Spec

variable {T : Type}

/-- `symmetrize`, Upper. -/
theorem symmetrize_upper_spec {layout : Layout} {n lda : Int} {b0 b : Buf T} {A : Int → Int → T} (hn : 0 ≤ n)
    (hld : LdOk layout lda n n)
    (h : MatSt b0 (addr layout lda) n n (fun i j => .val (A i j)) b) :
    M.wp (symmetrize layout .Upper n lda) b (fun _ b' =>
      MatSt b0 (addr layout lda) n n (fun i j => .val (if j < i then A j i else A i j)) b') := by
  unfold symmetrize
  simp only [strides_at]
  apply M.wp_forI (fun i b => MatSt b0 (addr layout lda) n n (fun r c => .val (if c < r ∧ c < i then A c r else A r c)) b) hn
  · exact h.congr (fun i j hij => by have := hij.2.2.1; rw [if_neg (by omega)])
  · intro i b hi0 hin hb
    apply M.wp_forI (fun j b => MatSt b0 (addr layout lda) n n
      (fun r c => .val (if c < r ∧ (c < i ∨ c = i ∧ r < j) then A c r else A r c)) b) (by omega)
    · exact hb.congr (fun r c hrc => by congr 1; apply if_congr _ rfl rfl; omega)
    · intro j b hj0 hjn hb
      rw [M.wp_bind]
      refine hb.wp_rd ⟨by omega, by omega, by omega, by omega⟩ rfl ?_
      refine hb.wp_wr (adInj_addr hld) ⟨by omega, by omega, by omega, by omega⟩ (by simp) ?_
      intro b' hb'
      refine hb'.congr (fun r c hrc => ?_)
      by_cases h1 : r = j ∧ c = i
      · obtain ⟨rfl, rfl⟩ := h1
        rw [if_pos ⟨rfl, rfl⟩]
        congr 1
        rw [if_neg (by omega), if_pos (by omega)]
      · rw [if_neg h1]
        congr 1
        apply if_congr _ rfl rfl
        omega
    · intro b hb
      exact hb.congr (fun r c hrc => by
        obtain ⟨_, _, _, _⟩ := hrc
        congr 1; apply if_congr _ rfl rfl; omega)
  · intro b hb
    exact hb.congr (fun r c hrc => by
      obtain ⟨_, _, _, _⟩ := hrc
      congr 1; apply if_congr _ rfl rfl; omega)

/-- `symmetrize`, Lower. -/
theorem symmetrize_lower_spec {layout : Layout} {n lda : Int} {b0 b : Buf T} {A : Int → Int → T} (hn : 0 ≤ n)
    (hld : LdOk layout lda n n)
    (h : MatSt b0 (addr layout lda) n n (fun i j => .val (A i j)) b) :
    M.wp (symmetrize layout .Lower n lda) b (fun _ b' =>
      MatSt b0 (addr layout lda) n n (fun i j => .val (if i < j then A j i else A i j)) b') := by
  unfold symmetrize
  simp only [strides_at]
  apply M.wp_forI (fun i b => MatSt b0 (addr layout lda) n n (fun r c => .val (if r < c ∧ r < i then A c r else A r c)) b) hn
  · exact h.congr (fun i j hij => by have := hij.1; rw [if_neg (by omega)])
  · intro i b hi0 hin hb
    apply M.wp_forI (fun j b => MatSt b0 (addr layout lda) n n
      (fun r c => .val (if r < c ∧ (r < i ∨ r = i ∧ c < j) then A c r else A r c)) b) (by omega)
    · exact hb.congr (fun r c hrc => by congr 1; apply if_congr _ rfl rfl; omega)
    · intro j b hj0 hjn hb
      rw [M.wp_bind]
      refine hb.wp_rd ⟨by omega, by omega, by omega, by omega⟩ rfl ?_
      refine hb.wp_wr (adInj_addr hld) ⟨by omega, by omega, by omega, by omega⟩ (by simp) ?_
      intro b' hb'
      refine hb'.congr (fun r c hrc => ?_)
      by_cases h1 : r = i ∧ c = j
      · obtain ⟨rfl, rfl⟩ := h1
        rw [if_pos ⟨rfl, rfl⟩]
        congr 1
        rw [if_neg (by omega), if_pos (by omega)]
      · rw [if_neg h1]
        congr 1
        apply if_congr _ rfl rfl
        omega
    · intro b hb
      exact hb.congr (fun r c hrc => by
        obtain ⟨_, _, _, _⟩ := hrc
        congr 1; apply if_congr _ rfl rfl; omega)
  · intro b hb
    exact hb.congr (fun r c hrc => by
      obtain ⟨_, _, _, _⟩ := hrc
      congr 1; apply if_congr _ rfl rfl; omega)

/-- `overwrite_triangle`, Upper, `k ≥ 0`. -/
theorem overwrite_upper_spec [Zero T] {layout : Layout} {n k lda : Int} {b0 b : Buf T} {A : Int → Int → Cell T}
    (hn : 0 ≤ n) (hk : 0 ≤ k) (hld : LdOk layout lda n n)
    (h : MatSt b0 (addr layout lda) n n A b) (hA : ∀ i j, InR n n i j → A i j ≠ .none) :
    M.wp (overwriteTriangle layout .Upper n k lda) b (fun _ b' =>
      MatSt b0 (addr layout lda) n n (fun i j => if i + k ≤ j then .val 0 else A i j) b') := by
  unfold overwriteTriangle
  simp only [strides_at]
  apply M.wp_forI (fun i b => MatSt b0 (addr layout lda) n n (fun r c => if r + k ≤ c ∧ r < i then .val 0 else A r c) b) hn
  · exact h.congr (fun i j hij => by have := hij.1; rw [if_neg (by omega)])
  · intro i b hi0 hin hb
    apply M.wp_forI' (fun j b => MatSt b0 (addr layout lda) n n
      (fun r c => if r + k ≤ c ∧ (r < i ∨ r = i ∧ c < j) then .val 0 else A r c) b)
    · exact hb.congr (fun r c hrc => by apply if_congr _ rfl rfl; omega)
    · intro j b hj0 hjn hb
      have hij : InR n n i j := ⟨by omega, by omega, by omega, by omega⟩
      refine hb.wp_wr (adInj_addr hld) hij ?_ ?_
      · split_ifs
        · simp
        · exact hA i j hij
      intro b' hb'
      refine hb'.congr (fun r c hrc => ?_)
      by_cases h1 : r = i ∧ c = j
      · obtain ⟨rfl, rfl⟩ := h1
        rw [if_pos ⟨rfl, rfl⟩, if_pos (by omega)]
      · rw [if_neg h1]
        apply if_congr _ rfl rfl
        omega
    · intro b hb
      exact hb.congr (fun r c hrc => by
        obtain ⟨_, _, _, _⟩ := hrc
        apply if_congr _ rfl rfl; omega)
  · intro b hb
    exact hb.congr (fun r c hrc => by
      obtain ⟨_, _, _, _⟩ := hrc
      apply if_congr _ rfl rfl; omega)

/-- `overwrite_triangle`, Lower, `k ≥ 0`. -/
theorem overwrite_lower_spec [Zero T] {layout : Layout} {n k lda : Int} {b0 b : Buf T} {A : Int → Int → Cell T}
    (hn : 0 ≤ n) (hk : 0 ≤ k) (hld : LdOk layout lda n n)
    (h : MatSt b0 (addr layout lda) n n A b) (hA : ∀ i j, InR n n i j → A i j ≠ .none) :
    M.wp (overwriteTriangle layout .Lower n k lda) b (fun _ b' =>
      MatSt b0 (addr layout lda) n n (fun i j => if j + k ≤ i then .val 0 else A i j) b') := by
  unfold overwriteTriangle
  simp only [strides_at]
  apply M.wp_forI (fun i b => MatSt b0 (addr layout lda) n n (fun r c => if c + k ≤ r ∧ c < i then .val 0 else A r c) b) hn
  · exact h.congr (fun i j hij => by have := hij.2.2.1; rw [if_neg (by omega)])
  · intro i b hi0 hin hb
    apply M.wp_forI' (fun j b => MatSt b0 (addr layout lda) n n
      (fun r c => if c + k ≤ r ∧ (c < i ∨ c = i ∧ r < j) then .val 0 else A r c) b)
    · exact hb.congr (fun r c hrc => by apply if_congr _ rfl rfl; omega)
    · intro j b hj0 hjn hb
      have hij : InR n n j i := ⟨by omega, by omega, by omega, by omega⟩
      refine hb.wp_wr (adInj_addr hld) hij ?_ ?_
      · split_ifs
        · simp
        · exact hA j i hij
      intro b' hb'
      refine hb'.congr (fun r c hrc => ?_)
      by_cases h1 : r = j ∧ c = i
      · obtain ⟨rfl, rfl⟩ := h1
        rw [if_pos ⟨rfl, rfl⟩, if_pos (by omega)]
      · rw [if_neg h1]
        apply if_congr _ rfl rfl
        omega
    · intro b hb
      exact hb.congr (fun r c hrc => by
        obtain ⟨_, _, _, _⟩ := hrc
        apply if_congr _ rfl rfl; omega)
  · intro b hb
    exact hb.congr (fun r c hrc => by
      obtain ⟨_, _, _, _⟩ := hrc
      apply if_congr _ rfl rfl; omega)

/-- `transpose_square`. -/
theorem transposeSquare_spec {n lda : Int} {b0 b : Buf T} {A : Int → Int → T} (hn : 0 ≤ n) (hld : n ≤ lda)
    (h : MatSt b0 (addr .ColMajor lda) n n (fun i j => .val (A i j)) b) :
    M.wp (transposeSquare n lda) b (fun _ b' =>
      MatSt b0 (addr .ColMajor lda) n n (fun i j => .val (A j i)) b') := by
  have hinj : AdInj (addr .ColMajor lda) n n := adInj_addr hld
  have e : ∀ i j : Int, i + lda * j = addr .ColMajor lda i j := fun i j => by simp [addr]; ring
  unfold transposeSquare
  simp only [e]
  apply M.wp_forI (fun i b => MatSt b0 (addr .ColMajor lda) n n
    (fun r c => .val (if c < i ∨ r < i then A c r else A r c)) b) hn
  · exact h.congr (fun i j hij => by obtain ⟨_, _, _, _⟩ := hij; rw [if_neg (by omega)])
  · intro i b hi0 hin hb
    apply M.wp_forI (fun j b => MatSt b0 (addr .ColMajor lda) n n
      (fun r c => .val (if c < i ∨ r < i ∨ (r = i ∧ c < j) ∨ (c = i ∧ r < j) then A c r else A r c)) b) (by omega)
    · refine hb.congr (fun r c hrc => ?_)
      by_cases h1 : r = i ∧ c = i
      · obtain ⟨rfl, rfl⟩ := h1; split_ifs <;> rfl
      · congr 1; apply if_congr _ rfl rfl; omega
    · intro j b hj0 hjn hb
      have hij : InR n n i j := ⟨by omega, by omega, by omega, by omega⟩
      have hji : InR n n j i := ⟨by omega, by omega, by omega, by omega⟩
      rw [M.wp_bind]
      refine hb.wp_rd hij rfl ?_
      rw [M.wp_bind]
      refine hb.wp_rd hji rfl ?_
      rw [M.wp_bind]
      refine hb.wp_wr hinj hij (by simp) ?_
      intro b' hb'
      refine hb'.wp_wr hinj hji (by split_ifs <;> simp) ?_
      intro b'' hb''
      refine hb''.congr (fun r c hrc => ?_)
      by_cases h1 : r = j ∧ c = i
      · obtain ⟨rfl, rfl⟩ := h1
        rw [if_pos ⟨rfl, rfl⟩]
        congr 1
        rw [if_neg (by omega), if_pos (by omega)]
      · rw [if_neg h1]
        by_cases h2 : r = i ∧ c = j
        · obtain ⟨rfl, rfl⟩ := h2
          rw [if_pos ⟨rfl, rfl⟩]
          congr 1
          rw [if_neg (by omega), if_pos (by omega)]
        · rw [if_neg h2]
          congr 1
          apply if_congr _ rfl rfl
          omega
    · intro b hb
      exact hb.congr (fun r c hrc => by
        obtain ⟨_, _, _, _⟩ := hrc
        congr 1; apply if_congr _ rfl rfl; omega)
  · intro b hb
    exact hb.congr (fun r c hrc => by
      obtain ⟨_, _, _, _⟩ := hrc
      rw [if_pos (by omega)])

/-- `omatcopy` with arbitrary strides; the destination address map must be injective. -/
theorem omatcopy_spec {m n : Int} {A : Buf T} {irsA icsA b0 irsB icsB : Int} {B : Buf T} {a : Int → Int → T}
    (hm : 0 ≤ m) (hn : 0 ≤ n)
    (hA : ∀ i j, InR m n i j → A (i * irsA + j * icsA) = .val (a i j))
    (hinj : AdInj (fun i j => b0 + (i * irsB + j * icsB)) m n)
    (hB : ∀ i j, InR m n i j → B (b0 + (i * irsB + j * icsB)) ≠ .none) :
    M.wp (omatcopy m n A irsA icsA b0 irsB icsB) B (fun _ B' =>
      MatSt B (fun i j => b0 + (i * irsB + j * icsB)) m n (fun i j => .val (a i j)) B') := by
  set ad : Int → Int → Int := fun i j => b0 + (i * irsB + j * icsB) with had
  have e : ∀ i j, b0 + (i * irsB + j * icsB) = ad i j := fun _ _ => rfl
  unfold omatcopy
  simp only [e] at hB ⊢
  apply M.wp_forI (fun i b => MatSt B ad m n (fun r c => if r < i then .val (a r c) else B (ad r c)) b) hm
  · exact (MatSt.init B ad m n).congr (fun i j hij => by have := hij.1; rw [if_neg (by omega)])
  · intro i b hi0 him hb
    apply M.wp_forI (fun j b => MatSt B ad m n
      (fun r c => if r < i ∨ (r = i ∧ c < j) then .val (a r c) else B (ad r c)) b) hn
    · exact hb.congr (fun r c hrc => by
        obtain ⟨_, _, _, _⟩ := hrc
        apply if_congr _ rfl rfl; omega)
    · intro j b hj0 hjn hb
      have hij : InR m n i j := ⟨by omega, by omega, by omega, by omega⟩
      rw [M.wp_bind, M.wp_lift]
      refine ⟨a i j, Buf.rd_val (hA i j hij), ?_⟩
      refine hb.wp_wr hinj hij ?_ ?_
      · split_ifs
        · simp
        · exact hB i j hij
      intro b' hb'
      refine hb'.congr (fun r c hrc => ?_)
      by_cases h1 : r = i ∧ c = j
      · obtain ⟨rfl, rfl⟩ := h1
        rw [if_pos ⟨rfl, rfl⟩, if_pos (by omega)]
      · rw [if_neg h1]
        apply if_congr _ rfl rfl
        omega
    · intro b hb
      exact hb.congr (fun r c hrc => by
        obtain ⟨_, _, _, _⟩ := hrc
        apply if_congr _ rfl rfl; omega)
  · intro b hb
    exact hb.congr (fun r c hrc => by
      obtain ⟨_, _, _, _⟩ := hrc
      rw [if_pos (by omega)])

end RB

namespace RB
open Spec
variable {T : Type}

/-- The pairwise test that `require_symmetric` documents. -/
theorem requireSymmetric_decides [Field T] [LinearOrder T] [IsStrictOrderedRing T] {layout : Layout} {A : Buf T}
    {n lda : Int} {tol : T} {a : Int → Int → T} (htol : 0 ≤ tol) (hA : Holds A layout lda n n a) :
    (requireSymmetric layout A n lda tol = .ok () ∧
      ∀ i j, InR n n i j → |a i j - a j i| ≤ (|a i j| + |a j i| + 1) * tol) ∨
    (requireSymmetric layout A n lda tol = .throw .errorIf ∧
      ∃ i j, InR n n i j ∧ ¬ |a i j - a j i| ≤ (|a i j| + |a j i| + 1) * tol) := by
  unfold requireSymmetric
  rw [if_neg (not_lt.mpr htol)]
  simp only [strides_at]
  -- one body
  have body : ∀ i j, 0 ≤ i → i < n → i + 1 ≤ j → j < n →
      (do let aij ← A.rd (addr layout lda i j)
          let aji ← A.rd (addr layout lda j i)
          Res.errorIf (|aij - aji| > (|aij| + |aji| + 1) * tol) : Res Unit) =
        Res.errorIf (|a i j - a j i| > (|a i j| + |a j i| + 1) * tol) := by
    intro i j h1 h2 h3 h4
    rw [Buf.rd_val (hA i j ⟨h1, h2, by omega, h4⟩), Buf.rd_val (hA j i ⟨by omega, h4, h1, h2⟩)]
    rfl
  have errIf : ∀ c : Prop, ∀ [Decidable c], (Res.errorIf c = .ok () ∨ Res.errorIf c = .throw .errorIf) := by
    intro c _; unfold Res.errorIf; split_ifs <;> simp
  have inner : ∀ i, 0 ≤ i → i < n → _ := fun i h1 h2 =>
    Res.forI_checks (lo := i + 1) (hi := n) (e := .errorIf)
      (body := fun j => do
          let aij ← A.rd (addr layout lda i j)
          let aji ← A.rd (addr layout lda j i)
          Res.errorIf (|aij - aji| > (|aij| + |aji| + 1) * tol))
      (fun j h3 h4 => by rw [body i j h1 h2 h3 h4]; exact errIf _)
  rcases Res.forI_checks (lo := 0) (hi := n) (e := .errorIf)
      (body := fun i => forI (i + 1) n fun j => do
          let aij ← A.rd (addr layout lda i j)
          let aji ← A.rd (addr layout lda j i)
          Res.errorIf (|aij - aji| > (|aij| + |aji| + 1) * tol))
      (fun i h1 h2 => by rcases inner i h1 h2 with h | h <;> simp [h.1]) with ⟨h1, h2⟩ | ⟨h1, i, h2, h3, h4⟩
  · left
    refine ⟨h1, ?_⟩
    have upper : ∀ i j, 0 ≤ i → i < j → j < n → |a i j - a j i| ≤ (|a i j| + |a j i| + 1) * tol := by
      intro i j hi hij hj
      rcases inner i hi (by omega) with h | h
      · have := h.2 j (by omega) hj
        rw [body i j hi (by omega) (by omega) hj] at this
        unfold Res.errorIf at this
        split_ifs at this with hc
        exact not_lt.mp hc
      · rw [h2 i hi (by omega)] at h
        exact absurd h.1 (by simp)
    rintro i j ⟨hi0, hi1, hj0, hj1⟩
    rcases lt_trichotomy i j with hlt | heq | hgt
    · exact upper i j hi0 hlt hj1
    · subst heq
      simp only [sub_self, abs_zero]
      have := abs_nonneg (a i i)
      exact mul_nonneg (by linarith) htol
    · have := upper j i hj0 hgt hi1
      rw [abs_sub_comm, add_comm |a i j|]
      exact this
  · right
    refine ⟨h1, ?_⟩
    rcases inner i h2 h3 with h | ⟨_, j, h5, h6, h7⟩
    · rw [h.1] at h4; exact absurd h4 (by simp)
    · rw [body i j h2 h3 h5 h6] at h7
      unfold Res.errorIf at h7
      split_ifs at h7 with hc
      exact ⟨i, j, ⟨h2, h3, by omega, h6⟩, not_le.mpr hc⟩

/-- A loop that transforms the cells of a strided vector one by one. -/
theorem forI_vec_spec {n x incx : Int} {b : Buf T} (hn : 0 ≤ n) (hinc : 0 < incx)
    (body : Int → M (Buf T) Unit) (g : Int → Cell T)
    (hbody : ∀ i (c : Buf T), 0 ≤ i → i < n → c (x + i * incx) = b (x + i * incx) →
      M.wp (body i) c (fun _ c' => c' (x + i * incx) = g i ∧ ∀ p, p ≠ x + i * incx → c' p = c p)) :
    M.wp (forI 0 n body) b (fun _ b' =>
      (∀ i, 0 ≤ i → i < n → b' (x + i * incx) = g i) ∧
      (∀ p, (∀ i, 0 ≤ i → i < n → p ≠ x + i * incx) → b' p = b p)) := by
  have hne : ∀ i j : Int, i ≠ j → x + i * incx ≠ x + j * incx := by
    intro i j hij he
    apply hij
    have : (i - j) * incx = 0 := by linarith
    rcases mul_eq_zero.mp this with h | h <;> omega
  apply M.wp_forI (fun k c => (∀ i, 0 ≤ i → i < k → c (x + i * incx) = g i) ∧
    (∀ p, (∀ i, 0 ≤ i → i < k → p ≠ x + i * incx) → c p = b p)) hn
  · exact ⟨fun i _ _ => by omega, fun p _ => rfl⟩
  · rintro k c hk0 hkn ⟨h1, h2⟩
    refine M.wp_mono (hbody k c hk0 hkn (h2 _ (fun i _ hi => hne k i (by omega)))) ?_
    rintro _ c' ⟨h3, h4⟩
    constructor
    · intro i hi0 hi1
      by_cases hik : i = k
      · subst hik; exact h3
      · rw [h4 _ (hne i k hik)]
        exact h1 i hi0 (by omega)
    · intro p hp
      rw [h4 p (hp k hk0 (by omega))]
      exact h2 p (fun i hi0 hi1 => hp i hi0 (by omega))
  · intro s hs; exact hs

/-- `blas::scal`. -/
theorem blasScal_spec [Mul T] {n x incx : Int} {a : T} {b : Buf T} {v : Int → T} (hn : 0 ≤ n) (hinc : 0 < incx)
    (hv : ∀ i, 0 ≤ i → i < n → b (x + i * incx) = .val (v i)) :
    M.wp (blasScal n a x incx) b (fun _ b' =>
      (∀ i, 0 ≤ i → i < n → b' (x + i * incx) = .val (a * v i)) ∧
      (∀ p, (∀ i, 0 ≤ i → i < n → p ≠ x + i * incx) → b' p = b p)) := by
  unfold blasScal blasCheck
  rw [if_pos hn, if_pos hinc]
  simp only [pure_bind]
  apply forI_vec_spec hn hinc _ (fun i => .val (a * v i))
  intro i c hi0 hi1 hc
  rw [M.wp_bind, M.wp_rd]
  refine ⟨v i, by rw [hc, hv i hi0 hi1], ?_⟩
  rw [M.wp_wr]
  refine ⟨by rw [hc, hv i hi0 hi1]; simp, by simp, fun p hp => Buf.set_ne hp⟩

/-- `safe_scal` with `a == 0`: overwrites with zero, whatever was there (even uninitialised). -/
theorem safeScal_zero_spec [Zero T] [Mul T] [BEq T] {n x incx : Int} {a : T} {b : Buf T} (hn : 0 ≤ n) (hinc : 0 < incx)
    (ha : (a == 0) = true) (hv : ∀ i, 0 ≤ i → i < n → b (x + i * incx) ≠ .none) :
    M.wp (safeScal n a x incx) b (fun _ b' =>
      (∀ i, 0 ≤ i → i < n → b' (x + i * incx) = .val 0) ∧
      (∀ p, (∀ i, 0 ≤ i → i < n → p ≠ x + i * incx) → b' p = b p)) := by
  unfold safeScal
  rw [if_pos ha]
  apply forI_vec_spec hn hinc _ (fun _ => .val 0)
  intro i c hi0 hi1 hc
  rw [M.wp_wr]
  exact ⟨by rw [hc]; exact hv i hi0 hi1, by simp, fun p hp => Buf.set_ne hp⟩

theorem safeScal_nonzero_spec [Zero T] [Mul T] [BEq T] {n x incx : Int} {a : T} {b : Buf T} {v : Int → T}
    (hn : 0 ≤ n) (hinc : 0 < incx)
    (ha : (a == 0) = false) (hv : ∀ i, 0 ≤ i → i < n → b (x + i * incx) = .val (v i)) :
    M.wp (safeScal n a x incx) b (fun _ b' =>
      (∀ i, 0 ≤ i → i < n → b' (x + i * incx) = .val (a * v i)) ∧
      (∀ p, (∀ i, 0 ≤ i → i < n → p ≠ x + i * incx) → b' p = b p)) := by
  unfold safeScal
  rw [if_neg (by simp [ha])]
  exact blasScal_spec hn hinc hv

/-- A well-formed `std::vector`: exactly the cells `0 .. size-1` exist, and all are initialised. -/
def Vec.WF (v : Vec T) : Prop :=
  0 ≤ v.size ∧ ∀ p, if 0 ≤ p ∧ p < v.size then ∃ x, v.buf p = .val x else v.buf p = .none

theorem Vec.WF.resize [Zero T] {v : Vec T} (h : v.WF) {n : Int} (hn : 0 ≤ n) : (v.resize n).WF := by
  refine ⟨hn, fun p => ?_⟩
  simp only [Vec.resize]
  have := h.2 p
  split_ifs at this ⊢ with h1 h2 h3
  all_goals first
    | exact this
    | exact ⟨0, rfl⟩
    | rfl
    | omega

theorem InR.addr_bounds {layout : Layout} {ld m n i j : Int} (hij : InR m n i j) (hld : LdOk layout ld m n) :
    0 ≤ addr layout ld i j ∧ addr layout ld i j < bufLen layout ld m n := by
  obtain ⟨h1, h2, h3, h4⟩ := hij
  cases layout with
  | ColMajor =>
    have hld' : m ≤ ld := hld
    show 0 ≤ i + j * ld ∧ i + j * ld < ld * n
    constructor <;> nlinarith
  | RowMajor =>
    have hld' : n ≤ ld := hld
    show 0 ≤ i * ld + j ∧ i * ld + j < ld * m
    constructor <;> nlinarith

end RB

namespace RB
open Spec
variable {T : Type}

theorem flipLayout_spec [Zero T] {layout : Layout} {m n ldaIn ldaOut : Int} {v : Vec T} {a : Int → Int → T}
    (hm : 0 ≤ m) (hn : 0 ≤ n) (hwf : v.WF) (hin : LdOk layout ldaIn m n) (hout : LdOk layout.flip ldaOut m n)
    (hA : Holds v.buf layout ldaIn m n a) :
    M.wp (flipLayout layout m n ldaIn ldaOut) v (fun _ v' =>
      v'.size = bufLen layout.flip ldaOut m n ∧ v'.WF ∧ Holds v'.buf layout.flip ldaOut m n a) := by
  have hlen0 : 0 ≤ bufLen layout.flip ldaOut m n := by
    cases layout
    · show 0 ≤ ldaOut * m
      have : n ≤ ldaOut := hout
      exact mul_nonneg (by omega) hm
    · show 0 ≤ ldaOut * n
      have : m ≤ ldaOut := hout
      exact mul_nonneg (by omega) hn
  have hbnd : ∀ i j, InR m n i j → 0 ≤ addr layout.flip ldaOut i j ∧
      addr layout.flip ldaOut i j < bufLen layout.flip ldaOut m n := fun i j hij => InR.addr_bounds hij hout
  have step : M.wp (flipLayoutBody layout layout.flip m n ldaIn ldaOut (bufLen layout.flip ldaOut m n)) v (fun _ v' =>
      v'.size = bufLen layout.flip ldaOut m n ∧ v'.WF ∧ Holds v'.buf layout.flip ldaOut m n a) := by
    unfold flipLayoutBody
    rw [M.wp_bind, M.wp_get, M.wp_bind]
    have h1 : M.wp (M.when (bufLen layout.flip ldaOut m n ≥ v.size)
        (M.modify (fun A => A.resize (bufLen layout.flip ldaOut m n)))) v (fun _ v =>
          v.WF ∧ Holds v.buf layout ldaIn m n a ∧ bufLen layout.flip ldaOut m n ≤ v.size) := by
      rw [M.wp_when, M.wp_modify]
      refine ⟨fun hsz => ⟨hwf.resize hlen0, ?_, le_refl _⟩, fun hsz => ⟨hwf, hA, by omega⟩⟩
      intro i j hij
      have h := hA i j hij
      have hb := hwf.2 (addr layout ldaIn i j)
      by_cases hp : 0 ≤ addr layout ldaIn i j ∧ addr layout ldaIn i j < v.size
      · simp only [Vec.resize]
        rw [if_pos ⟨hp.1, by omega⟩, if_pos hp.2]; exact h
      · rw [if_neg hp, h] at hb
        exact absurd hb (by simp)
    refine M.wp_mono h1 ?_
    clear h1 hA hwf
    rintro - v ⟨hwf, hA, hsz⟩
    rw [M.wp_bind, M.wp_get, M.wp_bind, M.wp_zoom]
    refine M.wp_mono (omatcopy_spec (a := a) hm hn (fun i j hij => by rw [strides_at']; exact hA i j hij) ?_ ?_) ?_
    · simp only [strides_at']
      exact adInj_addr_off 0 hout
    · intro i j hij
      simp only [strides_at', zero_add]
      obtain ⟨h1, h2⟩ := hbnd i j hij
      have := hwf.2 (addr layout.flip ldaOut i j)
      rw [if_pos ⟨h1, by omega⟩] at this
      obtain ⟨x, hx⟩ := this
      rw [hx]; simp
    · intro _ B' hB'
      simp only [strides_at', zero_add] at hB'
      simp only [M.wp_bind, M.wp_get, M.wp_ubIf, M.wp_modify]
      have hwf' : ({ v with buf := B' } : Vec T).WF := by
        refine ⟨hwf.1, fun p => ?_⟩
        by_cases hp : ∃ i j, InR m n i j ∧ p = addr layout.flip ldaOut i j
        · obtain ⟨i, j, hij, rfl⟩ := hp
          obtain ⟨h1, h2⟩ := hbnd i j hij
          rw [if_pos ⟨h1, by show _ < v.size; omega⟩]
          exact ⟨_, hB'.cells i j hij⟩
        · push Not at hp
          have := hwf.2 p
          have e : B' p = v.buf p := hB'.outside p hp
          show if 0 ≤ p ∧ p < v.size then ∃ x, B' p = .val x else B' p = .none
          rw [e]; exact this
      refine ⟨by omega, rfl, hwf'.resize hlen0, ?_⟩
      intro i j hij
      obtain ⟨h1, h2⟩ := hbnd i j hij
      simp only [Vec.resize]
      rw [if_pos ⟨h1, h2⟩, if_pos (by omega)]
      exact hB'.cells i j hij
  unfold flipLayout
  cases layout with
  | ColMajor =>
    rw [if_pos rfl]
    simp only [M.wp_bind, M.wp_require]
    exact ⟨hin, hout, step⟩
  | RowMajor =>
    rw [if_neg (by simp)]
    simp only [M.wp_bind, M.wp_require]
    exact ⟨hin, hout, step⟩

end RB
