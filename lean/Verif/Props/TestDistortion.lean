import Verif.Model.TestDistortion
import Verif.Props.PowerConv
import Verif.Props.Oblivious
import Verif.Props.Util
import Verif.Lemmas.TestLinop

/-! # C125: the distortion test of the test suite -/

namespace RB
open Spec

section
variable {N : Nat} {K W T : Type} [Field T] [LinearOrder T] [IsStrictOrderedRing T]

omit [LinearOrder T] [IsStrictOrderedRing T] in
theorem startVec_fills {sched : List Nat} {G : Gen N K W T} {sqrt3 : T} {n : Int} {seed : RNGState N K} (hG : G.Ok) (hn : 1 ≤ n) (hfit : n ≤ intMax 64) :
    Fills n (fun i => denseRaw G .Gaussian n seed 0 i) (startVec sched G sqrt3 n seed) := by
  intro v hv
  unfold startVec
  rw [M.wp_bind, M.wp_lift]
  have hmk := mkDenseDist_eq (r := n) (c := 1) (fam := .Gaussian) (ax := .Long) (by omega) (by omega)
  refine ⟨_, hmk, ?_⟩
  have hD := denseDistOk_of_mk hmk (by rw [mul_one]; exact hfit)
  rw [M.wp_bind]
  refine M.wp_mono (fillUnpacked_spec hG hD (by omega) (by omega) le_rfl le_rfl (by simp) (by simp) (fun p h0 hp => hv p h0 (by omega))) ?_
  rintro s b' ⟨h1, h2, -⟩
  rw [M.wp_pure]
  refine ⟨fun i h0 hi => ?_, fun p hp => h2 p (by omega)⟩
  have := h1 i 0 ⟨h0, hi, le_rfl, by omega⟩
  rw [addr_colMajor, zero_mul, add_zero] at this
  rw [this]
  beta_reduce
  rw [add_zero, add_zero]
  have e : max n 1 = n := max_eq_left hn
  have hnat : naturalLayout .Long n 1 = .ColMajor := by
    unfold naturalLayout
    rw [if_neg (by omega), if_neg (by omega), if_pos rfl]
  unfold denseEntry
  simp only [hnat, e, if_true, famScale]

omit [LinearOrder T] [IsStrictOrderedRing T] in
theorem distMatrix_spec {sqrt : T → T} {sched : List Nat} {G : Gen N K W T} {sqrt3 : T} {family : ScalarDist} {d n : Int} {seed : RNGState N K} {D : DenseDist} {F : Int → Int → T}
    (hG : G.Ok) (hn : 1 ≤ n) (hnd : n ≤ d) (hfit : d * n ≤ intMax 64) (hD : mkDenseDist d n family .Long = .ok D) (hF : Samples G sqrt3 D seed F) :
    M.wp (distMatrix sqrt sched G sqrt3 family d n seed) (zeroVec (d * n)) (fun _ b => Holds b .ColMajor d d n (fun i j => 1 / sqrt d * F i j)) := by
  have hDok := denseDistOk_of_mk hD hfit
  have hnat : naturalLayout .Long d n = .ColMajor := by
    unfold naturalLayout
    rw [if_neg (by omega), if_neg (by omega), if_pos rfl]
  obtain ⟨hR, hC, hL⟩ : D.nRows = d ∧ D.nCols = n ∧ D.naturalLayout = .ColMajor := by
    have hmk := mkDenseDist_eq (r := d) (c := n) (fam := family) (ax := .Long) (by omega) (by omega)
    rw [hD] at hmk
    cases hmk
    exact ⟨rfl, rfl, hnat⟩
  -- the entries are those of `F`
  have hFe : ∀ i j, InR d n i j → F i j = denseEntry G sqrt3 D seed i j := by
    obtain ⟨_, b, hb, h1⟩ := hF sched
    obtain ⟨_, b', hb', h2⟩ := samples_denseEntry (sqrt3 := sqrt3) (seed := seed) hG hDok sched
    rw [hb] at hb'
    cases hb'
    intro i j hij
    have e := (h1 i j (by rw [hR, hC]; exact hij)).symm.trans (h2 i j (by rw [hR, hC]; exact hij))
    exact Cell.val.inj e
  unfold distMatrix
  rw [M.wp_bind, M.wp_lift]
  refine ⟨_, hD, ?_⟩
  rw [M.wp_bind]
  unfold fillDense
  rw [hR, hC, hL]
  refine M.wp_mono (fillUnpacked_spec hG hDok (by omega) (by omega) le_rfl le_rfl (by omega) (by omega) (fun p h0 hp => by
    unfold zeroVec Buf.ofFn
    rw [if_pos ⟨h0, hp⟩]
    simp)) ?_
  rintro s b' ⟨h1, h2, -⟩
  have hvec : HoldsVec b' (d * n) (fun p => denseEntry G sqrt3 D seed (p % d) (p / d)) := by
    intro p h0 hp
    have hp1 := Int.mul_ediv_add_emod p d
    have := h1 (p % d) (p / d) ⟨Int.emod_nonneg p (by omega), Int.emod_lt_of_pos p (by omega), Int.ediv_nonneg h0 (by omega), Int.ediv_lt_of_lt_mul (by omega) (by rw [mul_comm]; exact hp)⟩
    rw [tightLd, addr_colMajor, show p % d + p / d * d = p by rw [mul_comm]; omega] at this
    rw [this]
    beta_reduce
    rw [add_zero, add_zero]
  refine M.wp_mono (scal_spec (mul_nonneg (by omega) (by omega)) hvec) ?_
  rintro _ b2 ⟨h3, -⟩ i j ⟨hi0, hi, hj0, hj⟩
  have hp : i + j * d < d * n := by nlinarith
  rw [addr_colMajor, h3 _ (by nlinarith) hp]
  beta_reduce
  rw [hFe i j ⟨hi0, hi, hj0, hj⟩]
  have e1 : (i + j * d) % d = i := by rw [Int.add_mul_emod_self_right]; exact Int.emod_eq_of_lt hi0 hi
  have e2 : (i + j * d) / d = j := by rw [Int.add_mul_ediv_right _ _ (by omega), Int.ediv_eq_zero_of_lt hi0 hi, zero_add]
  rw [e1, e2]

omit [IsStrictOrderedRing T] in
theorem distGram_spec {d n : Int} {S : Buf T} {F : Int → Int → T} (hn : 1 ≤ n) (hd : 1 ≤ d) (hS : Holds S .ColMajor d d n F) :
    M.wp (distGram d n S) (zeroVec (n * n)) (fun _ b => ∃ a, Holds b .ColMajor n n n a ∧ (∀ i j, a i j = a j i) ∧
      ∀ i j, InR n n i j → a i j = prodEntry d (fun r c => F c r) F i j) := by
  unfold distGram
  have hz : ∀ i j, InR n n i j → (zeroVec (n * n) : Buf T) (i + j * n) = .val 0 := by
    rintro i j ⟨hi0, hi, hj0, hj⟩
    unfold zeroVec Buf.ofFn
    rw [if_pos ⟨by nlinarith, by nlinarith⟩]
  rw [M.wp_bind]
  refine M.wp_mono (syrkUpperTrans_spec (A := F) (C := fun _ _ => 0) (b0 := zeroVec (n * n)) (by omega) (by omega) le_rfl le_rfl (fun i j hij => by
    rw [zero_add, ← addr_colMajor]; exact hS i j hij) (Upd.refl fun i j hij => hz i j ⟨hij.1, by have := hij.2; omega, by have := hij.1; have := hij.2; omega, hij.2.2⟩)) ?_
  intro _ b1 h1
  have h2 : Holds b1 .ColMajor n n n (fun i j => if i ≤ j then prodEntry d (fun r c => F c r) F i j else 0) := by
    intro i j hij
    rw [addr_colMajor]
    by_cases h : i ≤ j
    · rw [h1.cells i j ⟨hij.1, h, hij.2.2.2⟩]
      beta_reduce
      rw [if_pos h]
      simp [prodEntry]
    · rw [h1.other (up_rows (le_refl n)) ⟨hij.1, hij.2.1⟩ (fun h' => h h'.2.1), hz i j hij]
      beta_reduce
      rw [if_neg h]
  refine M.wp_mono (C18_symmetrize (uplo := .Upper) (by omega) (by decide) (by simp [LdOk]) h2) ?_
  rintro _ b2 ⟨a, h3, h4, h5, -⟩
  refine ⟨a, h3, h4, fun i j hij => ?_⟩
  rcases le_total i j with h | h
  · rw [h5 i j h, if_pos h]
  · rw [h4, h5 j i h, if_pos h]
    exact (prodEntry_trans d (fun r c => F c r) F j i).symm

theorem runGeneral_spec {sqrt : T → T} (hs : SqrtOk sqrt) {sched : List Nat} {G : Gen N K W T} {sqrt3 : T} {family : ScalarDist} {delta : T} {d n iters : Int}
    {seed : RNGState N K} {D Dx : DenseDist} {F : Int → Int → T} {next : RNGState N K}
    (hG : G.Ok) (hn : 1 ≤ n) (hnd : n ≤ d) (hfit : d * n ≤ intMax 64) (hit : 1 ≤ iters) (hD : mkDenseDist d n family .Long = .ok D) (hF : Samples G sqrt3 D seed F)
    (hDx : mkDenseDist n 1 .Gaussian .Long = .ok Dx) (hnext : denseNextState G.len Dx seed = .ok next)
    (hpd : ∀ x : Int → T, (∃ j, 0 ≤ j ∧ j < n ∧ x j ≠ 0) → 0 < meanSq d n F x)
    (hx1 : ∃ i, 0 ≤ i ∧ i < n ∧ denseRaw G .Gaussian n seed 0 i ≠ 0) (hx2 : ∃ i, 0 ≤ i ∧ i < n ∧ denseRaw G .Gaussian n next 0 i ≠ 0) :
    M.wp (runGeneral sqrt sched G sqrt3 family delta d n iters seed) () (fun r _ => ∃ lmax lmin : T, (0 < lmax ∧ 0 < lmin) ∧
      (r = true ↔ sqrt lmax ≤ 1 + delta ∧ 1 - delta ≤ sqrt lmin) ∧
      (∀ c, (∀ x : Int → T, c * ∑ j ∈ Finset.range n.toNat, x j ^ 2 ≤ meanSq d n F x) → c ≤ lmax ∧ c ≤ lmin) ∧
      (∀ c, (∀ x : Int → T, meanSq d n F x ≤ c * ∑ j ∈ Finset.range n.toNat, x j ^ 2) → lmax ≤ c ∧ lmin ≤ c) ∧
      ∀ (lam : T) (u : Int → T), 0 < lam → IsSingularPair d n F lam u → ∀ tol,
        (Cos2Ge ((1 - tol) ^ (2 * iters - 1).toNat) n (fun i => denseRaw G .Gaussian n seed 0 i) u → (1 - tol) * lam ≤ lmax) ∧
        (Cos2Ge ((1 - tol) ^ (2 * iters - 1).toNat) n (fun i => denseRaw G .Gaussian n next 0 i) u → (1 - tol) * lmin ≤ lam)) := by
  have hd0 : (0 : T) < (d : T) := by exact_mod_cast (show (0 : Int) < d by omega)
  obtain ⟨hs0, hs1⟩ := hs d hd0
  have hnfit : n ≤ intMax 64 := by nlinarith
  unfold runGeneral
  rw [M.wp_bind, M.wp_onLocal]
  refine M.wp_mono (distMatrix_spec hG hn hnd hfit hD hF) ?_
  intro _ S hS
  rw [M.wp_bind, M.wp_onLocal]
  refine M.wp_mono (distGram_spec hn (by omega) hS) ?_
  rintro _ A ⟨a, hA, hsym, ha⟩
  have hsc : ∀ p q : T, 1 / sqrt d * p * (1 / sqrt d * q) = p * q / d := by
    intro p q
    have e : 1 / sqrt d * p * (1 / sqrt d * q) = p * q / (sqrt d * sqrt d) := by field_simp
    rw [e, hs1]
  have ha' : ∀ i j, InR n n i j → a i j = (∑ l ∈ Finset.range d.toNat, F l i * F l j) / d := by
    intro i j hij
    rw [ha i j hij]
    unfold prodEntry
    rw [Finset.sum_div]
    exact Finset.sum_congr rfl fun l _ => hsc _ _
  have hq : ∀ x : Int → T, quadU n a x = meanSq d n F x := by
    intro x
    rw [quadU_gram (A := fun i j => 1 / sqrt d * F i j) (m := d)]
    · unfold meanSq
      rw [Finset.sum_div]
      refine Finset.sum_congr rfl fun l _ => ?_
      have e : ∑ j ∈ Finset.range n.toNat, 1 / sqrt d * F l j * x j = 1 / sqrt d * ∑ j ∈ Finset.range n.toNat, F l j * x j := by
        rw [Finset.mul_sum]
        exact Finset.sum_congr rfl fun _ _ => mul_assoc _ _ _
      rw [e, hsc, sq]
    · intro i j hij
      rw [← ha i j hij]
      unfold symU
      split
      · rfl
      · exact hsym j i
  have hmv : ∀ (u : Int → T) j, 0 ≤ j → j < n → mulVec n a u j = (∑ k ∈ Finset.range n.toNat, (∑ i ∈ Finset.range d.toNat, F i j * F i k) * u k) / d := by
    intro u j h0 hj
    unfold mulVec
    rw [Finset.sum_div]
    refine Finset.sum_congr rfl fun k hk => ?_
    have := Finset.mem_range.1 hk
    rw [ha' j k ⟨h0, hj, by omega, by omega⟩, div_mul_eq_mul_div]
  rw [M.wp_bind, M.wp_lift]
  refine ⟨_, hDx, ?_⟩
  rw [M.wp_bind, M.wp_lift]
  refine ⟨_, hnext, ?_⟩
  rw [M.wp_bind, M.wp_onLocal]
  refine M.wp_mono (C67_exeigs_convergence hs hn hit hA (fun i j _ => hsym i j) (fun x hx => by rw [hq]; exact hpd x hx) (fun p h0 hp => by
      have : p < 0 := hp
      omega) (startVec_fills hG hn hnfit) (startVec_fills hG hn hnfit) hx1 hx2 (fun i h0 hi => by
    unfold zeroVec Buf.ofFn
    rw [if_pos ⟨h0, hi⟩]
    simp)) ?_
  rintro ⟨lmax, lmin⟩ _ ⟨h1, h2, h3, h4⟩
  rw [M.wp_pure]
  refine ⟨lmax, lmin, h1, by simp, fun c hc => h2 c fun x => ?_, fun c hc => h3 c fun x => ?_, fun lam u hlam hu tol => ?_⟩
  · rw [hq]
    have := hc x
    simpa only [sq] using this
  · rw [hq]
    have := hc x
    simpa only [sq] using this
  · exact h4 lam u hlam hu.1 (fun j h0 hj => by rw [hmv u j h0 hj]; exact hu.2 j h0 hj) tol

theorem le_of_mul_self {x y : T} (hy : 0 ≤ y) (h : x * x ≤ y * y) : x ≤ y := by
  by_contra hno
  exact absurd h (not_le.2 (mul_self_lt_mul_self hy (not_le.1 hno)))

/-- C125. The test accepts every matrix whose singular values are between `1 - delta` and `1 + delta`, after the division by `sqrt(d)`. -/
theorem C125_no_false_alarm {sqrt : T → T} (hs : SqrtOk sqrt) {sched : List Nat} {G : Gen N K W T} {sqrt3 : T} {family : ScalarDist} {delta : T} {d n iters : Int}
    {seed : RNGState N K} {D Dx : DenseDist} {F : Int → Int → T} {next : RNGState N K}
    (hG : G.Ok) (hn : 1 ≤ n) (hnd : n ≤ d) (hfit : d * n ≤ intMax 64) (hit : 1 ≤ iters) (hD : mkDenseDist d n family .Long = .ok D) (hF : Samples G sqrt3 D seed F)
    (hDx : mkDenseDist n 1 .Gaussian .Long = .ok Dx) (hnext : denseNextState G.len Dx seed = .ok next) (hd0 : 0 ≤ delta) (hd1 : delta < 1)
    (hx1 : ∃ i, 0 ≤ i ∧ i < n ∧ denseRaw G .Gaussian n seed 0 i ≠ 0) (hx2 : ∃ i, 0 ≤ i ∧ i < n ∧ denseRaw G .Gaussian n next 0 i ≠ 0)
    (hsv : SingularWithin (1 - delta) (1 + delta) d n F) :
    M.wp (runGeneral sqrt sched G sqrt3 family delta d n iters seed) () (fun r _ => r = true) := by
  refine M.wp_mono (runGeneral_spec hs hG hn hnd hfit hit hD hF hDx hnext (fun x hx => ?_) hx1 hx2) ?_
  · refine lt_of_lt_of_le ?_ (hsv x).1
    rw [← dotV_self_sq]
    exact mul_pos (pow_pos (by linarith) 2) (dotV_pos hx)
  · rintro r _ ⟨lmax, lmin, ⟨h0, h0'⟩, h1, h2, h3, -⟩
    obtain ⟨p1, q1⟩ := hs _ h0
    obtain ⟨p2, q2⟩ := hs _ h0'
    refine h1.2 ⟨le_of_mul_self (by linarith) ?_, le_of_mul_self p2.le ?_⟩
    · rw [q1, ← sq]
      exact (h3 _ fun x => (hsv x).2).1
    · rw [q2, ← sq]
      exact (h2 _ fun x => (hsv x).1).2

/-- C125. If the test accepts a matrix of full column rank, then its largest and smallest singular values (attained at u1, u2) are within the bounds up to the tolerance `tol`, provided that the
angles between the start vectors and u1, u2 are not too close to a right angle for the number of iterations. -/
theorem C125_detects {sqrt : T → T} (hs : SqrtOk sqrt) {sched : List Nat} {G : Gen N K W T} {sqrt3 : T} {family : ScalarDist} {delta tol : T} {d n iters : Int}
    {seed : RNGState N K} {D Dx : DenseDist} {F : Int → Int → T} {next : RNGState N K}
    (hG : G.Ok) (hn : 1 ≤ n) (hnd : n ≤ d) (hfit : d * n ≤ intMax 64) (hit : 1 ≤ iters) (hD : mkDenseDist d n family .Long = .ok D) (hF : Samples G sqrt3 D seed F)
    (hDx : mkDenseDist n 1 .Gaussian .Long = .ok Dx) (hnext : denseNextState G.len Dx seed = .ok next) (hd1 : delta ≤ 1) (htol : tol < 1)
    {l1 l2 : T} {u1 u2 : Int → T} (hl2 : 0 < l2) (hu1 : IsSingularPair d n F l1 u1) (hu2 : IsSingularPair d n F l2 u2)
    (hmax : ∀ x : Int → T, meanSq d n F x ≤ l1 * ∑ j ∈ Finset.range n.toNat, x j ^ 2) (hmin : ∀ x : Int → T, l2 * ∑ j ∈ Finset.range n.toNat, x j ^ 2 ≤ meanSq d n F x)
    (hc1 : Cos2Ge ((1 - tol) ^ (2 * iters - 1).toNat) n (fun i => denseRaw G .Gaussian n seed 0 i) u1)
    (hc2 : Cos2Ge ((1 - tol) ^ (2 * iters - 1).toNat) n (fun i => denseRaw G .Gaussian n next 0 i) u2)
    (hx1 : ∃ i, 0 ≤ i ∧ i < n ∧ denseRaw G .Gaussian n seed 0 i ≠ 0) (hx2 : ∃ i, 0 ≤ i ∧ i < n ∧ denseRaw G .Gaussian n next 0 i ≠ 0) :
    M.wp (runGeneral sqrt sched G sqrt3 family delta d n iters seed) () (fun r _ => r = true →
      ∀ x : Int → T, (1 - tol) * (1 - delta) ^ 2 * ∑ j ∈ Finset.range n.toNat, x j ^ 2 ≤ meanSq d n F x ∧
        (1 - tol) * meanSq d n F x ≤ (1 + delta) ^ 2 * ∑ j ∈ Finset.range n.toNat, x j ^ 2) := by
  have hpd : ∀ x : Int → T, (∃ j, 0 ≤ j ∧ j < n ∧ x j ≠ 0) → 0 < meanSq d n F x := fun x hx => by
    refine lt_of_lt_of_le ?_ (hmin x)
    rw [← dotV_self_sq]
    exact mul_pos hl2 (dotV_pos hx)
  refine M.wp_mono (runGeneral_spec hs hG hn hnd hfit hit hD hF hDx hnext hpd hx1 hx2) ?_
  rintro r _ ⟨lmax, lmin, ⟨h0, h0'⟩, h1, -, -, h4⟩ hr x
  obtain ⟨p1, q1⟩ := hs _ h0
  obtain ⟨p2, q2⟩ := hs _ h0'
  obtain ⟨r1, r2⟩ := h1.1 hr
  have hx : 0 ≤ ∑ j ∈ Finset.range n.toNat, x j ^ 2 := by rw [← dotV_self_sq]; exact dotV_nonneg n x
  have hl1 : 0 < l1 := by
    have h5 := lt_of_lt_of_le (hpd u1 hu1.1) (hmax u1)
    rw [← dotV_self_sq] at h5
    exact pos_of_mul_pos_left h5 (dotV_nonneg n u1)
  have h6 := (h4 l1 u1 hl1 hu1 tol).1 hc1
  have h7 := (h4 l2 u2 hl2 hu2 tol).2 hc2
  have h8 : lmax ≤ (1 + delta) ^ 2 := by
    rw [← q1, sq]
    exact mul_self_le_mul_self p1.le r1
  have h9 : (1 - delta) ^ 2 ≤ lmin := by
    rw [← q2, sq]
    exact mul_self_le_mul_self (by linarith) r2
  have ht : 0 < 1 - tol := by linarith
  constructor
  · refine le_trans (mul_le_mul_of_nonneg_right ?_ hx) (hmin x)
    exact (mul_le_mul_of_nonneg_left h9 ht.le).trans h7
  · calc (1 - tol) * meanSq d n F x ≤ (1 - tol) * (l1 * ∑ j ∈ Finset.range n.toNat, x j ^ 2) := mul_le_mul_of_nonneg_left (hmax x) ht.le
      _ = (1 - tol) * l1 * ∑ j ∈ Finset.range n.toNat, x j ^ 2 := by ring
      _ ≤ _ := mul_le_mul_of_nonneg_right (h6.trans h8) hx

end
end RB
