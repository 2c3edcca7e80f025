import Verif.Spec.Mat
import Mathlib.Tactic.Ring
import Mathlib.Tactic.Linarith

/-! # Lemmas about matrices in buffers -/

namespace RB
open Spec

variable {T : Type}

theorem strides_at (layout : Layout) (ld i j : Int) :
    (layoutToStrides layout ld).at i j = addr layout ld i j := by
  cases layout <;> simp [layoutToStrides, Strides.at, addr]

theorem strides_at' (layout : Layout) (ld i j : Int) :
    i * (layoutToStrides layout ld).irs + j * (layoutToStrides layout ld).ics = addr layout ld i j :=
  strides_at layout ld i j

theorem addr_flip (layout : Layout) (ld i j : Int) : addr layout.flip ld i j = addr layout ld j i := by
  cases layout <;> simp [addr, Layout.flip] <;> ring

theorem addr_inj {layout : Layout} {ld m n i j i' j' : Int} (hld : LdOk layout ld m n)
    (h : InR m n i j) (h' : InR m n i' j') (he : addr layout ld i j = addr layout ld i' j') : i = i' ∧ j = j' := by
  obtain ⟨h1, h2, h3, h4⟩ := h
  obtain ⟨h1', h2', h3', h4'⟩ := h'
  cases layout with
  | ColMajor =>
    simp only [addr, LdOk] at *
    have hj : j = j' := by
      rcases lt_trichotomy j j' with hlt | heq | hgt
      · nlinarith
      · exact heq
      · nlinarith
    subst hj
    exact ⟨by linarith, rfl⟩
  | RowMajor =>
    simp only [addr, LdOk] at *
    have hj : i = i' := by
      rcases lt_trichotomy i i' with hlt | heq | hgt
      · nlinarith
      · exact heq
      · nlinarith
    subst hj
    exact ⟨rfl, by linarith⟩

theorem addr_ne {layout : Layout} {ld m n i j i' j' : Int} (hld : LdOk layout ld m n)
    (h : InR m n i j) (h' : InR m n i' j') (he : ¬ (i = i' ∧ j = j')) : addr layout ld i j ≠ addr layout ld i' j' :=
  fun h0 => he (addr_inj hld h h' h0)

/-- The address map is injective on the index range of an m x n matrix. -/
def AdInj (ad : Int → Int → Int) (m n : Int) : Prop :=
  ∀ i j i' j', InR m n i j → InR m n i' j' → ad i j = ad i' j' → i = i' ∧ j = j'

theorem adInj_addr {layout : Layout} {ld m n : Int} (hld : LdOk layout ld m n) : AdInj (addr layout ld) m n :=
  fun _ _ _ _ h h' he => addr_inj hld h h' he

theorem adInj_addr_off {layout : Layout} {ld m n : Int} (o : Int) (hld : LdOk layout ld m n) :
    AdInj (fun i j => o + addr layout ld i j) m n :=
  fun _ _ _ _ h h' he => addr_inj hld h h' (by simpa using he)

/-- The buffer `b` is `b0` with the cells of the m x n matrix (entry (i,j) at `ad i j`) given by `A`. -/
structure MatSt (b0 : Buf T) (ad : Int → Int → Int) (m n : Int) (A : Int → Int → Cell T) (b : Buf T) : Prop where
  cells : ∀ i j, InR m n i j → b (ad i j) = A i j
  outside : ∀ p, (∀ i j, InR m n i j → p ≠ ad i j) → b p = b0 p

section
variable {b0 b1 b b' : Buf T} {ad : Int → Int → Int} {m n : Int} {A A' : Int → Int → Cell T}

theorem MatSt.init (b0 : Buf T) (ad : Int → Int → Int) (m n : Int) :
    MatSt b0 ad m n (fun i j => b0 (ad i j)) b0 :=
  ⟨fun _ _ _ => rfl, fun _ _ => rfl⟩

theorem MatSt.congr (h : MatSt b0 ad m n A b) (hA : ∀ i j, InR m n i j → A i j = A' i j) : MatSt b0 ad m n A' b :=
  ⟨fun i j hij => by rw [h.cells i j hij, hA i j hij], h.outside⟩

theorem MatSt.trans (h : MatSt b0 ad m n A b1) (h' : MatSt b1 ad m n A' b) : MatSt b0 ad m n A' b :=
  ⟨h'.cells, fun p hp => by rw [h'.outside p hp, h.outside p hp]⟩

theorem MatSt.set (h : MatSt b0 ad m n A b) (hinj : AdInj ad m n) {i j : Int} (hij : InR m n i j) (v : T) :
    MatSt b0 ad m n (fun r c => if r = i ∧ c = j then .val v else A r c) (b.set (ad i j) v) := by
  constructor
  · intro r c hrc
    by_cases he : r = i ∧ c = j
    · obtain ⟨rfl, rfl⟩ := he
      simp
    · rw [Buf.set_ne (fun h0 => he (hinj _ _ _ _ hrc hij h0)), h.cells r c hrc]
      simp [he]
  · intro p hp
    rw [Buf.set_ne (hp i j hij), h.outside p hp]

theorem MatSt.wp_rd (h : MatSt b0 ad m n A b) {i j : Int} (hij : InR m n i j) {v : T} (hv : A i j = .val v)
    {Q : T → Buf T → Prop} (hQ : Q v b) : M.wp (M.rd (ad i j)) b Q := by
  rw [M.wp_rd]; exact ⟨v, by rw [h.cells i j hij, hv], hQ⟩

theorem MatSt.wp_wr (h : MatSt b0 ad m n A b) (hinj : AdInj ad m n) {i j : Int} (hij : InR m n i j)
    (hne : A i j ≠ .none) {v : T} {Q : Unit → Buf T → Prop}
    (hQ : ∀ b', MatSt b0 ad m n (fun r c => if r = i ∧ c = j then .val v else A r c) b' → Q () b') :
    M.wp (M.wr (ad i j) v) b Q := by
  rw [M.wp_wr]; exact ⟨by rw [h.cells i j hij]; exact hne, hQ _ (h.set hinj hij v)⟩

/-- Two buffers that both are "`b0` with matrix cells `A`" are equal. -/
theorem MatSt.unique (h : MatSt b0 ad m n A b) (h' : MatSt b0 ad m n A b') : b = b' := by
  funext p
  by_cases hp : ∃ i j, InR m n i j ∧ p = ad i j
  · obtain ⟨i, j, hij, rfl⟩ := hp
    rw [h.cells i j hij, h'.cells i j hij]
  · push Not at hp
    rw [h.outside p hp, h'.outside p hp]

end

/-- From the specification to the internal description. -/
theorem MatSt.of_holds {b : Buf T} {layout : Layout} {ld m n : Int} {A : Int → Int → T}
    (h : Holds b layout ld m n A) : MatSt b (addr layout ld) m n (fun i j => .val (A i j)) b :=
  ⟨fun i j hij => h i j hij, fun _ _ => rfl⟩

theorem MatSt.holds {b0 b : Buf T} {layout : Layout} {ld m n : Int} {A : Int → Int → T}
    (h : MatSt b0 (addr layout ld) m n (fun i j => .val (A i j)) b) : Holds b layout ld m n A :=
  fun i j hij => h.cells i j hij

theorem MatSt.sameOutside {b0 b : Buf T} {layout : Layout} {ld m n : Int} {A : Int → Int → Cell T}
    (h : MatSt b0 (addr layout ld) m n A b) : SameOutside b0 b layout ld m n :=
  fun p hp => h.outside p hp

end RB
