import Verif.Model.Base

/-!
# Specification: dense matrices stored in buffers

These definitions are what theorem statements use; they do not depend on the model's index arithmetic.
-/

namespace RB.Spec

/-- Position of entry (i, j) of a matrix stored in `layout` order with leading dimension `ld`. -/
def addr (layout : Layout) (ld : Int) (i j : Int) : Int :=
  match layout with
  | .ColMajor => i + j * ld
  | .RowMajor => i * ld + j

/-- (i, j) is an index of an m x n matrix. -/
def InR (m n i j : Int) : Prop := 0 ≤ i ∧ i < m ∧ 0 ≤ j ∧ j < n

/-- `ld` is a legal leading dimension for an m x n matrix stored in `layout` order. -/
def LdOk (layout : Layout) (ld m n : Int) : Prop :=
  match layout with
  | .ColMajor => m ≤ ld
  | .RowMajor => n ≤ ld

instance (layout : Layout) (ld m n : Int) : Decidable (LdOk layout ld m n) :=
  match layout with
  | .ColMajor => inferInstanceAs (Decidable (m ≤ ld))
  | .RowMajor => inferInstanceAs (Decidable (n ≤ ld))

/-- Number of cells spanned by an m x n matrix stored with leading dimension `ld`. -/
def bufLen (layout : Layout) (ld m n : Int) : Int :=
  match layout with
  | .ColMajor => ld * n
  | .RowMajor => ld * m

/-- The buffer holds the m x n matrix `A` in the given layout. -/
def Holds {T : Type} (b : Buf T) (layout : Layout) (ld m n : Int) (A : Int → Int → T) : Prop :=
  ∀ i j, InR m n i j → b (addr layout ld i j) = .val (A i j)

/-- The cells of the m x n matrix are allocated (possibly uninitialised). -/
def Alloc {T : Type} (b : Buf T) (layout : Layout) (ld m n : Int) : Prop :=
  ∀ i j, InR m n i j → b (addr layout ld i j) ≠ .none

/-- `b'` differs from `b` only inside the m x n matrix. -/
def SameOutside {T : Type} (b b' : Buf T) (layout : Layout) (ld m n : Int) : Prop :=
  ∀ p, (∀ i j, InR m n i j → p ≠ addr layout ld i j) → b' p = b p

/-- Cells allocated in `b` are exactly those allocated in `b'` (no allocation or deallocation happens). -/
def SameAlloc {T : Type} (b b' : Buf T) : Prop := ∀ p, b' p = .none ↔ b p = .none

end RB.Spec
