import Verif.Core.Res
import Mathlib.Algebra.BigOperators.Group.List.Basic

/-! # Specification: coordinate lists and the matrices they represent -/

namespace RB.Spec

/-- A stored entry. -/
structure Entry (T : Type) where
  row : Int
  col : Int
  val : T
  deriving DecidableEq, Repr

/-- The first `E.length` elements of the three arrays are the entries `E`, in that order. -/
def CooHolds {T : Type} (vals : Buf T) (rows cols : Buf Int) (E : List (Entry T)) : Prop :=
  ∀ (p : Nat) (h : p < E.length), vals p = .val E[p].val ∧ rows p = .val E[p].row ∧ cols p = .val E[p].col

/-- The matrix a coordinate list represents: entries at the same position are added. -/
def toMat {T : Type} [Zero T] [Add T] (E : List (Entry T)) (i j : Int) : T :=
  ((E.filter fun e => e.row = i ∧ e.col = j).map Entry.val).sum

/-- The position of an entry. -/
def Entry.pos {T : Type} (e : Entry T) : Int × Int := (e.row, e.col)

/-- All entries lie in an `m x n` matrix. -/
def InRange {T : Type} (m n : Int) (E : List (Entry T)) : Prop := ∀ e ∈ E, 0 ≤ e.row ∧ e.row < m ∧ 0 ≤ e.col ∧ e.col < n

end RB.Spec
