import Verif.Model.Memory

/-!
# Vocabulary for C43: which histories a correct user program can have
-/

namespace RB.Mem

/-- The array at `a` exists and has not been freed. -/
def Live (h : Heap) (a : Nat) : Prop := ∃ b, h[a]? = some b ∧ b.frees = 0

/-- The three pointers of an object. -/
def Obj.ptrs (o : Obj) : List Ptr := [o.vals, o.p1, o.p2]

/-- No dangling pointers. -/
def DataLive (h : Heap) (o : Obj) : Prop := ∀ a, some a ∈ o.ptrs → Live h a

/-- Variable `i` holds an object with property `P`. -/
def Var (s : St) (i : Nat) (P : Obj → Prop) : Prop := ∃ o, s.objs[i]? = some (some o) ∧ P o

/-- The obligation of the user before the arrays of an object are accessed: if the object does not own them, they have not been freed. -/
def Usable (s : St) (o : Obj) : Prop := o.own = false → DataLive s.heap o

/-- A matrix whose arrays may be read: if it is a CSC or CSR matrix, `reserve` has been called or the user has provided a pointer array. -/
def Readable (s : St) (o : Obj) : Prop := (o.kind = .coo ∨ (o.kind = .csc ∨ o.kind = .csr) ∧ o.p2 ≠ none) ∧ Usable s o

/-- A sparse matrix of any kind. -/
def Obj.isMatrix (o : Obj) : Prop := o.kind = .coo ∨ o.kind = .csc ∨ o.kind = .csr

/-- A null pointer or an array that has not been freed. -/
def NullOrLive (h : Heap) (p : Ptr) : Prop := ∀ a, p = some a → Live h a

/-- What a user may do in state `s`: name only objects that exist and have the right type, provide valid arrays, use objects without own memory only
as long as their arrays exist, free only own arrays, once, and overwrite the members of an operator only if it does not own an array. Nothing is required for objects that own their memory. -/
def Valid (s : St) : Cmd → Prop
  | .new _ => True
  | .view k _ nnz v p q => k ≠ .dense ∧ (0 < nnz → v ≠ none ∧ p ≠ none ∧ q ≠ none) ∧ NullOrLive s.heap v ∧ NullOrLive s.heap p ∧ NullOrLive s.heap q
  | .move i => Var s i fun _ => True
  | .destroy i => Var s i fun _ => True
  | .fillDense i _ => Var s i fun o => o.kind = .dense ∧ Usable s o
  | .fillDenseUnpacked p _ _ => ∃ a, p = some a ∧ Live s.heap a
  | .sketchDense i _ _ _ _ => Var s i fun o => o.kind = .dense ∧ Usable s o
  | .fillSparse i _ _ => Var s i fun o => o.kind = .sparse ∧ Usable s o
  | .cooViewOfSkop i _ _ => Var s i fun o => o.kind = .sparse ∧ Usable s o
  | .lskges i _ _ _ => Var s i fun o => o.kind = .sparse ∧ Usable s o
  | .rskges i _ _ _ => Var s i fun o => o.kind = .sparse ∧ Usable s o
  | .reserve i _ => Var s i Obj.isMatrix
  | .access i _ => Var s i (Readable s)
  | .fromDense i _ => Var s i Obj.isMatrix
  | .spmm i _ _ _ _ => Var s i (Readable s)
  | .cooToCs _ i j => (Var s i fun o => o.kind = .coo ∧ Usable s o) ∧ Var s j fun o => o.kind = .csc ∨ o.kind = .csr
  | .csToCoo _ i j => (Var s i fun o => o.kind ≠ .coo ∧ Readable s o) ∧ Var s j fun o => o.kind = .coo
  | .transposeCoo i => Var s i fun o => o.kind = .coo
  | .transposeCs share i => Var s i fun o => (o.kind = .csc ∨ o.kind = .csr) ∧ (share = false → Readable s o)
  | .userNew => True
  | .userDelete a => ∃ b, s.heap[a]? = some b ∧ b.lib = false ∧ b.frees = 0
  | .attachDense i p => (Var s i fun o => o.kind = .dense ∧ (o.own = true → ∀ q ∈ o.ptrs, q = none)) ∧ NullOrLive s.heap p

/-- Every command of the history is valid when it is executed. -/
def ValidRun : List Cmd → St → Prop
  | [], _ => True
  | c :: cs, s => Valid s c ∧ ∀ s', run [c] s = some s' → ValidRun cs s'

/-- The compiler elides the copy of the object returned by `submatrix_as_blackbox`. -/
def Elided : Cmd → Prop
  | .sketchDense _ _ _ _ elide => elide = true
  | _ => True

/-- No exception is raised while `submatrix_as_blackbox` samples its array. -/
def NoThrowInBlackbox : Cmd → Prop
  | .sketchDense _ _ num _ _ => num = none
  | _ => True

/-- Commands that may free arrays that exist before: the end of an object's life, and the user's own `delete []`. -/
def Frees : Cmd → Prop
  | .destroy _ => True
  | .userDelete _ => True
  | _ => False

/-- Commands by which the user changes the members of the object in variable `i`: moving from it, destroying it, or overwriting its members. -/
def Reassigns (i : Nat) : Cmd → Prop
  | .move j => j = i
  | .destroy j => j = i
  | .attachDense j _ => j = i
  | _ => False

/-- Policy for members (rtd/source/tutorial/memory.rst:24-30): a pointer is overwritten only if it is null and the object owns its memory. -/
structure AttachedOnly (o o' : Obj) : Prop where
  kind : o'.kind = o.kind
  own : o'.own = o.own
  vals : o'.vals = o.vals ∨ o.own = true ∧ o.vals = none
  p1 : o'.p1 = o.p1 ∨ o.own = true ∧ o.p1 = none
  p2 : o'.p2 = o.p2 ∨ o.own = true ∧ o.p2 = none

/-- The beginning of a program. -/
def St.start : St := ⟨[], []⟩

end RB.Mem
