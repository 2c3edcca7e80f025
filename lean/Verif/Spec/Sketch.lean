import Verif.Model.Sketch
import Verif.Spec.Spmm
import Verif.Props.Dense
import Verif.Props.Sparse

/-! # Specification: what a sketching operator is, filled or not -/

namespace RB.Spec
variable {N : Nat} {K W WS R T : Type}

/-- The dense operator `S` is the matrix `A`: its buffer holds `A` (tightly packed, in the operator's layout), or there is no buffer and
`A` is what `fill_dense` would sample. -/
def DenseIs [Mul T] (E : SkEnv N K W WS R T) (S : DenseSkOp N K T) (A : Int → Int → T) : Prop :=
  match S.buff with
  | some b => Holds b S.layout (tightLd S.layout S.nRows S.nCols) S.nRows S.nCols A
  | none => DenseDistOk S.dist ∧ S.nRows = S.dist.nRows ∧ S.nCols = S.dist.nCols ∧ Samples E.G E.sqrt3 S.dist S.seedState A

/-- The window of `r` rows from `ro` and `c` columns from `co` lies in an operator with the given dimensions. -/
def InOp (nRows nCols r c ro co : Int) : Prop := 0 ≤ ro ∧ 0 ≤ co ∧ r + ro ≤ nRows ∧ c + co ≤ nCols

/-- The code fills the window of `r` rows from `ro` and `c` columns from `co` of an operator that has not been filled without leaving its temporary array: the window is not empty; or
it has no vector along the minor axis; or it starts at the first entry of the operator; or it starts inside a vector of the major axis, not at a multiple of `len` (the number of words
per counter). The other empty windows are undefined (`C36_empty_undefined_left`). -/
def FillOk (len : Int) (D : DenseDist) (r c ro co : Int) : Prop :=
  (0 < r ∧ 0 < c) ∨
  match D.naturalLayout with
  | .RowMajor => r = 0 ∨ (ro = 0 ∧ co = 0) ∨ (co < D.nCols ∧ co % len ≠ 0)
  | .ColMajor => c = 0 ∨ (ro = 0 ∧ co = 0) ∨ (ro < D.nRows ∧ ro % len ≠ 0)

instance (len : Int) (D : DenseDist) (r c ro co : Int) : Decidable (FillOk len D r c ro co) := by
  unfold FillOk
  cases D.naturalLayout <;> infer_instance

/-- The sparse operator `S` consists of the entries `L` (at least one): its arrays hold them, or it has not been filled and they are what
`fill_sparse` samples into a new operator with the same distribution and seed. -/
def SparseIs [Field R] [LinearOrder R] [FloorRing R] [Zero T] [One T] [Neg T] [Add T] [Mul T] (E : SkEnv N K W WS R T) (S : SparseSkOp N K T)
    (L : List (Entry T)) : Prop :=
  L ≠ [] ∧
  if S.nnz < 0 then ∃ S', fillSparse E.GS E.sqrt E.order (mkSparseSkOp E.GS.len S.dist S.seedState) = (.ok (), S') ∧ OpHolds S' L ∧
    S'.nRows = S.nRows ∧ S'.nCols = S.nCols
  else OpHolds S L

/-- Assumptions about the environment of a sketching call: those of sparse products; generators with 2 or 4 words; `sqrt(1) = 1`; iterating
over a hash map visits each of its elements once. -/
structure SkEnvOk [One T] (E : SkEnv N K W WS R T) : Prop where
  env : EnvOk E.env
  gen : E.G.Ok
  genS : E.GS.Ok
  sqrt : E.sqrt 1 = 1
  order : ∀ i l, (E.order i l).Perm l

/-- A left sketch `alpha * op(submat(S)) * op(A)` with the operator `S`, whose matrix is `Sm`, is a case in which the code is correct: the
window is inside the operator; for an unfilled dense operator it can be filled (`FillOk`: every nonempty window can); for a sparse operator the nonzeros of `op(submat(S))` meet the
condition of the sparse product. -/
def LeftOk [Field R] [LinearOrder R] [FloorRing R] [Ring T] (E : SkEnv N K W WS R T) (alpha : T)
    (S : SkOp N K T) (Sm : Int → Int → T) (opS : Op) (d m ro co : Int) : Prop :=
  match S with
  | .dense S => DenseIs E S Sm ∧ InOp S.nRows S.nCols (rowsOf opS d m) (colsOf opS d m) ro co ∧
      (S.buff = none → FillOk E.G.len S.dist (rowsOf opS d m) (colsOf opS d m) ro co)
  | .sparse S => ∃ L, SparseIs E S L ∧ InRange S.nRows S.nCols L ∧ toMat L = Sm ∧
      InOp S.nRows S.nCols (rowsOf opS d m) (colsOf opS d m) ro co ∧
      (alpha ≠ 0 → CooOk L.length m (opEntries opS (window ro co (rowsOf opS d m) (colsOf opS d m) L)))

/-- The same for right sketches `alpha * op(A) * op(submat(S))`; here a sparse operator must have been filled. -/
def RightOk [Field R] [LinearOrder R] [FloorRing R] [Ring T] (E : SkEnv N K W WS R T) (alpha : T)
    (S : SkOp N K T) (Sm : Int → Int → T) (opS : Op) (n d ro co : Int) : Prop :=
  match S with
  | .dense S => DenseIs E S Sm ∧ InOp S.nRows S.nCols (rowsOf opS n d) (colsOf opS n d) ro co ∧
      (S.buff = none → FillOk E.G.len S.dist (rowsOf opS n d) (colsOf opS n d) ro co)
  | .sparse S => ∃ L, 0 ≤ S.nnz ∧ SparseIs E S L ∧ InRange S.nRows S.nCols L ∧ toMat L = Sm ∧
      InOp S.nRows S.nCols (rowsOf opS n d) (colsOf opS n d) ro co ∧
      (alpha ≠ 0 → CooOk L.length n (opEntries opS.flip (window ro co (rowsOf opS n d) (colsOf opS n d) L)))

/-- `FillOk` for dense operators that have not been filled. -/
def WindowFillOk (len : Int) (S : SkOp N K T) (r c ro co : Int) : Prop :=
  match S with
  | .dense S => S.buff = none → FillOk len S.dist r c ro co
  | .sparse _ => True

/-- `S'` is `S`, except that the arrays of a filled sparse operator may list the same entries in another order. -/
def SameOperator (S S' : SkOp N K T) : Prop :=
  match S, S' with
  | .dense S, .dense S' => S' = S
  | .sparse S, .sparse S' => S' = S ∨ 0 ≤ S.nnz ∧ S' = { S with vals := S'.vals, rows := S'.rows, cols := S'.cols } ∧
      ∃ L L', OpHolds S L ∧ OpHolds S' L' ∧ L'.Perm L
  | _, _ => False

end RB.Spec
