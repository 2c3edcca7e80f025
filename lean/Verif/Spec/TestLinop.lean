import Verif.Model.TestLinop
import Verif.Spec.Sketch

/-! # Specification of the reference products of the tests -/

namespace RB.Spec
variable {N : Nat} {K W WS R T : Type}

/-- The sparse matrix `A` consists of the entries `L`, and the functions that copy it to a dense array apply (C28): zero-based indices for the compressed formats, columns below 2^31 for CSR. -/
def Copyable (A : SpMat T) (L : List (Entry T)) : Prop :=
  match A with
  | .coo A => CooIs A L
  | .csc A => CscIs A L ∧ A.indexBase = .Zero
  | .csr A => CsrIs A L ∧ A.indexBase = .Zero ∧ ∀ e ∈ L, e.col < 2 ^ 31

/-- The operator `S` of a test is the matrix `Sm`. For a dense operator `Sm` is what its distribution and seed sample. A sparse operator has been filled, or filling it gives the entries; no position
occurs twice among the entries of a sparse operator or matrix. -/
def TestOpIs [Field R] [LinearOrder R] [FloorRing R] [Ring T] (E : SkEnv N K W WS R T) (S : TestOp N K T) (Sm : Int → Int → T) : Prop :=
  match S with
  | .dense S => DenseDistOk S.dist ∧ S.nRows = S.dist.nRows ∧ S.nCols = S.dist.nCols ∧ Samples E.G E.sqrt3 S.dist S.seedState Sm
  | .sparse S => 0 < S.nRows ∧ 0 < S.nCols ∧ ∃ L, L ≠ [] ∧ InRange S.nRows S.nCols L ∧ (L.map Entry.pos).Nodup ∧ toMat L = Sm ∧
      (OpHolds S L ∨ S.nnz < 0 ∧ ∃ S', fillSparse E.GS E.sqrt E.order S = (.ok (), S') ∧ OpHolds S' L ∧ S'.nRows = S.nRows ∧ S'.nCols = S.nCols)
  | .mat A => 0 < A.numRows ∧ 0 < A.numCols ∧ ∃ L, Copyable A L ∧ InRange A.numRows A.numCols L ∧ (L.map Entry.pos).Nodup ∧ toMat L = Sm

/-- The operator is `Sm` and one of those for which C31, C36 and C37 describe the product with the whole operator from the left. -/
def LeftTestable [Field R] [LinearOrder R] [FloorRing R] [Ring T] (E : SkEnv N K W WS R T) (alpha : T) (layout : Layout) (S : TestOp N K T) (Sm : Int → Int → T) : Prop :=
  TestOpIs E S Sm ∧
  match S with
  | .dense S => DenseIs E S Sm
  | .sparse S => LeftOk E alpha (.sparse S) Sm .NoTrans S.nRows S.nCols 0 0
  | .mat A => ∃ L, SpHolds A L ∧ Copyable A L ∧ spBase A = .Zero ∧ InRange (spRows A) (spCols A) L ∧ (L.map Entry.pos).Nodup ∧ toMat L = Sm ∧
      (alpha ≠ 0 → Supported A .NoTrans layout .NoTrans (spRows A) (spCols A) (window 0 0 (spRows A) (spCols A) L))

/-- The operator is `Sm` and one of those for which C32, C36 and C37 describe the product with the whole operator from the right. A sparse operator has been filled. -/
def RightTestable [Field R] [LinearOrder R] [FloorRing R] [Ring T] (E : SkEnv N K W WS R T) (alpha : T) (layout : Layout) (S : TestOp N K T) (Sm : Int → Int → T) : Prop :=
  TestOpIs E S Sm ∧
  match S with
  | .dense S => DenseIs E S Sm
  | .sparse S => RightOk E alpha (.sparse S) Sm .NoTrans S.nRows S.nCols 0 0
  | .mat A => ∃ L, SpHolds A L ∧ Copyable A L ∧ spBase A = .Zero ∧ InRange (spRows A) (spCols A) L ∧ (L.map Entry.pos).Nodup ∧ toMat L = Sm ∧
      (alpha ≠ 0 → Supported A .Trans layout.flip .NoTrans (spCols A) (spRows A) (opEntries .Trans (window 0 0 (spRows A) (spCols A) L)))

/-- The first `n` elements have been written. -/
def Full (b : Buf T) (n : Int) : Prop := ∀ p, 0 ≤ p → p < n → ∃ v, b p = .val v

/-- The number of elements from the first to the last entry of an m x n matrix. -/
def extent (layout : Layout) (ld m n : Int) : Int :=
  match layout with
  | .ColMajor => ld * (n - 1) + m
  | .RowMajor => ld * (m - 1) + n

/-- Entry (i, j) of `alpha * op(submat(S)) * op(A) + beta * C`. -/
def productOf [Ring T] (opS opA : Op) (m ro co : Int) (alpha beta : T) (Sm Am C : Int → Int → T) (i j : Int) : T :=
  alpha * prodEntry m (opMat opS (subMat ro co Sm)) (opMat opA Am) i j + beta * C i j

/-- The tolerance for entry (i, j): `2 m eps |alpha| (|op(submat(S))| |op(A)|)(i, j) + eps |beta| |X(i, j)|`, with the result `X` itself in place of the `B` that was multiplied by `beta`. -/
def toleranceOf [Field T] [LinearOrder T] (eps : T) (opS opA : Op) (m ro co : Int) (alpha beta : T) (Sm Am X : Int → Int → T) (i j : Int) : T :=
  2 * (m : T) * eps * |alpha| * prodEntry m (fun i k => |opMat opS (subMat ro co Sm) i k|) (fun k j => |opMat opA Am k j|) i j + eps * |beta| * |X i j|

/-- Entry (i, j) of `alpha * op(A) * op(submat(S)) + beta * C`. -/
def productOfR [Ring T] (opA opS : Op) (n ro co : Int) (alpha beta : T) (Am Sm C : Int → Int → T) (i j : Int) : T :=
  alpha * prodEntry n (opMat opA Am) (opMat opS (subMat ro co Sm)) i j + beta * C i j

/-- The tolerance for entry (i, j) of a product from the right. -/
def toleranceOfR [Field T] [LinearOrder T] (eps : T) (opA opS : Op) (n ro co : Int) (alpha beta : T) (Am Sm X : Int → Int → T) (i j : Int) : T :=
  2 * (n : T) * eps * |alpha| * prodEntry n (fun i k => |opMat opA Am i k|) (fun k j => |opMat opS (subMat ro co Sm) k j|) i j + eps * |beta| * |X i j|

/-- The numbers in an array of `m * n` elements filled by `random_matrix(m, n, seed)`: C01's standard normal numbers, consecutive vectors of length `max m n`. -/
def testData (G : Gen N K W T) (seed : RNGState N K) (m n p : Int) : T := denseRaw G .Gaussian (max m n) seed (p / max m n) (p % max m n)

end RB.Spec
