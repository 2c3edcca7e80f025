import Verif.Model.Util64
import Verif.Spec.Mat

/-! # Vocabulary for C111 and C112: data stored with narrower integers -/

namespace RB.Spec
open RB
variable {T : Type}

/-- All entries of the r x c matrix have positions below 2^63. -/
def EntriesFit (layout : Layout) (ld r c : Int) : Prop := ∀ i j, InR r c i j → addr layout ld i j < 2 ^ 63

/-- The array with every stored integer reduced modulo 2^w to the range of a signed type of `w` bits. -/
def narrow (w : Nat) (b : Buf Int) : Buf Int := fun p =>
  match b p with
  | .val x => .val (wrapInt w x)
  | c => c

/-- The CSC matrix with row indices and column pointers reduced to `w` bits. -/
def narrowCsc (w : Nat) (A : CscMat T) : CscMat T := { A with rowidxs := A.rowidxs.map (narrow w), colptr := A.colptr.map (narrow w) }

/-- The CSR matrix with row pointers and column indices reduced to `w` bits. -/
def narrowCsr (w : Nat) (A : CsrMat T) : CsrMat T := { A with rowptr := A.rowptr.map (narrow w), colidxs := A.colidxs.map (narrow w) }

end RB.Spec
