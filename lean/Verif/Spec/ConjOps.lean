import Verif.Model.ConjOps

/-! # Specification: the meaning of `blas::Op` for real matrices -/

namespace RB.Spec

/-- What an operation does to a real matrix: the conjugate transpose is the transpose. -/
def realOp : BlasOp → Op
  | .NoTrans => .NoTrans
  | .Trans | .ConjTrans => .Trans

end RB.Spec
