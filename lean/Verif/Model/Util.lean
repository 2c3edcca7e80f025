import Verif.Model.Blas
import Mathlib.Algebra.Order.Group.Abs
import Mathlib.Algebra.Order.Field.Basic

/-! # Model of RandBLAS/util.hh (dense matrix utilities) -/

namespace RB

variable {T : Type}

/-- `safe_scal` (RandBLAS/util.hh:53-61). `x` is the offset of the vector in the buffer. -/
def safeScal [Zero T] [Mul T] [BEq T] (n : Int) (a : T) (x incx : Int) : M (Buf T) Unit :=
  if a == 0 then forI 0 n fun i => M.wr (x + i * incx) 0
  else blasScal n a x incx

/-- `omatcopy` (RandBLAS/util.hh:63-78). `A` is read-only, `B` (offset `b0` in the state) is written.
A and B are separate buffers (no aliasing). -/
def omatcopy (m n : Int) (A : Buf T) (irsA icsA : Int) (b0 irsB icsB : Int) : M (Buf T) Unit :=
  forI 0 m fun i => forI 0 n fun j => do
    let v ← M.lift (A.rd (i * irsA + j * icsA))
    M.wr (b0 + (i * irsB + j * icsB)) v

/-- A `std::vector<T>`. Used to model RandBLAS/util.hh:98-111. -/
structure Vec (T : Type) where
  size : Int
  buf : Buf T

/-- `std::vector::resize(n)`: drops elements beyond `n`, appends value-initialised ones. Used to model RandBLAS/util.hh:98-111. -/
def Vec.resize [Zero T] (v : Vec T) (n : Int) : Vec T :=
  { size := n
    buf := fun i => if 0 ≤ i ∧ i < n then (if i < v.size then v.buf i else .val 0) else .none }

/-- The part of `flip_layout` (RandBLAS/util.hh:98-111) after the argument checks. The vector is the state.
`A.erase(begin + len, end)` is undefined if `len` exceeds the size. -/
def flipLayoutBody [Zero T] (layoutIn layoutOut : Layout) (m n : Int) (ldaIn ldaOut lenOut : Int) : M (Vec T) Unit := do
  let sIn := layoutToStrides layoutIn ldaIn
  let sOut := layoutToStrides layoutOut ldaOut
  let A ← M.get
  M.when (lenOut ≥ A.size) (M.modify (fun A => A.resize lenOut))
  let Ain ← M.get
  M.zoom (fun A : Vec T => A.buf) (fun A b => { A with buf := b })
    (omatcopy m n Ain.buf sIn.irs sIn.ics 0 sOut.irs sOut.ics)
  let A ← M.get
  M.ubIf (A.size < lenOut ∨ lenOut < 0)
  -- erase(begin + lenOut, end) followed by resize(lenOut)
  M.modify (fun A => A.resize lenOut)

/-- `flip_layout` (RandBLAS/util.hh:80-111). -/
def flipLayout [Zero T] (layoutIn : Layout) (m n : Int) (ldaIn ldaOut : Int) : M (Vec T) Unit :=
  if layoutIn = .ColMajor then do
    M.require (ldaIn ≥ m)
    M.require (ldaOut ≥ n)
    flipLayoutBody layoutIn .RowMajor m n ldaIn ldaOut (ldaOut * m)
  else do
    M.require (ldaIn ≥ n)
    M.require (ldaOut ≥ m)
    flipLayoutBody layoutIn .ColMajor m n ldaIn ldaOut (ldaOut * n)

/-- `require_symmetric` (RandBLAS/util.hh:126-147). Read-only, hence no state.
`abs` is the absolute value of an ordered field (no rounding, no NaN). -/
def requireSymmetric [Field T] [LinearOrder T] (layout : Layout) (A : Buf T) (n lda : Int) (tol : T) : Res Unit :=
  if tol < 0 then .ok ()
  else
    let s := layoutToStrides layout lda
    forI 0 n fun i => forI (i + 1) n fun j => do
      let aij ← A.rd (s.at i j)
      let aji ← A.rd (s.at j i)
      let viol := |aij - aji|
      let relTol := (|aij| + |aji| + 1) * tol
      Res.errorIf (viol > relTol)

/-- `symmetrize` (RandBLAS/util.hh:306-327). -/
def symmetrize (layout : Layout) (uplo : Uplo) (n lda : Int) : M (Buf T) Unit :=
  let s := layoutToStrides layout lda
  match uplo with
  | .Upper => forI 0 n fun i => forI (i + 1) n fun j => do
      let v ← M.rd (s.at i j)
      M.wr (s.at j i) v
  | .Lower => forI 0 n fun i => forI (i + 1) n fun j => do
      let v ← M.rd (s.at j i)
      M.wr (s.at i j) v
  | .General => pure ()

/-- `overwrite_triangle` (RandBLAS/util.hh:351-372). -/
def overwriteTriangle [Zero T] (layout : Layout) (toOverwrite : Uplo) (n k lda : Int) : M (Buf T) Unit :=
  let s := layoutToStrides layout lda
  match toOverwrite with
  | .Upper => forI 0 n fun i => forI (i + k) n fun j => M.wr (s.at i j) 0
  | .Lower => forI 0 n fun i => forI (i + k) n fun j => M.wr (s.at j i) 0
  | .General => M.throw .runtime

/-- `transpose_square` (RandBLAS/util.hh:382-392); `std::swap` written out. -/
def transposeSquare (n lda : Int) : M (Buf T) Unit :=
  forI 0 n fun i => forI (i + 1) n fun j => do
    let x ← M.rd (i + lda * j)
    let y ← M.rd (j + lda * i)
    M.wr (i + lda * j) y
    M.wr (j + lda * i) x

end RB
