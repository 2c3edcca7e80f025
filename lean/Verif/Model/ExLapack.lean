import Verif.Model.HrLapack

/-! # LAPACK routines that the programs in examples/ call (external, LAPACK++)

The decompositions themselves are parameters; theorems assume what LAPACK promises of them (`Spec/Examples.lean`). What is modelled is
which memory the routines read and write. All matrices are column-major. A null pointer is a buffer without cells. -/

namespace RB

variable {T : Type}

/-- The value of a cell, 0 if it has none. Used to model examples/sparse-low-rank-approx/svd_matrixmarket.cc:91-97. -/
def Cell.valD [Zero T] : Cell T → T
  | .val v => v
  | _ => 0

/-- Read an m x n matrix (undefined if a cell is missing or uninitialised). Used to model examples/sparse-low-rank-approx/svd_matrixmarket.cc:91-97. -/
def readMat [Zero T] (m n ld : Int) : M (Buf T) (Int → Int → T) := do
  forI 0 n fun j => forI 0 m fun i => do
    let _ ← M.rd (i + j * ld)
    pure ()
  let b ← M.get
  pure fun i j => (b (i + j * ld)).valD

/-- Write an m x n matrix. Used to model examples/sparse-low-rank-approx/svd_matrixmarket.cc:91-97. -/
def writeMat (m n ld : Int) (F : Int → Int → T) : M (Buf T) Unit :=
  forI 0 n fun j => forI 0 m fun i => M.wr (i + j * ld) (F i j)

/-- The factors of a singular value decomposition `A = u * diag(s) * vt`. Used to model examples/sparse-low-rank-approx/svd_rank1_plus_noise.cc:282. -/
structure Svd (T : Type) where
  u : Int → Int → T
  s : Int → T
  vt : Int → Int → T

/-- The four arrays `lapack::gesdd` works on. Used to model examples/sparse-low-rank-approx/svd_rank1_plus_noise.cc:282. -/
structure SvdSt (T : Type) where
  a : Buf T
  s : Buf T
  u : Buf T
  vt : Buf T

/-- Run code on A. Used to model examples/sparse-low-rank-approx/svd_rank1_plus_noise.cc:282. -/
def SvdSt.onA {α : Type} (m : M (Buf T) α) : M (SvdSt T) α := M.zoom SvdSt.a (fun s b => { s with a := b }) m
/-- Run code on the singular values. Used to model examples/sparse-low-rank-approx/svd_rank1_plus_noise.cc:282. -/
def SvdSt.onS {α : Type} (m : M (Buf T) α) : M (SvdSt T) α := M.zoom SvdSt.s (fun s b => { s with s := b }) m
/-- Run code on U. Used to model examples/sparse-low-rank-approx/svd_rank1_plus_noise.cc:282. -/
def SvdSt.onU {α : Type} (m : M (Buf T) α) : M (SvdSt T) α := M.zoom SvdSt.u (fun s b => { s with u := b }) m
/-- Run code on VT. Used to model examples/sparse-low-rank-approx/svd_rank1_plus_noise.cc:282. -/
def SvdSt.onVT {α : Type} (m : M (Buf T) α) : M (SvdSt T) α := M.zoom SvdSt.vt (fun s b => { s with vt := b }) m

/-- `lapack::gesdd(Job::OverwriteVec, m, n, A, lda, S, U, ldu, VT, ldvt)` (external, LAPACK++). If m ≥ n, A is overwritten by the
first n columns of U, the n x n matrix VT is stored, and U is not used. Otherwise A is overwritten by the first m rows of VT, the m x m matrix U is
stored, and VT is not used. LAPACK++ reports invalid arguments by an exception. Used to model examples/sparse-low-rank-approx/svd_rank1_plus_noise.cc:282. -/
def gesddOverwrite [Zero T] (svd : Int → Int → (Int → Int → T) → Svd T) (m n lda ldu ldvt : Int) : M (SvdSt T) Unit := do
  blasCheck (0 ≤ m)
  blasCheck (0 ≤ n)
  blasCheck (max 1 m ≤ lda)
  blasCheck (1 ≤ ldu ∧ (m < n → m ≤ ldu))
  blasCheck (1 ≤ ldvt ∧ (n ≤ m → n ≤ ldvt))
  let A ← SvdSt.onA (readMat m n lda)
  let f := svd m n A
  SvdSt.onA (writeMat m n lda (if n ≤ m then f.u else f.vt))
  SvdSt.onS (forI 0 (min m n) fun i => M.wr i (f.s i))
  if n ≤ m then SvdSt.onVT (writeMat n n ldvt f.vt) else SvdSt.onU (writeMat m m ldu f.u)

/-- `householder_orth` (examples/sparse-low-rank-approx/svd_matrixmarket.cc:91-97, examples/sparse-low-rank-approx/svd_rank1_plus_noise.cc:205-211): `lapack::geqrf` followed by
`lapack::ungqr` (external). `orth m n A` stands for the resulting matrix. The state is the matrix and the array for the scalar factors of the
reflectors, of which `min m n` are written. `ungqr` requires n ≤ m. -/
def householderOrth [Zero T] (orth : Int → Int → (Int → Int → T) → (Int → Int → T)) (tau : T) (m n : Int) : M (Buf T × Buf T) Unit := do
  blasCheck (0 ≤ m)
  blasCheck (0 ≤ n)
  blasCheck (1 ≤ m)
  let A ← onFst (readMat m n m)
  onSnd (forI 0 (min m n) fun i => M.wr i tau)
  blasCheck (n ≤ m)
  onFst (writeMat m n m (orth m n A))

end RB
