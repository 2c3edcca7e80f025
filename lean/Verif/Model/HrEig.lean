import Verif.Model.HrLapack

/-! # Model of the eigenvalue routines of test/handrolled_lapack.hh

`sqrt` stands for `std::sqrt`; NaN is not modelled. -/

namespace RB

variable {T : Type} [Field T] [LinearOrder T]

/-- Local variables of the Gershgorin test; `none` is the initial (infinite) value of `lower` and `upper`. Used to model test/handrolled_lapack.hh:152-168. -/
structure GershSt (T : Type) where
  ilb : Int
  iub : Int
  lower : Option T
  upper : Option T

/-- One round of the outer loop (test/handrolled_lapack.hh:152-168). -/
def gershRow (n i : Int) (st : GershSt T) : M (Buf T) (GershSt T) := do
  let center ← M.rd (i + i * n)
  let radius ← foldI 0 n (fun j r => if i ≠ j then do
      let g ← M.rd (i * n + j)
      pure (r + |g|)
    else pure r) 0
  let up : Bool := match st.upper with | none => true | some u => decide (center + radius ≥ u)
  let lo : Bool := match st.lower with | none => true | some l => decide (center - radius ≤ l)
  pure { ilb := if lo then i else st.ilb
         iub := if up then i else st.iub
         lower := if lo then some (center - radius) else st.lower
         upper := if up then some (center + radius) else st.upper }

/-- `extremal_eigvals_converged_gershgorin` (test/handrolled_lapack.hh:146-177). The state is the buffer of G.
With infinite bounds the comparisons at the end are false. -/
def gershgorin (n : Int) (tol : T) : M (Buf T) Bool := do
  let st ← foldI 0 n (fun i st => gershRow n i st) { ilb := 0, iub := 0, lower := none, upper := none }
  let lc ← M.rd (st.ilb + st.ilb * n)
  let uc ← M.rd (st.iub + st.iub * n)
  pure (match st.lower, st.upper with
    | some l, some u => decide (|l - lc| ≤ tol * lc) && decide (|u - uc| ≤ tol * uc)
    | _, _ => false)

/-- The buffers of the Cholesky iteration. Used to model test/handrolled_lapack.hh:198-209. -/
structure EigSt (T : Type) where
  a : Buf T
  eig : Buf T
  g : Buf T

/-- Run code on A. Used to model test/handrolled_lapack.hh:198-209. -/
def EigSt.onA {α : Type} (m : M (Buf T) α) : M (EigSt T) α := M.zoom EigSt.a (fun s b => { s with a := b }) m
/-- Run code on the eigenvalues. Used to model test/handrolled_lapack.hh:198-209. -/
def EigSt.onE {α : Type} (m : M (Buf T) α) : M (EigSt T) α := M.zoom EigSt.eig (fun s b => { s with eig := b }) m
/-- Run code on G. Used to model test/handrolled_lapack.hh:198-209. -/
def EigSt.onG {α : Type} (m : M (Buf T) α) : M (EigSt T) α := M.zoom EigSt.g (fun s b => { s with g := b }) m

/-- One round of the loop (test/handrolled_lapack.hh:198-209): `some iter` if the loop is left by `break`. -/
def cholIterBody (sqrt : T → T) (n b : Int) (reltol : T) (iter : Int) : M (EigSt T) (Option Int) := do
  let _ ← EigSt.onA (potrfUpper sqrt n n b)
  EigSt.onA (overwriteTriangle .ColMajor .Lower n 1 n)
  let s ← M.get
  EigSt.onG (syrkUpperNoTrans n n s.a 0 n n)
  EigSt.onG (symmetrize .ColMajor .Upper n n)
  let s ← M.get
  EigSt.onE (forI 0 n fun i => do
    let x ← M.lift (s.g.rd (i * n + i))
    M.wr i x)
  let converged ← EigSt.onG (gershgorin n reltol)
  if converged then pure (some iter)
  else do
    let s ← M.get
    EigSt.onA (blasCopy (n * n) s.g 0 1 0 1)
    pure none

/-- `posdef_eig_chol_iteration` (test/handrolled_lapack.hh:186-211). The state is the pair of A and the eigenvalues; G is a new
vector of zeros. The unused local variables `state` and `pivots` are omitted. -/
def posdefEigChol (sqrt : T → T) (n : Int) (reltol : T) (maxIters b0 : Int) : M (Buf T × Buf T) Int :=
  M.zoom (fun s => (⟨s.1, s.2, Buf.ofFn (n * n) fun _ => 0⟩ : EigSt T)) (fun _ t => (t.a, t.eig)) do
    let r ← findI 0 maxIters (cholIterBody sqrt n (min b0 n) reltol)
    pure (match r with
      | some iter => iter
      | none => - max 0 maxIters)

/-! ## Power method -/

/-- `blas::nrm2(n, x, 1)` (external, BLAS++), without scaling. Used to model test/handrolled_lapack.hh:242-248. -/
def blasNrm2 (sqrt : T → T) (n : Int) : M (Buf T) T := do
  let s ← foldI 0 n (fun i s => do
    let x ← M.rd i
    pure (s + x * x)) 0
  pure (sqrt s)

/-- `blas::dot(n, x, 1, y, 1)` (external, BLAS++); x is the buffer in the state. Used to model test/handrolled_lapack.hh:242-248. -/
def blasDot (n : Int) (y : Buf T) : M (Buf T) T :=
  foldI 0 n (fun i s => do
    let x ← M.rd i
    let y ← M.lift (y.rd i)
    pure (s + x * y)) 0

/-- `blas::gemv(ColMajor, NoTrans, n, n, 1, A, n, x, 1, 0, y, 1)` (external, BLAS++); the state is the buffer of y. Used to model test/handrolled_lapack.hh:263-305. -/
def blasGemv (n : Int) (A : Buf T) (a0 : Int) (x : Buf T) : M (Buf T) Unit := do
  blasCheck (0 ≤ n)
  forI 0 n fun i => do
    let t ← foldI 0 n (fun j t => do
      let a ← M.lift (A.rd (a0 + (i + j * n)))
      let x ← M.lift (x.rd j)
      pure (t + a * x)) 0
    M.wr i t

/-- One round of the loop of the power method (test/handrolled_lapack.hh:242-248). The state is the pair of v and u; `op x` writes the product
with x to the buffer in its state. -/
def powerStep (sqrt : T → T) (n : Int) (op : Buf T → M (Buf T) Unit) : M (Buf T × Buf T) T := do
  let s ← M.get
  onSnd (op s.1)
  let s ← M.get
  let lambda ← onFst (blasDot n s.2)
  let s ← M.get
  onFst (blasCopy n s.2 0 1 0 1)
  let norm ← onFst (blasNrm2 sqrt n)
  onFst (blasScal n (1 / norm) 0 1)
  pure lambda

/-- `power_method` (test/handrolled_lapack.hh:232-250). The state is v. `fill` stands for `fill_dense_unpacked` (modelled in
`Model/Dense.lean`) with the given random state, which fills v; `iters` for `required_powermethod_iters` (logarithms are not modelled).
The returned random state is omitted. -/
def powerMethod (sqrt : T → T) (n iters : Int) (fill : M (Buf T) Unit) (op : Buf T → M (Buf T) Unit) : M (Buf T) T := do
  fill
  let norm ← blasNrm2 sqrt n
  blasScal n (1 / norm) 0 1
  M.zoom (fun v => (v, Buf.ofFn n fun _ => (0 : T))) (fun _ s => s.1)
    (foldI 0 iters (fun _ _ => powerStep sqrt n op) 0)

/-- The part of `exeigs_powermethod` that computes the inverse (test/handrolled_lapack.hh:284-293). The state is the buffer of `work`.
The loop index of type `int` is modelled by an integer. -/
def invPart (sqrt : T → T) (n : Int) (A : Buf T) : M (Buf T) Unit := do
  blasCopy (n * n) A 0 1 0 1
  let _ ← potrfUpper sqrt n n 64
  M.at (n * n) (forI 0 (n * n) fun i => M.wr i 0)
  M.at (n * n) (forI 0 n fun i => M.wr (i + i * n) 1)
  let s ← M.get
  M.at (n * n) (trsmLeftUpperTrans n n 1 s 0 n n)
  let s ← M.get
  M.at (n * n) (trsmLeftUpper n n s 0 n n)

/-- `exeigs_powermethod` (test/handrolled_lapack.hh:263-305). The state is the buffer of the 2n elements of `eigvecs`; A is only read.
`work` is passed by value, so it is a local vector of at least 2 n^2 elements. `fill1`, `fill2` stand for the two calls of
`fill_dense_unpacked`. -/
def exeigs (sqrt : T → T) (n iters : Int) (A : Buf T) (work : Vec T) (fill1 fill2 : M (Buf T) Unit) : M (Buf T) (T × T) := do
  M.lift (requireSymmetric .ColMajor A n n 0)
  let lmax ← powerMethod sqrt n iters fill1 (fun x => blasGemv n A 0 x)
  let work := if work.size < 2 * n * n then work.resize (2 * n * n) else work
  let (_, w) ← M.onLocal (invPart sqrt n A) work.buf
  let lmin ← M.at n (powerMethod sqrt n iters fill2 (fun x => blasGemv n w (n * n) x))
  pure (lmax, 1 / lmin)

end RB
