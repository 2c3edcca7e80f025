import Verif.Model.Util
import Mathlib.Algebra.Order.Field.Basic

/-! # Model of test/handrolled_lapack.hh: Cholesky, Cholesky QR, block Gram-Schmidt, Gershgorin test,
Cholesky iteration and power method

`sqrt` stands for `std::sqrt`.  All matrices are column-major; a pointer `p + k` into a buffer is `M.at k`. -/

namespace RB

variable {T : Type}

/-- Run code on the same buffer seen from `base + o` (C++ pointer arithmetic). Used to model test/handrolled_lapack.hh:38-67. -/
def M.at {α : Type} (o : Int) (m : M (Buf T) α) : M (Buf T) α :=
  M.zoom (fun b => b.shift o) (fun _ b' => b'.shift (-o)) m

/-- `for (k = 0; k < n; ++k) { ... return r; ... }`: a loop that may return early. Used to model test/handrolled_lapack.hh:16-36. -/
def findN {m : Type → Type} [Monad m] {α : Type} (n : Nat) (body : Nat → m (Option α)) : m (Option α) :=
  match n with
  | 0 => pure none
  | n + 1 => do
    let r ← findN n body
    match r with
    | some a => pure (some a)
    | none => body n

/-- `for (i = lo; i < hi; ++i) { ... return r; ... }` over integers. Used to model test/handrolled_lapack.hh:16-36. -/
def findI {m : Type → Type} [Monad m] {α : Type} (lo hi : Int) (body : Int → m (Option α)) : m (Option α) :=
  findN (hi - lo).toNat (fun k => body (lo + k))

/-! ## BLAS level 3 routines for triangular matrices (external, BLAS++; loops of the reference BLAS) -/

section
variable [Field T] [LinearOrder T]

/-- `blas::trsm(ColMajor, Left, Upper, Trans, NonUnit, m, n, alpha, A, lda, B, ldb)`: `B = alpha * inv(A^T) * B`.
The state is the buffer of B; A is read from another buffer or from another part of the same one (`A`, from `a0`). Used to model test/handrolled_lapack.hh:38-67. -/
def trsmLeftUpperTrans (m n : Int) (alpha : T) (A : Buf T) (a0 lda ldb : Int) : M (Buf T) Unit := do
  blasCheck (0 ≤ m)
  blasCheck (0 ≤ n)
  blasCheck (m ≤ lda)
  blasCheck (m ≤ ldb)
  forI 0 n fun j => forI 0 m fun i => do
    let b ← M.rd (i + j * ldb)
    let t ← foldI 0 i (fun k t => do
      let a ← M.lift (A.rd (a0 + (k + i * lda)))
      let x ← M.rd (k + j * ldb)
      pure (t - a * x)) (alpha * b)
    let d ← M.lift (A.rd (a0 + (i + i * lda)))
    M.wr (i + j * ldb) (t / d)

/-- `blas::trsm(ColMajor, Left, Upper, NoTrans, NonUnit, m, n, 1, A, lda, B, ldb)`: `B = inv(A) * B`. Used to model test/handrolled_lapack.hh:284-293. -/
def trsmLeftUpper (m n : Int) (A : Buf T) (a0 lda ldb : Int) : M (Buf T) Unit := do
  blasCheck (0 ≤ m)
  blasCheck (0 ≤ n)
  blasCheck (m ≤ lda)
  blasCheck (m ≤ ldb)
  forI 0 n fun j => forI 0 m fun k' => do
    let k := m - 1 - k'
    let b ← M.rd (k + j * ldb)
    let d ← M.lift (A.rd (a0 + (k + k * lda)))
    M.wr (k + j * ldb) (b / d)
    forI 0 k fun i => do
      let x ← M.rd (i + j * ldb)
      let y ← M.rd (k + j * ldb)
      let a ← M.lift (A.rd (a0 + (i + k * lda)))
      M.wr (i + j * ldb) (x - y * a)

/-- `blas::trsm(ColMajor, Right, Upper, NoTrans, NonUnit, m, n, 1, A, lda, B, ldb)`: `B = B * inv(A)`. Used to model test/handrolled_lapack.hh:69-78. -/
def trsmRightUpper (m n : Int) (A : Buf T) (a0 lda ldb : Int) : M (Buf T) Unit := do
  blasCheck (0 ≤ m)
  blasCheck (0 ≤ n)
  blasCheck (n ≤ lda)
  blasCheck (m ≤ ldb)
  forI 0 n fun j => do
    forI 0 j fun k => do
      let a ← M.lift (A.rd (a0 + (k + j * lda)))
      forI 0 m fun i => do
        let x ← M.rd (i + j * ldb)
        let y ← M.rd (i + k * ldb)
        M.wr (i + j * ldb) (x - a * y)
    let d ← M.lift (A.rd (a0 + (j + j * lda)))
    forI 0 m fun i => do
      let x ← M.rd (i + j * ldb)
      M.wr (i + j * ldb) (1 / d * x)

/-- `blas::syrk(ColMajor, Upper, Trans, n, k, alpha, A, lda, beta, C, ldc)`: upper triangle of
`C = alpha * A^T * A + beta * C`; C is not read if beta = 0. Used to model test/handrolled_lapack.hh:38-67. -/
def syrkUpperTrans (n k : Int) (alpha : T) (A : Buf T) (a0 lda : Int) (beta : T) (ldc : Int) : M (Buf T) Unit := do
  blasCheck (0 ≤ n)
  blasCheck (0 ≤ k)
  blasCheck (k ≤ lda)
  blasCheck (n ≤ ldc)
  forI 0 n fun j => forI 0 (j + 1) fun i => do
    let t ← foldI 0 k (fun l t => do
      let x ← M.lift (A.rd (a0 + (l + i * lda)))
      let y ← M.lift (A.rd (a0 + (l + j * lda)))
      pure (t + x * y)) 0
    if beta = 0 then M.wr (i + j * ldc) (alpha * t)
    else do
      let c ← M.rd (i + j * ldc)
      M.wr (i + j * ldc) (alpha * t + beta * c)

/-- `blas::syrk(ColMajor, Upper, NoTrans, n, k, 1, A, lda, 0, C, ldc)`: upper triangle of `C = A * A^T`. Used to model test/handrolled_lapack.hh:198-209. -/
def syrkUpperNoTrans (n k : Int) (A : Buf T) (a0 lda ldc : Int) : M (Buf T) Unit := do
  blasCheck (0 ≤ n)
  blasCheck (0 ≤ k)
  blasCheck (n ≤ lda)
  blasCheck (n ≤ ldc)
  forI 0 n fun j => forI 0 (j + 1) fun i => do
    let t ← foldI 0 k (fun l t => do
      let x ← M.lift (A.rd (a0 + (i + l * lda)))
      let y ← M.lift (A.rd (a0 + (j + l * lda)))
      pure (t + x * y)) 0
    M.wr (i + j * ldc) t

/-- `blas::trmm(ColMajor, Left, Upper, NoTrans, NonUnit, m, n, 1, A, lda, B, ldb)`: `B = A * B`. Used to model test/handrolled_lapack.hh:69-87. -/
def trmmLeftUpper (m n : Int) (A : Buf T) (a0 lda ldb : Int) : M (Buf T) Unit := do
  blasCheck (0 ≤ m)
  blasCheck (0 ≤ n)
  blasCheck (m ≤ lda)
  blasCheck (m ≤ ldb)
  forI 0 n fun j => forI 0 m fun k => do
    let t ← M.rd (k + j * ldb)
    forI 0 k fun i => do
      let x ← M.rd (i + j * ldb)
      let a ← M.lift (A.rd (a0 + (i + k * lda)))
      M.wr (i + j * ldb) (x + t * a)
    let d ← M.lift (A.rd (a0 + (k + k * lda)))
    M.wr (k + j * ldb) (t * d)

/-! ## Cholesky decomposition -/

/-- `potrf_upper_sequential` (test/handrolled_lapack.hh:16-36).
The result is an integer (no truncation to `int`); NaN is not modelled; the message is omitted. -/
def potrfSeq (sqrt : T → T) (n lda : Int) : M (Buf T) Int := do
  let r ← findI 0 n fun j => do
    let d ← M.rd (j + j * lda)
    if d ≤ 0 then pure (some (j + 1))
    else do
      M.wr (j + j * lda) (sqrt d)
      forI (j + 1) n fun i => do
        let x ← M.rd (j + i * lda)
        let d ← M.rd (j + j * lda)
        M.wr (j + i * lda) (x / d)
      forI (j + 1) n fun k => forI k n fun i => do
        let x ← M.rd (k + i * lda)
        let y ← M.rd (j + i * lda)
        let z ← M.rd (j + k * lda)
        M.wr (k + i * lda) (x - y * z)
      pure none
  pure (r.getD 0)

/-- `potrf_upper` (test/handrolled_lapack.hh:38-67). The recursion depth is bounded by `fuel`
(`C62` shows that `n` levels are enough); the return value of the recursive call is ignored, as in the code. -/
def potrfUpperF (sqrt : T → T) : Nat → Int → Int → Int → M (Buf T) Int
  | 0, _, _, _ => M.ub
  | fuel + 1, n, lda, b => do
    M.require (b > 0)
    let c := min b n
    let code ← potrfSeq sqrt c lda
    if code ≠ 0 then pure code
    else if c < n then do
      let s ← M.get
      M.at (c * lda) (trsmLeftUpperTrans c (n - c) 1 s 0 lda lda)
      let s ← M.get
      M.at (c * lda + c) (syrkUpperTrans (n - c) c (-1) s (c * lda) lda 1 lda)
      let _ ← M.at (c * lda + c) (potrfUpperF sqrt fuel (n - c) lda b)
      pure 0
    else pure 0

/-- `potrf_upper` (test/handrolled_lapack.hh:38-67). -/
def potrfUpper (sqrt : T → T) (n lda b : Int) : M (Buf T) Int := potrfUpperF sqrt (n.toNat + 1) n lda b

/-! ## QR decompositions -/

/-- Run code on the first of two buffers. Used to model test/handrolled_lapack.hh:69-78. -/
def onFst {α : Type} (m : M (Buf T) α) : M (Buf T × Buf T) α := M.zoom Prod.fst (fun s b => (b, s.2)) m
/-- Run code on the second of two buffers. Used to model test/handrolled_lapack.hh:69-78. -/
def onSnd {α : Type} (m : M (Buf T) α) : M (Buf T × Buf T) α := M.zoom Prod.snd (fun s b => (s.1, b)) m
/-- Run code with the second pointer advanced by `o`. Used to model test/handrolled_lapack.hh:69-87. -/
def atSnd {α : Type} (o : Int) (m : M (Buf T × Buf T) α) : M (Buf T × Buf T) α :=
  M.zoom (fun s => (s.1, s.2.shift o)) (fun _ s => (s.1, s.2.shift (-o))) m

/-- `chol_qr` with `twice = false` (test/handrolled_lapack.hh:69-78). The state is the pair of the buffers of A and R. -/
def cholQrOnce (sqrt : T → T) (m n cb : Int) : M (Buf T × Buf T) Unit := do
  onSnd (forI 0 (n * n) fun i => M.wr i 0)
  let s ← M.get
  onSnd (syrkUpperTrans n m 1 s.1 0 m 0 n)
  let _ ← onSnd (potrfUpper sqrt n n cb)
  let s ← M.get
  onFst (trsmRightUpper m n s.2 0 n m)

/-- `chol_qr` (test/handrolled_lapack.hh:69-87). -/
def cholQr (sqrt : T → T) (m n cb : Int) (twice : Bool) : M (Buf T × Buf T) Unit := do
  cholQrOnce sqrt m n cb
  if twice then do
    atSnd (n * n) (cholQrOnce sqrt m n cb)
    onSnd (overwriteTriangle .ColMajor .Lower n 1 n)
    let s ← M.get
    onSnd (trmmLeftUpper n n s.2 (n * n) n n)
  else pure ()

/-- The three buffers of `qr_block_cgs`: A, R and the workspace. Used to model test/handrolled_lapack.hh:89-122. -/
structure CgsSt (T : Type) where
  a : Buf T
  r : Buf T
  w : Buf T

/-- Run code on A. Used to model test/handrolled_lapack.hh:89-122. -/
def onA {α : Type} (m : M (Buf T) α) : M (CgsSt T) α := M.zoom CgsSt.a (fun s b => { s with a := b }) m
/-- Run code on R. Used to model test/handrolled_lapack.hh:89-122. -/
def onR {α : Type} (m : M (Buf T) α) : M (CgsSt T) α := M.zoom CgsSt.r (fun s b => { s with r := b }) m
/-- Run code on the workspace. Used to model test/handrolled_lapack.hh:89-122. -/
def onW {α : Type} (m : M (Buf T) α) : M (CgsSt T) α := M.zoom CgsSt.w (fun s b => { s with w := b }) m
/-- Run code on A and the workspace. Used to model test/handrolled_lapack.hh:89-122. -/
def onAW {α : Type} (m : M (Buf T × Buf T) α) : M (CgsSt T) α :=
  M.zoom (fun s => (s.a, s.w)) (fun s p => { s with a := p.1, w := p.2 }) m
/-- Run code with the pointers to A and R advanced. Used to model test/handrolled_lapack.hh:89-122. -/
def atAR {α : Type} (oa or : Int) (m : M (CgsSt T) α) : M (CgsSt T) α :=
  M.zoom (fun s => { s with a := s.a.shift oa, r := s.r.shift or })
    (fun _ s => { s with a := s.a.shift (-oa), r := s.r.shift (-or) }) m

/-- `qr_block_cgs` (test/handrolled_lapack.hh:89-122). The recursion depth is bounded by `fuel` (`n` levels are enough). -/
def qrBlockCgsF (sqrt : T → T) : Nat → Int → Int → Int → Int → M (CgsSt T) Unit
  | 0, _, _, _, _ => M.ub
  | fuel + 1, m, n, ldr, b0 => do
    M.when (n > m) (M.throw .runtime)
    M.require (ldr ≥ n)
    let b := min b0 n
    onAW (cholQr sqrt m b b true)
    let s ← M.get
    onR (forI 0 b fun j => blasCopy b s.w (b * j) 1 (ldr * j) 1)
    if b < n then do
      let nt := n - b
      let s ← M.get
      onW (blasGemm .ColMajor .Trans .NoTrans b nt m 1 s.a 0 m s.a (m * b) m 0 0 b)
      let s ← M.get
      onA (M.at (m * b) (blasGemm .ColMajor .NoTrans .NoTrans m nt b (-1) s.a 0 m s.w 0 b 1 0 m))
      let s ← M.get
      onR (forI 0 nt fun j => blasCopy b s.w (j * b) 1 (ldr * b + j * ldr) 1)
      atAR (m * b) (ldr * b + b) (qrBlockCgsF sqrt fuel m nt ldr b)
    else pure ()

/-- `qr_block_cgs` (test/handrolled_lapack.hh:89-122). -/
def qrBlockCgs (sqrt : T → T) (m n ldr b : Int) : M (CgsSt T) Unit := qrBlockCgsF sqrt (n.toNat + 1) m n ldr b

/-- `qr_block_cgs2` (test/handrolled_lapack.hh:124-144). The state is A, R and the vector `bigwork`. -/
def qrBlockCgs2 (sqrt : T → T) (m n b0 : Int) : M ((Buf T × Buf T) × Vec T) Unit := do
  let b := min b0 n
  let size := n * n + max n (2 * b) * b
  let s ← M.get
  M.when (s.2.size < size) (M.modify fun s => (s.1, s.2.resize size))
  M.zoom (fun s => s.1.2) (fun s r => ((s.1.1, r), s.2)) (forI 0 (n * n) fun i => M.wr i 0)
  -- qr_block_cgs(m, n, A, R, n, littlework, b)
  M.zoom (fun s => (⟨s.1.1, s.1.2, s.2.buf.shift (n * n)⟩ : CgsSt T))
    (fun s t => ((t.a, t.r), { s.2 with buf := t.w.shift (-(n * n)) })) (qrBlockCgs sqrt m n n b)
  M.zoom (fun s => s.1.2) (fun s r => ((s.1.1, r), s.2)) (overwriteTriangle .ColMajor .Lower n 1 n)
  -- qr_block_cgs(m, n, A, R2, n, littlework, b): R2 and littlework are disjoint parts of bigwork
  M.zoom (fun s => (⟨s.1.1, fun p => if p < n * n then s.2.buf p else .none, fun p => if 0 ≤ p then s.2.buf (n * n + p) else .none⟩ : CgsSt T))
    (fun s t => ((t.a, s.1.2), { s.2 with buf := fun p => if p < n * n then t.r p else t.w (p - n * n) })) (qrBlockCgs sqrt m n n b)
  let s ← M.get
  M.zoom (fun s => s.1.2) (fun s r => ((s.1.1, r), s.2)) (trmmLeftUpper n n s.2.buf 0 n n)

end

end RB
