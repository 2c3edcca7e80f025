import Verif.Model.ExLowRank
import Verif.Model.FisherYates

/-! # Model of the test matrices of examples/sparse-low-rank-approx (svd_rank1_plus_noise.cc, svd_matrixmarket.cc, qrcp_matrixmarket.cc) -/

namespace RB

variable {N : Nat} {K W R T : Type}

/-! ## The signal -/

/-- `blas::ger(ColMajor, m, n, alpha, x, 1, y, 1, A, lda)` (external, BLAS++), with BLAS++'s argument checks: A += alpha x y^T.
If alpha = 0, nothing is accessed. Used to model examples/sparse-low-rank-approx/svd_rank1_plus_noise.cc:149-180. -/
def blasGerCol [Zero T] [Add T] [Mul T] [BEq T] (m n : Int) (alpha : T) (x y : Buf T) (lda : Int) : M (Buf T) Unit := do
  blasCheck (0 ≤ m)
  blasCheck (0 ≤ n)
  blasCheck (m ≤ lda)
  if alpha == 0 then pure () else
    forI 0 n fun j => do
      let yj ← M.lift (y.rd j)
      forI 0 m fun i => do
        let xi ← M.lift (x.rd i)
        let a ← M.rd (i + j * lda)
        M.wr (i + j * lda) (a + xi * (alpha * yj))

/-- The outputs of `make_signal_matrix`: the arrays `u`, `v`, `signal_dense` (distinct objects) and the matrix `signal_sparse`. Used to model examples/sparse-low-rank-approx/svd_rank1_plus_noise.cc:166-169. -/
structure SigSt (T : Type) where
  u : Buf T
  v : Buf T
  dense : Buf T
  sparse : CooMat T

/-- Access to `u`. Used to model examples/sparse-low-rank-approx/svd_rank1_plus_noise.cc:164-173. -/
def SigSt.onU {α : Type} (m : M (Buf T) α) : M (SigSt T) α := M.zoom SigSt.u (fun t b => { t with u := b }) m
/-- Access to `v`. Used to model examples/sparse-low-rank-approx/svd_rank1_plus_noise.cc:164-173. -/
def SigSt.onV {α : Type} (m : M (Buf T) α) : M (SigSt T) α := M.zoom SigSt.v (fun t b => { t with v := b }) m
/-- Access to `signal_dense`. Used to model examples/sparse-low-rank-approx/svd_rank1_plus_noise.cc:149-180. -/
def SigSt.onDense {α : Type} (m : M (Buf T) α) : M (SigSt T) α := M.zoom SigSt.dense (fun t b => { t with dense := b }) m
/-- Access to `signal_sparse`. Used to model examples/sparse-low-rank-approx/svd_rank1_plus_noise.cc:151-163. -/
def SigSt.onSparse {α : Type} (m : M (CooMat T) α) : M (SigSt T) α := M.zoom SigSt.sparse (fun t b => { t with sparse := b }) m
/-- Access to the arrays of `signal_sparse`. Used to model examples/sparse-low-rank-approx/svd_rank1_plus_noise.cc:166-169. -/
def SigSt.onArrays {α : Type} (m : M (CooBufs T) α) : M (SigSt T) α := SigSt.onSparse (M.zoom CooMat.bufs CooMat.withBufs m)

/-- The body of the inner loop of `make_signal_matrix` (examples/sparse-low-rank-approx/svd_rank1_plus_noise.cc:166-169). `temp` is an `int`: the 64-bit sum is converted. -/
def signalEntry [Mul T] (idxs : Buf Int) (vals : Buf T) (vecNnz j i : Int) : M (SigSt T) Unit := do
  let temp := wrapInt 32 (i + j * vecNnz)
  let r ← M.lift (idxs.rd i)
  SigSt.onArrays (onCRows (M.wr temp r))
  let c ← M.lift (idxs.rd (j + vecNnz))
  SigSt.onArrays (onCCols (M.wr temp c))
  let a ← M.lift (vals.rd i)
  let b ← M.lift (vals.rd (j + vecNnz))
  SigSt.onArrays (onCVals (M.wr temp (a * b)))

/-- The body of the outer loop (examples/sparse-low-rank-approx/svd_rank1_plus_noise.cc:164-173). -/
def signalColumn [Mul T] (idxs : Buf Int) (vals : Buf T) (uvScale : T) (vecNnz j : Int) : M (SigSt T) Unit := do
  forI 0 vecNnz (signalEntry idxs vals vecNnz j)
  let p ← M.lift (idxs.rd j)
  let a ← M.lift (vals.rd j)
  SigSt.onU (M.wr p (uvScale * a))
  let q ← M.lift (idxs.rd (j + vecNnz))
  let b ← M.lift (vals.rd (j + vecNnz))
  SigSt.onV (M.wr q (uvScale * b))

/-- The first part of `make_signal_matrix` (examples/sparse-low-rank-approx/svd_rank1_plus_noise.cc:151-163): reserves the sparse matrix and draws two samples. `seed` is
`RNGState(0)`. The second call of `repeated_fisher_yates` gets pointers to the second halves of `work_idxs` and `work_vals`. The products
`vec_nnz * vec_nnz` and `2 * vec_nnz` are assumed to fit 64 bits. Returns `work_idxs` and `work_vals`. -/
def signalSample [Field T] (G : Gen N K W R) (m n vecNnz : Int) (seed : RNGState N K) : M (SigSt T) (Buf Int × Buf T) := do
  SigSt.onSparse (reserveCoo (vecNnz * vecNnz))
  if vecNnz < 0 then M.throw .runtime else do
    let (state, o) ← M.onLocal (repeatedFisherYates (T := T) G seed vecNnz m 1)
      { major := Buf.fill (2 * vecNnz) 0, minor := some (Buf.fill vecNnz 0), vals := some (Buf.fill (2 * vecNnz) 0) }
    let (_, o) ← M.onLocal (repeatedFisherYates G state vecNnz n 1)
      { major := o.major.shift vecNnz, minor := o.minor, vals := o.vals.map (·.shift vecNnz) }
    pure (o.major.shift (-vecNnz), (ptr o.vals).shift (-vecNnz))

/-- `make_signal_matrix` (examples/sparse-low-rank-approx/svd_rank1_plus_noise.cc:149-180). `sqrt` is `std::sqrt`. -/
def makeSignal [Field T] [BEq T] (G : Gen N K W R) (sqrt : T → T) (signalScale : T) (m n vecNnz : Int) (seed : RNGState N K) : M (SigSt T) Unit := do
  let w ← signalSample G m n vecNnz seed
  let uvScale := 1 / sqrt (vecNnz : T)
  forI 0 vecNnz (signalColumn w.1 w.2 uvScale vecNnz)
  let t ← M.get
  SigSt.onDense (blasGerCol m n signalScale t.u t.v m)

/-! ## The noise -/

/-- One entry of `iid_sparsify_random_dense` (examples/sparse-low-rank-approx/svd_rank1_plus_noise.cc:90-95); `(s + sqrt(3)) / 2.0*sqrt(3)` groups as
`((s + sqrt(3)) / 2.0) * sqrt(3)`. -/
def sparsifyEntry [Field T] [LinearOrder T] (sqrt3 p : T) (nRows sr sc : Int) (spar temp : Buf T) (i j : Int) : M (Buf T) Unit := do
  let s ← M.lift (spar.rd (i + j * nRows))
  let v := (s + sqrt3) / 2 * sqrt3
  if v < p then M.wr (i * sr + j * sc) 0
  else do
    let x ← M.lift (temp.rd (i + j * nRows))
    M.wr (i * sr + j * sc) x

/-- `iid_sparsify_random_dense` (examples/sparse-low-rank-approx/svd_rank1_plus_noise.cc:72-100). A negative array size raises an error. `sqrt3` is `std::sqrt(3)`. -/
def iidSparsify [Field T] [LinearOrder T] (s1 s2 : List Nat) (G : Gen N K W T) (sqrt3 : T) (nRows nCols sr sc : Int) (p : T) (seed : RNGState N K) :
    M (Buf T) Unit := do
  if nRows * nCols < 0 then M.throw .runtime else do
    let D ← M.lift (mkDenseDist nRows nCols .Uniform .Long)
    let (next, spar) ← M.onLocal (fillDense s1 G sqrt3 D seed) (Buf.alloc T (nRows * nCols))
    let (_, temp) ← M.onLocal (fillDense s2 G sqrt3 D next) (Buf.alloc T (nRows * nCols))
    forI 0 nRows fun i => forI 0 nCols fun j => sparsifyEntry sqrt3 p nRows sr sc spar temp i j

/-- `make_noise_matrix` (examples/sparse-low-rank-approx/svd_rank1_plus_noise.cc:183-202). `seed` is `RNGState(1)`. The state is `noise_dense` and `noise_sparse`. -/
def makeNoise [Field T] [LinearOrder T] (s1 s2 : List Nat) (G : Gen N K W T) (sqrt3 noiseScale : T) (m n : Int) (probNonzero : T) (seed : RNGState N K) :
    M (Buf T × CooMat T) Unit := do
  let probZero := 1 - probNonzero
  M.zoom Prod.fst (fun t b => (b, t.2)) (iidSparsify s1 s2 G sqrt3 m n 1 m probZero seed)
  M.zoom Prod.fst (fun t b => (b, t.2)) (blasScal (m * n) noiseScale 0 1)
  let t ← M.get
  M.zoom Prod.snd (fun t A => (t.1, A)) (denseToCoo .ColMajor t.1 0)

/-- What the first part of `main` produces: the signal, the noise, and their sums `mat_sparse` and `mat_dense`. Used to model examples/sparse-low-rank-approx/svd_rank1_plus_noise.cc:309-328. -/
structure Rank1Data (T : Type) where
  signal : SigSt T
  noise : Buf T × CooMat T
  matSparse : CooMat T
  matDense : Buf T

/-- The first part of `main` (examples/sparse-low-rank-approx/svd_rank1_plus_noise.cc:309-328): the test matrix in both forms. `new double[n]{}` is zero-initialised. -/
def rank1Data [Field T] [LinearOrder T] (s1 s2 : List Nat) (GS : Gen N K W R) (G : Gen N K W T) (order : List (Coord × T) → List (Coord × T)) (sqrt : T → T) (sqrt3 signalScale noiseScale probNonzero : T)
    (m n vecNnz : Int) (seed0 seed1 : RNGState N K) : M Unit (Rank1Data T) := do
  let (_, sg) ← M.onLocal (makeSignal GS sqrt signalScale m n vecNnz seed0)
    { u := Buf.fill m 0, v := Buf.fill n 0, dense := Buf.fill (m * n) 0, sparse := mkCoo m n }
  let (_, ns) ← M.onLocal (makeNoise s1 s2 G sqrt3 noiseScale m n probNonzero seed1) (Buf.alloc T (m * n), mkCoo m n)
  let (_, sp) ← M.onLocal (sumOfCoo order ns.2 sg.sparse) (mkCoo m n)
  let (_, d) ← M.onLocal (blasCopy (m * n) ns.1 0 1 0 1) (Buf.fill (m * n) 0)
  let (_, d) ← M.onLocal (blasAxpy (m * n) 1 sg.dense 0 1 0 1) d
  pure { signal := sg, noise := ns, matSparse := sp, matDense := d }

/-! ## Matrix Market files -/

/-- What `read_matrix_market_triplet` returns (external): the dimensions and the three vectors. Used to model examples/sparse-low-rank-approx/svd_matrixmarket.cc:82-86. -/
structure Triplets (T : Type) where
  nRows : Int
  nCols : Int
  rows : List Int
  cols : List Int
  vals : List T

/-- Element `i` of a `std::vector`; outside its range the behaviour is undefined. Used to model examples/sparse-low-rank-approx/svd_matrixmarket.cc:82-86. -/
def tripletAt {X : Type} (l : List X) (i : Int) : Res X :=
  if 0 ≤ i then (match l[i.toNat]? with | some x => .ok x | none => .ub) else .ub

/-- The loop of `from_matrix_market` (examples/sparse-low-rank-approx/svd_matrixmarket.cc:82-86), for the first `n` entries. -/
def tripletLoop (f : Triplets T) (n : Int) : M (CooBufs T) Unit :=
  forI 0 n fun i => do
    let r ← M.lift (tripletAt f.rows i)
    onCRows (M.wr i r)
    let c ← M.lift (tripletAt f.cols i)
    onCCols (M.wr i c)
    let v ← M.lift (tripletAt f.vals i)
    onCVals (M.wr i v)

/-- `from_matrix_market` (examples/sparse-low-rank-approx/svd_matrixmarket.cc:68-89, examples/sparse-low-rank-approx/qrcp_matrixmarket.cc:70-92), after the file has been read. The state becomes the matrix
that is returned. The loop counter is an `int`: it overflows if there are 2^31 or more entries. -/
def fromMatrixMarket (f : Triplets T) : M (CooMat T) Unit := do
  M.set (mkCoo f.nRows f.nCols)
  reserveCoo f.vals.length
  M.zoom CooMat.bufs CooMat.withBufs (tripletLoop f (min f.vals.length 2147483648))
  M.ubIf (2147483648 ≤ (f.vals.length : Int))

end RB
