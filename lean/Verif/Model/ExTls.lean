import Verif.Model.ExLapack
import Verif.Model.Sketch

/-! # Model of examples/total-least-squares/tls_dense_skop.cc and tls_sparse_skop.cc

The two functions below are the same in both programs; lines of tls_dense_skop.cc are cited. -/

namespace RB

variable {T : Type}

/-- `init_noisy_data` (examples/total-least-squares/tls_dense_skop.cc:49-69). The state is the array AB. `fillA` and `fillEps` stand for the two calls of
`fill_dense`. The arrays `target_x` and `eps` are local. The loop indices of type `int` are modelled by integers. -/
def initNoisyData [Zero T] [One T] [Add T] [Mul T] [BEq T] (fillA fillEps : M (Buf T) Unit) (m n d : Int) : M (Buf T) Unit := do
  let (_, x) ← M.onLocal (forI 0 n fun i => M.wr i (1 : T)) (Buf.alloc T (n * d))
  fillA
  let (_, eps) ← M.onLocal fillEps (Buf.alloc T (m * d))
  let s ← M.get
  M.at (m * n) (blasGemm .ColMajor .NoTrans .NoTrans m d n 1 s 0 m x 0 n 0 0 m)
  forI 0 (m * d) fun i => do
    let y ← M.rd (m * n + i)
    let e ← M.lift (eps.rd i)
    M.wr (m * n + i) (y + e)

/-- The arrays of `total_least_squares`. Used to model examples/total-least-squares/tls_dense_skop.cc:71-90. -/
structure TlsSt (T : Type) where
  ab : Buf T
  x : Buf T
  s : Buf T
  vt : Buf T

/-- `total_least_squares` (examples/total-least-squares/tls_dense_skop.cc:71-90). -/
def totalLeastSquares [Field T] (svd : Int → Int → (Int → Int → T) → Svd T) (m n ldab : Int) : M (TlsSt T) Unit := do
  M.zoom (fun t => (⟨t.ab, t.s, fun _ => .none, t.vt⟩ : SvdSt T)) (fun t s => { t with ab := s.a, s := s.s, vt := s.vt })
    (gesddOverwrite svd m (n + 1) ldab 1 (n + 1))
  let t ← M.get
  let scale ← M.lift (t.vt.rd ((n + 1) * (n + 1) - 1))
  M.zoom TlsSt.x (fun t b => { t with x := b }) (forI 0 n fun i => do
    let v ← M.lift (t.vt.rd (n + i * (n + 1)))
    M.wr i (-v / scale))

variable {N : Nat} {K W WS R : Type}

/-- The randomised method in `main` (examples/total-least-squares/tls_dense_skop.cc:138-171): sample a Gaussian operator, sketch [A, b] and solve the
sketched problem. The state consists of the arrays SAB, sketch_x, svals and VT. `skDim` is a parameter (2*(n+1) in line 123), and so are the seed (1997)
and the number of threads. -/
def tlsSketchedDense [Field R] [LinearOrder R] [FloorRing R] [Field T] [BEq T] (E : SkEnv N K W WS R T) (svd : Int → Int → (Int → Int → T) → Svd T)
    (seed : RNGState N K) (skDim m n : Int) (AB : Buf T) : M (TlsSt T) Unit := do
  let D ← M.lift (mkDenseDist skDim m .Gaussian .Long)
  let S ← M.lift (mkDenseSkOp E.G.len D seed)
  let (_, S) ← M.onLocal (fillDenseOp E.env.sched E.G E.sqrt3) S
  M.zoom (fun t : TlsSt T => (SkOp.dense S, t.ab)) (fun t r => { t with ab := r.2 })
    (sketchGeneralLFull E .ColMajor .NoTrans .NoTrans skDim (n + 1) m 1 AB m 0 skDim)
  totalLeastSquares svd skDim n skDim

/-- The same with a short-axis sparse operator with `vecNnz` nonzeros per column (examples/total-least-squares/tls_sparse_skop.cc:140-178; 8 in line 145). -/
def tlsSketchedSparse [Field R] [LinearOrder R] [FloorRing R] [Field T] [BEq T] (E : SkEnv N K W WS R T) (svd : Int → Int → (Int → Int → T) → Svd T)
    (seed : RNGState N K) (skDim m n vecNnz : Int) (AB : Buf T) : M (TlsSt T) Unit := do
  let D ← M.lift (mkSparseDist skDim m vecNnz .Short)
  let (_, S) ← M.onLocal (fillSparse E.GS E.sqrt E.order) (mkSparseSkOp E.GS.len D seed)
  M.zoom (fun t : TlsSt T => (SkOp.sparse S, t.ab)) (fun t r => { t with ab := r.2 })
    (sketchGeneralLFull E .ColMajor .NoTrans .NoTrans skDim (n + 1) m 1 AB m 0 skDim)
  totalLeastSquares svd skDim n skDim

end RB
