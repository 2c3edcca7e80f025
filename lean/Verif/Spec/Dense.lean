import Verif.Model.DenseSkops
import Verif.Spec.Mat

/-!
# Specification: what a dense operator is

Entry (i, j) of the operator sampled from `D` with a seed, as a formula: along the major axis consecutive entries are the
successive words of successive counters, and every major-axis vector starts at a fresh counter.
-/

namespace RB.Spec
variable {N : Nat} {K W T : Type}

/-- Word `i` of the array the generator gives at counter `c`, turned into a scalar of the family. -/
def genValue (G : Gen N K W T) (family : ScalarDist) (c : ZMod N) (k : K) (i : Int) : T :=
  match family with
  | .Uniform => G.uneg11 (G.word c k i)
  | .Gaussian =>
    let p := G.boxmuller (G.word c k (2 * (i / 2))) (G.word c k (2 * (i / 2) + 1))
    if i % 2 = 0 then p.1 else p.2

/-- Number of counters used by one vector of length `n`: n / len rounded up. -/
def countersPerVector (len n : Int) : Int := (n + len - 1) / len

/-- Position `p` of major-axis vector number `q`. -/
def denseRaw (G : Gen N K W T) (family : ScalarDist) (dimMajor : Int) (seed : RNGState N K) (q p : Int) : T :=
  genValue G family (seed.counter + ((q * countersPerVector G.len dimMajor + p / G.len : Int) : ZMod N)) seed.key (p % G.len)

/-- Scaling of the uniform family to variance one. -/
def famScale [Mul T] (family : ScalarDist) (sqrt3 x : T) : T :=
  match family with
  | .Gaussian => x
  | .Uniform => sqrt3 * x

/-- Entry (i, j) of the operator. -/
def denseEntry [Mul T] (G : Gen N K W T) (sqrt3 : T) (D : DenseDist) (seed : RNGState N K) (i j : Int) : T :=
  famScale D.family sqrt3
    (match D.naturalLayout with
     | .ColMajor => denseRaw G D.family D.dimMajor seed j i
     | .RowMajor => denseRaw G D.family D.dimMajor seed i j)

/-- The distribution is one its constructor can return, and its number of entries is a 64-bit integer. -/
def DenseDistOk (D : DenseDist) : Prop :=
  mkDenseDist D.nRows D.nCols D.family D.majorAxis = .ok D ∧ D.nRows * D.nCols ≤ intMax 64

/-- The leading dimension of a tightly packed matrix. -/
def tightLd (layout : Layout) (m n : Int) : Int :=
  match layout with
  | .ColMajor => m
  | .RowMajor => n

end RB.Spec
