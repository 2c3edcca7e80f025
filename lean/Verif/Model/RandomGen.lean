import Verif.Model.Base

/-!
# Model of RandBLAS/random_gen.hh

A Random123 generator is an arbitrary function from (counter, key) to an array of `len` words: nothing is
assumed about its values.
-/

namespace RB

/-- A counter-based generator with `len = ctr_type::static_size` output words (external, Random123), and the
transformations of words into scalars: `r123::boxmuller` (two words to two values) and `r123::uneg11` (one word to
one value), both including the conversion to the scalar type of the output. `nat` is the value of a word as an unsigned
integer. Used to model RandBLAS/base.hh:112. -/
structure Gen (N : Nat) (K W T : Type) where
  len : Int
  word : ZMod N → K → Int → W
  boxmuller : W → W → T × T
  uneg11 : W → T
  nat : W → Nat

/-- Every generator RandBLAS supports has 2 or 4 words (`static_assert(len_c >= 2)`, RandBLAS/base.hh:112; Philox and
Threefry come with 2 or 4). -/
def Gen.Ok {N : Nat} {K W T : Type} (G : Gen N K W T) : Prop := G.len = 2 ∨ G.len = 4

variable {N : Nat} {K W T : Type}

/-- `rng(c, k)`: the array of words. Used to model RandBLAS/random_gen.hh:145-153. -/
def Gen.words (G : Gen N K W T) (c : ZMod N) (k : K) : Buf W := Buf.ofFn G.len (G.word c k)

/-- `r123ext::boxmulall` (RandBLAS/random_gen.hh:102-117), on the freshly declared (uninitialised) output array. -/
def boxmulall (len : Int) (bm : W → W → T × T) (ri : Buf W) : M (Buf T) Unit :=
  forI 0 (len.tdiv 2) fun i => do
    let a ← M.lift (ri.rd (2 * i))
    let b ← M.lift (ri.rd (2 * i + 1))
    M.wr (2 * i) (bm a b).1
    M.wr (2 * i + 1) (bm a b).2

/-- `r123ext::boxmul::generate` (RandBLAS/random_gen.hh:145-153): the returned array. -/
def Gen.boxmulGenerate (G : Gen N K W T) (c : ZMod N) (k : K) : Res (Buf T) :=
  match boxmulall G.len G.boxmuller (G.words c k) (Buf.alloc T G.len) with
  | (.ok _, b) => .ok b
  | (.throw e, _) => .throw e
  | (.ub, _) => .ub

/-- `r123ext::uneg11::generate` (RandBLAS/random_gen.hh:173-184), via `r123::uneg11all` (external). -/
def Gen.uneg11Generate (G : Gen N K W T) (c : ZMod N) (k : K) : Res (Buf T) :=
  .ok (Buf.ofFn G.len (fun i => G.uneg11 (G.word c k i)))

end RB
