import Verif.Model.Random123

/-! The conversions of Random123 with floating-point rounding. -/

namespace RB

variable {w : Nat}

/-- `r123::uneg11<Ftype>` (Random123 uniform.hpp, called through RandBLAS/random_gen.hh:143-153) with a rounding of every operation: the conversion of the signed word to `Ftype`,
the product with `factor` and the sum with `halffactor`. `Ftype` is `float` for words of 32 bits and `double` for words of 64 bits. `factor = 1/(max + 1)` is exactly `2^(1-w)` in
`Ftype`, because the conversion of `max = 2^(w-1) - 1` rounds up to `2^(w-1)`, and adding 1 rounds back to it. -/
noncomputable def uneg11Fl (rnd : ℝ → ℝ) (x : BitVec w) : ℝ :=
  rnd (rnd (rnd (x.toInt : ℝ) * (1 / 2 ^ (w - 1))) + 1 / 2 * (1 / 2 ^ (w - 1)))

/-- `r123::u01<Ftype>` (Random123 uniform.hpp) with a rounding of every operation. External (Random123), included at RandBLAS/random_gen.hh:75-87. -/
noncomputable def u01Fl (rnd : ℝ → ℝ) (x : BitVec w) : ℝ :=
  rnd (rnd (rnd (x.toNat : ℝ) * (1 / 2 ^ w)) + 1 / 2 * (1 / 2 ^ w))

/-- `r123::boxmuller` (Random123 boxmuller.hpp) with rounded conversions of the two words. Simplification: the logarithm, the square root, the sine and cosine and the products are
exact. External (Random123), included at RandBLAS/random_gen.hh:75-87. -/
noncomputable def boxmullerFl (rnd : ℝ → ℝ) (u0 u1 : BitVec w) : ℝ × ℝ :=
  let r := Real.sqrt (-2 * Real.log (u01Fl rnd u1))
  (r * Real.sin (Real.pi * uneg11Fl rnd u0), r * Real.cos (Real.pi * uneg11Fl rnd u0))

/-- The generator whose words are those of `block`, with rounded conversions. The operations that follow (`(x + 1)/2` and `n * u` in `sample_indices_iid_uniform`,
RandBLAS/util.hh:434-437 and 490-491) stay exact in the model; `C99_double_exact` shows that this is what the code computes for 32-bit words and `n <= 2^20`. -/
noncomputable def flGen {w lenC lenK : Nat} (rnd : ℝ → ℝ) (block : Words w lenC → Words w lenK → Words w lenC) :
    Gen (2 ^ (w * lenC)) (Words w lenK) (BitVec w) ℝ :=
  { r123Gen block with uneg11 := uneg11Fl rnd, boxmuller := boxmullerFl rnd }

end RB
