import Verif.Lemmas.Random123Conv
import Verif.Props.ObliviousApps

/-!
# C98: the generators of Random123

For every key and every number of rounds the block function of Philox and Threefry is a bijection of the counters. So a state never yields the same block twice within
its period, the counter ranges of C04 are ranges of different blocks, and no two vectors of a dense operator, or of an operator and its successor, are equal. The exact
conversions to real numbers satisfy the assumptions of C83, C94, C96 and C97. The last theorem says what the probabilistic theorems idealise: for a fixed key, blocks at
different counters are not independent, since they never coincide.
-/

namespace RB
open Spec
variable {w lenC lenK : Nat} {block : Words w lenC → Words w lenK → Words w lenC}

/-! ## Known answers -/

/-- The known answers for philox2x32 (test/test_basic_rng/r123_kat_vectors.txt). -/
example :
    philox2 philox2x32C 7 ⟨0x00000000#32, 0x00000000#32⟩ 0x00000000#32 = ⟨0x257a3673#32, 0xcd26be2a#32⟩ ∧
    philox2 philox2x32C 7 ⟨0xffffffff#32, 0xffffffff#32⟩ 0xffffffff#32 = ⟨0xab302c4d#32, 0x3dc9d239#32⟩ ∧
    philox2 philox2x32C 7 ⟨0x243f6a88#32, 0x85a308d3#32⟩ 0x13198a2e#32 = ⟨0xbedbbe6b#32, 0xe4c770b3#32⟩ ∧
    philox2 philox2x32C 10 ⟨0x00000000#32, 0x00000000#32⟩ 0x00000000#32 = ⟨0xff1dae59#32, 0x6cd10df2#32⟩ ∧
    philox2 philox2x32C 10 ⟨0xffffffff#32, 0xffffffff#32⟩ 0xffffffff#32 = ⟨0x2c3f628b#32, 0xab4fd7ad#32⟩ ∧
    philox2 philox2x32C 10 ⟨0x243f6a88#32, 0x85a308d3#32⟩ 0x13198a2e#32 = ⟨0xdd7ce038#32, 0xf62a4c12#32⟩ := by decide +kernel

/-- The known answers for philox4x32 (test/test_basic_rng/r123_kat_vectors.txt). -/
example :
    philox4 philox4x32C 7 ⟨0x00000000#32, 0x00000000#32, 0x00000000#32, 0x00000000#32⟩ ⟨0x00000000#32, 0x00000000#32⟩ = ⟨0x5f6fb709#32, 0x0d893f64#32, 0x4f121f81#32, 0x4f730a48#32⟩ ∧
    philox4 philox4x32C 7 ⟨0xffffffff#32, 0xffffffff#32, 0xffffffff#32, 0xffffffff#32⟩ ⟨0xffffffff#32, 0xffffffff#32⟩ = ⟨0x5207ddc2#32, 0x45165e59#32, 0x4d8ee751#32, 0x8c52f662#32⟩ ∧
    philox4 philox4x32C 7 ⟨0x243f6a88#32, 0x85a308d3#32, 0x13198a2e#32, 0x03707344#32⟩ ⟨0xa4093822#32, 0x299f31d0#32⟩ = ⟨0x4dfccaba#32, 0x190a87f0#32, 0xc47362ba#32, 0xb6b5242a#32⟩ ∧
    philox4 philox4x32C 10 ⟨0x00000000#32, 0x00000000#32, 0x00000000#32, 0x00000000#32⟩ ⟨0x00000000#32, 0x00000000#32⟩ = ⟨0x6627e8d5#32, 0xe169c58d#32, 0xbc57ac4c#32, 0x9b00dbd8#32⟩ ∧
    philox4 philox4x32C 10 ⟨0xffffffff#32, 0xffffffff#32, 0xffffffff#32, 0xffffffff#32⟩ ⟨0xffffffff#32, 0xffffffff#32⟩ = ⟨0x408f276d#32, 0x41c83b0e#32, 0xa20bc7c6#32, 0x6d5451fd#32⟩ ∧
    philox4 philox4x32C 10 ⟨0x243f6a88#32, 0x85a308d3#32, 0x13198a2e#32, 0x03707344#32⟩ ⟨0xa4093822#32, 0x299f31d0#32⟩ = ⟨0xd16cfe09#32, 0x94fdcceb#32, 0x5001e420#32, 0x24126ea1#32⟩ := by decide +kernel

/-- The known answers for philox2x64 (test/test_basic_rng/r123_kat_vectors.txt). -/
example :
    philox2 philox2x64C 7 ⟨0x0000000000000000#64, 0x0000000000000000#64⟩ 0x0000000000000000#64 = ⟨0xb41da69fbfefc666#64, 0x511e9ce1a5534056#64⟩ ∧
    philox2 philox2x64C 7 ⟨0xffffffffffffffff#64, 0xffffffffffffffff#64⟩ 0xffffffffffffffff#64 = ⟨0xa4696cc04462015d#64, 0x724782dae17169e9#64⟩ ∧
    philox2 philox2x64C 7 ⟨0x243f6a8885a308d3#64, 0x13198a2e03707344#64⟩ 0xa4093822299f31d0#64 = ⟨0x98ed1534392bf372#64, 0x67528b1568882fd5#64⟩ ∧
    philox2 philox2x64C 10 ⟨0x0000000000000000#64, 0x0000000000000000#64⟩ 0x0000000000000000#64 = ⟨0xca00a0459843d731#64, 0x66c24222c9a845b5#64⟩ ∧
    philox2 philox2x64C 10 ⟨0xffffffffffffffff#64, 0xffffffffffffffff#64⟩ 0xffffffffffffffff#64 = ⟨0x65b021d60cd8310f#64, 0x4d02f3222f86df20#64⟩ ∧
    philox2 philox2x64C 10 ⟨0x243f6a8885a308d3#64, 0x13198a2e03707344#64⟩ 0xa4093822299f31d0#64 = ⟨0x0a5e742c2997341c#64, 0xb0f883d38000de5d#64⟩ := by decide +kernel

/-- The known answers for philox4x64 (test/test_basic_rng/r123_kat_vectors.txt). -/
example :
    philox4 philox4x64C 7 ⟨0x0000000000000000#64, 0x0000000000000000#64, 0x0000000000000000#64, 0x0000000000000000#64⟩ ⟨0x0000000000000000#64, 0x0000000000000000#64⟩ = ⟨0x5dc8ee6268ec62cd#64, 0x139bc570b6c125a0#64, 0x84d6deb4fb65f49e#64, 0xaff7583376d378c2#64⟩ ∧
    philox4 philox4x64C 7 ⟨0xffffffffffffffff#64, 0xffffffffffffffff#64, 0xffffffffffffffff#64, 0xffffffffffffffff#64⟩ ⟨0xffffffffffffffff#64, 0xffffffffffffffff#64⟩ = ⟨0x071dd84367903154#64, 0x48e2bbdc722b37d1#64, 0x6afa9890bb89f76c#64, 0x9194c8d8ada56ac7#64⟩ ∧
    philox4 philox4x64C 7 ⟨0x243f6a8885a308d3#64, 0x13198a2e03707344#64, 0xa4093822299f31d0#64, 0x082efa98ec4e6c89#64⟩ ⟨0x452821e638d01377#64, 0xbe5466cf34e90c6c#64⟩ = ⟨0x513a366704edf755#64, 0xf05d9924c07044d3#64, 0xbef2cb9cbea74c6c#64, 0x8db948de4caa1f8a#64⟩ ∧
    philox4 philox4x64C 10 ⟨0x0000000000000000#64, 0x0000000000000000#64, 0x0000000000000000#64, 0x0000000000000000#64⟩ ⟨0x0000000000000000#64, 0x0000000000000000#64⟩ = ⟨0x16554d9eca36314c#64, 0xdb20fe9d672d0fdc#64, 0xd7e772cee186176b#64, 0x7e68b68aec7ba23b#64⟩ ∧
    philox4 philox4x64C 10 ⟨0xffffffffffffffff#64, 0xffffffffffffffff#64, 0xffffffffffffffff#64, 0xffffffffffffffff#64⟩ ⟨0xffffffffffffffff#64, 0xffffffffffffffff#64⟩ = ⟨0x87b092c3013fe90b#64, 0x438c3c67be8d0224#64, 0x9cc7d7c69cd777b6#64, 0xa09caebf594f0ba0#64⟩ ∧
    philox4 philox4x64C 10 ⟨0x243f6a8885a308d3#64, 0x13198a2e03707344#64, 0xa4093822299f31d0#64, 0x082efa98ec4e6c89#64⟩ ⟨0x452821e638d01377#64, 0xbe5466cf34e90c6c#64⟩ = ⟨0xa528f45403e61d95#64, 0x38c72dbd566e9788#64, 0xa5a1610e72fd18b5#64, 0x57bd43b5e52b7fe6#64⟩ := by decide +kernel

/-- The known answers for threefry2x32 (test/test_basic_rng/r123_kat_vectors.txt). -/
example :
    threefry2 threefry2x32C ⟨0x00000000#32, 0x00000000#32⟩ 13 ⟨0x00000000#32, 0x00000000#32⟩ = ⟨0x9d1c5ec6#32, 0x8bd50731#32⟩ ∧
    threefry2 threefry2x32C ⟨0xffffffff#32, 0xffffffff#32⟩ 13 ⟨0xffffffff#32, 0xffffffff#32⟩ = ⟨0xfd36d048#32, 0x2d17272c#32⟩ ∧
    threefry2 threefry2x32C ⟨0x13198a2e#32, 0x03707344#32⟩ 13 ⟨0x243f6a88#32, 0x85a308d3#32⟩ = ⟨0xba3e4725#32, 0xf27d669e#32⟩ ∧
    threefry2 threefry2x32C ⟨0x00000000#32, 0x00000000#32⟩ 20 ⟨0x00000000#32, 0x00000000#32⟩ = ⟨0x6b200159#32, 0x99ba4efe#32⟩ ∧
    threefry2 threefry2x32C ⟨0xffffffff#32, 0xffffffff#32⟩ 20 ⟨0xffffffff#32, 0xffffffff#32⟩ = ⟨0x1cb996fc#32, 0xbb002be7#32⟩ ∧
    threefry2 threefry2x32C ⟨0x13198a2e#32, 0x03707344#32⟩ 20 ⟨0x243f6a88#32, 0x85a308d3#32⟩ = ⟨0xc4923a9c#32, 0x483df7a0#32⟩ ∧
    threefry2 threefry2x32C ⟨0x00000000#32, 0x00000000#32⟩ 32 ⟨0x00000000#32, 0x00000000#32⟩ = ⟨0xcee3d47e#32, 0xa23dfd5c#32⟩ ∧
    threefry2 threefry2x32C ⟨0xffffffff#32, 0xffffffff#32⟩ 32 ⟨0xffffffff#32, 0xffffffff#32⟩ = ⟨0x6e2fe0d0#32, 0xb1b76f82#32⟩ ∧
    threefry2 threefry2x32C ⟨0x13198a2e#32, 0x03707344#32⟩ 32 ⟨0x243f6a88#32, 0x85a308d3#32⟩ = ⟨0xe2827716#32, 0xc3c05cdf#32⟩ := by decide +kernel

/-- The known answers for threefry4x32 (test/test_basic_rng/r123_kat_vectors.txt). -/
example :
    threefry4 threefry4x32C ⟨0x00000000#32, 0x00000000#32, 0x00000000#32, 0x00000000#32⟩ 13 ⟨0x00000000#32, 0x00000000#32, 0x00000000#32, 0x00000000#32⟩ = ⟨0x531c7e4f#32, 0x39491ee5#32, 0x2c855a92#32, 0x3d6abf9a#32⟩ ∧
    threefry4 threefry4x32C ⟨0xffffffff#32, 0xffffffff#32, 0xffffffff#32, 0xffffffff#32⟩ 13 ⟨0xffffffff#32, 0xffffffff#32, 0xffffffff#32, 0xffffffff#32⟩ = ⟨0xc4189358#32, 0x1c9cc83a#32, 0xd5881c67#32, 0x6a0a89e0#32⟩ ∧
    threefry4 threefry4x32C ⟨0xa4093822#32, 0x299f31d0#32, 0x082efa98#32, 0xec4e6c89#32⟩ 13 ⟨0x243f6a88#32, 0x85a308d3#32, 0x13198a2e#32, 0x03707344#32⟩ = ⟨0x4aa71d8f#32, 0x734738c2#32, 0x431fc6a8#32, 0xae6debf1#32⟩ ∧
    threefry4 threefry4x32C ⟨0x00000000#32, 0x00000000#32, 0x00000000#32, 0x00000000#32⟩ 20 ⟨0x00000000#32, 0x00000000#32, 0x00000000#32, 0x00000000#32⟩ = ⟨0x9c6ca96a#32, 0xe17eae66#32, 0xfc10ecd4#32, 0x5256a7d8#32⟩ ∧
    threefry4 threefry4x32C ⟨0xffffffff#32, 0xffffffff#32, 0xffffffff#32, 0xffffffff#32⟩ 20 ⟨0xffffffff#32, 0xffffffff#32, 0xffffffff#32, 0xffffffff#32⟩ = ⟨0x2a881696#32, 0x57012287#32, 0xf6c7446e#32, 0xa16a6732#32⟩ ∧
    threefry4 threefry4x32C ⟨0xa4093822#32, 0x299f31d0#32, 0x082efa98#32, 0xec4e6c89#32⟩ 20 ⟨0x243f6a88#32, 0x85a308d3#32, 0x13198a2e#32, 0x03707344#32⟩ = ⟨0x59cd1dbb#32, 0xb8879579#32, 0x86b5d00c#32, 0xac8b6d84#32⟩ ∧
    threefry4 threefry4x32C ⟨0x00000000#32, 0x00000000#32, 0x00000000#32, 0x00000000#32⟩ 72 ⟨0x00000000#32, 0x00000000#32, 0x00000000#32, 0x00000000#32⟩ = ⟨0x93171da6#32, 0x9220326d#32, 0xb392b7b1#32, 0xff58a002#32⟩ ∧
    threefry4 threefry4x32C ⟨0xffffffff#32, 0xffffffff#32, 0xffffffff#32, 0xffffffff#32⟩ 72 ⟨0xffffffff#32, 0xffffffff#32, 0xffffffff#32, 0xffffffff#32⟩ = ⟨0x60743f3d#32, 0x9961e684#32, 0xaab21c34#32, 0x8c65fb7d#32⟩ ∧
    threefry4 threefry4x32C ⟨0xa4093822#32, 0x299f31d0#32, 0x082efa98#32, 0xec4e6c89#32⟩ 72 ⟨0x243f6a88#32, 0x85a308d3#32, 0x13198a2e#32, 0x03707344#32⟩ = ⟨0x09930adf#32, 0x7f27bd55#32, 0x9ed68ce1#32, 0x97f803f6#32⟩ := by decide +kernel

/-- The known answers for threefry2x64 (test/test_basic_rng/r123_kat_vectors.txt). -/
example :
    threefry2 threefry2x64C ⟨0x0000000000000000#64, 0x0000000000000000#64⟩ 13 ⟨0x0000000000000000#64, 0x0000000000000000#64⟩ = ⟨0xf167b032c3b480bd#64, 0xe91f9fee4b7a6fb5#64⟩ ∧
    threefry2 threefry2x64C ⟨0xffffffffffffffff#64, 0xffffffffffffffff#64⟩ 13 ⟨0xffffffffffffffff#64, 0xffffffffffffffff#64⟩ = ⟨0xccdec5c917a874b1#64, 0x4df53abca26ceb01#64⟩ ∧
    threefry2 threefry2x64C ⟨0xa4093822299f31d0#64, 0x082efa98ec4e6c89#64⟩ 13 ⟨0x243f6a8885a308d3#64, 0x13198a2e03707344#64⟩ = ⟨0xc3aac71561042993#64, 0x3fe7ae8801aff316#64⟩ ∧
    threefry2 threefry2x64C ⟨0x0000000000000000#64, 0x0000000000000000#64⟩ 20 ⟨0x0000000000000000#64, 0x0000000000000000#64⟩ = ⟨0xc2b6e3a8c2c69865#64, 0x6f81ed42f350084d#64⟩ ∧
    threefry2 threefry2x64C ⟨0xffffffffffffffff#64, 0xffffffffffffffff#64⟩ 20 ⟨0xffffffffffffffff#64, 0xffffffffffffffff#64⟩ = ⟨0xe02cb7c4d95d277a#64, 0xd06633d0893b8b68#64⟩ ∧
    threefry2 threefry2x64C ⟨0xa4093822299f31d0#64, 0x082efa98ec4e6c89#64⟩ 20 ⟨0x243f6a8885a308d3#64, 0x13198a2e03707344#64⟩ = ⟨0x263c7d30bb0f0af1#64, 0x56be8361d3311526#64⟩ ∧
    threefry2 threefry2x64C ⟨0x0000000000000000#64, 0x0000000000000000#64⟩ 32 ⟨0x0000000000000000#64, 0x0000000000000000#64⟩ = ⟨0x38ba854d7f13cfb3#64, 0xd02fca729d54fadc#64⟩ ∧
    threefry2 threefry2x64C ⟨0xffffffffffffffff#64, 0xffffffffffffffff#64⟩ 32 ⟨0xffffffffffffffff#64, 0xffffffffffffffff#64⟩ = ⟨0x6b532f4f6e288646#64, 0x0388f1ec135ee18e#64⟩ ∧
    threefry2 threefry2x64C ⟨0xa4093822299f31d0#64, 0x082efa98ec4e6c89#64⟩ 32 ⟨0x243f6a8885a308d3#64, 0x13198a2e03707344#64⟩ = ⟨0xdad492f32efbd0c4#64, 0xb6d7d0cd1f193e84#64⟩ := by decide +kernel

/-- The known answers for threefry4x64 (test/test_basic_rng/r123_kat_vectors.txt). -/
example :
    threefry4 threefry4x64C ⟨0x0000000000000000#64, 0x0000000000000000#64, 0x0000000000000000#64, 0x0000000000000000#64⟩ 13 ⟨0x0000000000000000#64, 0x0000000000000000#64, 0x0000000000000000#64, 0x0000000000000000#64⟩ = ⟨0x4071fabee1dc8e05#64, 0x02ed3113695c9c62#64, 0x397311b5b89f9d49#64, 0xe21292c3258024bc#64⟩ ∧
    threefry4 threefry4x64C ⟨0xffffffffffffffff#64, 0xffffffffffffffff#64, 0xffffffffffffffff#64, 0xffffffffffffffff#64⟩ 13 ⟨0xffffffffffffffff#64, 0xffffffffffffffff#64, 0xffffffffffffffff#64, 0xffffffffffffffff#64⟩ = ⟨0x7eaed935479722b5#64, 0x90994358c429f31c#64, 0x496381083e07a75b#64, 0x627ed0d746821121#64⟩ ∧
    threefry4 threefry4x64C ⟨0x452821e638d01377#64, 0xbe5466cf34e90c6c#64, 0xc0ac29b7c97c50dd#64, 0x3f84d5b5b5470917#64⟩ 13 ⟨0x243f6a8885a308d3#64, 0x13198a2e03707344#64, 0xa4093822299f31d0#64, 0x082efa98ec4e6c89#64⟩ = ⟨0x4361288ef9c1900c#64, 0x8717291521782833#64, 0x0d19db18c20cf47e#64, 0xa0b41d63ac8581e5#64⟩ ∧
    threefry4 threefry4x64C ⟨0x0000000000000000#64, 0x0000000000000000#64, 0x0000000000000000#64, 0x0000000000000000#64⟩ 20 ⟨0x0000000000000000#64, 0x0000000000000000#64, 0x0000000000000000#64, 0x0000000000000000#64⟩ = ⟨0x09218ebde6c85537#64, 0x55941f5266d86105#64, 0x4bd25e16282434dc#64, 0xee29ec846bd2e40b#64⟩ ∧
    threefry4 threefry4x64C ⟨0xffffffffffffffff#64, 0xffffffffffffffff#64, 0xffffffffffffffff#64, 0xffffffffffffffff#64⟩ 20 ⟨0xffffffffffffffff#64, 0xffffffffffffffff#64, 0xffffffffffffffff#64, 0xffffffffffffffff#64⟩ = ⟨0x29c24097942bba1b#64, 0x0371bbfb0f6f4e11#64, 0x3c231ffa33f83a1c#64, 0xcd29113fde32d168#64⟩ ∧
    threefry4 threefry4x64C ⟨0x452821e638d01377#64, 0xbe5466cf34e90c6c#64, 0xbe5466cf34e90c6c#64, 0xc0ac29b7c97c50dd#64⟩ 20 ⟨0x243f6a8885a308d3#64, 0x13198a2e03707344#64, 0xa4093822299f31d0#64, 0x082efa98ec4e6c89#64⟩ = ⟨0xa7e8fde591651bd9#64, 0xbaafd0c30138319b#64, 0x84a5c1a729e685b9#64, 0x901d406ccebc1ba4#64⟩ ∧
    threefry4 threefry4x64C ⟨0x0000000000000000#64, 0x0000000000000000#64, 0x0000000000000000#64, 0x0000000000000000#64⟩ 72 ⟨0x0000000000000000#64, 0x0000000000000000#64, 0x0000000000000000#64, 0x0000000000000000#64⟩ = ⟨0x94eeea8b1f2ada84#64, 0xadf103313eae6670#64, 0x952419a1f4b16d53#64, 0xd83f13e63c9f6b11#64⟩ ∧
    threefry4 threefry4x64C ⟨0xffffffffffffffff#64, 0xffffffffffffffff#64, 0xffffffffffffffff#64, 0xffffffffffffffff#64⟩ 72 ⟨0xffffffffffffffff#64, 0xffffffffffffffff#64, 0xffffffffffffffff#64, 0xffffffffffffffff#64⟩ = ⟨0x11518c034bc1ff4c#64, 0x193f10b8bcdcc9f7#64, 0xd024229cb58f20d8#64, 0x563ed6e48e05183f#64⟩ ∧
    threefry4 threefry4x64C ⟨0x452821e638d01377#64, 0xbe5466cf34e90c6c#64, 0xbe5466cf34e90c6c#64, 0xc0ac29b7c97c50dd#64⟩ 72 ⟨0x243f6a8885a308d3#64, 0x13198a2e03707344#64, 0xa4093822299f31d0#64, 0x082efa98ec4e6c89#64⟩ = ⟨0xacf412ccaa3b2270#64, 0xc9e99bd53f2e9173#64, 0x43dad469dc825948#64, 0xfbb19d06c8a2b4dc#64⟩ := by decide +kernel

/-! ## C98 -/

/-- C98. For every key, the block is a bijective function of the counter: it takes every value exactly once in a period. -/
theorem C98_bijective (h : IsRng w lenC lenK block) (k : Words w lenK) : Function.Bijective fun c => block c k :=
  Finite.injective_iff_bijective.mp (isRng_injective h k)

/-- C98. Two different increments of a state, each an unsigned 64-bit integer, lead to different blocks. -/
theorem C98_incr (h : IsRng w lenC lenK block) (s : RNGWords w lenC w lenK) {a b : Int} (ha : 0 ≤ a) (hb : 0 ≤ b) (ha' : a < 2 ^ 64) (hb' : b < 2 ^ 64) (hab : a ≠ b) :
    block (s.incr a).counter (s.incr a).key ≠ block (s.incr b).counter (s.incr b).key := by
  intro he
  have he' := isRng_injective h s.key he
  obtain ⟨hw, hl⟩ := isRng_len h
  have h1 := congrArg vecVal he'
  have e : ∀ n : Int, 0 ≤ n → n < 2 ^ 64 → toU64 n = n.toNat := fun n h0 h1 => by unfold toU64; rw [Int.emod_eq_of_lt h0 h1]
  simp only [RNGWords.incr] at h1
  rw [vecVal_incr (by omega) (by omega) (by rw [e a ha ha']; omega), vecVal_incr (by omega) (by omega) (by rw [e b hb hb']; omega), e a ha ha', e b hb hb'] at h1
  have hper : 2 ^ 64 ≤ 2 ^ (w * lenC) := Nat.pow_le_pow_right (by norm_num) (by rcases hw with rfl | rfl <;> rcases hl with rfl | rfl <;> norm_num)
  have h2 : a.toNat ≡ b.toNat [MOD 2 ^ (w * lenC)] := Nat.ModEq.add_left_cancel' _ h1
  have h3 := Nat.ModEq.eq_of_lt_of_lt h2 (by omega) (by omega)
  omega

/-- C98. If the counter is uniformly distributed and the key is fixed, the words of the block are independent and uniformly distributed. -/
theorem C98_uniform (h : IsRng w lenC lenK block) (k : Words w lenK) (P : Words w lenC → Prop) : Pr (fun c => P (block c k)) = Pr P :=
  pr_equiv (Equiv.ofBijective _ (C98_bijective h k)) P

/-- C98. The generator of the other model files, at the state that represents `s` there (C45), gives the words of the block of `s`. -/
theorem C98_word (s : RNGWords w lenC w lenK) (i : Fin lenC) :
    (r123Gen block).word (RNGWords.abs s).counter (RNGWords.abs s).key (i : Nat) = (block s.counter s.key).get i := by
  show ((block (ctrWords ((vecVal s.counter : Nat) : ZMod _)) s.key).toList[(((i : Nat) : Int)).toNat]?).getD 0 = _
  rw [ctrWords_abs, Int.toNat_natCast, List.getElem?_eq_getElem (by rw [List.Vector.toList_length]; exact i.2), Option.getD_some, List.Vector.get_eq_get_toList]
  rfl

/-- The hypotheses are met by the default generator, and its blocks after 0 and 1 increments of the state with key 7. -/
example : IsRng 32 4 2 defaultBlock ∧ (0 : Int) ≤ 1 ∧ (1 : Int) < 2 ^ 64 ∧
    (defaultBlock (RNGWords.ofKey 7 : RNGWords 32 4 32 2).counter (RNGWords.ofKey 7 : RNGWords 32 4 32 2).key).toList = [4099963437#32, 3221879260#32, 490388034#32, 367897730#32] ∧
    (defaultBlock ((RNGWords.ofKey 7 : RNGWords 32 4 32 2).incr 1).counter (RNGWords.ofKey 7 : RNGWords 32 4 32 2).key).toList = [1747881627#32, 3415718931#32, 737869675#32, 4113952422#32] := by
  refine ⟨.philox4x32 10, by decide, by decide, ?_⟩
  decide +kernel

/-- Entry `p` of major-axis vector `q` of an operator: vectors are rows if the natural layout is row-major and columns if it is column-major. -/
def Spec.majorVec (D : DenseDist) (A : Int → Int → ℝ) (q p : Int) : ℝ :=
  match D.naturalLayout with
  | .RowMajor => A q p
  | .ColMajor => A p q

theorem r123Gen_ok (h : IsRng w lenC lenK block) : (r123Gen block).Ok := by
  obtain ⟨-, hl⟩ := isRng_len h
  rcases hl with rfl | rfl
  · exact Or.inl rfl
  · exact Or.inr rfl

/-- A major-axis vector begins with the values of a block. -/
theorem majorVec_eq (h : IsRng w lenC lenK block) {D : DenseDist} (hD : DenseDistOk D) {seed : RNGState (2 ^ (w * lenC)) (Words w lenK)} {A : Int → Int → ℝ}
    (hA : Samples (r123Gen block) (Real.sqrt 3) D seed A) (hlen : lenC ≤ D.dimMajor) {q p : Int} (hq0 : 0 ≤ q) (hq1 : q < D.dimMinor) (hp0 : 0 ≤ p) (hp1 : p < lenC) :
    majorVec D A q p = famScale D.family (Real.sqrt 3)
      (genValue (r123Gen block) D.family (seed.counter + ((q * countersPerVector lenC D.dimMajor : Int) : ZMod _)) seed.key p) := by
  obtain ⟨hR, hC, -, hlay⟩ := denseDist_facts hD
  have hraw : denseRaw (r123Gen block) D.family D.dimMajor seed q p =
      genValue (r123Gen block) D.family (seed.counter + ((q * countersPerVector lenC D.dimMajor : Int) : ZMod _)) seed.key p := by
    unfold denseRaw
    show genValue _ _ (seed.counter + ((q * countersPerVector lenC D.dimMajor + p / lenC : Int) : ZMod _)) _ (p % lenC) = _
    rw [Int.ediv_eq_zero_of_lt hp0 hp1, Int.emod_eq_of_lt hp0 hp1, add_zero]
  have hu := fun i j => samples_unique (i := i) (j := j) (r123Gen_ok h) hD hA
  unfold majorVec
  rcases hlay with ⟨a, b, c⟩ | ⟨a, b, c⟩
  all_goals
    rw [a]
    simp only
    rw [hu _ _ ⟨by omega, by omega, by omega, by omega⟩]
    unfold denseEntry
    rw [a]
    simp only [hraw]

theorem famScale_injective (fam : ScalarDist) {x y : ℝ} (h : famScale fam (Real.sqrt 3) x = famScale fam (Real.sqrt 3) y) : x = y := by
  cases fam with
  | Gaussian => exact h
  | Uniform => exact mul_left_cancel₀ (by positivity) h

/-- Two starting points of vectors in the first `n` counters after the seed differ. -/
theorem ctr_ne {N : Nat} {c : ZMod N} {a b : Int} (ha : 0 ≤ a) (hb : 0 ≤ b) (ha' : a < N) (hb' : b < N) (hab : a ≠ b) : c + (a : ZMod N) ≠ c + (b : ZMod N) := by
  intro h
  rw [add_right_inj, ZMod.intCast_eq_intCast_iff] at h
  unfold Int.ModEq at h
  rw [Int.emod_eq_of_lt ha ha', Int.emod_eq_of_lt hb hb'] at h
  exact hab h

theorem countersPerVector_bounds {L n : Int} (hL : 0 < L) (hn : 0 < n) : 0 < countersPerVector L n ∧ countersPerVector L n ≤ n := by
  unfold countersPerVector
  constructor
  · have := Int.ediv_le_ediv hL (show L ≤ n + L - 1 by omega)
    rw [Int.ediv_self (by omega)] at this
    omega
  · have : n + L - 1 ≤ n * L := by nlinarith
    calc (n + L - 1) / L ≤ (n * L) / L := Int.ediv_le_ediv hL this
      _ = n := Int.mul_ediv_cancel _ (by omega)

theorem denseDist_minor {D : DenseDist} (hD : DenseDistOk D) : 0 < D.dimMajor ∧ 0 < D.dimMinor ∧ D.dimMinor * D.dimMajor ≤ intMax 64 := by
  obtain ⟨hR, hC, hfit, hlay⟩ := denseDist_facts hD
  have := hD.2
  rcases hlay with ⟨_, b, c⟩ | ⟨_, b, c⟩ <;> rw [b, c]
  · exact ⟨hR, hC, by rw [mul_comm]; exact this⟩
  · exact ⟨hC, hR, this⟩

theorem period_ge (h : IsRng w lenC lenK block) : (2 : Int) ^ 64 ≤ ((2 ^ (w * lenC) : Nat) : Int) := by
  obtain ⟨hw, hl⟩ := isRng_len h
  exact_mod_cast Nat.pow_le_pow_right (by norm_num) (show 64 ≤ w * lenC by rcases hw with rfl | rfl <;> rcases hl with rfl | rfl <;> norm_num)

/-- C98. Two different major-axis vectors of a dense operator of either family are not equal, if they are at least as long as a block: they differ within the first
`lenC` entries. -/
theorem C98_vectors_distinct (h : IsRng w lenC lenK block) {D : DenseDist} (hD : DenseDistOk D) {seed : RNGState (2 ^ (w * lenC)) (Words w lenK)} {A : Int → Int → ℝ}
    (hA : Samples (r123Gen block) (Real.sqrt 3) D seed A) (hlen : lenC ≤ D.dimMajor) {q q' : Int} (hq0 : 0 ≤ q) (hq1 : q < D.dimMinor) (hq0' : 0 ≤ q') (hq1' : q' < D.dimMinor)
    (hne : q ≠ q') : ∃ p : Int, 0 ≤ p ∧ p < lenC ∧ majorVec D A q p ≠ majorVec D A q' p := by
  obtain ⟨hM, hm, hfit⟩ := denseDist_minor hD
  obtain ⟨-, hl⟩ := isRng_len h
  obtain ⟨c0, c1⟩ := countersPerVector_bounds (L := lenC) (n := D.dimMajor) (by omega) hM
  have hper := period_ge h
  have hmax : intMax 64 < 2 ^ 64 := by decide
  have hb : ∀ q, 0 ≤ q → q < D.dimMinor → 0 ≤ q * countersPerVector lenC D.dimMajor ∧ q * countersPerVector lenC D.dimMajor < ((2 ^ (w * lenC) : Nat) : Int) := by
    intro q h0 h1
    refine ⟨by positivity, ?_⟩
    have : q * countersPerVector lenC D.dimMajor ≤ D.dimMinor * D.dimMajor := mul_le_mul h1.le c1 c0.le (by omega)
    omega
  obtain ⟨p, h0, h1, h2⟩ := group_differs h D.family seed.key (ctr_ne (c := seed.counter) (hb q hq0 hq1).1 (hb q' hq0' hq1').1 (hb q hq0 hq1).2 (hb q' hq0' hq1').2
    fun e => hne (mul_right_cancel₀ c0.ne' e))
  refine ⟨p, h0, h1, ?_⟩
  rw [majorVec_eq h hD hA hlen hq0 hq1 h0 h1, majorVec_eq h hD hA hlen hq0' hq1' h0 h1]
  exact fun e => h2 (famScale_injective _ e)

/-- C98. No major-axis vector of an operator agrees with a major-axis vector of an operator of the same family seeded with its `next_state`: they differ within the
first `lenC` entries. -/
theorem C98_next_operator (h : IsRng w lenC lenK block) {D D' : DenseDist} (hD : DenseDistOk D) (hD' : DenseDistOk D') (hfam : D'.family = D.family)
    {seed : RNGState (2 ^ (w * lenC)) (Words w lenK)} {S : DenseSkOp (2 ^ (w * lenC)) (Words w lenK) ℝ} (hS : mkDenseSkOp lenC D seed = .ok S) {A A' : Int → Int → ℝ}
    (hA : Samples (r123Gen block) (Real.sqrt 3) D seed A) (hA' : Samples (r123Gen block) (Real.sqrt 3) D' S.nextState A') (hlen : lenC ≤ D.dimMajor) (hlen' : lenC ≤ D'.dimMajor)
    {q q' : Int} (hq0 : 0 ≤ q) (hq1 : q < D.dimMinor) (hq0' : 0 ≤ q') (hq1' : q' < D'.dimMinor) :
    ∃ p : Int, 0 ≤ p ∧ p < lenC ∧ majorVec D A q p ≠ majorVec D' A' q' p := by
  obtain ⟨hM, hm, hfit⟩ := denseDist_minor hD
  obtain ⟨hM', hm', hfit'⟩ := denseDist_minor hD'
  obtain ⟨-, hl⟩ := isRng_len h
  obtain ⟨c0, c1⟩ := countersPerVector_bounds (L := lenC) (n := D.dimMajor) (by omega) hM
  obtain ⟨c0', c1'⟩ := countersPerVector_bounds (L := lenC) (n := D'.dimMajor) (by omega) hM'
  have hper := period_ge h
  have hmax : intMax 64 + intMax 64 < 2 ^ 64 := by decide
  have hnext : S.nextState = ⟨seed.counter + ((D.dimMinor * countersPerVector lenC D.dimMajor : Int) : ZMod _), seed.key⟩ := by
    unfold mkDenseSkOp at hS
    rw [denseNextState_eq (by omega) hD] at hS
    cases hS
    rfl
  have e1 : q * countersPerVector lenC D.dimMajor < D.dimMinor * countersPerVector lenC D.dimMajor := mul_lt_mul_of_pos_right hq1 c0
  have e2 : D.dimMinor * countersPerVector lenC D.dimMajor ≤ D.dimMinor * D.dimMajor := mul_le_mul_of_nonneg_left c1 hm.le
  have e3 : q' * countersPerVector lenC D'.dimMajor ≤ D'.dimMinor * D'.dimMajor := mul_le_mul hq1'.le c1' c0'.le (by omega)
  have e4 : 0 ≤ q * countersPerVector lenC D.dimMajor := by positivity
  have e5 : 0 ≤ q' * countersPerVector lenC D'.dimMajor := by positivity
  obtain ⟨p, h0, h1, h2⟩ := group_differs h D.family seed.key (ctr_ne (c := seed.counter) (a := q * countersPerVector lenC D.dimMajor)
    (b := D.dimMinor * countersPerVector lenC D.dimMajor + q' * countersPerVector lenC D'.dimMajor) e4 (by omega) (by omega) (by omega) (by omega))
  refine ⟨p, h0, h1, ?_⟩
  rw [majorVec_eq h hD hA hlen hq0 hq1 h0 h1, majorVec_eq h hD' hA' hlen' hq0' hq1' h0 h1, hfam, hnext]
  simp only
  rw [add_assoc, ← Int.cast_add]
  exact fun e => h2 (famScale_injective _ e)

/-- The hypotheses are met by a 2 x 5 operator followed by a 2 x 5 operator. -/
example : ∃ (S : DenseSkOp (2 ^ (32 * 4)) (Words 32 2) ℝ) (A A' : Int → Int → ℝ), IsRng 32 4 2 defaultBlock ∧ DenseDistOk exGauss ∧ exGauss.family = exGauss.family ∧
    mkDenseSkOp (4 : Nat) exGauss ⟨0, zeroWords 32 2⟩ = .ok S ∧ Samples (r123Gen defaultBlock) (Real.sqrt 3) exGauss ⟨0, zeroWords 32 2⟩ A ∧
    Samples (r123Gen defaultBlock) (Real.sqrt 3) exGauss S.nextState A' ∧ (4 : Nat) ≤ exGauss.dimMajor ∧ (0 : Int) ≤ 1 ∧ 1 < exGauss.dimMinor := by
  have hD : DenseDistOk exGauss := ⟨by decide, by decide⟩
  have hr : IsRng 32 4 2 defaultBlock := .philox4x32 10
  exact ⟨_, _, _, hr, hD, rfl, rfl, samples_denseEntry (r123Gen_ok hr) hD, samples_denseEntry (r123Gen_ok hr) hD, by decide, by decide, by decide⟩

/-- C98. The exact conversions of the words of these generators satisfy the assumptions of C83 (and so of C84, C85 and C86), with `M = 2^w`. -/
theorem C98_words (h : IsRng w lenC lenK block) :
    WordsOk (r123Gen block) .Uniform (1 - 1 / ((2 ^ w : Nat) : ℝ) ^ 2) ((1 - 1 / ((2 ^ w : Nat) : ℝ) ^ 2) ^ 2) ∧
    (∃ v, 1 - (2 + Real.log (2 * (2 ^ w : Nat))) / (2 * (2 ^ w : Nat)) ≤ v ∧ v ≤ 1 ∧ WordsOk (r123Gen block) .Gaussian v 1) ∧
    ∀ family, SubGaussianWords (r123Gen block) family := by
  obtain ⟨hw, -⟩ := isRng_len h
  have hw0 : 0 < w := by omega
  obtain ⟨m8, hm, hM⟩ : ∃ m8, 8 ≤ m8 ∧ 2 ^ w = 4 * (2 * m8) := by
    rcases hw with rfl | rfl
    · exact ⟨2 ^ 29, by norm_num, by norm_num⟩
    · exact ⟨2 ^ 61, by norm_num, by norm_num⟩
  have hbm : IsBoxMuller (r123Gen block) (r123Gen block).uneg11 fun x => Real.sqrt (-2 * Real.log ((((unsignedEquiv w x : Nat) : ℝ) + 1 / 2) / (2 ^ w : Nat))) := by
    intro x y
    simp only [← u01R_mid]
    rfl
  obtain ⟨h1, h2⟩ := C83_words (G := r123Gen block) (m8 := m8) (by omega) hM (signedEquiv w) (unsignedEquiv w) (uneg11R_mid hw0) hbm
  exact ⟨h1, h2, C94_words (G := r123Gen block) hm hM (signedEquiv w) (unsignedEquiv w) (uneg11R_mid hw0) hbm⟩

/-- C98 (limit of the probabilistic theorems). For independent uniform words, the blocks at two given counters coincide with probability `2^(-w lenC)`; those of these
generators, for the same key, never do, whatever the distribution of the key. -/
theorem C98_not_independent [NeZero lenC] (h : IsRng w lenC lenK block) {c c' : ZMod (2 ^ (w * lenC))} (hc : c ≠ c') :
    Pr (fun k : Words w lenK => block (ctrWords c) k = block (ctrWords c') k) = 0 ∧
    Pr (fun ω : ZMod (2 ^ (w * lenC)) × ZMod lenC → BitVec w => ∀ t, ω (c, t) = ω (c', t)) = 1 / 2 ^ (w * lenC) := by
  classical
  constructor
  · rw [pr_eq, Finset.filter_false_of_mem fun k _ e => hc (ctrWords_injective (isRng_injective h k e))]
    simp
  · have e1 := pr_equiv (Equiv.curry (ZMod (2 ^ (w * lenC))) (ZMod lenC) (BitVec w)) (fun ω => ω c = ω c')
    have e2 : (fun ω : ZMod (2 ^ (w * lenC)) × ZMod lenC → BitVec w => ∀ t, ω (c, t) = ω (c', t)) = fun ω => (Equiv.curry _ _ _ ω) c = (Equiv.curry _ _ _ ω) c' := by
      funext ω
      rw [funext_iff]
      rfl
    rw [e2, e1, pr_eval2 hc (fun x y => x = y), pr_eq]
    have e3 : (Finset.univ.filter fun z : (ZMod lenC → BitVec w) × (ZMod lenC → BitVec w) => z.1 = z.2).card = Fintype.card (ZMod lenC → BitVec w) := by
      rw [← Finset.card_univ]
      refine Finset.card_bij (fun z _ => z.1) (fun _ _ => Finset.mem_univ _) ?_ fun x _ => ⟨(x, x), by simp, rfl⟩
      rintro ⟨a, b⟩ h1 ⟨a', b'⟩ h2 e
      simp only [Finset.mem_filter, Finset.mem_univ, true_and] at h1 h2 e
      rw [← h1, ← h2, e]
    have e4 : Fintype.card (ZMod lenC → BitVec w) = 2 ^ (w * lenC) := by
      rw [Fintype.card_fun, ZMod.card, Fintype.card_congr (unsignedEquiv w), Fintype.card_fin, ← pow_mul]
    rw [e3, Fintype.card_prod, e4]
    push_cast
    field_simp

/-- The hypotheses are met by the default generator and the first two counters. -/
example : NeZero 4 ∧ IsRng 32 4 2 defaultBlock ∧ (0 : ZMod (2 ^ (32 * 4))) ≠ 1 := ⟨inferInstance, .philox4x32 10, by decide⟩

end RB
