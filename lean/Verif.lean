import Verif.Core.Res
import Verif.Core.Loop
import Verif.Model.Base
import Verif.Lemmas.SafeInt
import Verif.Props.SafeInt
import Verif.Spec.Mat
import Verif.Model.Blas
import Verif.Model.Util
import Verif.Lemmas.Mat
import Verif.Lemmas.Util
import Verif.Props.Util
import Verif.Core.Par
import Verif.Model.RandomGen
import Verif.Model.DenseSkops
import Verif.Spec.Dense
import Verif.Lemmas.Dense
import Verif.Props.Dense
import Verif.Core.Wpx
import Verif.Model.FisherYates
import Verif.Lemmas.FisherYates
import Verif.Props.FisherYates
import Verif.Model.Sampling
import Verif.Spec.Sampling
import Verif.Lemmas.Sampling
import Verif.Props.Sampling
import Verif.Model.SparseSkops
import Verif.Spec.Coo
import Verif.Spec.Sparse
import Verif.Lemmas.Sparse
import Verif.Lemmas.SparseRun
import Verif.Props.Sparse
import Verif.Model.Isometry
import Verif.Props.Isometry
import Verif.Model.SparseData
import Verif.Spec.SparseData
import Verif.Lemmas.SparseData
import Verif.Lemmas.Convert
import Verif.Props.SparseData
import Verif.Lemmas.DenseSparse
import Verif.Props.DenseSparse
import Verif.Core.ProgWp
import Verif.Core.Wlp
import Verif.Model.Spmm
import Verif.Spec.Spmm
import Verif.Lemmas.Spmm
import Verif.Lemmas.SpmmCsc
import Verif.Lemmas.SpmmCoo
import Verif.Lemmas.SpmmRun
import Verif.Props.Spmm
import Verif.Model.Sketch
import Verif.Model.Memory
import Verif.Spec.Sketch
import Verif.Lemmas.Sketch
import Verif.Props.Sketch
import Verif.Props.SketchFill
import Verif.Props.SketchApi
import Verif.Spec.Memory
import Verif.Lemmas.Memory
import Verif.Props.Memory
import Verif.Model.RngWords
import Verif.Props.RngWords
import Verif.Model.Print
import Verif.Spec.Print
import Verif.Props.Print
import Verif.Spec.Rounding
import Verif.Props.Rounding
import Verif.Model.Dense64
import Verif.Lemmas.Dense64
import Verif.Props.Dense64
import Verif.Model.Sparse64
import Verif.Lemmas.Sparse64
import Verif.Props.Sparse64
import Verif.Props.FyBias
import Verif.Props.IsometryAvg
import Verif.Props.IsometryLong
import Verif.Props.IsometryDense
import Verif.Core.Doom
import Verif.Lemmas.SpmmUndef
import Verif.Props.SpmmExact
import Verif.Model.HrLapack
import Verif.Lemmas.Upd
import Verif.Lemmas.Chol
import Verif.Spec.Lapack
import Verif.Lemmas.CholMath
import Verif.Props.Cholesky
import Verif.Lemmas.Tri
import Verif.Lemmas.QrMath
import Verif.Lemmas.Qr
import Verif.Props.Qr
import Verif.Model.HrEig
import Verif.Lemmas.Eig
import Verif.Lemmas.Power
import Verif.Props.Eig
import Verif.Model.ExTls
import Verif.Spec.Examples
import Verif.Lemmas.ExMath
import Verif.Lemmas.ExLapack
import Verif.Props.Tls
import Verif.Model.ExLowRank
import Verif.Props.SumCoo
import Verif.Lemmas.MatBridge
import Verif.Lemmas.Qb
import Verif.Lemmas.OrthExists
import Verif.Props.Qb
import Verif.Props.QbSvd
import Verif.Model.ExQrcp
import Verif.Spec.Qrcp
import Verif.Props.ColSwap
import Verif.Lemmas.Qrcp
import Verif.Props.Tqrcp
import Verif.Model.ExStab
import Verif.Spec.Stab
import Verif.Lemmas.Stab
import Verif.Lemmas.LqExists
import Verif.Props.Stab
import Verif.Props.PowIter
import Verif.Lemmas.Moments
import Verif.Props.Distortion
import Verif.Props.SketchDist
import Verif.Lemmas.Fourth
import Verif.Lemmas.LogMid
import Verif.Props.DistortionDense
import Verif.Props.SketchDistDense
import Verif.Lemmas.Embed
import Verif.Props.Embedding
import Verif.Lemmas.SvdExists
import Verif.Props.TlsSketch
import Verif.Props.LowRank
import Verif.Props.SketchUpdates
import Verif.Props.Independence
import Verif.Props.Precision
import Verif.Props.ScaleZero
import Verif.Lemmas.FourthLong
import Verif.Props.DistortionLong
import Verif.Props.SketchDistLong
import Verif.Lemmas.SubGauss
import Verif.Lemmas.WordMgf
import Verif.Lemmas.DenseMgf
import Verif.Props.JL
import Verif.Lemmas.Net
import Verif.Props.Oblivious
import Verif.Props.ObliviousApps
import Verif.Model.Random123
import Verif.Lemmas.Random123
import Verif.Lemmas.Random123Conv
import Verif.Props.Random123
import Verif.Spec.Nearest
import Verif.Model.Random123Float
import Verif.Lemmas.Nearest
import Verif.Lemmas.Random123Float
import Verif.Props.Random123Float
import Verif.Props.RoundingDense
import Verif.Props.SamplingFloat
import Verif.Lemmas.DenseEmpty
import Verif.Props.SketchEmpty
import Verif.Core.ParOutcome
import Verif.Lemmas.SpmmOutcome
import Verif.Props.SpmmSchedule
import Verif.Lemmas.DenseNegative
import Verif.Props.NegativeOffsets
import Verif.Props.DistMembers
import Verif.Model.Spmm64
import Verif.Lemmas.Spmm64
import Verif.Props.Spmm64
import Verif.Model.Sketch64
import Verif.Props.Sketch64
import Verif.Props.PowLu
import Verif.Model.ConjOps
import Verif.Spec.ConjOps
import Verif.Props.ConjOps
import Verif.Props.StabExact
import Verif.Model.ExData
import Verif.Spec.ExData
import Verif.Lemmas.ExData
import Verif.Props.ExSignal
import Verif.Props.ExNoise
import Verif.Model.Shared
import Verif.Spec.Shared
import Verif.Lemmas.Shared
import Verif.Props.Shared
import Verif.Model.Util64
import Verif.Spec.Util64
import Verif.Lemmas.Util64
import Verif.Props.Util64
import Verif.Props.Convert64
import Verif.Model.StatTests
import Verif.Spec.StatTests
import Verif.Props.StatCritical
import Verif.Props.StatKs
import Verif.Props.StatHyper
import Verif.Props.StatFy
import Verif.Props.VectorLaw
import Verif.Props.VectorLawShort
import Verif.Props.RoundingVec
import Verif.Props.SkSpSub
import Verif.Model.TestCompare
import Verif.Props.TestCompare
import Verif.Props.AxisLaw
import Verif.Props.VecNnzOne
import Verif.Lemmas.FullRank
import Verif.Props.FullRank
import Verif.Props.LowRankExact
import Verif.Lemmas.PairsRank
import Verif.Model.ExQrcpRun
import Verif.Props.QrcpExact
import Verif.Model.TestLinop
import Verif.Spec.TestLinop
import Verif.Lemmas.TestLinop
import Verif.Props.TestLinop
import Verif.Props.TestEye
import Verif.Props.TestLibrary
import Verif.Lemmas.PowerConv
import Verif.Spec.TestDistortion
import Verif.Model.TestDistortion
import Verif.Model.TestDistortionSizes
import Verif.Props.PowerConv
import Verif.Props.TestDistortion
import Verif.Props.TestDistortionProb
import Verif.Props.TestDistortionSizes
import Verif.Model.TestLinopMore
import Verif.Props.TestLinopMore
import Verif.Model.TestSpmats
import Verif.Props.TestSpmats
import Verif.Model.TestConversions
import Verif.Props.TestConversions
import Verif.Lemmas.LasoPure
import Verif.Props.FillDeterminism
import Verif.Model.TestSparseskop
import Verif.Props.TestSparseskop
import Verif.Spec.TestWindow
import Verif.Props.TestLibraryMore
import Verif.Model.Messages
import Verif.Spec.Messages
import Verif.Props.Messages
import Verif.Model.TestDenseskop
import Verif.Lemmas.TestDense
import Verif.Props.TestDenseskop
import Verif.Props.SketchOther
import Verif.Model.TestSketch
import Verif.Props.TestSketch
import Verif.Model.TestSketchSparse
import Verif.Props.TestSketchSparse
import Verif.Model.TestHrLapack
import Verif.Props.TestHrLapack
import Verif.Props.TestHrEig
import Verif.Model.TestSpmm
import Verif.Spec.TestSpmm
import Verif.Props.TestSpmm
import Verif.Props.TestSpmmFixtures
import Verif.Model.TestSkge
import Verif.Spec.TestSkge
import Verif.Props.TestSkge
import Verif.Props.TestSkgeFixtures
import Verif.Props.TestSkgeAll
import Verif.Model.TestHistogram
import Verif.Spec.TestHistogram
import Verif.Props.TestHistogram
import Verif.Model.TestMoments
import Verif.Model.TestSampling
import Verif.Spec.TestMoments
import Verif.Spec.TestSampling
import Verif.Props.TestMoments
import Verif.Props.TestSampling
import Verif.Model.TestSamplingFy
import Verif.Spec.TestSamplingFy
import Verif.Props.TestSamplingFy
import Verif.Model.TestContinuous
import Verif.Spec.TestContinuous
import Verif.Props.TestContinuous
import Verif.Model.TestIO
import Verif.Props.TestIO
