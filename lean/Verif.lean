import Verif.Proof.Stage
import Verif.Model.Arith
import Verif.Props.Factory
import Verif.Proof.MixedRun
import Verif.Proof.SixDFT
import Verif.Props.Complex
import Verif.Props.Real
import Verif.Props.DCT
import Verif.Props.Bluestein
import Verif.Model.Bluestein
import Verif.Props.Memory
import Verif.Props.Paths
import Verif.Props.Limits
import Verif.Props.Failure
import Verif.Props.Raw
import Verif.Props.Pool
import Verif.Props.Threads
import Verif.Props.Simd
import Verif.Props.Lengths
import Verif.Spec.Float
import Verif.Proof.Round
import Verif.Proof.RoundTab
import Verif.Proof.ApLaws
import Verif.Proof.ApOut
import Verif.Proof.ApMixed
import Verif.Proof.RoundLaws
import Verif.Props.Accuracy
import Verif.Props.AccuracyReal
import Verif.Props.AccuracyBlue
import Verif.Model.Public
import Verif.Spec.Public
import Verif.Proof.Public
import Verif.Props.Public
import Verif.Spec.Hom
import Verif.Proof.Hom
import Verif.Proof.HomTarget
import Verif.Proof.Dbl
import Verif.Props.Hom
import Verif.Props.Poison
import Verif.Model.ComplexT
import Verif.Spec.ComplexT
import Verif.Props.ComplexT
import Verif.Model.SimdArray
import Verif.Spec.SimdArray
import Verif.Props.SimdArray
import Verif.Spec.Work
import Verif.Proof.Work
import Verif.Proof.WorkAlgo
import Verif.Proof.WorkMixed
import Verif.Proof.WorkObj
import Verif.Proof.WorkLow
import Verif.Proof.WorkLife
import Verif.Props.Work
import Verif.Spec.Identities
import Verif.Proof.Identities
import Verif.Proof.Peak
import Verif.Props.Identities
import Verif.Props.Peak
import Verif.Proof.Odd
import Verif.Proof.Stuck
import Verif.Proof.OddDCT
import Verif.Proof.OddHist
import Verif.Props.Odd
import Verif.Proof.L2
import Verif.Proof.L2Stage
import Verif.Proof.L2Out
import Verif.Proof.L2Mixed
import Verif.Proof.L2Real
import Verif.Proof.Product
import Verif.Props.AccuracyRms
import Verif.Spec.Rnd53
import Verif.Proof.MySqrt
import Verif.Proof.MySqrtRound
import Verif.Proof.Newton
import Verif.Props.UnitScale
import Verif.Spec.Binary64
import Verif.Proof.Binary64
import Verif.Props.Ieee
import Verif.Props.Mirror
import Verif.Props.AccuracyRmsReal
import Verif.Props.Convolution
import Verif.Spec.Sign
import Verif.Proof.Sign
import Verif.Proof.TimesI
import Verif.Props.Sign
import Verif.Proof.Normal
import Verif.Props.Normal
import Verif.Proof.Impulse
import Verif.Props.Impulse
import Verif.Props.ConvolutionReal
import Verif.Props.AccuracyRmsBlue
import Verif.Props.Silence
import Verif.Props.Helpers
import Verif.Props.RealImpulse
import Verif.Props.NormalReal
import Verif.Spec.Kernel
import Verif.Props.Kernels
import Verif.Spec.NearIdentities
import Verif.Props.NearIdentities
import Verif.Props.Agree
import Verif.Spec.Libm
import Verif.Spec.Flags
import Verif.Proof.Par
import Verif.Proof.ParTarget
import Verif.Proof.Flags
import Verif.Props.Flags
import Verif.Props.FlagsAccuracy
import Verif.Props.FlagsExact
import Verif.Proof.Exact64
import Verif.Props.Exact64
import Verif.Spec.SumTree
import Verif.Proof.DC
import Verif.Props.DC
import Verif.Proof.Trips
import Verif.Props.Drift
import Verif.Props.Mean
import Verif.Props.InverseOne
import Verif.Props.FlagsRms
import Verif.Props.Nyquist
import Verif.Props.Short
import Verif.Props.Resample
import Verif.Props.RealExact
import Verif.Props.Half
import Verif.Props.Alternate
import Verif.Props.Quarter
import Verif.Props.Reverse
import Verif.Props.PeakBlue
import Verif.Props.DoubledCosine
import Verif.Props.TwoForOne
import Verif.Props.Plane
import Verif.Props.Correlate
import Verif.Props.Inner
