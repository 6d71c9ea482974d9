import Verif.Props.LCG64
import Verif.Props.LCG64CountShift
import Verif.Props.Seeding
import Verif.Props.Count128
import Verif.Props.UInt128
import Verif.Props.UInt128Text
import Verif.Props.Minstd
import Verif.Props.IntMath
import Verif.Props.Gauss
import Verif.Props.MRG
import Verif.Props.LinAlg
import Verif.Props.LagFib
import Verif.Props.LagFibPeriod
import Verif.Props.Xoshiro
import Verif.Props.MT
import Verif.Props.Equality
import Verif.Props.Uniform
import Verif.Props.Discrete
import Verif.Props.DiscreteLaws
import Verif.Props.Continuous
import Verif.Props.Normal
import Verif.Props.NormalInverse
import Verif.Props.Maxwell
import Verif.Props.Correlated
import Verif.Props.Stream
import Verif.Props.XoshiroPeriod
import Verif.Props.MTPeriod
import Verif.Props.BetaFun
import Verif.Props.BetaDists
import Verif.Props.GammaFun
import Verif.Props.InvGammaFun
import Verif.Props.GammaDists
import Verif.Props.Blocks
import Verif.Props.Examples
import Verif.Props.DistText
import Verif.Props.DistObjects
import Verif.Props.MRGWritten
import Verif.Props.CudaSplit
import Verif.Props.Ising
import Verif.Props.Distribution
import Verif.Props.GammaAsympt
import Verif.Props.GammaAll
import Verif.Props.DiscreteNumeric
import Verif.Props.Rounded
import Verif.Props.RoundedDiscrete
import Verif.Props.RoundedInverse
import Verif.Props.PeriodLaw
import Verif.Props.PeriodDiscrete
import Verif.Props.LeapfrogUniform
import Verif.Props.Independence
import Verif.Props.Streams
import Verif.Props.HalfPeriod
import Verif.Props.XoshiroTriples
import Verif.Props.RoundedTable
import Verif.Props.Dieharder
import Verif.Props.Programs
import Verif.Props.DiscreteRounded
import Verif.Props.DiscreteJoint
import Verif.Props.IsingMain
import Verif.Props.AnyLeapfrog
import Verif.Props.LagFibWords
