import Verif.Cases.Basics
import Verif.Cases.Codes
import Verif.Cases.Estimation
import Verif.Cases.Noise
import Verif.Cases.Signals
import Verif.Cases.Systems
import Verif.Lemmas.ArgminSet
import Verif.Lemmas.Bipolar
import Verif.Lemmas.BitErrorRate
import Verif.Lemmas.BitErrors
import Verif.Lemmas.BlockRate
import Verif.Lemmas.CdrTest
import Verif.Lemmas.ChanNoise
import Verif.Lemmas.ChanTests
import Verif.Lemmas.ChanWitness
import Verif.Lemmas.Checker
import Verif.Lemmas.CodedRate
import Verif.Lemmas.Coding
import Verif.Lemmas.Conv
import Verif.Lemmas.ConvCode
import Verif.Lemmas.ConvEnc
import Verif.Lemmas.ConvExample
import Verif.Lemmas.ConvFilter
import Verif.Lemmas.ConvFloat
import Verif.Lemmas.ConvMl
import Verif.Lemmas.ConvStream
import Verif.Lemmas.ConvTests
import Verif.Lemmas.Ctle
import Verif.Lemmas.Decimate
import Verif.Lemmas.Delay
import Verif.Lemmas.DelayFreq
import Verif.Lemmas.DfeNoise
import Verif.Lemmas.EconSeed
import Verif.Lemmas.EqNoise
import Verif.Lemmas.EqTests
import Verif.Lemmas.EqTests2
import Verif.Lemmas.EqWitness
import Verif.Lemmas.ErrorRate
import Verif.Lemmas.Estim
import Verif.Lemmas.EstimPrbs
import Verif.Lemmas.EstimPrbs2
import Verif.Lemmas.Eye
import Verif.Lemmas.FalseAlarm
import Verif.Lemmas.Ffe
import Verif.Lemmas.FfeWitness
import Verif.Lemmas.FfeWitness2
import Verif.Lemmas.Filter
import Verif.Lemmas.FilterClass
import Verif.Lemmas.Float
import Verif.Lemmas.FloatDfe
import Verif.Lemmas.Framing
import Verif.Lemmas.GainLoop
import Verif.Lemmas.GainWitness
import Verif.Lemmas.GaussMoments
import Verif.Lemmas.GaussTail
import Verif.Lemmas.Gf2
import Verif.Lemmas.Gray
import Verif.Lemmas.GrayEcho
import Verif.Lemmas.InterpError
import Verif.Lemmas.Jitter
import Verif.Lemmas.LeastSq
import Verif.Lemmas.LineSpectrum
import Verif.Lemmas.Linear
import Verif.Lemmas.LinearCode
import Verif.Lemmas.LinearLaw
import Verif.Lemmas.LinkResponse
import Verif.Lemmas.ListAux
import Verif.Lemmas.Lms
import Verif.Lemmas.LmsFfe
import Verif.Lemmas.LmsStop
import Verif.Lemmas.LmsTest
import Verif.Lemmas.LmsTest2
import Verif.Lemmas.LmsTrain
import Verif.Lemmas.Lock
import Verif.Lemmas.LockTests
import Verif.Lemmas.Mapping
import Verif.Lemmas.Mismatch
import Verif.Lemmas.Noise
import Verif.Lemmas.NoiseTest
import Verif.Lemmas.Polyphase
import Verif.Lemmas.Prbs
import Verif.Lemmas.PrbsCorr
import Verif.Lemmas.PrbsData
import Verif.Lemmas.PrbsPeriod
import Verif.Lemmas.PrbsShift
import Verif.Lemmas.Psa
import Verif.Lemmas.PsaNoise
import Verif.Lemmas.Pulse
import Verif.Lemmas.PulseCurve
import Verif.Lemmas.PulseFn
import Verif.Lemmas.Quantize
import Verif.Lemmas.RefSeq
import Verif.Lemmas.RoundedDelay
import Verif.Lemmas.RoundedFilter
import Verif.Lemmas.RoundedLevels
import Verif.Lemmas.RoundedLms
import Verif.Lemmas.RoundedStats
import Verif.Lemmas.RoundedTrain
import Verif.Lemmas.Sim
import Verif.Lemmas.SimAdc
import Verif.Lemmas.SimBer
import Verif.Lemmas.SimChannel
import Verif.Lemmas.SimEq
import Verif.Lemmas.SimFull
import Verif.Lemmas.SimLink
import Verif.Lemmas.SimLinkFull
import Verif.Lemmas.SimLoop
import Verif.Lemmas.SimMain
import Verif.Lemmas.Slicer
import Verif.Lemmas.Spline
import Verif.Lemmas.Survivor
import Verif.Lemmas.SurvivorBlock
import Verif.Lemmas.SurvivorFix
import Verif.Lemmas.SurvivorMl
import Verif.Lemmas.SurvivorRun
import Verif.Lemmas.Symbol
import Verif.Lemmas.SymbolReal
import Verif.Lemmas.TestPower
import Verif.Lemmas.TestSignal
import Verif.Lemmas.Timing
import Verif.Lemmas.Trellis
import Verif.Lemmas.Viterbi
import Verif.Lemmas.ViterbiCode
import Verif.Model.Basic
import Verif.Model.CdrAssert
import Verif.Model.CdrTest
import Verif.Model.ChanTests
import Verif.Model.ChannelScripts
import Verif.Model.Checker
import Verif.Model.Coding
import Verif.Model.Coding2
import Verif.Model.CodingTests
import Verif.Model.Conv
import Verif.Model.ConvErr
import Verif.Model.ConvTests
import Verif.Model.Ctle
import Verif.Model.Delay
import Verif.Model.EqTests
import Verif.Model.Estim
import Verif.Model.EstimPrbs
import Verif.Model.ExampleRuns
import Verif.Model.Eye
import Verif.Model.Ffe
import Verif.Model.Filter
import Verif.Model.FilterClass
import Verif.Model.Framing
import Verif.Model.Jitter
import Verif.Model.Lasso
import Verif.Model.LeastSq
import Verif.Model.Linear
import Verif.Model.Lms
import Verif.Model.LmsStop
import Verif.Model.LmsTests
import Verif.Model.LmsTrain
import Verif.Model.LockTests
import Verif.Model.LockWith
import Verif.Model.MainTests
import Verif.Model.Mapping
import Verif.Model.Noise
import Verif.Model.NoiseTest
import Verif.Model.Prbs
import Verif.Model.PrbsData
import Verif.Model.PrbsTests
import Verif.Model.Psa
import Verif.Model.PsaWindow
import Verif.Model.Pulse
import Verif.Model.Rounded
import Verif.Model.RoundedDelay
import Verif.Model.RoundedFilter
import Verif.Model.RoundedLevels
import Verif.Model.RoundedRx
import Verif.Model.RoundedStats
import Verif.Model.RoundedTrain
import Verif.Model.Sim
import Verif.Model.SimFull
import Verif.Model.SimLink
import Verif.Model.SimMain
import Verif.Model.SimState
import Verif.Model.Slicer
import Verif.Model.Spline
import Verif.Model.Symbol
import Verif.Model.SymbolReal
import Verif.Model.SymbolTests
import Verif.Model.Tensor
import Verif.Model.TensorCode
import Verif.Model.TestSignal
import Verif.Props.BitErrorRate
import Verif.Props.BitErrors
import Verif.Props.BlockRate
import Verif.Props.CdrAssert
import Verif.Props.CdrTest
import Verif.Props.ChanNoise
import Verif.Props.ChanTests
import Verif.Props.ChanTestsNeg
import Verif.Props.ChannelScripts
import Verif.Props.Checker
import Verif.Props.CodedRate
import Verif.Props.Coding
import Verif.Props.Coding2
import Verif.Props.CodingTests
import Verif.Props.Conv
import Verif.Props.ConvDec
import Verif.Props.ConvFilter
import Verif.Props.ConvTests
import Verif.Props.Ctle
import Verif.Props.Decimate
import Verif.Props.Delay
import Verif.Props.DelayError
import Verif.Props.DfeNoise
import Verif.Props.EconSeed
import Verif.Props.EqNoise
import Verif.Props.EqNoiseLms
import Verif.Props.EqNoiseTrain
import Verif.Props.EqTests
import Verif.Props.EqTestsNeg
import Verif.Props.ErrorRate
import Verif.Props.Estim
import Verif.Props.EstimPrbs
import Verif.Props.Eye
import Verif.Props.FalseAlarm
import Verif.Props.Ffe
import Verif.Props.Filter
import Verif.Props.Float
import Verif.Props.Framing
import Verif.Props.GenieChecker
import Verif.Props.Jitter
import Verif.Props.Lasso
import Verif.Props.LeastSq
import Verif.Props.LeastSqNoise
import Verif.Props.LineErrors
import Verif.Props.LineSpectrum
import Verif.Props.Linear
import Verif.Props.Lms
import Verif.Props.LmsStop
import Verif.Props.LmsTests
import Verif.Props.LmsTestsNeg
import Verif.Props.LmsTrain
import Verif.Props.LockNoise
import Verif.Props.LockTests
import Verif.Props.MainTests
import Verif.Props.Mapping
import Verif.Props.Noise
import Verif.Props.NoiseTest
import Verif.Props.Observed
import Verif.Props.Polyphase
import Verif.Props.Prbs
import Verif.Props.PrbsShift
import Verif.Props.PrbsTests
import Verif.Props.Psa
import Verif.Props.PsaNoise
import Verif.Props.PsaNoiseC
import Verif.Props.PsaWindow
import Verif.Props.Pulse
import Verif.Props.QuantNoise
import Verif.Props.RoundedDelay
import Verif.Props.RoundedFilter
import Verif.Props.RoundedLevels
import Verif.Props.RoundedMemory
import Verif.Props.RoundedRx
import Verif.Props.RoundedRxPrbs
import Verif.Props.RoundedStats
import Verif.Props.RoundedTrain
import Verif.Props.RxNoise
import Verif.Props.Sim
import Verif.Props.SimAdc
import Verif.Props.SimBer
import Verif.Props.SimChannel
import Verif.Props.SimChannelDefault
import Verif.Props.SimEq
import Verif.Props.SimEqualized
import Verif.Props.SimFeedback
import Verif.Props.SimFull
import Verif.Props.SimLink
import Verif.Props.SimLinkNoise
import Verif.Props.SimMain
import Verif.Props.SimState
import Verif.Props.Slicer
import Verif.Props.Spline
import Verif.Props.Survivor
import Verif.Props.Symbol
import Verif.Props.SymbolReal
import Verif.Props.SymbolTests
import Verif.Props.Tensor
import Verif.Props.TensorCode
import Verif.Props.TestPower
import Verif.Props.TestPower2
import Verif.Props.TestSignal
import Verif.Props.Timing
import Verif.Props.TimingWeights
import Verif.Props.Total
import Verif.Spec.BitRate
import Verif.Spec.BlockRate
import Verif.Spec.Checker
import Verif.Spec.CodedRate
import Verif.Spec.Coding
import Verif.Spec.Conv
import Verif.Spec.ConvTests
import Verif.Spec.Ctle
import Verif.Spec.DfeNoise
import Verif.Spec.EconSeed
import Verif.Spec.EqNoise
import Verif.Spec.EqTests
import Verif.Spec.Estim
import Verif.Spec.EstimPrbs
import Verif.Spec.Eye
import Verif.Spec.FalseAlarm
import Verif.Spec.Ffe
import Verif.Spec.Filter
import Verif.Spec.Float
import Verif.Spec.FloatProd
import Verif.Spec.FloatSum
import Verif.Spec.FloatTrain
import Verif.Spec.Framing
import Verif.Spec.GainLoop
import Verif.Spec.GaussTail
import Verif.Spec.Jitter
import Verif.Spec.Lasso
import Verif.Spec.LeastSq
import Verif.Spec.LineSpectrum
import Verif.Spec.Linear
import Verif.Spec.Lms
import Verif.Spec.LmsTrain
import Verif.Spec.LockNoise
import Verif.Spec.Matrix2
import Verif.Spec.Noise
import Verif.Spec.Polyphase
import Verif.Spec.Prbs
import Verif.Spec.Psa
import Verif.Spec.PsaNoise
import Verif.Spec.Pulse
import Verif.Spec.QuantNoise
import Verif.Spec.RoundedRx
import Verif.Spec.RxNoise
import Verif.Spec.Sim
import Verif.Spec.SimEqualized
import Verif.Spec.SimFull
import Verif.Spec.Slicer
import Verif.Spec.Spline
import Verif.Spec.Survivor
import Verif.Spec.Symbol
import Verif.Spec.Tensor
import Verif.Spec.TestPower
import Verif.Spec.Timing
