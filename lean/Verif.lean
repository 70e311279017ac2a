import Verif.Props.Fir
import Verif.Props.Iir
import Verif.Props.Rank
import Verif.Props.RankOrder
import Verif.Props.Pid
import Verif.Props.Goertzel
import Verif.Props.Exponential
import Verif.Props.Adaptive
import Verif.Props.AdaptiveStream
import Verif.Props.Tables
import Verif.Props.Fourier
import Verif.Props.Psd
import Verif.Props.ComplexTransform
import Verif.Props.ZTransform
import Verif.Props.Window
import Verif.Props.IirDesign
import Verif.Props.FirDesign
import Verif.Props.Response
import Verif.Props.IirDelay
import Verif.Props.IirState
import Verif.Props.PolyRate
import Verif.Props.Polyphase
import Verif.Props.Wavelet
import Verif.Props.Diversity
import Verif.Props.Gaussian
import Verif.Props.Log
import Verif.Props.Rest
import Verif.Props.Serial
import Verif.Props.Hilbert
import Verif.Props.Rounding
import Verif.Props.FirSystem
import Verif.Props.Spectral
import Verif.Props.DiversityMaps
import Verif.Props.GaussianMaps
import Verif.Props.Sequences
import Verif.Props.Bilinear
import Verif.Lemmas.Impulse
import Verif.Props.Impulse
import Verif.Props.WaveletLinear
import Verif.Props.Butterworth
import Verif.Props.ButterworthCascade
import Verif.Props.Chebyshev
import Verif.Props.Mirror
import Verif.Props.Posterior
import Verif.Props.RateLinear
import Verif.Props.RateError
import Verif.Props.Distance
import Verif.Props.Moments
import Verif.Props.WindowShape
import Verif.Props.PidLaw
import Verif.Props.LogText
import Verif.Props.Accuracy
import Verif.Props.Bessel
import Verif.Props.Rejects
import Verif.Props.Selectivity
import Verif.Props.FrequencyRange
import Verif.Props.TrainingSet
import Verif.Props.RankEdges
import Verif.Props.Differences
import Verif.Props.ToneSpectrum
import Verif.Props.ChebyshevCutoff
import Verif.Props.PolyphaseBank
import Verif.Props.PolyphaseSystem
import Verif.Props.FirCutoff
import Verif.Props.RoundingSum
import Verif.Props.Nan
import Verif.Props.Aliasing
import Verif.Props.Noise
import Verif.Model.PolyphaseThreads
import Verif.Props.PolyphaseThreads
import Verif.Props.MixtureSamples
import Verif.Props.RateRounded
import Verif.Props.Refused
import Verif.Props.Reset
import Verif.Props.Assign
import Verif.Props.RateCompose
import Verif.Props.DiversityClear
import Verif.Model.FilterThreads
import Verif.Props.FilterThreads
import Verif.Props.PolyphaseRate
import Verif.Model.DiversityNan
import Verif.Props.DiversityNan
import Verif.Props.ComplexNan
import Verif.Props.SerialText
import Verif.Model.Dtype
import Verif.Props.Dtype
import Verif.Model.NanParameter
import Verif.Props.NanParameter
import Verif.Props.BesselCutoff
import Verif.Props.WaveletEnergy
import Verif.Props.DiversityDrift
import Verif.Props.ComplexFilter
import Verif.Props.PolyphaseTone
import Verif.Props.FrequencyNoise
import Verif.Props.ComplexType
import Verif.Props.Int64
import Verif.Props.Sweep
import Verif.Props.GoertzelRounding
import Verif.Props.ComplexRounded
import Verif.Props.PidLoop
import Verif.Props.PsdPower
import Verif.Props.Infinite
import Verif.Spec.Lobe
import Verif.Props.Leakage
import Verif.Spec.Schedule
import Verif.Props.Schedule
import Verif.Spec.Overlap
import Verif.Props.Overlap
import Verif.Props.Equivalence
import Verif.Props.Bibo
import Verif.Props.ZTransformRef
import Verif.Props.Power
import Verif.Props.ComplexSignal
import Verif.Props.ComplexSignalRate
import Verif.Props.WaveletDelay
import Verif.Props.SpectrumFilter
import Verif.Props.FourierLaws
import Verif.Props.IirInverse
import Verif.Props.RankVariation
import Verif.Props.WaveletStored
import Verif.Model.GaussianUnderflow
import Verif.Props.MixtureFar
import Verif.Props.FloatingPoint
import Verif.Props.FloatTail
import Verif.Props.RankRounding
import Verif.Props.CoefficientErrors
import Verif.Props.ForwardBackward
import Verif.Props.RankCascade
import Verif.Props.Regularize
import Verif.Model.DiversityRef
import Verif.Props.DiversityState
import Verif.Props.MedianRoot
import Verif.Props.ClassCount
import Verif.Model.ClassTables
import Verif.Props.ClassTables
import Verif.Spec.Energy
import Verif.Lemmas.Energy
import Verif.Props.Energy
import Verif.Spec.Ramp
import Verif.Lemmas.Ramp
import Verif.Props.Ramp
import Verif.Props.DesignDelay
import Verif.Props.Crossover
import Verif.Props.CrossoverNoise
import Verif.Props.Identify
import Verif.Props.IdentifyComplex
import Verif.Props.MeanPower
import Verif.Props.MeanPowerComplex
import Verif.Props.GoertzelBank
import Verif.Props.RateConstant
import Verif.Props.PsdPeriodic
import Verif.Props.PeakGain
import Verif.Props.PeakGainChebyshev
import Verif.Props.PeakGainComplex
