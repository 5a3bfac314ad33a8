import Verif.Props.Utils
import Verif.Props.AM
import Verif.Props.FM
import Verif.Props.InstFreq
import Verif.Props.TimeFreq
import Verif.Props.LocfreqTotal
import Verif.Props.Stft
import Verif.Props.Wvd
import Verif.Props.Histories
import Verif.Props.Cohen
import Verif.Props.PageRuns
import Verif.Props.Spwv
import Verif.Props.Undefined
import Verif.Props.Ambiguity
import Verif.Props.ProcUtils
import Verif.Props.Renyi
import Verif.Props.Ideal
import Verif.Props.Friedman
import Verif.Props.Hough
import Verif.Props.Ridges
import Verif.Props.RidgeShapes
import Verif.Props.Reassigned
import Verif.Props.ReassignedPwv
import Verif.Props.NeverReturns
import Verif.Props.GenUtils
import Verif.Props.Analytic
import Verif.Props.Qpsk
import Verif.Props.Noise
import Verif.Props.Misc
import Verif.Props.Wavelets
import Verif.Props.Gabor
import Verif.Props.GaborTotal
import Verif.Props.AffineBand
import Verif.Props.Scalogram
import Verif.Props.WideBand
import Verif.Props.Dilation
import Verif.Props.AffineClass
import Verif.Props.AffineSpwv
import Verif.Model.Plot
import Verif.Lemmas.Plot
import Verif.Props.Plot
import Verif.Lemmas.WvdInverse
import Verif.Props.WvdInverse
import Verif.Props.StftInverse
import Verif.Model.Morlet
import Verif.Lemmas.Morlet
import Verif.Props.Morlet
import Verif.Model.Shapes
import Verif.Props.Shapes
import Verif.Props.Bins
import Verif.Props.Conj
import Verif.Lemmas.Chirp
import Verif.Props.Chirp
import Verif.Model.FMPower
import Verif.Props.FMPower
import Verif.Props.PlotComplex
import Verif.Props.AffineEmpty
import Verif.Props.Superposition
import Verif.Props.WvdMoments
import Verif.Props.RenyiCopies
import Verif.Props.Covariance
import Verif.Props.Consistency
import Verif.Props.Reruns
import Verif.Props.PlotRepeated
import Verif.Props.PlotLog
import Verif.Props.RerunsWvd
import Verif.Props.Folding
import Verif.Props.Bounds
import Verif.Props.Local
import Verif.Props.Spreads
import Verif.Props.Reversal
import Verif.Props.Padding
import Verif.Props.Gain
import Verif.Props.GainReal
import Verif.Props.GenAlgebra
import Verif.Props.RidgeReassigned
import Verif.Props.GainPost
import Verif.Props.ReassignedShift
import Verif.Props.RenyiOrder
import Verif.Props.SameWvd
import Verif.Props.AmChirp
import Verif.Props.SpwvTone
import Verif.Props.GroupDelay
import Verif.Props.EnvelopeDelay
import Verif.Props.SmoothLaw
import Verif.Props.IdealPeak
import Verif.Props.Keying
import Verif.Props.PhaseRetrieval
import Verif.Props.MargenauHillInverse
import Verif.Props.MhMoments
import Verif.Props.HoughLines
import Verif.Props.AnalyticPulse
import Verif.Props.Quadrature
import Verif.Props.Smoothing
import Verif.Props.ChirpStft
import Verif.Props.GaborShift
import Verif.Props.Interference
import Verif.Props.ScalogramTone
import Verif.Props.NoiseSymmetry
import Verif.Props.AtomsTf
import Verif.Props.Stability
import Verif.Props.Hopping
import Verif.Props.ZeroInsert
import Verif.Props.Capture
import Verif.Props.Duration
import Verif.Props.Detect
import Verif.Props.Gauss
import Verif.Props.Uncertainty
import Verif.Props.GaussBand
import Verif.Props.GaussDuration
import Verif.Props.ExpoDuration
import Verif.Props.AnalyticFreq
import Verif.Props.Mixtures
import Verif.Props.RenyiSpectrogram
import Verif.Props.WvdNegative
import Verif.Props.PseudoNegative
import Verif.Props.Instances1
import Verif.Props.Instances2
import Verif.Props.Instances3
import Verif.Props.Instances4
import Verif.Props.Instances5
import Verif.Props.Instances6
