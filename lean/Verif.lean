import Verif.Props.Silence
import Verif.Props.Normalization
import Verif.Props.ChannelMixer
import Verif.Props.Onset
import Verif.Props.Consensus
import Verif.Props.Peaks
import Verif.Props.Estimators
import Verif.Props.Merge
import Verif.Props.Guardrails
import Verif.Props.LegacyBpm
import Verif.Props.Notation
import Verif.Props.Confidence
import Verif.Props.Pipeline
import Verif.Props.Viterbi
import Verif.Props.Tracking
import Verif.Props.TimeSig
import Verif.Props.Bayesian
import Verif.Props.Tempo
import Verif.Props.Grid
import Verif.Props.GridSafety
import Verif.Props.Stability
import Verif.Props.KeyTemplates
import Verif.Props.KeyClarity
import Verif.Props.KeyDetect
import Verif.Props.KeyMode
import Verif.Props.KeyChanges
import Verif.Props.KeyVariants
import Verif.Props.KeyEvidence
import Verif.Props.KeySegments
import Verif.Props.Smoothing
import Verif.Props.Stft
import Verif.Props.Chroma
import Verif.Props.ChromaMap
import Verif.Props.ChromaUnit
import Verif.Props.ChromaNorm
import Verif.Props.BeatChroma
import Verif.Props.Mask
import Verif.Props.Hpss
import Verif.Props.TimeSmooth
import Verif.Props.Novelty
import Verif.Props.NoveltyMore
import Verif.Props.NoveltyRise
import Verif.Props.NoveltyBand
import Verif.Props.NoveltyMel
import Verif.Props.TempoScan
import Verif.Props.TempoPick
import Verif.Props.TempoEst
import Verif.Props.TempoTotal
import Verif.Model.MultiRes
import Verif.Props.MultiRes
import Verif.Props.HopScale
import Verif.Props.MultiFuse
import Verif.Props.MultiTotal
import Verif.Model.Hpcp
import Verif.Props.Hpcp
import Verif.Props.HpcpPeaks
import Verif.Props.Tuning
import Verif.Props.LogSpec
import Verif.Props.BassBlend
import Verif.Model.Analyze
import Verif.Props.Analyze
import Verif.Props.Escalate
import Verif.Props.Report
import Verif.Props.ReportTempo
import Verif.Props.ReportGrid
import Verif.Props.ReportKey
import Verif.Props.WholeSpec
import Verif.Props.WholeSmooth
import Verif.Props.WholeLog
import Verif.Props.WholeKey
import Verif.Props.WholeTempo
import Verif.Props.Whole
import Verif.Props.SegmentVote
import Verif.Props.FrameWeights
import Verif.Props.Loudness
import Verif.Props.WholeNorm
import Verif.Props.HpcpWhite
import Verif.Props.SameAnswer
import Verif.Props.Polarity
import Verif.Props.Level
import Verif.Props.KeyConfidence
import Verif.Props.Pulse
import Verif.Props.Metronome
import Verif.Props.MetronomeAcf
import Verif.Props.Metadata
import Verif.Props.BeatCount
import Verif.Props.NormLimits
import Verif.Props.Retrim
import Verif.Props.Padding
import Verif.Props.Swap
import Verif.Props.PeakTarget
import Verif.Props.Transpose
import Verif.Props.Window
import Verif.Model.Prior
import Verif.Props.TempoFit
import Verif.Props.Posterior
import Verif.Props.NoveltyValue
import Verif.Props.NoveltyFlux
import Verif.Props.FluxDecay
import Verif.Props.Attacks
import Verif.Props.Clicks
import Verif.Props.ClickGrid
import Verif.Props.MedianMask
import Verif.Props.ClickOnset
import Verif.Props.ConfidenceMono
import Verif.Props.Stricter
import Verif.Props.FluxLevel
import Verif.Props.TrimMore
import Verif.Props.Delay
import Verif.Props.Tolerance
import Verif.Props.OnsetOrder
import Verif.Props.Settings
import Verif.Props.Louder
import Verif.Props.Rests
import Verif.Props.Volume
import Verif.Props.VolumeCurves
import Verif.Props.VolumeChroma
import Verif.Props.HalfTempo
import Verif.Props.Misuse
import Verif.Props.Bars
import Verif.Props.Weights
import Verif.Props.Resample
import Verif.Props.Levels
import Verif.Props.TrimEnds
import Verif.Props.Robust
import Verif.Props.Transitions
import Verif.Props.KeyTail
import Verif.Props.Drift
import Verif.Props.OctaveMerge
import Verif.Props.TopPeak
import Verif.Props.Metre
import Verif.Props.ClarityMeaning
import Verif.Props.Contrast
import Verif.Props.CombinedCurve
import Verif.Props.OneTemplate
import Verif.Props.EqualWeights
import Verif.Props.RmsTarget
import Verif.Props.MixEnergy
