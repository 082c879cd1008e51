import Verif.Lemmas.Arr
import Verif.Lemmas.Beta
import Verif.Lemmas.Dft
import Verif.Lemmas.Eddy
import Verif.Lemmas.GaussianQuad
import Verif.Lemmas.Generator
import Verif.Lemmas.Hyp
import Verif.Lemmas.Kernel
import Verif.Lemmas.KernelBound
import Verif.Lemmas.Loss
import Verif.Lemmas.OnePoint
import Verif.Lemmas.ParamCont
import Verif.Lemmas.Quad
import Verif.Lemmas.Rdt
import Verif.Lemmas.RiemannBand
import Verif.Lemmas.RiemannFft
import Verif.Lemmas.RiemannLine
import Verif.Lemmas.RiemannPlane
import Verif.Lemmas.Tensor
import Verif.Lemmas.TensorCont
import Verif.Lemmas.TensorJoint
import Verif.Lemmas.TrapzConv
import Verif.Lemmas.VkIntegral
import Verif.Lemmas.WaveField
import Verif.Lemmas.WhiteNoise
import Verif.Model.Adam
import Verif.Model.Autograd
import Verif.Model.Calibration
import Verif.Model.CoherenceFile
import Verif.Model.Common
import Verif.Model.Data
import Verif.Model.Diagnostics
import Verif.Model.FieldDivergence
import Verif.Model.FieldSharing
import Verif.Model.Generator
import Verif.Model.Kernels
import Verif.Model.Lbfgs
import Verif.Model.Loss
import Verif.Model.LossLog
import Verif.Model.LowFreq
import Verif.Model.LowFreqFigures
import Verif.Model.LowFreqPlot
import Verif.Model.LowFreqStudy
import Verif.Model.MannApprox
import Verif.Model.NN
import Verif.Model.OnePoint
import Verif.Model.OnePointState
import Verif.Model.ProblemState
import Verif.Model.Reseed
import Verif.Model.Rounded
import Verif.Model.RoundedCoherence
import Verif.Model.RoundedInterp
import Verif.Model.RoundedKernel
import Verif.Model.RoundedLoss
import Verif.Model.RoundedLow
import Verif.Model.RoundedNet
import Verif.Model.RoundedSampling
import Verif.Model.RoundedShear
import Verif.Model.RoundedSizes
import Verif.Model.RoundedTensor
import Verif.Model.RoundedWind
import Verif.Model.Sampling
import Verif.Model.SamplingScalar
import Verif.Model.Sharing
import Verif.Model.WindPlot
import Verif.Num.Fl
import Verif.Num.Py
import Verif.Num.Round
import Verif.Num.ScaleNear
import Verif.Props.AfterFit
import Verif.Props.BlockGain
import Verif.Props.Coherence
import Verif.Props.CoherenceFile
import Verif.Props.CoherenceGradient
import Verif.Props.CoherenceLimit
import Verif.Props.Convergence
import Verif.Props.Covariance
import Verif.Props.Data
import Verif.Props.Diagnostics
import Verif.Props.Eddy
import Verif.Props.FieldCoherence
import Verif.Props.FieldCovarianceLimit
import Verif.Props.FieldDivergence
import Verif.Props.FieldSharing
import Verif.Props.FieldSpectrum
import Verif.Props.FitMagnitude
import Verif.Props.FitUnits
import Verif.Props.GaussianLaw
import Verif.Props.Generator
import Verif.Props.GeneratorFields
import Verif.Props.GeneratorLaw
import Verif.Props.GeneratorLimit
import Verif.Props.GeneratorLow
import Verif.Props.GeneratorMirror
import Verif.Props.GeneratorNoise
import Verif.Props.GeneratorReflect
import Verif.Props.GeneratorSeam
import Verif.Props.GeneratorUnits
import Verif.Props.Gradients
import Verif.Props.GridRefinement
import Verif.Props.Isotropy
import Verif.Props.Kernels
import Verif.Props.Lbfgs
import Verif.Props.LbfgsDirection
import Verif.Props.LbfgsFit
import Verif.Props.LearningRate
import Verif.Props.Loss
import Verif.Props.LossControl
import Verif.Props.LossLog
import Verif.Props.LossValue
import Verif.Props.LowFreqAverages
import Verif.Props.LowFreqEstimate
import Verif.Props.LowFreqExpected
import Verif.Props.LowFreqField
import Verif.Props.LowFreqFigures
import Verif.Props.LowFreqGenerated
import Verif.Props.LowFreqGrid
import Verif.Props.LowFreqMoments
import Verif.Props.LowFreqPlot
import Verif.Props.LowFreqReflect
import Verif.Props.LowFreqSpectra
import Verif.Props.LowFreqStudy
import Verif.Props.LowFreqVariance
import Verif.Props.MannLifetime
import Verif.Props.NetworkSymmetry
import Verif.Props.ObjectiveContinuity
import Verif.Props.ObjectiveHistory
import Verif.Props.OnePoint
import Verif.Props.ParamContinuity
import Verif.Props.ParamVector
import Verif.Props.Plot
import Verif.Props.RateReductions
import Verif.Props.Reseed
import Verif.Props.ReseedLaw
import Verif.Props.Rounding
import Verif.Props.RoundingBlock
import Verif.Props.RoundingCoherence
import Verif.Props.RoundingExact
import Verif.Props.RoundingField
import Verif.Props.RoundingInterp
import Verif.Props.RoundingLoss
import Verif.Props.RoundingLow
import Verif.Props.RoundingNet
import Verif.Props.RoundingShear
import Verif.Props.RoundingSizes
import Verif.Props.RoundingSpectrum
import Verif.Props.RoundingSymmetry
import Verif.Props.RoundingTensor
import Verif.Props.RoundingTotal
import Verif.Props.RoundingWind
import Verif.Props.RoundingWindExact
import Verif.Props.RoundingWindLow
import Verif.Props.RoundingWindShear
import Verif.Props.Sampling
import Verif.Props.SamplingScalar
import Verif.Props.Sharing
import Verif.Props.SpectrumEnds
import Verif.Props.TauNetInit
import Verif.Props.TrainedGenerator
import Verif.Props.Training
import Verif.Props.TrigSampling
import Verif.Props.WindPlot
import Verif.Props.WrapAround
import Verif.Spec.Hyp
import Verif.Spec.Tensor
