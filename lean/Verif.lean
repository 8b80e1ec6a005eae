import Verif.Lemmas.BNN
import Verif.Lemmas.BNNCostGraph
import Verif.Lemmas.Balance
import Verif.Lemmas.BaseModel
import Verif.Lemmas.BatchShift
import Verif.Lemmas.BurnInStats
import Verif.Lemmas.BurnInWeights
import Verif.Lemmas.Chain
import Verif.Lemmas.Confining
import Verif.Lemmas.ConfiningMomentum
import Verif.Lemmas.Contraction
import Verif.Lemmas.Convergence
import Verif.Lemmas.DataBatches
import Verif.Lemmas.Ergodic
import Verif.Lemmas.GaussLaw
import Verif.Lemmas.GaussPair
import Verif.Lemmas.Gradients
import Verif.Lemmas.Harnack
import Verif.Lemmas.Harris
import Verif.Lemmas.HarrisAverage
import Verif.Lemmas.HarrisForgets
import Verif.Lemmas.HarrisPairs
import Verif.Lemmas.Iter
import Verif.Lemmas.Kinetic
import Verif.Lemmas.Langevin
import Verif.Lemmas.LinearChain
import Verif.Lemmas.Mixed
import Verif.Lemmas.MixedPoly
import Verif.Lemmas.MomentumConvergence
import Verif.Lemmas.MomentumInvariant
import Verif.Lemmas.MomentumStep
import Verif.Lemmas.NearlyStationary
import Verif.Lemmas.PySlice
import Verif.Lemmas.QuadraticMoments
import Verif.Lemmas.Recipe
import Verif.Lemmas.Relativistic
import Verif.Lemmas.RoundedRatio
import Verif.Lemmas.RoundedStats
import Verif.Lemmas.SGHMC
import Verif.Lemmas.SGLD
import Verif.Lemmas.SVGD
import Verif.Lemmas.SVGDGraph
import Verif.Lemmas.SampleChains
import Verif.Lemmas.SamplerBase
import Verif.Lemmas.SamplerFrozen
import Verif.Lemmas.SamplerIter
import Verif.Lemmas.SamplerObserve
import Verif.Lemmas.Script
import Verif.Lemmas.Separable
import Verif.Lemmas.SghmcCoupled
import Verif.Lemmas.SghmcOrders
import Verif.Lemmas.SghmcUniform
import Verif.Lemmas.SgldCoupled
import Verif.Lemmas.SgldError
import Verif.Lemmas.SgldOrders
import Verif.Lemmas.SgldUniform
import Verif.Lemmas.Shift
import Verif.Lemmas.Shuffle
import Verif.Lemmas.Stein
import Verif.Lemmas.SteinBias
import Verif.Lemmas.SteinMomentum
import Verif.Lemmas.SteinSeparable
import Verif.Lemmas.SteinSteps
import Verif.Lemmas.Temperate
import Verif.Lemmas.TensorRow
import Verif.Lemmas.TensorUtils
import Verif.Lemmas.TimeAverage
import Verif.Lemmas.TimeAverageConvex
import Verif.Lemmas.Underdamped
import Verif.Lemmas.WeakError
import Verif.Lemmas.WindowMixing
import Verif.Model.Assign
import Verif.Model.BNN
import Verif.Model.BNNCost
import Verif.Model.BNNCostGraph
import Verif.Model.BNNDefault
import Verif.Model.BNNGraph
import Verif.Model.BNNSampler
import Verif.Model.BNNSystem
import Verif.Model.BNNSystemSGLD
import Verif.Model.BaseModel
import Verif.Model.BurnInStats
import Verif.Model.Chain
import Verif.Model.ComputeEss
import Verif.Model.DataBatches
import Verif.Model.Dtypes
import Verif.Model.Gradients
import Verif.Model.MultiTrace
import Verif.Model.Objectives
import Verif.Model.PlainChain
import Verif.Model.Relativistic
import Verif.Model.Rounded
import Verif.Model.SGHMC
import Verif.Model.SGLD
import Verif.Model.SVGD
import Verif.Model.SVGDGraph
import Verif.Model.SampleChains
import Verif.Model.SamplerBase
import Verif.Model.SamplerDiagnostics
import Verif.Model.SamplerInit
import Verif.Model.Sampling
import Verif.Model.Schedules
import Verif.Model.Seeds
import Verif.Model.TensorUtils
import Verif.Props.AnonymousNames
import Verif.Props.Assign
import Verif.Props.BNN
import Verif.Props.BNNCost
import Verif.Props.BNNCostGraph
import Verif.Props.BNNData
import Verif.Props.BNNGraph
import Verif.Props.BNNInvariance
import Verif.Props.BNNMalformed
import Verif.Props.BNNPosterior
import Verif.Props.BNNPredict
import Verif.Props.BNNSampler
import Verif.Props.BNNSystem
import Verif.Props.BNNSystemSGLD
import Verif.Props.BNNUnits
import Verif.Props.BaseModel
import Verif.Props.BurnInAverage
import Verif.Props.Chain
import Verif.Props.ComputeEss
import Verif.Props.DataBatches
import Verif.Props.Dtypes
import Verif.Props.FeedDict
import Verif.Props.FullChain
import Verif.Props.Gradients
import Verif.Props.GradientsRelativistic
import Verif.Props.GraphPosterior
import Verif.Props.Invariance
import Verif.Props.InvariancePoly
import Verif.Props.Json
import Verif.Props.MultiTrace
import Verif.Props.Objectives
import Verif.Props.PlainChain
import Verif.Props.Posterior
import Verif.Props.Reinit
import Verif.Props.RelInvariance
import Verif.Props.Relativistic
import Verif.Props.RoundedBaseModel
import Verif.Props.RoundedKernel
import Verif.Props.RoundedLikelihood
import Verif.Props.RoundedLink
import Verif.Props.RoundedMoments
import Verif.Props.RoundedRelativistic
import Verif.Props.RoundedRelativisticRun
import Verif.Props.RoundedRun
import Verif.Props.RoundedSVGD
import Verif.Props.RoundedStats
import Verif.Props.RoundedUtils
import Verif.Props.SGHMC
import Verif.Props.SGLD
import Verif.Props.SVGD
import Verif.Props.SVGDGraph
import Verif.Props.SVGDKernel
import Verif.Props.SampleChains
import Verif.Props.SampleVariables
import Verif.Props.SamplerBase
import Verif.Props.SamplerDiagnostics
import Verif.Props.SamplerInit
import Verif.Props.Sampling
import Verif.Props.Schedules
import Verif.Props.Seeds
import Verif.Props.SghmcConverges
import Verif.Props.SghmcCoupled
import Verif.Props.SghmcForgets
import Verif.Props.SghmcInvariance
import Verif.Props.SghmcInvariancePoly
import Verif.Props.SghmcNonconvex
import Verif.Props.SghmcOrders
import Verif.Props.SghmcUniform
import Verif.Props.SgldConverges
import Verif.Props.SgldCoupled
import Verif.Props.SgldForgets
import Verif.Props.SgldNonconvex
import Verif.Props.SgldOrders
import Verif.Props.ShuffleLaw
import Verif.Props.ShuffledFair
import Verif.Props.Stability
import Verif.Props.TensorUtils
import Verif.Props.TimeAverages
import Verif.Props.WindowBias
import Verif.Props.WindowPoly
import Verif.Py.Basic
import Verif.Py.Fl
import Verif.Py.Rng
import Verif.Py.Round
import Verif.Py.Tensor
import Verif.Spec.BaseModel
import Verif.Spec.DataBatches
import Verif.Spec.FullChain
import Verif.Spec.Observe
import Verif.Spec.Relativistic
import Verif.Spec.SGHMC
import Verif.Spec.SGLD
import Verif.Spec.SVGD
import Verif.Spec.Tensor
