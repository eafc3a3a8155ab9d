import Verif.Props.MultiIndex
import Verif.Props.Ldl
import Verif.Props.Quad1
import Verif.Props.QuadND
import Verif.Props.Filter1
import Verif.Props.Filter1Equiv
import Verif.Props.FilterND
import Verif.Props.QuadNDEquiv
import Verif.Props.FilterNDEquiv
import Verif.Props.FilterNDRun
import Verif.Props.Moments1
import Verif.Props.Cumulants
import Verif.Props.GramCharlier
import Verif.Props.Pdf
import Verif.Props.Utils
import Verif.Props.Lti
import Verif.Props.Lanczos
import Verif.Props.Kalman
import Verif.Props.GaussianEquiv
import Verif.Props.SigmaPoints
import Verif.Props.Pcrlb
import Verif.Props.Resampling
import Verif.Props.Smc
import Verif.Props.BruteForce
import Verif.Props.SsModels
import Verif.Props.MomentsND
import Verif.Props.Hmm
import Verif.Props.Quad1More
import Verif.Props.FilterLik
import Verif.Props.QuadNDMore
import Verif.Props.GaussianSum
import Verif.Props.KalmanExact
import Verif.Props.SmcUnbiased
import Verif.Props.Converge
import Verif.Props.HmmND
import Verif.Props.PolyProcess
import Verif.Props.GaussQuad
import Verif.Props.NegWeights
import Verif.Props.NDProduct
import Verif.Props.GaussQuadND
import Verif.Model.Experiments
import Verif.Props.Experiments
import Verif.Props.ExperimentErrors
import Verif.Props.ExperimentCf
import Verif.Props.Sharp
import Verif.Props.Multinomial
import Verif.Props.Units
import Verif.Props.NoBreak
import Verif.Props.NoBreakND
import Verif.Model.SsInit
import Verif.Props.Models1
import Verif.Model.Tme
import Verif.Props.Tme
import Verif.Props.PostProcessing
import Verif.Props.PreyPredator
import Verif.Spec.NormalKernel
import Verif.Lemmas.MomentMethod
import Verif.Lemmas.ConvergeU
import Verif.Lemmas.NormalKernel
import Verif.Lemmas.ScalarKalman
import Verif.Props.ConvergeLine
import Verif.Props.NormalModels
import Verif.Model.ConvergenceMf
import Verif.Props.OuConverge
import Verif.Props.CfConverge
import Verif.Props.PolyProcessND
import Verif.Props.FilterLikND
import Verif.Props.MarginalsND
import Verif.Props.UnitsND
import Verif.Props.KolmogorovConv
import Verif.Props.ConvergeND
import Verif.Props.GaussianCoord
import Verif.Props.CdLinear
import Verif.Props.CdSmoother
import Verif.Props.ResamplingVar
import Verif.Props.SmcConverge
import Verif.Props.SmcProposal
import Verif.Props.ResamplingOrd
import Verif.Lemmas.VanTrees
import Verif.Lemmas.Information
import Verif.Props.VanTrees
import Verif.Spec.IterKernel
import Verif.Lemmas.GridConv
import Verif.Lemmas.KernelTrunc
import Verif.Lemmas.ChapmanRun
import Verif.Lemmas.ChapmanLim
import Verif.Props.ChapmanConv
import Verif.Spec.Benes
import Verif.Lemmas.DriftHeat
import Verif.Lemmas.BenesLaw
import Verif.Props.BenesTme
import Verif.Lemmas.CholCont
import Verif.Lemmas.RuleCont
import Verif.Props.Continuity
import Verif.Lemmas.TaylorBound
import Verif.Props.KolmogorovCons
import Verif.Lemmas.GaussError
import Verif.Props.RuleError
import Verif.Props.FilterError
import Verif.Model.Prng
import Verif.Props.Keys
import Verif.Props.KeyScripts
import Verif.Props.KeyLaw
import Verif.Props.Milstein
import Verif.Props.KeySampler
import Verif.Model.PlotStats
import Verif.Props.PlotStats
import Verif.Lemmas.RuleContND
import Verif.Props.ContinuityND
import Verif.Lemmas.RuleSmooth
import Verif.Props.Smooth
import Verif.Lemmas.SpectralSmooth
import Verif.Lemmas.RuleSmoothND
import Verif.Props.SmoothND
import Verif.Model.Jvp
import Verif.Model.FilterJvp
import Verif.Lemmas.SpectralJvp
import Verif.Lemmas.RuleJvp
import Verif.Lemmas.RuleJvpND
import Verif.Lemmas.FilterJvp
import Verif.Props.Jvp
import Verif.Props.FilterJvp
import Verif.Lemmas.RuleJvpND2
import Verif.Props.JvpND
import Verif.Props.CentreFree
import Verif.Props.JvpND2
import Verif.Lemmas.ContiResampling
import Verif.Model.ParamPf
import Verif.Props.ContiResampling
import Verif.Props.ContiScript
import Verif.Lemmas.TmeSmooth
import Verif.Model.TmeNan
import Verif.Lemmas.TmeNan
import Verif.Props.TmeSmooth
import Verif.Props.TmeNan
import Verif.Props.SmcProbability
import Verif.Spec.IdealGen
import Verif.Lemmas.IdealGen
import Verif.Model.ConvergencePf
import Verif.Props.ConvergencePf
import Verif.Props.PfCollapse
import Verif.Props.PfMean
import Verif.Props.KeyReuseLimit
import Verif.Lemmas.ContiAccuracy
import Verif.Lemmas.ContiMeasurable
import Verif.Props.ContiConverge
import Verif.Props.ContiConvergeCases
import Verif.Props.LegacyProduct
import Verif.Props.SaddleDensity
import Verif.Lemmas.PolyDense
import Verif.Props.LegendreConverge
import Verif.Props.GramCharlierConverge
import Verif.Props.InverseFourier
import Verif.Props.InverseFourierRule
import Verif.Props.PdfRoundTrip
import Verif.Lemmas.OscBound
import Verif.Props.PlotDensity
import Verif.Model.BenesGhf
import Verif.Props.BenesEkf
import Verif.Props.BenesReflect
import Verif.Props.BenesMfSign
import Verif.Lemmas.WeakMoments
import Verif.Lemmas.GammaLaw
import Verif.Model.RuleFigure
import Verif.Props.GaussRuleLaw
import Verif.Props.RuleFigure
import Verif.Lemmas.PolyDenseSome
import Verif.Lemmas.StrongConvND
import Verif.Lemmas.StrongLimND
import Verif.Lemmas.ProdLimND
import Verif.Props.ConvergeNDWhole
import Verif.Props.ConvergeNDGauss
import Verif.Props.ConvergeNDStep
import Verif.Props.ConvergeNDFirst
import Verif.Props.LinearPred
import Verif.Model.Tracking
import Verif.Props.Tracking
import Verif.Lemmas.Rejection
import Verif.Model.RetryLoops
import Verif.Props.RetryLoops
import Verif.Lemmas.Slln
import Verif.Model.PreyStats
import Verif.Props.PreyStats
import Verif.Model.PlotBands
import Verif.Props.PlotBands
import Verif.Props.Decoupled
import Verif.Props.DecoupledConverge
import Verif.Model.RuleFigure2
import Verif.Props.RuleFigure2
import Verif.Model.CramerRao
import Verif.Props.CramerRaoScript
import Verif.Props.CdSigma
import Verif.Model.NdArray
import Verif.Props.NdArray
import Verif.Model.JobFiles
import Verif.Lemmas.JobFiles
import Verif.Props.JobFiles
import Verif.Lemmas.StepPoly
import Verif.Props.RuleCdf
import Verif.Lemmas.LanczosBreak
import Verif.Props.LanczosBreak
import Verif.Lemmas.Polya
import Verif.Props.RuleCdfLimit
import Verif.Model.Trajectory
import Verif.Spec.PathKernel
import Verif.Lemmas.SmoothBounded
import Verif.Lemmas.BenesSemigroup
import Verif.Lemmas.WeakPaths
import Verif.Lemmas.WeakPathLaw
import Verif.Props.SimulateBenes
import Verif.Props.SimulateKeys
import Verif.Lemmas.PathLaw
import Verif.Props.SimulateLinear
import Verif.Spec.ProperScore
import Verif.Props.ProperScore
import Verif.Props.KalmanScore
import Verif.Props.EkfScore
import Verif.Props.MomentScore
import Verif.Props.SgpPosDef
import Verif.Props.SgpScore
import Verif.Props.EkfPosDef
import Verif.Props.SgpRule
import Verif.Props.GaussianResume
import Verif.Props.MeasUnits
import Verif.Props.MeasUnitsVector
import Verif.Props.MeasMix
