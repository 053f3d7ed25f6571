import Verif.Py.Basic
import Verif.Py.Double
import Verif.Py.Float
import Verif.Py.Gauss
import Verif.Py.Interp
import Verif.Py.Round
import Verif.Py.Sample
import Verif.Py.Val
import Verif.Model.Accessors
import Verif.Model.AdaptivePod
import Verif.Model.AdaptiveSignal
import Verif.Model.Aliasing
import Verif.Model.Analysis
import Verif.Model.AnalysisFull
import Verif.Model.Base
import Verif.Model.Bootstrap
import Verif.Model.BoxCoxFigure
import Verif.Model.BoxCoxLik
import Verif.Model.CensoredFit
import Verif.Model.Censoring
import Verif.Model.ChaosDof
import Verif.Model.ChaosFit
import Verif.Model.ChaosRun
import Verif.Model.ChaosUnits
import Verif.Model.Classifier
import Verif.Model.ConfInt
import Verif.Model.Criterion
import Verif.Model.DefaultDist
import Verif.Model.ExactLine
import Verif.Model.Figure
import Verif.Model.FitFigures
import Verif.Model.FloatCount
import Verif.Model.GaussCl
import Verif.Model.HellingerPlot
import Verif.Model.HitMiss
import Verif.Model.HitMissRun
import Verif.Model.HitMissSeed
import Verif.Model.KrigLik
import Verif.Model.KrigPredict
import Verif.Model.KrigSim
import Verif.Model.KrigingFit
import Verif.Model.LinearPOD
import Verif.Model.LinearRun
import Verif.Model.Loo
import Verif.Model.MetaRun
import Verif.Model.Metamodel
import Verif.Model.NormalFit
import Verif.Model.Package
import Verif.Model.Pli
import Verif.Model.PliBox
import Verif.Model.PliDraw
import Verif.Model.PliHistory
import Verif.Model.PliPod
import Verif.Model.PliViews
import Verif.Model.PseudoR2
import Verif.Model.QrConfidence
import Verif.Model.QrRun
import Verif.Model.QuantileReg
import Verif.Model.ReducedLik
import Verif.Model.ResidualVar
import Verif.Model.Sampling
import Verif.Model.SavedGraphs
import Verif.Model.Settings
import Verif.Model.Small
import Verif.Model.Sobol
import Verif.Model.SobolDesign
import Verif.Model.SobolFigures
import Verif.Model.SobolMethods
import Verif.Model.Stats
import Verif.Model.Summary
import Verif.Model.SummaryText
import Verif.Model.Tests
import Verif.Spec.Censoring
import Verif.Props.Accessors
import Verif.Props.AdaptiveFresh
import Verif.Props.AdaptivePod
import Verif.Props.AdaptiveSignal
import Verif.Props.Aliasing
import Verif.Props.Analysis
import Verif.Props.AnalysisBuild
import Verif.Props.Base
import Verif.Props.Binomial
import Verif.Props.BinomialBias
import Verif.Props.BinomialCoverage
import Verif.Props.BinomialGap
import Verif.Props.Bootstrap
import Verif.Props.BootstrapLimit
import Verif.Props.BoxCoxFigure
import Verif.Props.BoxCoxLik
import Verif.Props.BoxCoxOne
import Verif.Props.BoxCoxSkew
import Verif.Props.BoxCoxUnits
import Verif.Props.BpLevel
import Verif.Props.BpMoments
import Verif.Props.BpPower
import Verif.Props.CensoredBinomial
import Verif.Props.CensoredConsistency
import Verif.Props.CensoredFit
import Verif.Props.CensoredLoss
import Verif.Props.CensoredMin
import Verif.Props.CensoredPop
import Verif.Props.CensoredRun
import Verif.Props.CensoredUnique
import Verif.Props.CensoredUnits
import Verif.Props.CensoredZeroMean
import Verif.Props.Censoring
import Verif.Props.ChaosCloses
import Verif.Props.ChaosConsistency
import Verif.Props.ChaosCoverage
import Verif.Props.ChaosDof
import Verif.Props.ChaosExact
import Verif.Props.ChaosSimulations
import Verif.Props.ChaosSizes
import Verif.Props.ChaosUnits
import Verif.Props.ChiLaw
import Verif.Props.Classifier
import Verif.Props.ClassifierError
import Verif.Props.CoefInterval
import Verif.Props.ColumnOrder
import Verif.Props.ConfidenceShare
import Verif.Props.Consistency
import Verif.Props.ContourDrawn
import Verif.Props.ConvexArgmin
import Verif.Props.CorrectionBatches
import Verif.Props.CorrectionOrder
import Verif.Props.Criterion
import Verif.Props.CurveMonotone
import Verif.Props.DefaultDist
import Verif.Props.DeltaMethod
import Verif.Props.DetectionLevels
import Verif.Props.DetectionLimit
import Verif.Props.DetectionSplit
import Verif.Props.DetectionUnits
import Verif.Props.Display
import Verif.Props.DurbinWatson
import Verif.Props.DwExact
import Verif.Props.DwFormula
import Verif.Props.DwLevel
import Verif.Props.DwNumber
import Verif.Props.DwPower
import Verif.Props.ExactLine
import Verif.Props.ExpKernel
import Verif.Props.Figure
import Verif.Props.FitFigures
import Verif.Props.FloatCount
import Verif.Props.FreshRun
import Verif.Props.GaussCloses
import Verif.Props.GaussCoverage
import Verif.Props.GaussDetection
import Verif.Props.GaussLimit
import Verif.Props.GaussPOD
import Verif.Props.GaussRatio
import Verif.Props.GeneralWitness
import Verif.Props.GridRefine
import Verif.Props.HalfSize
import Verif.Props.HellingerOrder
import Verif.Props.HitMiss
import Verif.Props.HitMissCorrection
import Verif.Props.HitMissMirror
import Verif.Props.HitMissScale
import Verif.Props.HitMissSeed
import Verif.Props.HmcCalibration
import Verif.Props.HmcCoverage
import Verif.Props.HmcDirection
import Verif.Props.HmcPower
import Verif.Props.IndexOrder
import Verif.Props.KernelPod
import Verif.Props.KlClosest
import Verif.Props.KrigConsistency
import Verif.Props.KrigCurveUnits
import Verif.Props.KrigDesign
import Verif.Props.KrigError
import Verif.Props.KrigPredict
import Verif.Props.KrigRandom
import Verif.Props.KrigSimulations
import Verif.Props.KrigSizes
import Verif.Props.KrigingFit
import Verif.Props.KrigingUnits
import Verif.Props.Limits
import Verif.Props.LinearConsistency
import Verif.Props.LinearRun
import Verif.Props.Loo
import Verif.Props.McExpect
import Verif.Props.MeanCurve
import Verif.Props.MetaOrder
import Verif.Props.MetaRun
import Verif.Props.Metamodel
import Verif.Props.MetamodelError
import Verif.Props.MetamodelMirror
import Verif.Props.Mirror
import Verif.Props.MonteCarlo
import Verif.Props.NoModel
import Verif.Props.NormalityPower
import Verif.Props.OnLine
import Verif.Props.Order
import Verif.Props.OtherSizes
import Verif.Props.Package
import Verif.Props.PhiLog
import Verif.Props.Pli
import Verif.Props.PliBox
import Verif.Props.PliClt
import Verif.Props.PliComplement
import Verif.Props.PliDensity
import Verif.Props.PliDraw
import Verif.Props.PliHistory
import Verif.Props.PliInfluence
import Verif.Props.PliMirror
import Verif.Props.PliPod
import Verif.Props.PliThreshold
import Verif.Props.PliUnits
import Verif.Props.PliViews
import Verif.Props.Predictive
import Verif.Props.PseudoR2
import Verif.Props.QrBootstrapLimit
import Verif.Props.QrCensored
import Verif.Props.QrConsistency
import Verif.Props.QrInterrupted
import Verif.Props.QrMirror
import Verif.Props.QrOrder
import Verif.Props.QrOutlier
import Verif.Props.QrRun
import Verif.Props.QrThreshold
import Verif.Props.QuantileReg
import Verif.Props.R2Symmetry
import Verif.Props.RankLaw
import Verif.Props.ReducedLik
import Verif.Props.Replicates
import Verif.Props.ResidualVar
import Verif.Props.Sampling
import Verif.Props.SavedGraphs
import Verif.Props.Seed
import Verif.Props.Settings
import Verif.Props.SignalOutlier
import Verif.Props.SimLimit
import Verif.Props.SlopeInterval
import Verif.Props.Small
import Verif.Props.Sobol
import Verif.Props.SobolDesign
import Verif.Props.SobolFigures
import Verif.Props.SobolLimit
import Verif.Props.SobolMethods
import Verif.Props.SobolMirror
import Verif.Props.SobolUnits
import Verif.Props.Stability
import Verif.Props.Stats
import Verif.Props.StudentLaw
import Verif.Props.Summary
import Verif.Props.Summary2
import Verif.Props.SummaryText
import Verif.Props.TestReverse
import Verif.Props.TestTrend
import Verif.Props.TestUnits
import Verif.Props.ThreeTests
import Verif.Props.Threshold
import Verif.Props.Tightened
import Verif.Props.TruncCov
import Verif.Props.WeightedClt
import Verif.Props.WindowLaw
