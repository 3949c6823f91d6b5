import Verif.Props.Util
import Verif.Props.UtilMisc
import Verif.Props.Integrate
import Verif.Props.Projective
import Verif.Props.FubiniStudy
import Verif.Props.Differential
import Verif.Props.Polynomial
import Verif.Props.PolyOps
import Verif.Props.HomPoly
import Verif.Props.FromSympy
import Verif.Props.Variety
import Verif.Props.VarietyGeometry
import Verif.Props.Sampling
import Verif.Props.SolveDefining
import Verif.Props.Cholesky
import Verif.Props.BatchSampler
import Verif.Props.Loss
import Verif.Props.HNet
import Verif.Props.Random
import Verif.Props.RandomLaw
import Verif.Props.Annulus
import Verif.Props.Sphere
import Verif.Props.DonaldsonBasis
import Verif.Props.Sections
import Verif.Props.Geometry
import Verif.Props.MetricDerivatives
import Verif.Props.Curvature
import Verif.Props.DonaldsonStep
import Verif.Props.DonaldsonReduced
import Verif.Props.CurvatureDependent
import Verif.Props.Global
import Verif.Props.AlgebraicMetric
import Verif.Props.LocalCoordinates
import Verif.Props.CurvatureGlobal
import Verif.Props.Smooth
import Verif.Props.Accuracy
import Verif.Props.Volume
import Verif.Props.DonaldsonIteration
import Verif.Props.AlmostSure
import Verif.Props.VarietyFromSympy
import Verif.Props.PolyBookkeeping
import Verif.Spec.FubiniStudyH
import Verif.Props.FubiniStudyH
import Verif.Model.TrainScript
import Verif.Spec.Training
import Verif.Props.Training
import Verif.Props.TrainingLoss
import Verif.Props.TrainScript
import Verif.Spec.Family
import Verif.Lemmas.GenericSmooth
import Verif.Lemmas.Family
import Verif.Lemmas.ModuliLines
import Verif.Props.RandomModuli
import Verif.Lemmas.VarietyFromSympy
import Verif.Lemmas.FormExpr
import Verif.Props.QuinticConfig
import Verif.Spec.Keys
import Verif.Lemmas.BatchSampler
import Verif.Model.TrainLoop
import Verif.Spec.TrainLoop
import Verif.Lemmas.TrainLoop
import Verif.Props.TrainLoop
import Verif.Spec.HolomorphicVolume
import Verif.Lemmas.RootSum
import Verif.Lemmas.CurveSwap
import Verif.Lemmas.ComplexGaussian
import Verif.Lemmas.NormalDensity
import Verif.Lemmas.ConeCoordinates
import Verif.Lemmas.ConeIntegral
import Verif.Lemmas.ConeAverage
import Verif.Lemmas.ConeScaling
import Verif.Lemmas.LineAverage
import Verif.Lemmas.SampleLines
import Verif.Lemmas.SheetMeasure
import Verif.Lemmas.WeightAverage
import Verif.Lemmas.LineSum
import Verif.Lemmas.CyMeasure
import Verif.Lemmas.SampleSums
import Verif.Lemmas.MonteCarlo
import Verif.Lemmas.Concentration
import Verif.Spec.MonteCarlo
import Verif.Props.MonteCarlo
import Verif.Props.Convergence
import Verif.Spec.AccuracyLimit
import Verif.Lemmas.EtaMeasure
import Verif.Lemmas.SigmaLimit
import Verif.Props.AccuracyLimit
import Verif.Spec.DonaldsonLimit
import Verif.Lemmas.DonaldsonLimit
import Verif.Props.DonaldsonLimit
import Verif.Lemmas.ProjectiveLaw
import Verif.Props.ProjectiveLaw
import Verif.Model.PolyScalar
import Verif.Spec.PolyScalar
import Verif.Props.PolyScalar
import Verif.Model.FromSympyForms
import Verif.Spec.FromSympyForms
import Verif.Lemmas.FromSympyForms
import Verif.Props.FromSympyForms
import Verif.Lemmas.PolynomialGrowth
import Verif.Lemmas.ConeConnected
import Verif.Lemmas.Pluriharmonic
import Verif.Lemmas.RicciFlat
import Verif.Props.RicciFlat
import Verif.Lemmas.HermitianForms
import Verif.Lemmas.Balanced
import Verif.Lemmas.BalancedExists
import Verif.Lemmas.BalancedAttract
import Verif.Spec.Balanced
import Verif.Lemmas.BalancedSections
import Verif.Props.Balanced
import Verif.Lemmas.StepLimit
import Verif.Props.BalancedLimit
import Verif.Lemmas.Hoeffding
import Verif.Props.ExpBounds
import Verif.Props.Rows
import Verif.Model.Keys
import Verif.Spec.KeyTree
import Verif.Lemmas.KeyTree
import Verif.Props.KeyUse
import Verif.Model.PolyDefaults
import Verif.Spec.PolyDefaults
import Verif.Props.PolyDefaults
import Verif.Lemmas.SphereLaw
import Verif.Props.SphereLaw
import Verif.Model.LossGrad
import Verif.Props.LossGrad
import Verif.Lemmas.TrainDiff
import Verif.Props.TrainDiff
import Verif.Lemmas.VolVariance
import Verif.Props.VolVariance
import Verif.Model.UniCoeffs
import Verif.Lemmas.UniCoeffs
import Verif.Props.UniCoeffs
import Verif.Lemmas.LineClash
import Verif.Props.LineClash
import Verif.Spec.Network
import Verif.Props.Network
import Verif.Model.FsBatch
import Verif.Props.FsBatch
import Verif.Model.EvalHeap
import Verif.Spec.EvalHeap
import Verif.Props.EvalHeap
import Verif.Lemmas.HopfMax
import Verif.Lemmas.LeviTrace
import Verif.Lemmas.RicciScalar
import Verif.Props.RicciScalar
import Verif.Lemmas.FubiniStudyLow
import Verif.Props.FubiniStudyFlat
import Verif.Lemmas.NullLagrangian
import Verif.Lemmas.ChartChange
import Verif.Lemmas.VolumeInvariance
import Verif.Lemmas.KahlerVolume
import Verif.Spec.KahlerVolume
import Verif.Props.KahlerVolume
import Verif.Model.Plot
import Verif.Spec.Plot
import Verif.Lemmas.Plot
import Verif.Props.Plot
import Verif.Spec.Symmetry
import Verif.Lemmas.Symmetry
import Verif.Lemmas.SymmetrySections
import Verif.Lemmas.SymmetryEta
import Verif.Lemmas.SymmetryRicci
import Verif.Props.Symmetry
import Verif.Model.Batch
import Verif.Spec.Broadcast
import Verif.Lemmas.Broadcast
import Verif.Props.Batch
import Verif.Model.Printing
import Verif.Spec.Printing
import Verif.Lemmas.Printing
import Verif.Props.Printing
import Verif.Model.TransformEval
import Verif.Spec.TransformEval
import Verif.Props.TransformEval
import Verif.Model.Rounding
import Verif.Spec.Rounding
import Verif.Lemmas.Rounding
import Verif.Lemmas.RoundingOps
import Verif.Props.Rounding
import Verif.Model.RoundingSections
import Verif.Spec.RoundingSections
import Verif.Lemmas.RoundingSections
import Verif.Props.RoundingSections
import Verif.Model.RoundingAccuracy
import Verif.Spec.RoundingAccuracy
import Verif.Lemmas.RoundingAccuracy
import Verif.Props.RoundingAccuracy
import Verif.Model.RoundingProjective
import Verif.Lemmas.RoundingProjective
import Verif.Props.RoundingProjective
import Verif.Spec.ApproxRoots
import Verif.Lemmas.ApproxRoots
import Verif.Props.ApproxRoots
import Verif.Spec.StepErrors
import Verif.Lemmas.StepErrors
import Verif.Props.StepErrors
import Verif.Model.RoundingStep
import Verif.Lemmas.RoundingStep
import Verif.Props.RoundingStep
import Verif.Model.RoundingWeights
import Verif.Spec.RoundingWeights
import Verif.Lemmas.RoundingWeights
import Verif.Props.RoundingWeights
import Verif.Model.RoundingEta
import Verif.Spec.RoundingEta
import Verif.Lemmas.RoundingEta
import Verif.Props.RoundingEta
import Verif.Spec.RoundingUniform
import Verif.Lemmas.RoundingUniform
import Verif.Lemmas.RoundingUniformCompact
import Verif.Props.RoundingUniform
import Verif.Spec.RoundingIteration
import Verif.Lemmas.RoundingIteration
import Verif.Props.RoundingIteration
import Verif.Spec.RoundingPipeline
import Verif.Lemmas.RoundingPipeline
import Verif.Props.RoundingPipeline
import Verif.Model.RoundingIntegrate
import Verif.Lemmas.RoundingIntegrate
import Verif.Props.RoundingIntegrate
import Verif.Model.RoundingCholesky
import Verif.Spec.RoundingCholesky
import Verif.Lemmas.RoundingCholesky
import Verif.Props.RoundingCholesky
import Verif.Model.RoundingLoss
import Verif.Spec.RoundingLoss
import Verif.Lemmas.RoundingLoss
import Verif.Props.RoundingLoss
import Verif.Props.RoundingTraining
import Verif.Spec.LossLimit
import Verif.Lemmas.LossLimit
import Verif.Props.LossLimit
import Verif.Props.LossTraining
import Verif.Spec.SampledRounding
import Verif.Lemmas.SampledRounding
import Verif.Props.SampledRounding
import Verif.Model.SubscriptForms
import Verif.Lemmas.SubscriptForms
import Verif.Props.SubscriptForms
import Verif.Model.PolyClass
import Verif.Lemmas.PolyClass
import Verif.Props.PolyClass
import Verif.Model.InputSizes
import Verif.Spec.InputSizes
import Verif.Lemmas.InputSizes
import Verif.Props.InputSizes
import Verif.Spec.UniformLoss
import Verif.Lemmas.UniformLoss
import Verif.Lemmas.UniformNetwork
import Verif.Props.UniformLoss
import Verif.Lemmas.UniformAccuracy
import Verif.Props.UniformAccuracy
import Verif.Spec.PolyArith
import Verif.Props.PolyArith
import Verif.Lemmas.Coverage
import Verif.Props.Coverage
import Verif.Spec.IidSample
import Verif.Props.IntegrateCoverage
import Verif.Model.UtilVector
import Verif.Props.IntegrateVector
import Verif.Props.InitFluctuation
import Verif.Props.ModuliLaw
import Verif.Model.SympyNum
import Verif.Spec.SympyNum
import Verif.Props.SympyNum
import Verif.Lemmas.LossNormal
import Verif.Props.LossNormal
import Verif.Lemmas.StepNormal
import Verif.Props.StepNormal
import Verif.Lemmas.AllCounts
import Verif.Props.AccuracyNormal
import Verif.Props.LossCounts
import Verif.Lemmas.NormalSum
import Verif.Lemmas.LossCounts
import Verif.Spec.LossVariance
import Verif.Props.TrainingNormal
import Verif.Lemmas.EtaCurve
import Verif.Lemmas.EtaDerivative
import Verif.Lemmas.GradientGap
import Verif.Spec.GradientLimit
import Verif.Props.GradientLimit
import Verif.Lemmas.NetworkSmooth
import Verif.Lemmas.StepGradient
import Verif.Props.StepGradient
