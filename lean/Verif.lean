import Verif.Props.Agree
import Verif.Props.AlphaPath
import Verif.Props.Balance
import Verif.Props.Broadcast
import Verif.Props.Builtin
import Verif.Props.CD
import Verif.Props.CV
import Verif.Props.CVExact
import Verif.Props.CVSelect
import Verif.Props.CVUnits
import Verif.Props.Categorical
import Verif.Props.Codings
import Verif.Props.Collinear
import Verif.Props.Config
import Verif.Props.Criteria
import Verif.Props.Density
import Verif.Props.DensityAll
import Verif.Props.DensityIG
import Verif.Props.DensityTweedie
import Verif.Props.Diagnostics
import Verif.Props.Distribution
import Verif.Props.Drift
import Verif.Props.Drop
import Verif.Props.EndToEnd
import Verif.Props.Estimator
import Verif.Props.Exposure
import Verif.Props.External
import Verif.Props.Families
import Verif.Props.FastPath
import Verif.Props.FineGrid
import Verif.Props.Finite
import Verif.Props.Fit
import Verif.Props.Float
import Verif.Props.Formula
import Verif.Props.FormulaParse
import Verif.Props.Frequency
import Verif.Props.Grouping
import Verif.Props.GuessIntercept
import Verif.Props.Heap
import Verif.Props.HeapCV
import Verif.Props.HeapStages
import Verif.Props.Hessian
import Verif.Props.IRLS
import Verif.Props.Idle
import Verif.Props.Ieee
import Verif.Props.Inert
import Verif.Props.Inference
import Verif.Props.Influence
import Verif.Props.InnerLive
import Verif.Props.Inputs
import Verif.Props.KKT
import Verif.Props.Larger
import Verif.Props.Likelihood
import Verif.Props.Linear
import Verif.Props.LinearSq
import Verif.Props.Link
import Verif.Props.Merge
import Verif.Props.Mirror
import Verif.Props.MirrorCD
import Verif.Props.MirrorFit
import Verif.Props.MirrorSign
import Verif.Props.MonoPredict
import Verif.Props.Monotone
import Verif.Props.Names
import Verif.Props.Null
import Verif.Props.Offset
import Verif.Props.OneStep
import Verif.Props.OneStepFit
import Verif.Props.OuterLive
import Verif.Props.OuterLive2
import Verif.Props.OuterLive3
import Verif.Props.Overflow
import Verif.Props.Parallel
import Verif.Props.ParallelKernels
import Verif.Props.Penalty
import Verif.Props.Pickle
import Verif.Props.PosSemidef
import Verif.Props.PowerLink
import Verif.Props.Predict
import Verif.Props.PredictFloat
import Verif.Props.Quadratic
import Verif.Props.Random
import Verif.Props.Recode
import Verif.Props.Recover
import Verif.Props.Refit
import Verif.Props.Reorder
import Verif.Props.Report
import Verif.Props.ResponseUnits
import Verif.Props.Ridgeless
import Verif.Props.Rng
import Verif.Props.RowWise
import Verif.Props.Sample
import Verif.Props.Screening
import Verif.Props.Segments
import Verif.Props.Separation
import Verif.Props.SeparationFit
import Verif.Props.Shrink
import Verif.Props.Signs
import Verif.Props.Slack
import Verif.Props.Stability
import Verif.Props.Standardize
import Verif.Props.StepLive
import Verif.Props.StepLive2
import Verif.Props.Target
import Verif.Props.Tighten
import Verif.Props.Tighten2
import Verif.Props.Tighten3
import Verif.Props.Tighten4
import Verif.Props.Tighten5
import Verif.Props.Tikhonov
import Verif.Props.TweedieSeries
import Verif.Props.Units
import Verif.Props.VarFun
import Verif.Props.Wald
import Verif.Props.Weights
