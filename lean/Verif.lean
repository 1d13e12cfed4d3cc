import Verif.Props.Data
import Verif.Props.Mean
import Verif.Props.Coreset
import Verif.Props.HerdingLaws
import Verif.Props.HerdingCases
import Verif.Props.Stein
import Verif.Props.Metrics
import Verif.Props.Amcmd
import Verif.Props.KernelGrad
import Verif.Props.Kernel
import Verif.Props.SteinKernel
import Verif.Props.Random
import Verif.Props.LeastSquares
import Verif.Props.GKPLoss
import Verif.Props.GkpMulti
import Verif.Props.ThinningCases
import Verif.Props.MapReduceCases
import Verif.Props.TreeRecombination
import Verif.Props.RecombinationCases
import Verif.Props.WeightsCases
import Verif.Props.ApproximationCases
import Verif.Props.Util
import Verif.Props.Median
import Verif.Props.Scripts
import Verif.Props.Calendar
import Verif.Props.Performance
import Verif.Props.Copyright
import Verif.Props.RecombinationCutoff
import Verif.Props.Timing
import Verif.Props.Softmax
import Verif.Lemmas.HerdingRate
import Verif.Props.HerdingRate
import Verif.Props.HerdingRateCases
import Verif.Props.SteinRate
import Verif.Props.RateEndToEnd
import Verif.Spec.Draws
import Verif.Lemmas.HalvingWalk
import Verif.Props.ThinningRate
import Verif.Props.ThinningKey
import Verif.Props.ThinningRateReduce
import Verif.Model.SlicedScore
import Verif.Spec.Score
import Verif.Lemmas.ScoreMatching
import Verif.Lemmas.SteinMean
import Verif.Props.SlicedScore
import Verif.Props.SlicedScoreCases
import Verif.Props.ScoreTraining
import Verif.Props.ScoreNoise
import Verif.Lemmas.PivotTrace
import Verif.Lemmas.PivotRun
import Verif.Lemmas.PivotMean
import Verif.Props.PivotRate
import Verif.Props.PivotBest
import Verif.Model.SteinSolver
import Verif.Props.SteinSolver
import Verif.Model.Supervised
import Verif.Props.Supervised
import Verif.Props.SqrtKernel
import Verif.Lemmas.SampleMean
import Verif.Props.RandomRate
import Verif.Lemmas.MapReduceMean
import Verif.Props.MapReduceRate
import Verif.Model.Benchmarks
import Verif.Props.BlobsBenchmark
import Verif.Props.BenchmarkTables
import Verif.Props.MnistBenchmark
import Verif.Model.Cubature
import Verif.Props.Cubature
import Verif.Model.ApproxHerding
import Verif.Props.ApproxHerding
import Verif.Props.NystromHerding
import Verif.Props.ProbabilisticHerding
import Verif.Model.IterativeHerding
import Verif.Props.IterativeHerding
import Verif.Props.Reweighting
import Verif.Model.Rounding
import Verif.Model.RoundedHerding
import Verif.Spec.Rounding
import Verif.Lemmas.Rounding
import Verif.Props.Rounding
import Verif.Props.RoundedHerding
import Verif.Lemmas.ExtReal
import Verif.Model.BenchmarkUtil
import Verif.Props.BenchmarkUtil
import Verif.Props.Equivariance
import Verif.Props.RecombinationError
import Verif.Props.TreeRecombinationError
import Verif.Props.CompressError
import Verif.Props.PivotRank
import Verif.Props.PivotQuadrature
import Verif.Props.HerdingFast
import Verif.Model.FloatLog
import Verif.Props.FloatLog
import Verif.Props.FloatLogCases
import Verif.Model.Examples
import Verif.Props.GkpExample
import Verif.Props.ModelPipeline
import Verif.Props.DavidExample
import Verif.Props.NormalisedKernel
import Verif.Props.SteinIdentity
import Verif.Model.RequireUtf8
import Verif.Props.RequireUtf8
import Verif.Props.FormatTime
import Verif.Props.Stability
import Verif.Model.Pounce
import Verif.Props.Pounce
import Verif.Model.PerformanceReport
import Verif.Props.PerformanceReport
import Verif.Model.HerdingExamples
import Verif.Props.HerdingExamples
import Verif.Props.SteinExamples
import Verif.Spec.Strict
import Verif.Lemmas.Strict
import Verif.Props.Strict
import Verif.Spec.Population
import Verif.Lemmas.Population
import Verif.Props.Population
import Verif.Props.MeanTrace
import Verif.Lemmas.SteinStrict
import Verif.Props.SteinStrict
import Verif.Model.BlobsRow
import Verif.Props.BlobsRow
import Verif.Props.Copies
import Verif.Props.Nested
import Verif.Props.BadRows
import Verif.Props.Duality
import Verif.Props.Extremes
import Verif.Props.KernelSums
import Verif.Model.ExtKernel
import Verif.Model.ExtSolvers
import Verif.Lemmas.ExtKernel
import Verif.Props.NotANumber
import Verif.Props.NanSolvers
import Verif.Props.ScoreError
import Verif.Props.MoreCases
import Verif.Props.KernelError
import Verif.Props.RecombinationMmd
import Verif.Props.SteinHerding
import Verif.Model.KernelParams
import Verif.Model.MnistLoss
import Verif.Model.GaussianKde
import Verif.Props.KernelParams
import Verif.Props.MnistLoss
import Verif.Props.GaussianKde
import Verif.Lemmas.Settle
import Verif.Props.Settles
import Verif.Props.SettlesExperiment
import Verif.Props.GKPSettles
import Verif.Model.ExampleMains
import Verif.Props.ExampleMains
import Verif.Model.ExtGkp
import Verif.Props.NanGkp
import Verif.Model.ExtStein
import Verif.Props.NanStein
import Verif.Props.SteinRegRate
import Verif.Model.RoundedStein
import Verif.Props.RoundedStein
import Verif.Model.RoundedKSD
import Verif.Lemmas.RoundedSigned
import Verif.Props.RoundedKSD
import Verif.Model.RoundedPcimq
import Verif.Props.RoundedPcimq
import Verif.Props.NanPower
import Verif.Props.SelectionSize
import Verif.Model.RoundedExp
import Verif.Props.RoundedExp
import Verif.Props.RoundedHerdingSigned
import Verif.Props.RoundedSteinEnd
import Verif.Model.RoundedKernel
import Verif.Props.RoundedKernel
import Verif.Model.RoundedMatern
import Verif.Props.RoundedMatern
import Verif.Model.RoundedPeriodic
import Verif.Props.RoundedPeriodic
