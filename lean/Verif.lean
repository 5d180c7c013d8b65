import Verif.Model.Py
import Verif.Model.Config
import Verif.Lemmas.Config
import Verif.Props.Config
import Verif.Model.Util
import Verif.Props.Sampling
import Verif.Props.Quantize
import Verif.Props.Ragged
import Verif.Props.Parallel
import Verif.Model.Rand
import Verif.Model.Structure
import Verif.Spec.Tree
import Verif.Lemmas.Complete
import Verif.Props.Complete
import Verif.Props.TreeStructure
import Verif.Lemmas.Tree
import Verif.Lemmas.Program
import Verif.Lemmas.Center
import Verif.Spec.Program
import Verif.Props.Program
import Verif.Lemmas.JitSet
import Verif.Lemmas.Split
import Verif.Lemmas.SampleTree
import Verif.Lemmas.SampleStep
import Verif.Spec.SampleTree
import Verif.Props.SampleTree
import Verif.Lemmas.Gibbs
import Verif.Props.Gibbs
import Verif.Spec.Mst
import Verif.Props.EstimateTree
import Verif.Lemmas.Dfs
import Verif.Spec.Outline
import Verif.Props.Print
import Verif.Props.Order
import Verif.Model.Anneal
import Verif.Spec.Anneal
import Verif.Props.Anneal
import Verif.Lemmas.SumOver
import Verif.Lemmas.Message
import Verif.Model.Training
import Verif.Spec.Trainer
import Verif.Lemmas.Trainer
import Verif.Lemmas.Train
import Verif.Props.Trainer
import Verif.Props.OutOfRange
import Verif.Props.Train
import Verif.Lemmas.Outward
import Verif.Spec.Likelihood
import Verif.Lemmas.RowCell
import Verif.Lemmas.RowDraw
import Verif.Lemmas.Likelihood
import Verif.Props.RowGibbs
import Verif.Props.EdgeLogits
import Verif.Model.Ensemble
import Verif.Props.TrainEnsemble
import Verif.Model.Serving
import Verif.Spec.Serving
import Verif.Lemmas.Server
import Verif.Lemmas.ServeMsg
import Verif.Props.Logprob
import Verif.Props.LogprobSum
import Verif.Props.TrainedModel
import Verif.Lemmas.ServeDraw
import Verif.Lemmas.ServeLaw
import Verif.Props.ServerSample
import Verif.Lemmas.Under
import Verif.Spec.Evidence
import Verif.Lemmas.Marginal
import Verif.Props.Marginals
import Verif.Props.Median
import Verif.Spec.Info
import Verif.Lemmas.Entropy
import Verif.Lemmas.Pair
import Verif.Props.Correlation
import Verif.Props.Perplexity
import Verif.Props.Ensemble
import Verif.Props.EnsembleSample
import Verif.Model.Dict
import Verif.Model.Format
import Verif.Spec.Format
import Verif.Lemmas.Dict
import Verif.Lemmas.Guess
import Verif.Lemmas.Schema
import Verif.Props.Normalize
import Verif.Props.GuessSchema
import Verif.Model.Csv
import Verif.Model.FormatText
import Verif.Props.LoadSchema
import Verif.Props.LoadGuess
import Verif.Props.Csv
import Verif.Props.FormatText
import Verif.Lemmas.Blocks
import Verif.Props.Rows
import Verif.Props.LoadData
import Verif.Props.ImportData
import Verif.Model.DataServer
import Verif.Props.DataServer
import Verif.Props.ServeImport
import Verif.Props.SampleEmpty
import Verif.Lemmas.Lists
import Verif.Model.Validate
import Verif.Props.Folds
import Verif.Props.ReadParams
import Verif.Props.CrossValidation
import Verif.Props.Evaluate
import Verif.Props.EnsembleLaw
import Verif.Props.SampleLogprob
import Verif.Model.Join
import Verif.Props.Join
import Verif.Model.JoinCsv
import Verif.Props.JoinCsv
import Verif.Model.Counters
import Verif.Props.Counters
import Verif.Lemmas.Det
import Verif.Lemmas.Avg
import Verif.Spec.Posterior
import Verif.Props.Posterior
import Verif.Props.Convergence
import Verif.Props.TrainConverges
import Verif.Model.Generate
import Verif.Props.Generate
import Verif.Props.CleanDataset
import Verif.Props.TreeSamples
import Verif.Model.Plotting
import Verif.Spec.Plotting
import Verif.Spec.FloatExp
import Verif.Props.Plotting
import Verif.Props.PlottingMore
import Verif.Props.SimpleGraph
import Verif.Tests.Structure
import Verif.Model.CommandLine
import Verif.Props.QuickStart
import Verif.Props.CommandFiles
import Verif.Model.EdgeLoop
import Verif.Props.EdgeLoop
import Verif.Model.GenerateFiles
import Verif.Props.GenerateFiles
import Verif.Model.Float
import Verif.Lemmas.Float
import Verif.Props.FloatSample
import Verif.Lemmas.FloatMono
import Verif.Model.FloatRow
import Verif.Props.FloatDrift
import Verif.Lemmas.FloatRow
import Verif.Props.FloatRow
import Verif.Props.FloatTrainer
import Verif.Props.FloatExact
import Verif.Model.Gauss
import Verif.Props.Unfinished
import Verif.Props.GaussStats
import Verif.Model.Profiling
import Verif.Props.Profiling
import Verif.Model.ProfileRun
import Verif.Props.ProfileRun
import Verif.Model.Seed
import Verif.Lemmas.Seed
import Verif.Props.Seed
import Verif.Model.FloatServe
import Verif.Lemmas.FloatServe
import Verif.Props.FloatServe
import Verif.Props.FloatServeExact
import Verif.Props.FloatServeBad
import Verif.Model.FloatAnneal
import Verif.Props.FloatAnneal
import Verif.Lemmas.FloatNear
import Verif.Lemmas.FloatServeNear
import Verif.Lemmas.FloatTree
import Verif.Props.FloatLogNear
import Verif.Props.FloatLogBad
import Verif.Model.FloatQuant
import Verif.Model.FloatTree
import Verif.Props.FloatQuant
import Verif.Props.FloatQuantMedian
import Verif.Props.FloatMarginalNear
import Verif.Props.FloatTree
import Verif.Lemmas.MstOrder
import Verif.Model.FloatEstimate
import Verif.Props.FloatEstimate
import Verif.Lemmas.LogGamma
import Verif.Model.FloatEdge
import Verif.Spec.FloatGamma
import Verif.Props.FloatEdge
import Verif.Model.FloatLearn
import Verif.Props.FloatLearn
import Verif.Lemmas.Close
import Verif.Lemmas.FloatDraws
import Verif.Lemmas.FloatRowNear
import Verif.Lemmas.FloatRowOut
import Verif.Props.FloatRowLaw
import Verif.Lemmas.FloatHub
import Verif.Props.FloatHub
import Verif.Lemmas.FloatDrawList
import Verif.Lemmas.FloatSampleFeat
import Verif.Lemmas.FloatSampleIn
import Verif.Lemmas.FloatSampleOut
import Verif.Props.FloatSampleNear
import Verif.Lemmas.FloatServeHub
import Verif.Props.FloatServeHub
import Verif.Model.FloatTrain
import Verif.Lemmas.FloatTrain
import Verif.Lemmas.FloatTrainSim
import Verif.Props.FloatTrain
import Verif.Lemmas.FloatClear
import Verif.Props.FloatTrainAll
import Verif.Props.FloatClear
import Verif.Props.DataQueries
import Verif.Model.FloatEnsemble
import Verif.Props.FloatEnsemble
import Verif.Model.FloatInfo
import Verif.Lemmas.FloatInfo
import Verif.Props.FloatInfo
import Verif.Props.FloatInfoNan
import Verif.Props.FloatPerplexity
import Verif.Lemmas.FloatServeClear
import Verif.Props.FloatServeClear
import Verif.Props.FloatMarginalClear
import Verif.Props.FloatTrainServe
import Verif.Props.FloatTrainEnsemble
import Verif.Model.Scope
import Verif.Props.Scope
import Verif.Model.ServeSeed
import Verif.Model.ServeSplit
import Verif.Props.Groups
import Verif.Props.ServeSeed
import Verif.Props.EnsembleSplit
import Verif.Lemmas.ShufflePosition
import Verif.Props.EnsembleTreesSplit
import Verif.Model.CsvLimit
import Verif.Props.CsvLimit
import Verif.Props.GroupsPrior
import Verif.Model.ProfileEval
import Verif.Props.Validation
import Verif.Model.TreeInf
import Verif.Model.TrainInf
import Verif.Model.ServeInf
import Verif.Lemmas.GibbsInf
import Verif.Props.TreeInf
import Verif.Props.TreeInfGibbs
import Verif.Props.EstimateInf
import Verif.Props.TrainInf
import Verif.Props.TrainInfFinite
import Verif.Props.ServeInf
import Verif.Props.TreeSamplesInf
import Verif.Props.ConvergenceInf
import Verif.Props.TrainConvergesInf
import Verif.Props.ServeInfFinite
import Verif.Model.TrainSeries
import Verif.Props.TrainSeries
import Verif.Props.Symmetry
import Verif.Props.SymmetryCols
import Verif.Props.SymmetryServe
import Verif.Props.SymmetryServeCols
import Verif.Props.EnsemblePredictive
import Verif.Props.EnsembleTail
import Verif.Props.EnsembleDrawn
import Verif.Props.EnsembleDrawnTail
import Verif.Props.Cat
import Verif.Props.AssertEqual
import Verif.Props.NoJit
import Verif.Props.TrainPredictive
import Verif.Props.TrainPredictiveCols
import Verif.Props.TrainPredictiveRows
