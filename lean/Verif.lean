import Verif.Lemmas.Answers
import Verif.Lemmas.ApxCache
import Verif.Lemmas.ApxOptimal
import Verif.Lemmas.ApxRank
import Verif.Lemmas.ApxSearch
import Verif.Lemmas.ApxSolver
import Verif.Lemmas.ApxTop
import Verif.Lemmas.Basic
import Verif.Lemmas.CacheAll
import Verif.Lemmas.CacheHistory
import Verif.Lemmas.CacheInv
import Verif.Lemmas.Calls
import Verif.Lemmas.Clock
import Verif.Lemmas.CostCache
import Verif.Lemmas.CostFit
import Verif.Lemmas.CostOptimal
import Verif.Lemmas.CostSolve
import Verif.Lemmas.CostTerminal
import Verif.Lemmas.Counts
import Verif.Lemmas.Difference
import Verif.Lemmas.EquivPoints
import Verif.Lemmas.Fit
import Verif.Lemmas.Glm
import Verif.Lemmas.Heap
import Verif.Lemmas.Hits
import Verif.Lemmas.HitsSearch
import Verif.Lemmas.HitsTop
import Verif.Lemmas.KMeansAgree
import Verif.Lemmas.KMeansCache
import Verif.Lemmas.KMeansGroups
import Verif.Lemmas.KMeansLog
import Verif.Lemmas.KMeansPoints
import Verif.Lemmas.KMeansRow
import Verif.Lemmas.KMeansStop
import Verif.Lemmas.LeafBest
import Verif.Lemmas.LeafBestTree
import Verif.Lemmas.NoCache
import Verif.Lemmas.NoUpper
import Verif.Lemmas.Optimal
import Verif.Lemmas.Params
import Verif.Lemmas.Pareto
import Verif.Lemmas.ParetoSound
import Verif.Lemmas.ParetoTime
import Verif.Lemmas.ParetoTree
import Verif.Lemmas.Penalised
import Verif.Lemmas.PlainReg
import Verif.Lemmas.Policy
import Verif.Lemmas.Preprocess
import Verif.Lemmas.Prompt
import Verif.Lemmas.PwLine
import Verif.Lemmas.PwOptimal
import Verif.Lemmas.PwRat
import Verif.Lemmas.PwReal
import Verif.Lemmas.PwReturned
import Verif.Lemmas.PwSingle
import Verif.Lemmas.PwSound
import Verif.Lemmas.PwSteps
import Verif.Lemmas.PwTop
import Verif.Lemmas.Reader
import Verif.Lemmas.Rebuild
import Verif.Lemmas.RegCost
import Verif.Lemmas.RegFit
import Verif.Lemmas.RegGood
import Verif.Lemmas.Regression
import Verif.Lemmas.Returned
import Verif.Lemmas.ReturnedTop
import Verif.Lemmas.Search
import Verif.Lemmas.Segments
import Verif.Lemmas.Shallow
import Verif.Lemmas.Similarity
import Verif.Lemmas.Smawk
import Verif.Lemmas.Solver
import Verif.Lemmas.Sound
import Verif.Lemmas.SurvFit
import Verif.Lemmas.Survival
import Verif.Lemmas.Tasks
import Verif.Lemmas.Terminal
import Verif.Lemmas.TestCost
import Verif.Lemmas.TestScore
import Verif.Lemmas.Tol
import Verif.Lemmas.TolLeafBest
import Verif.Lemmas.TolReturned
import Verif.Lemmas.TolSound
import Verif.Lemmas.Top
import Verif.Lemmas.Tuning
import Verif.Model.Binarizer
import Verif.Model.BitSet
import Verif.Model.Cache
import Verif.Model.CacheHistory
import Verif.Model.ClfDraw
import Verif.Model.ClfEst
import Verif.Model.Colours
import Verif.Model.Columns
import Verif.Model.CostFit
import Verif.Model.CostSearch
import Verif.Model.CostSensitive
import Verif.Model.CostTable
import Verif.Model.CostVecs
import Verif.Model.Counts
import Verif.Model.Difference
import Verif.Model.EquivPoints
import Verif.Model.Estimator
import Verif.Model.Export
import Verif.Model.FairSearch
import Verif.Model.FeatureVec
import Verif.Model.Fit
import Verif.Model.FitTree
import Verif.Model.Folds
import Verif.Model.Front
import Verif.Model.FrontUB
import Verif.Model.Glm
import Verif.Model.HashMap
import Verif.Model.Heap
import Verif.Model.InstCosts
import Verif.Model.IntRange
import Verif.Model.IterMemo
import Verif.Model.KMeans
import Verif.Model.LabelRange
import Verif.Model.LeafMemo
import Verif.Model.LeafPlot
import Verif.Model.LinearLeaf
import Verif.Model.NewData
import Verif.Model.Node
import Verif.Model.ParamTable
import Verif.Model.Params
import Verif.Model.Pareto
import Verif.Model.ParetoHistory
import Verif.Model.ParetoTime
import Verif.Model.ParetoTree
import Verif.Model.PenTree
import Verif.Model.Penalised
import Verif.Model.PlainReg
import Verif.Model.PlotBars
import Verif.Model.PolEst
import Verif.Model.Policy
import Verif.Model.PolicyData
import Verif.Model.PolicyFit
import Verif.Model.Preprocess
import Verif.Model.Proba
import Verif.Model.PwGlm
import Verif.Model.PwSearch
import Verif.Model.PwTree
import Verif.Model.PySettings
import Verif.Model.Reader
import Verif.Model.ReaderX
import Verif.Model.RealTree
import Verif.Model.Reconstruct
import Verif.Model.RegFit
import Verif.Model.Regression
import Verif.Model.ResultSet
import Verif.Model.Rows
import Verif.Model.Sensitive
import Verif.Model.Session
import Verif.Model.SimpleLinear
import Verif.Model.Solver
import Verif.Model.SurvEst
import Verif.Model.SurvFit
import Verif.Model.SurvPy
import Verif.Model.Survival
import Verif.Model.Tasks
import Verif.Model.Terminal
import Verif.Model.TestCost
import Verif.Model.TestLine
import Verif.Model.TestRows
import Verif.Model.TestScore
import Verif.Model.Tiny
import Verif.Model.Tol
import Verif.Model.TolTree
import Verif.Model.TreeObj
import Verif.Model.Tuning
import Verif.Model.VecEst
import Verif.Model.View
import Verif.Props.Binarizer
import Verif.Props.Bounds
import Verif.Props.CacheBounds
import Verif.Props.CacheHistory
import Verif.Props.ClfDraw
import Verif.Props.ClfEst
import Verif.Props.Colours
import Verif.Props.Columns
import Verif.Props.CostSearch
import Verif.Props.CostSensitive
import Verif.Props.CostTable
import Verif.Props.CostVecs
import Verif.Props.Counts
import Verif.Props.DataKey
import Verif.Props.Difference
import Verif.Props.EquivPoints
import Verif.Props.Estimator
import Verif.Props.Export
import Verif.Props.FairSearch
import Verif.Props.Fairness
import Verif.Props.FeatureVec
import Verif.Props.Folds
import Verif.Props.Front
import Verif.Props.FrontCache
import Verif.Props.FrontUB
import Verif.Props.Glm
import Verif.Props.GlmStop
import Verif.Props.HashMap
import Verif.Props.IntRange
import Verif.Props.IterMemo
import Verif.Props.KMeans
import Verif.Props.LabelRange
import Verif.Props.LeafMemo
import Verif.Props.LeafPlot
import Verif.Props.LinearLeaf
import Verif.Props.Majority
import Verif.Props.NewData
import Verif.Props.NoUpper
import Verif.Props.NodeLimit
import Verif.Props.Optimal
import Verif.Props.Params
import Verif.Props.Pareto
import Verif.Props.ParetoTime
import Verif.Props.ParetoTree
import Verif.Props.Paths
import Verif.Props.PenTree
import Verif.Props.Penalised
import Verif.Props.PlainReg
import Verif.Props.PlotBars
import Verif.Props.PolEst
import Verif.Props.Policy
import Verif.Props.PolicyData
import Verif.Props.PolicyFit
import Verif.Props.Preprocess
import Verif.Props.Proba
import Verif.Props.Prompt
import Verif.Props.PwGlm
import Verif.Props.PwSearch
import Verif.Props.PwTree
import Verif.Props.PySettings
import Verif.Props.Queue
import Verif.Props.Reader
import Verif.Props.ReaderX
import Verif.Props.RealTree
import Verif.Props.Reconstruct
import Verif.Props.RegFit
import Verif.Props.RegSpec
import Verif.Props.Regression
import Verif.Props.ResultSet
import Verif.Props.RootFair
import Verif.Props.Rows
import Verif.Props.Sensitive
import Verif.Props.Session
import Verif.Props.Similarity
import Verif.Props.SimpleLinear
import Verif.Props.Split
import Verif.Props.SurvEst
import Verif.Props.SurvFit
import Verif.Props.SurvPy
import Verif.Props.Survival
import Verif.Props.Tasks
import Verif.Props.Terminal
import Verif.Props.TestCost
import Verif.Props.TestLine
import Verif.Props.TestRows
import Verif.Props.TestScore
import Verif.Props.Timeout
import Verif.Props.Tiny
import Verif.Props.Tol
import Verif.Props.Trees
import Verif.Props.TuneFolds
import Verif.Props.Tuning
import Verif.Props.VecEst
import Verif.Props.Within
import Verif.PwSpec
import Verif.Spec
import Verif.SurvSpec
