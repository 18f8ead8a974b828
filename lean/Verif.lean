import Verif.Lemmas.Again
import Verif.Lemmas.Agree
import Verif.Lemmas.BasicSolve
import Verif.Lemmas.Batch
import Verif.Lemmas.BatchMissing
import Verif.Lemmas.Bfs
import Verif.Lemmas.BfsCycle
import Verif.Lemmas.BfsPath
import Verif.Lemmas.Binding
import Verif.Lemmas.Block
import Verif.Lemmas.Collapse
import Verif.Lemmas.CollapseForm
import Verif.Lemmas.Columns
import Verif.Lemmas.Commands
import Verif.Lemmas.Compose
import Verif.Lemmas.CostCover
import Verif.Lemmas.CsvHome
import Verif.Lemmas.Cut
import Verif.Lemmas.Cuts
import Verif.Lemmas.Dataset
import Verif.Lemmas.Detour
import Verif.Lemmas.Dijkstra
import Verif.Lemmas.DijkstraExists
import Verif.Lemmas.Direction
import Verif.Lemmas.DisjointMap
import Verif.Lemmas.DomExamples
import Verif.Lemmas.Easier
import Verif.Lemmas.EasierExamples
import Verif.Lemmas.EdgeOrder
import Verif.Lemmas.EightExample
import Verif.Lemmas.Experiments
import Verif.Lemmas.Extension
import Verif.Lemmas.ExtensionLoop
import Verif.Lemmas.Filter
import Verif.Lemmas.Float
import Verif.Lemmas.Flow
import Verif.Lemmas.FlowExists
import Verif.Lemmas.Gain
import Verif.Lemmas.GraphCycle
import Verif.Lemmas.GraphUtil
import Verif.Lemmas.Ieee
import Verif.Lemmas.Job
import Verif.Lemmas.Knapsack
import Verif.Lemmas.Lab
import Verif.Lemmas.LabExamples
import Verif.Lemmas.LabResult
import Verif.Lemmas.Load
import Verif.Lemmas.Logs
import Verif.Lemmas.LowerQuota
import Verif.Lemmas.Machine
import Verif.Lemmas.MachineLoops
import Verif.Lemmas.Maxflow
import Verif.Lemmas.MaxflowBits
import Verif.Lemmas.MaxflowCut
import Verif.Lemmas.NamedIn
import Verif.Lemmas.Premature
import Verif.Lemmas.Preprocess
import Verif.Lemmas.Pretty
import Verif.Lemmas.PyHeuristic
import Verif.Lemmas.Regular
import Verif.Lemmas.Renaming
import Verif.Lemmas.Reorder
import Verif.Lemmas.Repeats
import Verif.Lemmas.RepeatsBind
import Verif.Lemmas.RepeatsHeur
import Verif.Lemmas.Replace
import Verif.Lemmas.Rerun
import Verif.Lemmas.Root
import Verif.Lemmas.RowNames
import Verif.Lemmas.Rows
import Verif.Lemmas.RowsDegree
import Verif.Lemmas.RowsTour
import Verif.Lemmas.RunAlgorithm
import Verif.Lemmas.RunStats
import Verif.Lemmas.SameCycle
import Verif.Lemmas.Search
import Verif.Lemmas.SearchEnds
import Verif.Lemmas.SearchSolve
import Verif.Lemmas.SearchSound
import Verif.Lemmas.SimpleCycle
import Verif.Lemmas.Single
import Verif.Lemmas.Solve
import Verif.Lemmas.SolveBind
import Verif.Lemmas.SolveLoops
import Verif.Lemmas.Sort
import Verif.Lemmas.Split
import Verif.Lemmas.SplitExamples
import Verif.Lemmas.SplitExists
import Verif.Lemmas.Subpath
import Verif.Lemmas.Summary
import Verif.Lemmas.SuurballeComplete
import Verif.Lemmas.SuurballeExact
import Verif.Lemmas.SuurballeExamples
import Verif.Lemmas.SuurballeExtract
import Verif.Lemmas.SuurballeFlow
import Verif.Lemmas.SuurballeInit
import Verif.Lemmas.SuurballeOrder
import Verif.Lemmas.SuurballeResidual
import Verif.Lemmas.SuurballeRun
import Verif.Lemmas.SuurballeScan
import Verif.Lemmas.SuurballeSimple
import Verif.Lemmas.SuurballeTree
import Verif.Lemmas.Tables
import Verif.Lemmas.TablesDir
import Verif.Lemmas.TolSearch
import Verif.Lemmas.Tolerance
import Verif.Lemmas.ToleranceTour
import Verif.Lemmas.Twice
import Verif.Lemmas.TwiceSolve
import Verif.Lemmas.TwiceVec
import Verif.Lemmas.UnitaryLoss
import Verif.Lemmas.Units
import Verif.Lemmas.UnitsFloat
import Verif.Lemmas.VertexNames
import Verif.Lemmas.Vial
import Verif.Lemmas.Walk
import Verif.Lemmas.Wrappers
import Verif.Model.Archive
import Verif.Model.BasicSolve
import Verif.Model.Batch
import Verif.Model.Binding
import Verif.Model.BranchDepth
import Verif.Model.Branching
import Verif.Model.Collapse
import Verif.Model.Columns
import Verif.Model.Commands
import Verif.Model.CostCover
import Verif.Model.CsvHome
import Verif.Model.Cut
import Verif.Model.Dataset
import Verif.Model.DatasetCommand
import Verif.Model.Dijkstra
import Verif.Model.DisjointMap
import Verif.Model.Enforce
import Verif.Model.EnforceAnswer
import Verif.Model.Events
import Verif.Model.Experiments
import Verif.Model.Extension
import Verif.Model.Filter
import Verif.Model.Float
import Verif.Model.Gain
import Verif.Model.Graph
import Verif.Model.GraphCycle
import Verif.Model.GraphUtil
import Verif.Model.Job
import Verif.Model.Knapsack
import Verif.Model.Lab
import Verif.Model.LabHome
import Verif.Model.Load
import Verif.Model.Logger
import Verif.Model.Logs
import Verif.Model.Machine
import Verif.Model.Maxflow
import Verif.Model.NodeGap
import Verif.Model.OneRun
import Verif.Model.Params
import Verif.Model.Plot
import Verif.Model.Preprocess
import Verif.Model.Pretty
import Verif.Model.PrizeRow
import Verif.Model.Pseudo
import Verif.Model.PyHeuristic
import Verif.Model.Python
import Verif.Model.Renaming
import Verif.Model.Res
import Verif.Model.RowNames
import Verif.Model.Rows
import Verif.Model.RunStats
import Verif.Model.ScipLog
import Verif.Model.SimpleCycle
import Verif.Model.Solve
import Verif.Model.Stats
import Verif.Model.Suurballe
import Verif.Model.TableFormat
import Verif.Model.Tables
import Verif.Model.TablesDir
import Verif.Model.Tailing
import Verif.Model.TolEvent
import Verif.Model.Tolerance
import Verif.Model.Vial
import Verif.Model.Walk
import Verif.Model.Wrappers
import Verif.Props.Again
import Verif.Props.Archive
import Verif.Props.BasicSolve
import Verif.Props.Batch
import Verif.Props.Binding
import Verif.Props.Block
import Verif.Props.BranchAndCut
import Verif.Props.BranchDepth
import Verif.Props.Branching
import Verif.Props.Collapse
import Verif.Props.CollapseForm
import Verif.Props.Columns
import Verif.Props.Commands
import Verif.Props.Compose
import Verif.Props.CostCover
import Verif.Props.CsvHome
import Verif.Props.Cut
import Verif.Props.Cuts
import Verif.Props.Dataset
import Verif.Props.DatasetCommand
import Verif.Props.Direction
import Verif.Props.DisjointMap
import Verif.Props.Dominance
import Verif.Props.Easier
import Verif.Props.EdgeOrder
import Verif.Props.EnforceAnswer
import Verif.Props.Events
import Verif.Props.Experiments
import Verif.Props.ExperimentsSuurballe
import Verif.Props.Extension
import Verif.Props.ExtensionExit
import Verif.Props.Filter
import Verif.Props.FreeDetour
import Verif.Props.Gain
import Verif.Props.GraphCycle
import Verif.Props.GraphPrize
import Verif.Props.GraphUtil
import Verif.Props.Job
import Verif.Props.Knapsack
import Verif.Props.Lab
import Verif.Props.LabHome
import Verif.Props.Load
import Verif.Props.Locks
import Verif.Props.Logger
import Verif.Props.Logs
import Verif.Props.Loops
import Verif.Props.Machine
import Verif.Props.Maxflow
import Verif.Props.Monotone
import Verif.Props.NodeGap
import Verif.Props.OneRun
import Verif.Props.Params
import Verif.Props.Plot
import Verif.Props.Preprocess
import Verif.Props.Pretty
import Verif.Props.PrizeRow
import Verif.Props.Program
import Verif.Props.Pseudo
import Verif.Props.PyHeuristic
import Verif.Props.PySolve
import Verif.Props.Python
import Verif.Props.Quality
import Verif.Props.Renaming
import Verif.Props.Repeats
import Verif.Props.Rerun
import Verif.Props.Root
import Verif.Props.RootCover
import Verif.Props.RowNames
import Verif.Props.Rows
import Verif.Props.RunAlgorithm
import Verif.Props.RunStats
import Verif.Props.Satisfiable
import Verif.Props.ScipLog
import Verif.Props.Search
import Verif.Props.Separation
import Verif.Props.SimpleCycle
import Verif.Props.Single
import Verif.Props.Solution
import Verif.Props.Solve
import Verif.Props.SolveScale
import Verif.Props.Start
import Verif.Props.Stats
import Verif.Props.Summary
import Verif.Props.Support
import Verif.Props.Suurballe
import Verif.Props.SuurballeExact
import Verif.Props.TableFormat
import Verif.Props.Tables
import Verif.Props.TablesDir
import Verif.Props.Tailing
import Verif.Props.TailingEnd
import Verif.Props.TolSearch
import Verif.Props.Tolerance
import Verif.Props.Twice
import Verif.Props.UnitaryLoss
import Verif.Props.Units
import Verif.Props.Variants
import Verif.Props.VertexNames
import Verif.Props.Vial
import Verif.Props.Walk
import Verif.Props.WalkText
import Verif.Props.Wrappers
import Verif.Spec.Batch
import Verif.Spec.Block
import Verif.Spec.CsvHome
import Verif.Spec.Cycle
import Verif.Spec.Cycles
import Verif.Spec.Dataset
import Verif.Spec.Direction
import Verif.Spec.DisjointPaths
import Verif.Spec.Dist
import Verif.Spec.Dominance
import Verif.Spec.Easier
import Verif.Spec.Experiment
import Verif.Spec.Flow
import Verif.Spec.GraphCycle
import Verif.Spec.Ieee
import Verif.Spec.Incidence
import Verif.Spec.Insertion
import Verif.Spec.Lab
import Verif.Spec.Names
import Verif.Spec.NodeGap
import Verif.Spec.Paths
import Verif.Spec.Repeats
import Verif.Spec.Replacement
import Verif.Spec.Rerun
import Verif.Spec.Scip
import Verif.Spec.Search
import Verif.Spec.Shortcut
import Verif.Spec.Split
import Verif.Spec.Suurballe
import Verif.Spec.Tables
import Verif.Spec.TolSearch
import Verif.Spec.Tolerance
import Verif.Spec.Tour
import Verif.Spec.Twice
import Verif.Spec.Units
import Verif.Spec.VertexNames
import Verif.Spec.Vial
import Verif.Tests.Fixtures
import Verif.Tests.Graph
import Verif.Tests.Heuristic
import Verif.Tests.Misc
import Verif.Tests.Suurballe
