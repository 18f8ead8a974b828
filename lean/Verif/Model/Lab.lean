import Verif.Model.Python
import Verif.Model.PyHeuristic
import Verif.Model.DisjointMap
import Verif.Model.Solve
import Mathlib.Data.List.Dedup

/-!
# Python: running an algorithm

Model of `solve_pctsp`, pctsp/algorithms/algorithms.py 25-109, and of `run_heuristic` and `run_algorithm`, pctsp/lab/run_algorithm.py 55-278.
Logging, time stamps and the identifier of the vial are left out.  The functions of tspwplib and of networkx are parameters.
-/

namespace Pctsp

/-- `AlgorithmName`, pctsp/vial/model_params.py 10-20. -/
inductive AlgorithmName where
  | disjointToursRelaxation | extension | bfsExtensionCollapse | bfsPathExtensionCollapse | solvePctsp
  | suurballesExtensionCollapse | suurballesHeuristic | suurballesPathExtensionCollapse
  deriving DecidableEq, Repr

/-- An `nx.Graph` with the attributes `cost` and `prize`: `graph.edges()`, `nx.get_edge_attributes`, `nx.get_node_attributes`. -/
structure LabGraph (V : Type) where
  nx : NxGraph V
  edges : List (V × V)
  costs : List ((V × V) × Int)
  prizes : List (V × Int)

/-- What is called outside the modelled code. -/
structure LabEnv (F V : Type) where
  float : FloatOps F
  /-- `total_prize_of_tour(prize_dict, tour)` -/
  prizeOf : List V → Int
  /-- the order in which Python iterates over a set -/
  setOrder : List V → List V
  /-- the edges of `nx.bfs_tree(graph, root_vertex)` -/
  tree : List (V × V)
  /-- the choices of the heaps: `collapse`, first and later calls in `pathExtensionCollapse`, shortest path cost cover -/
  pick : Nat → Pick
  pick0 : Nat → Pick
  picks : Nat → Nat → Pick
  pickCover : Pick
  /-- `is_pctsp_yes_instance(graph, quota, root_vertex, edge_list)` -/
  isYes : List (V × V) → Res Bool

variable {F V : Type} [DecidableEq V]

/-- The first tour, run_algorithm.py 77-90. -/
def firstTour (env : LabEnv F V) (G : LabGraph V) (quota : Int) (root : V) (alg : AlgorithmName) (costMap : List (V × Int))
    (pathsMap : List (V × (List V × List V))) : Res (List V) :=
  match alg with
  | .bfsExtensionCollapse | .bfsPathExtensionCollapse => findCycleFromBfs env.setOrder G.nx env.tree root
  | .suurballesExtensionCollapse | .suurballesPathExtensionCollapse => suurballesInit maxsize env.prizeOf quota (dictGet costMap) pathsMap
  | _ => .ok []

/-- Extension by unitary gain and collapse, run_algorithm.py 98-110: the tour that `extension_until_prize_feasible` returns is not used. -/
def runExtensionCollapse (env : LabEnv F V) (G : LabGraph V) (quota : Int) (root : V) (small : List V) : Res (List V) := do
  let _ ← extensionUntilPrizeFeasibleBind env.float G.edges small G.costs G.prizes quota
  extensionUnitaryGainCollapsePy env.float G.edges small G.costs G.prizes quota root env.pick

/-- `x if x else default` for a number that may be `None`. -/
def orDefault (x : Option Int) (default : Int) : Int :=
  match x with
  | none => default
  | some k => if k = 0 then default else k

/-- Path extension and collapse, run_algorithm.py 112-131. -/
def runPathExtensionCollapse (env : LabEnv F V) (G : LabGraph V) (quota : Int) (root : V) (collapsePaths : Option Bool) (depthLimit stepSize : Option Int)
    (small : List V) : Res (List V) :=
  pathExtensionCollapseBind env.float G.edges small G.costs G.prizes root quota (collapsePaths.getD false) env.pick0 env.picks
    (orDefault depthLimit G.nx.nodes.length) (orDefault stepSize 10)

/-- The tour of the heuristic, run_algorithm.py 92-136. -/
def heuristicTour (env : LabEnv F V) (G : LabGraph V) (quota : Int) (root : V) (alg : AlgorithmName) (costMap : List (V × Int))
    (pathsMap : List (V × (List V × List V))) (collapsePaths : Option Bool) (depthLimit stepSize : Option Int) (small : List V) : Res (List V) :=
  match alg with
  | .suurballesHeuristic => suurballesHeuristic maxsize env.prizeOf quota (dictGet costMap) pathsMap
  | .bfsExtensionCollapse | .suurballesExtensionCollapse => runExtensionCollapse env G quota root small
  | .bfsPathExtensionCollapse | .suurballesPathExtensionCollapse => runPathExtensionCollapse env G quota root collapsePaths depthLimit stepSize small
  | _ => .throw .notImplementedError

/-- The algorithms that need the maps of disjoint paths, run_algorithm.py 70-74. -/
def usesSuurballe : AlgorithmName → Bool
  | .suurballesExtensionCollapse | .suurballesHeuristic | .suurballesPathExtensionCollapse => true
  | _ => false

/-- `run_heuristic`, run_algorithm.py 55-148.  `edge_list_from_walk` lists the steps of the walk. -/
def runHeuristic (env : LabEnv F V) (G : LabGraph V) (quota : Int) (root : V) (alg : AlgorithmName) (costMap : List (V × Int))
    (pathsMap : List (V × (List V × List V))) (collapsePaths : Option Bool) (depthLimit stepSize : Option Int) : Res (List (V × V)) :=
  if usesSuurballe alg && (costMap.isEmpty || pathsMap.isEmpty) then .throw .valueError
  else do
    let small ← firstTour env G quota root alg costMap pathsMap
    let tour ← heuristicTour env G quota root alg costMap pathsMap collapsePaths depthLimit stepSize small
    let _ ← env.isYes (tour.zip tour.tail)
    pure (tour.zip tour.tail)

/-- The heuristic edges that `solve_pctsp` passes on, algorithms.py 75-79. -/
def initialYesInstance (env : LabEnv F V) (heur : List (V × V)) : Res (List (V × V)) :=
  if heur.isEmpty then .ok []
  else do
    let yes ← env.isYes heur
    pure (if yes then heur else [])

/-- `solve_pctsp`, algorithms.py 25-109: the cost cover of disjoint paths is switched off if there are no distances. -/
def solvePctspPy (env : LabEnv F V) (scip : Problem → ScipOutcome) (order : Nat → List Nat) (G : LabGraph V) (heur : List (V × V)) (quota : Int)
    (root : V) (o : SolveOptions) (disjoint : List (V × Int)) : Res (ScipStatus × List (V × V)) := do
  let initial ← initialYesInstance env heur
  let o := if disjoint.isEmpty then { o with coverDisjoint := false } else o
  solveBind scip order G.edges initial G.costs G.prizes quota root o disjoint env.pickCover

/-- The parameters of `ModelParams` that `run_algorithm` reads, pctsp/vial/model_params.py 69-92. -/
structure ModelParams where
  algorithm : AlgorithmName
  isExact : Bool
  isHeuristic : Bool
  heuristic : Option AlgorithmName
  collapsePaths : Option Bool
  depthLimit : Option Int
  stepSize : Option Int
  coverDisjoint : Bool
  coverShortest : Bool
  secDisjoint : Bool
  secMaxflow : Bool

/-- The start solution of the exact algorithm, run_algorithm.py 195-218. -/
def startSolution (env : LabEnv F V) (G : LabGraph V) (quota : Int) (root : V) (mp : ModelParams) (costMap : List (V × Int))
    (pathsMap : List (V × (List V × List V))) : Res (List (V × V)) :=
  match mp.heuristic with
  | none => .ok []
  | some alg => do
    let es ← runHeuristic env G quota root alg costMap pathsMap mp.collapsePaths mp.depthLimit mp.stepSize
    let yes ← env.isYes es
    pure (if yes then es else [])

/-- The edges that an algorithm finds, run_algorithm.py 181-247.  `cycle_cover` is not passed to `solve_pctsp`, so it has its default; the option
`collapse_paths` is only passed on by the exact algorithm.  The status is `none` for a heuristic. -/
def algorithmEdges (env : LabEnv F V) (scip : Problem → ScipOutcome) (order : Nat → List Nat) (G : LabGraph V) (quota : Int) (root : V)
    (mp : ModelParams) (costMap : List (V × Int)) (pathsMap : List (V × (List V × List V))) : Res (Option ScipStatus × List (V × V)) :=
  if mp.isHeuristic then do
    let es ← runHeuristic env G quota root mp.algorithm costMap pathsMap none mp.depthLimit mp.stepSize
    pure (none, es)
  else if mp.isExact then do
    let heur ← startSolution env G quota root mp costMap pathsMap
    let a ← solvePctspPy env scip order G heur quota root ⟨mp.coverDisjoint, mp.coverShortest, false, mp.secDisjoint, mp.secMaxflow⟩ costMap
    pure (some a.1, a.2)
  else .throw .notImplementedError

/-- The numbers that are reported, run_algorithm.py 252-276. -/
structure LabResult (V : Type) where
  objective : Int
  prize : Int
  edges : List (V × V)

/-- `cost_dict[e]` for an edge in either direction (tspwplib's `total_cost`). -/
def edgeCost (costs : List ((V × V) × Int)) (e : V × V) : Res Int :=
  match costs.find? fun c => decide (c.1 = e ∨ c.1 = (e.2, e.1)) with
  | none => .throw .keyError
  | some c => .ok c.2

/-- `prize_dict[v]` (tspwplib's `total_prize`). -/
def vertexPrize (prizes : List (V × Int)) (v : V) : Res Int :=
  match dictGet prizes v with
  | none => .throw .keyError
  | some c => .ok c

/-- The sum of numbers that are looked up one after the other. -/
def sumRes {β : Type} (f : β → Res Int) (l : List β) : Res Int := do
  let xs ← mapRes f l
  pure xs.sum

/-- The objective and the prize of a list of edges, run_algorithm.py 252-270.  Self-loops are removed; `reorder` is `order_edge_list`, and `none` if it
raises `EdgesNotAdjacentException` or `NotSimpleException`, which is caught. -/
def makeResult (reorder : List (V × V) → Option (List (V × V))) (G : LabGraph V) (es : List (V × V)) : Res (LabResult V) := do
  let es := es.filter fun e => decide (e.1 ≠ e.2)
  let es := (reorder es).getD es
  let objective ← sumRes (edgeCost G.costs) es
  let prize ← sumRes (vertexPrize G.prizes) (es.flatMap fun e => [e.1, e.2]).dedup
  pure { objective, prize, edges := es }

/-- `run_algorithm`, run_algorithm.py 151-278, after the preprocessing; `W` are the vertices of the split graph.  `dij` is the result of
`nx.single_source_dijkstra` in the split graph `A`, `depth` the number of nested calls that the interpreter allows. -/
def runAlgorithm {W : Type} [LinearOrder W] (env : LabEnv F V) (scip : Problem → ScipOutcome) (order : Nat → List Nat)
    (reorder : List (V × V) → Option (List (V × V))) (names : SplitNames V W) (A : DiGraph W) (source : W) (dij : DijkstraOut W) (depth : Nat)
    (G : LabGraph V) (quota : Int) (root : V) (mp : ModelParams) : Res (Option ScipStatus × LabResult V) := do
  let (T, st) ← suurballe A dij depth source
  let costMap := vertexDisjointCostMap names T st (treeNodes source dij)
  let pathsMap ← undirectedVertexDisjointPathsMap names T st (treeNodes source dij)
  let a ← algorithmEdges env scip order G quota root mp costMap pathsMap
  let r ← makeResult reorder G a.2
  pure (a.1, r)

end Pctsp
