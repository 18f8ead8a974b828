import Verif.Model.CostCover
import Verif.Model.Maxflow
import Verif.Model.Binding

/-!
# The branch and cut solver

`modelPrizeCollectingTSP` and `solvePrizeCollectingTSP`, src/algorithms.cpp 117-325, and the binding `pySolvePrizeCollectingTSP`,
pctsp/pypctsp.cpp 33-106.  SCIP itself is a parameter: a function from what it is given to a status and a best solution.  Parameters of SCIP
(branching, separation frequency, time limit), logging and files are left out, except the status that is written to the summary.
-/

namespace Pctsp

/-- The switches of `solvePrizeCollectingTSP`, algorithms.cpp 117-140. -/
structure SolveOptions where
  coverDisjoint : Bool
  coverShortest : Bool
  cycleCover : Bool
  secDisjoint : Bool
  secMaxflow : Bool
  deriving DecidableEq, Repr

/-- What SCIP is given: one binary variable for each edge of `graph` with objective coefficient `cost`, linear rows, the data that the plug-ins
use, the plug-ins that are included, and the variables that the start solution sets to 1. -/
structure Problem where
  graph : Graph
  cost : Nat → Int
  prize : Nat → Int
  quota : Int
  root : Nat
  rows : List Row
  warm : Option (List Nat)
  covers : List (Nat → Int)
  cycleCover : Bool
  secDisjoint : Bool
  secMaxflow : Bool

/-- `SCIPgetStatus`, the values of interest. -/
inductive ScipStatus where
  | optimal | infeasible | other
  deriving DecidableEq, Repr

/-- What SCIP answers: the status, and the best solution if there is one (`SCIPgetNSols`, `SCIPgetBestSol`). -/
structure ScipOutcome where
  status : ScipStatus
  best : Option (Nat → Int)

/-- Including one cost cover event handler and adding its rows for the start solution, algorithms.cpp 163-186. -/
def includeCover (g : Graph) (root : Nat) (ub : Int) (dist : Nat → Int) : Res (List Row) := do
  let h ← (CostCover.new dist).initial g g.hasVar root ub
  pure h.rows

/-- The handler of disjoint paths, algorithms.cpp 163-173: its distances and its first rows. -/
def disjointCover (g : Graph) (root : Nat) (ub : Int) (o : SolveOptions) (disjoint : Nat → Int) : Res (List (Nat → Int) × List Row) :=
  if o.coverDisjoint then do
    let rs ← includeCover g root ub disjoint
    pure ([disjoint], rs)
  else .ok ([], [])

/-- The handler of shortest paths, algorithms.cpp 174-186. -/
def shortestCover (g : Graph) (cost : Nat → Int) (root : Nat) (ub : Int) (o : SolveOptions) (pick : Pick) : Res (List (Nat → Int) × List Row) :=
  if o.coverShortest then do
    let dists ← shortestPathCoverDistances g cost pick root
    let rs ← includeCover g root ub fun v => dists.getD v 0
    pure ([fun v => dists.getD v 0], rs)
  else .ok ([], [])

/-- The two cost cover handlers, algorithms.cpp 163-186: their distances and their first rows. -/
def includeCovers (g : Graph) (cost : Nat → Int) (root : Nat) (ub : Int) (o : SolveOptions) (disjoint : Nat → Int) (pick : Pick) :
    Res (List (Nat → Int) × List Row) := do
  let a ← disjointCover g root ub o disjoint
  let b ← shortestCover g cost root ub o pick
  pure (a.1 ++ b.1, a.2 ++ b.2)

/-- The start solution, algorithms.cpp 276-318: none for an empty list of edges. -/
def warmStart (g : Graph) (heur : List Nat) : Res (Option (List Nat)) :=
  if heur.length > 0 then do
    let vars ← heuristicVars g g.hasVar heur
    pure (some vars)
  else .ok none

/-- `modelPrizeCollectingTSP`, algorithms.cpp 239-325, and the plug-ins that `solvePrizeCollectingTSP` adds, 157-195. -/
def buildProblem (g : Graph) (heur : List Nat) (cost prize : Nat → Int) (quota : Int) (root : Nat) (o : SolveOptions) (disjoint : Nat → Int)
    (pick : Pick) : Res Problem := do
  let (g, cost) := ensureSelfLoops g cost
  let rows ← modelWithoutSECs g prize quota root
  let warm ← warmStart g heur
  let c ← includeCovers g cost root (totalCostEdges cost heur) o disjoint pick
  pure { graph := g, cost, prize, quota, root, rows := rows ++ c.2, warm, covers := c.1, cycleCover := o.cycleCover,
         secDisjoint := o.secDisjoint, secMaxflow := o.secMaxflow }

/-- `solvePrizeCollectingTSP`, algorithms.cpp 117-237: the status in the summary and the edges of the best solution.  `order n` is the order in
which the map from `n` edges to variables is traversed. -/
def solvePCTSP (scip : Problem → ScipOutcome) (order : Nat → List Nat) (g : Graph) (heur : List Nat) (cost prize : Nat → Int) (quota : Int)
    (root : Nat) (o : SolveOptions) (disjoint : Nat → Int) (pick : Pick) : Res (ScipStatus × List (Nat × Nat)) := do
  let p ← buildProblem g heur cost prize quota root o disjoint pick
  let a := scip p
  let es := match a.best with
    | none => []
    | some x => getSolutionEdges p.graph (order p.graph.edges.length) fun e => decide (0 < x e)
  let ps ← getVertexPairVectorFromEdgeSubset p.graph es
  pure (a.status, ps)

/-- `pySolvePrizeCollectingTSP`, pypctsp.cpp 33-106; the status is the one in the summary file. -/
def solveBind {α : Type} [DecidableEq α] (scip : Problem → ScipOutcome) (order : Nat → List Nat) (es heur : List (α × α))
    (costs : List ((α × α) × Int)) (prizes : List (α × Int)) (quota : Int) (root : α) (o : SolveOptions) (disjoint : List (α × Int))
    (pick : Pick) : Res (ScipStatus × List (α × α)) := do
  let (ne, b) := renameEdges [] es
  let g := graphOf ne
  let heur ← getNewEdges b heur
  let heur ← edgesFromVertexPairs g heur
  let root ← getNewVertex b root
  let cost ← fillCostMap g b costs (fun _ => 0)
  let prize ← fillVertexMap b prizes (fun _ => 0)
  let dist ← fillVertexMap b disjoint (fun _ => 0)
  let (status, ps) ← solvePCTSP scip order g heur cost prize quota root o dist pick
  let old ← getOldEdges b ps
  pure (status, old)

end Pctsp
