import Verif.Model.CostCover
import Verif.Model.Events
import Verif.Model.Maxflow
import Verif.Model.Solve
import Verif.Model.Stats

/-!
# The counters of a run and the summary

`getSummaryStatsFromSCIP`, src/algorithms.cpp 70-115, the counter of the cycle cover handler, src/cycle_cover.cpp 95-109 and 143-148, and what the
callbacks of the plug-ins that `solvePrizeCollectingTSP` includes do to the counters.  SCIP decides which callbacks are made and what it answers: a
history of callbacks is given.  Every callback has its own `Solver`, so the answers of SCIP may depend on all that happened before.  Counters are
natural numbers; the code uses 32 bits.
-/

namespace Pctsp

variable {D : Type}

/-- What stays the same during a run: the data of the problem, the options, and the libraries that the separation uses. -/
structure RunEnv where
  graph : Graph
  prize : Nat → Int
  quota : Int
  root : Nat
  options : SolveOptions
  flow : MaxFlow
  visit : Visit
  order : List Nat
  q : Int

/-- A callback: a node event, the separation of subtour elimination rows at a node (`scip_sepalp` if `lp`, else `scip_sepasol`), the separation of
cycle cover rows, or the event of a new best solution with the value of `SCIPgetUpperbound`.  `x`, `m` and `ids` are the solution and the answer
of `boost::connected_components`. -/
inductive Callback (D : Type) where
  | node (i : NodeInfo D)
  | sec (lp : Bool) (node : Nat) (sv : Solver) (x : Nat → Int) (m : Nat) (ids : List Nat)
  | cycle (sv : Solver) (m : Nat) (ids : List Nat)
  | best (ub : Int)

/-- The counters of the plug-ins, and the rows that the two constraint handlers have created and handed to the solver.  A handler that is not
included is `none`. -/
structure RunState (D : Type) where
  nodes : List (NodeStats D)
  disjoint : Option CostCover
  shortest : Option CostCover
  cycle : Option Nat
  secOffered : List Row
  secAdded : List Row
  cycleOffered : List Row
  cycleAdded : List Row

/-- `SCIP_RESULT` before a callback. -/
def SepState.fresh : SepState := { offered := [], added := [], result := .didNotRun }

/-- One cost cover handler, included on demand, with the rows for the start solution of cost `ub`, algorithms.cpp 163-182. -/
def startCover (E : RunEnv) (on : Bool) (dist : Nat → Int) (ub : Int) : Res (Option CostCover) :=
  if on then do
    let h ← (CostCover.new dist).initial E.graph E.graph.hasVar E.root ub
    pure (some h)
  else .ok none

/-- The plug-ins before the search, algorithms.cpp 160-196: `disjoint` and `shortest` are the distances of the two cost cover handlers, `ub` is the
cost of the heuristic edges.  The node event handler is always included. -/
def startRun (E : RunEnv) (disjoint shortest : Nat → Int) (ub : Int) : Res (RunState D) := do
  let d ← startCover E E.options.coverDisjoint disjoint ub
  let s ← startCover E E.options.coverShortest shortest ub
  pure
    { nodes := [], disjoint := d, shortest := s, cycle := if E.options.cycleCover then some 0 else none,
      secOffered := [], secAdded := [], cycleOffered := [], cycleAdded := [] }

/-- The event of a new best solution for one handler, cost_cover.cpp 79-84. -/
def coverExec (E : RunEnv) (ub : Int) : Option CostCover → Res (Option CostCover)
  | none => .ok none
  | some h => do
    let h ← h.exec E.graph E.graph.hasVar E.root ub
    pure (some h)

/-- `scip_sepalp` and `scip_sepasol` of the subtour handler, subtour_elimination.cpp 297-306. -/
def secRound (E : RunEnv) (lp : Bool) (sv : Solver) (x : Nat → Int) (m : Nat) (ids : List Nat) : Res (SepState × Nat × Nat) :=
  if lp then sepalp sv E.graph E.graph.hasVar E.flow E.visit E.order E.q x E.root m ids E.options.secDisjoint E.options.secMaxflow .fresh
  else separateSubtour sv E.graph E.graph.hasVar E.flow E.visit E.order E.q x E.root m ids E.options.secDisjoint E.options.secMaxflow .fresh

/-- The numbers of a round are reported to the node event handler, subtour_elimination.cpp 467 and 482. -/
def reportSecs (zero : D) (o : SolveOptions) (node k l : Nat) (nodes : List (NodeStats D)) : Res (List (NodeStats D)) :=
  (if o.secDisjoint then (NodeOp.disjoint node k).apply zero nodes else .ok nodes) >>= fun nodes =>
    if o.secMaxflow then (NodeOp.maxflow node l).apply zero nodes else .ok nodes

/-- `PCTSPseparateSubtour` as a callback, subtour_elimination.cpp 430-485. -/
def secCallback (zero : D) (E : RunEnv) (lp : Bool) (node : Nat) (sv : Solver) (x : Nat → Int) (m : Nat) (ids : List Nat) (s : RunState D) :
    Res (RunState D) := do
  let (st, k, l) ← secRound E lp sv x m ids
  let nodes ← reportSecs zero E.options node k l s.nodes
  pure { s with nodes, secOffered := s.secOffered ++ st.offered, secAdded := s.secAdded ++ st.added }

/-- `CycleCoverConshdlr::scip_sepalp`, cycle_cover.cpp 143-148.  SCIP calls it only if the handler is included. -/
def cycleCallback (E : RunEnv) (sv : Solver) (m : Nat) (ids : List Nat) (s : RunState D) : Res (RunState D) :=
  match s.cycle with
  | none => .ok s
  | some c => do
    let st ← separateCycleCover sv E.graph E.graph.hasVar E.prize E.quota E.root m ids .fresh
    pure { s with
      cycle := some (if st.result = .cutoff ∨ st.result = .separated then c + 1 else c)
      cycleOffered := s.cycleOffered ++ st.offered
      cycleAdded := s.cycleAdded ++ st.added }

/-- One callback. -/
def Callback.apply (zero : D) (E : RunEnv) (s : RunState D) : Callback D → Res (RunState D)
  | .node i => do
    let nodes ← nodeEvent zero s.nodes i
    pure { s with nodes }
  | .sec lp nd sv x m ids => secCallback zero E lp nd sv x m ids s
  | .cycle sv m ids => cycleCallback E sv m ids s
  | .best ub => do
    let d ← coverExec E ub s.disjoint
    let t ← coverExec E ub s.shortest
    pure { s with disjoint := d, shortest := t }

/-- A history of callbacks. -/
def runCallbacks (zero : D) (E : RunEnv) : List (Callback D) → RunState D → Res (RunState D)
  | [], s => .ok s
  | c :: cs, s => do
    let s ← c.apply zero E s
    runCallbacks zero E cs s

/-- The two numbers of a cost cover handler, algorithms.cpp 82-100: all rows, and the rows for the start solution; 0 without a handler. -/
def coverNumbers : Option CostCover → Nat × Nat
  | none => (0, 0)
  | some h => (h.count, h.numInit)

/-- `getSummaryStatsFromSCIP`, algorithms.cpp 70-115, with `getNumCycleCoverCutsAdded`, cycle_cover.cpp 95-104.  The status, the bounds and the
number of nodes are answers of SCIP. -/
def RunState.summary (s : RunState D) (status : Int) (lower upper : D) (numNodes : Int) : SummaryStats D :=
  { status
    lowerBound := lower
    upperBound := upper
    numCostCoverDisjointPaths := (coverNumbers s.disjoint).1
    numCostCoverShortestPaths := (coverNumbers s.shortest).1
    nconssPresolveDisjointPaths := (coverNumbers s.disjoint).2
    nconssPresolveShortestPaths := (coverNumbers s.shortest).2
    numCycleCover := s.cycle.getD 0
    numNodes
    numSecDisjointTour := numDisjointTourSECs s.nodes
    numSecMaxflowMincut := numMaxflowMincutSECs s.nodes }

end Pctsp
