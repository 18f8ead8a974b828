import Verif.Model.SimpleCycle
import Verif.Model.Dijkstra

/-!
# Rows of the integer program and separated cuts

include/pctsp/constraint.hh, include/pctsp/algorithms.hh 26-137, src/sciputils.cpp, src/solution.cpp,
src/subtour_elimination.cpp, include/pctsp/subtour_elimination.hh, include/pctsp/cycle_cover.hh, src/cycle_cover.cpp,
include/pctsp/cost_cover.hh and src/cost_cover.cpp.

The variable of an edge is identified with the edge descriptor, i.e. the position of the edge (`PCTSPaddEdgeVariables` creates one
binary variable for each edge).  Coefficients and solution values are integers: an LP solution with rational values becomes one of
integers after scaling, and the rows of interest are homogeneous.  Names of variables and rows, and logging, are left out.
-/

namespace Pctsp

/-- A linear row `lhs ≤ Σ coefficient * variable ≤ rhs`; `none` is `∓SCIPinfinity`.  A variable that is listed twice counts twice
(`SCIPaddVarToRow` adds up). -/
structure Row where
  coeffs : List (Nat × Int)
  lhs : Option Int
  rhs : Option Int
  deriving DecidableEq, Repr

namespace Row

/-- The activity of a row in a solution. -/
def activity (x : Nat → Int) (r : Row) : Int := (r.coeffs.map fun p => p.2 * x p.1).sum

/-- Does the solution satisfy the row? -/
def Sat (x : Nat → Int) (r : Row) : Prop := (∀ l, r.lhs = some l → l ≤ r.activity x) ∧ (∀ u, r.rhs = some u → r.activity x ≤ u)

instance (x : Nat → Int) (r : Row) : Decidable (r.Sat x) :=
  decidable_of_iff ((∀ l ∈ r.lhs.toList, l ≤ r.activity x) ∧ ∀ u ∈ r.rhs.toList, r.activity x ≤ u) (by simp [Sat])

end Row

/-- `SCIP_RESULT`, the values that the plug-ins set or compare with. -/
inductive ScipResult where
  | didNotRun | didNotFind | cutoff | separated | feasible | infeasible
  deriving DecidableEq, Repr

/-- What a separation round does to the solver: `offered` are the rows that were created, `added` those handed to `SCIPaddRow`. -/
structure SepState where
  offered : List Row
  added : List Row
  result : ScipResult
  deriving DecidableEq, Repr

/-- The answers of the solver: `SCIPisCutEfficacious` for a row, and the flag `infeasible` of `SCIPaddRow` for the rows added so far
and the new one. -/
structure Solver where
  efficacious : Row → Bool
  infeasible : List Row → Row → Bool

/-- Copy into a vector from position `off`, sciputils.cpp 18-21.  Writing past the end is undefined. -/
def copyInto {α : Type} (dst : List α) : Nat → List α → Res (List α)
  | _, [] => .ok dst
  | off, a :: as => if off < dst.length then copyInto (dst.set off a) (off + 1) as else .ub "all_vars: out of bounds"

/-- `fillPositiveNegativeVars`, sciputils.cpp 10-27, on vectors `all_vars` and `var_coefs`.  A failed assertion aborts, or leads to an
access out of bounds when assertions are off; both are `ub`. -/
def fillPositiveNegativeVars (pos neg all : List Nat) (coefs : List Int) : Res (List Nat × List Int) :=
  if pos.length + neg.length = all.length ∧ all.length = coefs.length then do
    let all ← copyInto all 0 pos
    let all ← copyInto all pos.length neg
    let coefs ← copyInto coefs 0 (List.replicate pos.length 1)
    let coefs ← copyInto coefs pos.length (List.replicate (coefs.length - pos.length) (-1))
    pure (all, coefs)
  else .ub "fillPositiveNegativeVars: assertion"

/-- The row is offered to the solver, sciputils.cpp 60-69. -/
def offerRow (sv : Solver) (row : Row) (st : SepState) : SepState :=
  let st := { st with offered := st.offered ++ [row] }
  if sv.efficacious row then
    { st with added := st.added ++ [row], result := if sv.infeasible st.added row then .cutoff else .separated }
  else st

/-- `addRow`, sciputils.cpp 29-72. -/
def addRow (sv : Solver) (vars : List Nat) (coefs : List Int) (lhs rhs : Option Int) (st : SepState) : SepState :=
  offerRow sv { coeffs := vars.zip coefs, lhs, rhs } st

/-- `getEdgeVariables`, graph.hh 126-145.  `hasVar e` says that the map holds a variable for the edge. -/
def getEdgeVariables (hasVar : Nat → Bool) : List Nat → Res (List Nat)
  | [] => .ok []
  | e :: es =>
    if hasVar e then do
      let rest ← getEdgeVariables hasVar es
      pure (e :: rest)
    else .throw .variableIsNull

/-- `PCTSPaddEdgeVariables`, algorithms.hh 26-49: the map holds a variable for every edge of the graph and nothing else. -/
def Graph.hasVar (g : Graph) (e : Nat) : Bool := decide (e < g.edges.length)

/-! ### The rows of the model -/

/-- `PCTSPaddRootVertexConstraint`, constraint.hh 34-49. -/
def rootRow (loop : Nat) : Row := { coeffs := [(loop, 1)], lhs := some 1, rhs := some 1 }

/-- The loop over the neighbours, constraint.hh 82-91: the edge that `boost::edge` finds for each of them, except the self-loop. -/
def degreeEntries (g : Graph) (v loop : Nat) : List Nat → List (Nat × Int)
  | [] => []
  | w :: ws =>
    match g.edgeIdx v w with
    | some e => if e ≠ loop then (e, 1) :: degreeEntries g v loop ws else degreeEntries g v loop ws
    | none => degreeEntries g v loop ws

/-- The row of one vertex, constraint.hh 58-99.  The arrays have `degree - 1` slots; a slot that is not written holds an uninitialised
pointer. -/
def degreeRow (g : Graph) (v : Nat) : Res Row :=
  match g.edgeIdx v v with
  | none => .throw (.edgeNotFound v v)
  | some loop =>
    let slots := (g.adjacent v).length - 1
    let entries := (loop, -2) :: degreeEntries g v loop (g.adjacent v)
    if entries.length < slots then .ub "degree row: uninitialised slot"
    else if slots < entries.length then .ub "degree row: out of bounds"
    else .ok { coeffs := entries, lhs := some 0, rhs := some 0 }

/-- `PCTSPaddDegreeTwoConstraint`, constraint.hh 51-103. -/
def degreeRows (g : Graph) : Res (List Row) := mapRes (degreeRow g) (List.range g.n)

/-- `PCTSPaddPrizeConstraint`, constraint.hh 108-141: the variables are looked up by the address of their name, which is unique. -/
def prizeRow (g : Graph) (weight : Nat → Int) (quota : Int) : Row :=
  { coeffs := (List.range g.edges.length).map fun e => (e, -weight e), lhs := none, rhs := some (-quota) }

/-- `PCTSPmodelWithoutSECs`, algorithms.hh 104-137, called with the weights of `putPrizeOntoEdgeWeights` (src/algorithms.cpp). -/
def modelWithoutSECs (g : Graph) (prize : Nat → Int) (quota : Int) (root : Nat) : Res (List Row) := do
  match ← g.edge root root with
  | none => .throw (.edgeNotFound root root)
  | some loop =>
    let deg ← degreeRows g
    pure (prizeRow g (putPrizeOntoEdgeWeights g prize) quota :: rootRow loop :: deg)

/-! ### Solutions -/

/-- `getSolutionEdges`, solution.cpp 41-52.  `order` is the order in which the `std::map` is traversed (edge descriptors of an
undirected graph are compared by address), `pos` is `isVarPositive`. -/
def getSolutionEdges (g : Graph) (order : List Nat) (pos : Nat → Bool) : List Nat :=
  order.filter fun e => match g.edges[e]? with
    | some p => p.1 ≠ p.2 && pos e
    | none => false

/-- One round of the loop, solution.cpp 24-38; `rest` are the later rounds. -/
def solutionVertexStep (g : Graph) (pos : Nat → Bool) (v : Nat) (rest : Res (List Nat)) : Res (List Nat) :=
  match g.edgeIdx v v with
  | some e => if pos e then do let r ← rest; pure (v :: r) else rest
  | none => .throw (.edgeNotFound v v)

/-- `getSolutionVertices`, solution.cpp 22-40. -/
def getSolutionVertices (g : Graph) (pos : Nat → Bool) : Res (List Nat) := (List.range g.n).foldr (solutionVertexStep g pos) (.ok [])

/-- `isSolSimpleCycle` and `PCTSPconshdlrSubtour::scip_check`, subtour_elimination.cpp 33-39 and 171-190. -/
def secCheck (g : Graph) (order : List Nat) (pos : Nat → Bool) : Res ScipResult := do
  let b ← isSimpleCycle g (getSolutionEdges g order pos)
  pure (if b then .feasible else .infeasible)

/-! ### Cuts -/

/-- `addSubtourEliminationConstraint`, subtour_elimination.cpp 41-108. -/
def addSubtourEliminationConstraint (sv : Solver) (g : Graph) (hasVar : Nat → Bool) (vs : List Nat) (root target : Nat)
    (st : SepState) : Res SepState :=
  let rootFound := vs.contains root
  let targetFound := vs.contains target
  if !(rootFound || targetFound) then .throw (.vertexNotFound target)
  else if rootFound && targetFound then .throw (.vertexInWrongSet target)
  else do
    let es ← getEdgesInducedByVertices g vs
    let edgeVars ← getEdgeVariables hasVar es
    let toFind := vs.filter fun v => rootFound || (targetFound && v ≠ target)
    let toFind := if rootFound then toFind ++ [target] else toFind
    let loops ← getSelfLoops g toFind
    let vertexVars ← getEdgeVariables hasVar loops
    let n := edgeVars.length + vertexVars.length
    let (vars, coefs) ← fillPositiveNegativeVars edgeVars vertexVars (List.replicate n 0) (List.replicate n 0)
    let coefs := if rootFound then coefs.set (coefs.length - 1) 1 else coefs
    pure (addRow sv vars coefs none (some 0) st)

/-- The loop over the targets, subtour_elimination.hh 156-169; the second component counts the calls. -/
def secTargetLoop (sv : Solver) (g : Graph) (hasVar : Nat → Bool) (vs : List Nat) (root : Nat) :
    List Nat → SepState × Nat → Res (SepState × Nat)
  | [], s => .ok s
  | t :: ts, s => do
    let st ← addSubtourEliminationConstraint sv g hasVar vs root t s.1
    secTargetLoop sv g hasVar vs root ts (st, s.2 + 1)

/-- The loop over the components, subtour_elimination.hh 146-171. -/
def disjointTourLoop (sv : Solver) (g : Graph) (hasVar : Nat → Bool) (root rootId : Nat) :
    Nat → List (List Nat) → SepState × Nat → Res (SepState × Nat)
  | _, [], s => .ok s
  | i, c :: cs, s =>
    if i ≠ rootId ∧ c.length ≥ 2 then do
      let s ← secTargetLoop sv g hasVar c root c s
      disjointTourLoop sv g hasVar root rootId (i + 1) cs s
    else disjointTourLoop sv g hasVar root rootId (i + 1) cs s

/-- `PCTSPseparateDisjointTour`, subtour_elimination.hh 132-173; the second component is the change of `num_conss_added`. -/
def separateDisjointTour (sv : Solver) (g : Graph) (hasVar : Nat → Bool) (root rootId : Nat) (comps : List (List Nat))
    (st : SepState) : Res (SepState × Nat) :=
  if comps.length = 1 then .ok (st, 0) else disjointTourLoop sv g hasVar root rootId 0 comps (st, 0)

/-- `PCTSPseparateSubtour` with `sec_disjoint_tour` set and `sec_maxflow_mincut` not set, subtour_elimination.cpp 397-435.  `m` and
`ids` are the answer of `boost::connected_components` on the support graph. -/
def separateSubtourDisjoint (sv : Solver) (g : Graph) (hasVar : Nat → Bool) (root : Nat) (m : Nat) (ids : List Nat)
    (st : SepState) : Res (SepState × Nat) := do
  let comps ← getConnectedComponentsVectors g.n m ids
  match ids[root]? with
  | none => .ub "component: out of bounds"
  | some rootId => separateDisjointTour sv g hasVar root rootId comps st

/-- `addCycleCover`, cycle_cover.hh 13-52. -/
def addCycleCover (sv : Solver) (g : Graph) (hasVar : Nat → Bool) (vs : List Nat) (st : SepState) : Res SepState :=
  if vs.length = 0 then .ok st
  else do
    let es ← getEdgesInducedByVertices g vs
    let edgeVars ← getEdgeVariables hasVar es
    let loops ← getSelfLoops g vs
    let vertexVars ← getEdgeVariables hasVar loops
    let n := edgeVars.length + vertexVars.length
    let (vars, coefs) ← fillPositiveNegativeVars edgeVars vertexVars (List.replicate n 0) (List.replicate n 0)
    pure (addRow sv vars coefs none (some (-1)) st)

/-- `getRootComponent`, cycle_cover.hh 83-101. -/
def getRootComponent (g : Graph) (root m : Nat) (ids : List Nat) : Res (List Nat) := do
  let comps ← getConnectedComponentsVectors g.n m ids
  match ids[root]? with
  | none => .ub "component: out of bounds"
  | some rootId =>
    match comps[rootId]? with
    | none => .ub "component_vectors: out of bounds"
    | some c => pure c

/-- `separateCycleCover`, cycle_cover.hh 124-144. -/
def separateCycleCover (sv : Solver) (g : Graph) (hasVar : Nat → Bool) (prize : Nat → Int) (quota : Int) (root m : Nat) (ids : List Nat)
    (st : SepState) : Res SepState := do
  let c ← getRootComponent g root m ids
  if !isPrizeFeasible prize quota c then addCycleCover sv g hasVar c st else pure st

/-- `CycleCoverConshdlr::scip_check` and `isCycleCoverViolated`, cycle_cover.hh 103-118, cycle_cover.cpp 107-116. -/
def cycleCoverCheck (g : Graph) (prize : Nat → Int) (quota : Int) (root m : Nat) (ids : List Nat) : Res ScipResult := do
  let c ← getRootComponent g root m ids
  pure (if !isPrizeFeasible prize quota c then .infeasible else .feasible)

/-- `addCoverInequality`, cost_cover.cpp 6-32. -/
def coverRow (vars : List Nat) : Row :=
  { coeffs := vars.map fun v => (v, 1), lhs := none, rhs := some ((vars.length : Int) - 1) }

/-- `addCoverInequalityFromVertices`, cost_cover.hh 42-63. -/
def coverRowFromVertices (g : Graph) (hasVar : Nat → Bool) (vs : List Nat) : Res Row := do
  let loops ← getSelfLoops g vs
  let vars ← getEdgeVariables hasVar loops
  pure (coverRow vars)

/-- `separateCostCoverPaths`, cost_cover.hh 21-35.  `dist` has one entry for each vertex. -/
def separateCostCoverPaths (g : Graph) (dist : Nat → Int) (ub : Int) : List Nat :=
  (List.range g.n).filter fun v => decide (ub < dist v)

/-- `separateThenAddCostCoverInequalities`, cost_cover.cpp 88-104: the constraints that are added, one per separated vertex. -/
def separateThenAddCostCover (g : Graph) (hasVar : Nat → Bool) (root : Nat) (dist : Nat → Int) (ub : Int) : Res (List Row) :=
  mapRes (fun v => coverRowFromVertices g hasVar [root, v]) (separateCostCoverPaths g dist ub)

/-- The doubling of the distances, cost_cover.hh 153-157.  `none` is a vertex that is not reached, whose distance is
`numeric_limits<int>::max()`; a product that does not fit an `int` overflows. -/
def doubleDistances (n : Nat) (dist : Nat → Option Int) : Res (List Int) :=
  mapRes (fun v =>
    let d := (dist v).getD 2147483647
    if -2147483648 ≤ d * 2 ∧ d * 2 ≤ 2147483647 then .ok (d * 2) else .ub "distances: signed overflow") (List.range n)

/-- `includeShortestPathCostCover`, cost_cover.hh 134-159: the distances that the event handler stores.  The argument `cost_map` is not
used; the search reads the weights of the graph, here `cost`. -/
def shortestPathCoverDistances (g : Graph) (cost : Nat → Int) (pick : Pick) (root : Nat) : Res (List Int) := do
  let (_, st) ← dijkstra g cost (fun _ => false) none pick root
  doubleDistances g.n st.dist

/-! ### Warm start -/

/-- `addHeuristicEdgesToSolver` and `addHeuristicVarsToSolver`, algorithms.hh 57-80, src/algorithms.cpp 12-25: the variables that are
set to 1; all others are 0. -/
def heuristicVars (g : Graph) (hasVar : Nat → Bool) (es : List Nat) : Res (List Nat) := do
  let vs ← getVerticesOfEdges g es
  let loops ← getSelfLoops g vs
  let loopVars ← getEdgeVariables hasVar loops
  let edgeVars ← getEdgeVariables hasVar es
  pure (edgeVars ++ loopVars)

/-- The solution vector of the warm start. -/
def heuristicSol (vars : List Nat) : Nat → Int := fun e => if e ∈ vars then 1 else 0

end Pctsp
