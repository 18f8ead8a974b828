import Verif.Model.Solve

/-!
# The basic entry points of the solver

`solvePrizeCollectingTSP` without settings, src/algorithms.cpp 28-68, `modelPrizeCollectingTSP` for dictionaries, 327-373, and the binding
`basic_solve_pctsp_bind`, pctsp/pypctsp.cpp 15-31.  The vertices are not renamed: the numbers of the caller are the vertices of the graph.
-/

namespace Pctsp

/-- The defaults of `modelPrizeCollectingTSP`, algorithms.hh 187-204: both kinds of subtour constraints, and no other plug-in. -/
def basicOptions : SolveOptions := ⟨false, false, false, true, true⟩

/-- A stand-in for the choice that `buildProblem` passes on to the shortest path covers, which are off. -/
def noPick : Pick := fun _ _ q => q.headD 0

/-- `solvePrizeCollectingTSP`, algorithms.cpp 28-46 and 59-67, with the status that the caller can ask the model for.  Unless the status is
`infeasible` the best solution is read, also if there is none: `SCIPgetSolVal` is then called with a null pointer after the search has ended. -/
def basicSolve (scip : Problem → ScipOutcome) (order : Nat → List Nat) (g : Graph) (heur : List Nat) (cost prize : Nat → Int) (quota : Int)
    (root : Nat) : Res (ScipStatus × List (Nat × Nat)) := do
  let p ← buildProblem g heur cost prize quota root basicOptions (fun _ => 0) noPick
  let a := scip p
  if a.status = .infeasible then .ok (a.status, [])
  else match a.best with
    | none => .ub "SCIPgetSolVal without a solution"
    | some x => do
      let ps ← getVertexPairVectorFromEdgeSubset p.graph (getSolutionEdges p.graph (order p.graph.edges.length) fun e => decide (0 < x e))
      pure (a.status, ps)

/-- `prize_map[vertex] = prize`, algorithms.cpp 350-352, for each entry in the order of the `std::map`.  The property map of `n` vertices does not
check the index. -/
def setPrizes (n : Nat) : List (Nat × Int) → (Nat → Int) → Res (Nat → Int)
  | [], f => .ok f
  | (v, c) :: rest, f => if v < n then setPrizes n rest (upd f v c) else .ub "prize_map: not a vertex"

/-- The costs, algorithms.cpp 353-357, for each entry in the order of the `std::map`. -/
def setCosts (g : Graph) : List ((Nat × Nat) × Int) → (Nat → Int) → Res (Nat → Int)
  | [], f => .ok f
  | (p, c) :: rest, f => do
    match ← g.edge p.1 p.2 with
    | none => .throw (.edgeNotFound p.1 p.2)
    | some e => setCosts g rest (upd f e c)

/-- The start solution, algorithms.cpp 358-364. -/
def startEdges (g : Graph) (heur : List (Nat × Nat)) : Res (List Nat) :=
  if heur.length > 0 then edgesFromVertexPairs g heur else .ok []

/-- `basic_solve_pctsp_bind`, pypctsp.cpp 15-31, which calls algorithms.cpp 48-68 and 327-373 with an empty graph.  The properties of vertices and
edges start as 0. -/
def basicBind (scip : Problem → ScipOutcome) (order : Nat → List Nat) (es heur : List (Nat × Nat)) (costs : List ((Nat × Nat) × Int))
    (prizes : List (Nat × Int)) (quota : Int) (root : Nat) : Res (ScipStatus × List (Nat × Nat)) := do
  let g := graphOf es
  let prize ← setPrizes g.n prizes (fun _ => 0)
  let cost ← setCosts g costs (fun _ => 0)
  let start ← startEdges g heur
  basicSolve scip order g start cost prize quota root

end Pctsp
