import Verif.Model.GraphUtil
import Verif.Model.Dijkstra
import Mathlib.Data.Rat.Floor

/-!
# The edges of a cut and the support graph of a solution

Model of include/pctsp/subtour_elimination.hh 14-27 (`getEdgesFromCut`), include/pctsp/graph.hh 73-77 and 244-252, include/pctsp/solution.hh 32-69
(the view of a graph on the edges whose variable is positive) and src/solution.cpp 13-20 (`isSolutionIntegral`).
-/

namespace Pctsp

/-- `boost::get(parity_map, v)`: the map has an entry for each vertex; reading another one is undefined. -/
def sideOf {α : Type} (parity : List α) (v : Nat) : Res α :=
  match parity[v]? with
  | some a => .ok a
  | none => .ub "parity_map: out of bounds"

/-- The loop of `getEdgesFromCut`, subtour_elimination.hh 18-25; `i` is the descriptor of the next edge. -/
def edgesFromCutLoop {α : Type} [DecidableEq α] (parity : List α) : Nat → List (Nat × Nat) → Res (List Nat)
  | _, [] => .ok []
  | i, e :: es => do
    let a ← sideOf parity e.1
    let b ← sideOf parity e.2
    let rest ← edgesFromCutLoop parity (i + 1) es
    pure (if a ≠ b then i :: rest else rest)

/-- `getEdgesFromCut`, subtour_elimination.hh 14-27. -/
def getEdgesFromCut {α : Type} [DecidableEq α] (g : Graph) (parity : List α) : Res (List Nat) := edgesFromCutLoop parity 0 g.edges

/-- `getVertexPairVectorFromGraph`, graph.hh 73-77. -/
def getVertexPairVectorFromGraph (g : Graph) : Res (List (Nat × Nat)) := getVertexPairVectorFromEdgeSubset g (getEdgeVectorOfGraph g)

/-- `PositiveEdgeVarFilter::operator()`, solution.hh 47-52: an edge that is not in the map gets a null variable, whose value must not be asked for. -/
def positiveEdgeVar (hasVar pos : Nat → Bool) (e : Nat) : Res Bool :=
  if hasVar e then .ok (pos e) else .ub "SCIPgetSolVal of a null variable"

/-- A `boost::filter_iterator` over edge descriptors. -/
def supportFilter {α : Type} (hasVar pos : Nat → Bool) (key : α → Nat) : List α → Res (List α)
  | [] => .ok []
  | a :: as => do
    let b ← positiveEdgeVar hasVar pos (key a)
    let rest ← supportFilter hasVar pos key as
    pure (if b then a :: rest else rest)

/-- `boost::edges(f)` for `f = filterGraphByPositiveEdgeVars(...)`, solution.hh 55-69: all vertices are kept. -/
def supportEdges (g : Graph) (hasVar pos : Nat → Bool) : Res (List Nat) := supportFilter hasVar pos id (List.range g.edges.length)

/-- `numEdgesInFilteredGraph`, graph.hh 244-252. -/
def numEdgesInFilteredGraph (g : Graph) (hasVar pos : Nat → Bool) : Res Nat := do
  let es ← supportEdges g hasVar pos
  pure es.length

/-- `boost::out_edges(u, f)` for the view on the edges with a positive variable. -/
def supportOutEdges (g : Graph) (hasVar pos : Nat → Bool) (u : Nat) : Res (List (Nat × Nat)) :=
  if u < g.n then supportFilter hasVar pos Prod.fst (g.outEdges u) else .ub "out_edges: vertex out of bounds"

/-- `SCIPisIntegral(scip, value)`: SCIP's macro `EPSISINT`. -/
def scipIsIntegral (eps v : Rat) : Bool := decide (v - (v + eps).floor ≤ eps)

/-- The loop of `isSolutionIntegral`, solution.cpp 13-20, over the values of the variables. -/
def isSolutionIntegral (eps : Rat) : List Rat → Bool
  | [] => true
  | v :: vs => if !scipIsIntegral eps v then false else isSolutionIntegral eps vs

end Pctsp
