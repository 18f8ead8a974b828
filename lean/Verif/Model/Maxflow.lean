import Verif.Model.Rows
import Verif.Model.Renaming

/-!
# Separation by maximum flow and minimum cut

`PCTSPseparateMaxflowMincut` and `PCTSPseparateSubtour` (src/subtour_elimination.cpp 297-485), `getCapacityVectorFromSol`
(src/separation.cpp 74-97), `getReachableVertices` and `getUnreachableVertices` (subtour_elimination.hh 67-131).

An LP value is the fraction `x e / q` with an integer numerator and a common positive denominator `q`; the comparisons of SCIP are exact
here (the code uses a tolerance).  `CapacityType` is `long`; overflow is left out (values are at most 2).  `boost::push_relabel_max_flow`
and `boost::depth_first_visit` are parameters.  The call of `boost::strong_components` and the vector it fills are not used by the code
and left out.
-/

namespace Pctsp

/-- `FLOW_FLOAT_MULTIPLIER`, separation.hh 10. -/
def flowMultiplier : Int := 1000000

/-- The capacity for the value `v / q`, separation.cpp 84-94; the conversion to `long` truncates (values are not negative). -/
def capacityOf (q v : Int) : Int :=
  if v = 0 then 0
  else if v = q then flowMultiplier
  else if v = 2 * q then flowMultiplier * 2
  else flowMultiplier * v / q

/-- `getCapacityVectorFromSol`, separation.cpp 74-97: one entry for each edge of `getSolutionEdges`, in the same order. -/
def getCapacityVectorFromSol (g : Graph) (order : List Nat) (q : Int) (x : Nat → Int) : List Int :=
  (getSolutionEdges g order fun e => decide (0 < x e)).map fun e => capacityOf q (x e)

/-- The pairs with both ends in the root component, subtour_elimination.cpp 340-344. -/
def rootPairs (rootComponent : List Nat) (pairs : List (Nat × Nat)) : List (Nat × Nat) :=
  pairs.filter fun p => rootComponent.contains p.1 && rootComponent.contains p.2

/-- The directed support graph, subtour_elimination.cpp 354-374: edge `i` of the support gives four directed edges, both directions with
the capacity `capacity_vector[i]` and a reverse edge of capacity 0 for each. -/
def capacityEdges : List (Nat × Nat) → List Int → Res (List ((Nat × Nat) × Int))
  | [], _ => .ok []
  | _ :: _, [] => .ub "capacity_vector: out of bounds"
  | p :: ps, c :: cs => do
    let rest ← capacityEdges ps cs
    pure ((p, c) :: ((p.2, p.1), c) :: ((p.2, p.1), 0) :: (p, 0) :: rest)

/-- `reverse_edges`, subtour_elimination.cpp 369-373, by positions. -/
def reverseOf (j : Nat) : Nat := if j % 4 < 2 then j + 2 else j - 2

/-- The answer of `boost::push_relabel_max_flow`: the value and the residual capacity of each directed edge (by position). -/
structure FlowAnswer where
  value : Int
  residual : Nat → Int

/-- `boost::push_relabel_max_flow(graph, source, target, ...)`. -/
abbrev MaxFlow := List ((Nat × Nat) × Int) → Nat → Nat → FlowAnswer

/-- `boost::depth_first_visit` on a directed graph from a source: which vertices get the colour of the source. -/
abbrev Visit := List (Nat × Nat) → Nat → Nat → Bool

/-- The filtered graph of the edges with a positive weight, subtour_elimination.hh 55-64 and 77-78. -/
def positiveEdges (des : List ((Nat × Nat) × Int)) (weight : Nat → Int) : List (Nat × Nat) :=
  (des.zipIdx.filter fun p => decide (0 < weight p.2)).map fun p => p.1.1

/-- `getReachableVertices`, subtour_elimination.hh 67-98. -/
def getReachableVertices (visit : Visit) (n : Nat) (des : List ((Nat × Nat) × Int)) (source : Nat) (weight : Nat → Int) : List Nat :=
  (List.range n).filter fun v => visit (positiveEdges des weight) source v

/-- `getUnreachableVertices`, subtour_elimination.hh 100-131. -/
def getUnreachableVertices (visit : Visit) (n : Nat) (des : List ((Nat × Nat) × Int)) (source : Nat) (weight : Nat → Int) : List Nat :=
  (List.range n).filter fun v => !visit (positiveEdges des weight) source v

/-- The state of the loops: the solver, `num_conss_added` and the flags `added_sec`. -/
structure MaxflowState where
  sep : SepState
  count : Nat
  done : Nat → Bool

/-- The loop over the unreachable vertices, subtour_elimination.cpp 407-424. -/
def secUnreachableLoop (sv : Solver) (g : Graph) (hasVar : Nat → Bool) (lookup : Bimap Nat) (vs : List Nat) (root : Nat) :
    List Nat → MaxflowState → Res MaxflowState
  | [], s => .ok s
  | u :: us, s => do
    let t ← getOldVertex lookup u
    let sep ← addSubtourEliminationConstraint sv g hasVar vs root t s.sep
    let u' ← getNewVertex lookup t
    secUnreachableLoop sv g hasVar lookup vs root us { sep, count := s.count + 1, done := upd s.done u' true }

/-- The loop over the targets, subtour_elimination.cpp 388-427; `n` is the number of vertices of the support graph. -/
def maxflowTargetLoop (sv : Solver) (g : Graph) (hasVar : Nat → Bool) (lookup : Bimap Nat) (flow : MaxFlow) (visit : Visit)
    (des : List ((Nat × Nat) × Int)) (n supportRoot root : Nat) : List Nat → MaxflowState → Res MaxflowState
  | [], s => .ok s
  | t :: ts, s =>
    if s.done t then maxflowTargetLoop sv g hasVar lookup flow visit des n supportRoot root ts s
    else
      let a := flow des supportRoot t
      if a.value < 2 * flowMultiplier then do
        let unreachable := getUnreachableVertices visit n des supportRoot a.residual
        let vs ← getOldVertices lookup
          (if unreachable.length ≥ 3 then unreachable else getReachableVertices visit n des supportRoot a.residual)
        let s ← secUnreachableLoop sv g hasVar lookup vs root unreachable s
        maxflowTargetLoop sv g hasVar lookup flow visit des n supportRoot root ts s
      else maxflowTargetLoop sv g hasVar lookup flow visit des n supportRoot root ts s

/-- `PCTSPseparateMaxflowMincut`, subtour_elimination.cpp 308-428; the second component is the change of `num_conss_added`. -/
def separateMaxflowMincut (sv : Solver) (g : Graph) (hasVar : Nat → Bool) (flow : MaxFlow) (visit : Visit) (order : List Nat) (q : Int)
    (x : Nat → Int) (root : Nat) (rootComponent : List Nat) (st : SepState) : Res (SepState × Nat) := do
  let solutionEdges := getSolutionEdges g order fun e => decide (0 < x e)
  let capacityVector := getCapacityVectorFromSol g order q x
  let edgeVector ← getVertexPairVectorFromEdgeSubset g solutionEdges
  let (supportEdges, lookup) := renameEdges [] (rootPairs rootComponent edgeVector)
  let des ← capacityEdges supportEdges capacityVector
  let n := (graphOf supportEdges).n
  let supportRoot ← getNewVertex lookup root
  let done : Nat → Bool := if supportRoot < n then upd (fun _ => false) supportRoot true else fun _ => false
  let s ← maxflowTargetLoop sv g hasVar lookup flow visit des n supportRoot root (List.range n) { sep := st, count := 0, done }
  pure (s.sep, s.count)

/-- `PCTSPseparateSubtour`, subtour_elimination.cpp 430-485: the state of the solver and the two numbers that are reported to the node
event handler.  `m` and `ids` are the answer of `boost::connected_components` on the support graph. -/
def separateSubtour (sv : Solver) (g : Graph) (hasVar : Nat → Bool) (flow : MaxFlow) (visit : Visit) (order : List Nat) (q : Int)
    (x : Nat → Int) (root m : Nat) (ids : List Nat) (secDisjointTour secMaxflowMincut : Bool) (st : SepState) :
    Res (SepState × Nat × Nat) := do
  let comps ← getConnectedComponentsVectors g.n m ids
  match ids[root]? with
  | none => .ub "component: out of bounds"
  | some rootId =>
    let (st, k) ← if secDisjointTour then separateDisjointTour sv g hasVar root rootId comps st else .ok (st, 0)
    if secMaxflowMincut then
      match comps[rootId]? with
      | none => .ub "component_vectors: out of bounds"
      | some rootComponent => do
        let (st, l) ← separateMaxflowMincut sv g hasVar flow visit order q x root rootComponent st
        pure (st, k, l)
    else pure (st, k, 0)

/-- `PCTSPconshdlrSubtour::scip_sepalp`, subtour_elimination.cpp 297-301. -/
def sepalp (sv : Solver) (g : Graph) (hasVar : Nat → Bool) (flow : MaxFlow) (visit : Visit) (order : List Nat) (q : Int)
    (x : Nat → Int) (root m : Nat) (ids : List Nat) (secDisjointTour secMaxflowMincut : Bool) (st : SepState) :
    Res (SepState × Nat × Nat) :=
  separateSubtour sv g hasVar flow visit order q x root m ids secDisjointTour secMaxflowMincut { st with result := .didNotFind }

end Pctsp
