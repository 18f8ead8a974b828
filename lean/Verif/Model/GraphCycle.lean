import Verif.Model.Rows
import Verif.Model.SimpleCycle

/-!
# Whole graphs as simple cycles

`isGraphSimpleCycle`, src/separation.cpp 13-24, and `getSolutionGraph`, src/solution.cpp 54-69.
-/

namespace Pctsp

/-- `isGraphSimpleCycle`, separation.cpp 13-24.  `m` and `ids` are the number of components and the labels that
`boost::connected_components` finds, `cv` is the vector of the caller.  The labels are written through a pointer to the first entry, so
a vector with fewer entries than vertices is overrun.  `boost::degree` is the length of the out-edge list (a self-loop is in it twice).
The second component of the result is the vector afterwards. -/
def isGraphSimpleCycle (g : Graph) (m : Nat) (ids cv : List Nat) : Res (Bool × List Nat) :=
  if g.n = 0 then .ok (false, cv)
  else if g.edges.length = 0 then .ok (false, cv)
  else if cv.length < g.n then .ub "connected_components: write past the end of component_vector"
  else
    let cv := ids ++ cv.drop g.n
    if m ≠ 1 then .ok (false, cv)
    else .ok ((List.range g.n).all fun v => (g.adjacent v).length == 2, cv)

/-- The loop of `getSolutionGraph`, solution.cpp 63-68. -/
def solutionGraphLoop (g : Graph) : List Nat → Graph → Res Graph
  | [], sg => .ok sg
  | e :: es, sg => do
    let p ← g.ends e
    solutionGraphLoop g es (if p.1 ≠ p.2 then sg.addEdge p.1 p.2 else sg)

/-- `getSolutionGraph`, solution.cpp 54-69: adds the edges of the solution to `sg`.  The flag `self_loops` is passed on to
`getSolutionEdges`, which ignores it. -/
def getSolutionGraph (g sg : Graph) (order : List Nat) (pos : Nat → Bool) : Res Graph :=
  solutionGraphLoop g (getSolutionEdges g order pos) sg

end Pctsp
