import Verif.Model.Walk

/-!
# Dijkstra's algorithm

Model of `boost::dijkstra_shortest_paths` as it is called by `dijkstraShortestPathBlacklist` (walk.hh 189-268) and by
`includeShortestPathCostCover` (cost_cover.hh 134-159).  The library code is boost's `breadth_first_visit` with
`dijkstra_bfs_visitor`; it is modelled here because the repository's visitor changes the colour map behind its back.
Distances are unbounded integers, `none` stands for infinity (`numeric_limits<int>::max()`).
-/

namespace Pctsp

/-- Colours of boost's `default_color_type` that the search uses. -/
inductive Color where
  | white | gray | black
  deriving DecidableEq, Repr

/-- State of the search. `queue` holds the vertices of the priority queue. -/
structure DijState where
  dist : Nat → Option Int
  pred : Nat → Nat
  color : Nat → Color
  queue : List Nat

/-- `boost::out_edges(u, g)`: pairs of edge descriptor and target. -/
def Graph.outEdges (g : Graph) (u : Nat) : List (Nat × Nat) :=
  g.edges.zipIdx.flatMap fun (e, i) => (Graph.nbrsOf u e).map fun v => (i, v)

/-- The loop over the out-edges of `u` in `breadth_first_visit`.  A negative weight throws; then `TargetVisitor::examine_edge`
(walk.hh 220-225) paints a marked target black; then a white target is relaxed and pushed, a gray one is relaxed,
a black one is ignored. `du` is the distance of `u`. -/
def relaxEdges (cost : Nat → Int) (mark : Nat → Bool) (u : Nat) (du : Int) :
    List (Nat × Nat) → DijState → Res DijState
  | [], st => .ok st
  | (e, v) :: rest, st =>
    if cost e < 0 then .throw .negativeEdge
    else
      let color := if mark v then upd st.color v .black else st.color
      let st := { st with color := color }
      match st.color v with
      | .white =>
        relaxEdges cost mark u du rest
          { dist := upd st.dist v (some (du + cost e)), pred := upd st.pred v u,
            color := upd st.color v .gray, queue := st.queue ++ [v] }
      | .gray =>
        match st.dist v with
        | none => .ub "dijkstra: queued vertex without distance"
        | some dv =>
          if du + cost e < dv then
            relaxEdges cost mark u du rest
              { st with dist := upd st.dist v (some (du + cost e)), pred := upd st.pred v u }
          else relaxEdges cost mark u du rest st
      | .black => relaxEdges cost mark u du rest st

/-- Which vertex of the queue is taken in a round: the heap returns some vertex of least distance; ties are resolved
by the heap's history, hence the dependence on the number of remaining rounds. -/
abbrev Pick := Nat → (Nat → Option Int) → List Nat → Nat

/-- The main loop of `breadth_first_visit`; `target` is the vertex whose completion makes the visitor throw
`TargetVertexFound` (walk.hh 228-231); the Boolean of the result tells if that happened. -/
def dijkstraLoop (g : Graph) (cost : Nat → Int) (mark : Nat → Bool) (target : Option Nat) (pick : Pick) :
    Nat → DijState → Res (Bool × DijState)
  | 0, _ => .ub "dijkstra: out of fuel"
  | fuel + 1, st =>
    if st.queue = [] then .ok (false, st)
    else
      let u := pick fuel st.dist st.queue
      match st.dist u with
      | none => .ub "dijkstra: queued vertex without distance"
      | some du => do
        let st' ← relaxEdges cost mark u du (g.outEdges u) { st with queue := st.queue.erase u }
        let st' := { st' with color := upd st'.color u .black }
        if target = some u then .ok (true, st')
        else dijkstraLoop g cost mark target pick fuel st'

/-- `boost::dijkstra_shortest_paths(graph, source, ...)` with initialisation: all vertices white, at infinite distance and their
own predecessor. -/
def dijkstra (g : Graph) (cost : Nat → Int) (mark : Nat → Bool) (target : Option Nat) (pick : Pick) (source : Nat) :
    Res (Bool × DijState) :=
  if source < g.n then
    dijkstraLoop g cost mark target pick (g.n + 1)
      { dist := upd (fun _ => none) source (some 0), pred := fun v => v,
        color := upd (fun _ => .white) source .gray, queue := [source] }
  else .ub "dijkstra: not a vertex"

end Pctsp
