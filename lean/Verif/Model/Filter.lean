import Verif.Model.Graph

/-!
# The view of a graph on its marked vertices

`filterMarkedVertices` and its two predicates, include/pctsp/graph.hh 390-423, and what `boost::filtered_graph`
does with them.
-/

namespace Pctsp

/-- `BoolVertexFilter`, graph.hh 390-399.  Indexing a `std::vector` out of bounds is undefined. -/
def vertexFilter (mark : List Bool) (u : Nat) : Res Bool :=
  match mark[u]? with
  | some b => .ok b
  | none => .ub "is_vertex_filtered: out of bounds"

/-- `BoolEdgeFilter`, graph.hh 401-414: `||` does not look at the target if the source is marked. -/
def edgeFilter (mark : List Bool) (e : Nat × Nat) : Res Bool := do
  if ← vertexFilter mark e.1 then pure true else vertexFilter mark e.2

/-- The result of `filterMarkedVertices`, graph.hh 416-423: the graph itself and the predicates, which hold copies
of the marks. -/
structure FilteredGraph where
  graph : Graph
  vertexPred : Nat → Res Bool
  edgePred : Nat × Nat → Res Bool

/-- `filterMarkedVertices`, graph.hh 416-423. -/
def filterMarkedVertices (g : Graph) (mark : List Bool) : FilteredGraph :=
  { graph := g, vertexPred := vertexFilter mark, edgePred := edgeFilter mark }

/-- `boost::filter_iterator` over a sequence: the elements for which the predicate holds, in order. -/
def filterRes {α : Type} (p : α → Res Bool) : List α → Res (List α)
  | [] => .ok []
  | a :: as => do
    let b ← p a
    let rest ← filterRes p as
    pure (if b then a :: rest else rest)

namespace FilteredGraph

/-- `boost::vertices(f)`. -/
def vertices (f : FilteredGraph) : Res (List Nat) := filterRes f.vertexPred (List.range f.graph.n)

/-- The predicate of `boost::edges(f)` (`filtered_graph.hpp`, `edge_predicate`): the predicate of the edge, of the
source and of the target, in this order. -/
def keepsEdge (f : FilteredGraph) (e : Nat × Nat) : Res Bool := do
  if ← f.edgePred e then
    if ← f.vertexPred e.1 then f.vertexPred e.2 else pure false
  else pure false

/-- `boost::edges(f)`. -/
def edges (f : FilteredGraph) : Res (List (Nat × Nat)) := filterRes f.keepsEdge f.graph.edges

/-- The predicate of `boost::out_edges(u, f)` (`out_edge_predicate`): the predicate of the edge and of its target. -/
def keepsOutEdge (f : FilteredGraph) (e : Nat × Nat) : Res Bool := do
  if ← f.edgePred e then f.vertexPred e.2 else pure false

/-- `boost::out_edges(u, f)`: the edges of `u`, seen from `u`, that pass the predicate.  A vertex that is not in the graph is
undefined; one that is in the graph but not in the view is not. -/
def outEdges (f : FilteredGraph) (u : Nat) : Res (List (Nat × Nat)) := do
  let vs ← f.graph.adjacentVertices u
  filterRes f.keepsOutEdge (vs.map fun v => (u, v))

/-- `boost::adjacent_vertices(u, f)`: the targets of the out-edges. -/
def adjacent (f : FilteredGraph) (u : Nat) : Res (List Nat) := do
  let es ← f.outEdges u
  pure (es.map Prod.snd)

/-- `boost::num_vertices(f)`: counts them. -/
def numVertices (f : FilteredGraph) : Res Nat := do
  let vs ← f.vertices
  pure vs.length

/-- `boost::num_edges(f)`: counts them. -/
def numEdges (f : FilteredGraph) : Res Nat := do
  let es ← f.edges
  pure es.length

end FilteredGraph

end Pctsp
