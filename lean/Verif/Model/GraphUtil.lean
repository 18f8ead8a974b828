import Verif.Model.Extension

/-!
# Graph utilities

Components of a labelled graph, self-loops, edges of vertex sets: include/pctsp/data_structures.hh,
include/pctsp/preprocessing.hh, src/preprocessing.cpp and parts of include/pctsp/graph.hh.
-/

namespace Pctsp

/-- `vertex_component_ids[v_index[vertex]]` used as an index of a vector with `m` entries, data_structures.hh 59-60.
Reading or indexing out of bounds is undefined.  (The ids are `int`; a negative one is out of bounds as well, the
model leaves it out.) -/
def componentId (m : Nat) (ids : List Nat) (v : Nat) : Res Nat :=
  match ids[v]? with
  | none => .ub "vertex_component_ids: out of bounds"
  | some c => if c < m then .ok c else .ub "component vectors: out of bounds"

/-- The loop that counts the vertices of each component, data_structures.hh 58-61. -/
def componentCountLoop (m : Nat) (ids : List Nat) : List Nat → (Nat → Nat) → Res (Nat → Nat)
  | [], size => .ok size
  | v :: vs, size => do
    let c ← componentId m ids v
    componentCountLoop m ids vs (upd size c (size c + 1))

/-- The loop that fills the vectors, data_structures.hh 66-69. -/
def componentFillLoop (m : Nat) (ids : List Nat) : List Nat → (Nat → List Nat) → (Nat → Nat) → Res (Nat → List Nat)
  | [], vecs, _ => .ok vecs
  | v :: vs, vecs, added => do
    let c ← componentId m ids v
    if added c < (vecs c).length then
      componentFillLoop m ids vs (upd vecs c ((vecs c).set (added c) v)) (upd added c (added c + 1))
    else .ub "component_vectors[c]: out of bounds"

/-- `getConnectedComponentsVectors`, data_structures.hh 47-71, for a graph with `n` vertices.  A
`std::vector<VertexDescriptor>(size)` is filled with zeros. -/
def getConnectedComponentsVectors (n m : Nat) (ids : List Nat) : Res (List (List Nat)) := do
  let size ← componentCountLoop m ids (List.range n) (fun _ => 0)
  let vecs ← componentFillLoop m ids (List.range n) (fun c => List.replicate (size c) 0) (fun _ => 0)
  pure ((List.range m).map vecs)

/-- The list of ids of the components with more than one vertex, data_structures.hh 84-91. -/
def nonSingularIds {α : Type} : Nat → List (List α) → List Nat
  | _, [] => []
  | i, c :: cs => if c.length > 1 then i :: nonSingularIds (i + 1) cs else nonSingularIds (i + 1) cs

/-- The copy loop, data_structures.hh 95-101: runs over the ids but reads `component_vectors[i]`, where `i` counts the
rounds. -/
def copyComponentsLoop {α : Type} (comps : List (List α)) : Nat → List Nat → Res (List (List α))
  | _, [] => .ok []
  | i, _ :: ids =>
    match comps[i]? with
    | none => .ub "component_vectors: out of bounds"
    | some c => do
      let rest ← copyComponentsLoop comps (i + 1) ids
      pure (c :: rest)

/-- `getNonSingularConnectedComponentVectors`, data_structures.hh 77-103. -/
def getNonSingularConnectedComponentVectors {α : Type} (comps : List (List α)) : Res (List (List α)) :=
  copyComponentsLoop comps 0 (nonSingularIds 0 comps)

/-- `addSelfLoopsToGraph`, src/preprocessing.cpp 3-7.  A new edge gets the default cost 0 in the cost map that is a
property of the graph. -/
def addSelfLoopsToGraph (g : Graph) (cost : Nat → Int) : Graph × (Nat → Int) :=
  (List.range g.n).foldl (fun s v => (s.1.addEdge v v, upd s.2 s.1.edges.length 0)) (g, cost)

/-- `hasSelfLoopsOnAllVertices`, preprocessing.hh 29-36. -/
def hasSelfLoopsOnAllVertices (g : Graph) : Bool := (List.range g.n).all fun v => (g.edgeIdx v v).isSome

/-- `assignZeroCostToSelfLoops`, preprocessing.hh 12-21. -/
def assignZeroCostToSelfLoops (g : Graph) (cost : Nat → Int) : Nat → Int :=
  (List.range g.n).foldl (fun cost v => match g.edgeIdx v v with
    | some e => upd cost e 0
    | none => cost) cost

/-- The preparation of the input graph in `modelPrizeCollectingTSP`, src/algorithms.cpp 275-279. -/
def ensureSelfLoops (g : Graph) (cost : Nat → Int) : Graph × (Nat → Int) :=
  if hasSelfLoopsOnAllVertices g then (g, cost)
  else
    let s := addSelfLoopsToGraph g cost
    (s.1, assignZeroCostToSelfLoops s.1 s.2)

/-- `putPrizeOntoEdgeWeights`, preprocessing.hh 38-56: the weight of an edge is written to the first edge between its
end points.  The weights start as an empty `std::map`, which reads as 0. -/
def putPrizeOntoEdgeWeights (g : Graph) (prize : Nat → Int) : Nat → Int :=
  g.edges.foldl (fun w e =>
    match g.edgeIdx e.1 e.2 with
    | some i => upd w i (if e.1 = e.2 then prize e.1 else 0)
    | none => w) (fun _ => 0)

/-- The end points of an edge descriptor: `boost::source`, `boost::target`.  A descriptor that is not an edge of the
graph is undefined. -/
def Graph.ends (g : Graph) (e : Nat) : Res (Nat × Nat) :=
  match g.edges[e]? with
  | some p => .ok p
  | none => .ub "not an edge of the graph"

/-- Insertion into a `std::set`, graph.hh 176-181: nothing happens if the element is in the set. -/
def setInsert (s : List Nat) (x : Nat) : List Nat := if s.contains x then s else insertSorted x s

/-- The loop over the edges, graph.hh 172-183; the set is the increasing list of its elements. -/
def verticesOfEdgesLoop (g : Graph) : List Nat → List Nat → Res (List Nat)
  | [], s => .ok s
  | e :: es, s => do
    let p ← g.ends e
    verticesOfEdgesLoop g es (setInsert (setInsert s p.1) p.2)

/-- `getVerticesOfEdges`, graph.hh 163-190: the set is copied to a vector in increasing order. -/
def getVerticesOfEdges (g : Graph) (es : List Nat) : Res (List Nat) := verticesOfEdgesLoop g es []

/-- `getSelfLoops`, graph.hh 192-210. -/
def getSelfLoops (g : Graph) : List Nat → Res (List Nat)
  | [] => .ok []
  | v :: vs => do
    match ← g.edge v v with
    | none => .throw (.noSelfLoopFound v)
    | some e =>
      let rest ← getSelfLoops g vs
      pure (e :: rest)

/-- The inner loop of `getEdgesInducedByVertices`, graph.hh 220-227. -/
def inducedInner (g : Graph) (u : Nat) : List Nat → Res (List Nat)
  | [] => .ok []
  | v :: vs => do
    let e ← g.edge u v
    let rest ← inducedInner g u vs
    pure (e.toList ++ rest)

/-- `getEdgesInducedByVertices`, graph.hh 212-232. -/
def getEdgesInducedByVertices (g : Graph) : List Nat → Res (List Nat)
  | [] => .ok []
  | u :: vs => do
    let es ← inducedInner g u vs
    let rest ← getEdgesInducedByVertices g vs
    pure (es ++ rest)

/-- `edgesFromVertexPairs`, graph.hh 86-107. -/
def edgesFromVertexPairs (g : Graph) : List (Nat × Nat) → Res (List Nat)
  | [] => .ok []
  | p :: ps => do
    match ← g.edge p.1 p.2 with
    | none => .throw (.edgeNotFound p.1 p.2)
    | some e =>
      let rest ← edgesFromVertexPairs g ps
      pure (e :: rest)

/-- `getVertexPairVectorFromEdgeSubset`, src/graph.cpp 16-29. -/
def getVertexPairVectorFromEdgeSubset (g : Graph) (es : List Nat) : Res (List (Nat × Nat)) := mapRes g.ends es

/-- `getEdgeVectorOfGraph`, src/graph.cpp 6-14: all descriptors in insertion order. -/
def getEdgeVectorOfGraph (g : Graph) : List Nat :=
  ((List.range g.edges.length).foldl (fun (s : List Nat × Nat) e => (s.1.take s.2 ++ e :: s.1.drop s.2, s.2 + 1)) ([], 0)).1

/-- `isPrizeFeasible`, graph.hh 256-270. -/
def isPrizeFeasible (prize : Nat → Int) (quota : Int) (vs : List Nat) : Bool :=
  decide (quota ≤ vs.foldl (fun p v => p + prize v) 0)

end Pctsp
