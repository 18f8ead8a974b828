import Verif.Model.Res

/-!
# Python: preprocessing of the input graph

Model of pctsp/preprocessing/preprocessing.py 22-34 and 88-156 and of `run_preprocessing`, pctsp/lab/run_algorithm.py 281-321.
`nx.node_connected_component` and `nx.biconnected_components` are parameters; they are described in Spec/Cycles.lean.
-/

namespace Pctsp

/-- An `nx.Graph` as the preprocessing sees it: the nodes and the neighbours of each node, both in the order of the dictionaries.  A self-loop
makes a node its own neighbour (once).  The attributes of nodes and edges are not touched by the preprocessing. -/
structure NxGraph (V : Type) where
  nodes : List V
  adj : V → List V

namespace NxGraph

variable {V : Type} [DecidableEq V]

/-- What networkx guarantees of an undirected graph: no node and no neighbour is listed twice, neighbours are nodes, adjacency is symmetric. -/
structure WF (g : NxGraph V) : Prop where
  nodup : g.nodes.Nodup
  adjNodup : ∀ u, (g.adj u).Nodup
  closed : ∀ u v, v ∈ g.adj u → u ∈ g.nodes ∧ v ∈ g.nodes
  symm : ∀ u v, v ∈ g.adj u → u ∈ g.adj v

/-- `graph.subgraph(s)`: the subgraph induced by the nodes that are in `s`. -/
def subgraph (g : NxGraph V) (s : List V) : NxGraph V where
  nodes := g.nodes.filter (· ∈ s)
  adj u := if u ∈ s then (g.adj u).filter (· ∈ s) else []

end NxGraph

variable {V : Type} [DecidableEq V]

/-- `degree_without_self_loops`, preprocessing.py 88-102: counts the neighbours that differ from the vertex. -/
def degreeWithoutSelfLoops (g : NxGraph V) (vertex : V) : Nat :=
  (g.adj vertex).foldl (fun count u => if u ≠ vertex then count + 1 else count) 0

/-- `remove_leaves`, preprocessing.py 105-129.  `depth` is the number of nested calls that the interpreter still allows. -/
def removeLeaves : Nat → NxGraph V → Res (NxGraph V)
  | 0, _ => .throw .recursionError
  | depth + 1, g =>
    let leaves := g.nodes.filter fun v => degreeWithoutSelfLoops g v ≤ 1
    let sub := g.subgraph (g.nodes.filter fun v => v ∉ leaves)
    if leaves ≠ [] then removeLeaves depth sub else .ok sub

/-- `remove_components_disconnected_from_vertex`, preprocessing.py 22-34.  `component g v` is `nx.node_connected_component`, which looks up
the neighbours of `v`. -/
def removeDisconnected (component : NxGraph V → V → List V) (g : NxGraph V) (vertex : V) : Res (NxGraph V) :=
  if vertex ∈ g.nodes then .ok (g.subgraph (component g vertex)) else .throw .keyError

/-- `remove_one_connected_components`, preprocessing.py 132-156: `components g` is `nx.biconnected_components(graph)`. -/
def removeOneConnected (components : NxGraph V → List (List V)) (g : NxGraph V) (root : V) : NxGraph V :=
  let rootComponent := (components g).foldl (fun acc c => if root ∈ c ∧ 3 ≤ c.length then acc ++ c else acc) [root]
  g.subgraph (g.nodes.filter fun v => v ∈ rootComponent)

/-- The flags of `Preprocessing`, pctsp/vial/preprocessing.py. -/
structure PreprocessFlags where
  removeDisconnected : Bool
  removeLeaves : Bool
  removeOneConnected : Bool
  shortestPathCutoff : Bool
  disjointPathCutoff : Bool

/-- `run_preprocessing`, run_algorithm.py 281-321, without the logging. -/
def runPreprocessing (component : NxGraph V → V → List V) (components : NxGraph V → List (List V)) (depth : Nat) (flags : PreprocessFlags)
    (g : NxGraph V) (root : V) : Res (NxGraph V) := do
  let g ← (if flags.removeDisconnected then removeDisconnected component g root else .ok g)
  let g ← (if flags.removeLeaves then removeLeaves depth g else .ok g)
  let g := if flags.removeOneConnected then removeOneConnected components g root else g
  if flags.shortestPathCutoff then .throw .notImplementedError
  else if flags.disjointPathCutoff then .throw .notImplementedError
  else .ok g

end Pctsp
