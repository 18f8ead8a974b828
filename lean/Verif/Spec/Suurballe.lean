import Verif.Model.Suurballe
import Verif.Spec.Tour

/-!
# Directed paths, edge-disjoint pairs, and what the code expects of `nx.single_source_dijkstra`
-/

namespace Pctsp

variable {V : Type} [LinearOrder V]

/-- What networkx guarantees of a directed graph, and what the documentation of Suurballe's algorithm requires: no loops, costs are not
negative.  (It also requires that no edge has a reverse edge; the theorems do not need that.) -/
structure DiGraph.WF (G : DiGraph V) : Prop where
  nodup : G.nodes.Nodup
  succNodup : ∀ u, (G.succ u).Nodup
  closed : ∀ u v, v ∈ G.succ u → u ∈ G.nodes ∧ v ∈ G.nodes
  noLoop : ∀ u, u ∉ G.succ u
  nonneg : ∀ u v, v ∈ G.succ u → 0 ≤ G.weight u v

/-- No edge has a reverse edge, as the documentation requires. -/
def DiGraph.Asymmetric (G : DiGraph V) : Prop := ∀ u v, v ∈ G.succ u → u ∉ G.succ v

/-- Every edge that is not incident with `s` either leads to a vertex with no other edge into it, or comes from a vertex with at most one edge
into it.  This is so in a graph in which every vertex is split into a tail, which all edges into the vertex lead to, and a head, which all
edges out of the vertex come from, if `s` is a head. -/
def DiGraph.SplitLike (G : DiGraph V) (s : V) : Prop := ∀ u w, w ∈ G.succ u → u ≠ s → w ≠ s →
  (∀ a, w ∈ G.succ a → a = u) ∨ ∀ a b, u ∈ G.succ a → u ∈ G.succ b → a = b

/-- Every vertex other than `s` has at most one edge into it, or at most one edge out of it. -/
def DiGraph.Narrow (G : DiGraph V) (s : V) : Prop := ∀ v, v ≠ s →
  (∀ a b, v ∈ G.succ a → v ∈ G.succ b → a = b) ∨ ∀ a b, a ∈ G.succ v → b ∈ G.succ v → a = b

/-- `dij` is the answer of `nx.single_source_dijkstra(G, s)`: distances and paths of a tree of shortest paths from `s`, for exactly the
vertices that can be reached. -/
structure IsDijkstra (G : DiGraph V) (s : V) (dij : DijkstraOut V) : Prop where
  nodup : dij.distKeys.Nodup
  perm : dij.pathKeys.Perm dij.distKeys
  source : s ∈ dij.distKeys
  pathSource : dij.path s = [s]
  distSource : dij.dist s = 0
  /-- every other path is the path of its last but one vertex and one edge more -/
  step : ∀ v ∈ dij.distKeys, v ≠ s → ∃ u ∈ dij.distKeys, dij.path v = dij.path u ++ [v] ∧ v ∈ G.succ u ∧ dij.dist v = dij.dist u + G.weight u v
  /-- no edge makes a path shorter -/
  relaxed : ∀ u ∈ dij.distKeys, ∀ v ∈ G.succ u, v ∈ dij.distKeys ∧ dij.dist v ≤ dij.dist u + G.weight u v

/-- Every step of the walk is an edge. -/
def DWalk (G : DiGraph V) (l : List V) : Prop := ∀ e ∈ consec l, e.2 ∈ G.succ e.1

/-- The cost of a walk. -/
def walkWeight (weight : V → V → Int) (l : List V) : Int := ((consec l).map fun e => weight e.1 e.2).sum

/-- `l` is a walk from `s` to `t`; it may visit vertices repeatedly. -/
structure DWalkFrom (G : DiGraph V) (s t : V) (l : List V) : Prop where
  head : l.head? = some s
  last : l.getLast? = some t
  walk : DWalk G l

/-- Two paths from `s` to `t` without a common edge, of total cost `c`. -/
def EdgeDisjointPair (G : DiGraph V) (s t : V) (c : Int) : Prop :=
  ∃ p q, DWalkFrom G s t p ∧ DWalkFrom G s t q ∧ p.Nodup ∧ q.Nodup ∧ (consec p ++ consec q).Nodup ∧
    walkWeight G.weight p + walkWeight G.weight q = c

end Pctsp
