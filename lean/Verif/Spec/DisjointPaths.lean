import Verif.Model.PyHeuristic
import Verif.Spec.Cycles

/-!
# Pairs of paths and breadth first search trees

Vocabulary for the properties of the heuristics of pctsp/algorithms/heuristic.py.
-/

namespace Pctsp

variable {V : Type}

/-- Two paths from a common first vertex `s` to a common last vertex `x`, the vertices in between are `a` and `b`; and the closed walk that goes
along the first path and returns along the second one. -/
structure PairTour (paths : List V × List V) (s x : V) (a b tour : List V) : Prop where
  first : paths.1 = s :: (a ++ [x])
  second : paths.2 = s :: (b ++ [x])
  tour : tour = s :: (a ++ x :: (b.reverse ++ [s]))

/-- The pair of paths closes to a tour. -/
def ClosesTo (paths : List V × List V) (tour : List V) : Prop := ∃ s x a b, PairTour paths s x a b tour

/-- A tour that the heuristic may return: cheap enough, enough prize, no vertex twice. -/
def Qualifies (prizeOf : List V → Int) (quota bound cost : Int) (tour : List V) : Prop :=
  cost < bound ∧ quota ≤ prizeOf tour ∧ tour.dropLast.Nodup

/-- Specification of `nx.bfs_tree(G, root)`, given by the edges (parent, child) in order.  The vertices are reached in the order: the root, then the
children.
* No vertex is reached twice, and a tree edge joins neighbours.
* The children are grouped by their parents in the order in which these were reached, and a parent is reached before its children.
* Once a vertex `v` is done, all of its neighbours have been reached: as the root or as children of `v` or of vertices reached before `v`. -/
structure IsBfsTree [DecidableEq V] (g : NxGraph V) (root : V) (tree : List (V × V)) : Prop where
  nodup : (root :: tree.map Prod.snd).Nodup
  adj : ∀ e ∈ tree, e.2 ∈ g.adj e.1
  grouped : tree.map Prod.snd = (root :: tree.map Prod.snd).flatMap fun v => (tree.filter (·.1 = v)).map Prod.snd
  parents : ∀ A e B, tree = A ++ e :: B → e.1 ∈ root :: A.map Prod.snd
  reached : ∀ A v B, root :: tree.map Prod.snd = A ++ v :: B → ∀ u ∈ g.adj v, u = root ∨ ∃ p ∈ A ++ [v], (p, u) ∈ tree

/-- Breadth first search as networkx does it: the neighbours of the next vertex of the queue that were not reached before become its children. -/
def nxBfsLoop [DecidableEq V] (g : NxGraph V) (root : V) : Nat → List V → List (V × V) → List (V × V)
  | 0, _, tree => tree
  | _ + 1, [], tree => tree
  | fuel + 1, v :: queue, tree =>
    let new := (g.adj v).filter fun u => u ∉ root :: tree.map Prod.snd
    nxBfsLoop g root fuel (queue ++ new) (tree ++ new.map fun u => (v, u))

/-- The edges of the breadth first search tree; `IsBfsTree` holds for them, see `nxBfsTree_isBfsTree`. -/
def nxBfsTree [DecidableEq V] (g : NxGraph V) (root : V) : List (V × V) := nxBfsLoop g root (g.nodes.length + 1) [root] []

end Pctsp
