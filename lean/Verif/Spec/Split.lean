import Verif.Model.DisjointMap
import Verif.Spec.Suurballe
import Verif.Spec.Cycles

/-!
# Graphs with split vertices

The directed graph that tspwplib makes of an undirected graph before Suurballe's algorithm is called, and the pairs of paths in the undirected
graph that the algorithm looks for.
-/

namespace Pctsp

variable {V W : Type}

/-- `A` is the answer of tspwplib's `asymmetric_from_undirected(U)`.  Every vertex is split into a tail and a head, joined by an edge without
cost from the tail to the head.  An undirected edge becomes two directed edges, from the head of each end to the tail of the other one, of the same
cost. -/
structure SplitOf (U : NxGraph V) (cost : V → V → Int) (A : DiGraph W) (tail head : V → W) : Prop where
  tailInj : ∀ u v, tail u = tail v → u = v
  headInj : ∀ u v, head u = head v → u = v
  disj : ∀ u v, tail u ≠ head v
  edges : ∀ x y, y ∈ A.succ x → (∃ v, x = tail v ∧ y = head v) ∨ ∃ a b, x = head a ∧ y = tail b ∧ b ∈ U.adj a
  inner : ∀ v ∈ U.nodes, head v ∈ A.succ (tail v)
  outer : ∀ a b, b ∈ U.adj a → tail b ∈ A.succ (head a)
  innerCost : ∀ v ∈ U.nodes, A.weight (tail v) (head v) = 0
  outerCost : ∀ a b, b ∈ U.adj a → A.weight (head a) (tail b) = cost a b

/-- The vertices `l` as a path in the split graph that ends in the tail of the last vertex. -/
def expand (tail head : V → W) : List V → List W
  | [] => []
  | [v] => [tail v]
  | a :: b :: l => tail a :: head a :: expand tail head (b :: l)

/-- What the functions of tspwplib are expected to do.  The path is only specified for paths that do not go along a self-loop. -/
structure SplitNames.Ok (names : SplitNames V W) (tail head : V → W) : Prop where
  tailTrue : ∀ v, names.isTail (tail v) = true
  headFalse : ∀ v, names.isTail (head v) = false
  original : ∀ v, names.original (tail v) = v
  path : ∀ r l, l ≠ [] → (∀ e ∈ consec (r :: l), e.1 ≠ e.2) → names.path (head r :: expand tail head l) = r :: l

/-- A tour from `r` through `v` of cost `c`: a simple cycle with at least three vertices. -/
def TourThrough (U : NxGraph V) (cost : V → V → Int) (r v : V) (c : Int) : Prop :=
  ∃ m, NxCycle U (r :: m) ∧ v ∈ r :: m ∧ walkWeight cost (r :: (m ++ [r])) = c

/-- Two closed walks from `r` that have nothing else in common and repeat no other vertex, of total cost `c`.  Each of them is a simple cycle,
or an edge there and back. -/
def TwoLoops (U : NxGraph V) (cost : V → V → Int) (r : V) (c : Int) : Prop :=
  ∃ a b, a ≠ [] ∧ b ≠ [] ∧ (r :: (a ++ b)).Nodup ∧ NxWalk U (r :: (a ++ [r])) ∧ NxWalk U (r :: (b ++ [r])) ∧
    walkWeight cost (r :: (a ++ [r])) + walkWeight cost (r :: (b ++ [r])) = c

/-- Suurballe's algorithm has been called for the head of the root in the split graph of an undirected graph, and it has ended without an
exception: pctsp/lab/run_algorithm.py 168-175. -/
structure SuurballeOn [LinearOrder W] (U : NxGraph V) (cost : V → V → Int) (A : DiGraph W) (tail head : V → W) (names : SplitNames V W) (r : V)
    (dij : DijkstraOut W) (depth : Nat) (T : STree W) (st : SState W) : Prop where
  und : U.WF
  symm : ∀ u v, v ∈ U.adj u → cost u v = cost v u
  wf : A.WF
  split : SplitOf U cost A tail head
  names : names.Ok tail head
  dijkstra : IsDijkstra A (head r) dij
  run : suurballe A dij depth (head r) = .ok (T, st)

/-- The vertices and edges of `g` have names in `U`: different vertices have different names, and an edge that is not a self-loop is an edge of `U` of
the same cost. -/
structure NamedIn (g : Graph) (gcost : Nat → Int) (name : Nat → V) (U : NxGraph V) (cost : V → V → Int) : Prop where
  inj : ∀ u v, u < g.n → v < g.n → name u = name v → u = v
  edge : ∀ e u v, g.edges[e]? = some (u, v) → u ≠ v → name v ∈ U.adj (name u) ∧ gcost e = cost (name u) (name v)

end Pctsp
