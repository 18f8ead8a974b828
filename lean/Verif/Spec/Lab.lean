import Verif.Model.Lab
import Verif.Spec.Names
import Verif.Spec.Cycles
import Verif.Spec.Scip
import Verif.Lemmas.Gain
import Verif.Lemmas.Float
import Verif.Spec.DisjointPaths
import Verif.Lemmas.Dijkstra
import Verif.Lemmas.Extension

/-!
# What the runs of the algorithms rely on
-/

namespace Pctsp

variable {F V : Type} [DecidableEq V]

/-- The attributes of the graph describe costs `w` and prizes `π`, and the list of edges is that of the graph. -/
structure LabGraph.Ok (G : LabGraph V) (w : V → V → Int) (π : V → Int) : Prop where
  wf : G.nx.WF
  describes : Describes G.edges G.costs G.prizes w π
  adj : ∀ x y, y ∈ G.nx.adj x ↔ AdjIn G.edges x y
  prizes : ∀ x, 0 ≤ π x
  costs : ∀ x y, 0 ≤ w x y

/-- What is expected of the functions outside: the prize of a tour is the sum of the prizes of its vertices, sets are iterated completely, the tree
is a breadth first search tree, heaps return a minimum, and the test of a solution raises nothing. -/
structure LabEnv.Ok (env : LabEnv F V) (G : LabGraph V) (π : V → Int) (root : V) : Prop where
  strict : env.float.Strict
  divSign : env.float.DivSign
  signSound : env.float.SignSound
  prizeOf : ∀ t, IsTourIn G.edges root t → env.prizeOf t = namedPrize π t
  setOrder : ∀ l, (env.setOrder l).Perm l
  tree : IsBfsTree G.nx root env.tree
  pick : ∀ i, (env.pick i).Heap
  pick0 : ∀ i, (env.pick0 i).Heap
  picks : ∀ j i, (env.picks j i).Heap
  pickCover : env.pickCover.Heap
  isYes : ∀ ps, ∃ b, env.isYes ps = .ok b

/-- What the test of a solution accepts are the edges of a feasible tour. -/
def LabEnv.YesSound (env : LabEnv F V) (G : LabGraph V) (π : V → Int) (quota : Int) (root : V) : Prop :=
  ∀ ps, env.isYes ps = .ok true → ∃ t, FeasibleIn G.edges π quota root t ∧ EdgesOfTour t ps

/-- Ordering a list of edges only changes the order and the directions. -/
def ReorderOk (reorder : List (V × V) → Option (List (V × V))) : Prop :=
  ∀ ps qs, reorder ps = some qs → ∃ qs' : List (V × V), qs'.Perm ps ∧ List.Forall₂ SameEdge qs qs'

/-- The numbers that are reported are those of the tour, and the edges are its edges. -/
structure Reports (w : V → V → Int) (π : V → Int) (t : List V) (r : LabResult V) : Prop where
  edges : EdgesOfTour t r.edges
  objective : r.objective = namedCost w t
  prize : r.prize = namedPrize π t

/-- No tour is reported. -/
structure ReportsNothing (r : LabResult V) : Prop where
  edges : r.edges = []
  objective : r.objective = 0
  prize : r.prize = 0

end Pctsp
