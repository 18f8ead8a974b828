import Verif.Spec.Dominance

/-!
# Making an instance easier
-/

namespace Pctsp

/-- The ways in which an instance can be made easier. -/
inductive Ease where
  | quota | prize | cost | edge
  deriving DecidableEq

namespace HeuristicSetting

variable {F V W : Type} [LinearOrder V] [LinearOrder W]

/-- The costs of the disjoint paths. -/
def distances (S : HeuristicSetting F V W) : List (V × Int) := vertexDisjointCostMap S.names S.T S.st (treeNodes (S.head S.root) S.dij)

/-- The same root, vertices and options, and the same behaviour of what is called outside. -/
structure SameOptions (S S' : HeuristicSetting F V W) : Prop where
  root : S'.root = S.root
  nodes : S'.G.nx.nodes = S.G.nx.nodes
  collapsePaths : S'.collapsePaths = S.collapsePaths
  depthLimit : S'.depthLimit = S.depthLimit
  stepSize : S'.stepSize = S.stepSize
  float : S'.env.float = S.env.float
  setOrder : S'.env.setOrder = S.env.setOrder
  pick : S'.env.pick = S.env.pick
  pick0 : S'.env.pick0 = S.env.pick0
  picks : S'.env.picks = S.env.picks

/-- The same graph, with the same tree of the breadth first search. -/
structure SameGraph (S S' : HeuristicSetting F V W) : Prop where
  nx : S'.G.nx = S.G.nx
  edges : S'.G.edges = S.G.edges
  tree : S'.env.tree = S.env.tree

/-- The same costs, with the same disjoint paths. -/
structure SameCosts (S S' : HeuristicSetting F V W) : Prop where
  costs : S'.G.costs = S.G.costs
  w : S'.w = S.w
  distances : S'.distances = S.distances
  paths : S'.paths = S.paths

structure SamePrizes (S S' : HeuristicSetting F V W) : Prop where
  prizes : S'.G.prizes = S.G.prizes
  π : S'.π = S.π
  prizeOf : S'.env.prizeOf = S.env.prizeOf

/-- The second instance is easier than the first: the quota is lower, or prizes are higher, or costs are lower, or there is one more edge.  All else is the
same; after a change of the costs or the edges the disjoint paths are those of another run of Suurballe's algorithm. -/
def Easier (S S' : HeuristicSetting F V W) : Ease → Prop
  | .quota => S'.quota ≤ S.quota ∧ SameOptions S S' ∧ SameGraph S S' ∧ SameCosts S S' ∧ SamePrizes S S'
  | .prize => (∀ x, S.π x ≤ S'.π x) ∧ S'.quota = S.quota ∧ SameOptions S S' ∧ SameGraph S S' ∧ SameCosts S S'
  | .cost => (∀ x y, S'.w x y ≤ S.w x y) ∧ S'.quota = S.quota ∧ SameOptions S S' ∧ SameGraph S S' ∧ SamePrizes S S'
  | .edge => (∃ e, S'.G.edges = S.G.edges ++ [e]) ∧ (∀ x y, AdjIn S.G.edges x y → S'.w x y = S.w x y) ∧ S'.quota = S.quota ∧ SameOptions S S' ∧
      SamePrizes S S'

end HeuristicSetting

/-- The heuristic finds a tour of an instance, and a dearer one of an easier instance. -/
def CanGetDearer (a : AlgorithmName) (k : Ease) : Prop :=
  ∃ (F V W : Type) (_ : LinearOrder V) (_ : LinearOrder W) (S S' : HeuristicSetting F V W) (c c' : Int), S.Easier S' k ∧ S.Finds a c ∧ S'.Finds a c' ∧ c < c'

/-- The heuristic finds a tour of an instance, and ends without one that meets the quota on an easier instance. -/
def CanGetLost (a : AlgorithmName) (k : Ease) : Prop :=
  ∃ (F V W : Type) (_ : LinearOrder V) (_ : LinearOrder W) (S S' : HeuristicSetting F V W) (c : Int), S.Easier S' k ∧ S.Finds a c ∧ S'.Misses a

end Pctsp
