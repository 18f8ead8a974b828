import Verif.Spec.Lab
import Verif.Spec.Split
import Verif.Model.Lab

/-!
# Comparing the heuristics of `run_heuristic`
-/

namespace Pctsp

/-- What the heuristics are given in one run of the experiments: a graph without self-loop at the root, a quota, a root, the options, and the disjoint paths
of a run of Suurballe's algorithm. -/
structure HeuristicSetting (F V W : Type) [LinearOrder V] [LinearOrder W] where
  G : LabGraph V
  w : V → V → Int
  π : V → Int
  quota : Int
  root : V
  env : LabEnv F V
  A : DiGraph W
  tail : V → W
  head : V → W
  names : SplitNames V W
  dij : DijkstraOut W
  depth : Nat
  T : STree W
  st : SState W
  paths : List (V × (List V × List V))
  collapsePaths : Option Bool
  depthLimit : Option Int
  stepSize : Option Int
  graphOk : G.Ok w π
  noLoop : root ∉ G.nx.adj root
  envOk : env.Ok G π root
  suurballe : SuurballeOn G.nx w A tail head names root dij depth T st
  pathsOk : undirectedVertexDisjointPathsMap names T st (treeNodes (head root) dij) = .ok paths

namespace HeuristicSetting

variable {F V W : Type} [LinearOrder V] [LinearOrder W]

/-- The edges that the heuristic returns. -/
def run (S : HeuristicSetting F V W) (a : AlgorithmName) : Res (List (V × V)) :=
  runHeuristic S.env S.G S.quota S.root a (vertexDisjointCostMap S.names S.T S.st (treeNodes (S.head S.root) S.dij)) S.paths S.collapsePaths
    S.depthLimit S.stepSize

/-- The heuristic returns the edges of a tour through the root that meets the quota, of cost `c`. -/
def Finds (S : HeuristicSetting F V W) (a : AlgorithmName) (c : Int) : Prop :=
  ∃ t, S.run a = .ok (consec t) ∧ FeasibleIn S.G.edges S.π S.quota S.root t ∧ namedCost S.w t = c

/-- The heuristic ends without an exception, and does not return the edges of a tour through the root that meets the quota. -/
def Misses (S : HeuristicSetting F V W) (a : AlgorithmName) : Prop :=
  (∃ es, S.run a = .ok es) ∧ ∀ c, ¬ S.Finds a c

end HeuristicSetting

/-- In some setting both heuristics find a tour that meets the quota, and that of `a` is cheaper than that of `b`. -/
def SometimesCheaper (a b : AlgorithmName) : Prop :=
  ∃ (F V W : Type) (_ : LinearOrder V) (_ : LinearOrder W) (S : HeuristicSetting F V W) (c d : Int), S.Finds a c ∧ S.Finds b d ∧ c < d

/-- In some setting `a` finds a tour that meets the quota, and `b` does not. -/
def SometimesOnly (a b : AlgorithmName) : Prop :=
  ∃ (F V W : Type) (_ : LinearOrder V) (_ : LinearOrder W) (S : HeuristicSetting F V W) (c : Int), S.Finds a c ∧ S.Misses b

/-- The five heuristics of `run_heuristic`. -/
def heuristicNames : List AlgorithmName :=
  [.bfsExtensionCollapse, .bfsPathExtensionCollapse, .suurballesHeuristic, .suurballesExtensionCollapse, .suurballesPathExtensionCollapse]

end Pctsp
