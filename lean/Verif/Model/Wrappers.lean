import Verif.Model.Python

/-!
# The Python wrappers of the heuristics on a networkx graph

Model of pctsp/algorithms/extension_collapse.py and path_extension_collapse.py: how the wrappers read the edges and the attributes of the
graph and in which order they pass them on.  The level of the logger is left out.
-/

namespace Pctsp

variable {α : Type} [DecidableEq α] {F : Type}

/-- An undirected networkx graph: its vertices and edges in the order of insertion, and the attributes `prize` and `cost`, which a vertex or
an edge may lack. -/
structure AttrGraph (α : Type) where
  nodes : List α
  prize : α → Option Int
  edges : List (α × α)
  cost : α × α → Option Int

/-- `nx.get_edge_attributes(graph, "cost")`: the edges that have the attribute. -/
def AttrGraph.costDict (G : AttrGraph α) : List ((α × α) × Int) := G.edges.filterMap fun e => (G.cost e).map fun c => (e, c)

/-- `nx.get_node_attributes(graph, "prize")`: the vertices that have the attribute. -/
def AttrGraph.prizeDict (G : AttrGraph α) : List (α × Int) := G.nodes.filterMap fun v => (G.prize v).map fun p => (v, p)

/-- `collapse`, extension_collapse.py 28-60. -/
def collapseNx (G : AttrGraph α) (tour : List α) (quota : Int) (root : α) (pick : Nat → Pick) : Res (List α) :=
  collapseBind G.edges tour G.costDict G.prizeDict quota root false pick

/-- `path_collapse`, path_extension_collapse.py 21-54. -/
def pathCollapseNx (G : AttrGraph α) (tour : List α) (quota : Int) (root : α) (pick : Nat → Pick) : Res (List α) :=
  collapseBind G.edges tour G.costDict G.prizeDict quota root true pick

/-- `extension_unitary_gain`, extension_collapse.py 89-114. -/
def extensionUnitaryGainNx (O : FloatOps F) (G : AttrGraph α) (tour : List α) : Res (List α) :=
  extensionUnitaryGainBind O G.edges tour G.costDict G.prizeDict

/-- `extension_unitary_gain_collapse`, extension_collapse.py 63-86. -/
def extensionUnitaryGainCollapseNx (O : FloatOps F) (G : AttrGraph α) (tour : List α) (quota : Int) (root : α) (pick : Nat → Pick) :
    Res (List α) := do
  let extended ← extensionUnitaryGainNx O G tour
  collapseNx G extended quota root pick

/-- `extension_unitary_loss`, extension_collapse.py 117-149. -/
def extensionUnitaryLossNx (O : FloatOps F) (G : AttrGraph α) (tour : List α) (root : α) : Res (List α) :=
  extensionUnitaryLossPy O G.edges tour G.costDict G.prizeDict root

/-- `extension_until_prize_feasible`, extension_collapse.py 152-178. -/
def extensionUntilPrizeFeasibleNx (O : FloatOps F) (G : AttrGraph α) (tour : List α) (quota : Int) : Res (List α) :=
  extensionUntilPrizeFeasibleBind O G.edges tour G.costDict G.prizeDict quota

/-- `path_extension`, path_extension_collapse.py 57-90. -/
def pathExtensionNx (O : FloatOps F) (G : AttrGraph α) (tour : List α) (root : α) (pathDepthLimit stepSize : Int) : Res (List α) :=
  pathExtensionPy O G.edges tour G.costDict G.prizeDict root pathDepthLimit stepSize

/-- `path_extension_collapse`, path_extension_collapse.py 93-132. -/
def pathExtensionCollapseNx (O : FloatOps F) (G : AttrGraph α) (tour : List α) (root : α) (quota : Int) (collapseShortestPaths : Bool)
    (pathDepthLimit stepSize : Int) (pick0 : Nat → Pick) (pick : Nat → Nat → Pick) : Res (List α) :=
  pathExtensionCollapseBind O G.edges tour G.costDict G.prizeDict root quota collapseShortestPaths pick0 pick pathDepthLimit stepSize

/-- `path_extension_until_prize_feasible`, path_extension_collapse.py 135-174. -/
def pathExtensionUntilPrizeFeasibleNx (O : FloatOps F) (G : AttrGraph α) (tour : List α) (root : α) (quota stepSize pathDepthLimit : Int) :
    Res (List α) :=
  pathExtensionUntilPrizeFeasibleBind O G.edges tour G.costDict G.prizeDict root quota stepSize pathDepthLimit

end Pctsp
