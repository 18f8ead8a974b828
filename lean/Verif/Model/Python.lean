import Verif.Model.Binding

/-!
# The Python wrappers of the heuristics

Model of pctsp/algorithms/path_extension_collapse.py and extension_collapse.py: the wrappers read the edges, costs and prizes of the
graph and call a binding.  The arguments are passed by position, so their order matters.
-/

namespace Pctsp

variable {α : Type} [DecidableEq α] {F : Type}

/-- `path_extension(graph, tour, root_vertex, path_depth_limit, step_size)`, path_extension_collapse.py 57-90. -/
def pathExtensionPy (O : FloatOps F) (es : List (α × α)) (tour : List α) (costs : List ((α × α) × Int)) (prizes : List (α × Int))
    (root : α) (pathDepthLimit stepSize : Int) : Res (List α) :=
  pathExtensionBind O es tour costs prizes root pathDepthLimit stepSize

/-- `extension_unitary_loss(graph, tour, root_vertex)`, extension_collapse.py 117-150: `step_size = 1`, `path_depth_limit = 2`. -/
def extensionUnitaryLossPy (O : FloatOps F) (es : List (α × α)) (tour : List α) (costs : List ((α × α) × Int))
    (prizes : List (α × Int)) (root : α) : Res (List α) :=
  let stepSize := 1
  let pathDepthLimit := 2
  pathExtensionBind O es tour costs prizes root stepSize pathDepthLimit

/-- `extension_unitary_gain_collapse(graph, tour, quota, root_vertex)`, extension_collapse.py 62-86: the extension by unitary gain, then
`collapse` without shortest paths, extension_collapse.py 28-59. -/
def extensionUnitaryGainCollapsePy (O : FloatOps F) (es : List (α × α)) (tour : List α) (costs : List ((α × α) × Int))
    (prizes : List (α × Int)) (quota : Int) (root : α) (pick : Nat → Pick) : Res (List α) := do
  let extended ← extensionUnitaryGainBind O es tour costs prizes
  collapseBind es extended costs prizes quota root false pick

end Pctsp
