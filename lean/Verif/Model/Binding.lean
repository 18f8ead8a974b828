import Verif.Model.Renaming
import Verif.Model.Gain
import Verif.Model.Collapse

/-!
# The Python bindings of the heuristics

Model of pctsp/pypctsp.cpp 129-312.  The vertices of the caller are of any type with equality (in the code they are numbers).  The
logger that is set up first has no effect on the results and is left out.
-/

namespace Pctsp

variable {α : Type} [DecidableEq α] {F : Type}

/-- The graph and the maps that a binding builds from its arguments, pypctsp.cpp 142-154. -/
structure Renamed (α : Type) where
  graph : Graph
  lookup : Bimap α
  tour : List Nat
  cost : Nat → Int
  prize : Nat → Int

/-- The common prefix of the bindings without a root, pypctsp.cpp 233-245 and 295-307: the maps of a new graph hold zeros. -/
def prepare (es : List (α × α)) (tour : List α) (costs : List ((α × α) × Int)) (prizes : List (α × Int)) : Res (Renamed α) := do
  let (ne, b) := renameEdges [] es
  let g := graphOf ne
  let t ← getNewVertices b tour
  let cost ← fillCostMap g b costs (fun _ => 0)
  let prize ← fillVertexMap b prizes (fun _ => 0)
  pure { graph := g, lookup := b, tour := t, cost := cost, prize := prize }

/-- The common prefix of the bindings with a root, pypctsp.cpp 142-154, 174-186, 207-219, 267-279. -/
def prepareRoot (es : List (α × α)) (tour : List α) (costs : List ((α × α) × Int)) (prizes : List (α × Int)) (root : α) :
    Res (Renamed α × Nat) := do
  let (_, b) := renameEdges [] es
  let r ← getNewVertex b root
  let p ← prepare es tour costs prizes
  pure (p, r)

/-- `collapseBind`, pypctsp.cpp 129-159. -/
def collapseBind (es : List (α × α)) (tour : List α) (costs : List ((α × α) × Int)) (prizes : List (α × Int)) (quota : Int) (root : α)
    (useShortest : Bool) (pick : Nat → Pick) : Res (List α) := do
  let (p, r) ← prepareRoot es tour costs prizes root
  let t ← collapse p.graph p.tour p.cost p.prize quota r useShortest pick
  getOldVertices p.lookup t

/-- `pathExtensionBind`, pypctsp.cpp 161-191. -/
def pathExtensionBind (O : FloatOps F) (es : List (α × α)) (tour : List α) (costs : List ((α × α) × Int)) (prizes : List (α × Int))
    (root : α) (step depth : Int) : Res (List α) := do
  let (p, r) ← prepareRoot es tour costs prizes root
  let t ← pathExtension O p.graph p.tour p.cost p.prize r step depth
  getOldVertices p.lookup t

/-- `pathExtensionUntilPrizeFeasibleBind`, pypctsp.cpp 193-224. -/
def pathExtensionUntilPrizeFeasibleBind (O : FloatOps F) (es : List (α × α)) (tour : List α) (costs : List ((α × α) × Int))
    (prizes : List (α × Int)) (root : α) (quota step depth : Int) : Res (List α) := do
  let (p, r) ← prepareRoot es tour costs prizes root
  let t ← pathExtensionUntilPrizeFeasible O p.graph p.tour p.cost p.prize r quota step depth
  getOldVertices p.lookup t

/-- `extensionUntilPrizeFeasibleBind`, pypctsp.cpp 226-250. -/
def extensionUntilPrizeFeasibleBind (O : FloatOps F) (es : List (α × α)) (tour : List α) (costs : List ((α × α) × Int))
    (prizes : List (α × Int)) (quota : Int) : Res (List α) := do
  let p ← prepare es tour costs prizes
  let t ← extensionUntilPrizeFeasible O p.graph p.tour p.cost p.prize quota
  getOldVertices p.lookup t

/-- `pathExtensionCollapseBind`, pypctsp.cpp 252-284. -/
def pathExtensionCollapseBind (O : FloatOps F) (es : List (α × α)) (tour : List α) (costs : List ((α × α) × Int))
    (prizes : List (α × Int)) (root : α) (quota : Int) (useShortest : Bool) (pick0 : Nat → Pick) (pick : Nat → Nat → Pick)
    (depth step : Int) : Res (List α) := do
  let (p, r) ← prepareRoot es tour costs prizes root
  let t ← pathExtensionCollapse O p.graph p.tour p.cost p.prize quota r useShortest pick0 pick depth step
  getOldVertices p.lookup t

/-- `extensionUnitaryGainBind`, pypctsp.cpp 286-312. -/
def extensionUnitaryGainBind (O : FloatOps F) (es : List (α × α)) (tour : List α) (costs : List ((α × α) × Int))
    (prizes : List (α × Int)) : Res (List α) := do
  let p ← prepare es tour costs prizes
  let t ← extensionUnitaryGain O p.graph p.tour p.cost p.prize
  getOldVertices p.lookup t

end Pctsp
