import Verif.Model.Extension
import Verif.Model.Dijkstra

/-!
# Collapse

Model of include/pctsp/heuristic.hh 582-845.
-/

namespace Pctsp

variable {F : Type}

/-- `SubPathOverTour`, heuristic.hh 589-597, without the fields that are never read (`feasibility_vertex`, `first_vertex`,
`predecessor_vertex`). -/
structure SubPath where
  path : List Nat
  prizeOfPath : Int
  rootSeen : Bool
  feasibleFound : Bool
  deriving DecidableEq, Repr

/-- The loop of `getSubPathOverTour`, heuristic.hh 628-651; `m` is `length_of_tour - 1 - length_of_path`. -/
def subPathLoop (tour : List Nat) (prize : Nat → Int) (quota : Int) (root : Nat) : Nat → Nat → SubPath → Res SubPath
  | 0, _, sp => .ok sp
  | m + 1, pos, sp =>
    if sp.prizeOfPath < quota then
      let pos := if pos = tour.length then 1 else pos
      match tour[pos]? with
      | none => .ub "getSubPathOverTour: iterator out of range"
      | some c =>
        if sp.prizeOfPath + prize c ≥ quota then .ok { sp with feasibleFound := true }
        else subPathLoop tour prize quota root m (pos + 1)
          { sp with path := sp.path ++ [c], prizeOfPath := sp.prizeOfPath + prize c,
                    rootSeen := sp.rootSeen || decide (c = root) }
    else .ok sp

/-- `getSubPathOverTour`, heuristic.hh 599-653. -/
def getSubPathOverTour (tour : List Nat) (index : Nat) (prize : Nat → Int) (quota : Int) (root : Nat) : Res SubPath :=
  match tour[index]? with
  | none => .ub "getSubPathOverTour: first vertex out of range"
  | some f =>
    subPathLoop tour prize quota root (tour.length - 2) (index + 1)
      { path := [f], prizeOfPath := prize f, rootSeen := decide (f = root), feasibleFound := false }

/-- The collapse paths through one vertex, heuristic.hh 685-694. -/
def collapseVia (g : Graph) (prize : Nat → Int) (quota : Int) (internal : List Nat) (source target : Nat) :
    List Nat → Res (List (List Nat))
  | [] => .ok []
  | c :: cs => do
    let e ← g.edge c target
    let rest ← collapseVia g prize quota internal source target cs
    if e.isSome = true ∧ c ∉ internal ∧ totalPrize prize internal + prize c ≥ quota ∧ source ≠ target then
      pure ([source, c, target] :: rest)
    else pure rest

/-- The collapse path found by Dijkstra's algorithm, heuristic.hh 696-723: internal vertices except the end points are marked. -/
def collapseShortest (g : Graph) (cost prize : Nat → Int) (quota : Int) (internal : List Nat) (source target : Nat)
    (pick : Pick) : Res (List (List Nat)) := do
  let mark := fun v => decide (v ∈ internal) && decide (v ≠ source) && decide (v ≠ target)
  let (found, st) ← dijkstra g cost mark (some target) pick source
  if found then
    let path := pathInTreeFromParents st.pred g.n target
    if totalPrize prize internal + totalPrize prize path - prize source - prize target ≥ quota then pure [path]
    else pure []
  else pure []

/-- `findCollapsePaths`, heuristic.hh 664-725; `internal_path.back()` of an empty list is undefined. -/
def findCollapsePaths (g : Graph) (cost prize : Nat → Int) (quota : Int) (internal : List Nat)
    (useShortest : Bool) (pick : Pick) : Res (List (List Nat)) :=
  match internal.head?, internal.getLast? with
  | some target, some source => do
    let nbrs ← g.adjacentVertices source
    let via ← collapseVia g prize quota internal source target nbrs
    if useShortest then do
      let sp ← collapseShortest g cost prize quota internal source target pick
      pure (via ++ sp)
    else pure via
  | _, _ => .ub "findCollapsePaths: empty internal path"

/-- The loop that chooses the cheapest collapse path, heuristic.hh 759-769. -/
def bestCollapseLoop (g : Graph) (cost : Nat → Int) (internalCost : Int) :
    Nat → List (List Nat) → Option Nat × Int → Res (Option Nat × Int)
  | _, [], st => .ok st
  | i, p :: ps, (best, bestCost) => do
    let ext ← totalCost g cost p
    bestCollapseLoop g cost internalCost (i + 1) ps
      (if ext + internalCost < bestCost then (some i, ext + internalCost) else (best, bestCost))

/-- The body of the main loop of `collapse` for one start position, heuristic.hh 748-781. -/
def collapseStep (g : Graph) (tour : List Nat) (cost prize : Nat → Int) (quota : Int) (root : Nat) (useShortest : Bool)
    (pick : Pick) (index : Nat) (st : List Nat × Int) : Res (List Nat × Int) := do
  let sp ← getSubPathOverTour tour index prize quota root
  if sp.rootSeen && sp.feasibleFound then do
    let paths ← findCollapsePaths g cost prize quota sp.path useShortest pick
    let internalCost ← totalCost g cost sp.path
    let (best, bestCost) ← bestCollapseLoop g cost internalCost 0 paths (none, st.2)
    match best with
    | none => pure (st.1, bestCost)
    | some b =>
      match paths[b]? with
      | none => .ub "collapse: path index out of range"
      | some ext => pure (sp.path ++ ext.tail, bestCost)
  else pure st

/-- The main loop of `collapse`, heuristic.hh 745-782: positions from the last to the first; every call of Dijkstra's
algorithm has its own `Pick`. -/
def collapseLoop (g : Graph) (tour : List Nat) (cost prize : Nat → Int) (quota : Int) (root : Nat) (useShortest : Bool)
    (pick : Nat → Pick) : Nat → List Nat × Int → Res (List Nat × Int)
  | 0, st => .ok st
  | i + 1, st => do
    let st ← collapseStep g tour cost prize quota root useShortest (pick i) i st
    collapseLoop g tour cost prize quota root useShortest pick i st

/-- `collapse`, heuristic.hh 727-784. -/
def collapse (g : Graph) (tour : List Nat) (cost prize : Nat → Int) (quota : Int) (root : Nat) (useShortest : Bool)
    (pick : Nat → Pick) : Res (List Nat) := do
  let c ← totalCost g cost tour
  let (best, _) ← collapseLoop g tour cost prize quota root useShortest pick tour.length (tour, c)
  pure (reorderTourFromRoot best root)

/-- The first loop of `pathExtensionCollapse`, heuristic.hh 813-821: steps `step, step+1, ...`, `rem` of them.  Returns the last tour
and whether it is feasible. -/
def extendUntilFeasibleLoop (O : FloatOps F) (g : Graph) (cost prize : Nat → Int) (quota : Int) (root : Nat)
    (depth : Int) : Nat → Int → List Nat → Res (List Nat × Bool)
  | 0, _, tour => .ok (tour, false)
  | rem + 1, step, tour => do
    let tour ← pathExtensionUntilPrizeFeasible O g tour cost prize root quota step depth
    let p ← totalPrizeOfTour prize tour
    if p ≥ quota then pure (tour, true)
    else extendUntilFeasibleLoop O g cost prize quota root depth rem (step + 1) tour

/-- The second loop of `pathExtensionCollapse`, heuristic.hh 834-843; the state is the best tour and its cost. -/
def pingPongLoop (O : FloatOps F) (g : Graph) (cost prize : Nat → Int) (quota : Int) (root : Nat) (useShortest : Bool)
    (pick : Nat → Nat → Pick) (depth : Int) : Nat → Int → List Nat × Int → Res (List Nat)
  | 0, _, st => .ok st.1
  | rem + 1, step, (best, bestCost) => do
    let tour ← pathExtension O g best cost prize root step depth
    let tour ← collapse g tour cost prize quota root useShortest (pick rem)
    let c ← totalCost g cost tour
    if c < bestCost then
      pingPongLoop O g cost prize quota root useShortest pick depth rem (step + 1) (reorderTourFromRoot tour root, c)
    else pingPongLoop O g cost prize quota root useShortest pick depth rem (step + 1) (best, bestCost)

/-- `pathExtensionCollapse`, heuristic.hh 787-845. -/
def pathExtensionCollapse (O : FloatOps F) (g : Graph) (initTour : List Nat) (cost prize : Nat → Int) (quota : Int)
    (root : Nat) (useShortest : Bool) (pick0 : Nat → Pick) (pick : Nat → Nat → Pick) (depth stepSize : Int) : Res (List Nat) := do
  let p ← totalPrizeOfTour prize initTour
  let (tour, feasible) ←
    if p ≥ quota then pure (initTour, true)
    else extendUntilFeasibleLoop O g cost prize quota root depth stepSize.toNat 1 initTour
  if feasible = false then pure []
  else do
    let best ← collapse g tour cost prize quota root useShortest pick0
    let bestCost ← totalCost g cost best
    let best := reorderTourFromRoot best root
    let best ← pingPongLoop O g cost prize quota root useShortest pick depth stepSize.toNat 1 (best, bestCost)
    pure (reorderTourFromRoot best root)

end Pctsp
