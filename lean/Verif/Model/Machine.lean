import Verif.Model.Collapse
import Verif.Model.Gain

/-!
# Arithmetic with machine numbers

`CostNumberType` and `PrizeNumberType` are `int` (include/pctsp/graph.hh 18-19), and signed overflow is undefined.  The functions of walk.hh and heuristic.hh
are given here again as in `Model/Walk`, `Model/Extension`, `Model/Gain`, `Model/Dijkstra` and `Model/Collapse`, but every sum and difference of costs and of
prizes has to fit an `int` of 32 bits.  Positions and step sizes stay unbounded.
-/

namespace Pctsp

variable {F : Type}

/-- The result of a signed operation. -/
def int32 (x : Int) : Res Int :=
  if -2147483648 ≤ x ∧ x ≤ 2147483647 then .ok x else .ub "signed overflow"

/-- The loops `cost += cost_map[edge]` and `prize += prize_map[v]`, walk.hh 73-80 and 119-125. -/
def sumM (f : Nat → Int) : List Nat → Int → Res Int
  | [], s => .ok s
  | x :: xs, s => do
    let s ← int32 (s + f x)
    sumM f xs s

/-- `totalCost` of edges, walk.hh 72-94. -/
def totalCostEdgesM (cost : Nat → Int) (edges : List Nat) : Res Int := sumM cost edges 0

/-- `totalCost` of a walk, walk.hh 96-116. -/
def totalCostM (g : Graph) (cost : Nat → Int) (walk : List Nat) : Res Int := do
  let es ← getEdgesInWalk g walk
  totalCostEdgesM cost es

/-- `totalPrize`, walk.hh 118-139. -/
def totalPrizeM (prize : Nat → Int) (path : List Nat) : Res Int := sumM prize path 0

/-- `totalPrizeOfGraph`, walk.hh 141-148. -/
def totalPrizeOfGraphM (g : Graph) (prize : Nat → Int) : Res Int := sumM prize (List.range g.n) 0

/-- `totalPrizeOfTour`, walk.hh 150-159. -/
def totalPrizeOfTourM (prize : Nat → Int) (tour : List Nat) : Res Int :=
  match tour with
  | [] => .ub "totalPrizeOfTour: --end() of an empty list"
  | _ => totalPrizeM prize tour.dropLast

/-! ### Path extension -/

/-- `unitaryLoss`, heuristic.cpp 16-23. -/
def unitaryLossM (O : FloatOps F) (externalPrize internalPrize externalCost internalCost : Int) : Res F := do
  let c ← int32 (externalCost - internalCost)
  let p ← int32 (externalPrize - internalPrize)
  pure (O.div (O.ofInt c) (O.ofInt p))

/-- The loop of `chooseExtensionPathFromCandidates`, heuristic.hh 74-97. -/
def chooseLoopM (O : FloatOps F) (g : Graph) (cost prize : Nat → Int) (internal : List Nat) :
    Int → List (List Nat) → ArgminState F → Res (ArgminState F)
  | _, [], st => .ok st
  | i, ext :: rest, st => do
    let internalPrize ← totalPrizeM prize internal
    let externalPrize ← totalPrizeM prize ext
    let diff ← int32 (externalPrize - internalPrize)
    if O.lt O.zero (O.ofInt diff) then do
      let externalCost ← totalCostM g cost ext
      let internalCost ← totalCostM g cost internal
      let loss ← unitaryLossM O externalPrize internalPrize externalCost internalCost
      chooseLoopM O g cost prize internal (i + 1) rest
        (if O.lt loss st.value || !st.found then { found := true, value := loss, index := i } else st)
    else chooseLoopM O g cost prize internal (i + 1) rest st

/-- `chooseExtensionPathFromCandidates`, heuristic.hh 63-99. -/
def chooseExtensionPathM (O : FloatOps F) (g : Graph) (cost prize : Nat → Int) (candidates : List (List Nat))
    (internal : List Nat) : Res (Int × F) := do
  let st ← chooseLoopM O g cost prize internal 0 candidates { found := false, value := O.zero, index := -1 }
  pure (st.index, st.value)

/-- The external path candidates found with the breadth first search, heuristic.hh 220-229. -/
def bfsCandidatesM (g : Graph) (prize : Nat → Int) (tour internal : List Nat) (vj : Nat)
    (marked : Nat → Bool) (parent : Nat → Nat) : List Nat → Res (List (List Nat))
  | [] => .ok []
  | v :: rest =>
    if v ∉ tour ∧ marked v = true then do
      let path := pathInTreeFromParents parent g.n v ++ [vj]
      let a ← totalPrizeM prize path
      let b ← totalPrizeM prize internal
      let ps ← bfsCandidatesM g prize tour internal vj marked parent rest
      pure (if a > b then path :: ps else ps)
    else bfsCandidatesM g prize tour internal vj marked parent rest

/-- The candidate external paths from `vi` to `vj`, heuristic.hh 187-230. -/
def externalCandidatesM (g : Graph) (prize : Nat → Int) (tour : List Nat) (root : Nat) (depth : Int)
    (vi vj : Nat) (internal : List Nat) : Res (List (List Nat)) := do
  let rootInternal ← isInternalVertexOfWalk internal root
  if depth > 2 ∧ rootInternal = false then do
    let (marked, parent) ← breadthFirstSearch g vi (fun h => decide (h ∈ tour)) (fun _ => 0) (depth - 1)
    let nbrs ← g.adjacentVertices vj
    bfsCandidatesM g prize tour internal vj marked parent nbrs
  else externalCandidates g prize tour root depth vi vj internal

/-- The body of the loop of `findExtensionPaths` for one position, heuristic.hh 175-242. -/
def extensionEntryM (O : FloatOps F) (g : Graph) (tour : List Nat) (cost prize : Nat → Int) (root : Nat)
    (step : Nat) (depth : Int) (i : Nat) : Res (ExtEntry F) :=
  let k := tour.length - 1
  let j := (i + step) % k
  match tour[i]?, tour[j]? with
  | some vi, some vj => do
    let internal ← getSubpathOfCycle tour i j
    let cands ← externalCandidatesM g prize tour root depth vi vj internal
    let (index, value) ← chooseExtensionPathM O g cost prize cands internal
    if index ≥ 0 then
      match cands[index.toNat]? with
      | some p => pure { loss := value, feasible := true, path := p }
      | none => .ub "findExtensionPaths: candidate index out of range"
    else pure { loss := O.zero, feasible := false, path := [] }
  | _, _ => .ub "findExtensionPaths: advance past the end"

/-- `findExtensionPaths`, heuristic.hh 154-244. -/
def findExtensionPathsM (O : FloatOps F) (g : Graph) (tour : List Nat) (cost prize : Nat → Int) (root : Nat)
    (step : Nat) (depth : Int) : Res (List (ExtEntry F)) :=
  mapRes (extensionEntryM O g tour cost prize root step depth) (List.range (tour.length - 1))

/-- The while loop of `pathExtension`, heuristic.hh 262-300. -/
def pathExtensionLoopM (O : FloatOps F) (g : Graph) (cost prize : Nat → Int) (root : Nat) (step depth : Int) :
    Nat → Bool → Option F → List Nat → Res (List Nat)
  | 0, _, _, tour => .ok tour
  | rem + 1, isFirst, avg, tour =>
    if tour = [] then (if step = -1 then .ok tour else .throw .lengthError)
    else if stepFits step tour = false then .ok tour
    else do
      let entries ← findExtensionPathsM O g tour cost prize root step.toNat depth
      let lossVec := entries.map (fun e => (e.loss, e.feasible))
      let numFeasible := numFeasibleExtensions (entries.map (·.feasible))
      if numFeasible > 0 then
        let avgLoss := match avg with
          | some a => a
          | none => averageUnitaryLoss O lossVec
        let idx := indexOfSmallestLoss O lossVec
        if idx < 0 then .ub "pathExtension: negative index"
        else
          match entries[idx.toNat]? with
          | none => .ub "pathExtension: index out of range"
          | some e =>
            if (numFeasible = 1 ∧ isFirst = true) ∨ O.lt e.loss avgLoss = true then do
              let tour' ← swapPathsInTour tour e.path idx.toNat (idx.toNat + step.toNat)
              pathExtensionLoopM O g cost prize root step depth rem false (some avgLoss) tour'
            else .ok tour
      else .ok tour

/-- `pathExtension`, heuristic.hh 246-301. -/
def pathExtensionM (O : FloatOps F) (g : Graph) (tour : List Nat) (cost prize : Nat → Int) (root : Nat)
    (step depth : Int) : Res (List Nat) :=
  pathExtensionLoopM O g cost prize root step depth g.n true none tour

/-- The while loop of `pathExtensionUntilPrizeFeasible`, heuristic.hh 335-356. -/
def pathExtensionUntilLoopM (O : FloatOps F) (g : Graph) (cost prize : Nat → Int) (root : Nat) (step depth : Int) :
    Nat → List Nat → Res (List Nat)
  | 0, tour => .ok tour
  | rem + 1, tour =>
    if stepFits step tour = false then .ok tour
    else do
      let entries ← findExtensionPathsM O g tour cost prize root step.toNat depth
      let numFeasible := numFeasibleExtensions (entries.map (·.feasible))
      if numFeasible > 0 then
        let idx := indexOfSmallestLoss O (entries.map (fun e => (e.loss, e.feasible)))
        if idx < 0 then .ub "pathExtensionUntilPrizeFeasible: negative index"
        else
          match entries[idx.toNat]? with
          | none => .ub "pathExtensionUntilPrizeFeasible: index out of range"
          | some e => do
            let tour' ← swapPathsInTour tour e.path idx.toNat ((idx.toNat + step.toNat) % (tour.length - 1))
            pathExtensionUntilLoopM O g cost prize root step depth rem tour'
      else .ok tour

/-- `pathExtensionUntilPrizeFeasible`, heuristic.hh 319-357. -/
def pathExtensionUntilPrizeFeasibleM (O : FloatOps F) (g : Graph) (tour : List Nat) (cost prize : Nat → Int)
    (root : Nat) (quota step depth : Int) : Res (List Nat) := do
  let p ← totalPrizeOfTourM prize tour
  if p < quota then pathExtensionUntilLoopM O g cost prize root step depth g.n tour
  else pure tour

/-! ### Extension by unitary gain -/

/-- `unitaryGain`, heuristic.cpp 9-14. -/
def unitaryGainM (O : FloatOps F) (prizeV costUW costUV costVW : Int) : Res F := do
  let s ← int32 (costUV + costVW)
  let d ← int32 (s - costUW)
  pure (O.div (O.ofInt prizeV) (O.ofInt d))

/-- The loop of `unitaryGainOfVertex`, heuristic.hh 382-411. -/
def gainLoopM (O : FloatOps F) (g : Graph) (cost prize : Nat → Int) (v : Nat) :
    Nat → Nat → List Nat → GainEntry F → Res (GainEntry F)
  | _, _, [], st => .ok st
  | i, u, w :: rest, st => do
    let uv ← g.edge u v
    let vw ← g.edge v w
    let uw ← g.edge u w
    match uw with
    | none => .throw (.invalidArgument u w)
    | some euw =>
      match vw, uv with
      | some evw, some euv => do
        let gain ← unitaryGainM O (prize v) (cost euw) (cost euv) (cost evw)
        gainLoopM O g cost prize v (i + 1) w rest
          (if O.lt st.value gain then { value := gain, index := some i } else st)
      | _, _ => gainLoopM O g cost prize v (i + 1) w rest st

/-- `unitaryGainOfVertex`, heuristic.hh 360-416. -/
def unitaryGainOfVertexM (O : FloatOps F) (g : Graph) (tour : List Nat) (cost prize : Nat → Int) (v : Nat) :
    Res (GainEntry F) :=
  match tour with
  | [] => .ub "unitaryGainOfVertex: empty tour"
  | u :: rest => gainLoopM O g cost prize v 0 u rest { value := O.zero, index := none }

/-- The loop of `findVertexWithBiggestGain`, heuristic.hh 451-464. -/
def biggestGainLoopM (O : FloatOps F) (g : Graph) (tour : List Nat) (cost prize : Nat → Int) (inTour : Nat → Bool) :
    List Nat → GainMap F × Option Nat × F → Res (GainMap F × Option Nat × F)
  | [], st => .ok st
  | v :: vs, (gm, best, bestGain) =>
    if inTour v then biggestGainLoopM O g tour cost prize inTour vs (gm, best, bestGain)
    else do
      let e ← unitaryGainOfVertexM O g tour cost prize v
      let gm := upd gm v (some e)
      if O.lt bestGain e.value then biggestGainLoopM O g tour cost prize inTour vs (gm, some v, e.value)
      else biggestGainLoopM O g tour cost prize inTour vs (gm, best, bestGain)

/-- `findVertexWithBiggestGain`, heuristic.hh 433-469. -/
def findVertexWithBiggestGainM (O : FloatOps F) (g : Graph) (tour : List Nat) (cost prize : Nat → Int)
    (inTour : Nat → Bool) (gm : GainMap F) : Res (GainMap F × Option Nat) := do
  let (gm, best, _) ← biggestGainLoopM O g tour cost prize inTour (List.range g.n) (gm, none, O.zero)
  pure (gm, best)

/-- The while loop of `extensionUnitaryGain`, heuristic.hh 510-533. -/
def extensionUnitaryGainLoopM (O : FloatOps F) (g : Graph) (cost prize : Nat → Int) :
    Nat → Option F → (Nat → Bool) → GainMap F → List Nat → Res (List Nat)
  | 0, _, _, _, _ => .ub "extensionUnitaryGain: out of fuel"
  | fuel + 1, avg, inTour, gm, tour => do
    let (gm, best) ← findVertexWithBiggestGainM O g tour cost prize inTour gm
    match best with
    | none => pure tour
    | some v =>
      let biggest := match gm v with
        | some e => e.value
        | none => O.zero
      let avgGain := match avg with
        | some a => a
        | none => calculateAverageGain O g.n inTour gm
      if O.lt avgGain biggest then do
        let tour' ← insertBiggestGainVertex tour v gm
        extensionUnitaryGainLoopM O g cost prize fuel (some avgGain) (upd inTour v true) gm tour'
      else pure tour

/-- `extensionUnitaryGain`, heuristic.hh 488-534. -/
def extensionUnitaryGainM (O : FloatOps F) (g : Graph) (tour : List Nat) (cost prize : Nat → Int) : Res (List Nat) :=
  extensionUnitaryGainLoopM O g cost prize (g.n + 1) none (fun v => decide (v ∈ tour)) (fun _ => none) tour

/-- The while loop of `extensionUntilPrizeFeasible`, heuristic.hh 562-579. -/
def extensionUntilLoopM (O : FloatOps F) (g : Graph) (cost prize : Nat → Int) (quota : Int) :
    Nat → Nat → Bool → Int → (Nat → Bool) → GainMap F → List Nat → Res (List Nat)
  | 0, _, _, _, _, _, _ => .ub "extensionUntilPrizeFeasible: out of fuel"
  | fuel + 1, attempts, insert, cur, inTour, gm, tour =>
    if cur < quota ∧ insert = true then do
      let (gm, best) ← findVertexWithBiggestGainM O g tour cost prize inTour gm
      match best with
      | none => pure tour
      | some v => do
        let tour' ← insertBiggestGainVertex tour v gm
        let cur ← int32 (cur + prize v)
        extensionUntilLoopM O g cost prize quota fuel (attempts + 1) (decide (attempts + 1 ≤ g.n)) cur
          (upd inTour v true) gm tour'
    else pure tour

/-- `extensionUntilPrizeFeasible`, heuristic.hh 536-580. -/
def extensionUntilPrizeFeasibleM (O : FloatOps F) (g : Graph) (tour : List Nat) (cost prize : Nat → Int)
    (quota : Int) : Res (List Nat) := do
  let cur ← totalPrizeOfTourM prize tour
  extensionUntilLoopM O g cost prize quota (g.n + 2) 0 true cur (fun v => decide (v ∈ tour)) (fun _ => none) tour

/-! ### Dijkstra's algorithm -/

/-- The loop over the out-edges.  A white vertex has the distance `numeric_limits<int>::max()`, so it is only relaxed if the new distance is below that; this
case is left undefined.  For a gray vertex, older versions of boost also compute the distance in the other direction. -/
def relaxEdgesM (cost : Nat → Int) (mark : Nat → Bool) (u : Nat) (du : Int) :
    List (Nat × Nat) → DijState → Res DijState
  | [], st => .ok st
  | (e, v) :: rest, st =>
    if cost e < 0 then .throw .negativeEdge
    else
      let color := if mark v then upd st.color v .black else st.color
      let st := { st with color := color }
      match st.color v with
      | .white => do
        let d ← int32 (du + cost e)
        if d < 2147483647 then
          relaxEdgesM cost mark u du rest
            { dist := upd st.dist v (some d), pred := upd st.pred v u,
              color := upd st.color v .gray, queue := st.queue ++ [v] }
        else .ub "dijkstra: distance as large as infinity"
      | .gray =>
        match st.dist v with
        | none => .ub "dijkstra: queued vertex without distance"
        | some dv => do
          let d ← int32 (du + cost e)
          let _ ← int32 (dv + cost e)
          if d < dv then
            relaxEdgesM cost mark u du rest
              { st with dist := upd st.dist v (some d), pred := upd st.pred v u }
          else relaxEdgesM cost mark u du rest st
      | .black => relaxEdgesM cost mark u du rest st

/-- The main loop of `breadth_first_visit`. -/
def dijkstraLoopM (g : Graph) (cost : Nat → Int) (mark : Nat → Bool) (target : Option Nat) (pick : Pick) :
    Nat → DijState → Res (Bool × DijState)
  | 0, _ => .ub "dijkstra: out of fuel"
  | fuel + 1, st =>
    if st.queue = [] then .ok (false, st)
    else
      let u := pick fuel st.dist st.queue
      match st.dist u with
      | none => .ub "dijkstra: queued vertex without distance"
      | some du => do
        let st' ← relaxEdgesM cost mark u du (g.outEdges u) { st with queue := st.queue.erase u }
        let st' := { st' with color := upd st'.color u .black }
        if target = some u then .ok (true, st')
        else dijkstraLoopM g cost mark target pick fuel st'

/-- `boost::dijkstra_shortest_paths(graph, source, ...)`. -/
def dijkstraM (g : Graph) (cost : Nat → Int) (mark : Nat → Bool) (target : Option Nat) (pick : Pick) (source : Nat) :
    Res (Bool × DijState) :=
  if source < g.n then
    dijkstraLoopM g cost mark target pick (g.n + 1)
      { dist := upd (fun _ => none) source (some 0), pred := fun v => v,
        color := upd (fun _ => .white) source .gray, queue := [source] }
  else .ub "dijkstra: not a vertex"

/-! ### Collapse -/

/-- The loop of `getSubPathOverTour`, heuristic.hh 628-651. -/
def subPathLoopM (tour : List Nat) (prize : Nat → Int) (quota : Int) (root : Nat) : Nat → Nat → SubPath → Res SubPath
  | 0, _, sp => .ok sp
  | m + 1, pos, sp =>
    if sp.prizeOfPath < quota then
      let pos := if pos = tour.length then 1 else pos
      match tour[pos]? with
      | none => .ub "getSubPathOverTour: iterator out of range"
      | some c => do
        let p ← int32 (sp.prizeOfPath + prize c)
        if p ≥ quota then .ok { sp with feasibleFound := true }
        else
          subPathLoopM tour prize quota root m (pos + 1)
            { sp with path := sp.path ++ [c], prizeOfPath := p, rootSeen := sp.rootSeen || decide (c = root) }
    else .ok sp

/-- `getSubPathOverTour`, heuristic.hh 599-653. -/
def getSubPathOverTourM (tour : List Nat) (index : Nat) (prize : Nat → Int) (quota : Int) (root : Nat) : Res SubPath :=
  match tour[index]? with
  | none => .ub "getSubPathOverTour: first vertex out of range"
  | some f =>
    subPathLoopM tour prize quota root (tour.length - 2) (index + 1)
      { path := [f], prizeOfPath := prize f, rootSeen := decide (f = root), feasibleFound := false }

/-- The collapse paths through one vertex, heuristic.hh 685-694: the new prize is computed for every neighbour. -/
def collapseViaM (g : Graph) (prize : Nat → Int) (quota internalPrize : Int) (internal : List Nat) (source target : Nat) :
    List Nat → Res (List (List Nat))
  | [] => .ok []
  | c :: cs => do
    let e ← g.edge c target
    let p ← int32 (internalPrize + prize c)
    let rest ← collapseViaM g prize quota internalPrize internal source target cs
    if e.isSome = true ∧ c ∉ internal ∧ p ≥ quota ∧ source ≠ target then
      pure ([source, c, target] :: rest)
    else pure rest

/-- The collapse path found by Dijkstra's algorithm, heuristic.hh 696-723. -/
def collapseShortestM (g : Graph) (cost prize : Nat → Int) (quota internalPrize : Int) (internal : List Nat) (source target : Nat)
    (pick : Pick) : Res (List (List Nat)) := do
  let mark := fun v => decide (v ∈ internal) && decide (v ≠ source) && decide (v ≠ target)
  let (found, st) ← dijkstraM g cost mark (some target) pick source
  if found then do
    let path := pathInTreeFromParents st.pred g.n target
    let a ← totalPrizeM prize path
    let a ← int32 (internalPrize + a)
    let a ← int32 (a - prize source)
    let a ← int32 (a - prize target)
    if a ≥ quota then pure [path]
    else pure []
  else pure []

/-- `findCollapsePaths`, heuristic.hh 664-725. -/
def findCollapsePathsM (g : Graph) (cost prize : Nat → Int) (quota : Int) (internal : List Nat)
    (useShortest : Bool) (pick : Pick) : Res (List (List Nat)) :=
  match internal.head?, internal.getLast? with
  | some target, some source => do
    let internalPrize ← totalPrizeM prize internal
    let nbrs ← g.adjacentVertices source
    let via ← collapseViaM g prize quota internalPrize internal source target nbrs
    if useShortest then do
      let sp ← collapseShortestM g cost prize quota internalPrize internal source target pick
      pure (via ++ sp)
    else pure via
  | _, _ => .ub "findCollapsePaths: empty internal path"

/-- The loop that chooses the cheapest collapse path, heuristic.hh 759-769. -/
def bestCollapseLoopM (g : Graph) (cost : Nat → Int) (internalCost : Int) :
    Nat → List (List Nat) → Option Nat × Int → Res (Option Nat × Int)
  | _, [], st => .ok st
  | i, p :: ps, (best, bestCost) => do
    let ext ← totalCostM g cost p
    let c ← int32 (ext + internalCost)
    bestCollapseLoopM g cost internalCost (i + 1) ps
      (if c < bestCost then (some i, c) else (best, bestCost))

/-- The body of the main loop of `collapse`, heuristic.hh 748-781. -/
def collapseStepM (g : Graph) (tour : List Nat) (cost prize : Nat → Int) (quota : Int) (root : Nat) (useShortest : Bool)
    (pick : Pick) (index : Nat) (st : List Nat × Int) : Res (List Nat × Int) := do
  let sp ← getSubPathOverTourM tour index prize quota root
  if sp.rootSeen && sp.feasibleFound then do
    let paths ← findCollapsePathsM g cost prize quota sp.path useShortest pick
    let internalCost ← totalCostM g cost sp.path
    let (best, bestCost) ← bestCollapseLoopM g cost internalCost 0 paths (none, st.2)
    match best with
    | none => pure (st.1, bestCost)
    | some b =>
      match paths[b]? with
      | none => .ub "collapse: path index out of range"
      | some ext => pure (sp.path ++ ext.tail, bestCost)
  else pure st

/-- The main loop of `collapse`, heuristic.hh 745-782. -/
def collapseLoopM (g : Graph) (tour : List Nat) (cost prize : Nat → Int) (quota : Int) (root : Nat) (useShortest : Bool)
    (pick : Nat → Pick) : Nat → List Nat × Int → Res (List Nat × Int)
  | 0, st => .ok st
  | i + 1, st => do
    let st ← collapseStepM g tour cost prize quota root useShortest (pick i) i st
    collapseLoopM g tour cost prize quota root useShortest pick i st

/-- `collapse`, heuristic.hh 727-784. -/
def collapseM (g : Graph) (tour : List Nat) (cost prize : Nat → Int) (quota : Int) (root : Nat) (useShortest : Bool)
    (pick : Nat → Pick) : Res (List Nat) := do
  let c ← totalCostM g cost tour
  let (best, _) ← collapseLoopM g tour cost prize quota root useShortest pick tour.length (tour, c)
  pure (reorderTourFromRoot best root)

/-- The first loop of `pathExtensionCollapse`, heuristic.hh 813-821. -/
def extendUntilFeasibleLoopM (O : FloatOps F) (g : Graph) (cost prize : Nat → Int) (quota : Int) (root : Nat)
    (depth : Int) : Nat → Int → List Nat → Res (List Nat × Bool)
  | 0, _, tour => .ok (tour, false)
  | rem + 1, step, tour => do
    let tour ← pathExtensionUntilPrizeFeasibleM O g tour cost prize root quota step depth
    let p ← totalPrizeOfTourM prize tour
    if p ≥ quota then pure (tour, true)
    else extendUntilFeasibleLoopM O g cost prize quota root depth rem (step + 1) tour

/-- The second loop of `pathExtensionCollapse`, heuristic.hh 834-843. -/
def pingPongLoopM (O : FloatOps F) (g : Graph) (cost prize : Nat → Int) (quota : Int) (root : Nat) (useShortest : Bool)
    (pick : Nat → Nat → Pick) (depth : Int) : Nat → Int → List Nat × Int → Res (List Nat)
  | 0, _, st => .ok st.1
  | rem + 1, step, (best, bestCost) => do
    let tour ← pathExtensionM O g best cost prize root step depth
    let tour ← collapseM g tour cost prize quota root useShortest (pick rem)
    let c ← totalCostM g cost tour
    if c < bestCost then
      pingPongLoopM O g cost prize quota root useShortest pick depth rem (step + 1) (reorderTourFromRoot tour root, c)
    else pingPongLoopM O g cost prize quota root useShortest pick depth rem (step + 1) (best, bestCost)

/-- `pathExtensionCollapse`, heuristic.hh 787-845. -/
def pathExtensionCollapseM (O : FloatOps F) (g : Graph) (initTour : List Nat) (cost prize : Nat → Int) (quota : Int)
    (root : Nat) (useShortest : Bool) (pick0 : Nat → Pick) (pick : Nat → Nat → Pick) (depth stepSize : Int) : Res (List Nat) := do
  let p ← totalPrizeOfTourM prize initTour
  let (tour, feasible) ←
    if p ≥ quota then pure (initTour, true)
    else extendUntilFeasibleLoopM O g cost prize quota root depth stepSize.toNat 1 initTour
  if feasible = false then pure []
  else do
    let best ← collapseM g tour cost prize quota root useShortest pick0
    let bestCost ← totalCostM g cost best
    let best := reorderTourFromRoot best root
    let best ← pingPongLoopM O g cost prize quota root useShortest pick depth stepSize.toNat 1 (best, bestCost)
    pure (reorderTourFromRoot best root)

end Pctsp
