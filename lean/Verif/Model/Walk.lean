import Verif.Model.Graph

/-!
# Walks

Model of include/pctsp/walk.hh: tours are lists of vertices whose first and last vertex agree.
-/

namespace Pctsp

/-- `ReorderTourFromRoot`, walk.hh 15-44.  `root_finder` splits the tour into the part before the first root and the part
from it on (`dropWhile`).  If `root_finder == tour.begin()` the tour is copied; this includes the empty tour, for which
`begin() == end()`. -/
def reorderTourFromRoot {α : Type} [DecidableEq α] (tour : List α) (root : α) : List α :=
  let before := tour.takeWhile (· ≠ root)
  let fromRoot := tour.dropWhile (· ≠ root)
  if before = [] then tour
  else fromRoot ++ before.tail ++ [root]

/-- `getEdgesInWalk`, walk.hh 46-70. -/
def getEdgesInWalk (g : Graph) : List Nat → Res (List Nat)
  | [] => .ok []
  | [_] => .ok []
  | u :: v :: rest => do
    match ← g.edge u v with
    | none => .throw (.edgeNotFound u v)
    | some e => do
      let es ← getEdgesInWalk g (v :: rest)
      pure (e :: es)

/-- `totalCost` of edges, walk.hh 72-94. -/
def totalCostEdges (cost : Nat → Int) (edges : List Nat) : Int :=
  edges.foldl (fun c e => c + cost e) 0

/-- `totalCost` of a walk, walk.hh 96-116. -/
def totalCost (g : Graph) (cost : Nat → Int) (walk : List Nat) : Res Int := do
  let es ← getEdgesInWalk g walk
  pure (totalCostEdges cost es)

/-- `totalPrize`, walk.hh 118-139. -/
def totalPrize (prize : Nat → Int) (path : List Nat) : Int :=
  path.foldl (fun p v => p + prize v) 0

/-- `totalPrizeOfGraph`, walk.hh 141-148. -/
def totalPrizeOfGraph (g : Graph) (prize : Nat → Int) : Int :=
  (List.range g.n).foldl (fun p v => p + prize v) 0

/-- `totalPrizeOfTour`, walk.hh 150-159: `--tour.end()` is undefined for the empty list. -/
def totalPrizeOfTour (prize : Nat → Int) (tour : List Nat) : Res Int :=
  match tour with
  | [] => .ub "totalPrizeOfTour: --end() of an empty list"
  | _ => .ok (totalPrize prize tour.dropLast)

/-- `walkToString`, walk.hh 161-176. -/
def walkToString (walk : List Nat) : String :=
  walk.foldl (fun s v => s ++ toString v ++ ", ") ""

/-- `isInternalVertexOfWalk`, walk.hh 178-187: `start++`, `end--` and searching `[start, end)` is undefined unless the
walk has at least two vertices. -/
def isInternalVertexOfWalk (walk : List Nat) (v : Nat) : Res Bool :=
  if walk.length < 2 then .ub "isInternalVertexOfWalk: iterator range" else .ok (decide (v ∈ walk.tail.dropLast))

end Pctsp
