import Mathlib.Data.Nat.Log
import Verif.Model.Events

/-!
# Tables of statistics, the history of the bounds, and the level of the log

Model of the CSV writers (src/stats.cpp 61-111, include/pctsp/filepath.hh 13-21), of `BoundsEventHandler`
(src/event_handlers.cpp 114-161) and of `getBoostLevelFromPyLevel` and the filter of `PCTSPinitLogging` (src/logger.cpp 10-48).
How a single number or time stamp is printed is a parameter; what the default precision of a stream does to an integral `double` is
`print6`.
-/

namespace Pctsp

/-- How `operator<<` prints a `double`, an `unsigned int` and a time stamp (`timePointToString`). -/
structure Printer (D : Type) where
  num : D → List Char
  nat : Nat → List Char
  time : Nat → List Char

/-- The loop of `writeRowCSV`, filepath.hh 13-21: item `i` of `num` items is followed by a comma if `i < num - 1`. -/
def writeRowLoop (num : Nat) : Nat → List (List Char) → List Char
  | _, [] => ['\n']
  | i, x :: xs => x ++ (if (i : Int) < (num : Int) - 1 then [','] else []) ++ writeRowLoop num (i + 1) xs

/-- `writeRowCSV`, filepath.hh 13-21. -/
def writeRowCSV (items : List (List Char)) : List Char := writeRowLoop items.length 0 items

/-- `NODE_STATS_COL_NAMES`, stats.hh 37-47. -/
def nodeStatsColNames : List String :=
  ["lower_bound", "node_id", "num_sec_disjoint_tour", "num_sec_maxflow_mincut", "num_cost_cover_disjoint_paths",
   "num_cost_cover_shortest_paths", "num_cost_cover_steiner_tree", "parent_id", "upper_bound"]

/-- `BOUNDS_COLUMN_NAMES`, stats.hh 81-87. -/
def boundsColNames : List String := ["start_timestamp", "end_timestamp", "lower_bound", "upper_bound", "node_id"]

/-- `Bounds`, stats.hh 89-95; times are milliseconds since the epoch. -/
structure BoundsRecord (D : Type) where
  start : Nat
  stop : Nat
  lowerBound : D
  upperBound : D
  nodeId : Nat
  deriving DecidableEq, Repr

variable {D : Type}

/-- `writeNodeStatsRow`, stats.cpp 71-81. -/
def writeNodeStatsRow (pr : Printer D) (s : NodeStats D) : List Char :=
  pr.num s.lowerBound ++ [','] ++ pr.nat s.nodeId ++ [','] ++ pr.nat s.numSecDisjointTour ++ [','] ++ pr.nat s.numSecMaxflowMincut ++
    [','] ++ pr.nat s.numCostCoverDisjointPaths ++ [','] ++ pr.nat s.numCostCoverShortestPaths ++ [','] ++
    pr.nat s.numCostCoverSteinerTree ++ [','] ++ pr.nat s.parentId ++ [','] ++ pr.num s.upperBound ++ ['\n']

/-- `writeBoundsRow`, stats.cpp 105-111. -/
def writeBoundsRow (pr : Printer D) (b : BoundsRecord D) : List Char :=
  pr.time b.start ++ [','] ++ pr.time b.stop ++ [','] ++ pr.num b.lowerBound ++ [','] ++ pr.num b.upperBound ++ [','] ++
    pr.nat b.nodeId ++ ['\n']

/-- A place in the file system: whether the parent path exists (`exists("")` is false for a bare file name) and the text of the file. -/
structure TextPlace where
  parent : Bool
  content : Option (List Char)
  deriving DecidableEq, Repr

/-- `writeNodeStatsToCSV`, stats.cpp 61-69 (the file is truncated when it is opened). -/
def writeNodeStatsToCSV (pr : Printer D) (stats : List (NodeStats D)) (p : TextPlace) : TextPlace :=
  if p.parent then
    { p with content := some (stats.foldl (fun out s => out ++ writeNodeStatsRow pr s) (writeRowCSV (nodeStatsColNames.map String.toList))) }
  else p

/-- `writeBoundsToCSV`, stats.cpp 89-97. -/
def writeBoundsToCSV (pr : Printer D) (bounds : List (BoundsRecord D)) (p : TextPlace) : TextPlace :=
  if p.parent then
    { p with content := some (bounds.foldl (fun out b => out ++ writeBoundsRow pr b) (writeRowCSV (boundsColNames.map String.toList))) }
  else p

/-- `n / d` rounded to the nearest integer, a tie to the even one. -/
def divRound (n d : Nat) : Nat :=
  if 2 * (n % d) < d then n / d else if d < 2 * (n % d) then n / d + 1 else if (n / d) % 2 = 0 then n / d else n / d + 1

/-- The number of decimal digits that the default precision (six significant digits) drops from `n`. -/
def droppedDigits (n : Nat) : Nat := Nat.log 10 n - 5

/-- The number that an integral `double` denotes once printed with the default precision of a stream (`%g` with six digits), which is
how stats.cpp 72, 80, 108 and 109 print the bounds. -/
def print6 (n : Nat) : Nat := divRound n (10 ^ droppedDigits n) * 10 ^ droppedDigits n

/-! ## `BoundsEventHandler` -/

/-- The members of `BoundsEventHandler`, event_handlers.hh 80-81. -/
structure BoundsState (D : Type) where
  last : Nat
  records : List (BoundsRecord D)
  deriving DecidableEq, Repr

/-- `time_point_cast<SubSeconds>(system_clock::now())` for a clock that counts nanoseconds since the epoch. -/
def toMillis (now : Nat) : Nat := now / 1000000

/-- The constructor of `BoundsEventHandler`, event_handlers.hh 84-92. -/
def boundsNew (now : Nat) : BoundsState D := ⟨toMillis now, []⟩

/-- An event `SCIP_EVENTTYPE_LPSOLVED`: the two readings of the clock while it is handled, what SCIP knows, and the number of its
current node, if there is one. -/
structure LpSolved (D : Type) where
  now₁ : Nat
  now₂ : Nat
  lower : D
  upper : D
  node : Option Nat
  deriving DecidableEq, Repr

/-- `BoundsEventHandler::scip_exec`, event_handlers.cpp 147-161: the number of the node is narrowed to `unsigned int`. -/
def boundsExec (s : BoundsState D) (e : LpSolved D) : Res (BoundsState D) :=
  match e.node with
  | none => .ub "SCIPnodeGetNumber: null node"
  | some node => .ok ⟨toMillis e.now₂, s.records ++ [⟨s.last, toMillis e.now₁, e.lower, e.upper, node % 2 ^ 32⟩]⟩

/-- The events of a run, in order. -/
def boundsRun (s : BoundsState D) : List (LpSolved D) → Res (BoundsState D)
  | [] => .ok s
  | e :: es => do
    let s ← boundsExec s e
    boundsRun s es

/-! ## The level of the log -/

/-- `getBoostLevelFromPyLevel`, logger.cpp 10-36, with the levels of logger.hh 13-20; the Boost levels trace, debug, info, warning,
error, fatal are 0 to 5. -/
def boostLevel (py : Int) : Nat :=
  if py = 50 then 5 else if py = 40 then 4 else if py = 30 then 3 else if py = 20 then 2 else if py = 10 then 1 else if py = 0 then 0
  else 2

/-- The filter of `PCTSPinitLogging`, logger.cpp 40: whether a message of a severity is written. -/
def logShows (level severity : Nat) : Bool := decide (severity ≥ level)

end Pctsp
