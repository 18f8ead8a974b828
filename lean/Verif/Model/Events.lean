import Verif.Model.Res

/-!
# Node statistics

Model of `NodeEventhdlr` (src/event_handlers.cpp 5-97) and of the sums of src/stats.cpp 45-59.  The node numbers of SCIP and the
counters are natural numbers here; the code uses 32 bits.
-/

namespace Pctsp

/-- `NodeStats`, stats.hh 52-62. -/
structure NodeStats (D : Type) where
  lowerBound : D
  nodeId : Nat
  numSecDisjointTour : Nat
  numSecMaxflowMincut : Nat
  numCostCoverDisjointPaths : Nat
  numCostCoverShortestPaths : Nat
  numCostCoverSteinerTree : Nat
  parentId : Nat
  upperBound : D
  deriving DecidableEq, Repr

/-- What SCIP knows of the current node when an event arrives. -/
structure NodeInfo (D : Type) where
  id : Nat
  lowerBound : D
  parent : Nat
  upperBound : D
  deriving DecidableEq, Repr

variable {D : Type}

/-- The value initialised record that `resize` inserts. -/
def NodeStats.blank (zero : D) : NodeStats D := ⟨zero, 0, 0, 0, 0, 0, 0, 0, zero⟩

/-- `newStatsForNode`, event_handlers.cpp 11-27. -/
def newStatsForNode (i : NodeInfo D) : NodeStats D :=
  ⟨i.lowerBound, i.id, 0, 0, 0, 0, 0, if i.id > 1 then i.parent else 1, i.upperBound⟩

/-- `addCurrentNode`, event_handlers.cpp 44-51; for node 0 the index is `-1`. -/
def addCurrentNode (zero : D) (stats : List (NodeStats D)) (i : NodeInfo D) : Res (List (NodeStats D)) :=
  if i.id = 0 then .ub "addCurrentNode: index out of range"
  else
    let stats := if stats.length < i.id then stats ++ List.replicate (i.id - stats.length) (.blank zero) else stats
    .ok (stats.set (i.id - 1) (newStatsForNode i))

/-- `scip_exec`, event_handlers.cpp 90-97. -/
def nodeEvent (zero : D) (stats : List (NodeStats D)) (i : NodeInfo D) : Res (List (NodeStats D)) :=
  if i.id ≥ stats.length then addCurrentNode zero stats i else .ok stats

/-- `node_stats_[currentNodeId(scip) - 1].… += n`, event_handlers.cpp 53-61; the subscript is not checked. -/
def bumpNode (stats : List (NodeStats D)) (node : Nat) (f : NodeStats D → NodeStats D) : Res (List (NodeStats D)) :=
  match node with
  | 0 => .ub "increment: index out of range"
  | k + 1 =>
    match stats[k]? with
    | none => .ub "increment: index out of range"
    | some s => .ok (stats.set k (f s))

/-- What can happen to the statistics: a node event, or an increment (by `n` rows) while a node is the current node. -/
inductive NodeOp (D : Type) where
  | event (i : NodeInfo D)
  | disjoint (node n : Nat)
  | maxflow (node n : Nat)

/-- One operation: `scip_exec`, `incrementNumSecDisjointTour` (53-56), `incrementNumSecMaxflowMincut` (58-61). -/
def NodeOp.apply (zero : D) (stats : List (NodeStats D)) : NodeOp D → Res (List (NodeStats D))
  | .event i => nodeEvent zero stats i
  | .disjoint node n => bumpNode stats node fun s => { s with numSecDisjointTour := s.numSecDisjointTour + n }
  | .maxflow node n => bumpNode stats node fun s => { s with numSecMaxflowMincut := s.numSecMaxflowMincut + n }

/-- A history of operations. -/
def runNodeOps (zero : D) : List (NodeOp D) → List (NodeStats D) → Res (List (NodeStats D))
  | [], stats => .ok stats
  | o :: os, stats => do
    let stats ← o.apply zero stats
    runNodeOps zero os stats

/-- `numDisjointTourSECs`, stats.cpp 45-51. -/
def numDisjointTourSECs (stats : List (NodeStats D)) : Nat := stats.foldl (fun t s => t + s.numSecDisjointTour) 0

/-- `numMaxflowMincutSECs`, stats.cpp 53-59. -/
def numMaxflowMincutSECs (stats : List (NodeStats D)) : Nat := stats.foldl (fun t s => t + s.numSecMaxflowMincut) 0

end Pctsp
