import Verif.Model.Rows
import Verif.Model.Tailing
import Verif.Model.Maxflow
import Verif.Model.Solve

/-!
# What the handlers answer when SCIP asks them to enforce a solution of the LP relaxation

src/subtour_elimination.cpp 189-233 and src/cycle_cover.cpp 122-127.
-/

namespace Pctsp

/-- `PCTSPconshdlrSubtour::scip_enfolp`, subtour_elimination.cpp 201-233, on a solution of the LP relaxation: `isSolSimpleCycle` (33-39) looks at the
non-loop edges with a positive value, fractional or not. -/
def enforceSubtour {G : Type} (sub : G → G → G) (lt : G → G → Bool) (threshold : G) (m : Int) (windows : List (List G)) (g : Graph) (order : List Nat)
    (pos : Nat → Bool) (node : Nat) (gap : G) (lpOk : Bool) : Res (Enfo × List (List G)) := do
  let simple ← isSimpleCycle g (getSolutionEdges g order pos)
  pure (enfolp sub lt threshold m windows simple node gap lpOk)

/-- `CycleCoverConshdlr::scip_enfolp` and `scip_enfops`, cycle_cover.cpp 122-127, return without writing `*result`, which SCIP sets to
`SCIP_FEASIBLE` before it calls a handler. -/
def enforceCycleCover : Enfo := .feasible

/-- Both handlers let the solution pass. -/
def enforced (cycleCover : Bool) (subtour : Enfo) : Bool := decide (subtour = .feasible) && (!cycleCover || decide (enforceCycleCover = .feasible))

/-- The rows of a `BESTSOLFOUND` event, `CostCoverEventHandler::scip_exec`, cost_cover.cpp 81-86, for each handler that is included; `ub` is
`SCIPgetUpperbound`. -/
def eventRows (P : Problem) (ub : Int) : Res (List Row) := do
  let rows ← mapRes (fun dist => separateThenAddCostCover P.graph P.graph.hasVar P.root dist ub) P.covers
  pure rows.flatten

end Pctsp
