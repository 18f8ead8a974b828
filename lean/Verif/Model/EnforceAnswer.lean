import Verif.Model.Enforce

/-!
# What `scip_enfolp` hands to SCIP

src/subtour_elimination.cpp 201-233 with the call of `SCIPbranchLP` (221).  A specification of SCIP: `SCIPbranchLP` leaves `SCIP_DIDNOTRUN` in the result if no variable has a fractional value in the
LP solution; otherwise some rule branches (or answers something else that SCIP accepts).  SCIP does not accept `SCIP_DIDNOTRUN` from this callback: `SCIPsolve` stops with an error, which
src/algorithms.cpp 207 does not look at.
-/

namespace Pctsp

/-- The answers of `scip_enfolp`. -/
inductive EnfoAnswer where
  | feasible
  | infeasible
  | branched
  | didNotRun
  deriving DecidableEq, Repr

/-- Some variable is fractional; values are numerators over `q`. -/
def hasCandidate (g : Graph) (q : Int) (x : Nat → Int) : Bool := (List.range g.edges.length).any fun e => decide (x e ≠ 0 ∧ x e ≠ q)

/-- `scip_enfolp` with `SCIPbranchLP`. -/
def enforceAnswer {G : Type} (sub : G → G → G) (lt : G → G → Bool) (threshold : G) (m : Int) (windows : List (List G)) (g : Graph) (order : List Nat)
    (q : Int) (x : Nat → Int) (node : Nat) (gap : G) (lpOk : Bool) : Res EnfoAnswer := do
  let a ← enforceSubtour sub lt threshold m windows g order (fun e => decide (0 < x e)) node gap lpOk
  pure (match a.1 with
    | .feasible => .feasible
    | .infeasible => .infeasible
    | .branch => if hasCandidate g q x then .branched else .didNotRun)

/-- SCIP stops with an error at any other answer. -/
def EnfoAnswer.accepted : EnfoAnswer → Bool
  | .didNotRun => false
  | _ => true

end Pctsp
