import Verif.Model.Tailing
import Mathlib.Data.Rat.Defs
import Mathlib.Algebra.Order.Ring.Rat

/-!
# The gap that decides whether a node is tailing off

Model of the gap in `scip_enfolp`, src/subtour_elimination.cpp 208-215: the node's lower bound, which is one of the transformed problem, is compared with the primal
bound, which is one of the original problem.  `SCIPcomputeGap` is a function of SCIP and is modelled as its source has it; numbers are rational and arithmetic is exact.
-/

namespace Pctsp

/-- `SCIPcomputeGap(eps, inf, primalbound, dualbound)`. -/
def scipGap (eps inf primal dual : Rat) : Rat :=
  if abs (primal - dual) ≤ eps then 0
  else if abs dual ≤ eps ∨ abs primal ≤ eps ∨ inf ≤ abs primal ∨ inf ≤ abs dual ∨ primal * dual < 0 then inf
  else abs ((primal - dual) / min (abs dual) (abs primal))

/-- What a call of `scip_enfolp` finds: whether the LP solution is a simple cycle, the current node, `SCIPgetPrimalbound`, `SCIPnodeGetLowerbound` and the status of the LP. -/
structure BoundCall where
  simple : Bool
  node : Nat
  primal : Rat
  lower : Rat
  lpOk : Bool

/-- The call with the gap that line 209 computes. -/
def BoundCall.enfo (eps inf : Rat) (c : BoundCall) : EnfoCall Rat := ⟨c.simple, c.node, scipGap eps inf c.primal c.lower, c.lpOk⟩

/-- The result of a call after the calls before it. -/
def enfoResult (eps inf threshold : Rat) (m : Int) (history : List BoundCall) (c : BoundCall) : Enfo :=
  let e := c.enfo eps inf
  (enfolp (· - ·) (fun a b => decide (a < b)) threshold m (enfoRun (· - ·) (fun a b => decide (a < b)) threshold m (history.map (BoundCall.enfo eps inf)) []).2
    e.simple e.node e.gap e.lpOk).1

/-- The bounds in the transformed problem, if SCIP divides the objective function by `k` (its parameter `misc/scaleobj`, on by default; whether it does, and by what, is not modelled): the
node's lower bound is divided, the primal bound is not. -/
def BoundCall.scaled (k : Rat) (c : BoundCall) : BoundCall := { c with lower := c.lower / k }

end Pctsp
