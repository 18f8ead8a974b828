import Verif.Model.NodeGap

/-!
# Words for C161 and C164
-/

namespace Pctsp

/-- The calls at a node whose LP solution was no simple cycle. -/
def callsAt (node : Nat) (history : List BoundCall) : List BoundCall := history.filter fun c => decide (c.node = node) && !c.simple

/-- The bounds differ, and one of them is zero or SCIP's infinity, or their signs differ: for instance, no solution is known. -/
def BoundCall.Unbounded (eps inf : Rat) (c : BoundCall) : Prop :=
  eps < |c.primal - c.lower| ∧ (|c.lower| ≤ eps ∨ |c.primal| ≤ eps ∨ inf ≤ |c.primal| ∨ inf ≤ |c.lower| ∨ c.primal * c.lower < 0)

/-- A solution is known, and it costs no less than the positive lower bound; after the division by `k` the bounds are positive and different. -/
def BoundCall.Usual (eps inf k : Rat) (c : BoundCall) : Prop :=
  eps < c.lower / k ∧ c.lower ≤ c.primal ∧ c.primal < inf ∧ eps < c.primal - c.lower / k

/-- The gap in the units of the original problem. -/
def BoundCall.relGap (c : BoundCall) : Rat := (c.primal - c.lower) / c.lower

/-- No call at the node has branched. -/
def NeverBranched (eps inf threshold : Rat) (m : Int) (node : Nat) (history : List BoundCall) : Prop :=
  ∀ pre c post, history = pre ++ c :: post → c.node = node → enfoResult eps inf threshold m pre c ≠ .branch

/-- The gap of a call. -/
def BoundCall.gap (eps inf : Rat) (c : BoundCall) : Rat := scipGap eps inf c.primal c.lower

end Pctsp
