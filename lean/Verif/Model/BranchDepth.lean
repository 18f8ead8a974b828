import Verif.Model.Branching

/-!
# Which branching rule decides at a node

The priorities and the depth that src/branching.cpp 60-132 sets, as SCIP uses them when it branches on an LP solution, also when `scip_enfolp` calls `SCIPbranchLP`
(src/subtour_elimination.cpp 221).  The inside of SCIP is a specification: rules are tried in the order of their priorities; a rule is skipped if the node is deeper than its maximal depth;
the first rule whose answer is not `SCIP_DIDNOTRUN` decides.  The distance of bounds (`maxbounddist`) is not modelled.
-/

namespace Pctsp

/-- SCIP does not call a rule at a node below its maximal depth; -1 stands for no limit. -/
def BranchRule.allowed (r : BranchRule) (depth : Nat) : Bool := decide (r.maxdepth = -1 ∨ (depth : Int) ≤ r.maxdepth)

/-- The order in which SCIP tries the rules: by priority; the order of rules with the same priority is open. -/
def IsTryOrder (rules order : List BranchRule) : Prop := order.Perm rules ∧ order.Pairwise fun a b => b.priority ≤ a.priority

/-- The rule that decides at a node; `runs` says which rules answer something else than `SCIP_DIDNOTRUN` when they are called there. -/
def decidingRule (runs : String → Bool) (depth : Nat) (order : List BranchRule) : Option String :=
  (order.find? fun r => r.allowed depth && runs r.name).map (·.name)

end Pctsp
