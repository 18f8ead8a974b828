import Verif.Model.Res

/-!
# Branching rules

Model of src/branching.cpp 60-132.  The rules of SCIP are a list; the order in which `SCIPgetBranchrules` returns it (sorted by
priority) does not matter, and setting a priority does not reorder the array that is being traversed.
-/

namespace Pctsp

/-- A branching rule of SCIP. -/
structure BranchRule where
  name : String
  priority : Int
  maxdepth : Int
  deriving DecidableEq, Repr

/-- `SCIPsetBranchrulePriority`. -/
def BranchRule.setPriority (r : BranchRule) (p : Int) : BranchRule := { r with priority := p }

/-- `setRelpscostBranchingStrategy`, branching.cpp 60-73. -/
def setRelpscostBranching (rules : List BranchRule) : List BranchRule :=
  rules.map fun r => if r.name = "relpscost" then r.setPriority 100000 else r.setPriority (-10000)

/-- `setStrongBranchingStrategy`, branching.cpp 75-101. -/
def setStrongBranching (rules : List BranchRule) : List BranchRule :=
  rules.map fun r =>
    if r.name = "fullstrong" then r.setPriority 4000
    else if r.name = "relpscost" then r.setPriority 3000
    else if r.name = "mostinf" then r.setPriority 1000
    else if r.priority ≥ 3000 then r.setPriority 2500 else r

/-- Sets the maximal depth of the first rule with a name: `SCIPfindBranchrule` then `SCIPsetBranchruleMaxdepth`. -/
def setMaxdepthOf (name : String) (d : Int) : List BranchRule → Option (List BranchRule)
  | [] => none
  | r :: rs => if r.name = name then some ({ r with maxdepth := d } :: rs) else (setMaxdepthOf name d rs).map (r :: ·)

/-- `setStrongAtTreeTopBranchingStrategy`, branching.cpp 103-110: undefined if there is no rule `fullstrong` (null pointer). -/
def setStrongAtTreeTop (rules : List BranchRule) (d : Int) : Res (List BranchRule) :=
  match setMaxdepthOf "fullstrong" d (setStrongBranching rules) with
  | none => .ub "SCIPsetBranchruleMaxdepth: null pointer"
  | some rules => .ok rules

/-- `setBranchingStrategy`, branching.cpp 112-128. -/
def setBranchingStrategy (rules : List BranchRule) (strategy : Nat) (d : Int) : Res (List BranchRule) :=
  match strategy with
  | 0 => .ok (setRelpscostBranching rules)
  | 1 => .ok (setStrongBranching rules)
  | 2 => setStrongAtTreeTop rules d
  | _ => .ok rules

/-- The overload without a depth, branching.cpp 130-132. -/
def setBranchingStrategyDefault (rules : List BranchRule) (strategy : Nat) : Res (List BranchRule) :=
  setBranchingStrategy rules strategy (-1)

end Pctsp
