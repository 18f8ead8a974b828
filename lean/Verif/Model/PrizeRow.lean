import Verif.Model.Rows

/-!
# The prize row, variable by variable

Model of include/pctsp/constraint.hh 19-32 and 108-141 without the assumption of `prizeRow` about the order of the variables: the weights are put into a
`std::map` whose keys are the addresses of the names of the variables, and looked up for the variables in the order in which SCIP holds them.
-/

namespace Pctsp

/-- `getVariableNameToWeightMap`, constraint.hh 19-32: `order` is the order of the map from edges to variables, `addr e` the address of the name of the
variable of `e`.  A key that was never written reads as 0. -/
def variableNameToWeight (addr : Nat → Nat) (weight : Nat → Int) (order : List Nat) : Nat → Int :=
  order.foldl (fun m e => upd m (addr e) (weight e)) (fun _ => 0)

/-- `PCTSPaddPrizeConstraint`, constraint.hh 108-141: `vars` are the variables of SCIP in its order, named by their edges; the first `count` of them get a
coefficient.  Fewer variables than `count` is out of bounds. -/
def addPrizeConstraint (addr : Nat → Nat) (weight : Nat → Int) (quota : Int) (order vars : List Nat) (count : Nat) : Res Row :=
  if count ≤ vars.length then
    .ok { coeffs := (vars.take count).map fun e => (e, -variableNameToWeight addr weight order (addr e)), lhs := none, rhs := some (-quota) }
  else .ub "PCTSPaddPrizeConstraint: vars out of bounds"

end Pctsp
