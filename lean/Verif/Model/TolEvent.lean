import Verif.Model.Enforce
import Mathlib.Data.Rat.Floor

/-!
# The event of a new best solution, with a bound that is not an integer
-/

namespace Pctsp

/-- The cast `(CostNumberType) SCIPgetUpperbound(scip)`, cost_cover.cpp 82: a `double` is cut off towards zero.  The value is a rational number, and bounds
outside the range of `int`, for which the cast is undefined, are not excluded. -/
def castInt (u : Rat) : Int := u.num.tdiv u.den

/-- `CostCoverEventHandler::scip_exec`, cost_cover.cpp 81-86, for each handler that is included; `u` is `SCIPgetUpperbound`. -/
def tolEventRows (P : Problem) (u : Rat) : Res (List Row) := eventRows P (castInt u)

end Pctsp
