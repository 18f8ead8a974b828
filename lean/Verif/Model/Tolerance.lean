import Verif.Model.Rows
import Mathlib.Algebra.Order.Field.Rat
import Mathlib.Algebra.Order.AbsoluteValue.Basic

/-!
# Solutions with SCIP's tolerances

Model of `isVarPositive`, src/solution.cpp 8-11, on the values that SCIP stores, which need not be integers.  The values are rational numbers
(a floating point number is one); `eps` is SCIP's parameter `numerics/epsilon`, which the code leaves at its default 1e-9.
-/

namespace Pctsp

/-- `SCIPisZero(scip, value)`. -/
def scipIsZero (eps v : Rat) : Bool := decide (|v| ≤ eps)

/-- `isVarPositive`, solution.cpp 8-11. -/
def isVarPositive (eps : Rat) (x : Nat → Rat) (e : Nat) : Bool := !scipIsZero eps (x e) && decide (0 < x e)

end Pctsp
