import Verif.Model.Tolerance
import Verif.Spec.Incidence

/-!
# What SCIP accepts as a solution, with its tolerances

SCIP's parameter `numerics/feastol` (default 1e-6) is `tol`: a binary variable may be that far from 0 or 1, and a linear row may be violated by that much,
relative to the larger one of 1, the absolute value of the activity and the absolute value of the side.
-/

namespace Pctsp

/-- The value is at most `tol` away from 0 or from 1. -/
def NearBinary (tol v : Rat) : Prop := |v| ≤ tol ∨ |v - 1| ≤ tol

instance (tol v : Rat) : Decidable (NearBinary tol v) := by unfold NearBinary; infer_instance

/-- `SCIPrelDiff(scip, a, b)`. -/
def relDiff (a b : Rat) : Rat := (a - b) / max 1 (max |a| |b|)

/-- The activity of a row in a solution with rational values. -/
def Row.activityQ (x : Nat → Rat) (r : Row) : Rat := (r.coeffs.map fun p => (p.2 : Rat) * x p.1).sum

/-- The solution satisfies the row up to the tolerance. -/
def Row.SatTol (tol : Rat) (x : Nat → Rat) (r : Row) : Prop :=
  (∀ l : Int, r.lhs = some l → -tol ≤ relDiff (r.activityQ x) l) ∧ (∀ u : Int, r.rhs = some u → relDiff (r.activityQ x) u ≤ tol)

/-- The solution satisfies the row exactly. -/
def Row.SatQ (x : Nat → Rat) (r : Row) : Prop :=
  (∀ l : Int, r.lhs = some l → (l : Rat) ≤ r.activityQ x) ∧ (∀ u : Int, r.rhs = some u → r.activityQ x ≤ u)

instance (tol : Rat) (x : Nat → Rat) (r : Row) : Decidable (r.SatTol tol x) :=
  decidable_of_iff ((∀ l ∈ r.lhs, -tol ≤ relDiff (r.activityQ x) (l : Int)) ∧ (∀ u ∈ r.rhs, relDiff (r.activityQ x) (u : Int) ≤ tol)) (by
    simp only [Row.SatTol, Option.mem_def])

/-- What SCIP accepts as a solution of the rows: the variables are binary, the rows hold, and the subtour constraint says that it is feasible. -/
structure AcceptedTol (eps tol : Rat) (g : Graph) (order : List Nat) (rows : List Row) (x : Nat → Rat) : Prop where
  binary : ∀ e < g.edges.length, NearBinary tol (x e)
  rows : ∀ row ∈ rows, row.SatTol tol x
  subtour : secCheck g order (isVarPositive eps x) = .ok .feasible

/-- The nearest 0/1 vector. -/
def roundBin (x : Nat → Rat) (e : Nat) : Int := if 1 / 2 < x e then 1 else 0

/-- The sum of the absolute values of the prizes. -/
def absPrize (g : Graph) (prize : Nat → Int) : Int := ((List.range g.n).map fun v => |prize v|).sum

/-- The value of the objective function. -/
def objectiveQ (g : Graph) (cost : Nat → Int) (x : Nat → Rat) : Rat := ((List.range g.edges.length).map fun e => (cost e : Rat) * x e).sum

/-- The sum of the absolute values of the costs. -/
def absCost (g : Graph) (cost : Nat → Int) : Int := ((List.range g.edges.length).map fun e => |cost e|).sum

end Pctsp
