import Verif.Spec.Batch
import Verif.Model.Tables
import Mathlib.Algebra.Order.Field.Rat
import Mathlib.Algebra.Order.AbsoluteValue.Basic

/-!
# What the tables of results are about
-/

namespace Pctsp

variable {U V P : Type}

/-- The statistics of a file. -/
def StatsFile.stats? : StatsFile → Option (SummaryStats Ext)
  | .good s => some s
  | _ => none

/-- Reading the file raises an exception that is not caught. -/
def StatsFile.raises : StatsFile → Prop
  | .empty | .invalid => True
  | _ => False

/-- What the tables need of the rounding of floating point numbers: integers up to `2 ^ 53` are exact, no number is rounded to a NaN, the sign is kept, and
rounding does not cross a power of two. -/
structure RoundsDouble (rnd : Rat → Ext) : Prop where
  exact : ∀ c : Int, |c| ≤ 2 ^ 53 → rnd c = .fin c
  noNan : ∀ x, rnd x ≠ .nan
  keep : ∀ k ≤ 1000, ∀ x, 1 / 2 ^ k ≤ |x| → ∀ y, rnd x = .fin y → 1 / 2 ^ k ≤ |y|
  nonneg : ∀ x, 0 ≤ x → rnd x = .inf false ∨ ∃ y, 0 ≤ y ∧ rnd x = .fin y

/-- A bound as SCIP reports it: a multiple of `2 ^ -52` (so is every floating point number that is 0 or at least 1) up to `2 ^ 70`. -/
def Bound (x : Rat) : Prop := (∃ m : Int, x = m / 2 ^ 52) ∧ |x| ≤ 2 ^ 70

end Pctsp
