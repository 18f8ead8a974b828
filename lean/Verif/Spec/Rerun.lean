import Verif.Spec.Tour

/-! # Repeated runs -/

namespace Pctsp

/-- The number of the first `m` runs that changed the tour: `T k` is the tour before run `k`, `T (k + 1)` the tour after it. -/
def changes (T : Nat → List Nat) (m : Nat) : Nat := ((List.range m).filter fun k => decide (T (k + 1) ≠ T k)).length

end Pctsp
