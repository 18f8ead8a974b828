import Verif.Spec.Names

/-!
# Lists of edges without repetitions
-/

namespace Pctsp

variable {α : Type} [DecidableEq α]

/-- The list without the edges that occurred in `seen` or earlier in the list, in one of the two directions. -/
def keepFrom (seen : List (α × α)) : List (α × α) → List (α × α)
  | [] => []
  | e :: es => if ∃ p ∈ seen, SameEdge p e then keepFrom seen es else e :: keepFrom (e :: seen) es

/-- The list with only the first of several copies of an edge. -/
def keepFirst (es : List (α × α)) : List (α × α) := keepFrom [] es

end Pctsp
