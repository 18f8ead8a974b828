import Verif.Model.Res

/-!
# Specification vocabulary: the same call with other names for the vertices
-/

namespace Pctsp

/-- Both calls return, the second one the image of what the first one returns, or none of them returns. -/
structure SameUpTo {α β : Type} (f : α → β) (r : Res α) (r' : Res β) : Prop where
  fwd : ∀ a, r = .ok a → r' = .ok (f a)
  back : ∀ b, r' = .ok b → ∃ a, r = .ok a ∧ b = f a

variable {α β : Type}

/-- Edges with other names. -/
def renamePairs (φ : α → β) (es : List (α × α)) : List (β × β) := es.map fun e => (φ e.1, φ e.2)

/-- Entries of a map from edges with other names. -/
def renameCosts (φ : α → β) (l : List ((α × α) × Int)) : List ((β × β) × Int) := l.map fun x => ((φ x.1.1, φ x.1.2), x.2)

/-- Entries of a map from vertices with other names. -/
def renamePrizes (φ : α → β) (l : List (α × Int)) : List (β × Int) := l.map fun x => (φ x.1, x.2)

end Pctsp
