import Verif.Spec.Tour

/-!
# Specification vocabulary for parts of a graph that hang on one vertex
-/

namespace Pctsp

/-- Only the vertex `c` of `S` can have neighbours outside of `S`. -/
def OnlyGate {α : Type} (adj : α → α → Prop) (S : α → Prop) (c : α) : Prop := ∀ u v, adj u v → S u → ¬ S v → u = c

end Pctsp
