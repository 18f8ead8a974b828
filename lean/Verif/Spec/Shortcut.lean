import Verif.Spec.Tour

/-!
# Specification vocabulary for the short cuts of a closed tour
-/

namespace Pctsp

variable {α : Type}

/-- `P` is a run of consecutive vertices of the closed tour `t`, read cyclically, and `w` is the next vertex; at least one vertex of the
tour besides `w` is not on the run. -/
def RunOf (t P : List α) (w : α) : Prop :=
  P ≠ [] ∧ P.length + 2 ≤ t.length ∧ ∃ i, i < t.length ∧ (P ++ [w]) <+: (t.drop i ++ t.tail)

/-- The run `P` of the tour `t` closed along the vertices `X`. -/
def closeRun (P X : List α) : List α := P ++ (X ++ P.take 1)

/-- The run `P` of the tour `t` through the root falls short of the quota, would reach it with the next vertex of the tour, and reaches it
with the new vertices `X` that lead back to its first vertex. -/
structure Shortcut (adj : α → α → Prop) (π : α → Int) (quota : Int) (root : α) (t P X : List α) : Prop where
  run : ∃ w, RunOf t P w ∧ quota ≤ (P.map π).sum + π w
  two : 2 ≤ P.length
  root : root ∈ P
  low : (P.map π).sum < quota
  fresh : ∀ v ∈ X, v ∉ P
  nodup : X.Nodup
  enough : quota ≤ (P.map π).sum + (X.map π).sum
  walk : ∀ p ∈ consec (closeRun P X), adj p.1 p.2

end Pctsp
