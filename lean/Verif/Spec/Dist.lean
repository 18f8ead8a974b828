import Verif.Spec.Tour

/-!
# Specification vocabulary for shortest paths
-/

namespace Pctsp

/-- The edge with descriptor `e` joins `u` and `v`. -/
def EdgeBetween (g : Graph) (e u v : Nat) : Prop := g.edges[e]? = some (u, v) ∨ g.edges[e]? = some (v, u)

/-- `v` can be reached from `s` by a walk of length `d` that enters no vertex for which `mark` holds. -/
inductive Reaches (g : Graph) (cost : Nat → Int) (mark : Nat → Bool) (s : Nat) : Nat → Int → Prop
  | start : Reaches g cost mark s s 0
  | step {u v e : Nat} {d : Int} (h : Reaches g cost mark s u d) (he : EdgeBetween g e u v) (hm : mark v = false) :
      Reaches g cost mark s v (d + cost e)

end Pctsp
