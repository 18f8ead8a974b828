import Verif.Spec.Dist
import Mathlib.Data.List.Forall2

/-!
# Specification vocabulary for pairs of disjoint paths
-/

namespace Pctsp

/-- The edges `es` are those of the walk `l`, one for each consecutive pair. -/
def WalkEdges (g : Graph) (es l : List Nat) : Prop := List.Forall₂ (fun e p => EdgeBetween g e p.1 p.2) es (consec l)

/-- There are two paths from `r` to `v` that share neither edges nor inner vertices and have total cost `d`. -/
def DisjointPaths (g : Graph) (cost : Nat → Int) (r v : Nat) (d : Int) : Prop :=
  ∃ a b es fs : List Nat, (r :: (a ++ v :: b)).Nodup ∧ (es ++ fs).Nodup ∧ WalkEdges g es (r :: (a ++ [v])) ∧
    WalkEdges g fs (r :: (b ++ [v])) ∧ d = ((es ++ fs).map cost).sum

/-- The value of the objective function, `Σ cost e * x e` over all edges. -/
def objective (g : Graph) (cost x : Nat → Int) : Int := ((List.range g.edges.length).map fun e => cost e * x e).sum

end Pctsp
