import Verif.Spec.Incidence

/-!
# Graphs that are one cycle
-/

namespace Pctsp

/-- The edges of the graph, each used once and in any order and direction, are those of a closed walk that visits every vertex
exactly once.  One vertex with one self-loop, and two vertices with two parallel edges, are such graphs. -/
def IsCycleGraph (g : Graph) : Prop :=
  ∃ vs : List Nat, vs ≠ [] ∧ vs.Nodup ∧ (∀ v, v ∈ vs ↔ v < g.n) ∧ (g.edges.map und).Perm ((cycleEdges vs).map und)

/-- `boost::connected_components` on a whole graph: every edge is in the support. -/
abbrev IsGraphComponents (g : Graph) (m : Nat) (ids : List Nat) : Prop := IsComponents g (fun _ => 1) m ids

end Pctsp
