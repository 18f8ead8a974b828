import Verif.Spec.Tour

/-!
# Specification vocabulary for sets of edges that form a simple cycle
-/

namespace Pctsp

/-- An edge without its direction. -/
def und (e : Nat × Nat) : Nat × Nat := (min e.1 e.2, max e.1 e.2)

/-- The edges of the closed walk through a list of vertices: each vertex to the next one and the last one to the first. -/
def cycleEdges (vs : List Nat) : List (Nat × Nat) := consec (vs ++ vs.take 1)

/-- The edges, each used once and in any order and direction, are those of a closed walk through at least two distinct vertices. -/
def FormCycle (ps : List (Nat × Nat)) (vs : List Nat) : Prop :=
  2 ≤ vs.length ∧ vs.Nodup ∧ (ps.map und).Perm ((cycleEdges vs).map und)

instance (ps : List (Nat × Nat)) (vs : List Nat) : Decidable (FormCycle ps vs) := by unfold FormCycle; infer_instance

/-- The number of edge ends at `v` (a self-loop counts twice). -/
def degreeIn (ps : List (Nat × Nat)) (v : Nat) : Nat :=
  (ps.map fun e => (if e.1 = v then 1 else 0) + (if e.2 = v then 1 else 0)).sum

end Pctsp
