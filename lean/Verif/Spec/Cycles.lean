import Verif.Model.Preprocess
import Verif.Spec.Tour

/-!
# Cycles and components of networkx graphs

Vocabulary for the properties of the preprocessing and the specifications of the two networkx functions it calls.
-/

namespace Pctsp

variable {V : Type}

/-- Consecutive vertices are neighbours. -/
def NxWalk (g : NxGraph V) (l : List V) : Prop := ∀ p ∈ consec l, p.2 ∈ g.adj p.1

/-- A simple cycle through the vertices `vs`, at least three of them; the last one is joined to the first one. -/
structure NxCycle (g : NxGraph V) (vs : List V) : Prop where
  long : 3 ≤ vs.length
  nodup : vs.Nodup
  inside : ∀ v ∈ vs, v ∈ g.nodes
  closed : NxWalk g (vs ++ vs.take 1)

/-- There is a walk from `u` to `v`. -/
def NxConnected (g : NxGraph V) (u v : V) : Prop := ∃ l, NxWalk g l ∧ l.head? = some u ∧ l.getLast? = some v

/-- Specification of `nx.node_connected_component(g, u)`: the vertices that a walk from the given vertex reaches. -/
def IsNodeComponent (g : NxGraph V) (u : V) (component : List V) : Prop :=
  ∀ v, v ∈ component ↔ v ∈ g.nodes ∧ NxConnected g u v

/-- Specification of `nx.biconnected_components(g)`: the components are sets of vertices; the vertices of a cycle are in a common component,
and two distinct vertices of a component with at least three vertices are on a common cycle. -/
structure IsBicomponents (g : NxGraph V) (components : List (List V)) : Prop where
  nodup : ∀ c ∈ components, c.Nodup
  inside : ∀ c ∈ components, ∀ v ∈ c, v ∈ g.nodes
  cycle : ∀ vs, NxCycle g vs → ∃ c ∈ components, ∀ v ∈ vs, v ∈ c
  common : ∀ c ∈ components, 3 ≤ c.length → ∀ u ∈ c, ∀ v ∈ c, u ≠ v → ∃ vs, NxCycle g vs ∧ u ∈ vs ∧ v ∈ vs

/-- Every vertex of `s` has two other neighbours in `s`. -/
def TwoNeighbours (g : NxGraph V) (s : V → Prop) : Prop :=
  ∀ v, s v → ∃ a b, a ≠ b ∧ a ≠ v ∧ b ≠ v ∧ a ∈ g.adj v ∧ b ∈ g.adj v ∧ s a ∧ s b

end Pctsp
