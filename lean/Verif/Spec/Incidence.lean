import Verif.Spec.Cycle
import Verif.Spec.Dist
import Mathlib.Logic.Relation
import Mathlib.Data.List.Forall2

/-!
# Specification vocabulary for solutions of the integer program
-/

namespace Pctsp

/-- At most one edge between two vertices and exactly one self-loop at each vertex. -/
structure SimpleWithLoops (g : Graph) : Prop where
  wf : g.WF
  loops : ∀ v < g.n, (v, v) ∈ g.edges
  simple : (g.edges.map und).Nodup

instance (g : Graph) : Decidable (SimpleWithLoops g) :=
  decidable_of_iff (g.WF ∧ (∀ v < g.n, (v, v) ∈ g.edges) ∧ (g.edges.map und).Nodup)
    ⟨fun ⟨a, b, c⟩ => ⟨a, b, c⟩, fun ⟨a, b, c⟩ => ⟨a, b, c⟩⟩

/-- The edge `e` is not a self-loop and has `v` as an end point. -/
def incident (g : Graph) (v e : Nat) : Bool :=
  match g.edges[e]? with
  | some p => p.1 ≠ p.2 && (p.1 == v || p.2 == v)
  | none => false

/-- The edge `e` is not a self-loop and both its end points satisfy `S`. -/
def inside (g : Graph) (S : Nat → Bool) (e : Nat) : Bool :=
  match g.edges[e]? with
  | some p => p.1 ≠ p.2 && (S p.1 && S p.2)
  | none => false

/-- The edge `e` has exactly one end point that satisfies `S`. -/
def crosses (g : Graph) (S : Nat → Bool) (e : Nat) : Bool :=
  match g.edges[e]? with
  | some p => S p.1 != S p.2
  | none => false

/-- The sum of the values of the edges that satisfy `P`. -/
def edgeSum (g : Graph) (x : Nat → Int) (P : Nat → Bool) : Int := (((List.range g.edges.length).filter P).map x).sum

/-- `x` is the incidence vector of the closed walk `t` that uses the edges `es`: an edge has value 1 if it is used and 0 otherwise,
a self-loop has value 1 if its vertex is on the walk and 0 otherwise. -/
structure IncidenceOf (g : Graph) (t es : List Nat) (x : Nat → Int) : Prop where
  used : ∃ ps, List.Forall₂ (fun e p => g.edges[e]? = some p) es ps ∧ (ps.map und).Perm ((consec t).map und)
  nodup : es.Nodup
  edge : ∀ e u v, g.edges[e]? = some (u, v) → u ≠ v → x e = if e ∈ es then 1 else 0
  loop : ∀ e v, g.edges[e]? = some (v, v) → x e = if v ∈ t then 1 else 0

/-- `u` and `v` are joined by an edge with a positive value. -/
def SupportAdj (g : Graph) (x : Nat → Int) (u v : Nat) : Prop := ∃ e, EdgeBetween g e u v ∧ 0 < x e

/-- `u` and `v` are in the same component of the support graph. -/
def SupportConnected (g : Graph) (x : Nat → Int) : Nat → Nat → Prop := Relation.ReflTransGen (SupportAdj g x)

/-- What `boost::connected_components` promises for the support graph: one label below `m` for each vertex, equal labels exactly for
connected vertices, every label used. -/
structure IsComponents (g : Graph) (x : Nat → Int) (m : Nat) (ids : List Nat) : Prop where
  length : ids.length = g.n
  range : ∀ c ∈ ids, c < m
  used : ∀ c < m, c ∈ ids
  same : ∀ (u v : Nat), u < g.n → v < g.n → (ids[u]? = ids[v]? ↔ SupportConnected g x u v)

end Pctsp
