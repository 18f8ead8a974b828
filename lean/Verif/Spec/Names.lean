import Verif.Spec.Tour

/-!
# Specification vocabulary for graphs with arbitrary vertex names
-/

namespace Pctsp

variable {α : Type}

/-- The end points of the edges, in the order in which they are read. -/
def endpoints (es : List (α × α)) : List α := es.flatMap fun e => [e.1, e.2]

/-- The same undirected edge. -/
def SameEdge (p q : α × α) : Prop := p = q ∨ p = (q.2, q.1)

instance [DecidableEq α] (p q : α × α) : Decidable (SameEdge p q) := by unfold SameEdge; infer_instance

/-- `x` and `y` are joined by an edge of the list. -/
def AdjIn (es : List (α × α)) (x y : α) : Prop := (x, y) ∈ es ∨ (y, x) ∈ es

instance [DecidableEq α] (es : List (α × α)) (x y : α) : Decidable (AdjIn es x y) := by unfold AdjIn; infer_instance

/-- A simple closed tour from `r` in the graph given by an edge list. -/
structure IsTourIn (es : List (α × α)) (r : α) (t : List α) : Prop where
  shape : ∃ m, t = r :: (m ++ [r])
  nodup : t.dropLast.Nodup
  walk : ∀ p ∈ consec t, AdjIn es p.1 p.2

/-- Cost of a walk for costs given by the names of the end points. -/
def namedCost (w : α → α → Int) (t : List α) : Int := ((consec t).map fun p => w p.1 p.2).sum

/-- Prize of a closed tour for prizes given by name. -/
def namedPrize (π : α → Int) (t : List α) : Int := (t.dropLast.map π).sum

/-- The arguments describe a simple graph with symmetric costs `w` and prizes `π`: no undirected edge is listed twice, every cost entry
names an edge (in either direction) and every edge has one, and every prize entry names an end point of an edge and every end point has
one. -/
structure Describes (es : List (α × α)) (costs : List ((α × α) × Int)) (prizes : List (α × Int)) (w : α → α → Int) (π : α → Int) :
    Prop where
  distinct : es.Pairwise fun p q => ¬ SameEdge p q
  symm : ∀ x y, w x y = w y x
  costOk : ∀ p c, (p, c) ∈ costs → c = w p.1 p.2 ∧ AdjIn es p.1 p.2
  allCosts : ∀ e ∈ es, ∃ p c, (p, c) ∈ costs ∧ SameEdge p e
  prizeOk : ∀ x c, (x, c) ∈ prizes → c = π x ∧ x ∈ endpoints es
  allPrizes : ∀ x ∈ endpoints es, ∃ c, (x, c) ∈ prizes

end Pctsp
