import Verif.Spec.Scip

/-!
# Edges that are listed several times
-/

namespace Pctsp

/-- How often the edge between the two vertices is listed, in any direction. -/
def timesListed (g : Graph) (p : Nat × Nat) : Nat := (g.edges.map und).count (und p)

/-- Every edge is listed exactly twice, in any directions, and there are no self-loops. -/
structure ListedTwice (g : Graph) : Prop where
  wf : g.WF
  noLoops : ∀ p ∈ g.edges, p.1 ≠ p.2
  twice : ∀ p ∈ g.edges, timesListed g p = 2

instance (g : Graph) : Decidable (ListedTwice g) :=
  decidable_of_iff (g.WF ∧ (∀ p ∈ g.edges, p.1 ≠ p.2) ∧ ∀ p ∈ g.edges, timesListed g p = 2)
    ⟨fun ⟨a, b, c⟩ => ⟨a, b, c⟩, fun ⟨a, b, c⟩ => ⟨a, b, c⟩⟩

/-- A feasible tour along edges that are listed once. -/
structure OnceTour (g : Graph) (prize : Nat → Int) (quota : Int) (root : Nat) (t : List Nat) : Prop extends Feas g prize quota root t where
  once : ∀ p ∈ consec t, timesListed g p = 1

/-- A closed walk through distinct vertices, at least two, along edges that are listed several times.  Its edges are split into those of `M`, which are
listed exactly twice and have no vertex in common, and those of `N`.  The root and the prize that meets the quota are at the ends of the edges of `M`. -/
structure HalfTour (g : Graph) (prize : Nat → Int) (quota : Int) (root : Nat) (t : List Nat) (M N : List (Nat × Nat)) : Prop where
  tour : IsTour g root t
  two : 3 ≤ t.length
  edges : EdgesOfTour t (M ++ N)
  apart : (endpoints M).Nodup
  root : root ∈ endpoints M
  prize : quota ≤ ((endpoints M).map prize).sum
  twice : ∀ p ∈ M, timesListed g p = 2
  more : ∀ p ∈ N, 2 ≤ timesListed g p

/-- The cost of the edges of `M`. -/
def halfCost (g : Graph) (cost : Nat → Int) (M : List (Nat × Nat)) : Int := (M.map fun p => pairCost g cost p.1 p.2).sum

/-- The two kinds of answers, and what they cost. -/
inductive AnswerOf (g : Graph) (cost prize : Nat → Int) (quota : Int) (root : Nat) : List (Nat × Nat) → Int → Prop
  | once {t : List Nat} {ps : List (Nat × Nat)} : OnceTour g prize quota root t → EdgesOfTour t ps →
      AnswerOf g cost prize quota root ps (walkCost g cost t)
  | half {t : List Nat} {M N ps : List (Nat × Nat)} : HalfTour g prize quota root t M N → ps.Perm (M ++ N) →
      AnswerOf g cost prize quota root ps (halfCost g cost M)

/-- Only the first of the copies of an edge has a cost. -/
def FirstCosts (g : Graph) (cost : Nat → Int) : Prop := ∀ e p, g.edges[e]? = some p → g.edgeIdx p.1 p.2 ≠ some e → cost e = 0

end Pctsp
