import Verif.Model.Solve
import Verif.Spec.Incidence
import Verif.Spec.Paths
import Verif.Spec.Names
import Verif.Spec.Dist

/-!
# What SCIP promises

The specification of the solver, in terms of what it was given: the best solution has passed every check; rows are only added by the plug-ins,
called with solutions of the linear relaxation (as integers over a common denominator `q`) and with upper bounds of solutions that have been found;
the status `optimal` is a claim about all solutions that pass the checks and satisfy the added rows, and so is `infeasible`.
-/

namespace Pctsp

/-- `x / q` satisfies the row. -/
def Row.SatScaled (q : Int) (x : Nat → Int) (r : Row) : Prop :=
  (∀ l, r.lhs = some l → q * l ≤ r.activity x) ∧ (∀ u, r.rhs = some u → r.activity x ≤ q * u)

/-- The vector passes every check of a solution: binary variables, linear rows, subtour check, cycle cover check. -/
structure Accepted (P : Problem) (order : List Nat) (y : Nat → Int) : Prop where
  binary : ∀ e < P.graph.edges.length, y e = 0 ∨ y e = 1
  rows : ∀ row ∈ P.rows, row.Sat y
  subtour : secCheck P.graph order (fun e => decide (0 < y e)) = .ok .feasible
  cycle : P.cycleCover = true → ∀ m ids, IsComponents P.graph y m ids → cycleCoverCheck P.graph P.prize P.quota P.root m ids = .ok .feasible

/-- `x / q` is a solution of the linear relaxation. -/
structure LpSolution (P : Problem) (q : Int) (x : Nat → Int) : Prop where
  pos : 0 < q
  bounds : ∀ e < P.graph.edges.length, 0 ≤ x e ∧ x e ≤ q
  rows : ∀ row ∈ P.rows, row.SatScaled q x

/-- The rows that the plug-ins can add during the search.  The upper bound of an event is the objective value of one of the solutions in `found`,
divided by `scale`: SCIP may divide the objective function of the transformed problem by a common divisor of its coefficients, and
`SCIPgetUpperbound` is the bound of the transformed problem. -/
inductive Adds (scale : Int) (P : Problem) (order : List Nat) (found : List (Nat → Int)) : Row → Prop
  | subtour {sv : Solver} {flow : MaxFlow} {visit : Visit} {q : Int} {x : Nat → Int} {m k l : Nat} {ids : List Nat} {st : SepState} {row : Row}
      (hvisit : ∀ es s, visit es s s = true) (hx : LpSolution P q x) (hc : IsComponents P.graph x m ids)
      (h : sepalp sv P.graph P.graph.hasVar flow visit order q x P.root m ids P.secDisjoint P.secMaxflow ⟨[], [], .didNotRun⟩ = .ok (st, k, l))
      (hrow : row ∈ st.added) : Adds scale P order found row
  | cycle {sv : Solver} {q : Int} {x : Nat → Int} {m : Nat} {ids : List Nat} {st : SepState} {row : Row}
      (hon : P.cycleCover = true) (hx : LpSolution P q x) (hc : IsComponents P.graph x m ids)
      (h : separateCycleCover sv P.graph P.graph.hasVar P.prize P.quota P.root m ids ⟨[], [], .didNotRun⟩ = .ok st)
      (hrow : row ∈ st.added) : Adds scale P order found row
  | cover {dist : Nat → Int} {y : Nat → Int} {rows : List Row} {row : Row} (hdist : dist ∈ P.covers) (hy : y ∈ found)
      (h : separateThenAddCostCover P.graph P.graph.hasVar P.root dist (objective P.graph P.cost y / scale) = .ok rows)
      (hrow : row ∈ rows) : Adds scale P order found row

/-- The answer of the solver: `found` are the solutions that were found on the way, `added` the rows. -/
structure ScipSpec (scale : Int) (P : Problem) (order : List Nat) (o : ScipOutcome) : Prop where
  best : ∀ y, o.best = some y → Accepted P order y
  added : ∃ (found : List (Nat → Int)) (added : List Row),
    (∀ z ∈ found, Accepted P order z ∧ ∃ y, o.best = some y ∧ objective P.graph P.cost y ≤ objective P.graph P.cost z) ∧
    (∀ row ∈ added, Adds scale P order found row) ∧
    (o.status = .optimal → ∃ y, o.best = some y ∧ ∀ z, Accepted P order z → (∀ row ∈ added, row.Sat z) →
      objective P.graph P.cost y ≤ objective P.graph P.cost z) ∧
    (o.status = .infeasible → o.best = none ∧ ∀ z, Accepted P order z → ∃ row ∈ added, ¬ row.Sat z)

/-- A start solution that passes every check is kept: the best solution is no worse.  This is not part of `ScipSpec`; it is assumed where it is used. -/
def KeepsStart (P : Problem) (order : List Nat) (o : ScipOutcome) : Prop :=
  ∀ vars, P.warm = some vars → Accepted P order (heuristicSol vars) →
    ∃ y, o.best = some y ∧ objective P.graph P.cost y ≤ objective P.graph P.cost (heuristicSol vars)

/-- A tour from the root with at least three vertices that meets the quota. -/
structure Feas (g : Graph) (prize : Nat → Int) (quota : Int) (root : Nat) (t : List Nat) : Prop where
  tour : IsTour g root t
  three : 4 ≤ t.length
  prize : quota ≤ tourPrize prize t

/-- No vertex of the tour is further from the root than the bound: the distances given by the caller, and twice the length of a shortest walk. -/
def Within (g : Graph) (cost : Nat → Int) (root : Nat) (o : SolveOptions) (disjoint : Nat → Int) (b : Int) (t : List Nat) : Prop :=
  ∀ v ∈ t, (o.coverDisjoint = true → disjoint v ≤ b) ∧ (o.coverShortest = true → ∃ d, Reaches g cost (fun _ => false) root v d ∧ 2 * d ≤ b)

/-- The rows that are made from a start solution of cost `ub` keep the tour; there are none if it costs nothing. -/
def Trusted (g : Graph) (cost : Nat → Int) (root : Nat) (o : SolveOptions) (disjoint : Nat → Int) (ub : Int) (t : List Nat) : Prop :=
  0 < ub → Within g cost root o disjoint ub t

variable {α : Type}

/-- A tour from the root with at least three vertices that meets the quota. -/
structure FeasibleIn (es : List (α × α)) (π : α → Int) (quota : Int) (root : α) (t : List α) : Prop where
  tour : IsTourIn es root t
  three : 4 ≤ t.length
  prize : quota ≤ namedPrize π t

/-- No vertex of the tour is further from the root than the bound: the distances given by the caller, and twice the length of a shortest walk. -/
def WithinIn (es : List (α × α)) (w : α → α → Int) (root : α) (o : SolveOptions) (disjoint : List (α × Int)) (b : Int) (t : List α) : Prop :=
  ∀ x ∈ t, (o.coverDisjoint = true → ∀ c, (x, c) ∈ disjoint → c ≤ b) ∧
    (o.coverShortest = true → ∃ l, (root :: l).getLast? = some x ∧ (∀ p ∈ consec (root :: l), AdjIn es p.1 p.2) ∧ 2 * namedCost w (root :: l) ≤ b)

/-- No vertex of the tour is further from the root than the cost of the start solution admits: the rows that are made from it keep the tour. -/
def TrustedIn (es : List (α × α)) (w : α → α → Int) (root : α) (o : SolveOptions) (disjoint : List (α × Int)) (ub : Int) (t : List α) : Prop :=
  0 < ub → WithinIn es w root o disjoint ub t

/-- The pairs are the edges of the closed walk, each once, in any order and direction. -/
def EdgesOfTour (t : List α) (ps : List (α × α)) : Prop := ∃ qs : List (α × α), qs.Perm (consec t) ∧ List.Forall₂ SameEdge ps qs

end Pctsp
