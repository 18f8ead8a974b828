import Verif.Model.Enforce
import Verif.Spec.Scip

/-!
# Branch and cut

The steps that SCIP's search is made of, and where it calls the plug-ins of the library: solutions of LP relaxations are handed to the separators and,
when they are to be accepted, to the enforcement callbacks; solutions from elsewhere (the start solution, SCIP's heuristics) are handed to the check
callbacks; a new best solution raises an event.  Everything else that SCIP does (its own cuts, propagation, conflict analysis, bounds from reduced
costs) is covered by steps that may use any fact which holds for all solutions that are still of interest.
-/

namespace Pctsp

/-- The state of the search: the open nodes, each given by the variables that it fixes; the rows that the plug-ins have added; the solutions that
were the best when they were found, the newest first. -/
structure Search where
  nodes : List (List (Nat × Bool))
  rows : List Row
  found : List (Nat → Int)

/-- At the beginning there is the root node. -/
def Search.init : Search := ⟨[[]], [], []⟩

/-- The value of a fixed variable. -/
def bit (b : Bool) : Int := if b then 1 else 0

/-- `x / q` has the values that the node fixes. -/
def InNode (n : List (Nat × Bool)) (q : Int) (x : Nat → Int) : Prop := ∀ p ∈ n, x p.1 = q * bit p.2

/-- `x / q` solves the LP relaxation of the node with these additional rows. -/
structure NodeLp (P : Problem) (rows : List Row) (n : List (Nat × Bool)) (q : Int) (x : Nat → Int) : Prop where
  lp : LpSolution P q x
  rows : ∀ row ∈ rows, row.SatScaled q x
  node : InNode n q x

/-- The vector costs less than the best solution so far. -/
def Search.Better (s : Search) (P : Problem) (y : Nat → Int) : Prop := ∀ b, s.found.head? = some b → objective P.graph P.cost y < objective P.graph P.cost b

/-- The solutions that the search still has to find, or to beat. -/
structure Search.Wanted (s : Search) (P : Problem) (order : List Nat) (z : Nat → Int) : Prop where
  accepted : Accepted P order z
  rows : ∀ row ∈ s.rows, row.Sat z
  better : s.Better P z

/-- Facts about the solutions of interest in a node, which SCIP's own techniques may use. -/
def Search.Valid (s : Search) (P : Problem) (order : List Nat) (n : List (Nat × Bool)) (own : List Row) : Prop :=
  ∀ z, s.Wanted P order z → InNode n 1 z → ∀ row ∈ own, row.Sat z

/-- What SCIP tells a separator about rows, called in a node with the solution `x / q`: an efficacious row is violated by the solution, and a row is
only called infeasible if no binary vector in the node satisfies it. -/
structure HonestAt (P : Problem) (n : List (Nat × Bool)) (q : Int) (x : Nat → Int) (sv : Solver) : Prop where
  efficacious : ∀ row, sv.efficacious row = true → ¬ row.SatScaled q x
  infeasible : ∀ added row, sv.infeasible added row = true → ∀ z, (∀ e < P.graph.edges.length, z e = 0 ∨ z e = 1) → InNode n 1 z → ¬ row.Sat z

/-- The search goes on after a separation round: the rows are added, and the node is dropped if the round reported a cutoff. -/
def Search.separated (s : Search) (l r : List (List (Nat × Bool))) (n : List (Nat × Bool)) (st : SepState) : Search :=
  { s with nodes := if st.result = .cutoff then l ++ r else l ++ n :: r, rows := s.rows ++ st.added }

/-- A new best solution: the event handlers add their rows. -/
def Search.improved (s : Search) (y : Nat → Int) (rows : List Row) : Search := { s with rows := s.rows ++ rows, found := y :: s.found }

/-- How the search is run.  `keep`: no row is taken out of the LP relaxation while it is needed; otherwise the LP relaxation of a node has any part of
the rows that were added.  `extra`: SCIP also uses heuristics, and facts of its own about the solutions of interest. -/
structure SearchMode where
  keep : Bool
  extra : Bool

/-- One step of the search.  `scale` is the divisor of the objective function of the transformed problem. -/
inductive Step (mode : SearchMode) (scale : Int) (P : Problem) (order : List Nat) : Search → Search → Prop
  /-- A solution passes the checks and is the best so far.  Events are only caught while the problem is solved, so some or all rows may be missing. -/
  | checked {s : Search} {y : Nat → Int} {all rows : List Row} (hextra : mode.extra = true) (hy : Accepted P order y) (hb : s.Better P y)
      (hr : eventRows P (objective P.graph P.cost y / scale) = .ok all) (hsub : rows ⊆ all) : Step mode scale P order s (s.improved y rows)
  /-- An integral solution of the LP relaxation of a node passes the enforcement callbacks and is the best so far. -/
  | enforced {s : Search} {l r : List (List (Nat × Bool))} {n : List (Nat × Bool)} {kept all rows : List Row} {q : Int}
      {x y : Nat → Int} {G : Type} {sub : G → G → G} {lt : G → G → Bool} {threshold gap : G} {m : Int} {windows : List (List G)} {node : Nat} {lpOk : Bool}
      {a : Enfo × List (List G)} (hs : s.nodes = l ++ n :: r) (hk : kept ⊆ s.rows) (hkeep : mode.keep = true → kept = s.rows) (hx : NodeLp P kept n q x)
      (hint : ∀ e < P.graph.edges.length, x e = q * y e)
      (ha : enforceSubtour sub lt threshold m windows P.graph order (fun e => decide (0 < x e)) node gap lpOk = .ok a)
      (hpass : Pctsp.enforced P.cycleCover a.1 = true) (hb : s.Better P y)
      (hr : eventRows P (objective P.graph P.cost y / scale) = .ok all) (hsub : rows ⊆ all) : Step mode scale P order s (s.improved y rows)
  /-- The LP relaxation of a node has no solution. -/
  | infeasible {s : Search} {l r : List (List (Nat × Bool))} {n : List (Nat × Bool)} {kept own : List Row} (hs : s.nodes = l ++ n :: r)
      (hk : kept ⊆ s.rows) (hextra : mode.extra = false → own = []) (hown : s.Valid P order n own) (hno : ∀ q x, ¬ NodeLp P (kept ++ own) n q x) :
      Step mode scale P order s { s with nodes := l ++ r }
  /-- The LP relaxation of a node costs more than a better solution could: costs are multiples of `scale`. -/
  | bound {s : Search} {l r : List (List (Nat × Bool))} {n : List (Nat × Bool)} {kept own : List Row} {b : Nat → Int} (hs : s.nodes = l ++ n :: r)
      (hk : kept ⊆ s.rows) (hextra : mode.extra = false → own = []) (hown : s.Valid P order n own) (hb : s.found.head? = some b)
      (hlow : ∀ q x, NodeLp P (kept ++ own) n q x → q * (objective P.graph P.cost b - scale) < objective P.graph P.cost x) :
      Step mode scale P order s { s with nodes := l ++ r }
  /-- The separators of the subtour handler add rows. -/
  | subtour {s : Search} {l r : List (List (Nat × Bool))} {n : List (Nat × Bool)} {kept : List Row} {q : Int} {x : Nat → Int} {sv : Solver}
      {flow : MaxFlow} {visit : Visit} {m k i : Nat} {ids : List Nat} {st : SepState} (hs : s.nodes = l ++ n :: r) (hk : kept ⊆ s.rows)
      (hkeep : mode.keep = true → kept = s.rows) (hx : NodeLp P kept n q x) (hsv : HonestAt P n q x sv) (hvisit : ∀ es v, visit es v v = true)
      (hc : IsComponents P.graph x m ids)
      (h : sepalp sv P.graph P.graph.hasVar flow visit order q x P.root m ids P.secDisjoint P.secMaxflow ⟨[], [], .didNotRun⟩ = .ok (st, k, i))
      (hne : st.added ≠ []) : Step mode scale P order s (s.separated l r n st)
  /-- The separator of the cycle cover handler adds a row. -/
  | cycle {s : Search} {l r : List (List (Nat × Bool))} {n : List (Nat × Bool)} {kept : List Row} {q : Int} {x : Nat → Int} {sv : Solver}
      {m : Nat} {ids : List Nat} {st : SepState} (hs : s.nodes = l ++ n :: r) (hk : kept ⊆ s.rows) (hkeep : mode.keep = true → kept = s.rows)
      (hon : P.cycleCover = true) (hx : NodeLp P kept n q x) (hsv : HonestAt P n q x sv) (hc : IsComponents P.graph x m ids)
      (h : separateCycleCover sv P.graph P.graph.hasVar P.prize P.quota P.root m ids ⟨[], [], .didNotRun⟩ = .ok st)
      (hne : st.added ≠ []) : Step mode scale P order s (s.separated l r n st)
  /-- A node is split at a variable that is not fixed. -/
  | branch {s : Search} {l r : List (List (Nat × Bool))} {n : List (Nat × Bool)} {e : Nat} (hs : s.nodes = l ++ n :: r)
      (he : e < P.graph.edges.length) (hfree : e ∉ n.map Prod.fst) :
      Step mode scale P order s { s with nodes := l ++ ((e, false) :: n) :: ((e, true) :: n) :: r }
  /-- A variable is fixed because all solutions of interest have the value. -/
  | tighten {s : Search} {l r : List (List (Nat × Bool))} {n : List (Nat × Bool)} {e : Nat} {b : Bool} (hextra : mode.extra = true)
      (hs : s.nodes = l ++ n :: r)
      (he : e < P.graph.edges.length) (hfree : e ∉ n.map Prod.fst) (hall : ∀ z, s.Wanted P order z → InNode n 1 z → z e = bit b) :
      Step mode scale P order s { s with nodes := l ++ ((e, b) :: n) :: r }
  /-- All variables are fixed and a handler does not let the solution pass. -/
  | rejected {s : Search} {l r : List (List (Nat × Bool))} {n : List (Nat × Bool)} {kept : List Row} {q : Int} {x : Nat → Int}
      {G : Type} {sub : G → G → G} {lt : G → G → Bool} {threshold gap : G} {m : Int} {windows : List (List G)} {node : Nat} {lpOk : Bool}
      {a : Enfo × List (List G)} (hs : s.nodes = l ++ n :: r) (hk : kept ⊆ s.rows) (hx : NodeLp P kept n q x)
      (hfix : ∀ e < P.graph.edges.length, e ∈ n.map Prod.fst)
      (ha : enforceSubtour sub lt threshold m windows P.graph order (fun e => decide (0 < x e)) node gap lpOk = .ok a)
      (hpass : Pctsp.enforced P.cycleCover a.1 = false) : Step mode scale P order s { s with nodes := l ++ r }

/-- A number of steps. -/
inductive Steps (mode : SearchMode) (scale : Int) (P : Problem) (order : List Nat) : Nat → Search → Search → Prop
  | zero {s : Search} : Steps mode scale P order 0 s s
  | next {k : Nat} {s t u : Search} (h : Steps mode scale P order k s t) (h' : Step mode scale P order t u) : Steps mode scale P order (k + 1) s u

/-- The state in which the search starts: SCIP has checked the start solution, if there is one. -/
inductive Search.Start (scale : Int) (P : Problem) (order : List Nat) : Search → Prop
  | plain (h : ∀ vars, P.warm = some vars → ¬ Accepted P order (heuristicSol vars)) : Search.Start scale P order Search.init
  | warm {vars : List Nat} {all rows : List Row} (h : P.warm = some vars) (hy : Accepted P order (heuristicSol vars))
      (hr : eventRows P (objective P.graph P.cost (heuristicSol vars) / scale) = .ok all) (hsub : rows ⊆ all) :
      Search.Start scale P order (Search.init.improved (heuristicSol vars) rows)

/-- What SCIP reports when it stops in the state: with no open node the best solution is optimal, or there is none; otherwise a limit was hit. -/
def Search.outcome (s : Search) : ScipOutcome :=
  ⟨if s.nodes = [] then (if s.found = [] then .infeasible else .optimal) else .other, s.found.head?⟩

/-- The answer of a search that may stop at any time. -/
def SearchAnswer (mode : SearchMode) (scale : Int) (P : Problem) (order : List Nat) (o : ScipOutcome) : Prop :=
  ∃ k s t, Search.Start scale P order s ∧ Steps mode scale P order k s t ∧ o = t.outcome

end Pctsp
