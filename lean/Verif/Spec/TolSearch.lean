import Verif.Spec.Search
import Verif.Spec.Tolerance
import Verif.Model.TolEvent

/-!
# Branch and cut with tolerances

The search of `Spec/Search.lean` in numbers that are not exact: solutions of LP relaxations satisfy bounds and rows up to the tolerance `tol`, variables
that a node fixes have their values up to `fix`, the library takes a value for positive if it exceeds `eps`, solutions are accepted up to `tol`, and a node
is dropped if it has no solution that is better than the best one by more than `gap`.  SCIP's statements about what does not exist (the relaxation of a node
is infeasible, or too expensive) are taken to be true.  The bound that the event of a new best solution hands to the cost covers is the objective value up to
`gap`.
-/

namespace Pctsp

/-- The numbers: SCIP's `numerics/epsilon`, `numerics/feastol`, the tolerance for fixed variables, and the gap. -/
structure Tolerances where
  eps : Rat
  tol : Rat
  fix : Rat
  gap : Rat

/-- The state of the search, as in `Search`; solutions have rational values. -/
structure TolSearch where
  nodes : List (List (Nat × Bool))
  rows : List Row
  found : List (Nat → Rat)

/-- At the beginning there is the root node. -/
def TolSearch.init : TolSearch := ⟨[[]], [], []⟩

/-- What SCIP takes for a solution of the LP relaxation of the node with these additional rows. -/
structure NodeTol (T : Tolerances) (P : Problem) (more : List Row) (n : List (Nat × Bool)) (z : Nat → Rat) : Prop where
  bounds : ∀ e < P.graph.edges.length, -T.tol ≤ z e ∧ z e ≤ 1 + T.tol
  rows : ∀ row ∈ P.rows, row.SatTol T.tol z
  added : ∀ row ∈ more, row.SatTol T.tol z
  node : ∀ p ∈ n, |z p.1 - (bit p.2 : Rat)| ≤ T.fix

/-- What the separators see of the solution `z`: the values that the library takes for positive, over a common denominator. -/
structure Shown (eps : Rat) (P : Problem) (z : Nat → Rat) (q : Int) (x : Nat → Int) : Prop where
  pos : 0 < q
  val : ∀ e < P.graph.edges.length, (x e : Rat) = if isVarPositive eps z e then q * z e else 0

/-- A new solution has a smaller objective value than the best one. -/
def TolSearch.Better (s : TolSearch) (P : Problem) (y : Nat → Rat) : Prop :=
  ∀ b, s.found.head? = some b → objectiveQ P.graph P.cost y < objectiveQ P.graph P.cost b

/-- A new best solution is found, and the event adds rows. -/
def TolSearch.improved (s : TolSearch) (y : Nat → Rat) (rows : List Row) : TolSearch := { s with found := y :: s.found, rows := s.rows ++ rows }

/-- The rows are some of those that the cost cover handlers add for the new best solution. -/
def CoverRows (gap : Rat) (P : Problem) (y : Nat → Rat) (rows : List Row) : Prop :=
  ∃ u all, |u - objectiveQ P.graph P.cost y| ≤ gap ∧ tolEventRows P u = .ok all ∧ rows ⊆ all

/-- The solutions that the search still has to find, or to beat: exact ones that are better than the best one by more than the gap. -/
structure TolSearch.Wanted (s : TolSearch) (gap : Rat) (P : Problem) (order : List Nat) (z : Nat → Int) : Prop where
  accepted : Accepted P order z
  better : ∀ b, s.found.head? = some b → (objective P.graph P.cost z : Rat) + gap < objectiveQ P.graph P.cost b

/-- Facts about the solutions of interest in a node, which SCIP's own techniques may use. -/
def TolSearch.Valid (s : TolSearch) (gap : Rat) (P : Problem) (order : List Nat) (n : List (Nat × Bool)) (own : List Row) : Prop :=
  ∀ z, s.Wanted gap P order z → InNode n 1 z → ∀ row ∈ own, row.Sat z

/-- A row is only called infeasible in a node if no binary vector in the node satisfies it. -/
def SaysInfeasible (P : Problem) (n : List (Nat × Bool)) (sv : Solver) : Prop :=
  ∀ added row, sv.infeasible added row = true → ∀ z, (∀ e < P.graph.edges.length, z e = 0 ∨ z e = 1) → InNode n 1 z → ¬ row.Sat z

/-- The search goes on after a separation round. -/
def TolSearch.separated (s : TolSearch) (l r : List (List (Nat × Bool))) (n : List (Nat × Bool)) (st : SepState) : TolSearch :=
  { s with nodes := if st.result = .cutoff then l ++ r else l ++ n :: r, rows := s.rows ++ st.added }

/-- One step of the search. -/
inductive TolStep (T : Tolerances) (P : Problem) (order : List Nat) : TolSearch → TolSearch → Prop
  /-- A solution passes the checks and is the best so far. -/
  | checked {s : TolSearch} {y : Nat → Rat} {new : List Row} (hy : AcceptedTol T.eps T.tol P.graph order P.rows y) (hb : s.Better P y)
      (hnew : CoverRows T.gap P y new) : TolStep T P order s (s.improved y new)
  /-- An integral solution of the LP relaxation of a node passes the enforcement callbacks and is the best so far. -/
  | enforced {s : TolSearch} {l r : List (List (Nat × Bool))} {n : List (Nat × Bool)} {kept : List Row} {z : Nat → Rat}
      {G : Type} {sub : G → G → G} {lt : G → G → Bool} {threshold gap : G} {m : Int} {windows : List (List G)} {node : Nat} {lpOk : Bool}
      {a : Enfo × List (List G)} {new : List Row} (hs : s.nodes = l ++ n :: r) (hk : kept ⊆ s.rows) (hz : NodeTol T P kept n z)
      (hint : ∀ e < P.graph.edges.length, NearBinary T.tol (z e))
      (ha : enforceSubtour sub lt threshold m windows P.graph order (isVarPositive T.eps z) node gap lpOk = .ok a)
      (hpass : Pctsp.enforced P.cycleCover a.1 = true) (hb : s.Better P z) (hnew : CoverRows T.gap P z new) :
      TolStep T P order s (s.improved z new)
  /-- The LP relaxation of a node has no solution. -/
  | infeasible {s : TolSearch} {l r : List (List (Nat × Bool))} {n : List (Nat × Bool)} {kept own : List Row} (hs : s.nodes = l ++ n :: r)
      (hk : kept ⊆ s.rows) (hown : s.Valid T.gap P order n own) (hno : ∀ q x, ¬ NodeLp P (kept ++ own) n q x) :
      TolStep T P order s { s with nodes := l ++ r }
  /-- No integral value that the LP relaxation of a node allows is better than the best solution by more than the gap. -/
  | bound {s : TolSearch} {l r : List (List (Nat × Bool))} {n : List (Nat × Bool)} {kept own : List Row} {b : Nat → Rat} (hs : s.nodes = l ++ n :: r)
      (hk : kept ⊆ s.rows) (hown : s.Valid T.gap P order n own) (hb : s.found.head? = some b)
      (hlow : ∀ q x (v : Int), NodeLp P (kept ++ own) n q x → objective P.graph P.cost x ≤ q * v → objectiveQ P.graph P.cost b ≤ v + T.gap) :
      TolStep T P order s { s with nodes := l ++ r }
  /-- The separators of the subtour handler add rows. -/
  | subtour {s : TolSearch} {l r : List (List (Nat × Bool))} {n : List (Nat × Bool)} {kept : List Row} {z : Nat → Rat} {q : Int} {x : Nat → Int}
      {sv : Solver} {flow : MaxFlow} {visit : Visit} {m k i : Nat} {ids : List Nat} {st : SepState} (hs : s.nodes = l ++ n :: r) (hk : kept ⊆ s.rows)
      (hz : NodeTol T P kept n z) (hx : Shown T.eps P z q x) (hsv : SaysInfeasible P n sv) (hvisit : ∀ es v, visit es v v = true)
      (hc : IsComponents P.graph x m ids)
      (h : sepalp sv P.graph P.graph.hasVar flow visit order q x P.root m ids P.secDisjoint P.secMaxflow ⟨[], [], .didNotRun⟩ = .ok (st, k, i)) :
      TolStep T P order s (s.separated l r n st)
  /-- The separator of the cycle cover handler adds a row. -/
  | cycle {s : TolSearch} {l r : List (List (Nat × Bool))} {n : List (Nat × Bool)} {kept : List Row} {z : Nat → Rat} {q : Int} {x : Nat → Int}
      {sv : Solver} {m : Nat} {ids : List Nat} {st : SepState} (hs : s.nodes = l ++ n :: r) (hk : kept ⊆ s.rows) (hon : P.cycleCover = true)
      (hz : NodeTol T P kept n z) (hx : Shown T.eps P z q x) (hsv : SaysInfeasible P n sv) (hc : IsComponents P.graph x m ids)
      (h : separateCycleCover sv P.graph P.graph.hasVar P.prize P.quota P.root m ids ⟨[], [], .didNotRun⟩ = .ok st) :
      TolStep T P order s (s.separated l r n st)
  /-- A node is split at a variable. -/
  | branch {s : TolSearch} {l r : List (List (Nat × Bool))} {n : List (Nat × Bool)} {e : Nat} (hs : s.nodes = l ++ n :: r)
      (he : e < P.graph.edges.length) : TolStep T P order s { s with nodes := l ++ ((e, false) :: n) :: ((e, true) :: n) :: r }
  /-- A variable is fixed because all solutions of interest have the value. -/
  | tighten {s : TolSearch} {l r : List (List (Nat × Bool))} {n : List (Nat × Bool)} {e : Nat} {b : Bool} (hs : s.nodes = l ++ n :: r)
      (he : e < P.graph.edges.length) (hall : ∀ z, s.Wanted T.gap P order z → InNode n 1 z → z e = bit b) :
      TolStep T P order s { s with nodes := l ++ ((e, b) :: n) :: r }
  /-- All variables are fixed and a handler does not let the solution pass. -/
  | rejected {s : TolSearch} {l r : List (List (Nat × Bool))} {n : List (Nat × Bool)} {kept : List Row} {z : Nat → Rat}
      {G : Type} {sub : G → G → G} {lt : G → G → Bool} {threshold gap : G} {m : Int} {windows : List (List G)} {node : Nat} {lpOk : Bool}
      {a : Enfo × List (List G)} (hs : s.nodes = l ++ n :: r) (hk : kept ⊆ s.rows) (hz : NodeTol T P kept n z)
      (hfix : ∀ e < P.graph.edges.length, e ∈ n.map Prod.fst)
      (ha : enforceSubtour sub lt threshold m windows P.graph order (isVarPositive T.eps z) node gap lpOk = .ok a)
      (hpass : Pctsp.enforced P.cycleCover a.1 = false) : TolStep T P order s { s with nodes := l ++ r }

/-- Any number of steps. -/
inductive TolSteps (T : Tolerances) (P : Problem) (order : List Nat) : TolSearch → TolSearch → Prop
  | refl {s : TolSearch} : TolSteps T P order s s
  | next {s t u : TolSearch} (h : TolSteps T P order s t) (h' : TolStep T P order t u) : TolSteps T P order s u

/-- The status that SCIP reports when it stops in the state. -/
def TolSearch.status (s : TolSearch) : ScipStatus := if s.nodes = [] then (if s.found = [] then .infeasible else .optimal) else .other

/-- The outcome in exact numbers: the best solution is rounded. -/
def TolSearch.outcome (s : TolSearch) : ScipOutcome := ⟨s.status, s.found.head?.map roundBin⟩

end Pctsp
