import Verif.Lemmas.SolveBind
import Mathlib.Data.Int.LeastGreatest

/-!
# C88, C89: the branch and cut solver
-/

namespace Pctsp

variable {α : Type} [DecidableEq α]

/-- **C88.** The solver, from the arguments of the Python caller to the edges it gets back.  `ub` is the cost of the start solution.  The tours
that can be returned are the feasible tours that the rows made from the start solution keep, and `infeasible` means that there are none.  If the distances of the
caller are no more than the cost of the feasible tours through the vertex, every feasible tour that costs no more than the start solution is kept; and an
optimal answer costs the least among the tours that are kept, provided that SCIP does not scale the objective function or no cost cover rows are on (C89). -/
theorem C88_answer {es heur : List (α × α)} {costs : List ((α × α) × Int)} {prizes : List (α × Int)} {w : α → α → Int} {π δ : α → Int}
    (h : Describes es costs prizes w π) (hno : ∀ e ∈ es, e.1 ≠ e.2) (hw : ∀ x y, 0 ≤ w x y) {quota : Int} {root : α} (hroot : root ∈ endpoints es)
    (hheur : ∀ p ∈ heur, AdjIn es p.1 p.2) (o : SolveOptions) {disjoint : List (α × Int)} (hkeys : ∀ x c, (x, c) ∈ disjoint → c = δ x ∧ x ∈ endpoints es)
    {pick : Pick} (hpick : pick.Heap) {scip : Problem → ScipOutcome} {order : Nat → List Nat} (ho : ∀ n, (order n).Perm (List.range n))
    {k : Int} (hscip : ∀ P, ScipSpec k P (order P.graph.edges.length) (scip P))
    (hreach : o.coverShortest = true → ∀ x ∈ endpoints es, ∃ l, (root :: l).getLast? = some x ∧ (∀ p ∈ consec (root :: l), AdjIn es p.1 p.2) ∧
      namedCost w (root :: l) ≤ 1073741823)
    (hprize : o.cycleCover = true → ∀ x, 0 ≤ π x) {ub : Int} (hub : ub = (heur.map fun p => w p.1 p.2).sum) :
    ∃ st ps, solveBind scip order es heur costs prizes quota root o disjoint pick = .ok (st, ps) ∧
      (ps = [] ∨ ∃ t, FeasibleIn es π quota root t ∧ TrustedIn es w root o disjoint ub t ∧ EdgesOfTour t ps) ∧
      (st = .optimal → ∃ t, FeasibleIn es π quota root t ∧ TrustedIn es w root o disjoint ub t ∧ EdgesOfTour t ps ∧
        ((k = 1 ∨ (o.coverDisjoint = false ∧ o.coverShortest = false)) →
          (o.coverDisjoint = true → ∀ x c, (x, c) ∈ disjoint → ∀ t, FeasibleIn es π quota root t → x ∈ t → c ≤ namedCost w t) →
          ∀ t', FeasibleIn es π quota root t' → TrustedIn es w root o disjoint ub t' → namedCost w t ≤ namedCost w t')) ∧
      (st = .infeasible → ps = [] ∧ ∀ t, FeasibleIn es π quota root t → ¬ TrustedIn es w root o disjoint ub t) ∧
      ((o.coverDisjoint = true → ∀ x c, (x, c) ∈ disjoint → ∀ t, FeasibleIn es π quota root t → x ∈ t → c ≤ namedCost w t) →
        ∀ t, FeasibleIn es π quota root t → namedCost w t ≤ ub → TrustedIn es w root o disjoint ub t) := by
  obtain ⟨st, ps, h1, h2, h3, h4, h5, -⟩ := solve_named h hno hw (quota := quota) hroot hheur o hkeys hpick ho hscip hreach hprize hub
  refine ⟨st, ps, h1, h2, fun hst => ?_, h4, h5⟩
  obtain ⟨t, a, b, c, d, -⟩ := h3 hst
  exact ⟨t, a, b, c, d⟩

/-- **C88.** If no cost cover rows are made from the start solution, or it costs at least as much as some feasible tour: the solver returns the
edges of a feasible tour or nothing, an answer with the status `optimal` costs the least among all feasible tours, and the status `infeasible` is only
given if there is no feasible tour. -/
theorem C88_solve {es heur : List (α × α)} {costs : List ((α × α) × Int)} {prizes : List (α × Int)} {w : α → α → Int} {π δ : α → Int}
    (h : Describes es costs prizes w π) (hno : ∀ e ∈ es, e.1 ≠ e.2) (hw : ∀ x y, 0 ≤ w x y) {quota : Int} {root : α} (hroot : root ∈ endpoints es)
    (hheur : ∀ p ∈ heur, AdjIn es p.1 p.2) (o : SolveOptions) {disjoint : List (α × Int)} (hkeys : ∀ x c, (x, c) ∈ disjoint → c = δ x ∧ x ∈ endpoints es)
    {pick : Pick} (hpick : pick.Heap) {scip : Problem → ScipOutcome} {order : Nat → List Nat} (ho : ∀ n, (order n).Perm (List.range n))
    {k : Int} (hk : k = 1 ∨ (o.coverDisjoint = false ∧ o.coverShortest = false)) (hscip : ∀ P, ScipSpec k P (order P.graph.edges.length) (scip P))
    (hreach : o.coverShortest = true → ∀ x ∈ endpoints es, ∃ l, (root :: l).getLast? = some x ∧ (∀ p ∈ consec (root :: l), AdjIn es p.1 p.2) ∧
      namedCost w (root :: l) ≤ 1073741823)
    (hprize : o.cycleCover = true → ∀ x, 0 ≤ π x)
    (hdis : o.coverDisjoint = true → ∀ x c, (x, c) ∈ disjoint → ∀ t, FeasibleIn es π quota root t → x ∈ t → c ≤ namedCost w t)
    (hub : o.coverDisjoint = true ∨ o.coverShortest = true → 0 < (heur.map fun p => w p.1 p.2).sum → (∃ t, FeasibleIn es π quota root t) →
      ∃ t, FeasibleIn es π quota root t ∧ namedCost w t ≤ (heur.map fun p => w p.1 p.2).sum) :
    ∃ st ps, solveBind scip order es heur costs prizes quota root o disjoint pick = .ok (st, ps) ∧
      (ps = [] ∨ ∃ t, FeasibleIn es π quota root t ∧ EdgesOfTour t ps) ∧
      (st = .optimal → ∃ t, FeasibleIn es π quota root t ∧ EdgesOfTour t ps ∧ ∀ t', FeasibleIn es π quota root t' → namedCost w t ≤ namedCost w t') ∧
      (st = .infeasible → ps = [] ∧ ∀ t, ¬ FeasibleIn es π quota root t) := by
  obtain ⟨st, ps, h1, h2, h3, h4, h5⟩ := C88_answer h hno hw (quota := quota) hroot hheur o hkeys hpick ho hscip hreach hprize rfl
  have h5 := h5 hdis
  have hall : (¬ (o.coverDisjoint = true ∨ o.coverShortest = true) ∨ ¬ 0 < (heur.map fun p => w p.1 p.2).sum) →
      ∀ t, TrustedIn es w root o disjoint (heur.map fun p => w p.1 p.2).sum t := by
    intro hc t hpos x _
    rcases hc with hc | hc
    · exact ⟨fun hon => absurd (Or.inl hon) hc, fun hon => absurd (Or.inr hon) hc⟩
    · exact absurd hpos hc
  refine ⟨st, ps, h1, ?_, fun hst => ?_, fun hst => ?_⟩
  · rcases h2 with h2 | ⟨t, a, -, b⟩
    · exact Or.inl h2
    · exact Or.inr ⟨t, a, b⟩
  · obtain ⟨t, a, -, b, hmin⟩ := h3 hst
    have hmin := hmin hk hdis
    refine ⟨t, a, b, fun t' ht' => ?_⟩
    by_cases hc : (o.coverDisjoint = true ∨ o.coverShortest = true) ∧ 0 < (heur.map fun p => w p.1 p.2).sum
    · obtain ⟨t₀, ht₀, hle⟩ := hub hc.1 hc.2 ⟨t, a⟩
      by_cases hle' : namedCost w t' ≤ (heur.map fun p => w p.1 p.2).sum
      · exact hmin t' ht' (h5 t' ht' hle')
      · have := hmin t₀ ht₀ (h5 t₀ ht₀ hle)
        omega
    · exact hmin t' ht' (hall (by rw [not_and_or] at hc; exact hc) t')
  · obtain ⟨a, hnone⟩ := h4 hst
    refine ⟨a, fun t ht => ?_⟩
    by_cases hc : (o.coverDisjoint = true ∨ o.coverShortest = true) ∧ 0 < (heur.map fun p => w p.1 p.2).sum
    · obtain ⟨t₀, ht₀, hle⟩ := hub hc.1 hc.2 ⟨t, ht⟩
      exact hnone t₀ ht₀ (h5 t₀ ht₀ hle)
    · exact hnone t ht (hall (by rw [not_and_or] at hc; exact hc) t)

/-- **C88.** Every problem has an answer that the specification of the solver admits, with the status `optimal` or `infeasible`. -/
theorem C88_solver_exists (scale : Int) (P : Problem) (order : List Nat) : ∃ a, ScipSpec scale P order a ∧ (a.status = .optimal ∨ a.status = .infeasible) := by
  by_cases hex : ∃ y, Accepted P order y
  · have hbdd : ∃ b, ∀ z, (∃ y, Accepted P order y ∧ objective P.graph P.cost y = z) → b ≤ z := by
      refine ⟨((List.range P.graph.edges.length).map fun e => min 0 (P.cost e)).sum, ?_⟩
      rintro _ ⟨y, hy, rfl⟩
      rw [objective]
      refine List.sum_le_sum fun e he => ?_
      rcases hy.binary e (List.mem_range.1 he) with h | h <;> rw [h] <;> omega
    obtain ⟨y₀, hy₀⟩ := hex
    obtain ⟨_, ⟨y, hy, rfl⟩, hmin⟩ := Int.exists_least_of_bdd hbdd ⟨_, y₀, hy₀, rfl⟩
    refine ⟨⟨.optimal, some y⟩, ⟨fun z hz => by cases hz; exact hy, [], [], by simp, by simp, fun _ => ⟨y, rfl, fun z hz _ => hmin _ ⟨z, hz, rfl⟩⟩, by simp⟩,
      Or.inl rfl⟩
  · refine ⟨⟨.infeasible, none⟩, ⟨by simp, [], [], by simp, by simp, by simp, fun _ => ⟨rfl, fun z hz => absurd ⟨z, hz⟩ hex⟩⟩, Or.inr rfl⟩

/-- A solver that meets the specification and always decides the problem. -/
theorem exists_scip (scale : Int) (order : Nat → List Nat) : ∃ scip : Problem → ScipOutcome, ∀ P,
    ScipSpec scale P (order P.graph.edges.length) (scip P) ∧ ((scip P).status = .optimal ∨ (scip P).status = .infeasible) := by
  choose f hf using fun P : Problem => C88_solver_exists scale P (order P.graph.edges.length)
  exact ⟨f, hf⟩

/-- **C88.** The callbacks are defined on everything that the solver can call them with: on every solution of the linear relaxation neither separator
throws or runs into undefined behaviour, and the cost cover events are defined for every upper bound. -/
theorem C88_callbacks {g : Graph} {cost : Nat → Int} (hg : g.WF) (hno : ∀ e ∈ g.edges, e.1 ≠ e.2) (hs : (g.edges.map und).Nodup)
    (hc : ∀ e < g.edges.length, 0 ≤ cost e) {heur : List Nat} (hheur : ∀ e ∈ heur, e < g.edges.length) (prize : Nat → Int) (quota : Int) {root : Nat}
    (hroot : root < g.n) (o : SolveOptions) (disjoint : Nat → Int) {pick : Pick} (hpick : pick.Heap)
    (hreach : o.coverShortest = true → ∀ v < g.n, ∃ d, Reaches g cost (fun _ => false) root v d ∧ d ≤ 1073741823)
    (hprize : o.cycleCover = true → ∀ v < g.n, 0 ≤ prize v) :
    ∃ P, buildProblem g heur cost prize quota root o disjoint pick = .ok P ∧
      (∀ {sv : Solver} {flow : MaxFlow} {visit : Visit} {order : List Nat} {q : Int} {x : Nat → Int} {m : Nat} {ids : List Nat} (st : SepState),
        (∀ es s, visit es s s = true) → order.Perm (List.range P.graph.edges.length) → LpSolution P q x → IsComponents P.graph x m ids →
        (∃ r, sepalp sv P.graph P.graph.hasVar flow visit order q x P.root m ids P.secDisjoint P.secMaxflow st = .ok r) ∧
        (P.cycleCover = true → ∃ r, separateCycleCover sv P.graph P.graph.hasVar P.prize P.quota P.root m ids st = .ok r)) ∧
      ∀ dist ub, ∃ rows, separateThenAddCostCover P.graph P.graph.hasVar P.root dist ub = .ok rows := by
  obtain ⟨P, h1, hB⟩ := buildProblem_ok hg hno hs hc hheur prize quota hroot o disjoint hpick hreach
  have hS := hB.loops.simple hg hno hs
  have hroot' : P.root < P.graph.n := by rw [hB.root, hB.loops.n]; exact hroot
  obtain ⟨rows, crows, h2, h3, -⟩ := hB.rows
  refine ⟨P, h1, ?_, fun dist ub => ?_⟩
  · intro sv flow visit order q x m ids st hv ho hx hcomp
    refine ⟨?_, fun hon => ?_⟩
    · obtain ⟨st', rs, rs', a, -⟩ := C68_round sv hS flow hv ho q hroot' hcomp
        (lp_connected hS hroot' (by rw [hB.prize, hB.quota, hB.root]; exact h2) h3 hx) P.secDisjoint P.secMaxflow st
      exact ⟨_, a⟩
    · obtain ⟨vs, -, -, a, b⟩ := C37_valid sv hS.loops (prize := P.prize) (by
        rw [hB.prize, hB.loops.n]; exact hprize (by rw [← hB.cycleCover]; exact hon)) P.quota hroot' (isComponents_labels hcomp) st
      by_cases hq : P.quota ≤ prizeSum P.prize vs
      · exact ⟨_, a hq⟩
      · obtain ⟨st', row', c, -⟩ := b (by omega)
        exact ⟨_, c⟩
  · obtain ⟨rs, h4, -⟩ := costCover_rows hS.loops hroot' dist ub
    exact ⟨rs, h4⟩

/-! ### A start solution that is too cheap -/

/-- Two triangles that share the vertex 0. -/
def exBow : List (Nat × Nat) := [(0, 1), (1, 2), (2, 0), (0, 3), (3, 4), (4, 0)]

/-- The triangle 0, 1, 2 costs 13 and the triangle 0, 3, 4 costs 10. -/
def exBowCost (x y : Nat) : Int := match min x y, max x y with
  | 0, 1 => 2 | 1, 2 => 9 | 0, 2 => 2 | 0, 3 => 4 | 3, 4 => 2 | 0, 4 => 4 | _, _ => 0

theorem exBow_describes : Describes exBow (exBow.map fun p => (p, exBowCost p.1 p.2)) ((List.range 5).map fun v => (v, 1)) exBowCost (fun _ => 1) where
  distinct := by decide
  symm x y := by rw [exBowCost, exBowCost, min_comm, max_comm]
  costOk p c h := by
    have : ∀ q ∈ exBow.map fun p => (p, exBowCost p.1 p.2), q.2 = exBowCost q.1.1 q.1.2 ∧ AdjIn exBow q.1.1 q.1.2 := by decide
    exact this _ h
  allCosts e he := ⟨e, _, List.mem_map.2 ⟨e, he, rfl⟩, Or.inl rfl⟩
  prizeOk x c h := by
    have : ∀ q ∈ (List.range 5).map fun v => (v, (1 : Int)), q.2 = 1 ∧ q.1 ∈ endpoints exBow := by decide
    exact this _ h
  allPrizes := by
    have : ∀ x ∈ endpoints exBow, (x, (1 : Int)) ∈ (List.range 5).map fun v => (v, (1 : Int)) := by decide
    exact fun x hx => ⟨1, this x hx⟩

theorem exBowCost_nonneg (x y : Nat) : 0 ≤ exBowCost x y := by unfold exBowCost; split <;> decide

theorem exBow_reach : ∀ x ∈ endpoints exBow, ∃ l, (0 :: l).getLast? = some x ∧ (∀ p ∈ consec (0 :: l), AdjIn exBow p.1 p.2) ∧
    namedCost exBowCost (0 :: l) ≤ 1073741823 := by
  have h : ∀ x ∈ endpoints exBow, (x = 0 ∨ AdjIn exBow 0 x) ∧ exBowCost 0 x ≤ 1073741823 := by decide
  intro x hx
  obtain ⟨h1 | h1, h2⟩ := h x hx
  · exact ⟨[], by simp [h1], by simp [consec], by simp [consec, namedCost]⟩
  · exact ⟨[x], by simp, by simpa [consec] using h1, by simpa [consec, namedCost] using h2⟩

/-- A walk from the root to a vertex other than 0, 1, 2 costs at least 4. -/
theorem exBow_far (l : List Nat) : ∀ s x, (s :: l).getLast? = some x → (∀ p ∈ consec (s :: l), AdjIn exBow p.1 p.2) →
    (if x ≤ 2 then 0 else 4) ≤ (if s ≤ 2 then 0 else 4) + namedCost exBowCost (s :: l) := by
  induction l with
  | nil => intro s x h _; simp at h; subst h; simp [namedCost, consec]
  | cons y l ih =>
    intro s x h hw
    have h1 := ih y x (by simpa using h) fun p hp => hw p (by rw [consec_cons_cons]; exact List.mem_cons_of_mem _ hp)
    have h2 := hw (s, y) (by rw [consec_cons_cons]; exact List.mem_cons_self)
    have h3 : ∀ a ∈ endpoints exBow, ∀ b ∈ endpoints exBow, AdjIn exBow a b →
        (if b ≤ 2 then (0 : Int) else 4) ≤ (if a ≤ 2 then 0 else 4) + exBowCost a b := by decide
    have h4 : s ∈ endpoints exBow ∧ y ∈ endpoints exBow := by
      simp only [endpoints, List.mem_flatMap]
      rcases h2 with h2 | h2
      · exact ⟨⟨_, h2, by simp⟩, ⟨_, h2, by simp⟩⟩
      · exact ⟨⟨_, h2, by simp⟩, ⟨_, h2, by simp⟩⟩
    have h5 := h3 s h4.1 y h4.2 h2
    have h6 : namedCost exBowCost (s :: y :: l) = exBowCost s y + namedCost exBowCost (y :: l) := by simp [namedCost, consec_cons_cons]
    omega

theorem exTriangles {m : List Nat} (hnd : (0 :: m).Nodup) (hlen : 2 ≤ m.length) (hle : ∀ v ∈ m, v ≤ 2) : m = [1, 2] ∨ m = [2, 1] := by
  match m, hlen with
  | a :: b :: rest, _ =>
    simp only [List.nodup_cons, List.mem_cons, not_or] at hnd
    have ha := hle a (by simp)
    have hb := hle b (by simp)
    cases rest with
    | nil => simp; omega
    | cons c rest =>
      have hc := hle c (by simp)
      simp only [List.mem_cons, not_or] at hnd
      omega

/-- **C88.** The cost of the start solution is trusted.  Here it consists of two edges of cost 2: the rows that are made from it remove the vertices
3 and 4, and with the status `optimal` the solver returns the tour of cost 13 although there is one of cost 10. -/
theorem C88_misled : FeasibleIn exBow (fun _ => 1) 3 0 [0, 3, 4, 0] ∧ namedCost exBowCost [0, 3, 4, 0] = 10 ∧
    ∀ (o : SolveOptions) (scip : Problem → ScipOutcome) (order : Nat → List Nat), o.coverShortest = true → o.coverDisjoint = false →
      (∀ n, (order n).Perm (List.range n)) → (∀ P, ScipSpec 1 P (order P.graph.edges.length) (scip P)) →
      ∃ st ps, solveBind scip order exBow [(0, 1), (2, 0)] (exBow.map fun p => (p, exBowCost p.1 p.2)) ((List.range 5).map fun v => (v, 1)) 3 0 o [] exPick
          = .ok (st, ps) ∧ st ≠ .infeasible ∧ (ps = [] ∨ EdgesOfTour [0, 1, 2, 0] ps ∨ EdgesOfTour [0, 2, 1, 0] ps) ∧ (st = .optimal → ps ≠ []) ∧
          namedCost exBowCost [0, 1, 2, 0] = 13 ∧ namedCost exBowCost [0, 2, 1, 0] = 13 := by
  refine ⟨⟨⟨⟨[3, 4], rfl⟩, by decide, by decide⟩, by decide, by decide⟩, by decide, fun o scip order hon hoff ho hscip => ?_⟩
  obtain ⟨st, ps, h1, h2, h3, h4, h5⟩ := C88_answer (δ := fun _ => 0) exBow_describes (by decide)
    exBowCost_nonneg (quota := 3) (root := 0) (by decide) (heur := [(0, 1), (2, 0)]) (by decide) o (disjoint := [])
    (by simp) exPick_heap ho hscip (fun _ => exBow_reach) (by simp) (ub := 4) (by decide)
  have key : ∀ t, FeasibleIn exBow (fun _ => 1) 3 0 t → TrustedIn exBow exBowCost 0 o [] 4 t → t = [0, 1, 2, 0] ∨ t = [0, 2, 1, 0] := by
    intro t ht hT
    obtain ⟨m, rfl⟩ := ht.tour.shape
    have hnd := ht.tour.nodup
    have hd : (0 :: (m ++ [0])).dropLast = 0 :: m := by rw [← List.cons_append, List.dropLast_concat]
    rw [hd] at hnd
    have hlen := ht.three
    simp only [List.length_cons, List.length_append, List.length_nil] at hlen
    rcases exTriangles hnd (by omega) (fun v hv => by
      obtain ⟨l, l1, l2, l3⟩ := (hT (by decide) v (by simp [hv])).2 hon
      have h6 := exBow_far l 0 v l1 l2
      by_contra hc
      rw [if_neg hc] at h6
      simp at h6
      omega) with rfl | rfl <;> simp
  have hyes : TrustedIn exBow exBowCost 0 o [] 4 [0, 1, 2, 0] := by
    intro _ x hx
    refine ⟨by simp [hoff], fun _ => ?_⟩
    have hx' : x = 0 ∨ x = 1 ∨ x = 2 := by simp at hx; omega
    rcases hx' with rfl | rfl | rfl
    · exact ⟨[], by decide⟩
    · exact ⟨[1], by decide⟩
    · exact ⟨[2], by decide⟩
  have hfeas : FeasibleIn exBow (fun _ => 1) 3 0 [0, 1, 2, 0] := ⟨⟨⟨[1, 2], rfl⟩, by decide, by decide⟩, by decide, by decide⟩
  refine ⟨st, ps, h1, fun hst => (h4 hst).2 _ hfeas hyes, ?_, fun hst => ?_, by decide, by decide⟩
  · rcases h2 with h2 | ⟨t, ht, hT, hps⟩
    · exact Or.inl h2
    · rcases key t ht hT with rfl | rfl
      · exact Or.inr (Or.inl hps)
      · exact Or.inr (Or.inr hps)
  · obtain ⟨t, ht, hT, ⟨qs, hq, hps⟩, -⟩ := h3 hst
    rintro rfl
    have := hps.length_eq
    have := hq.length_eq
    have hl := ht.three
    simp [consec] at *
    omega

/-- The status is the one of the solver. -/
theorem solveBind_status {scip : Problem → ScipOutcome} {order : Nat → List Nat} {es heur : List (α × α)} {costs : List ((α × α) × Int)}
    {prizes : List (α × Int)} {quota : Int} {root : α} {o : SolveOptions} {disjoint : List (α × Int)} {pick : Pick} {st : ScipStatus} {ps : List (α × α)}
    (h : solveBind scip order es heur costs prizes quota root o disjoint pick = .ok (st, ps)) : ∃ P, st = (scip P).status := by
  rw [solveBind] at h
  obtain ⟨_, -, h⟩ := Res.bind_eq_ok.1 h
  obtain ⟨_, -, h⟩ := Res.bind_eq_ok.1 h
  obtain ⟨_, -, h⟩ := Res.bind_eq_ok.1 h
  obtain ⟨_, -, h⟩ := Res.bind_eq_ok.1 h
  obtain ⟨_, -, h⟩ := Res.bind_eq_ok.1 h
  obtain ⟨_, -, h⟩ := Res.bind_eq_ok.1 h
  obtain ⟨⟨st', ps'⟩, h1, h⟩ := Res.bind_eq_ok.1 h
  obtain ⟨_, -, h⟩ := Res.bind_eq_ok.1 h
  cases h
  rw [solvePCTSP] at h1
  obtain ⟨P, -, h1⟩ := Res.bind_eq_ok.1 h1
  obtain ⟨_, -, h1⟩ := Res.bind_eq_ok.1 h1
  cases h1
  exact ⟨P, rfl⟩

/-- The hypotheses of C88_solve hold for a start solution that is a tour. -/
example : ∃ scip : Problem → ScipOutcome, ∃ ps, solveBind scip List.range exBow [(0, 1), (1, 2), (2, 0)] (exBow.map fun p => (p, exBowCost p.1 p.2))
      ((List.range 5).map fun v => (v, 1)) 3 0 ⟨true, true, true, true, true⟩ [(1, 0), (4, 0)] exPick = .ok (.optimal, ps) ∧
      ∃ t, FeasibleIn exBow (fun _ => 1) 3 0 t ∧ EdgesOfTour t ps ∧ namedCost exBowCost t ≤ 10 := by
  obtain ⟨scip, hscip⟩ := exists_scip 1 List.range
  have hf1 : FeasibleIn exBow (fun _ => 1) 3 0 [0, 1, 2, 0] := ⟨⟨⟨[1, 2], rfl⟩, by decide, by decide⟩, by decide, by decide⟩
  have hf2 : FeasibleIn exBow (fun _ => 1) 3 0 [0, 3, 4, 0] := ⟨⟨⟨[3, 4], rfl⟩, by decide, by decide⟩, by decide, by decide⟩
  obtain ⟨st, ps, h1, -, h2, h3⟩ := C88_solve (δ := fun _ => 0) exBow_describes (by decide) exBowCost_nonneg (quota := 3) (root := 0) (by decide)
    (heur := [(0, 1), (1, 2), (2, 0)]) (by decide) ⟨true, true, true, true, true⟩ (disjoint := [(1, 0), (4, 0)])
    (fun x c h => by
      have : ∀ q ∈ [(1, (0 : Int)), (4, 0)], q.2 = 0 ∧ q.1 ∈ endpoints exBow := by decide
      exact this _ h) exPick_heap (fun n => List.Perm.refl _) (Or.inl rfl) (fun P => (hscip P).1) (fun _ => exBow_reach) (by simp)
    (fun _ x c hx t _ _ => by
      have h0 : c = 0 := by
        have : ∀ q ∈ [(1, (0 : Int)), (4, 0)], q.2 = 0 := by decide
        exact this _ hx
      rw [h0]
      refine List.sum_nonneg fun y hy => ?_
      obtain ⟨p, -, rfl⟩ := List.mem_map.1 hy
      exact exBowCost_nonneg _ _) (fun _ _ _ => ⟨_, hf1, by decide⟩)
  obtain ⟨P, hP⟩ := solveBind_status h1
  have hst : st = .optimal := by
    rcases (hscip P).2 with h | h
    · rw [hP, h]
    · exact absurd hf1 ((h3 (by rw [hP, h])).2 _)
  subst hst
  obtain ⟨t, h4, h5, h6⟩ := h2 rfl
  exact ⟨scip, ps, h1, t, h4, h5, h6 _ hf2⟩

end Pctsp
