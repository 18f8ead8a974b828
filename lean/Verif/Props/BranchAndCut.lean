import Verif.Lemmas.SearchSolve
import Verif.Props.Start

/-!
# C137: branch and cut with the callbacks of the library

The answer of the solver is not assumed here: it is the outcome of a search whose steps (`Step`) are what SCIP does with the callbacks.
-/

namespace Pctsp

variable {α : Type} [DecidableEq α]

/-- The problem that the library builds, and its size. -/
theorem search_built {g : Graph} {cost : Nat → Int} (hg : g.WF) (hno : ∀ e ∈ g.edges, e.1 ≠ e.2) (hs : (g.edges.map und).Nodup)
    (hc : ∀ e < g.edges.length, 0 ≤ cost e) {heur : List Nat} (hheur : ∀ e ∈ heur, e < g.edges.length) (prize : Nat → Int) (quota : Int) {root : Nat}
    (hroot : root < g.n) (o : SolveOptions) (disjoint : Nat → Int) {pick : Pick} (hpick : pick.Heap)
    (hreach : o.coverShortest = true → ∀ v < g.n, ∃ d, Reaches g cost (fun _ => false) root v d ∧ d ≤ 1073741823)
    (hprize : o.cycleCover = true → ∀ v < g.n, 0 ≤ prize v) :
    ∃ P, buildProblem g heur cost prize quota root o disjoint pick = .ok P ∧ (∃ ub, Sound P ub) ∧ P.graph.n = g.n ∧
      P.graph.edges.length = g.edges.length + g.n ∧
      ∀ k : Int, (∀ e < g.edges.length, k ∣ cost e) → ∀ e < P.graph.edges.length, k ∣ P.cost e := by
  obtain ⟨P, h1, hB⟩ := buildProblem_ok hg hno hs hc hheur prize quota hroot o disjoint hpick hreach
  obtain ⟨hsnd, -⟩ := hB.sound hpick hg hno hs hc hroot hreach hprize
  have hlen : P.graph.edges.length = g.edges.length + g.n := by simp [hB.loops.edges]
  refine ⟨P, h1, ⟨_, hsnd⟩, hB.loops.n, hlen, fun k hk e he => ?_⟩
  by_cases hlt : e < g.edges.length
  · rw [hB.loops.old e hlt]
    exact hk e hlt
  · have hget : P.graph.edges[e]? = some (e - g.edges.length, e - g.edges.length) := by
      rw [hB.loops.edges, List.getElem?_append_right (by omega), List.getElem?_map, List.getElem?_range (by omega)]
      rfl
    rw [hB.loops.loop _ _ hget]
    exact dvd_zero k

/-- **C137.** An integral solution of the LP relaxation that passes the enforcement callbacks would pass every check: the subtour check and, although
the enforcement callbacks of the cycle cover handler do nothing, the cycle cover check.  And no solution that passes every check is rejected by the
enforcement callbacks. -/
theorem C137_enforced {g : Graph} {cost : Nat → Int} (hg : g.WF) (hno : ∀ e ∈ g.edges, e.1 ≠ e.2) (hs : (g.edges.map und).Nodup)
    (hc : ∀ e < g.edges.length, 0 ≤ cost e) {heur : List Nat} (hheur : ∀ e ∈ heur, e < g.edges.length) (prize : Nat → Int) (quota : Int) {root : Nat}
    (hroot : root < g.n) (o : SolveOptions) (disjoint : Nat → Int) {pick : Pick} (hpick : pick.Heap)
    (hreach : o.coverShortest = true → ∀ v < g.n, ∃ d, Reaches g cost (fun _ => false) root v d ∧ d ≤ 1073741823)
    (hprize : o.cycleCover = true → ∀ v < g.n, 0 ≤ prize v) :
    ∃ P, buildProblem g heur cost prize quota root o disjoint pick = .ok P ∧
      ∀ {order : List Nat} {q : Int} {x y : Nat → Int} {G : Type} {sub : G → G → G} {lt : G → G → Bool} {threshold gap : G} {m : Int}
        {windows : List (List G)} {node : Nat} {lpOk : Bool}, order.Perm (List.range P.graph.edges.length) → LpSolution P q x →
        (∀ e < P.graph.edges.length, x e = q * y e) →
        ∃ a, enforceSubtour sub lt threshold m windows P.graph order (fun e => decide (0 < x e)) node gap lpOk = .ok a ∧
          (enforced P.cycleCover a.1 = true ↔ Accepted P order y) := by
  obtain ⟨P, h1, ⟨ub, hsnd⟩, -⟩ := search_built hg hno hs hc hheur prize quota hroot o disjoint hpick hreach hprize
  refine ⟨P, h1, fun {order q x y G sub lt threshold gap m windows node lpOk} ho hx hxy => ?_⟩
  obtain ⟨ps, b, -, hb, -⟩ := C30_isSimpleCycle_iff P.graph (getSolutionEdges P.graph order fun e => decide (0 < x e)) (by
    intro e he
    simp only [getSolutionEdges, List.mem_filter] at he
    obtain ⟨-, he⟩ := he
    split at he
    · rename_i p hp
      exact (List.getElem?_eq_some_iff.1 hp).1
    · simp at he)
  have ha : enforceSubtour sub lt threshold m windows P.graph order (fun e => decide (0 < x e)) node gap lpOk =
      .ok (enfolp sub lt threshold m windows b node gap lpOk) := by
    rw [enforceSubtour, hb]; rfl
  refine ⟨_, ha, fun hp => ?_, fun hy => enforced_iff.2 ?_⟩
  · have h2 := enforceSubtour_ok ha
    rw [enforced_iff.1 hp] at h2
    exact hsnd.enforced_accepted ho hx hxy (by simpa using h2)
  · have h2 := enforceSubtour_ok ha
    have h3 : isSimpleCycle P.graph (getSolutionEdges P.graph order fun e => decide (0 < x e)) = .ok true := by
      rw [← secCheck_feasible.1 hy.subtour]
      congr 1
      refine getSolutionEdges_congr fun e he => ?_
      rw [hxy e he]
      exact decide_eq_decide.2 (mul_pos_iff_of_pos_left hx.pos)
    rw [h2] at h3
    simpa using h3

/-- **C137.** Whatever the search does, and whenever it stops, its answer is what the solver is assumed to answer elsewhere (C88, C93): a status
`optimal` or `infeasible` is justified up to the rows that the callbacks added, and the start solution is kept. -/
theorem C137_answer {g : Graph} {cost : Nat → Int} (hg : g.WF) (hno : ∀ e ∈ g.edges, e.1 ≠ e.2) (hs : (g.edges.map und).Nodup)
    (hc : ∀ e < g.edges.length, 0 ≤ cost e) {heur : List Nat} (hheur : ∀ e ∈ heur, e < g.edges.length) (prize : Nat → Int) (quota : Int) {root : Nat}
    (hroot : root < g.n) (o : SolveOptions) (disjoint : Nat → Int) {pick : Pick} (hpick : pick.Heap)
    (hreach : o.coverShortest = true → ∀ v < g.n, ∃ d, Reaches g cost (fun _ => false) root v d ∧ d ≤ 1073741823)
    (hprize : o.cycleCover = true → ∀ v < g.n, 0 ≤ prize v) {scale : Int} (hscale : 0 < scale) (hdvd : ∀ e < g.edges.length, scale ∣ cost e) :
    ∃ P, buildProblem g heur cost prize quota root o disjoint pick = .ok P ∧
      ∀ {mode : SearchMode} {order : List Nat} {a : ScipOutcome}, order.Perm (List.range P.graph.edges.length) → SearchAnswer mode scale P order a →
        ScipSpec scale P order a ∧ KeepsStart P order a := by
  obtain ⟨P, h1, ⟨ub, hsnd⟩, -, -, h2⟩ := search_built hg hno hs hc hheur prize quota hroot o disjoint hpick hreach hprize
  exact ⟨P, h1, fun ho ha => ha.spec hsnd ho hscale (h2 scale hdvd)⟩

/-- **C137.** The search never gets stuck: as long as a node is open there is a step that needs no heuristic and no fact that SCIP finds by itself.  If
no row is taken out of the LP relaxations, the number of steps is bounded by the size of the graph, and every search can be brought to an end. -/
theorem C137_ends {g : Graph} {cost : Nat → Int} (hg : g.WF) (hno : ∀ e ∈ g.edges, e.1 ≠ e.2) (hs : (g.edges.map und).Nodup)
    (hc : ∀ e < g.edges.length, 0 ≤ cost e) {heur : List Nat} (hheur : ∀ e ∈ heur, e < g.edges.length) (prize : Nat → Int) (quota : Int) {root : Nat}
    (hroot : root < g.n) (o : SolveOptions) (disjoint : Nat → Int) {pick : Pick} (hpick : pick.Heap)
    (hreach : o.coverShortest = true → ∀ v < g.n, ∃ d, Reaches g cost (fun _ => false) root v d ∧ d ≤ 1073741823)
    (hprize : o.cycleCover = true → ∀ v < g.n, 0 ≤ prize v) {scale : Int} (hscale : 0 < scale) (hdvd : ∀ e < g.edges.length, scale ∣ cost e) :
    ∃ P, buildProblem g heur cost prize quota root o disjoint pick = .ok P ∧
      ∀ {order : List Nat}, order.Perm (List.range P.graph.edges.length) → (∃ s, Search.Start scale P order s) ∧
        ∀ {mode : SearchMode} {s t : Search} {k : Nat}, Search.Start scale P order s → Steps mode scale P order k s t →
          (t.nodes ≠ [] → ∃ u, Step ⟨mode.keep, false⟩ scale P order t u) ∧
          (mode.keep = true → k < 3 * 2 ^ (g.edges.length + g.n) + (g.n + 1) * 2 ^ g.n ∧
            ∃ k' u, Steps mode scale P order k' t u ∧ u.nodes = []) := by
  obtain ⟨P, h1, ⟨ub, hsnd⟩, hn, hlen, h2⟩ := search_built hg hno hs hc hheur prize quota hroot o disjoint hpick hreach hprize
  refine ⟨P, h1, fun {order} ho => ⟨hsnd.start scale order, fun {mode s t k} hst h => ⟨fun hopen => ?_, fun hkeep => ⟨?_, ?_⟩⟩⟩⟩
  · exact (Steps.inv hsnd ho hscale (h2 scale hdvd) hst.inv h).progress hsnd ho hscale (h.nodesOk hst.nodesOk) hopen
  · have := h.bounded hsnd ho hscale (h2 scale hdvd) hkeep hst
    rwa [hn, hlen] at this
  · obtain ⟨k', u, -, h4, h5⟩ := h.finish hsnd ho hscale (h2 scale hdvd) hkeep hst
    exact ⟨k', u, h5, h4⟩

/-- **C137.** With the search as the solver: what the bindings return is nothing or a feasible tour, the status `optimal` and the status `infeasible`
are right under the conditions of C88; and without a time limit the status is one of the two. -/
theorem C137_solve {es heur : List (α × α)} {costs : List ((α × α) × Int)} {prizes : List (α × Int)} {w : α → α → Int} {π δ : α → Int}
    (h : Describes es costs prizes w π) (hno : ∀ e ∈ es, e.1 ≠ e.2) (hw : ∀ x y, 0 ≤ w x y) {quota : Int} {root : α} (hroot : root ∈ endpoints es)
    (hheur : ∀ p ∈ heur, AdjIn es p.1 p.2) (o : SolveOptions) {disjoint : List (α × Int)} (hkeys : ∀ x c, (x, c) ∈ disjoint → c = δ x ∧ x ∈ endpoints es)
    {pick : Pick} (hpick : pick.Heap) {scip : Problem → ScipOutcome} {order : Nat → List Nat} (ho : ∀ n, (order n).Perm (List.range n))
    {k : Int} (hpos : 0 < k) (hdvd : ∀ x y, k ∣ w x y) (hk : k = 1 ∨ (o.coverDisjoint = false ∧ o.coverShortest = false)) {mode : SearchMode}
    (hscip : ∀ P ub, Sound P ub → SearchAnswer mode k P (order P.graph.edges.length) (scip P))
    (hreach : o.coverShortest = true → ∀ x ∈ endpoints es, ∃ l, (root :: l).getLast? = some x ∧ (∀ p ∈ consec (root :: l), AdjIn es p.1 p.2) ∧
      namedCost w (root :: l) ≤ 1073741823)
    (hprize : o.cycleCover = true → ∀ x, 0 ≤ π x)
    (hdis : o.coverDisjoint = true → ∀ x c, (x, c) ∈ disjoint → ∀ t, FeasibleIn es π quota root t → x ∈ t → c ≤ namedCost w t)
    (hub : o.coverDisjoint = true ∨ o.coverShortest = true → 0 < (heur.map fun p => w p.1 p.2).sum → (∃ t, FeasibleIn es π quota root t) →
      ∃ t, FeasibleIn es π quota root t ∧ namedCost w t ≤ (heur.map fun p => w p.1 p.2).sum) :
    ∃ st ps, solveBind scip order es heur costs prizes quota root o disjoint pick = .ok (st, ps) ∧
      (ps = [] ∨ ∃ t, FeasibleIn es π quota root t ∧ EdgesOfTour t ps) ∧
      (st = .optimal → ∃ t, FeasibleIn es π quota root t ∧ EdgesOfTour t ps ∧ ∀ t', FeasibleIn es π quota root t' → namedCost w t ≤ namedCost w t') ∧
      (st = .infeasible → ps = [] ∧ ∀ t, ¬ FeasibleIn es π quota root t) ∧
      ((∀ P ub, Sound P ub → ∃ m s t, Search.Start k P (order P.graph.edges.length) s ∧ Steps mode k P (order P.graph.edges.length) m s t ∧
        t.nodes = [] ∧ scip P = t.outcome) → st = .optimal ∨ st = .infeasible) := by
  classical
  obtain ⟨P, hP, hcongr, hstat⟩ := solveBind_posed h hno hw quota hroot hheur o hkeys hpick hreach hprize order
  obtain ⟨f, hf⟩ := exists_scip_keeps k order
  obtain ⟨st, ps, h1, h2, h3, h4⟩ := C88_solve (scip := fun P => if Posed w P then scip P else f P) h hno hw (quota := quota) hroot hheur o hkeys hpick ho
    hk (fun P => by
      split
      · rename_i hp
        obtain ⟨ub, hsnd⟩ := hp.sound
        exact ((hscip P ub hsnd).spec hsnd (ho _) hpos fun e he => by
          rcases hp.cost e he with h | ⟨x, y, h⟩ <;> rw [h]
          · exact dvd_zero k
          · exact hdvd x y).1
      · exact (hf P).1) hreach hprize hdis hub
  rw [hcongr _ scip (by simp [hP])] at h1
  refine ⟨st, ps, h1, h2, h3, h4, fun hend => ?_⟩
  obtain ⟨ub, hsnd⟩ := hP.sound
  obtain ⟨m, s, t, -, -, ht, hout⟩ := hend P ub hsnd
  rw [hstat scip st ps h1, hout]
  simp only [Search.outcome, ht, if_true]
  split <;> simp

/-- **C137.** With the search as the solver: a start solution that is a feasible tour is never lost, even if the search is stopped early. -/
theorem C137_kept {es heur : List (α × α)} {costs : List ((α × α) × Int)} {prizes : List (α × Int)} {w : α → α → Int} {π δ : α → Int}
    (h : Describes es costs prizes w π) (hno : ∀ e ∈ es, e.1 ≠ e.2) (hw : ∀ x y, 0 ≤ w x y) {quota : Int} {root : α} (hroot : root ∈ endpoints es)
    (o : SolveOptions) {disjoint : List (α × Int)} (hkeys : ∀ x c, (x, c) ∈ disjoint → c = δ x ∧ x ∈ endpoints es)
    {pick : Pick} (hpick : pick.Heap) {scip : Problem → ScipOutcome} {order : Nat → List Nat} (ho : ∀ n, (order n).Perm (List.range n))
    {k : Int} (hpos : 0 < k) (hdvd : ∀ x y, k ∣ w x y) {mode : SearchMode}
    (hscip : ∀ P ub, Sound P ub → SearchAnswer mode k P (order P.graph.edges.length) (scip P))
    (hreach : o.coverShortest = true → ∀ x ∈ endpoints es, ∃ l, (root :: l).getLast? = some x ∧ (∀ p ∈ consec (root :: l), AdjIn es p.1 p.2) ∧
      namedCost w (root :: l) ≤ 1073741823)
    (hprize : o.cycleCover = true → ∀ x, 0 ≤ π x)
    (hdis : o.coverDisjoint = true → ∀ x c, (x, c) ∈ disjoint → ∀ t, FeasibleIn es π quota root t → x ∈ t → c ≤ namedCost w t)
    {t : List α} (ht : FeasibleIn es π quota root t) (hheur : EdgesOfTour t heur) :
    ∃ st ps t', solveBind scip order es heur costs prizes quota root o disjoint pick = .ok (st, ps) ∧ st ≠ .infeasible ∧
      FeasibleIn es π quota root t' ∧ EdgesOfTour t' ps ∧ namedCost w t' ≤ namedCost w t := by
  classical
  have hadj : ∀ p ∈ heur, AdjIn es p.1 p.2 := by
    intro p hp
    obtain ⟨qs, h1, h2⟩ := hheur
    obtain ⟨q, hq, hpq⟩ := forall₂_left_mem h2 hp
    have := ht.tour.walk q (h1.mem_iff.1 hq)
    rcases hpq with rfl | rfl
    · exact this
    · exact this.symm
  obtain ⟨P, hP, hcongr, -⟩ := solveBind_posed h hno hw quota hroot hadj o hkeys hpick hreach hprize order
  obtain ⟨f, hf⟩ := exists_scip_keeps k order
  have hspec : ∀ P, ScipSpec k P (order P.graph.edges.length) (if Posed w P then scip P else f P) ∧
      KeepsStart P (order P.graph.edges.length) (if Posed w P then scip P else f P) := by
    intro P
    split
    · rename_i hp
      obtain ⟨ub, hsnd⟩ := hp.sound
      exact (hscip P ub hsnd).spec hsnd (ho _) hpos fun e he => by
        rcases hp.cost e he with h | ⟨x, y, h⟩ <;> rw [h]
        · exact dvd_zero k
        · exact hdvd x y
    · exact ⟨(hf P).1, (hf P).2.1⟩
  have := C93_kept (scip := fun P => if Posed w P then scip P else f P) h hno hw (quota := quota) hroot o hkeys hpick ho (fun P => (hspec P).1)
    (fun P => (hspec P).2) hreach hprize hdis ht hheur
  rwa [hcongr _ scip (by simp [hP])] at this

/-! ### Examples -/

/-- A solver that searches to the end. -/
theorem exists_search (mode : SearchMode) (hkeep : mode.keep = true) (order : Nat → List Nat) (ho : ∀ n, (order n).Perm (List.range n)) :
    ∃ scip : Problem → ScipOutcome, ∀ P ub, Sound P ub → ∃ k s t, Search.Start 1 P (order P.graph.edges.length) s ∧
      Steps mode 1 P (order P.graph.edges.length) k s t ∧ t.nodes = [] ∧ scip P = t.outcome := by
  have : ∀ P, ∃ a, ∀ ub, Sound P ub → ∃ k s t, Search.Start 1 P (order P.graph.edges.length) s ∧
      Steps mode 1 P (order P.graph.edges.length) k s t ∧ t.nodes = [] ∧ a = t.outcome := by
    intro P
    by_cases hsnd : ∃ ub, Sound P ub
    · obtain ⟨ub, hsnd⟩ := hsnd
      obtain ⟨s, hs⟩ := hsnd.start 1 (order P.graph.edges.length)
      obtain ⟨k, t, h1, h2, -⟩ := (Steps.zero (mode := mode) (s := s)).finish hsnd (ho _) (by omega) (fun e _ => one_dvd _) hkeep hs
      exact ⟨_, fun _ _ => ⟨_, s, t, hs, h1, h2, rfl⟩⟩
    · exact ⟨⟨.other, none⟩, fun ub h => absurd ⟨ub, h⟩ hsnd⟩
  choose f hf using this
  exact ⟨f, hf⟩

/-- The hypotheses of C137_solve hold for two triangles that share the root and a start solution; the search finds the cheaper triangle. -/
example : ∃ scip : Problem → ScipOutcome, ∃ ps, solveBind scip List.range exBow [(0, 1), (1, 2), (2, 0)] (exBow.map fun p => (p, exBowCost p.1 p.2))
      ((List.range 5).map fun v => (v, 1)) 3 0 ⟨true, true, true, true, true⟩ [(1, 0), (4, 0)] exPick = .ok (.optimal, ps) ∧
      ∃ t, FeasibleIn exBow (fun _ => 1) 3 0 t ∧ EdgesOfTour t ps ∧ namedCost exBowCost t ≤ 10 := by
  obtain ⟨scip, hscip⟩ := exists_search ⟨true, false⟩ rfl List.range fun _ => List.Perm.refl _
  have hf1 : FeasibleIn exBow (fun _ => 1) 3 0 [0, 1, 2, 0] := ⟨⟨⟨[1, 2], rfl⟩, by decide, by decide⟩, by decide, by decide⟩
  have hf2 : FeasibleIn exBow (fun _ => 1) 3 0 [0, 3, 4, 0] := ⟨⟨⟨[3, 4], rfl⟩, by decide, by decide⟩, by decide, by decide⟩
  obtain ⟨st, ps, h1, -, h2, h3, h4⟩ := C137_solve (δ := fun _ => 0) exBow_describes (by decide) exBowCost_nonneg (quota := 3) (root := 0) (by decide)
    (heur := [(0, 1), (1, 2), (2, 0)]) (by decide) ⟨true, true, true, true, true⟩ (disjoint := [(1, 0), (4, 0)])
    (fun x c h => by
      have : ∀ q ∈ [(1, (0 : Int)), (4, 0)], q.2 = 0 ∧ q.1 ∈ endpoints exBow := by decide
      exact this _ h) exPick_heap (fun n => List.Perm.refl _) (k := 1) (by omega) (fun _ _ => one_dvd _) (Or.inl rfl) (mode := ⟨true, false⟩)
    (fun P ub hP => by
      obtain ⟨k, s, t, a, b, -, c⟩ := hscip P ub hP
      exact ⟨k, s, t, a, b, c⟩) (fun _ => exBow_reach) (by simp)
    (fun _ x c hx t _ _ => by
      have h0 : c = 0 := by
        have : ∀ q ∈ [(1, (0 : Int)), (4, 0)], q.2 = 0 := by decide
        exact this _ hx
      rw [h0]
      refine List.sum_nonneg fun y hy => ?_
      obtain ⟨p, -, rfl⟩ := List.mem_map.1 hy
      exact exBowCost_nonneg _ _) (fun _ _ _ => ⟨_, hf1, by decide⟩)
  rcases h4 hscip with rfl | rfl
  · obtain ⟨t, h5, h6, h7⟩ := h2 rfl
    exact ⟨scip, ps, h1, t, h5, h6, h7 _ hf2⟩
  · exact absurd hf1 ((h3 rfl).2 _)

/-- Two triangles and an edge between them, without the loops. -/
def exTwoBare : Graph := { n := 6, edges := exTwo.edges.take 7 }

/-- The problem for `exTwoBare` with unit prizes and the quota three. -/
def exTwoProblem : Problem :=
  { graph := (ensureSelfLoops exTwoBare fun _ => 1).1, cost := (ensureSelfLoops exTwoBare fun _ => 1).2, prize := fun _ => 1, quota := 3, root := 0,
    rows := match modelWithoutSECs (ensureSelfLoops exTwoBare fun _ => 1).1 (fun _ => 1) 3 0 with
      | .ok rows => rows
      | _ => [],
    warm := none, covers := [], cycleCover := false, secDisjoint := true, secMaxflow := false }

/-- **C137.** If rows may be taken out of the LP relaxations the number of steps is not bounded: on two triangles that are joined by an edge the
same rows can be added again and again. -/
theorem C137_dropped_rows : buildProblem exTwoBare [] (fun _ => 1) (fun _ => 1) 3 0 ⟨false, false, false, true, false⟩ (fun _ => 0) exPick =
      .ok exTwoProblem ∧ Search.Start 1 exTwoProblem (List.range exTwoProblem.graph.edges.length) Search.init ∧
      ∀ k, ∃ t, Steps ⟨false, false⟩ 1 exTwoProblem (List.range exTwoProblem.graph.edges.length) k Search.init t := by
  have hg : exTwoProblem.graph = exTwo := by decide +kernel
  refine ⟨by rfl, .plain (by simp [exTwoProblem]), fun k => ?_⟩
  obtain ⟨st, j, h1, h2, h3⟩ : ∃ st j, sepalp ⟨fun row => decide (¬ row.Sat exBoth), fun _ _ => false⟩ exTwo exTwo.hasVar (fun _ _ _ => ⟨0, fun _ => 0⟩)
      (fun _ _ _ => true) (List.range exTwo.edges.length) 1 exBoth 0 2 [0, 0, 0, 1, 1, 1] true false ⟨[], [], .didNotRun⟩ = .ok (st, j, 0) ∧
      st.added ≠ [] ∧ st.result ≠ .cutoff := ⟨_, _, rfl, by decide +kernel, by decide +kernel⟩
  have hlp : LpSolution exTwoProblem 1 exBoth := by
    refine ⟨by omega, by rw [hg]; decide +kernel, fun row hr => satScaled_one.2 ?_⟩
    have : ∀ row ∈ exTwoProblem.rows, row.Sat exBoth := by decide +kernel
    exact this row hr
  suffices ∃ t, Steps ⟨false, false⟩ 1 exTwoProblem (List.range exTwoProblem.graph.edges.length) k Search.init t ∧ t.nodes = [[]] by
    obtain ⟨t, h, -⟩ := this
    exact ⟨t, h⟩
  induction k with
  | zero => exact ⟨_, .zero, rfl⟩
  | succ k ih =>
    obtain ⟨t, h, ht⟩ := ih
    refine ⟨_, .next h (.subtour (l := []) (r := []) (n := []) (kept := []) (q := 1) (x := exBoth)
      (sv := ⟨fun row => decide (¬ row.Sat exBoth), fun _ _ => false⟩) ht (by simp) (by simp) ⟨hlp, by simp, by simp [InNode]⟩
      ⟨fun row hr hsat => ?_, by simp⟩ (fun _ _ => rfl) (by rw [hg]; exact exTwo_components) (by rw [hg]; exact h1) h2), ?_⟩
    · exact of_decide_eq_true hr (satScaled_one.1 hsat)
    · simp [Search.separated, h3]

/-- The hypotheses of C137_enforced, C137_answer and C137_ends hold for `exTwoBare`, with every plug-in on that needs no start solution. -/
example : ∃ P, buildProblem exTwoBare [0, 1, 2] (fun _ => 2) (fun _ => 1) 3 0 ⟨false, false, true, true, true⟩ (fun _ => 0) exPick = .ok P ∧
    ∀ {mode : SearchMode} {order : List Nat} {a : ScipOutcome}, order.Perm (List.range P.graph.edges.length) → SearchAnswer mode 2 P order a →
      ScipSpec 2 P order a ∧ KeepsStart P order a :=
  C137_answer (by decide) (by decide) (by decide) (by simp) (heur := [0, 1, 2]) (by decide) (fun _ => 1) 3 (by decide) _ _ exPick_heap (by simp) (by simp)
    (by omega) (fun _ _ => Int.dvd_refl 2)

/-- On `exTwo` the vector of one triangle passes the enforcement callbacks, and the vector of both, which satisfies every row, does not. -/
example : (∀ row ∈ exTwoProblem.rows, row.Sat exBoth) ∧
    (∃ a, enforceSubtour (fun _ _ => ()) (fun _ _ => false) () 0 [] exTwo (List.range exTwo.edges.length) (fun e => decide (0 < exBoth e)) 0 () true =
      .ok a ∧ enforced false a.1 = false) ∧
    ∃ a, enforceSubtour (fun _ _ => ()) (fun _ _ => false) () 0 [] exTwo (List.range exTwo.edges.length) (fun e => decide (e < 3)) 0 () true =
      .ok a ∧ enforced true a.1 = true := ⟨by decide +kernel, ⟨_, rfl, by decide +kernel⟩, ⟨_, rfl, by decide +kernel⟩⟩

/-- The hypotheses of C137_kept hold for a search that is stopped at once: the start solution is the answer. -/
example : ∃ scip : Problem → ScipOutcome, ∃ st ps t', solveBind scip List.range exBow [(0, 1), (1, 2), (2, 0)] (exBow.map fun p => (p, exBowCost p.1 p.2))
      ((List.range 5).map fun v => (v, 1)) 3 0 ⟨false, false, true, true, true⟩ [] exPick = .ok (st, ps) ∧ st ≠ .infeasible ∧
      FeasibleIn exBow (fun _ => 1) 3 0 t' ∧ EdgesOfTour t' ps ∧ namedCost exBowCost t' ≤ namedCost exBowCost [0, 1, 2, 0] := by
  have : ∀ P, ∃ a, ∀ ub, Sound P ub → SearchAnswer ⟨false, true⟩ 1 P (List.range P.graph.edges.length) a := by
    intro P
    by_cases hsnd : ∃ ub, Sound P ub
    · obtain ⟨ub, hsnd⟩ := hsnd
      obtain ⟨s, hs⟩ := hsnd.start 1 (List.range P.graph.edges.length)
      exact ⟨_, fun _ _ => ⟨0, s, s, hs, .zero, rfl⟩⟩
    · exact ⟨⟨.other, none⟩, fun ub h => absurd ⟨ub, h⟩ hsnd⟩
  choose scip hscip using this
  exact ⟨scip, C137_kept (δ := fun _ => 0) exBow_describes (by decide) exBowCost_nonneg (quota := 3) (root := 0) (by decide) _ (by simp) exPick_heap
    (fun n => List.Perm.refl _) (k := 1) (by omega) (fun _ _ => one_dvd _) hscip (by simp) (by simp) (by simp)
    (t := [0, 1, 2, 0]) ⟨⟨⟨[1, 2], rfl⟩, by decide, by decide⟩, by decide, by decide⟩ ⟨_, .refl _, .cons (Or.inl rfl) (.cons (Or.inl rfl) (.cons (Or.inl rfl) .nil))⟩⟩

end Pctsp
