import Verif.Lemmas.BasicSolve
import Verif.Props.Start

/-!
# C104: the basic entry point of the solver
-/

namespace Pctsp

variable {es heur : List (Nat × Nat)} {costs : List ((Nat × Nat) × Int)} {prizes : List (Nat × Int)} {w : Nat → Nat → Int} {π : Nat → Int}
  {quota : Int} {root : Nat} {scip : Problem → ScipOutcome} {order : Nat → List Nat} {k : Int}

/-- **C104.** If the search ends with a solution or with the status `infeasible`, the basic entry point returns the edges of a feasible tour or, exactly for
that status, nothing.  With the status `optimal` the tour costs the least among all feasible tours, and with the status `infeasible` there is none.  The
vertices can be any numbers: they need not be 0 to n - 1. -/
theorem C104_solve (h : Describes es costs prizes w π) (hno : ∀ e ∈ es, e.1 ≠ e.2) (hw : ∀ x y, 0 ≤ w x y) (hroot : root ∈ endpoints es)
    (hheur : ∀ p ∈ heur, AdjIn es p.1 p.2) (ho : ∀ n, (order n).Perm (List.range n)) (hscip : ∀ P, ScipSpec k P (order P.graph.edges.length) (scip P))
    (hfound : ∀ P, (scip P).best = none → (scip P).status = .infeasible) :
    ∃ st ps, basicBind scip order es heur costs prizes quota root = .ok (st, ps) ∧ (∃ P, st = (scip P).status) ∧
      (st ≠ .infeasible → ∃ t, FeasibleIn es π quota root t ∧ EdgesOfTour t ps) ∧
      (st = .optimal → ∃ t, FeasibleIn es π quota root t ∧ EdgesOfTour t ps ∧ ∀ t', FeasibleIn es π quota root t' → namedCost w t ≤ namedCost w t') ∧
      (st = .infeasible → ps = [] ∧ ∀ t, ¬ FeasibleIn es π quota root t) := by
  obtain ⟨prize, cost, start, hr⟩ := basicRead h hheur
  have hloop : ∀ e ∈ (graphOf es).edges, e.1 ≠ e.2 := by rw [graphOf_edges]; exact hno
  have hroot' : root < (graphOf es).n := lt_graphOf_n.2 ⟨root, hroot, Nat.le_refl _⟩
  obtain ⟨P, hP, -⟩ := buildProblem_ok (graphOf_wf es) hloop hr.simple (hr.nonneg hw) hr.startLt prize quota hroot' basicOptions (fun _ => 0) exPick_heap
    (by simp [basicOptions])
  obtain ⟨st, ps, h1, h2, h3, h4, -⟩ := solve_graph (graphOf_wf es) hloop hr.simple (hr.nonneg hw) hr.startLt (prize := prize) (quota := quota) hroot'
    basicOptions (disjoint := fun _ => 0) exPick_heap ho hscip (by simp [basicOptions]) (by simp [basicOptions])
  have htrust : ∀ t, Trusted (graphOf es) cost root basicOptions (fun _ => 0) (start.map cost).sum t := fun t _ v _ => by simp [basicOptions]
  have hinf : (scip P).status = .infeasible → (scip P).best = none := fun hst => by
    obtain ⟨_, _, _, _, _, hi⟩ := (hscip P).added
    exact (hi hst).1
  have heq := basicSolve_eq (order := order) exPick hP ⟨hinf, hfound P⟩
  have hst : st = (scip P).status := by
    rw [solvePCTSP, hP] at h1
    simp only [Res.ok_bind] at h1
    obtain ⟨_, -, h1⟩ := Res.bind_eq_ok.1 h1
    cases h1; rfl
  refine ⟨st, ps, by rw [hr.bind, heq, h1], ⟨P, hst⟩, fun hne => ?_, fun hopt => ?_, fun hi => ?_⟩
  · rcases h2 with rfl | ⟨t, ht, -, he⟩
    · exfalso
      cases hb : (scip P).best with
      | none => exact hne (hst.trans (hfound P hb))
      | some y =>
        have hP₀ : buildProblem (graphOf es) start cost prize quota root basicOptions (fun _ => 0) noPick = .ok P := hP
        rw [basicSolve, hP₀] at heq
        have hni : (scip P).status ≠ .infeasible := fun hi => by
          have := hinf hi
          rw [hb] at this
          cases this
        simp only [Res.ok_bind, hb, if_neg hni] at heq
        rw [h1] at heq
        obtain ⟨qs, hqs, hpair⟩ := Res.bind_eq_ok.1 heq
        cases hpair
        have hsnd := (buildProblem_ok (graphOf_wf es) hloop hr.simple (hr.nonneg hw) hr.startLt prize quota hroot' basicOptions (fun _ => 0) exPick_heap
          (by simp [basicOptions]))
        obtain ⟨P', hP', hB⟩ := hsnd
        obtain rfl : P = P' := by rw [hP] at hP'; exact Res.ok.inj hP'
        obtain ⟨hS, hfeas, -⟩ := hB.sound exPick_heap (graphOf_wf es) hloop hr.simple (hr.nonneg hw) hroot' (by simp [basicOptions]) (by simp [basicOptions])
        obtain ⟨t, is, ht, -, hinc⟩ := hS.tour_of_accepted (ho _) ((hscip P).best y hb)
        obtain ⟨ps, h5, h6⟩ := solution_pairs (ho _) ht hinc
        rw [h5] at hqs
        cases hqs
        exact h6.ne_nil (by have := ht.three; omega) rfl
    · exact ⟨t, hr.feas.1 ht, he⟩
  · obtain ⟨t, ht, -, he, hmin, -⟩ := h3 hopt
    refine ⟨t, hr.feas.1 ht, he, fun t' ht' => ?_⟩
    have := hmin (Or.inr ⟨rfl, rfl⟩) (by simp [basicOptions]) t' (hr.feas.2 ht') (htrust t')
    rwa [hr.walk ht.tour.walk, hr.walk (hr.feas.2 ht').tour.walk] at this
  · obtain ⟨h5, h6⟩ := h4 hi
    exact ⟨h5, fun t ht => h6 t (hr.feas.2 ht) (htrust t)⟩

/-- **C104.** If the start solution is a feasible tour and SCIP keeps start solutions that pass its checks, there is an answer however the search ends, and it
costs no more than the start solution. -/
theorem C104_start (h : Describes es costs prizes w π) (hno : ∀ e ∈ es, e.1 ≠ e.2) (hw : ∀ x y, 0 ≤ w x y) (hroot : root ∈ endpoints es)
    (hheur : ∀ p ∈ heur, AdjIn es p.1 p.2) (ho : ∀ n, (order n).Perm (List.range n)) (hscip : ∀ P, ScipSpec k P (order P.graph.edges.length) (scip P))
    (hkeep : ∀ P, KeepsStart P (order P.graph.edges.length) (scip P)) {t : List Nat} (ht : FeasibleIn es π quota root t) (he : EdgesOfTour t heur) :
    ∃ st ps t', basicBind scip order es heur costs prizes quota root = .ok (st, ps) ∧ FeasibleIn es π quota root t' ∧ EdgesOfTour t' ps ∧
      namedCost w t' ≤ namedCost w t := by
  obtain ⟨prize, cost, start, hr⟩ := basicRead h hheur
  have hloop : ∀ e ∈ (graphOf es).edges, e.1 ≠ e.2 := by rw [graphOf_edges]; exact hno
  have hroot' : root < (graphOf es).n := lt_graphOf_n.2 ⟨root, hroot, Nat.le_refl _⟩
  obtain ⟨P, hP, -⟩ := buildProblem_ok (graphOf_wf es) hloop hr.simple (hr.nonneg hw) hr.startLt prize quota hroot' basicOptions (fun _ => 0) exPick_heap
    (by simp [basicOptions])
  obtain ⟨st, ps, h1, -, -, -, -, h5⟩ := solve_graph (graphOf_wf es) hloop hr.simple (hr.nonneg hw) hr.startLt (prize := prize) (quota := quota) hroot'
    basicOptions (disjoint := fun _ => 0) exPick_heap ho hscip (by simp [basicOptions]) (by simp [basicOptions])
  have htrust : ∀ t, Trusted (graphOf es) cost root basicOptions (fun _ => 0) (start.map cost).sum t := fun t _ v _ => by simp [basicOptions]
  obtain ⟨qs, hq1, hq2⟩ := hr.pairs
  obtain ⟨t', ht', -, he', hle⟩ := h5 hkeep t qs (hr.feas.2 ht) (htrust t) hq1 (edgesOfTour_same hq2 he)
  have hbest : (scip P).best ≠ none := fun hb => by
    rw [solvePCTSP, hP] at h1
    simp only [Res.ok_bind, hb] at h1
    cases h1
    exact he'.ne_nil (by have := ht'.three; omega) rfl
  have hinf : (scip P).status = .infeasible → (scip P).best = none := fun hst => by
    obtain ⟨_, _, _, _, _, hi⟩ := (hscip P).added
    exact (hi hst).1
  refine ⟨st, ps, t', ?_, hr.feas.1 ht', he', ?_⟩
  · rw [hr.bind, basicSolve_eq (order := order) exPick hP ⟨hinf, fun hb => absurd hb hbest⟩, h1]
  · rwa [hr.walk ht'.tour.walk, hr.walk (hr.feas.2 ht).tour.walk] at hle

/-- **C104.** If the solver always decides the problem, the basic entry point and the one with settings, without cost cover rows, give the same status, and
their answers cost the same; with the status `infeasible` both are empty. -/
theorem C104_agree (h : Describes es costs prizes w π) (hno : ∀ e ∈ es, e.1 ≠ e.2) (hw : ∀ x y, 0 ≤ w x y) (hroot : root ∈ endpoints es)
    (hheur : ∀ p ∈ heur, AdjIn es p.1 p.2) (ho : ∀ n, (order n).Perm (List.range n)) (hscip : ∀ P, ScipSpec k P (order P.graph.edges.length) (scip P))
    (hdec : ∀ P, (scip P).status = .optimal ∨ (scip P).status = .infeasible) {o : SolveOptions} (hd : o.coverDisjoint = false) (hs : o.coverShortest = false)
    (hprize : o.cycleCover = true → ∀ x, 0 ≤ π x) {disjoint : List (Nat × Int)} {δ : Nat → Int} (hkeys : ∀ x c, (x, c) ∈ disjoint → c = δ x ∧ x ∈ endpoints es)
    {pick : Pick} (hpick : pick.Heap) :
    ∃ st ps ps', basicBind scip order es heur costs prizes quota root = .ok (st, ps) ∧
      solveBind scip order es heur costs prizes quota root o disjoint pick = .ok (st, ps') ∧
      (ps.map fun p => w p.1 p.2).sum = (ps'.map fun p => w p.1 p.2).sum ∧ (st = .infeasible ↔ ps = []) ∧ (ps = [] ↔ ps' = []) := by
  obtain ⟨st, ps, h1, ⟨P, hP⟩, -, h2, h3⟩ := C104_solve h hno hw (quota := quota) hroot hheur ho hscip (fun P hb => by
    rcases hdec P with hst | hst
    · obtain ⟨_, _, _, _, hi, _⟩ := (hscip P).added
      obtain ⟨y, hy, -⟩ := hi hst
      rw [hb] at hy; cases hy
    · exact hst)
  obtain ⟨st', ps', k1, -, k2, k3⟩ := C88_solve h hno hw (quota := quota) hroot hheur o hkeys hpick ho (Or.inr ⟨hd, hs⟩) hscip (by simp [hs]) hprize
    (by simp [hd]) (by simp [hd, hs])
  obtain ⟨P', hP'⟩ := solveBind_status k1
  have hne : ∀ {t : List Nat} {ps : List (Nat × Nat)}, FeasibleIn es π quota root t → EdgesOfTour t ps → ps ≠ [] :=
    fun ht he => he.ne_nil (by have := ht.three; omega)
  rcases hdec P with hst | hst <;> rcases hdec P' with hst' | hst' <;> rw [← hP] at hst <;> rw [← hP'] at hst' <;> subst hst <;> subst hst'
  · obtain ⟨t, ht, he, hmin⟩ := h2 rfl
    obtain ⟨t', ht', he', hmin'⟩ := k2 rfl
    refine ⟨.optimal, ps, ps', h1, k1, ?_, by simp [hne ht he], by simp [hne ht he, hne ht' he']⟩
    rw [he.sum h.symm, he'.sum h.symm]
    have a := hmin t' ht'
    have b := hmin' t ht
    rw [namedCost, namedCost] at a b
    omega
  · obtain ⟨t, ht, -⟩ := h2 rfl
    exact absurd ht ((k3 rfl).2 t)
  · obtain ⟨t, ht, -⟩ := k2 rfl
    exact absurd ht ((h3 rfl).2 t)
  · obtain ⟨rfl, -⟩ := h3 rfl
    obtain ⟨rfl, -⟩ := k3 rfl
    exact ⟨.infeasible, [], [], h1, k1, rfl, by simp, by simp⟩

/-- **C104.** If the search ends early without a solution, the basic entry point reads a solution that does not exist.  The one with settings returns
nothing. -/
theorem C104_limit (h : Describes es costs prizes w π) (hno : ∀ e ∈ es, e.1 ≠ e.2) (hw : ∀ x y, 0 ≤ w x y) (hroot : root ∈ endpoints es)
    (hheur : ∀ p ∈ heur, AdjIn es p.1 p.2) (ho : ∀ n, (order n).Perm (List.range n)) (hstop : ∀ P, scip P = ⟨.other, none⟩) :
    (∃ s, basicBind scip order es heur costs prizes quota root = .ub s) ∧
    ∀ {o : SolveOptions}, o.coverDisjoint = false → o.coverShortest = false → (o.cycleCover = true → ∀ x, 0 ≤ π x) → ∀ {pick : Pick}, pick.Heap →
      solveBind scip order es heur costs prizes quota root o [] pick = .ok (.other, []) := by
  obtain ⟨prize, cost, start, hr⟩ := basicRead h hheur
  have hloop : ∀ e ∈ (graphOf es).edges, e.1 ≠ e.2 := by rw [graphOf_edges]; exact hno
  have hroot' : root < (graphOf es).n := lt_graphOf_n.2 ⟨root, hroot, Nat.le_refl _⟩
  obtain ⟨P, hP, -⟩ := buildProblem_ok (graphOf_wf es) hloop hr.simple (hr.nonneg hw) hr.startLt prize quota hroot' basicOptions (fun _ => 0) exPick_heap
    (by simp [basicOptions])
  refine ⟨?_, fun {o} hd hs hprize {pick} hpick => ?_⟩
  · rw [hr.bind]
    exact basicSolve_none hP (by rw [hstop]; simp) (by rw [hstop])
  · have hscip : ∀ P, ScipSpec 1 P (order P.graph.edges.length) (scip P) := fun P => by
      rw [hstop]
      exact ⟨by simp, [], [], by simp, by simp, by simp, by simp⟩
    obtain ⟨st, ps, h1, -⟩ := C88_solve (δ := fun _ => 0) h hno hw (quota := quota) hroot hheur o (disjoint := []) (by simp) hpick ho (Or.inr ⟨hd, hs⟩)
      hscip (by simp [hs]) hprize (by simp [hd]) (by simp [hd, hs])
    have h2 := h1
    rw [solveBind] at h1
    obtain ⟨_, -, h1⟩ := Res.bind_eq_ok.1 h1
    obtain ⟨_, -, h1⟩ := Res.bind_eq_ok.1 h1
    obtain ⟨_, -, h1⟩ := Res.bind_eq_ok.1 h1
    obtain ⟨_, -, h1⟩ := Res.bind_eq_ok.1 h1
    obtain ⟨_, -, h1⟩ := Res.bind_eq_ok.1 h1
    obtain ⟨_, -, h1⟩ := Res.bind_eq_ok.1 h1
    obtain ⟨⟨st', ps'⟩, h3, h1⟩ := Res.bind_eq_ok.1 h1
    rw [solvePCTSP] at h3
    obtain ⟨Q, -, h3⟩ := Res.bind_eq_ok.1 h3
    simp only [hstop] at h3
    cases h3
    cases h1
    exact h2

/-- **C104.** A prize for a number above every vertex is written outside the table.  Else the first cost, in the order of the keys, whose key is no edge makes
the call throw, and if all are edges the first pair of the start solution that is no edge; but if the first number of that pair is above every vertex, memory
outside the graph is read. -/
theorem C104_errors : ((∃ x c, (x, c) ∈ prizes ∧ ∀ y ∈ endpoints es, y < x) → ∃ s, basicBind scip order es heur costs prizes quota root = .ub s) ∧
    ((∀ x c, (x, c) ∈ prizes → ∃ y ∈ endpoints es, x ≤ y) → ∀ p,
      (costs.map (·.1)).find? (fun q => decide (¬ AdjIn es q.1 q.2)) = some p ∨
        (∀ q c, (q, c) ∈ costs → AdjIn es q.1 q.2) ∧ heur.find? (fun q => decide (¬ AdjIn es q.1 q.2)) = some p →
      ((∃ y ∈ endpoints es, p.1 ≤ y) → basicBind scip order es heur costs prizes quota root = .throw (.edgeNotFound p.1 p.2)) ∧
      ((∀ y ∈ endpoints es, y < p.1) → ∃ s, basicBind scip order es heur costs prizes quota root = .ub s)) := by
  refine ⟨fun ⟨x, c, hx, hout⟩ => ?_, fun hprizes p hp => ?_⟩
  · obtain ⟨s, hs⟩ := setPrizes_ub (n := (graphOf es).n) prizes (fun _ => 0) ⟨x, c, hx, fun hlt => by
      obtain ⟨y, hy, hle⟩ := lt_graphOf_n.1 hlt
      have := hout y hy
      omega⟩
    exact ⟨s, by rw [basicBind]; simp only [hs]; rfl⟩
  · obtain ⟨prize, h1⟩ := setPrizes_ok (n := (graphOf es).n) prizes (fun _ => 0) fun x c hx => lt_graphOf_n.2 (hprizes x c hx)
    rcases hp with hp | ⟨hcosts, hp⟩
    · obtain ⟨h2, h3⟩ := setCosts_throw costs (fun _ => 0) hp
      refine ⟨fun hin => ?_, fun hout => ?_⟩
      · rw [basicBind]; simp only [h1, Res.ok_bind, h2 hin]; rfl
      · obtain ⟨s, hs⟩ := h3 hout
        exact ⟨s, by rw [basicBind]; simp only [h1, Res.ok_bind, hs]; rfl⟩
    · obtain ⟨cost, h2⟩ := setCosts_ok (es := es) costs (fun _ => 0) hcosts
      obtain ⟨h3, h4⟩ := startEdges_throw heur hp
      refine ⟨fun hin => ?_, fun hout => ?_⟩
      · rw [basicBind]; simp only [h1, h2, Res.ok_bind, startEdges_eq, h3 hin]; rfl
      · obtain ⟨s, hs⟩ := h4 hout
        exact ⟨s, by rw [basicBind]; simp only [h1, h2, Res.ok_bind, startEdges_eq, hs]; rfl⟩

/-- **C104.** An edge without a cost costs 0, and a vertex without a prize has the prize 0. -/
theorem C104_missing (l₁ l₂ : List ((Nat × Nat) × Int)) (m₁ m₂ : List (Nat × Int)) {p : Nat × Nat} {x : Nat} :
    (AdjIn es p.1 p.2 → (∀ q c, (q, c) ∈ l₁ ++ l₂ → ¬ SameEdge q p) →
      basicBind scip order es heur (l₁ ++ l₂) prizes quota root = basicBind scip order es heur (l₁ ++ (p, 0) :: l₂) prizes quota root) ∧
    (x ∈ endpoints es → (∀ c, (x, c) ∉ m₁ ++ m₂) →
      basicBind scip order es heur costs (m₁ ++ m₂) quota root = basicBind scip order es heur costs (m₁ ++ (x, 0) :: m₂) quota root) := by
  refine ⟨fun hp h => ?_, fun hx h => ?_⟩
  · obtain ⟨i, hi⟩ := Option.isSome_iff_exists.1 (edgeIdx_isSome_iff.2 (basic_adj.2 hp))
    have := setCosts_zero (g := graphOf es) (i := i) (p := p) (by rw [edge_graphOf ⟨_, (adjIn_mem hp).1, Nat.le_refl _⟩, hi]) l₁ l₂ (fun _ => 0) rfl
      fun q c hq he => h q c (by simp [hq]) ?_
    · simp only [basicBind, this]
    · obtain ⟨a, b⟩ := q
      obtain ⟨c, d⟩ := p
      rcases edgeIdx_eq_some he with h1 | h1 <;> rcases edgeIdx_eq_some hi with h2 | h2 <;> rw [h1] at h2 <;> cases h2
      · exact Or.inl rfl
      · exact Or.inr rfl
      · exact Or.inr rfl
      · exact Or.inl rfl
  · have := setPrizes_zero (n := (graphOf es).n) (lt_graphOf_n.2 ⟨x, hx, Nat.le_refl _⟩) m₁ m₂ (fun _ => 0) rfl fun c hc => h c (by simp [hc])
    simp only [basicBind, this]

/-- **C104.** If an edge has a cost in each direction, only the one whose key comes later counts. -/
theorem C104_both (l₁ l₂ l₃ : List ((Nat × Nat) × Int)) {u v : Nat} (h : AdjIn es u v) (c d : Int) :
    basicBind scip order es heur (l₁ ++ ((u, v), c) :: (l₂ ++ ((v, u), d) :: l₃)) prizes quota root =
      basicBind scip order es heur (l₁ ++ (l₂ ++ ((v, u), d) :: l₃)) prizes quota root := by
  obtain ⟨i, hi⟩ := Option.isSome_iff_exists.1 (edgeIdx_isSome_iff.2 (basic_adj.2 h))
  have := setCosts_shadow (g := graphOf es) (i := i) (p := (u, v)) (q := (v, u)) (by rw [edge_graphOf ⟨_, (adjIn_mem h).1, Nat.le_refl _⟩, hi])
    (by rw [edge_graphOf ⟨_, (adjIn_mem h).2, Nat.le_refl _⟩, edgeIdx_comm, hi]) l₁ l₂ l₃ c d (fun _ => 0)
  simp only [basicBind, this]

/-! ### Examples -/

/-- Two triangles that share the vertex 2, with gaps in the numbers. -/
def exGaps : List (Nat × Nat) := [(2, 3), (3, 5), (5, 2), (2, 7), (7, 9), (9, 2)]

def exGapsCost (x y : Nat) : Int := if max x y ≤ 5 then 4 else 1

theorem exGaps_describes : Describes exGaps (exGaps.map fun p => (p, exGapsCost p.1 p.2)) ([2, 3, 5, 7, 9].map fun v => (v, 1)) exGapsCost (fun _ => 1) where
  distinct := by decide
  symm x y := by unfold exGapsCost; rw [Nat.max_comm]
  costOk p c h := by
    obtain ⟨q, hq, he⟩ := List.mem_map.1 h
    cases he
    exact ⟨rfl, Or.inl hq⟩
  allCosts e he := ⟨e, exGapsCost e.1 e.2, List.mem_map.2 ⟨e, he, rfl⟩, Or.inl rfl⟩
  prizeOk x c h := by
    obtain ⟨v, hv, he⟩ := List.mem_map.1 h
    cases he
    refine ⟨rfl, ?_⟩
    have : ∀ v ∈ [2, 3, 5, 7, 9], v ∈ endpoints exGaps := by decide
    exact this _ hv
  allPrizes x hx := by
    have : ∀ x ∈ endpoints exGaps, x ∈ [2, 3, 5, 7, 9] := by decide
    exact ⟨1, List.mem_map.2 ⟨x, this x hx, rfl⟩⟩

theorem exGapsCost_nonneg (x y : Nat) : 0 ≤ exGapsCost x y := by unfold exGapsCost; split <;> decide

theorem exGaps_feasible : FeasibleIn exGaps (fun _ => 1) 3 2 [2, 7, 9, 2] := ⟨⟨⟨[7, 9], rfl⟩, by decide, by decide⟩, by decide, by decide⟩

example : ∃ (scip : Problem → ScipOutcome) (ps : List (Nat × Nat)), basicBind scip List.range exGaps [(2, 3), (3, 5), (5, 2)]
      (exGaps.map fun p => (p, exGapsCost p.1 p.2)) ([2, 3, 5, 7, 9].map fun v => (v, 1)) 3 2 = .ok (.optimal, ps) ∧
      ∃ t, FeasibleIn exGaps (fun _ => 1) 3 2 t ∧ EdgesOfTour t ps ∧ namedCost exGapsCost t ≤ 3 := by
  obtain ⟨scip, hscip⟩ := exists_scip 1 List.range
  obtain ⟨st, ps, h1, ⟨P, hP⟩, -, h2, h3⟩ := C104_solve exGaps_describes (by decide) exGapsCost_nonneg (quota := 3) (root := 2) (by decide)
    (heur := [(2, 3), (3, 5), (5, 2)]) (by decide) (fun n => List.Perm.refl _) (fun P => (hscip P).1) (fun P hb => by
      rcases (hscip P).2 with hst | hst
      · obtain ⟨_, _, _, _, hi, _⟩ := (hscip P).1.added
        obtain ⟨y, hy, -⟩ := hi hst
        rw [hb] at hy; cases hy
      · exact hst)
  have hst : st = .optimal := by
    rcases (hscip P).2 with h | h
    · rw [hP, h]
    · exact absurd exGaps_feasible ((h3 (by rw [hP, h])).2 _)
  subst hst
  obtain ⟨t, h4, h5, h6⟩ := h2 rfl
  exact ⟨scip, ps, h1, t, h4, h5, h6 _ exGaps_feasible⟩

example : ∃ (scip : Problem → ScipOutcome) (st : ScipStatus) (ps : List (Nat × Nat)), basicBind scip List.range exGaps [(2, 7), (7, 9), (9, 2)]
      (exGaps.map fun p => (p, exGapsCost p.1 p.2)) ([2, 3, 5, 7, 9].map fun v => (v, 1)) 3 2 = .ok (st, ps) ∧ ps ≠ [] := by
  obtain ⟨scip, hscip⟩ := exists_scip_keeps 1 List.range
  obtain ⟨st, ps, t', h1, h2, h3, -⟩ := C104_start exGaps_describes (by decide) exGapsCost_nonneg (root := 2) (by decide)
    (heur := [(2, 7), (7, 9), (9, 2)]) (by decide) (fun n => List.Perm.refl _) (fun P => (hscip P).1) (fun P => (hscip P).2.1) exGaps_feasible
    ⟨_, List.Perm.refl _, by decide⟩
  exact ⟨scip, st, ps, h1, h3.ne_nil (by have := h2.three; omega)⟩

example : ∃ s, basicBind (fun _ => ⟨.other, none⟩) List.range exGaps [] (exGaps.map fun p => (p, exGapsCost p.1 p.2))
      ([2, 3, 5, 7, 9].map fun v => (v, 1)) 3 2 = .ub s :=
  (C104_limit exGaps_describes (by decide) exGapsCost_nonneg (by decide) (by simp) (fun n => List.Perm.refl _) fun _ => rfl).1

/-- A cost for a pair that is no edge, and a prize for a number that is too large. -/
example (scip : Problem → ScipOutcome) : basicBind scip List.range exGaps [] [((2, 3), 4), ((3, 4), 1)] [(0, 1), (2, 1)] 3 2 = .throw (.edgeNotFound 3 4) ∧
    ∃ s, basicBind scip List.range exGaps [] [] [(2, 1), (10, 1)] 3 2 = .ub s := by
  refine ⟨((C104_errors.2 (fun x c h => ⟨9, by decide, ?_⟩) (3, 4) (Or.inl (by decide))).1 ⟨9, by decide, by decide⟩),
    C104_errors.1 ⟨10, 1, by decide, by decide⟩⟩
  have : ∀ q ∈ [(0, (1 : Int)), (2, 1)], q.1 ≤ 9 := by decide
  exact this _ h

end Pctsp
