import Verif.Lemmas.SolveBind

/-! Helper lemmas: the solver on a graph that comes with self-loops. -/

namespace Pctsp

variable {g : Graph} {cost : Nat → Int}

theorem objective_add (g : Graph) (c d x : Nat → Int) : objective g (fun e => c e + d e) x = objective g c x + objective g d x := by
  simp only [objective]
  induction List.range g.edges.length with
  | nil => rfl
  | cons a l ih => rw [List.map_cons, List.sum_cons, ih, Int.add_mul, List.map_cons, List.sum_cons, List.map_cons, List.sum_cons]; omega

theorem tour_consec_ne {r : Nat} {t : List Nat} (ht : IsTour g r t) (hlen : 4 ≤ t.length) {p : Nat × Nat} (hp : p ∈ consec t) : p.1 ≠ p.2 := by
  intro heq
  obtain ⟨es, x, hinc, -⟩ := incidence_exists ht hlen
  obtain ⟨h1, -, h2⟩ := incidence_nonloop ht (by omega) hinc
  have h3 : und p ∈ (es.map (endsOf g)).map und := h1.mem_iff.2 (List.mem_map_of_mem hp)
  obtain ⟨q, hq, hqp⟩ := List.mem_map.1 h3
  obtain ⟨e, he, rfl⟩ := List.mem_map.1 hq
  have h4 := h2 e he
  obtain ⟨a, b⟩ := p
  rcases hends : endsOf g e with ⟨c, d⟩
  rw [hends] at hqp h4
  rw [und_eq_iff] at hqp
  simp only at heq h4
  omega

/-- The objective value of an incidence vector is the cost of the tour and of the self-loops of its vertices. -/
theorem objective_loops (hg : SimpleWithLoops g) (cost : Nat → Int) {r : Nat} {t es : List Nat} {x : Nat → Int} (ht : IsTour g r t)
    (hlen : 4 ≤ t.length) (hinc : IncidenceOf g t es x) :
    objective g cost x = walkCost g cost t + tourPrize (fun v => pairCost g cost v v) t := by
  set l : Nat → Int := putPrizeOntoEdgeWeights g fun v => pairCost g cost v v with hl
  have hloop : ∀ e v, g.edges[e]? = some (v, v) → l e = cost e := by
    intro e v he
    have hidx := hg.edgeIdx (Or.inl he)
    rw [hl, putPrize_eq g _ he, if_pos ⟨rfl, hidx⟩]
    exact pairCost_eq hidx
  have hother : ∀ e p, g.edges[e]? = some p → p.1 ≠ p.2 → l e = 0 := by
    intro e p he hp
    rw [hl, putPrize_eq g _ he, if_neg fun h => hp h.1]
  have h1 : objective g cost x = objective g (fun e => cost e - l e) x + objective g l x := by
    rw [← objective_add]
    congr 1
    funext e
    omega
  have h2 : objective g l x = tourPrize (fun v => pairCost g cost v v) t := by
    have h3 := prizeRow_activity hg (fun v => pairCost g cost v v) 0 x
    have h4 : (prizeRow g l 0).activity x = - objective g l x := by
      rw [Row.activity, prizeRow, List.map_map, objective]
      have : ((fun p : Nat × Int => p.2 * x p.1) ∘ fun e => (e, -(l e))) = fun e => (-1) * (l e * x e) := by
        funext e
        simp only [Function.comp]
        rw [Int.neg_mul]
        omega
      rw [this, sum_map_mul]
      omega
    rw [← hl, h4] at h3
    have h5 : ((List.range g.n).map fun v => pairCost g cost v v * loopVal g x v) =
        (List.range g.n).map fun v => pairCost g cost v v * (if v ∈ t.dropLast then 1 else 0) := by
      refine List.map_congr_left fun v hv => ?_
      rw [loopVal_incidence hinc (hg.loops v (List.mem_range.1 hv))]
      have : v ∈ t ↔ v ∈ t.dropLast := by
        obtain ⟨m, rfl⟩ := ht.shape
        rw [← List.cons_append, List.dropLast_concat]
        simp
        tauto
      simp only [this]
    rw [h5, sum_prize_mem ht.nodup fun v hv => tour_lt hg.wf ht v (List.mem_of_mem_dropLast hv)] at h3
    rw [tourPrize]
    omega
  have h3 : walkCost g (fun e => cost e - l e) t = walkCost g cost t := by
    rw [walkCost, walkCost]
    congr 1
    refine List.map_congr_left fun p hp => ?_
    obtain ⟨i, hi⟩ := Option.isSome_iff_exists.1 (edgeIdx_isSome_iff.2 (ht.walk p hp))
    rw [pairCost_eq hi, pairCost_eq hi]
    have hne := tour_consec_ne ht hlen hp
    have : l i = 0 := by
      rcases edgeIdx_eq_some hi with h | h
      · exact hother i _ h hne
      · exact hother i _ h fun h => hne h.symm
    omega
  rw [h1, h2, objective_incidence hg (fun e v he => by rw [hloop e v he]; omega) ht hlen hinc, h3]

/-- Without cost cover the specification of the solver is the same for all objective functions, apart from what it says about them. -/
theorem ScipSpec.forget {scale : Int} {P : Problem} {order : List Nat} {a : ScipOutcome} (h : ScipSpec scale P order a) (hc : P.covers = []) :
    ScipSpec scale { P with cost := fun _ => 0 } order a := by
  have hz : ∀ y, objective P.graph (fun _ => 0) y = 0 := by
    intro y
    rw [objective]
    induction List.range P.graph.edges.length with
    | nil => rfl
    | cons a l ih => simp
  have hacc : ∀ {y}, Accepted { P with cost := fun _ => 0 } order y ↔ Accepted P order y :=
    ⟨fun h => ⟨h.binary, h.rows, h.subtour, h.cycle⟩, fun h => ⟨h.binary, h.rows, h.subtour, h.cycle⟩⟩
  refine ⟨fun y hy => hacc.2 (h.best y hy), ?_⟩
  obtain ⟨found, added, h1, h2, h3, h4⟩ := h.added
  refine ⟨found, added, fun z hz' => ?_, fun row hr => ?_, fun hst => ?_, fun hst => ?_⟩
  · obtain ⟨a1, y, hy, -⟩ := h1 z hz'
    exact ⟨hacc.2 a1, y, hy, by simp only [hz]; exact Int.le_refl _⟩
  · cases h2 row hr with
    | subtour hvisit hx hc hs hrow => exact .subtour hvisit ⟨hx.pos, hx.bounds, hx.rows⟩ hc hs hrow
    | cycle hon hx hc hs hrow => exact .cycle hon ⟨hx.pos, hx.bounds, hx.rows⟩ hc hs hrow
    | cover hdist => rw [hc] at hdist; simp at hdist
  · obtain ⟨y, hy, -⟩ := h3 hst
    exact ⟨y, hy, fun z _ _ => by simp only [hz]; exact Int.le_refl _⟩
  · obtain ⟨a1, a2⟩ := h4 hst
    exact ⟨a1, fun z hz' => a2 z (hacc.1 hz')⟩

theorem buildProblem_loops (hg : SimpleWithLoops g) {heur : List Nat} (hheur : ∀ e ∈ heur, e < g.edges.length) (prize : Nat → Int) (quota : Int)
    {root : Nat} (hroot : root < g.n) {o : SolveOptions} (hd : o.coverDisjoint = false) (hs : o.coverShortest = false) (disjoint : Nat → Int) (pick : Pick) :
    ∃ P, buildProblem g heur cost prize quota root o disjoint pick = .ok P ∧ P.graph = g ∧ P.cost = cost ∧ P.prize = prize ∧ P.quota = quota ∧
      P.root = root ∧ P.covers = [] ∧ P.cycleCover = o.cycleCover ∧ modelWithoutSECs g prize quota root = .ok P.rows := by
  obtain ⟨rows, hrows, -⟩ := modelRows_sat hg prize quota hroot fun _ => 0
  obtain ⟨vars, hvars⟩ := heuristicVars_ok hg.wf hg.loops hheur
  have hwarm : ∃ warm, warmStart g heur = .ok warm := by
    rw [warmStart]
    split
    · exact ⟨some vars, by rw [hvars]; rfl⟩
    · exact ⟨none, rfl⟩
  obtain ⟨warm, hwarm⟩ := hwarm
  refine ⟨{ graph := g, cost, prize, quota, root, rows, warm, covers := [], cycleCover := o.cycleCover, secDisjoint := o.secDisjoint,
            secMaxflow := o.secMaxflow }, ?_, rfl, rfl, rfl, rfl, rfl, rfl, rfl, hrows⟩
  rw [buildProblem, ensureSelfLoops, if_pos ((hasSelfLoops_iff g).2 hg.loops)]
  simp only [hrows, Res.ok_bind, hwarm, includeCovers, disjointCover, shortestCover, hd, hs, Res.pure_eq]
  simp

/-- The solver on a graph with a self-loop at every vertex, without cost cover. -/
theorem solve_graph_loops (hg : SimpleWithLoops g) {heur : List Nat} (hheur : ∀ e ∈ heur, e < g.edges.length) {prize : Nat → Int} {quota : Int}
    {root : Nat} (hroot : root < g.n) {o : SolveOptions} (hd : o.coverDisjoint = false) (hs : o.coverShortest = false) {disjoint : Nat → Int} {pick : Pick}
    {scip : Problem → ScipOutcome} {order : Nat → List Nat} (ho : ∀ n, (order n).Perm (List.range n)) {k : Int}
    (hscip : ∀ P, ScipSpec k P (order P.graph.edges.length) (scip P)) (hprize : o.cycleCover = true → ∀ v < g.n, 0 ≤ prize v) :
    ∃ st ps, solvePCTSP scip order g heur cost prize quota root o disjoint pick = .ok (st, ps) ∧
      (ps = [] ∨ ∃ t, Feas g prize quota root t ∧ EdgesOfTour t ps) ∧
      (st = .optimal → ∃ t, Feas g prize quota root t ∧ EdgesOfTour t ps ∧ ∀ t', Feas g prize quota root t' →
        walkCost g cost t + tourPrize (fun v => pairCost g cost v v) t ≤ walkCost g cost t' + tourPrize (fun v => pairCost g cost v v) t') ∧
      (st = .infeasible → ps = [] ∧ ∀ t, ¬ Feas g prize quota root t) := by
  obtain ⟨P, h1, hPg, hPc, hPp, hPq, hPr, hPcov, hPcc, hProws⟩ := buildProblem_loops (cost := cost) hg hheur prize quota hroot hd hs disjoint pick
  have hP := ho P.graph.edges.length
  have hsnd : Sound { P with cost := fun _ => 0 } 0 := by
    refine ⟨by rw [hPg]; exact hg, by rw [hPg, hPr]; exact hroot, fun _ _ _ => rfl, fun _ _ => Int.le_refl _, ?_, P.rows, [], ?_, by simp, by simp⟩
    · intro hon v hv
      rw [hPp]
      exact hprize (by rw [← hPcc]; exact hon) v (by rw [← hPg]; exact hv)
    · rw [hPg, hPp, hPq, hPr]; exact hProws
  have hkept : ∀ t, KeptBy { P with cost := fun _ => 0 } 0 t := fun t h => absurd h (by decide)
  have hspec := (hscip P).forget hPcov
  have hacc : ∀ {y}, Accepted { P with cost := fun _ => 0 } (order P.graph.edges.length) y ↔ Accepted P (order P.graph.edges.length) y :=
    ⟨fun h => ⟨h.binary, h.rows, h.subtour, h.cycle⟩, fun h => ⟨h.binary, h.rows, h.subtour, h.cycle⟩⟩
  have hfeas : ∀ t, Feas P.graph P.prize P.quota P.root t ↔ Feas g prize quota root t := fun t => by rw [hPg, hPp, hPq, hPr]
  have hinf : (scip P).status = .infeasible → (scip P).best = none ∧ ∀ t, ¬ Feas g prize quota root t := fun hst => by
    obtain ⟨a, b⟩ := hsnd.infeasible hP hspec hst
    exact ⟨a, fun t ht => b t ((hfeas t).2 ht) (hkept t)⟩
  rw [solvePCTSP, h1]
  simp only [Res.ok_bind]
  cases hb : (scip P).best with
  | none =>
    refine ⟨(scip P).status, [], rfl, Or.inl rfl, fun hst => ?_, fun hst => ⟨rfl, (hinf hst).2⟩⟩
    obtain ⟨found, added, -, -, hopt, -⟩ := (hscip P).added
    obtain ⟨y, hy, -⟩ := hopt hst
    rw [hb] at hy
    simp at hy
  | some y =>
    obtain ⟨t, es, ht, -, hinc⟩ := hsnd.tour_of_accepted hP (hspec.best y hb)
    obtain ⟨ps, h5, h6⟩ := solution_pairs hP ht hinc
    have hf := (hfeas t).1 ht
    refine ⟨(scip P).status, ps, ?_, Or.inr ⟨t, hf, h6⟩, fun hst => ⟨t, hf, h6, fun t' ht' => ?_⟩, fun hst => ?_⟩
    · have h5' : getVertexPairVectorFromEdgeSubset P.graph (getSolutionEdges P.graph (order P.graph.edges.length) fun e => decide (0 < y e)) = .ok ps := h5
      simp only [h5', Res.ok_bind]
      rfl
    · obtain ⟨found, added, hfound, hadd, hopt, -⟩ := (hscip P).added
      obtain ⟨y', hy', hle⟩ := hopt hst
      obtain rfl : y = y' := by rw [hb] at hy'; exact Option.some.inj hy'
      obtain ⟨es', z, hinc', hbin⟩ := incidence_exists ht'.tour ht'.three
      have hinc'' : IncidenceOf P.graph t' es' z := by rw [hPg]; exact hinc'
      have hz := hsnd.accepted_of_tour hP ((hfeas t').2 ht') (hkept t') hinc'' hbin
      have h7 := hle z (hacc.1 hz) fun row hr => by
        obtain ⟨found', added', -, hadd', -⟩ := hspec.added
        refine hsnd.added_scaled (k := k) (found := found) hP ((hfeas t').2 ht') hinc'' (fun dist hd => ?_) ?_
        · have : dist ∈ P.covers := hd
          rw [hPcov] at this
          simp at this
        · cases hadd row hr with
          | subtour hvisit hx hc hs hrow => exact .subtour hvisit ⟨hx.pos, hx.bounds, hx.rows⟩ hc hs hrow
          | cycle hon hx hc hs hrow => exact .cycle hon ⟨hx.pos, hx.bounds, hx.rows⟩ hc hs hrow
          | cover hdist => rw [hPcov] at hdist; simp at hdist
      have hinc0 : IncidenceOf g t es y := by
        have : IncidenceOf P.graph t es y := hinc
        rw [hPg] at this
        exact this
      rw [hPg, hPc, objective_loops hg cost hf.tour hf.three hinc0, objective_loops hg cost ht'.tour ht'.three hinc'] at h7
      exact h7
    · have := (hinf hst).1
      rw [hb] at this
      simp at this

end Pctsp
