import Verif.Lemmas.TwiceVec

/-! Helper lemmas: the solver on a graph in which edges are listed several times. -/

namespace Pctsp

variable {g g' : Graph} {cost cost' : Nat → Int}

/-- The edges inside a set that are in a row are the first copies. -/
theorem induced_firsts {vs es : List Nat} (hr : ∀ v ∈ vs, v < g.n) (hnd : vs.Nodup) (h : getEdgesInducedByVertices g vs = .ok es) (x : Nat → Int) :
    (es.map x).sum = edgeSum g (firsts g x) (inside g fun v => decide (v ∈ vs)) := by
  obtain ⟨h1, h2, h3⟩ := induced_spec hr hnd h
  have hfirst : ∀ e ∈ es, isFirst g e = true := by
    intro e he
    rw [getEdgesInduced_ok vs hr] at h
    simp only [Res.ok.injEq] at h
    subst h
    obtain ⟨⟨a, b⟩, -, hp⟩ := List.mem_filterMap.1 he
    simp only at hp
    rw [isFirst, decide_eq_true_eq]
    have h4 : und (endsOf g e) = und (a, b) := by
      rcases edgeIdx_eq_some hp with h | h
      · rw [endsOf_eq h]
      · rw [endsOf_eq h, und_eq_iff]; exact Or.inr ⟨rfl, rfl⟩
    rw [firstOf, edgeIdx_und h4, hp]
    rfl
  have hperm : es.Perm ((List.range g.edges.length).filter fun e => inside g (fun v => decide (v ∈ vs)) e && isFirst g e) := by
    rw [List.perm_ext_iff_of_nodup h1 (List.nodup_range.filter _)]
    intro e
    rw [List.mem_filter, List.mem_range]
    constructor
    · intro he
      obtain ⟨p, hp, k1, k2, k3⟩ := h2 e he
      exact ⟨(List.getElem?_eq_some_iff.1 hp).1, by simp [inside, hp, k1, k2, k3, hfirst e he]⟩
    · rintro ⟨hlt, hin⟩
      rw [inside, endsOf_getElem hlt] at hin
      simp only [Bool.and_eq_true, decide_eq_true_eq, isFirst] at hin
      refine h3 _ hin.1.2.1 _ hin.1.2.2 hin.1.1 e ?_
      rw [(firstOf_spec hlt).1, hin.2]
  rw [sum_eq_of_perm (hperm.map x)]
  have h4 := edgeSum_eq g x fun e => inside g (fun v => decide (v ∈ vs)) e && isFirst g e
  rw [edgeSum] at h4
  rw [h4, edgeSum_eq]
  congr 1
  refine List.map_congr_left fun e _ => ?_
  rw [firsts, isFirst]
  by_cases h5 : inside g (fun v => decide (v ∈ vs)) e = true <;> by_cases h6 : firstOf g e = e <;> simp [h5, h6]

/-- A row of a set that the root and the target are not both in is satisfied. -/
theorem OneLoop.secRow_valid {prize : Nat → Int} {quota : Int} {root : Nat} {t : List Nat} {M N : List (Nat × Nat)} (hg : OneLoop g)
    (h : HalfTour g prize quota root t M N) {y : Nat → Int} (hv : HalfVec g M N y) {p : List Nat × Nat} (hp : GoodPair g root p) {row : Row}
    (hrow : SecRow g p.1 p.2 row) : row.Sat y := by
  obtain ⟨es, hes, hact⟩ := hrow.act
  have h0 : ∀ e < g.edges.length, 0 ≤ firsts g y e := by
    intro e he
    rw [firsts]
    have := hv.binary hg e he
    split <;> omega
  have h1 := handshake g (firsts g y) hp.nodup
  rw [← induced_firsts hp.lt hp.nodup hes] at h1
  have h2 := edgeSum_nonneg h0 (crosses g fun v => decide (v ∈ p.1))
  have h3 : (p.1.map fun v => edgeSum g (firsts g y) (incident g v)) = p.1.map (loopVal g y) :=
    List.map_congr_left fun v hvm => hg.half_degree h hv (hp.lt v hvm)
  rw [h3] at h1
  have h4 : ∀ v < g.n, 0 ≤ loopVal g y v := fun v hvn => by rw [hv.loop v hvn]; split <;> decide
  have h5 : ∀ v ∈ p.1, loopVal g y v ≤ (p.1.map (loopVal g y)).sum := fun v hvm =>
    List.single_le_sum (fun z hz => by obtain ⟨w, hw, rfl⟩ := List.mem_map.1 hz; exact h4 w (hp.lt w hw)) _ (List.mem_map_of_mem hvm)
  have h6 : loopVal g y p.2 ≤ 1 := by rw [hv.loop _ hp.target]; split <;> decide
  have h7 := h4 p.2 hp.target
  rw [Row.Sat, hrow.lhs, hrow.rhs, hact]
  simp only [reduceCtorEq, Option.some.injEq, forall_eq', false_imp_iff, implies_true, true_and]
  by_cases ht : p.2 ∈ p.1
  · have := h5 _ ht
    omega
  · have hr : root ∈ p.1 := by
      by_contra hr
      exact hp.sep ⟨fun h => absurd h hr, fun h => absurd h ht⟩
    have h8 := h5 _ hr
    rw [hv.loop root (hp.lt _ hr), if_pos h.root] at h8
    omega

theorem connected_of_firsts {root : Nat} (hroot : root < g.n) {q : Int} {x : Nat → Int} (hq : 0 < q) (h1 : loopVal g x root = q)
    (h2 : ∀ v < g.n, edgeSum g (weighted g x) (incident g v) = 2 * loopVal g x v) : ∃ v, v ≠ root ∧ SupportConnected g x root v := by
  by_contra hcon
  have h3 : edgeSum g (weighted g x) (incident g root) ≤ 0 := by
    have : ∀ l : List Int, (∀ a ∈ l, a ≤ 0) → l.sum ≤ 0 := by
      intro l
      induction l with
      | nil => simp
      | cons a l ih =>
        intro h
        have := ih fun a ha => h a (by simp [ha])
        have := h a (by simp)
        rw [List.sum_cons]
        omega
    refine this _ fun a ha => ?_
    obtain ⟨e, he, rfl⟩ := List.mem_map.1 ha
    obtain ⟨he1, he2⟩ := List.mem_filter.1 he
    rw [weighted]
    refine Int.mul_nonpos_of_nonneg_of_nonpos (by omega) ?_
    rw [firsts]
    split
    swap
    · exact Int.le_refl 0
    by_contra hpos
    obtain ⟨hlt, hne⟩ := incident_ne he2
    have hp := endsOf_getElem hlt
    rw [incident, hp] at he2
    simp only [Bool.and_eq_true, decide_eq_true_eq, Bool.or_eq_true, beq_iff_eq] at he2
    rcases he2.2 with h | h
    · refine hcon ⟨(endsOf g e).2, by rw [← h]; exact hne.symm, Relation.ReflTransGen.single ⟨e, Or.inl ?_, by omega⟩⟩
      rw [← h]; exact hp
    · refine hcon ⟨(endsOf g e).1, by rw [← h]; exact hne, Relation.ReflTransGen.single ⟨e, Or.inr ?_, by omega⟩⟩
      rw [← h]; exact hp
  have := h2 root hroot
  omega

/-- The rows of a separation round. -/
theorem OneLoop.sepalp_rows (hg : OneLoop g) (sv : Solver) (flow : MaxFlow) {visit : Visit} (hself : ∀ es s, visit es s s = true) {order : List Nat}
    (ho : order.Perm (List.range g.edges.length)) (q : Int) {x : Nat → Int} {root m : Nat} (hroot : root < g.n) {ids : List Nat}
    (hc : IsComponents g x m ids) (hcon : ∃ v, v ≠ root ∧ SupportConnected g x root v) (d f : Bool) (st : SepState) {st' : SepState} {k l : Nat}
    (h : sepalp sv g g.hasVar flow visit order q x root m ids d f st = .ok (st', k, l)) {row : Row} (hrow : row ∈ st'.added) (hnew : row ∉ st.added) :
    ∃ p, GoodPair g root p ∧ SecRow g p.1 p.2 row := by
  obtain ⟨rc, hrc, heq⟩ := separateSubtour_eq sv flow visit order q x hroot hc
  rw [sepalp, heq] at h
  obtain ⟨⟨st1, n1⟩, h1, h2⟩ := Res.bind_eq_ok.1 h
  have k1 : row ∈ st1.added → ∃ p, GoodPair g root p ∧ SecRow g p.1 p.2 row := by
    intro hr
    cases d with
    | false =>
      rw [if_neg (by simp)] at h1
      cases h1
      exact absurd hr hnew
    | true =>
      rw [if_pos rfl] at h1
      obtain ⟨pairs, rows, a1, a2, -, a3, -⟩ :=
        separateSubtourDisjoint_eq sv hg.loops_mem hroot (isComponents_labels hc) { st with result := .didNotFind }
      rw [a1] at h1
      cases h1
      rw [offerAll_added] at hr
      rcases List.mem_append.1 hr with hr | hr
      · exact absurd hr hnew
      · obtain ⟨p, hp, hs⟩ := forall₂_mem_right a2 (List.mem_filter.1 hr).1
        obtain ⟨b1, b2, b3, b4⟩ := a3 p hp
        exact ⟨p, ⟨fun v hv => ((b4 v).1 hv).1, b1, ((b4 _).1 b2).1, fun hiff => b3 (hiff.2 b2)⟩, hs⟩
  cases f with
  | false =>
    simp only [Bool.false_eq_true, if_false] at h2
    cases h2
    exact k1 hrow
  | true =>
    simp only [if_true] at h2
    obtain ⟨⟨st2, n2⟩, h3, h4⟩ := Res.bind_eq_ok.1 h2
    cases h4
    obtain ⟨ne, des, sr, pairs, rows, -, -, -, a1, a2, a3, -⟩ :=
      maxflow_round sv hg.wf hg.loops_mem flow hself order q x ((root_kept hg.wf ho hrc).2 hcon) st1
    rw [a1] at h3
    cases h3
    rw [offerAll_added] at hrow
    rcases List.mem_append.1 hrow with hr | hr
    · exact k1 hr
    · obtain ⟨p, hp, hs⟩ := forall₂_mem_right a2 (List.mem_filter.1 hr).1
      exact ⟨p, a3 p hp, hs⟩

/-! ### The graph of the model -/

theorem LoopsAdded.oneLoop (h : LoopsAdded g cost g' cost') (hwf : g.WF) (hno : ∀ p ∈ g.edges, p.1 ≠ p.2) : OneLoop g' where
  wf e he := by
    rw [h.edges] at he
    rw [h.n]
    simp only [List.mem_append, List.mem_map, List.mem_range] at he
    rcases he with he | ⟨v, hv, rfl⟩
    · exact hwf e he
    · exact ⟨hv, hv⟩
  loops v hv := by
    rw [h.n] at hv
    rw [h.edges, List.count_append, List.count_eq_zero_of_not_mem fun hm => hno _ hm rfl, count_loops, if_pos hv]

theorem LoopsAdded.times (h : LoopsAdded g cost g' cost') {p : Nat × Nat} (hne : p.1 ≠ p.2) : timesListed g' p = timesListed g p := by
  rw [timesListed, timesListed, h.edges, List.map_append, List.count_append]
  have h1 : ((((List.range g.n).map fun v => (v, v)).map und).count (und p)) = 0 := by
    refine List.count_eq_zero_of_not_mem fun hm => ?_
    simp only [List.map_map, List.mem_map, Function.comp] at hm
    obtain ⟨v, -, hv⟩ := hm
    obtain ⟨a, b⟩ := p
    rw [und_eq_iff] at hv
    simp only at hne
    omega
  rw [h1]
  rfl

theorem LoopsAdded.half (h : LoopsAdded g cost g' cost') {prize : Nat → Int} {quota : Int} {root : Nat} {t : List Nat} {M N : List (Nat × Nat)} :
    HalfTour g' prize quota root t M N ↔ HalfTour g prize quota root t M N := by
  constructor
  · intro a
    have hp := a.parts.2.2
    exact ⟨(h.tour a.two).1 a.tour, a.two, a.edges, a.apart, a.root, a.prize,
      fun p hm => by rw [← h.times (hp p (List.mem_append_left _ hm)).1]; exact a.twice p hm,
      fun p hm => by rw [← h.times (hp p (List.mem_append_right _ hm)).1]; exact a.more p hm⟩
  · intro a
    have hp := a.parts.2.2
    exact ⟨(h.tour a.two).2 a.tour, a.two, a.edges, a.apart, a.root, a.prize,
      fun p hm => by rw [h.times (hp p (List.mem_append_left _ hm)).1]; exact a.twice p hm,
      fun p hm => by rw [h.times (hp p (List.mem_append_right _ hm)).1]; exact a.more p hm⟩

theorem LoopsAdded.once (h : LoopsAdded g cost g' cost') {prize : Nat → Int} {quota : Int} {root : Nat} {t : List Nat} :
    OnceTour g' prize quota root t ↔ OnceTour g prize quota root t := by
  have key : ∀ {g : Graph}, IsTour g root t → 4 ≤ t.length → ∀ p ∈ consec t, p.1 ≠ p.2 := by
    intro g ht hlen
    obtain ⟨m, rfl⟩ := ht.shape
    have hnd := ht.nodup
    rw [dropLast_tour] at hnd
    exact cycle_no_loop hnd (by rintro rfl; simp at hlen)
  constructor
  · intro a
    exact ⟨⟨(h.tour (by have := a.three; omega)).1 a.tour, a.three, a.prize⟩, fun p hp => by rw [← h.times (key a.tour a.three p hp)]; exact a.once p hp⟩
  · intro a
    exact ⟨⟨(h.tour (by have := a.three; omega)).2 a.tour, a.three, a.prize⟩, fun p hp => by rw [h.times (key a.tour a.three p hp)]; exact a.once p hp⟩

theorem LoopsAdded.halfCost (h : LoopsAdded g cost g' cost') {prize : Nat → Int} {quota : Int} {root : Nat} {t : List Nat} {M N : List (Nat × Nat)}
    (ht : HalfTour g prize quota root t M N) : halfCost g' cost' M = Pctsp.halfCost g cost M := by
  rw [Pctsp.halfCost, Pctsp.halfCost]
  congr 1
  refine List.map_congr_left fun p hp => ?_
  have hadj := (ht.parts.2.2 p (List.mem_append_left _ hp)).2
  obtain ⟨i, hi⟩ := Option.isSome_iff_exists.1 (edgeIdx_isSome_iff.2 hadj)
  rw [pairCost_eq hi, pairCost_eq ((h.edgeIdx hadj).trans hi)]
  refine h.old i ?_
  rcases edgeIdx_eq_some hi with h | h <;> exact (List.getElem?_eq_some_iff.1 h).1

theorem LoopsAdded.answer (h : LoopsAdded g cost g' cost') {prize : Nat → Int} {quota : Int} {root : Nat} {ps : List (Nat × Nat)} {c : Int}
    (ha : AnswerOf g' cost' prize quota root ps c) : AnswerOf g cost prize quota root ps c := by
  cases ha with
  | once a b => rw [h.walkCost (h.once.1 a).tour.walk]; exact .once (h.once.1 a) b
  | half a b => rw [h.halfCost (h.half.1 a)]; exact .half (h.half.1 a) b

theorem LoopsAdded.answer_back (h : LoopsAdded g cost g' cost') {prize : Nat → Int} {quota : Int} {root : Nat} {ps : List (Nat × Nat)} {c : Int}
    (ha : AnswerOf g cost prize quota root ps c) : AnswerOf g' cost' prize quota root ps c := by
  cases ha with
  | once a b => rw [← h.walkCost a.tour.walk]; exact .once (h.once.2 a) b
  | half a b => rw [← h.halfCost a]; exact .half (h.half.2 a) b

theorem LoopsAdded.firstCosts (h : LoopsAdded g cost g' cost') (hc : FirstCosts g cost) : FirstCosts g' cost' := by
  intro e p he hne
  by_cases hlt : e < g.edges.length
  · rw [h.old e hlt]
    rw [h.edges, List.getElem?_append_left hlt] at he
    exact hc e p he fun hi => hne (by rw [h.edgeIdx (Or.inl (List.mem_of_getElem? he)), hi])
  · have he' := he
    rw [h.edges, List.getElem?_append_right (by omega)] at he'
    obtain ⟨v, -, hv⟩ := List.mem_map.1 (List.mem_of_getElem? he')
    subst hv
    exact h.loop e v he

theorem buildProblem_listed (hwf : g.WF) (hno : ∀ p ∈ g.edges, p.1 ≠ p.2) {heur : List Nat} (hheur : ∀ e ∈ heur, e < g.edges.length)
    (prize : Nat → Int) (quota : Int) {root : Nat} (hroot : root < g.n) {o : SolveOptions} (hd : o.coverDisjoint = false) (hs : o.coverShortest = false)
    (disjoint : Nat → Int) (pick : Pick) :
    ∃ P, buildProblem g heur cost prize quota root o disjoint pick = .ok P ∧ LoopsAdded g cost P.graph P.cost ∧ P.prize = prize ∧ P.quota = quota ∧
      P.root = root ∧ P.covers = [] ∧ P.cycleCover = o.cycleCover ∧ modelWithoutSECs P.graph prize quota root = .ok P.rows := by
  have hadd := ensureSelfLoops_added cost hwf hno
  have hdbl := hadd.oneLoop hwf hno
  rcases hens : ensureSelfLoops g cost with ⟨g', cost'⟩
  rw [hens] at hadd hdbl
  simp only at hadd hdbl
  obtain ⟨rows, hrows, -⟩ := hdbl.rows prize quota (root := root) (by rw [hadd.n]; exact hroot)
  have hlt' : ∀ e ∈ heur, e < g'.edges.length := fun e he => by
    rw [hadd.edges, List.length_append]
    have := hheur e he
    omega
  obtain ⟨vars, hvars⟩ := heuristicVars_ok hdbl.wf hdbl.loops_mem hlt'
  have hwarm : ∃ warm, warmStart g' heur = .ok warm := by
    rw [warmStart]
    split
    · exact ⟨some vars, by rw [hvars]; rfl⟩
    · exact ⟨none, rfl⟩
  obtain ⟨warm, hwarm⟩ := hwarm
  refine ⟨{ graph := g', cost := cost', prize, quota, root, rows, warm, covers := [], cycleCover := o.cycleCover, secDisjoint := o.secDisjoint,
            secMaxflow := o.secMaxflow }, ?_, hadd, rfl, rfl, rfl, rfl, rfl, hrows⟩
  rw [buildProblem, hens]
  simp only [hrows, Res.ok_bind, hwarm, includeCovers, disjointCover, shortestCover, hd, hs, Res.pure_eq]
  simp

/-- The solver on a graph without self-loops in which edges may be listed several times, without cost cover. -/
theorem solve_listed (hwf : g.WF) (hno : ∀ p ∈ g.edges, p.1 ≠ p.2) {heur : List Nat} (hheur : ∀ e ∈ heur, e < g.edges.length) {prize : Nat → Int}
    {quota : Int} {root : Nat} (hroot : root < g.n) {o : SolveOptions} (hd : o.coverDisjoint = false) (hs : o.coverShortest = false)
    {disjoint : Nat → Int} {pick : Pick} {scip : Problem → ScipOutcome} {order : Nat → List Nat} (ho : ∀ n, (order n).Perm (List.range n)) {k : Int}
    (hscip : ∀ P, ScipSpec k P (order P.graph.edges.length) (scip P)) (hc : FirstCosts g cost) :
    ∃ st ps, solvePCTSP scip order g heur cost prize quota root o disjoint pick = .ok (st, ps) ∧
      (ps = [] ∨ ∃ c, AnswerOf g cost prize quota root ps c) ∧
      (st = .optimal → ∃ c, AnswerOf g cost prize quota root ps c ∧ (o.cycleCover = false → ∀ ps' c', AnswerOf g cost prize quota root ps' c' → c ≤ c') ∧
        ((∀ v < g.n, 0 ≤ prize v) → ∀ t, OnceTour g prize quota root t → c ≤ walkCost g cost t)) ∧
      (st = .infeasible → ps = [] ∧ (o.cycleCover = false → ∀ ps' c', ¬ AnswerOf g cost prize quota root ps' c') ∧
        ((∀ v < g.n, 0 ≤ prize v) → ∀ t, ¬ OnceTour g prize quota root t)) := by
  obtain ⟨P, h1, hadd, hPp, hPq, hPr, hPcov, hPcc, hProws⟩ := buildProblem_listed (cost := cost) hwf hno hheur prize quota hroot hd hs disjoint pick
  have hP := ho P.graph.edges.length
  have hone := hadd.oneLoop hwf hno
  have hroot' : root < P.graph.n := by rw [hadd.n]; exact hroot
  have hfc := hadd.firstCosts hc
  have hof : ∀ y, Accepted P (order P.graph.edges.length) y → AnswerOf g cost prize quota root
      ((getSolutionEdges P.graph (order P.graph.edges.length) fun e => decide (0 < y e)).map (endsOf P.graph)) (objective P.graph P.cost y) := fun y hy =>
    hadd.answer (hone.answer_of_accepted hroot' hProws hP hy.binary hy.rows hy.subtour hadd.loop hfc)
  -- an answer of the given kind is accepted and kept by all rows
  have hto : ∀ {ps c}, AnswerOf g cost prize quota root ps c → (P.cycleCover = false ∨ (∀ v < g.n, 0 ≤ prize v) ∧ ∃ t, OnceTour g prize quota root t ∧
      walkCost g cost t = c) → ∃ z, Accepted P (order P.graph.edges.length) z ∧ objective P.graph P.cost z = c ∧
        ∀ found row, Adds k P (order P.graph.edges.length) found row → row.Sat z := by
    intro ps c ha hcase
    have hlp : ∀ {q x}, LpSolution P q x → ∃ v, v ≠ root ∧ SupportConnected P.graph x root v := by
      intro q x hx
      obtain ⟨rows', a1, -, a2⟩ := hone.rows prize quota hroot'
      obtain rfl : rows' = P.rows := by rw [a1] at hProws; exact Res.ok.inj hProws
      obtain ⟨b1, b2⟩ := a2 q x hx.rows
      exact connected_of_firsts hroot' hx.pos b1 b2
    have honce : ∀ {t}, OnceTour g prize quota root t → (P.cycleCover = true → ∀ v < g.n, 0 ≤ prize v) → ∃ z,
        Accepted P (order P.graph.edges.length) z ∧ objective P.graph P.cost z = walkCost g cost t ∧
          ∀ found row, Adds k P (order P.graph.edges.length) found row → row.Sat z := by
      intro t ht hnn
      have ht' := hadd.once.2 ht
      have hlen : 3 ≤ t.length := by have := ht.three; omega
      obtain ⟨es, z, hinc, hbin⟩ := incidence_exists ht'.tour ht'.three
      obtain ⟨a, b⟩ := hone.accepted_of_once hroot' hProws hP hbin ht' hinc
      obtain ⟨k1, -, -⟩ := incidence_nonloop ht'.tour hlen hinc
      have hnn' : P.cycleCover = true → ∀ v < P.graph.n, 0 ≤ P.prize v := fun h v hv => by
        rw [hPp]; exact hnn h v (by rw [← hadd.n]; exact hv)
      have htour : IsTour P.graph P.root t := by rw [hPr]; exact ht'.tour
      have hq : P.quota ≤ tourPrize P.prize t := by rw [hPp, hPq]; exact ht'.prize
      refine ⟨z, ⟨fun e _ => hbin e, a, b, fun hon m ids hcomp => ?_⟩, ?_, fun found row hr => ?_⟩
      · exact C37_check_accepts hone.wf (hnn' hon) (by rw [hPr]; exact hroot') hcomp htour hlen hinc hq
      · rw [objective_picked (fun e _ => hbin e) hadd.loop hfc, halfCost_und (N := consec t)
          ((((ht'.picked hinc).1.map _).map und).trans k1), ← hadd.walkCost ht.tour.walk]
        rfl
      · cases hr with
        | @subtour sv flow visit q x m k' l ids st _ hvisit hx hcomp hs hrow =>
          obtain ⟨p, hp, hsr⟩ := hone.sepalp_rows sv flow hvisit hP q (by rw [hPr]; exact hroot') hcomp (by rw [hPr]; exact hlp hx) _ _ _ hs hrow (by simp)
          exact secRow_valid_sep hone.loops_mem hp hsr htour hinc
        | @cycle sv q x m ids st _ hon hx hcomp hs hrow =>
          obtain ⟨vs, -, -, a, b⟩ := C37_valid sv hone.loops_mem (hnn' hon) P.quota (root := P.root) (by rw [hPr]; exact hroot') (isComponents_labels hcomp)
            ⟨[], [], .didNotRun⟩
          by_cases hq' : P.quota ≤ prizeSum P.prize vs
          · have := a hq'
            rw [hs] at this
            cases this
            simp at hrow
          · obtain ⟨st', row', c, d, e⟩ := b (by omega)
            have hmem := cycleCover_added (by simp) hs hrow
            rw [hs] at c
            cases c
            rw [d] at hmem
            simp only [List.nil_append, List.mem_singleton] at hmem
            subst hmem
            exact e t es z htour hinc hq
        | cover hdist => rw [hPcov] at hdist; simp at hdist
    rcases hcase with hcc | ⟨hnn, t, ht, rfl⟩
    swap
    · exact honce ht fun _ => hnn
    cases ha with
    | once ht _ => exact honce ht fun h => by rw [hcc] at h; simp at h
    | @half t M N _ ht _ =>
      have ht' := hadd.half.2 ht
      obtain ⟨z, hv⟩ := hone.half_exists M N
      obtain ⟨a, b⟩ := hone.accepted_of_half hroot' hProws hP ht' hv
      refine ⟨z, ⟨hv.binary hone, a, b, fun h => by rw [hcc] at h; simp at h⟩, ?_, fun found row hr => ?_⟩
      · rw [objective_picked (hv.binary hone) hadd.loop hfc, halfCost_und (half_picked ht' hv).1, hadd.halfCost ht]
      · cases hr with
        | @subtour sv flow visit q x m k' l ids st _ hvisit hx hcomp hs hrow =>
          obtain ⟨p, hp, hsr⟩ := hone.sepalp_rows sv flow hvisit hP q (by rw [hPr]; exact hroot') hcomp (by rw [hPr]; exact hlp hx) _ _ _ hs hrow (by simp)
          rw [hPr] at hp
          exact hone.secRow_valid ht' hv hp hsr
        | cycle hon => rw [hcc] at hon; simp at hon
        | cover hdist => rw [hPcov] at hdist; simp at hdist
  have hinf : (scip P).status = .infeasible → (scip P).best = none ∧ (o.cycleCover = false → ∀ ps' c', ¬ AnswerOf g cost prize quota root ps' c') ∧
      ((∀ v < g.n, 0 ≤ prize v) → ∀ t, ¬ OnceTour g prize quota root t) := by
    intro hst
    obtain ⟨found, added, -, hadds, -, hi⟩ := (hscip P).added
    obtain ⟨a, b⟩ := hi hst
    refine ⟨a, fun hcc ps' c' ha => ?_, fun hnn t ht => ?_⟩
    · obtain ⟨z, h2, -, h3⟩ := hto ha (Or.inl (hPcc.trans hcc))
      obtain ⟨row, hr, hn⟩ := b z h2
      exact hn (h3 found row (hadds row hr))
    · obtain ⟨z, h2, -, h3⟩ := hto (.once ht (edgesOfTour_of_und (ps := consec t) (List.Perm.refl _))) (Or.inr ⟨hnn, t, ht, rfl⟩)
      obtain ⟨row, hr, hn⟩ := b z h2
      exact hn (h3 found row (hadds row hr))
  rw [solvePCTSP, h1]
  simp only [Res.ok_bind]
  cases hb : (scip P).best with
  | none =>
    refine ⟨(scip P).status, [], rfl, Or.inl rfl, fun hst => ?_, fun hst => ⟨rfl, (hinf hst).2⟩⟩
    obtain ⟨found, added, -, -, hopt, -⟩ := (hscip P).added
    obtain ⟨y, hy, -⟩ := hopt hst
    rw [hb] at hy
    simp at hy
  | some y =>
    have hans := hof y ((hscip P).best y hb)
    have hlt : ∀ e ∈ getSolutionEdges P.graph (order P.graph.edges.length) (fun e => decide (0 < y e)), e < P.graph.edges.length := by
      intro e he
      obtain ⟨u, v, hp, -⟩ := (mem_getSolutionEdges hP).1 he
      exact (List.getElem?_eq_some_iff.1 hp).1
    refine ⟨(scip P).status, _, by simp only [pairVector_ok _ hlt, Res.ok_bind]; rfl, Or.inr ⟨_, hans⟩, fun hst => ⟨_, hans, ?_⟩, fun hst => ?_⟩
    · obtain ⟨found, added, hfound, hadds, hopt, -⟩ := (hscip P).added
      obtain ⟨y', hy', hle⟩ := hopt hst
      obtain rfl : y = y' := by rw [hb] at hy'; exact Option.some.inj hy'
      refine ⟨fun hcc ps' c' ha => ?_, fun hnn t ht => ?_⟩
      · obtain ⟨z, h2, h3, h4⟩ := hto ha (Or.inl (hPcc.trans hcc))
        rw [← h3]
        exact hle z h2 fun row hr => h4 found row (hadds row hr)
      · obtain ⟨z, h2, h3, h4⟩ := hto (.once ht (edgesOfTour_of_und (ps := consec t) (List.Perm.refl _))) (Or.inr ⟨hnn, t, ht, rfl⟩)
        rw [← h3]
        exact hle z h2 fun row hr => h4 found row (hadds row hr)
    · have := (hinf hst).1
      rw [hb] at this
      simp at this

end Pctsp
