import Verif.Model.BasicSolve
import Verif.Lemmas.SolveBind

/-! Helper lemmas: the basic entry point of the solver. -/

namespace Pctsp

/-- The vertices are the numbers up to the largest one in the list. -/
theorem lt_addEdges_n {v : Nat} (es : List (Nat × Nat)) (g : Graph) : v < (g.addEdges es).n ↔ v < g.n ∨ ∃ x ∈ endpoints es, v ≤ x := by
  induction es generalizing g with
  | nil => simp [Graph.addEdges, endpoints]
  | cons e es ih =>
    have h : (g.addEdges (e :: es)) = (g.addEdge e.1 e.2).addEdges es := rfl
    rw [h, ih]
    simp only [Graph.addEdge, endpoints, List.flatMap_cons, List.mem_append, List.mem_cons, List.not_mem_nil, or_false]
    constructor
    · rintro (h | ⟨x, hx, hv⟩)
      · by_cases h1 : v < g.n
        · exact Or.inl h1
        · by_cases h2 : v ≤ e.1
          · exact Or.inr ⟨e.1, Or.inl (Or.inl rfl), h2⟩
          · exact Or.inr ⟨e.2, Or.inl (Or.inr rfl), by omega⟩
      · exact Or.inr ⟨x, Or.inr hx, hv⟩
    · rintro (h | ⟨x, (rfl | rfl) | hx, hv⟩)
      · left; omega
      · left; omega
      · left; omega
      · exact Or.inr ⟨x, hx, hv⟩

theorem lt_graphOf_n {v : Nat} {es : List (Nat × Nat)} : v < (graphOf es).n ↔ ∃ x ∈ endpoints es, v ≤ x := by
  rw [graphOf, lt_addEdges_n]; simp

theorem basic_adj {es : List (Nat × Nat)} {u v : Nat} : Adj (graphOf es) u v ↔ AdjIn es u v := by rw [Adj, graphOf_edges, AdjIn]

theorem adjIn_mem {es : List (Nat × Nat)} {u v : Nat} (h : AdjIn es u v) : u ∈ endpoints es ∧ v ∈ endpoints es := by
  simp only [endpoints, List.mem_flatMap]
  rcases h with h | h
  · exact ⟨⟨_, h, by simp⟩, ⟨_, h, by simp⟩⟩
  · exact ⟨⟨_, h, by simp⟩, ⟨_, h, by simp⟩⟩

/-- `boost::edge` in the graph of the list. -/
theorem edge_graphOf {es : List (Nat × Nat)} {u v : Nat} (hu : ∃ x ∈ endpoints es, u ≤ x) :
    (graphOf es).edge u v = .ok ((graphOf es).edgeIdx u v) := by rw [Graph.edge, if_pos (lt_graphOf_n.2 hu)]

theorem edgeIdx_graphOf_none {es : List (Nat × Nat)} {u v : Nat} : (graphOf es).edgeIdx u v = none ↔ ¬ AdjIn es u v := by
  rw [← basic_adj, ← edgeIdx_isSome_iff]; simp

theorem setPrizes_ok {n : Nat} (l : List (Nat × Int)) (f : Nat → Int) (h : ∀ x c, (x, c) ∈ l → x < n) : ∃ f', setPrizes n l f = .ok f' := by
  induction l generalizing f with
  | nil => exact ⟨f, rfl⟩
  | cons a l ih =>
    obtain ⟨v, c⟩ := a
    rw [setPrizes, if_pos (h v c (by simp))]
    exact ih _ fun x d hx => h x d (by simp [hx])

theorem setPrizes_ub {n : Nat} (l : List (Nat × Int)) (f : Nat → Int) (h : ∃ x c, (x, c) ∈ l ∧ ¬ x < n) : ∃ s, setPrizes n l f = .ub s := by
  induction l generalizing f with
  | nil => simp at h
  | cons a l ih =>
    obtain ⟨v, c⟩ := a
    rw [setPrizes]
    split
    · rename_i hv
      refine ih _ ?_
      obtain ⟨x, d, hx, hn⟩ := h
      rcases List.mem_cons.1 hx with hx | hx
      · cases hx; exact absurd hv hn
      · exact ⟨x, d, hx, hn⟩
    · exact ⟨_, rfl⟩

theorem setPrizes_spec {n : Nat} {π : Nat → Int} {l : List (Nat × Int)} {f f' : Nat → Int} (h : setPrizes n l f = .ok f') (hl : ∀ x c, (x, c) ∈ l → c = π x) (v : Nat) :
    ((∃ c, (v, c) ∈ l) → f' v = π v) ∧ ((∀ c, (v, c) ∉ l) → f' v = f v) := by
  induction l generalizing f with
  | nil => rw [setPrizes] at h; cases h; simp
  | cons a l ih =>
    obtain ⟨x, c⟩ := a
    rw [setPrizes] at h
    split at h
    · obtain ⟨h1, h2⟩ := ih h fun x d hx => hl x d (by simp [hx])
      refine ⟨fun hv => ?_, fun hno => ?_⟩
      · by_cases hex : ∃ c, (v, c) ∈ l
        · exact h1 hex
        · rw [h2 fun c hc => hex ⟨c, hc⟩, upd]
          split
          · rename_i hvx; subst hvx; exact hl _ _ (by simp)
          · rename_i hvx
            obtain ⟨d, hd⟩ := hv
            rcases List.mem_cons.1 hd with hd | hd
            · cases hd; exact absurd rfl hvx
            · exact absurd ⟨d, hd⟩ hex
      · rw [h2 fun d hd => hno d (by simp [hd]), upd, if_neg]
        rintro rfl
        exact hno c (by simp)
    · cases h

theorem setCosts_ok {es : List (Nat × Nat)} (l : List ((Nat × Nat) × Int)) (f : Nat → Int) (h : ∀ p c, (p, c) ∈ l → AdjIn es p.1 p.2) :
    ∃ f', setCosts (graphOf es) l f = .ok f' := by
  induction l generalizing f with
  | nil => exact ⟨f, rfl⟩
  | cons a l ih =>
    obtain ⟨p, c⟩ := a
    have hp := h p c (by simp)
    rw [setCosts, edge_graphOf ⟨_, (adjIn_mem hp).1, Nat.le_refl _⟩]
    obtain ⟨i, hi⟩ := Option.isSome_iff_exists.1 (edgeIdx_isSome_iff.2 (basic_adj.2 hp))
    rw [hi]
    exact ih _ fun q d hq => h q d (by simp [hq])

/-- Every entry is written to the edge it names. -/
theorem setCosts_spec {g : Graph} {val : Nat → Int} {l : List ((Nat × Nat) × Int)} {f f' : Nat → Int} (h : setCosts g l f = .ok f')
    (hl : ∀ p c i, (p, c) ∈ l → g.edgeIdx p.1 p.2 = some i → c = val i) (e : Nat) :
    ((∃ p c, (p, c) ∈ l ∧ g.edgeIdx p.1 p.2 = some e) → f' e = val e) ∧ ((∀ p c, (p, c) ∈ l → g.edgeIdx p.1 p.2 ≠ some e) → f' e = f e) := by
  induction l generalizing f with
  | nil => rw [setCosts] at h; cases h; simp
  | cons a l ih =>
    obtain ⟨p, c⟩ := a
    rw [setCosts, Graph.edge] at h
    split at h
    · simp only [Res.ok_bind] at h
      cases hi : g.edgeIdx p.1 p.2 with
      | none => rw [hi] at h; cases h
      | some i =>
        rw [hi] at h
        obtain ⟨h1, h2⟩ := ih h fun q d j hq => hl q d j (by simp [hq])
        refine ⟨fun hex' => ?_, fun hno => ?_⟩
        · by_cases hex : ∃ p c, (p, c) ∈ l ∧ g.edgeIdx p.1 p.2 = some e
          · exact h1 hex
          · rw [h2 fun q d hq he => hex ⟨q, d, hq, he⟩, upd]
            split
            · rename_i he; subst he; exact hl _ _ _ (by simp) hi
            · rename_i he
              obtain ⟨q, d, hq, hqe⟩ := hex'
              rcases List.mem_cons.1 hq with hq | hq
              · cases hq; rw [hi] at hqe; cases hqe; exact absurd rfl he
              · exact absurd ⟨q, d, hq, hqe⟩ hex
        · rw [h2 fun q d hq => hno q d (by simp [hq]), upd, if_neg]
          rintro rfl
          exact hno p c (by simp) hi
    · cases h

/-- The first key that is no edge. -/
theorem setCosts_throw {es : List (Nat × Nat)} (l : List ((Nat × Nat) × Int)) (f : Nat → Int) {p : Nat × Nat}
    (h : (l.map (·.1)).find? (fun q => decide (¬ AdjIn es q.1 q.2)) = some p) :
    ((∃ x ∈ endpoints es, p.1 ≤ x) → setCosts (graphOf es) l f = .throw (.edgeNotFound p.1 p.2)) ∧
    ((∀ x ∈ endpoints es, x < p.1) → ∃ s, setCosts (graphOf es) l f = .ub s) := by
  induction l generalizing f with
  | nil => simp at h
  | cons a l ih =>
    obtain ⟨q, c⟩ := a
    rw [List.map_cons, List.find?_cons] at h
    by_cases hq : AdjIn es q.1 q.2
    · simp only [hq, not_true_eq_false, decide_false] at h
      obtain ⟨i, hi⟩ := Option.isSome_iff_exists.1 (edgeIdx_isSome_iff.2 (basic_adj.2 hq))
      rw [setCosts, edge_graphOf ⟨_, (adjIn_mem hq).1, Nat.le_refl _⟩, hi]
      exact ih _ h
    · simp only [hq, not_false_eq_true, decide_true, Option.some.injEq] at h
      subst h
      refine ⟨fun hin => ?_, fun hout => ?_⟩
      · rw [setCosts, edge_graphOf hin, edgeIdx_graphOf_none.2 hq]; rfl
      · rw [setCosts, Graph.edge, if_neg fun hlt => ?_]
        · exact ⟨_, rfl⟩
        · obtain ⟨x, hx, hle⟩ := lt_graphOf_n.1 hlt
          have := hout x hx
          omega

/-- An entry 0 for an edge without another entry changes nothing. -/
theorem setCosts_zero {g : Graph} {i : Nat} {p : Nat × Nat} (hp : g.edge p.1 p.2 = .ok (some i)) (l₁ l₂ : List ((Nat × Nat) × Int)) (f : Nat → Int)
    (hf : f i = 0) (h : ∀ q c, (q, c) ∈ l₁ → g.edgeIdx q.1 q.2 ≠ some i) : setCosts g (l₁ ++ (p, 0) :: l₂) f = setCosts g (l₁ ++ l₂) f := by
  induction l₁ generalizing f with
  | nil =>
    rw [List.nil_append, List.nil_append, setCosts, hp]
    have : upd f i 0 = f := by funext j; unfold upd; split <;> simp_all
    simp only [Res.ok_bind, this]
  | cons a l₁ ih =>
    obtain ⟨q, c⟩ := a
    rw [List.cons_append, List.cons_append, setCosts, setCosts, Graph.edge]
    split
    · simp only [Res.ok_bind]
      cases hq : g.edgeIdx q.1 q.2 with
      | none => rfl
      | some j =>
        refine ih _ ?_ fun r d hr => h r d (by simp [hr])
        have := h q c (by simp)
        rw [upd, if_neg, hf]
        rintro rfl
        exact this hq
    · rfl

/-- Later entries for the same edge count. -/
theorem setCosts_later {g : Graph} {i : Nat} {p : Nat × Nat} (hp : g.edge p.1 p.2 = .ok (some i)) (l₁ l₂ : List ((Nat × Nat) × Int)) (d : Int)
    (f f' : Nat → Int) (hf : ∀ j, j ≠ i → f j = f' j) : setCosts g (l₁ ++ (p, d) :: l₂) f = setCosts g (l₁ ++ (p, d) :: l₂) f' := by
  induction l₁ generalizing f f' with
  | nil =>
    rw [List.nil_append, setCosts, setCosts, hp]
    have : upd f i d = upd f' i d := by
      funext j; unfold upd; split
      · rfl
      · exact hf j (by assumption)
    simp only [Res.ok_bind, this]
  | cons a l₁ ih =>
    obtain ⟨q, c⟩ := a
    rw [List.cons_append, setCosts, setCosts, Graph.edge]
    split
    · simp only [Res.ok_bind]
      cases hq : g.edgeIdx q.1 q.2 with
      | none => rfl
      | some j =>
        refine ih _ _ fun j' hj' => ?_
        unfold upd
        split
        · rfl
        · exact hf j' hj'
    · rfl

theorem setCosts_shadow {g : Graph} {i : Nat} {p q : Nat × Nat} (hp : g.edge p.1 p.2 = .ok (some i)) (hq : g.edge q.1 q.2 = .ok (some i))
    (l₁ l₂ l₃ : List ((Nat × Nat) × Int)) (c d : Int) (f : Nat → Int) :
    setCosts g (l₁ ++ (p, c) :: (l₂ ++ (q, d) :: l₃)) f = setCosts g (l₁ ++ (l₂ ++ (q, d) :: l₃)) f := by
  induction l₁ generalizing f with
  | nil =>
    rw [List.nil_append, List.nil_append, setCosts, hp]
    simp only [Res.ok_bind]
    exact setCosts_later hq l₂ l₃ d _ _ fun j hj => by rw [upd, if_neg hj]
  | cons a l₁ ih =>
    obtain ⟨r, e⟩ := a
    rw [List.cons_append, List.cons_append, setCosts, setCosts, Graph.edge]
    split
    · simp only [Res.ok_bind]
      cases hr : g.edgeIdx r.1 r.2 with
      | none => rfl
      | some j => exact ih _
    · rfl

theorem setPrizes_zero {n v : Nat} (hv : v < n) (l₁ l₂ : List (Nat × Int)) (f : Nat → Int) (hf : f v = 0) (h : ∀ c, (v, c) ∉ l₁) :
    setPrizes n (l₁ ++ (v, 0) :: l₂) f = setPrizes n (l₁ ++ l₂) f := by
  induction l₁ generalizing f with
  | nil =>
    rw [List.nil_append, List.nil_append, setPrizes, if_pos hv]
    have : upd f v 0 = f := by funext j; unfold upd; split <;> simp_all
    rw [this]
  | cons a l₁ ih =>
    obtain ⟨x, c⟩ := a
    rw [List.cons_append, List.cons_append, setPrizes, setPrizes]
    split
    · refine ih _ ?_ fun d hd => h d (by simp [hd])
      rw [upd, if_neg, hf]
      rintro rfl
      exact h c (by simp)
    · rfl

theorem startEdges_eq (g : Graph) (heur : List (Nat × Nat)) : startEdges g heur = edgesFromVertexPairs g heur := by
  unfold startEdges; cases heur <;> rfl

theorem edgesFromVertexPairs_basic {es : List (Nat × Nat)} (heur : List (Nat × Nat)) (h : ∀ q ∈ heur, AdjIn es q.1 q.2) :
    ∃ is, edgesFromVertexPairs (graphOf es) heur = .ok is ∧ List.Forall₂ (fun e p => (graphOf es).edgeIdx p.1 p.2 = some e) is heur := by
  induction heur with
  | nil => exact ⟨[], rfl, .nil⟩
  | cons q heur ih =>
    obtain ⟨is, h1, h2⟩ := ih fun q hq => h q (by simp [hq])
    have hq := h q (by simp)
    obtain ⟨i, hi⟩ := Option.isSome_iff_exists.1 (edgeIdx_isSome_iff.2 (basic_adj.2 hq))
    refine ⟨i :: is, ?_, .cons hi h2⟩
    rw [edgesFromVertexPairs, edge_graphOf ⟨_, (adjIn_mem hq).1, Nat.le_refl _⟩, hi]
    simp only [Res.ok_bind, h1]; rfl

theorem startEdges_throw {es : List (Nat × Nat)} (heur : List (Nat × Nat)) {p : Nat × Nat}
    (h : heur.find? (fun q => decide (¬ AdjIn es q.1 q.2)) = some p) :
    ((∃ x ∈ endpoints es, p.1 ≤ x) → edgesFromVertexPairs (graphOf es) heur = .throw (.edgeNotFound p.1 p.2)) ∧
    ((∀ x ∈ endpoints es, x < p.1) → ∃ s, edgesFromVertexPairs (graphOf es) heur = .ub s) := by
  induction heur with
  | nil => simp at h
  | cons q heur ih =>
    rw [List.find?_cons] at h
    by_cases hq : AdjIn es q.1 q.2
    · simp only [hq, not_true_eq_false, decide_false] at h
      obtain ⟨i, hi⟩ := Option.isSome_iff_exists.1 (edgeIdx_isSome_iff.2 (basic_adj.2 hq))
      obtain ⟨h1, h2⟩ := ih h
      rw [edgesFromVertexPairs, edge_graphOf ⟨_, (adjIn_mem hq).1, Nat.le_refl _⟩, hi]
      refine ⟨fun hin => ?_, fun hout => ?_⟩
      · simp only [Res.ok_bind, h1 hin]; rfl
      · obtain ⟨s, hs⟩ := h2 hout
        exact ⟨s, by simp only [Res.ok_bind, hs]; rfl⟩
    · simp only [hq, not_false_eq_true, decide_true, Option.some.injEq] at h
      subst h
      refine ⟨fun hin => ?_, fun hout => ?_⟩
      · rw [edgesFromVertexPairs, edge_graphOf hin, edgeIdx_graphOf_none.2 hq]; rfl
      · rw [edgesFromVertexPairs, Graph.edge, if_neg fun hlt => ?_]
        · exact ⟨_, rfl⟩
        · obtain ⟨x, hx, hle⟩ := lt_graphOf_n.1 hlt
          have := hout x hx
          omega

/-- Without cover rows the choice of Dijkstra's algorithm does not matter. -/
theorem buildProblem_basic (g : Graph) (heur : List Nat) (cost prize : Nat → Int) (quota : Int) (root : Nat) (pick : Pick) :
    buildProblem g heur cost prize quota root basicOptions (fun _ => 0) noPick =
      buildProblem g heur cost prize quota root basicOptions (fun _ => 0) pick := rfl

/-- If there is a solution or the problem is infeasible, the basic entry point does the same as the full one without cover rows. -/
theorem basicSolve_eq {scip : Problem → ScipOutcome} {order : Nat → List Nat} {g : Graph} {heur : List Nat} {cost prize : Nat → Int} {quota : Int}
    {root : Nat} {P : Problem} (pick : Pick) (hP : buildProblem g heur cost prize quota root basicOptions (fun _ => 0) noPick = .ok P)
    (h : (scip P).status = .infeasible ↔ (scip P).best = none) :
    basicSolve scip order g heur cost prize quota root = solvePCTSP scip order g heur cost prize quota root basicOptions (fun _ => 0) pick := by
  rw [basicSolve, solvePCTSP, hP, ← buildProblem_basic, hP]
  simp only [Res.ok_bind]
  cases hb : (scip P).best with
  | none => rw [if_pos (h.2 hb)]; rfl
  | some x =>
    rw [if_neg fun hi => ?_]
    rw [h.1 hi] at hb; cases hb

/-- If the search ends early without a solution, a solution that does not exist is read. -/
theorem basicSolve_none {scip : Problem → ScipOutcome} {order : Nat → List Nat} {g : Graph} {heur : List Nat} {cost prize : Nat → Int} {quota : Int}
    {root : Nat} {P : Problem} (hP : buildProblem g heur cost prize quota root basicOptions (fun _ => 0) noPick = .ok P)
    (h : (scip P).status ≠ .infeasible) (hb : (scip P).best = none) :
    ∃ s, basicSolve scip order g heur cost prize quota root = .ub s := by
  rw [basicSolve, hP]
  simp only [Res.ok_bind, if_neg h, hb]
  exact ⟨_, rfl⟩

/-- What the basic binding reads from arguments that describe a graph. -/
structure BasicRead (es heur : List (Nat × Nat)) (costs : List ((Nat × Nat) × Int)) (prizes : List (Nat × Int)) (w : Nat → Nat → Int) (π : Nat → Int)
    (prize cost : Nat → Int) (start : List Nat) : Prop where
  prizesOk : setPrizes (graphOf es).n prizes (fun _ => 0) = .ok prize
  costsOk : setCosts (graphOf es) costs (fun _ => 0) = .ok cost
  startOk : startEdges (graphOf es) heur = .ok start
  startLt : ∀ e ∈ start, e < (graphOf es).edges.length
  feas : ∀ {quota root t}, Feas (graphOf es) prize quota root t ↔ FeasibleIn es π quota root t
  walk : ∀ {t}, IsWalk (graphOf es) t → walkCost (graphOf es) cost t = namedCost w t
  nonneg : (∀ x y, 0 ≤ w x y) → ∀ e < (graphOf es).edges.length, 0 ≤ cost e
  simple : ((graphOf es).edges.map und).Nodup
  pairs : ∃ qs, List.Forall₂ (fun e p => (graphOf es).edges[e]? = some p) start qs ∧ List.Forall₂ SameEdge qs heur

theorem IsTourIn.ends {es : List (Nat × Nat)} {r : Nat} {t : List Nat} (h : IsTourIn es r t) (hl : 3 ≤ t.length) : ∀ v ∈ t, v ∈ endpoints es := by
  intro v hv
  obtain ⟨m, rfl⟩ := h.shape
  obtain ⟨i, hi, rfl⟩ := List.mem_iff_getElem.1 hv
  by_cases hlt : i + 1 < (r :: (m ++ [r])).length
  · have hp : ((r :: (m ++ [r]))[i], (r :: (m ++ [r]))[i + 1]) ∈ consec (r :: (m ++ [r])) := by
      rw [consec, List.mem_iff_getElem]
      exact ⟨i, by simp only [List.length_zip, List.length_tail]; omega, by simp⟩
    exact (adjIn_mem (h.walk _ hp)).1
  · obtain ⟨j, rfl⟩ : ∃ j, i = j + 1 := ⟨i - 1, by omega⟩
    have hp : ((r :: (m ++ [r]))[j]'(by omega), (r :: (m ++ [r]))[j + 1]) ∈ consec (r :: (m ++ [r])) := by
      rw [consec, List.mem_iff_getElem]
      exact ⟨j, by simp only [List.length_zip, List.length_tail]; omega, by simp⟩
    exact (adjIn_mem (h.walk _ hp)).2

theorem basicRead {es heur : List (Nat × Nat)} {costs : List ((Nat × Nat) × Int)} {prizes : List (Nat × Int)} {w : Nat → Nat → Int} {π : Nat → Int}
    (h : Describes es costs prizes w π) (hheur : ∀ p ∈ heur, AdjIn es p.1 p.2) : ∃ prize cost start, BasicRead es heur costs prizes w π prize cost start := by
  obtain ⟨prize, hp⟩ := setPrizes_ok (n := (graphOf es).n) prizes (fun _ => 0) fun x c hx =>
    lt_graphOf_n.2 ⟨x, (h.prizeOk x c hx).2, Nat.le_refl x⟩
  obtain ⟨cost, hc⟩ := setCosts_ok (es := es) costs (fun _ => 0) fun p c hx => (h.costOk p c hx).2
  obtain ⟨start, h1, h2⟩ := edgesFromVertexPairs_basic heur hheur
  have hnames : List.Forall₂ (Names (List.range (graphOf es).n)) es es := by
    rw [List.forall₂_same]
    intro e he
    have := graphOf_wf es e (by rw [graphOf_edges]; exact he)
    simp [Names, this]
  have hsimple : ((graphOf es).edges.map und).Nodup := by rw [graphOf_edges]; exact graphOf_simple hnames h.distinct
  have hval : ∀ {u v i}, (graphOf es).edgeIdx u v = some i → cost i = w u v := by
    intro u v i hi
    have hends : ∀ {u v i}, (graphOf es).edgeIdx u v = some i → es[i]? = some (u, v) ∨ es[i]? = some (v, u) := by
      intro u v i hi
      have := edgeIdx_eq_some hi
      rwa [graphOf_edges] at this
    have hw : ∀ {u v x y i}, (graphOf es).edgeIdx u v = some i → es[i]? = some (x, y) → w u v = w x y := by
      intro u v x y i hi hx
      rcases hends hi with e | e <;> rw [e] at hx <;> cases hx
      · rfl
      · exact h.symm _ _
    have hmem : (u, v) ∈ es ∨ (v, u) ∈ es := (hends hi).imp List.mem_of_getElem? List.mem_of_getElem?
    obtain ⟨p, c, hpc, hsame⟩ : ∃ p c, (p, c) ∈ costs ∧ (graphOf es).edgeIdx p.1 p.2 = some i := by
      obtain ⟨x, y, hxy⟩ : ∃ x y, es[i]? = some (x, y) := (hends hi).elim (fun e => ⟨_, _, e⟩) (fun e => ⟨_, _, e⟩)
      obtain ⟨p, c, hpc, hsame⟩ := h.allCosts (x, y) (List.mem_of_getElem? hxy)
      have hu : SameEdge (u, v) (x, y) := by
        rcases hends hi with e | e <;> rw [e] at hxy <;> cases hxy
        · exact Or.inl rfl
        · exact Or.inr rfl
      refine ⟨p, c, hpc, ?_⟩
      obtain ⟨a, b⟩ := p
      rcases hsame with e | e <;> rcases hu with e' | e' <;> cases e <;> cases e'
      · exact hi
      · rw [edgeIdx_comm]; exact hi
      · rw [edgeIdx_comm]; exact hi
      · exact hi
    have := (setCosts_spec (val := fun i => match es[i]? with | some e => w e.1 e.2 | none => 0) hc (fun p c i hpc hi => by
      obtain ⟨x, y, hxy⟩ : ∃ x y, es[i]? = some (x, y) := (hends hi).elim (fun e => ⟨_, _, e⟩) (fun e => ⟨_, _, e⟩)
      rw [(h.costOk p c hpc).1]
      simp only [hxy]
      exact hw hi hxy) i).1 ⟨p, c, hpc, hsame⟩
    rw [this]
    rcases hends hi with e | e
    · simp only [e]
    · simp only [e]; exact h.symm _ _
  have hprize : ∀ v ∈ endpoints es, prize v = π v := fun v hv => (setPrizes_spec hp (fun x c hx => (h.prizeOk x c hx).1) v).1 (h.allPrizes v hv)
  refine ⟨prize, cost, start, hp, hc, by rw [startEdges_eq]; exact h1, ?_, ?_, ?_, ?_, hsimple, ?_⟩
  · intro e he
    obtain ⟨p, -, hpe⟩ := forall₂_left_mem h2 he
    rcases edgeIdx_eq_some hpe with h | h <;> exact (List.getElem?_eq_some_iff.1 h).1
  · intro quota root t
    have htour : IsTour (graphOf es) root t ↔ IsTourIn es root t :=
      ⟨fun ⟨a, b, c⟩ => ⟨a, b, fun p hp => basic_adj.1 (c p hp)⟩, fun ⟨a, b, c⟩ => ⟨a, b, fun p hp => basic_adj.2 (c p hp)⟩⟩
    have hpr : IsTourIn es root t → 4 ≤ t.length → tourPrize prize t = namedPrize π t := by
      intro ht hl
      rw [tourPrize, prizeSum, namedPrize]
      congr 1
      exact List.map_congr_left fun v hv => hprize v (ht.ends (by omega) v (List.dropLast_subset t hv))
    constructor
    · rintro ⟨a, b, c⟩
      exact ⟨htour.1 a, b, by rw [← hpr (htour.1 a) b]; exact c⟩
    · rintro ⟨a, b, c⟩
      exact ⟨htour.2 a, b, by rw [hpr a b]; exact c⟩
  · intro t ht
    rw [walkCost, namedCost]
    congr 1
    refine List.map_congr_left fun p hp => ?_
    obtain ⟨i, hi⟩ := Option.isSome_iff_exists.1 (edgeIdx_isSome_iff.2 (ht p hp))
    rw [pairCost_eq hi, hval hi]
  · intro hw e he
    rw [graphOf_edges] at he
    have hi : (graphOf es).edgeIdx es[e].1 es[e].2 = some e := by
      refine edgeIdx_graphOf (D := List.range (graphOf es).n) List.nodup_range hnames h.distinct (x := es[e].1) (y := es[e].2) (e := es[e]) ?_ ?_
        (List.getElem?_eq_getElem he) (Or.inl rfl)
      · have := graphOf_wf es es[e] (by rw [graphOf_edges]; exact List.getElem_mem he)
        simp [this]
      · have := graphOf_wf es es[e] (by rw [graphOf_edges]; exact List.getElem_mem he)
        simp [this]
    rw [hval hi]
    exact hw _ _
  · clear h1
    induction h2 with
    | nil => exact ⟨[], .nil, .nil⟩
    | @cons e p is heur hep _ ih =>
      obtain ⟨qs, a, b⟩ := ih fun q hq => hheur q (by simp [hq])
      rcases edgeIdx_eq_some hep with h | h
      · exact ⟨p :: qs, .cons h a, .cons (Or.inl rfl) b⟩
      · exact ⟨(p.2, p.1) :: qs, .cons h a, .cons (Or.inr rfl) b⟩

theorem edgesOfTour_same {t : List Nat} {qs ps : List (Nat × Nat)} (h : List.Forall₂ SameEdge qs ps) (he : EdgesOfTour t ps) : EdgesOfTour t qs := by
  obtain ⟨rs, h1, h2⟩ := he
  refine ⟨rs, h1, ?_⟩
  clear h1
  induction h generalizing rs with
  | nil => exact h2
  | @cons q p qs ps hqp _ ih =>
    cases h2 with
    | cons hpr h2 =>
      refine .cons ?_ (ih _ h2)
      rcases hqp with rfl | rfl <;> rcases hpr with rfl | rfl
      · exact Or.inl rfl
      · exact Or.inr rfl
      · exact Or.inr rfl
      · exact Or.inl rfl

theorem BasicRead.bind {es heur : List (Nat × Nat)} {costs : List ((Nat × Nat) × Int)} {prizes : List (Nat × Int)} {w : Nat → Nat → Int} {π : Nat → Int}
    {prize cost : Nat → Int} {start : List Nat} (h : BasicRead es heur costs prizes w π prize cost start) (scip : Problem → ScipOutcome)
    (order : Nat → List Nat) (quota : Int) (root : Nat) :
    basicBind scip order es heur costs prizes quota root = basicSolve scip order (graphOf es) start cost prize quota root := by
  rw [basicBind]
  simp only [h.prizesOk, h.costsOk, h.startOk, Res.ok_bind]

end Pctsp
