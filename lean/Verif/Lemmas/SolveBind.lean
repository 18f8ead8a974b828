import Verif.Lemmas.Solve
import Verif.Lemmas.Binding
import Mathlib.Data.List.Perm.Basic

/-! Helper lemmas: the solver behind the binding. -/

namespace Pctsp

set_option linter.unusedSectionVars false

variable {α : Type} [DecidableEq α]

theorem addEdges_n_le {N : Nat} (ps : List (Nat × Nat)) (h : ∀ p ∈ ps, p.1 < N ∧ p.2 < N) (g : Graph) (hg : g.n ≤ N) : (g.addEdges ps).n ≤ N := by
  induction ps generalizing g with
  | nil => exact hg
  | cons p ps ih =>
    rw [Graph.addEdges]
    have := h p (by simp)
    exact ih (fun q hq => h q (by simp [hq])) _ (by simp [Graph.addEdge]; omega)

theorem graphOf_named {D : List α} {es : List (α × α)} {ne : List (Nat × Nat)} (h : List.Forall₂ (Names D) es ne) {v : Nat} (hv : v < (graphOf ne).n) :
    ∃ x, D[v]? = some x := by
  have hn : (graphOf ne).n ≤ D.length := by
    refine addEdges_n_le ne (fun p hp => ?_) _ (Nat.zero_le _)
    obtain ⟨e, -, h1, h2⟩ := forall₂_mem_right h hp
    exact ⟨(List.getElem?_eq_some_iff.1 h1).1, (List.getElem?_eq_some_iff.1 h2).1⟩
  exact ⟨D[v]'(by omega), List.getElem?_eq_getElem (by omega)⟩

theorem graphOf_loopless {D : List α} {es : List (α × α)} {ne : List (Nat × Nat)} (h : List.Forall₂ (Names D) es ne)
    (hno : ∀ e ∈ es, e.1 ≠ e.2) : ∀ e ∈ ne, e.1 ≠ e.2 := by
  intro p hp heq
  obtain ⟨e, he, h1, h2⟩ := forall₂_mem_right h hp
  rw [heq, h2] at h1
  injection h1 with h1
  exact hno e he h1.symm

theorem graphOf_simple {D : List α} {es : List (α × α)} {ne : List (Nat × Nat)} (h : List.Forall₂ (Names D) es ne)
    (hes : es.Pairwise fun p q => ¬ SameEdge p q) : (ne.map und).Nodup := by
  induction h with
  | nil => simp
  | @cons e p es ne hep hne ih =>
    rw [List.pairwise_cons] at hes
    rw [List.map_cons, List.nodup_cons]
    refine ⟨fun hm => ?_, ih hes.2⟩
    obtain ⟨q, hq, hqp⟩ := List.mem_map.1 hm
    obtain ⟨f, hf, hfq⟩ := forall₂_mem_right hne hq
    refine hes.1 f hf ?_
    obtain ⟨a, b⟩ := p
    obtain ⟨c, d⟩ := q
    obtain ⟨e1, e2⟩ := e
    obtain ⟨f1, f2⟩ := f
    obtain ⟨h1, h2⟩ := hep
    obtain ⟨h3, h4⟩ := hfq
    simp only at h1 h2 h3 h4
    rcases und_eq_iff.1 hqp with ⟨rfl, rfl⟩ | ⟨rfl, rfl⟩
    · rw [h1] at h3; rw [h2] at h4
      injection h3 with h3; injection h4 with h4
      subst h3; subst h4
      exact Or.inl rfl
    · rw [h2] at h3; rw [h1] at h4
      injection h3 with h3; injection h4 with h4
      subst h3; subst h4
      exact Or.inr rfl

/-- The pairs of a tour of the graph, in the names of the caller. -/
theorem edgesOfTour_old {D : List α} {t : List α} {t' : List Nat} (h : List.Forall₂ (NameOf D) t t') {ps : List (Nat × Nat)}
    (hps : EdgesOfTour t' ps) : ∃ old, getOldEdges (number 0 D) ps = .ok old ∧ EdgesOfTour t old := by
  obtain ⟨qs, h1, h2⟩ := hps
  have h3 := consec_forall₂ h
  obtain ⟨qs', h4, h5⟩ : Relation.Comp List.Perm (List.Forall₂ fun (p : α × α) (q : Nat × Nat) => D[q.1]? = some p.1 ∧ D[q.2]? = some p.2) (consec t) qs := by
    rw [← List.forall₂_comp_perm_eq_perm_comp_forall₂]
    exact ⟨_, h3, h1.symm⟩
  have : ∃ old : List (α × α), List.Forall₂ (fun p (q : α × α) => getOldEdge (number 0 D) p = .ok q) ps old ∧ List.Forall₂ SameEdge old qs' := by
    clear h1 h4 h3
    induction h2 generalizing qs' with
    | nil => cases h5; exact ⟨[], .nil, .nil⟩
    | @cons p q ps qs hpq _ ih =>
      cases h5 with
      | @cons q' _ qs' _ hq hqs =>
        obtain ⟨old, h6, h7⟩ := ih _ hqs
        rcases hpq with rfl | rfl
        · refine ⟨q' :: old, .cons ?_ h6, .cons (Or.inl rfl) h7⟩
          rw [getOldEdge, (getOldVertex_number D _ _).2 hq.1, (getOldVertex_number D _ _).2 hq.2]; rfl
        · refine ⟨(q'.2, q'.1) :: old, .cons ?_ h6, .cons (Or.inr rfl) h7⟩
          rw [getOldEdge, (getOldVertex_number D _ _).2 hq.1, (getOldVertex_number D _ _).2 hq.2]; rfl
  obtain ⟨old, h6, h7⟩ := this
  exact ⟨old, mapRes_forall₂ h6, qs', h4.symm, h7⟩

/-- A walk in the names of the caller reaches its last vertex. -/
theorem reaches_of_named {es : List (α × α)} {w : α → α → Int} {π : α → Int} {tour : List α} {D : List α} {p : Renamed α} (h : Prepared es w π tour D p)
    {root : Nat} {x : α} {l : List α} (hl : ∀ q ∈ consec (x :: l), AdjIn es q.1 q.2) {u : Nat} (hu : D[u]? = some x) {d : Int}
    (hr : Reaches p.graph p.cost (fun _ => false) root u d) {v : Nat} {y : α} (hv : D[v]? = some y) (hlast : (x :: l).getLast? = some y) :
    Reaches p.graph p.cost (fun _ => false) root v (d + namedCost w (x :: l)) := by
  induction l generalizing x u d with
  | nil =>
    simp only [List.getLast?_singleton, Option.some.injEq] at hlast
    subst hlast
    rw [nodup_getElem?_inj h.nodup hv hu]
    simpa [namedCost, consec] using hr
  | cons z l ih =>
    rw [consec_cons_cons] at hl
    have hz : z ∈ endpoints es := by
      simp only [endpoints, List.mem_flatMap]
      rcases hl (x, z) (by simp) with h | h
      · exact ⟨_, h, by simp⟩
      · exact ⟨_, h, by simp⟩
    obtain ⟨k, hk⟩ := List.mem_iff_getElem?.1 ((h.mem z).2 hz)
    have ha := (h.adj hu hk).2 (hl (x, z) (by simp))
    obtain ⟨e, he⟩ := Option.isSome_iff_exists.1 (edgeIdx_isSome_iff.2 ha)
    have hw : p.cost e = w x z := by
      have := h.cost (t := [x, z]) (t' := [u, k]) (.cons hu (.cons hk .nil)) (by intro q hq; simp [consec] at hq; subst hq; exact ha)
      simpa [walkCost, namedCost, consec, pairCost_eq he] using this
    have h1 := ih (fun q hq => hl q (by simp [hq])) hk (.step hr (edgeIdx_eq_some he) rfl) (by simpa using hlast)
    rw [namedCost, consec_cons_cons, List.map_cons, List.sum_cons]
    rw [hw, namedCost] at h1
    simpa [Int.add_assoc] using h1

/-- What is reached has a walk in the names of the caller. -/
theorem named_of_reaches {es : List (α × α)} {w : α → α → Int} {π : α → Int} {tour : List α} {D : List α} {p : Renamed α} (h : Prepared es w π tour D p)
    {root : Nat} {r : α} (hroot : D[root]? = some r) {v : Nat} {d : Int} (hr : Reaches p.graph p.cost (fun _ => false) root v d) {x : α} (hx : D[v]? = some x)
    (hnamed : ∀ u, u < p.graph.n → ∃ y, D[u]? = some y) (hcost : ∀ e u v x y, EdgeBetween p.graph e u v → D[u]? = some x → D[v]? = some y → p.cost e = w x y) :
    ∃ l, (r :: l).getLast? = some x ∧ (∀ q ∈ consec (r :: l), AdjIn es q.1 q.2) ∧ namedCost w (r :: l) = d := by
  induction hr generalizing x with
  | start =>
    rw [hroot] at hx
    injection hx with hx
    subst hx
    exact ⟨[], rfl, by simp [consec], rfl⟩
  | @step u v e d hr he _ ih =>
    have hun : u < p.graph.n ∧ v < p.graph.n := by
      rcases he with he | he
      · exact h.wf _ (List.mem_of_getElem? he)
      · exact (h.wf _ (List.mem_of_getElem? he)).symm
    obtain ⟨y, hy⟩ := hnamed u hun.1
    obtain ⟨l, h1, h2, h3⟩ := ih hy
    have hadj : AdjIn es y x := (h.adj hy hx).1 (by rcases he with he | he; exacts [Or.inl (List.mem_of_getElem? he), Or.inr (List.mem_of_getElem? he)])
    have hl : r :: l = (r :: l).dropLast ++ [y] := by
      rw [List.dropLast_append_getLast? _ h1]
    have hpair : ∀ A : List α, consec (A ++ [y, x]) = consec (A ++ [y]) ++ [(y, x)] := fun A => by simpa using consec_append A y [x]
    refine ⟨l ++ [x], by rw [← List.cons_append, List.getLast?_append]; rfl, ?_, ?_⟩
    · intro q hq
      rw [← List.cons_append, hl, List.append_assoc, List.singleton_append, hpair] at hq
      rcases List.mem_append.1 hq with hq | hq
      · exact h2 q (by rw [hl]; exact hq)
      · simp only [List.mem_singleton] at hq
        subst hq
        exact hadj
    · rw [namedCost, ← List.cons_append, hl, List.append_assoc, List.singleton_append, hpair, List.map_append, List.sum_append, ← hl]
      rw [namedCost] at h3
      rw [h3, hcost e u v y x he hy hx]
      simp

/-- A vertex without an entry keeps its value. -/
theorem fillVertexMap_absent {D : List α} (hD : D.Nodup) {l : List (α × Int)} {f f' : Nat → Int} (h : fillVertexMap (number 0 D) l f = .ok f') {k : Nat}
    {x : α} (hk : D[k]? = some x) (hx : ∀ c, (x, c) ∉ l) : f' k = f k := by
  induction l generalizing f with
  | nil => cases h; rfl
  | cons p l ih =>
    obtain ⟨y, c⟩ := p
    rw [fillVertexMap] at h
    obtain ⟨j, hj, h⟩ := Res.bind_eq_ok.1 h
    rw [ih h fun c hc => hx c (by simp [hc]), upd, if_neg]
    rintro rfl
    rw [getNewVertex_number hD, hk] at hj
    injection hj with hj
    subst hj
    exact hx c (by simp)

theorem namedEdges_ok {es : List (α × α)} {w : α → α → Int} {π : α → Int} {tour : List α} {D : List α} {p : Renamed α} (h : Prepared es w π tour D p)
    (heur : List (α × α)) (hheur : ∀ q ∈ heur, AdjIn es q.1 q.2) :
    ∃ ps is, getNewEdges p.lookup heur = .ok ps ∧ edgesFromVertexPairs p.graph ps = .ok is ∧ (∀ e ∈ is, e < p.graph.edges.length) ∧
      (is.map p.cost).sum = (heur.map fun q => w q.1 q.2).sum ∧ List.Forall₂ (Names D) heur ps ∧
      ∃ qs, List.Forall₂ (fun e q => p.graph.edges[e]? = some q) is qs ∧ List.Forall₂ SameEdge qs ps := by
  induction heur with
  | nil => exact ⟨[], [], rfl, rfl, by simp, rfl, .nil, [], .nil, .nil⟩
  | cons q heur ih =>
    obtain ⟨ps, is, h1, h2, h3, h4, h5, qs, h6, h7⟩ := ih fun q hq => hheur q (by simp [hq])
    have hq := hheur q (by simp)
    have hmem : q.1 ∈ endpoints es ∧ q.2 ∈ endpoints es := by
      simp only [endpoints, List.mem_flatMap]
      rcases hq with h | h
      · exact ⟨⟨_, h, by simp⟩, ⟨_, h, by simp⟩⟩
      · exact ⟨⟨_, h, by simp⟩, ⟨_, h, by simp⟩⟩
    obtain ⟨a, ha⟩ := List.mem_iff_getElem?.1 ((h.mem q.1).2 hmem.1)
    obtain ⟨b, hb⟩ := List.mem_iff_getElem?.1 ((h.mem q.2).2 hmem.2)
    have hadj := (h.adj ha hb).2 hq
    obtain ⟨e, he⟩ := Option.isSome_iff_exists.1 (edgeIdx_isSome_iff.2 hadj)
    have hw : p.cost e = w q.1 q.2 := by
      have := h.cost (t := [q.1, q.2]) (t' := [a, b]) (.cons ha (.cons hb .nil)) (by intro r hr; simp [consec] at hr; subst hr; exact hadj)
      simpa [walkCost, namedCost, consec, pairCost_eq he] using this
    refine ⟨(a, b) :: ps, e :: is, ?_, ?_, ?_, ?_, .cons ⟨ha, hb⟩ h5, ?_⟩
    · rw [getNewEdges, mapRes, getNewEdge, h.lookup, (getNewVertex_number h.nodup _ _).2 ha, (getNewVertex_number h.nodup _ _).2 hb]
      rw [getNewEdges, h.lookup] at h1
      rw [h1]; rfl
    · rw [edgesFromVertexPairs, Graph.edge, if_pos (h.lt a _ ha), he]
      simp only [Res.ok_bind, h2]; rfl
    · intro i hi
      rcases List.mem_cons.1 hi with rfl | hi
      · rcases edgeIdx_eq_some he with h | h <;> exact (List.getElem?_eq_some_iff.1 h).1
      · exact h3 i hi
    · rw [List.map_cons, List.map_cons, List.sum_cons, List.sum_cons, h4, hw]
    · rcases edgeIdx_eq_some he with h | h
      · exact ⟨(a, b) :: qs, .cons h h6, .cons (Or.inl rfl) h7⟩
      · exact ⟨(b, a) :: qs, .cons h h6, .cons (Or.inr rfl) h7⟩

/-- The cost of an edge, by the names of its end points. -/
theorem named_edge_cost {es : List (α × α)} {w : α → α → Int} {π : α → Int} {tour : List α} {D : List α} {p : Renamed α} (h : Prepared es w π tour D p)
    (hs : (p.graph.edges.map und).Nodup) {e u v : Nat} {x y : α} (he : EdgeBetween p.graph e u v) (hu : D[u]? = some x) (hv : D[v]? = some y) :
    p.cost e = w x y := by
  have ha : Adj p.graph u v := by rcases he with he | he; exacts [Or.inl (List.mem_of_getElem? he), Or.inr (List.mem_of_getElem? he)]
  obtain ⟨i, hi⟩ := Option.isSome_iff_exists.1 (edgeIdx_isSome_iff.2 ha)
  have hw : p.cost i = w x y := by
    have := h.cost (t := [x, y]) (t' := [u, v]) (.cons hu (.cons hv .nil)) (by intro q hq; simp [consec] at hq; subst hq; exact ha)
    simpa [walkCost, namedCost, consec, pairCost_eq hi] using this
  have hie : i = e := by
    have h1 : (p.graph.edges.map und)[i]? = some (und (u, v)) := by
      rw [List.getElem?_map]
      rcases edgeIdx_eq_some hi with h | h <;> rw [h] <;> simp [und_eq_iff]
    have h2 : (p.graph.edges.map und)[e]? = some (und (u, v)) := by
      rw [List.getElem?_map]
      rcases he with h | h <;> rw [h] <;> simp [und_eq_iff]
    exact nodup_getElem?_inj hs h1 h2
  rw [← hie, hw]

/-- The pairs of a tour in the names of the caller, as edges of the graph. -/
theorem edgesOfTour_new {D : List α} (hD : D.Nodup) {t : List α} {t' : List Nat} (h : List.Forall₂ (NameOf D) t t') {heur : List (α × α)}
    {ps qs : List (Nat × Nat)} (hps : List.Forall₂ (Names D) heur ps) (hqs : List.Forall₂ SameEdge qs ps) (he : EdgesOfTour t heur) :
    EdgesOfTour t' qs := by
  obtain ⟨hs, h1, h2⟩ := he
  obtain ⟨rs, h4, h5⟩ : Relation.Comp (List.Forall₂ fun (p : α × α) (q : Nat × Nat) => D[q.1]? = some p.1 ∧ D[q.2]? = some p.2) List.Perm hs (consec t') := by
    rw [List.forall₂_comp_perm_eq_perm_comp_forall₂]
    exact ⟨_, h1, consec_forall₂ h⟩
  refine ⟨rs, h5, ?_⟩
  clear h1 h5
  induction h2 generalizing ps qs rs with
  | nil => cases h4; cases hps; cases hqs; exact .nil
  | @cons p q heur hs hpq _ ih =>
    cases h4 with
    | @cons _ r _ rs hr hrs =>
      cases hps with
      | @cons _ p' _ ps hp' hps =>
        cases hqs with
        | @cons q' _ qs _ hq' hqs =>
          refine .cons ?_ (ih hps hqs _ hrs)
          obtain ⟨a, b⟩ := p'
          obtain ⟨c, d⟩ := r
          obtain ⟨p1, p2⟩ := hp'
          obtain ⟨r1, r2⟩ := hr
          simp only at p1 p2 r1 r2
          have hrp : SameEdge (a, b) (c, d) := by
            rcases hpq with rfl | rfl
            · rw [nodup_getElem?_inj hD p1 r1, nodup_getElem?_inj hD p2 r2]; exact Or.inl rfl
            · rw [nodup_getElem?_inj hD p1 r2, nodup_getElem?_inj hD p2 r1]; exact Or.inr rfl
          rcases hq' with rfl | rfl
          · exact hrp
          · rcases hrp with e | e
            · rw [← e]; exact Or.inr rfl
            · injection e with e1 e2
              subst e1; subst e2
              exact Or.inl rfl

/-- The solver behind the binding, with the exact use of each assumption. -/
theorem solve_named {es heur : List (α × α)} {costs : List ((α × α) × Int)} {prizes : List (α × Int)} {w : α → α → Int} {π δ : α → Int}
    (h : Describes es costs prizes w π) (hno : ∀ e ∈ es, e.1 ≠ e.2) (hw : ∀ x y, 0 ≤ w x y) {quota : Int} {root : α} (hroot : root ∈ endpoints es)
    (hheur : ∀ p ∈ heur, AdjIn es p.1 p.2) (o : SolveOptions) {disjoint : List (α × Int)} (hkeys : ∀ x c, (x, c) ∈ disjoint → c = δ x ∧ x ∈ endpoints es)
    {pick : Pick} (hpick : pick.Heap) {scip : Problem → ScipOutcome} {order : Nat → List Nat} (ho : ∀ n, (order n).Perm (List.range n))
    {k : Int} (hscip : ∀ P, ScipSpec k P (order P.graph.edges.length) (scip P))
    (hreach : o.coverShortest = true → ∀ x ∈ endpoints es, ∃ l, (root :: l).getLast? = some x ∧ (∀ p ∈ consec (root :: l), AdjIn es p.1 p.2) ∧
      namedCost w (root :: l) ≤ 1073741823)
    (hprize : o.cycleCover = true → ∀ x, 0 ≤ π x) {ub : Int} (hub : ub = (heur.map fun p => w p.1 p.2).sum) :
    ∃ st ps, solveBind scip order es heur costs prizes quota root o disjoint pick = .ok (st, ps) ∧
      (ps = [] ∨ ∃ t, FeasibleIn es π quota root t ∧ TrustedIn es w root o disjoint ub t ∧ EdgesOfTour t ps) ∧
      (st = .optimal → ∃ t, FeasibleIn es π quota root t ∧ TrustedIn es w root o disjoint ub t ∧ EdgesOfTour t ps ∧
        ((k = 1 ∨ (o.coverDisjoint = false ∧ o.coverShortest = false)) →
          (o.coverDisjoint = true → ∀ x c, (x, c) ∈ disjoint → ∀ t, FeasibleIn es π quota root t → x ∈ t → c ≤ namedCost w t) →
          ∀ t', FeasibleIn es π quota root t' → TrustedIn es w root o disjoint ub t' → namedCost w t ≤ namedCost w t') ∧
        (0 < k → ∀ t', FeasibleIn es π quota root t' → TrustedIn es w root o disjoint ub t' →
          WithinIn es w root o disjoint (namedCost w t / k) t' → namedCost w t ≤ namedCost w t')) ∧
      (st = .infeasible → ps = [] ∧ ∀ t, FeasibleIn es π quota root t → ¬ TrustedIn es w root o disjoint ub t) ∧
      ((o.coverDisjoint = true → ∀ x c, (x, c) ∈ disjoint → ∀ t, FeasibleIn es π quota root t → x ∈ t → c ≤ namedCost w t) →
        ∀ t, FeasibleIn es π quota root t → namedCost w t ≤ ub → TrustedIn es w root o disjoint ub t) ∧
      ((∀ P, KeepsStart P (order P.graph.edges.length) (scip P)) → ∀ t, FeasibleIn es π quota root t → TrustedIn es w root o disjoint ub t →
        EdgesOfTour t heur → ∃ t', FeasibleIn es π quota root t' ∧ TrustedIn es w root o disjoint ub t' ∧ EdgesOfTour t' ps ∧
          namedCost w t' ≤ namedCost w t) := by
  obtain ⟨p, h1, hp, -⟩ := prepare_spec h (tour := []) (by simp)
  obtain ⟨ne, h2, h3⟩ := renameEdges_nil es
  rw [prepare, h2] at h1
  simp only at h1
  obtain ⟨t0, -, h1⟩ := Res.bind_eq_ok.1 h1
  obtain ⟨cost, hcost, h1⟩ := Res.bind_eq_ok.1 h1
  obtain ⟨prize, hprz, h1⟩ := Res.bind_eq_ok.1 h1
  injection h1 with h1
  subst h1
  obtain ⟨r, hr⟩ := List.mem_iff_getElem?.1 ((hp.mem root).2 hroot)
  obtain ⟨dist, h4, h5⟩ := fillVertexMap_spec hp.nodup δ disjoint (fun x c hx => (hkeys x c hx).1) (fun x c hx => (hp.mem x).2 (hkeys x c hx).2) (fun _ => 0)
  obtain ⟨hs, is, h6, h7, h8, h9, h10, qs, h11, h12⟩ := namedEdges_ok hp heur hheur
  have hsum : (is.map cost).sum = ub := by rw [hub]; exact h9
  have hfeas : ∀ {t t'}, List.Forall₂ (NameOf (firstSeen es)) t t' → (Feas (graphOf ne) prize quota r t' ↔ FeasibleIn es π quota root t) := by
    intro t t' htt
    have hlen := htt.length_eq
    have hpr := hp.prize htt
    simp only at hpr
    constructor
    · rintro ⟨a, b, c⟩
      exact ⟨(hp.isTour htt hr).1 a, by omega, by rw [← hpr]; exact c⟩
    · rintro ⟨a, b, c⟩
      exact ⟨(hp.isTour htt hr).2 a, by omega, by rw [hpr]; exact c⟩
  have hsimple : ((graphOf ne).edges.map und).Nodup := by rw [graphOf_edges]; exact graphOf_simple h3 h.distinct
  have hwithin : ∀ {t t' b}, 0 ≤ b → List.Forall₂ (NameOf (firstSeen es)) t t' →
      (Within (graphOf ne) cost r o dist b t' ↔ WithinIn es w root o disjoint b t) := by
    intro t t' bound hpos htt
    constructor
    · intro hT x hx
      obtain ⟨v, hv, hxv⟩ := forall₂_left_mem htt hx
      obtain ⟨a, b⟩ := hT v hv
      refine ⟨fun hon c hc => ?_, fun hon => ?_⟩
      · have := a hon
        rcases h5 v x hxv with h' | ⟨-, h'⟩
        · rw [(hkeys x c hc).1, ← h']; exact this
        · exact absurd hc (h' c)
      · obtain ⟨d, hd, hle⟩ := b hon
        obtain ⟨l, l1, l2, l3⟩ := named_of_reaches hp hr hd hxv (fun u hu => graphOf_named h3 hu)
          (fun e u v x y he hu hv => named_edge_cost hp hsimple he hu hv)
        exact ⟨l, l1, l2, by omega⟩
    · intro hT v hv
      obtain ⟨x, hx, hxv⟩ := forall₂_mem_right htt hv
      obtain ⟨a, b⟩ := hT x hx
      refine ⟨fun hon => ?_, fun hon => ?_⟩
      · by_cases hex : ∃ c, (x, c) ∈ disjoint
        · obtain ⟨c, hc⟩ := hex
          have := a hon c hc
          rcases h5 v x hxv with h' | ⟨-, h'⟩
          · rw [h', ← (hkeys x c hc).1]; exact this
          · exact absurd hc (h' c)
        · have h0 := fillVertexMap_absent hp.nodup h4 hxv fun c hc => hex ⟨c, hc⟩
          omega
      · obtain ⟨l, l1, l2, l3⟩ := b hon
        exact ⟨_, reaches_of_named hp l2 hr .start hxv l1, by omega⟩
  have htrust : ∀ {t t'}, List.Forall₂ (NameOf (firstSeen es)) t t' →
      (Trusted (graphOf ne) cost r o dist ub t' ↔ TrustedIn es w root o disjoint ub t) :=
    fun htt => ⟨fun h hpos => (hwithin (Int.le_of_lt hpos) htt).1 (h hpos), fun h hpos => (hwithin (Int.le_of_lt hpos) htt).2 (h hpos)⟩
  have hnew : ∀ t', Feas (graphOf ne) prize quota r t' → ∃ t, List.Forall₂ (NameOf (firstSeen es)) t t' ∧ FeasibleIn es π quota root t ∧
      walkCost (graphOf ne) cost t' = namedCost w t := by
    intro t' ht'
    obtain ⟨t, htt⟩ := hp.names ht'.tour.walk (by have := ht'.three; omega)
    exact ⟨t, htt, (hfeas htt).1 ht', hp.cost htt ht'.tour.walk⟩
  have hold : ∀ t, FeasibleIn es π quota root t → ∃ t', List.Forall₂ (NameOf (firstSeen es)) t t' ∧ Feas (graphOf ne) prize quota r t' ∧
      walkCost (graphOf ne) cost t' = namedCost w t := by
    intro t ht
    obtain ⟨t', htt⟩ := names_of_mem hp.mem t ht.tour.mem_endpoints
    exact ⟨t', htt, (hfeas htt).2 ht, hp.cost htt ((hfeas htt).2 ht).tour.walk⟩
  have hdist : (o.coverDisjoint = true → ∀ x c, (x, c) ∈ disjoint → ∀ t, FeasibleIn es π quota root t → x ∈ t → c ≤ namedCost w t) →
      o.coverDisjoint = true → ∀ t', Feas (graphOf ne) prize quota r t' → ∀ v ∈ t', dist v ≤ walkCost (graphOf ne) cost t' := by
    intro hdis hon t' ht' v hv
    obtain ⟨t, htt, ht, hc⟩ := hnew t' ht'
    obtain ⟨x, hx, hxv⟩ := forall₂_mem_right htt hv
    rw [hc]
    by_cases hex : ∃ c, (x, c) ∈ disjoint
    · obtain ⟨c, hc1⟩ := hex
      rcases h5 v x hxv with h' | ⟨-, h'⟩
      · rw [h', ← (hkeys x c hc1).1]; exact hdis hon x c hc1 t ht hx
      · exact absurd hc1 (h' c)
    · rw [fillVertexMap_absent hp.nodup h4 hxv fun c hc => hex ⟨c, hc⟩, ← hc]
      exact walkCost_nonneg (hp.costNonneg hw) t'
  obtain ⟨st, ps, k1, k2, k3, k4, k5, k6⟩ := solve_graph (g := graphOf ne) (cost := cost) (heur := is) (prize := prize) (quota := quota) (root := r)
    (disjoint := dist) hp.wf (by rw [graphOf_edges]; exact graphOf_loopless h3 hno) hsimple
    (hp.costNonneg hw) h8 (hp.lt r root hr) o hpick ho hscip
    (fun hon v hv => by
      obtain ⟨x, hx⟩ := graphOf_named h3 hv
      obtain ⟨l, l1, l2, l3⟩ := hreach hon x ((hp.mem x).1 (List.mem_of_getElem? hx))
      exact ⟨_, reaches_of_named hp l2 hr .start hx l1, by omega⟩)
    (fun hon v hv => hp.nonneg (hprize hon) v)
  rw [hsum] at k2 k3 k4 k5 k6
  have hback : ∀ t' , Feas (graphOf ne) prize quota r t' → EdgesOfTour t' ps → ∃ old t, getOldEdges (number 0 (firstSeen es)) ps = .ok old ∧
      FeasibleIn es π quota root t ∧ EdgesOfTour t old ∧ walkCost (graphOf ne) cost t' = namedCost w t ∧ List.Forall₂ (NameOf (firstSeen es)) t t' := by
    intro t' ht' hps
    obtain ⟨t, htt, ht, hc⟩ := hnew t' ht'
    obtain ⟨old, m1, m2⟩ := edgesOfTour_old htt hps
    exact ⟨old, t, m1, ht, m2, hc, htt⟩
  have hok : ∃ old, getOldEdges (number 0 (firstSeen es)) ps = .ok old ∧ (ps = [] → old = []) := by
    rcases k2 with rfl | ⟨t', ht', -, hps⟩
    · exact ⟨[], rfl, fun _ => rfl⟩
    · obtain ⟨old, t, m1, -⟩ := hback t' ht' hps
      exact ⟨old, m1, by rintro rfl; rw [getOldEdges, mapRes] at m1; injection m1 with m1; exact m1.symm⟩
  obtain ⟨old, m1, m2⟩ := hok
  have hback' : ∀ t' , Feas (graphOf ne) prize quota r t' → EdgesOfTour t' ps → ∃ t,
      FeasibleIn es π quota root t ∧ EdgesOfTour t old ∧ walkCost (graphOf ne) cost t' = namedCost w t ∧ List.Forall₂ (NameOf (firstSeen es)) t t' := by
    intro t' ht' hps
    obtain ⟨old', t, n1, n2⟩ := hback t' ht' hps
    obtain rfl : old = old' := by rw [m1] at n1; exact Res.ok.inj n1
    exact ⟨t, n2⟩
  refine ⟨st, old, ?_, ?_, fun hst => ?_, fun hst => ?_, fun hdis t ht hle => ?_, fun hkeep t ht hT he => ?_⟩
  · have h6' : getNewEdges (number 0 (firstSeen es)) heur = .ok hs := h6
    have h7' : edgesFromVertexPairs (graphOf ne) hs = .ok is := h7
    rw [solveBind, h2]
    simp only [h6', h7', Res.ok_bind, (getNewVertex_number hp.nodup _ _).2 hr, hcost, hprz, h4, k1, m1]
    rfl
  · rcases k2 with hn | ⟨t', ht', hT, hps⟩
    · exact Or.inl (m2 hn)
    · obtain ⟨t, n2, n3, -, n5⟩ := hback' t' ht' hps
      exact Or.inr ⟨t, n2, (htrust n5).1 hT, n3⟩
  · obtain ⟨t', ht', hT, hps, hmin, hmin'⟩ := k3 hst
    obtain ⟨t, n2, n3, n4, n5⟩ := hback' t' ht' hps
    refine ⟨t, n2, (htrust n5).1 hT, n3, fun hk hdis s hs hsT => ?_, fun hk s hs hsT hsW => ?_⟩
    · obtain ⟨s', hss, hs', hc⟩ := hold s hs
      rw [← n4, ← hc]
      exact hmin hk (hdist hdis) s' hs' ((htrust hss).2 hsT)
    · obtain ⟨s', hss, hs', hc⟩ := hold s hs
      have h0 : 0 ≤ namedCost w t / k := Int.ediv_nonneg (by rw [← n4]; exact walkCost_nonneg (hp.costNonneg hw) t') (Int.le_of_lt hk)
      rw [← n4, ← hc]
      exact hmin' hk s' hs' ((htrust hss).2 hsT) (by rw [n4]; exact (hwithin h0 hss).2 hsW)
  · obtain ⟨hn, hnone⟩ := k4 hst
    refine ⟨m2 hn, fun t ht hT => ?_⟩
    obtain ⟨t', htt, ht', -⟩ := hold t ht
    exact hnone t' ht' ((htrust htt).2 hT)
  · obtain ⟨t', htt, ht', hc⟩ := hold t ht
    exact (htrust htt).1 (k5 (hdist hdis) t' ht' (by rw [hc]; exact hle))
  · obtain ⟨t', htt, ht', hc⟩ := hold t ht
    obtain ⟨s', l1, l2, l3, l4⟩ := k6 hkeep t' qs ht' ((htrust htt).2 hT) h11 (edgesOfTour_new hp.nodup htt h10 h12 he)
    obtain ⟨s, n2, n3, n4, n5⟩ := hback' s' l1 l3
    exact ⟨s, n2, (htrust n5).1 l2, n3, by rw [← n4, ← hc]; exact l4⟩

end Pctsp
