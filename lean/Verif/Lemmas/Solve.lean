import Verif.Spec.Scip
import Verif.Props.CostCover
import Verif.Props.Separation
import Verif.Props.Program
import Verif.Props.Solution
import Verif.Lemmas.NamedIn

/-! Helper lemmas: the branch and cut solver. -/

set_option linter.unusedSectionVars false

namespace Pctsp

/-! ### Tours and their incidence vectors -/

theorem consec_mem {α : Type} {l : List α} {p : α × α} (h : p ∈ consec l) : p.1 ∈ l ∧ p.2 ∈ l := by
  obtain ⟨a, b⟩ := p
  have := List.of_mem_zip h
  exact ⟨this.1, List.mem_of_mem_tail this.2⟩

theorem und_consec_nodup {l : List Nat} (h : l.Nodup) : ((consec l).map und).Nodup := by
  induction l with
  | nil => exact List.nodup_nil
  | cons x l ih =>
    cases l with
    | nil => exact List.nodup_nil
    | cons y l =>
      rw [consec_cons_cons, List.map_cons, List.nodup_cons]
      refine ⟨?_, ih (List.nodup_cons.1 h).2⟩
      intro hm
      obtain ⟨⟨a, b⟩, hab, hu⟩ := List.mem_map.1 hm
      have := consec_mem hab
      rw [und_eq_iff] at hu
      have hx := (List.nodup_cons.1 h).1
      rcases hu with ⟨h1, -⟩ | ⟨-, h1⟩
      · exact hx (h1 ▸ this.1)
      · exact hx (h1 ▸ this.2)

theorem und_tour_nodup {g : Graph} {r : Nat} {t : List Nat} (ht : IsTour g r t) (hlen : 4 ≤ t.length) : ((consec t).map und).Nodup := by
  obtain ⟨m, rfl⟩ := ht.shape
  have hnd := ht.nodup
  rw [dropLast_tour] at hnd
  rcases List.eq_nil_or_concat m with rfl | ⟨m', b, rfl⟩
  · simp at hlen
  · cases m' with
    | nil => simp at hlen
    | cons a m' =>
      have heq : r :: ((a :: m').concat b ++ [r]) = (r :: a :: m') ++ [b, r] := by simp
      rw [heq, consec_append_pair, List.map_append]
      have hnd' : (r :: a :: (m' ++ [b])).Nodup := by simpa using hnd
      have hpath : (r :: a :: m') ++ [b] = r :: a :: (m' ++ [b]) := by simp
      rw [hpath, List.nodup_append]
      refine ⟨und_consec_nodup hnd', by simp, ?_⟩
      intro p hp q hq
      simp only [List.map_cons, List.map_nil, List.mem_singleton] at hq
      subst hq
      rintro rfl
      obtain ⟨⟨c, d⟩, hcd, hu⟩ := List.mem_map.1 hp
      rw [consec_cons_cons, List.mem_cons] at hcd
      have hr : r ∉ a :: (m' ++ [b]) := (List.nodup_cons.1 hnd').1
      have hab : a ≠ b := by
        have := (List.nodup_cons.1 (List.nodup_cons.1 hnd').2).1
        rintro rfl; exact this (by simp)
      rw [und_eq_iff] at hu
      rcases hcd with h | h
      · cases h
        rcases hu with ⟨h1, -⟩ | ⟨-, h1⟩
        · exact hr (by simp [h1])
        · exact hab h1
      · have := consec_mem h
        rcases hu with ⟨-, h1⟩ | ⟨h1, -⟩
        · exact hr (h1 ▸ this.2)
        · exact hr (h1 ▸ this.1)

/-- Every tour with at least three vertices has an incidence vector. -/
theorem incidence_exists {g : Graph} {r : Nat} {t : List Nat} (ht : IsTour g r t) (hlen : 4 ≤ t.length) :
    ∃ es x, IncidenceOf g t es x ∧ ∀ e, x e = 0 ∨ x e = 1 := by
  have hex : ∃ es, List.Forall₂ (fun e (p : Nat × Nat) => EdgeBetween g e p.1 p.2) es (consec t) := by
    have hw := ht.walk
    unfold IsWalk at hw
    generalize consec t = ps at hw
    induction ps with
    | nil => exact ⟨[], .nil⟩
    | cons p ps ih =>
      obtain ⟨es, hes⟩ := ih fun q hq => hw q (by simp [hq])
      obtain ⟨e, he⟩ := Option.isSome_iff_exists.1 (edgeIdx_isSome_iff.2 (hw p (by simp)))
      exact ⟨e :: es, .cons (edgeIdx_eq_some he) hes⟩
  obtain ⟨es, hes⟩ := hex
  have hends : (es.map (endsOf g)).map und = (consec t).map und := by
    generalize consec t = ps at hes
    induction hes with
    | nil => rfl
    | @cons e p es ps h _ ih =>
      rw [List.map_cons, List.map_cons, List.map_cons, ih]
      congr 1
      rcases h with h | h
      · simp [endsOf, h]
      · simp only [endsOf, h, Option.getD_some]; rw [und_eq_iff]; omega
  have hlt : ∀ e ∈ es, e < g.edges.length := by
    intro e he
    obtain ⟨p, -, h⟩ := forall₂_left_mem hes he
    rcases h with h | h <;> exact (List.getElem?_eq_some_iff.1 h).1
  have hnd : es.Nodup := by
    have := und_tour_nodup ht hlen
    rw [← hends] at this
    exact (this.of_map _).of_map _
  have hne : ∀ e ∈ es, ∀ v, g.edges[e]? ≠ some (v, v) := by
    intro e he v h
    obtain ⟨p, hp, h'⟩ := forall₂_left_mem hes he
    obtain ⟨m, rfl⟩ := ht.shape
    have hndt := ht.nodup
    rw [dropLast_tour] at hndt
    have := cycle_no_loop hndt (by rintro rfl; simp at hlen) p hp
    rcases h' with h' | h' <;> rw [h] at h' <;> simp only [Option.some.injEq, Prod.mk.injEq] at h' <;> omega
  refine ⟨es, fun e => if e ∈ es ∨ (∃ v ∈ t, g.edges[e]? = some (v, v)) then 1 else 0, ⟨⟨es.map (endsOf g), ?_, ?_⟩, hnd, ?_, ?_⟩, ?_⟩
  · exact ends_forall₂ hlt
  · rw [hends]
  · intro e u v he huv
    have : ¬ ∃ w ∈ t, g.edges[e]? = some (w, w) := by
      rintro ⟨w, -, hw⟩; rw [he] at hw; simp at hw; omega
    simp [this]
  · intro e v he
    have h1 : e ∉ es := fun h => hne e h v he
    have h2 : (∃ w ∈ t, g.edges[e]? = some (w, w)) ↔ v ∈ t := by
      constructor
      · rintro ⟨w, hw, h⟩; rw [he] at h; simp at h; exact h ▸ hw
      · intro h; exact ⟨v, h, he⟩
    simp [h1, h2]
  · intro e; simp only; split <;> simp

/-- If self-loops cost nothing, the objective value of an incidence vector is the cost of the tour. -/
theorem objective_incidence {g : Graph} (hg : SimpleWithLoops g) {cost : Nat → Int} (hl : ∀ e v, g.edges[e]? = some (v, v) → cost e = 0) {r : Nat}
    {t es : List Nat} {x : Nat → Int} (ht : IsTour g r t) (hlen : 4 ≤ t.length) (hinc : IncidenceOf g t es x) :
    objective g cost x = walkCost g cost t := by
  obtain ⟨-, hlt, hne⟩ := incidence_nonloop ht (by omega) hinc
  have hx : ∀ e < g.edges.length, cost e * x e = if e ∈ es then cost e else 0 := by
    intro e he
    have hp : g.edges[e]? = some (endsOf g e) := by simp [endsOf, he]
    by_cases hloop : (endsOf g e).1 = (endsOf g e).2
    · have hes : e ∉ es := fun h => hne e h hloop
      have hp' : g.edges[e]? = some ((endsOf g e).1, (endsOf g e).1) := by rw [hp]; congr 1; exact Prod.ext rfl hloop.symm
      rw [if_neg hes, hl e _ hp']; simp
    · rw [hinc.edge e _ _ hp hloop]
      split <;> simp
  have h1 : ((List.range g.edges.length).map fun e => if e ∈ es then cost e else 0).sum = (es.map cost).sum := by
    have h2 : ∀ l : List Nat, (l.map fun e => if e ∈ es then cost e else 0).sum = ((l.filter fun e => decide (e ∈ es)).map cost).sum := by
      intro l
      induction l with
      | nil => rfl
      | cons a l ih => by_cases h : a ∈ es <;> simp [h, ih]
    rw [h2]
    refine sum_eq_of_perm (List.Perm.map _ ?_)
    refine (List.perm_ext_iff_of_nodup (List.nodup_range.filter _) hinc.nodup).2 fun e => ?_
    simp only [List.mem_filter, List.mem_range, decide_eq_true_eq]
    exact ⟨fun h => h.2, fun h => ⟨hlt e h, h⟩⟩
  have h3 : objective g cost x = (es.map cost).sum := by
    rw [objective, ← h1]
    congr 1
    exact List.map_congr_left fun e he => hx e (List.mem_range.1 he)
  obtain ⟨es', hp, hw⟩ := incidence_walkEdges hinc
  rw [h3, ← sum_eq_of_perm (hp.map cost), walkCost]
  congr 1
  unfold WalkEdges at hw
  clear hp
  generalize consec t = ps at hw
  induction hw with
  | nil => rfl
  | @cons e p es ps h _ ih =>
    rw [List.map_cons, List.map_cons, ih]
    congr 1
    exact (pairCost_eq (hg.edgeIdx h)).symm

/-! ### Adding the self-loops -/

/-- One self-loop of cost 0 is added to each vertex. -/
structure LoopsAdded (g : Graph) (cost : Nat → Int) (g' : Graph) (cost' : Nat → Int) : Prop where
  n : g'.n = g.n
  edges : g'.edges = g.edges ++ (List.range g.n).map fun v => (v, v)
  old : ∀ i < g.edges.length, cost' i = cost i
  loop : ∀ i v, g'.edges[i]? = some (v, v) → cost' i = 0

theorem ensureSelfLoops_added {g : Graph} (cost : Nat → Int) (hg : g.WF) (hno : ∀ e ∈ g.edges, e.1 ≠ e.2) :
    LoopsAdded g cost (ensureSelfLoops g cost).1 (ensureSelfLoops g cost).2 := by
  obtain ⟨g', cost', h1, h2, -, -, -, -, h3, h4, -⟩ := C31_self_loops g cost hg hno
  rw [h1]
  refine ⟨h2, ?_, h3, h4⟩
  by_cases hn : hasSelfLoopsOnAllVertices g = true
  · have hz : g.n = 0 := by
      by_contra h
      exact hno _ ((hasSelfLoops_iff g).1 hn 0 (by omega)) rfl
    rw [ensureSelfLoops, if_pos hn] at h1
    cases h1
    simp [hz]
  · rw [ensureSelfLoops, if_neg hn, addSelfLoops_eq] at h1
    simp only [Prod.mk.injEq] at h1
    rw [← h1.1]

variable {g g' : Graph} {cost cost' : Nat → Int}

theorem LoopsAdded.simple (h : LoopsAdded g cost g' cost') (hg : g.WF) (hno : ∀ e ∈ g.edges, e.1 ≠ e.2) (hs : (g.edges.map und).Nodup) :
    SimpleWithLoops g' where
  wf e he := by
    rw [h.edges] at he
    rw [h.n]
    simp only [List.mem_append, List.mem_map, List.mem_range] at he
    rcases he with he | ⟨v, hv, rfl⟩
    · exact hg e he
    · exact ⟨hv, hv⟩
  loops v hv := by rw [h.edges]; rw [h.n] at hv; simp [hv]
  simple := by
    rw [h.edges, List.map_append, List.nodup_append]
    refine ⟨hs, ?_, ?_⟩
    · rw [List.map_map]
      refine List.Nodup.map_on ?_ List.nodup_range
      intro a _ b _ hab
      simp only [Function.comp] at hab
      rw [und_eq_iff] at hab; omega
    · intro p hp q hq
      rintro rfl
      obtain ⟨⟨a, b⟩, hab, rfl⟩ := List.mem_map.1 hp
      simp only [List.map_map, List.mem_map, Function.comp] at hq
      obtain ⟨v, -, hv⟩ := hq
      rw [und_eq_iff] at hv
      have := hno _ hab
      simp only at this; omega

theorem LoopsAdded.adj (h : LoopsAdded g cost g' cost') {u v : Nat} (huv : u ≠ v) : Adj g' u v ↔ Adj g u v := by
  unfold Adj
  rw [h.edges]
  simp only [List.mem_append, List.mem_map, List.mem_range, Prod.mk.injEq]
  constructor
  · rintro ((h | ⟨a, -, h1, h2⟩) | (h | ⟨a, -, h1, h2⟩))
    · exact Or.inl h
    · omega
    · exact Or.inr h
    · omega
  · rintro (h | h)
    · exact Or.inl (Or.inl h)
    · exact Or.inr (Or.inl h)

theorem LoopsAdded.tour (h : LoopsAdded g cost g' cost') {r : Nat} {t : List Nat} (hlen : 3 ≤ t.length) : IsTour g' r t ↔ IsTour g r t := by
  have key : (∃ m, t = r :: (m ++ [r])) → t.dropLast.Nodup → ∀ p ∈ consec t, p.1 ≠ p.2 := by
    rintro ⟨m, rfl⟩ hnd
    rw [dropLast_tour] at hnd
    exact cycle_no_loop hnd (by rintro rfl; simp at hlen)
  constructor
  · rintro ⟨a, b, c⟩
    exact ⟨a, b, fun p hp => (h.adj (key a b p hp)).1 (c p hp)⟩
  · rintro ⟨a, b, c⟩
    exact ⟨a, b, fun p hp => (h.adj (key a b p hp)).2 (c p hp)⟩

theorem LoopsAdded.edgeIdx (h : LoopsAdded g cost g' cost') {u v : Nat} (ha : Adj g u v) : g'.edgeIdx u v = g.edgeIdx u v := by
  obtain ⟨i, hi⟩ := Option.isSome_iff_exists.1 (edgeIdx_isSome_iff.2 ha)
  rw [Graph.edgeIdx] at hi
  rw [Graph.edgeIdx, Graph.edgeIdx, h.edges, List.findIdx?_append, hi]; rfl

theorem LoopsAdded.walkCost (h : LoopsAdded g cost g' cost') {l : List Nat} (hl : IsWalk g l) : walkCost g' cost' l = walkCost g cost l := by
  rw [Pctsp.walkCost, Pctsp.walkCost]
  congr 1
  refine List.map_congr_left fun p hp => ?_
  obtain ⟨i, hi⟩ := Option.isSome_iff_exists.1 (edgeIdx_isSome_iff.2 (hl p hp))
  rw [pairCost_eq hi, pairCost_eq ((h.edgeIdx (hl p hp)).trans hi)]
  exact h.old i (by rcases edgeIdx_eq_some hi with h | h <;> exact (List.getElem?_eq_some_iff.1 h).1)

theorem walkCost_nonneg (hc : ∀ e < g.edges.length, 0 ≤ cost e) (l : List Nat) : 0 ≤ Pctsp.walkCost g cost l := by
  rw [Pctsp.walkCost]
  generalize consec l = ps
  induction ps with
  | nil => simp
  | cons p ps ih =>
    rw [List.map_cons, List.sum_cons]
    have : 0 ≤ pairCost g cost p.1 p.2 := by
      rw [pairCost]
      split
      · rename_i i h
        exact hc i (List.findIdx?_eq_some_iff_getElem.1 h).1
      · omega
    omega

theorem walk_minimal (hc : ∀ e < g.edges.length, 0 ≤ cost e) {F : List Nat → Prop} (h : ∃ t, F t) :
    ∃ t, F t ∧ ∀ t', F t' → Pctsp.walkCost g cost t ≤ Pctsp.walkCost g cost t' := by
  classical
  have hex : ∃ k : Nat, ∃ t, F t ∧ (Pctsp.walkCost g cost t).toNat = k := by
    obtain ⟨t, ht⟩ := h; exact ⟨_, t, ht, rfl⟩
  obtain ⟨t, ht, hk⟩ := Nat.find_spec hex
  refine ⟨t, ht, fun t' ht' => ?_⟩
  have := Nat.find_min' hex ⟨t', ht', rfl⟩
  have h1 := walkCost_nonneg hc t
  have h2 := walkCost_nonneg hc t'
  omega

/-! ### What is handed to SCIP -/

/-- The problem that `buildProblem` builds. -/
structure Built (g : Graph) (heur : List Nat) (cost π : Nat → Int) (Q : Int) (r : Nat) (o : SolveOptions) (disjoint : Nat → Int)
    (pick : Pick) (P : Problem) : Prop where
  loops : LoopsAdded g cost P.graph P.cost
  prize : P.prize = π
  quota : P.quota = Q
  root : P.root = r
  cycleCover : P.cycleCover = o.cycleCover
  rows : ∃ rows crows, modelWithoutSECs P.graph π Q r = .ok rows ∧ P.rows = rows ++ crows ∧
    ∀ row, row ∈ crows ↔ 0 < (heur.map cost).sum ∧ ∃ dist ∈ P.covers, ∃ rs,
      separateThenAddCostCover P.graph P.graph.hasVar r dist (heur.map cost).sum = .ok rs ∧ row ∈ rs
  covers : ∀ dist, dist ∈ P.covers ↔ (o.coverDisjoint = true ∧ dist = disjoint) ∨
    (o.coverShortest = true ∧ ∃ dists, shortestPathCoverDistances P.graph P.cost pick r = .ok dists ∧ dist = fun v => dists.getD v 0)
  warm : heur ≠ [] → ∃ vars, heuristicVars P.graph P.graph.hasVar heur = .ok vars ∧ P.warm = some vars

theorem includeCover_ok (hl : ∀ v < g.n, (v, v) ∈ g.edges) {root : Nat} (hroot : root < g.n) (ub : Int) (dist : Nat → Int) :
    ∃ rows, includeCover g root ub dist = .ok rows ∧ ∀ row, row ∈ rows ↔ 0 < ub ∧ ∃ rs, separateThenAddCostCover g g.hasVar root dist ub = .ok rs ∧ row ∈ rs := by
  rw [includeCover, CostCover.initial]
  by_cases hub : ub > 0
  · obtain ⟨rows, h1, -, h2⟩ := costCover_separate hl hroot ub (CostCover.new dist)
    refine ⟨rows, ?_, fun row => ⟨fun hr => ⟨hub, rows, h1, hr⟩, fun ⟨_, rs, h3, h4⟩ => by
      have h5 : separateThenAddCostCover g g.hasVar root dist ub = .ok rows := h1
      rw [h5] at h3; cases h3; exact h4⟩⟩
    rw [if_pos hub, h2]
    simp [Res.pure_eq, CostCover.new]
  · refine ⟨[], ?_, fun row => ⟨by simp, fun h => absurd h.1 hub⟩⟩
    rw [if_neg hub]; rfl

theorem heuristicVars_ok (hg : g.WF) (hl : ∀ v < g.n, (v, v) ∈ g.edges) {es : List Nat} (hlt : ∀ e ∈ es, e < g.edges.length) :
    ∃ vars, heuristicVars g g.hasVar es = .ok vars := by
  obtain ⟨vs, hvs, -, hmem⟩ := C46_vertices_of_edges g es hlt
  have hvr : ∀ v ∈ vs, v < g.n := by
    intro v hv
    obtain ⟨e, he, p, hp, h⟩ := (hmem v).1 hv
    have := hg _ (List.mem_of_getElem? hp)
    rcases h with rfl | rfl
    · exact this.1
    · exact this.2
  obtain ⟨ls, h1, h2⟩ := C46_self_loops g vs fun v hv => ⟨hvr v hv, hl v (hvr v hv)⟩
  have h3 := getEdgeVariables_ok g.hasVar ls (fun e he => by
    obtain ⟨v, -, h⟩ := forall₂_mem_right h2 he
    simpa [Graph.hasVar] using (List.getElem?_eq_some_iff.1 h).1)
  have h4 := getEdgeVariables_ok g.hasVar es fun e he => by simpa [Graph.hasVar] using hlt e he
  exact ⟨es ++ ls, by simp [heuristicVars, hvs, h1, h3, h4, Res.pure_eq]⟩

theorem LoopsAdded.reaches (h : LoopsAdded g cost g' cost') {s v : Nat} {d : Int} (hr : Reaches g cost (fun _ => false) s v d) :
    Reaches g' cost' (fun _ => false) s v d := by
  induction hr with
  | start => exact .start
  | @step u v e d _ he _ ih =>
    have hlt : e < g.edges.length := by rcases he with he | he <;> exact (List.getElem?_eq_some_iff.1 he).1
    rw [← h.old e hlt]
    refine .step ih ?_ rfl
    unfold EdgeBetween at *
    rw [h.edges, List.getElem?_append_left hlt]
    exact he

theorem LoopsAdded.reaches_back (h : LoopsAdded g cost g' cost') {s v : Nat} {d : Int} (hr : Reaches g' cost' (fun _ => false) s v d) :
    Reaches g cost (fun _ => false) s v d := by
  induction hr with
  | start => exact .start
  | @step u v e d _ he _ ih =>
    by_cases hlt : e < g.edges.length
    · rw [h.old e hlt]
      refine .step ih ?_ rfl
      unfold EdgeBetween at *
      rw [h.edges, List.getElem?_append_left hlt] at he
      exact he
    · have hl : ∃ z, g'.edges[e]? = some (z, z) ∧ u = z ∧ v = z := by
        unfold EdgeBetween at he
        rw [h.edges, List.getElem?_append_right (by omega), List.getElem?_map] at he ⊢
        rcases he with he | he <;> obtain ⟨z, hz, hzz⟩ := Option.map_eq_some_iff.1 he <;> injection hzz with h1 h2 <;>
          subst h1 <;> subst h2 <;> exact ⟨_, by rw [hz]; rfl, rfl, rfl⟩
      obtain ⟨z, hz, rfl, rfl⟩ := hl
      rw [h.loop e _ hz, Int.add_zero]
      exact ih

theorem LoopsAdded.cost_nonneg (h : LoopsAdded g cost g' cost') (hc : ∀ e < g.edges.length, 0 ≤ cost e) : ∀ e < g'.edges.length, 0 ≤ cost' e := by
  intro e he
  by_cases hlt : e < g.edges.length
  · rw [h.old e hlt]; exact hc e hlt
  · obtain ⟨p, h1⟩ : ∃ p, g'.edges[e]? = some p := ⟨_, List.getElem?_eq_getElem he⟩
    have h2 := h1
    rw [h.edges, List.getElem?_append_right (by omega), List.getElem?_map] at h2
    obtain ⟨v, -, hv⟩ := Option.map_eq_some_iff.1 h2
    rw [← hv] at h1
    rw [h.loop e v h1]

theorem buildProblem_ok (hg : g.WF) (hno : ∀ e ∈ g.edges, e.1 ≠ e.2) (hs : (g.edges.map und).Nodup) (hc : ∀ e < g.edges.length, 0 ≤ cost e)
    {heur : List Nat} (hheur : ∀ e ∈ heur, e < g.edges.length) (prize : Nat → Int) (quota : Int) {root : Nat} (hroot : root < g.n) (o : SolveOptions)
    (disjoint : Nat → Int) {pick : Pick} (hpick : pick.Heap)
    (hreach : o.coverShortest = true → ∀ v < g.n, ∃ d, Reaches g cost (fun _ => false) root v d ∧ d ≤ 1073741823) :
    ∃ P, buildProblem g heur cost prize quota root o disjoint pick = .ok P ∧ Built g heur cost prize quota root o disjoint pick P := by
  have hL := ensureSelfLoops_added cost hg hno
  rw [buildProblem]
  rcases hens : ensureSelfLoops g cost with ⟨g', cost'⟩
  rw [hens] at hL
  simp only at hL
  have hS := hL.simple hg hno hs
  have hroot' : root < g'.n := by rw [hL.n]; exact hroot
  obtain ⟨rows, hrows, -⟩ := modelRows_sat hS prize quota hroot' fun _ => 0
  have hlen : g.edges.length ≤ g'.edges.length := by rw [hL.edges]; simp
  obtain ⟨vars, hvars⟩ := heuristicVars_ok hS.wf hS.loops fun e he => Nat.lt_of_lt_of_le (hheur e he) hlen
  have hub : totalCostEdges cost' heur = (heur.map cost).sum := by
    rw [totalCostEdges_eq]
    congr 1
    exact List.map_congr_left fun e he => hL.old e (hheur e he)
  have hwarm : ∃ warm, warmStart g' heur = .ok warm ∧ (heur ≠ [] → warm = some vars) := by
    rw [warmStart]
    split
    · exact ⟨some vars, by rw [hvars]; rfl, fun _ => rfl⟩
    · rename_i hl
      exact ⟨none, rfl, fun h => absurd (List.length_pos_iff.2 h) hl⟩
  obtain ⟨warm, hwarm, hwarm'⟩ := hwarm
  have h1 : ∃ ds rs, disjointCover g' root (heur.map cost).sum o disjoint = .ok (ds, rs) ∧
      (∀ row, row ∈ rs ↔ 0 < (heur.map cost).sum ∧ ∃ dist ∈ ds, ∃ rs, separateThenAddCostCover g' g'.hasVar root dist (heur.map cost).sum = .ok rs ∧ row ∈ rs) ∧
      (∀ dist, dist ∈ ds ↔ o.coverDisjoint = true ∧ dist = disjoint) := by
    rw [disjointCover]
    by_cases hd : o.coverDisjoint = true
    · obtain ⟨rs, h1, h2⟩ := includeCover_ok hS.loops hroot' (heur.map cost).sum disjoint
      refine ⟨[disjoint], rs, by rw [if_pos hd, h1]; rfl, fun row => by simpa using h2 row, fun dist => by simp [hd]⟩
    · exact ⟨[], [], by rw [if_neg hd], by simp, by simp [hd]⟩
  have h2 : ∃ ds rs, shortestCover g' cost' root (heur.map cost).sum o pick = .ok (ds, rs) ∧
      (∀ row, row ∈ rs ↔ 0 < (heur.map cost).sum ∧ ∃ dist ∈ ds, ∃ rs, separateThenAddCostCover g' g'.hasVar root dist (heur.map cost).sum = .ok rs ∧ row ∈ rs) ∧
      (∀ dist, dist ∈ ds ↔ o.coverShortest = true ∧ ∃ dists, shortestPathCoverDistances g' cost' pick root = .ok dists ∧ dist = fun v => dists.getD v 0) := by
    rw [shortestCover]
    by_cases hsp : o.coverShortest = true
    · obtain ⟨dists, h5, -⟩ := C39_exact hS.wf (hL.cost_nonneg hc) hpick hroot' (fun v hv => by
        obtain ⟨d, h6, h7⟩ := hreach hsp v (by rw [← hL.n]; exact hv)
        exact ⟨d, hL.reaches h6, h7⟩) 0
      obtain ⟨rs, h6, h7⟩ := includeCover_ok hS.loops hroot' (heur.map cost).sum fun v => dists.getD v 0
      refine ⟨[fun v => dists.getD v 0], rs, ?_, fun row => by simpa using h7 row, fun dist => ?_⟩
      · rw [if_pos hsp, h5, Res.ok_bind, h6]; rfl
      · simp [hsp, h5]
    · exact ⟨[], [], by rw [if_neg hsp], by simp, by simp [hsp]⟩
  obtain ⟨ds, rs, h1, hrs, hds⟩ := h1
  obtain ⟨ds', rs', h2, hrs', hds'⟩ := h2
  refine ⟨{ graph := g', cost := cost', prize, quota, root, rows := rows ++ (rs ++ rs'), warm, covers := ds ++ ds', cycleCover := o.cycleCover,
            secDisjoint := o.secDisjoint, secMaxflow := o.secMaxflow }, ?_, ?_⟩
  · simp only [hrows, Res.ok_bind, hwarm, hub, includeCovers, h1, h2, Res.pure_eq]
  · refine ⟨hL, rfl, rfl, rfl, rfl, ⟨rows, rs ++ rs', hrows, rfl, fun row => ?_⟩, fun dist => ?_, fun hne => ⟨vars, hvars, hwarm' hne⟩⟩
    · rw [List.mem_append, hrs, hrs']
      simp only [List.mem_append, or_and_right, exists_or, and_or_left]
    · rw [List.mem_append, hds, hds']

/-! ### Rows that are added during the search -/

theorem offerRow_added {sv : Solver} {row r : Row} {st : SepState} (h : ∀ r ∈ st.added, r ∈ st.offered) (hr : r ∈ (offerRow sv row st).added) :
    r ∈ (offerRow sv row st).offered := by
  unfold offerRow at *
  split at hr
  · rename_i he
    simp only [if_pos he]
    rcases List.mem_append.1 hr with hr | hr
    · exact List.mem_append_left _ (h r hr)
    · exact List.mem_append_right _ hr
  · rename_i he
    simp only [if_neg he]
    exact List.mem_append_left _ (h r hr)

theorem cycleCover_added {sv : Solver} {prize : Nat → Int} {quota : Int} {root m : Nat} {ids : List Nat} {st st' : SepState}
    (h0 : ∀ r ∈ st.added, r ∈ st.offered) (h : separateCycleCover sv g g.hasVar prize quota root m ids st = .ok st') {row : Row} (hr : row ∈ st'.added) :
    row ∈ st'.offered := by
  rw [separateCycleCover] at h
  obtain ⟨c, -, h⟩ := Res.bind_eq_ok.1 h
  split at h
  · rw [addCycleCover] at h
    split at h
    · injection h with h
      subst h
      exact h0 row hr
    · obtain ⟨_, -, h⟩ := Res.bind_eq_ok.1 h
      obtain ⟨_, -, h⟩ := Res.bind_eq_ok.1 h
      obtain ⟨_, -, h⟩ := Res.bind_eq_ok.1 h
      obtain ⟨_, -, h⟩ := Res.bind_eq_ok.1 h
      obtain ⟨_, -, h⟩ := Res.bind_eq_ok.1 h
      injection h with h
      subst h
      exact offerRow_added h0 hr
  · rw [Res.pure_eq] at h
    injection h with h
    subst h
    exact h0 row hr

theorem lp_connected {P : Problem} (hg : SimpleWithLoops P.graph) (hroot : P.root < P.graph.n) {rows crows : List Row}
    (hrows : modelWithoutSECs P.graph P.prize P.quota P.root = .ok rows) (heq : P.rows = rows ++ crows) {q : Int} {x : Nat → Int}
    (hx : LpSolution P q x) : ∃ v, v ≠ P.root ∧ SupportConnected P.graph x P.root v := by
  obtain ⟨loop, hl⟩ := Option.isSome_iff_exists.1 (edgeIdx_isSome_iff.2 (Or.inl (hg.loops P.root hroot) : Adj P.graph P.root P.root))
  have hloop : P.graph.edges[loop]? = some (P.root, P.root) := by rcases edgeIdx_eq_some hl with h | h <;> exact h
  obtain ⟨drows, hd, -⟩ := degreeRows_sat hg x
  have hrows' : rows = prizeRow P.graph (putPrizeOntoEdgeWeights P.graph P.prize) P.quota :: rootRow loop :: drows := by
    simp only [modelWithoutSECs, Graph.edge, if_pos hroot, hl, Res.ok_bind, hd, Res.pure_eq, Res.ok.injEq] at hrows
    exact hrows.symm
  have hvis : 0 < x loop := by
    have := (hx.rows (rootRow loop) (by rw [heq, hrows']; simp)).1 1 rfl
    have hpos := hx.pos
    simp only [Row.activity, rootRow, List.map_cons, List.map_nil, List.sum_cons, List.sum_nil] at this
    omega
  have hsat : ∀ row ∈ drows, row.Sat x := by
    intro row hr
    have h1 := hx.rows row (by rw [heq, hrows']; simp [hr])
    have h2 : row.lhs = some 0 ∧ row.rhs = some 0 := by
      obtain ⟨v, hv, h⟩ := forall₂_mem_right (mapRes_eq_ok.1 hd) hr
      rcases degreeRow_cases P.graph v with ⟨-, h'⟩ | ⟨-, l, -, h'⟩ | ⟨-, h'⟩
      · rw [h'] at h; simp at h
      · rw [h'] at h; injection h with h; subst h; exact ⟨rfl, rfl⟩
      · rw [h'] at h; simp at h
    have h3 := h1.1 0 h2.1
    have h4 := h1.2 0 h2.2
    refine ⟨fun l hl => ?_, fun u hu => ?_⟩
    · rw [h2.1] at hl; injection hl; omega
    · rw [h2.2] at hu; injection hu; omega
  have hid : (List.range P.graph.edges.length).Perm (List.range P.graph.edges.length) := List.Perm.refl _
  classical
  have hrc : IsRootComponent P.graph x P.root ((List.range P.graph.n).filter fun v => decide (SupportConnected P.graph x P.root v)) := by
    intro v; simp
  have hdef := C66_defined ⟨fun _ => false, fun _ _ => false⟩ hg (fun _ _ _ => ⟨0, fun _ => 0⟩) (visit := fun _ _ _ => true) (fun _ _ => rfl) hid q x
    hroot hrc (fun e he => (hx.bounds e he).1) hd hsat hloop hvis ⟨[], [], .didNotRun⟩
  exact (C66_undefined_iff ⟨fun _ => false, fun _ _ => false⟩ hg.wf hg.loops (fun _ _ _ => ⟨0, fun _ => 0⟩) (visit := fun _ _ _ => true)
    (fun _ _ => rfl) hid q x hrc ⟨[], [], .didNotRun⟩).2.1 hdef

/-! ### The answer of the solver -/

/-- What the argument needs about the problem: the rows of the model and of the start solution. -/
structure Sound (P : Problem) (ub : Int) : Prop where
  simple : SimpleWithLoops P.graph
  root : P.root < P.graph.n
  loop : ∀ e v, P.graph.edges[e]? = some (v, v) → P.cost e = 0
  nonneg : ∀ e < P.graph.edges.length, 0 ≤ P.cost e
  prizes : P.cycleCover = true → ∀ v < P.graph.n, 0 ≤ P.prize v
  rows : ∃ rows crows, modelWithoutSECs P.graph P.prize P.quota P.root = .ok rows ∧ P.rows = rows ++ crows ∧
    ∀ row, row ∈ crows ↔ 0 < ub ∧ ∃ dist ∈ P.covers, ∃ rs, separateThenAddCostCover P.graph P.graph.hasVar P.root dist ub = .ok rs ∧ row ∈ rs

/-- The distances are no more than the cost of a feasible tour through the vertex. -/
def CoversValid (P : Problem) : Prop :=
  ∀ dist ∈ P.covers, ∀ t, Feas P.graph P.prize P.quota P.root t → ∀ v ∈ t, dist v ≤ walkCost P.graph P.cost t

/-- The tour satisfies the rows that the cost of the start solution gives. -/
def KeptBy (P : Problem) (ub : Int) (t : List Nat) : Prop := 0 < ub → ∀ dist ∈ P.covers, ∀ v ∈ t, dist v ≤ ub

/-- The cost cover rows hold for a tour exactly if no distance of its vertices exceeds the bound. -/
theorem coverRows_sat (hg : SimpleWithLoops g) {root : Nat} (hroot : root < g.n) {dist : Nat → Int} {ub : Int} {rows : List Row}
    (h : separateThenAddCostCover g g.hasVar root dist ub = .ok rows) {t es : List Nat} {x : Nat → Int} (ht : IsTour g root t)
    (hinc : IncidenceOf g t es x) : (∀ row ∈ rows, row.Sat x) ↔ ∀ v ∈ t, dist v ≤ ub := by
  obtain ⟨rows', h1, h2⟩ := costCover_rows hg.loops hroot dist ub
  rw [h] at h1
  cases h1
  have hrt : loopVal g x root = 1 := by
    rw [loopVal_incidence hinc (hg.loops root hroot), if_pos]
    obtain ⟨m, rfl⟩ := ht.shape
    simp
  constructor
  · intro hsat v hv
    by_contra hlt
    have hvn : v < g.n := tour_lt hg.wf ht v hv
    have hm : v ∈ separateCostCoverPaths g dist ub := by simp [separateCostCoverPaths, hvn]; omega
    obtain ⟨row, hr, -, -, hrhs, hact⟩ := forall₂_mem_right h2.flip hm
    have h3 := (hsat row hr).2 1 hrhs
    rw [hact, hrt, loopVal_incidence hinc (hg.loops v hvn), if_pos hv] at h3
    omega
  · intro hle row hr
    obtain ⟨v, -, ⟨hv, hlt⟩, hl, hr', hact⟩ := forall₂_mem_right h2 hr
    have hnot : v ∉ t := fun hvt => by have := hle v hvt; omega
    refine ⟨fun l hl' => by rw [hl] at hl'; simp at hl', fun u hu => ?_⟩
    rw [hr'] at hu
    injection hu with hu
    rw [hact, hrt, loopVal_incidence hinc (hg.loops v hv), if_neg hnot]
    omega

variable {P : Problem} {ub : Int}

/-- A vector that passes every check is the incidence vector of a feasible tour, and the rows of the start solution keep it. -/
theorem Sound.tour_of_accepted (h : Sound P ub) {order : List Nat} (ho : order.Perm (List.range P.graph.edges.length)) {y : Nat → Int}
    (hy : Accepted P order y) : ∃ t es, Feas P.graph P.prize P.quota P.root t ∧ KeptBy P ub t ∧ IncidenceOf P.graph t es y := by
  obtain ⟨rows, crows, h1, h2, h3⟩ := h.rows
  obtain ⟨rows', h4, h5⟩ := C33_accepts_exactly_feasible_tours h.simple P.prize P.quota h.root ho hy.binary
  rw [h1] at h4
  cases h4
  obtain ⟨t, es, a, b, c, d⟩ := h5.1 ⟨fun row hr => hy.rows row (by rw [h2]; simp [hr]), hy.subtour⟩
  refine ⟨t, es, ⟨a, b, d⟩, fun hpos dist hd => ?_, c⟩
  obtain ⟨rs, hrs, -⟩ := costCover_rows h.simple.loops h.root dist ub
  exact (coverRows_sat h.simple h.root hrs a c).1 fun row hr => hy.rows row (by
    rw [h2, List.mem_append]; exact Or.inr ((h3 row).2 ⟨hpos, dist, hd, rs, hrs, hr⟩))

/-- The incidence vector of a feasible tour that the rows of the start solution keep passes every check. -/
theorem Sound.accepted_of_tour (h : Sound P ub) {order : List Nat} (ho : order.Perm (List.range P.graph.edges.length)) {t es : List Nat} {y : Nat → Int}
    (ht : Feas P.graph P.prize P.quota P.root t) (hkept : KeptBy P ub t) (hinc : IncidenceOf P.graph t es y) (hbin : ∀ e, y e = 0 ∨ y e = 1) :
    Accepted P order y := by
  obtain ⟨rows, crows, h1, h2, h3⟩ := h.rows
  obtain ⟨rows', h4, h5⟩ := C33_accepts_exactly_feasible_tours h.simple P.prize P.quota h.root ho (x := y) fun e _ => hbin e
  rw [h1] at h4
  cases h4
  obtain ⟨h6, h7⟩ := h5.2 ⟨t, es, ht.tour, ht.three, hinc, ht.prize⟩
  refine ⟨fun e _ => hbin e, fun row hr => ?_, h7, fun hon m ids hc => ?_⟩
  · rw [h2] at hr
    rcases List.mem_append.1 hr with hr | hr
    · exact h6 row hr
    · obtain ⟨hpos, dist, hd, rs, hrs, hm⟩ := (h3 row).1 hr
      exact (coverRows_sat h.simple h.root hrs ht.tour hinc).2 (hkept hpos dist hd) row hm
  · exact C37_check_accepts h.simple.wf (h.prizes hon) h.root hc ht.tour (by have := ht.three; omega) hinc ht.prize

/-- Rows that are added during the search keep every tour whose vertices are no further from the root than the bounds of the events. -/
theorem Sound.added_scaled (h : Sound P ub) {k : Int} {order : List Nat} (ho : order.Perm (List.range P.graph.edges.length)) {t es : List Nat}
    {z : Nat → Int} (ht : Feas P.graph P.prize P.quota P.root t) (hinc : IncidenceOf P.graph t es z) {found : List (Nat → Int)}
    (hle : ∀ dist ∈ P.covers, ∀ y ∈ found, ∀ v ∈ t, dist v ≤ objective P.graph P.cost y / k) {row : Row}
    (hr : Adds k P order found row) : row.Sat z := by
  obtain ⟨rows, crows, h1, h2, h3⟩ := h.rows
  cases hr with
  | @subtour sv flow visit q x m k' l ids st _ hvisit hx hc hs hrow =>
    obtain ⟨st', rs, rs', a, -, b, -, -, -, c⟩ := C68_round sv h.simple flow hvisit ho q h.root hc (lp_connected h.simple h.root h1 h2 hx)
      P.secDisjoint P.secMaxflow ⟨[], [], .didNotRun⟩
    rw [hs] at a
    cases a
    rw [b, List.nil_append] at hrow
    exact c row (List.mem_filter.1 hrow).1 t es z ht.tour hinc
  | @cycle sv q x m ids st _ hon hx hc hs hrow =>
    obtain ⟨vs, -, -, a, b⟩ := C37_valid sv h.simple.loops (h.prizes hon) P.quota h.root (isComponents_labels hc) ⟨[], [], .didNotRun⟩
    by_cases hq : P.quota ≤ prizeSum P.prize vs
    · have := a hq
      rw [hs] at this
      cases this
      simp at hrow
    · obtain ⟨st', row', c, d, e⟩ := b (by omega)
      have hmem := cycleCover_added (by simp) hs hrow
      rw [hs] at c
      cases c
      rw [d] at hmem
      simp only [List.nil_append, List.mem_singleton] at hmem
      subst hmem
      exact e t es z ht.tour hinc ht.prize
  | @cover dist y rows' _ hdist hy hs hrow =>
    exact (coverRows_sat h.simple h.root hs ht.tour hinc).2 (hle dist hdist y hy) row hrow

/-- Rows that are added during the search keep every tour that costs no more than any tour that can be found. -/
theorem Sound.added (h : Sound P ub) (hcov : CoversValid P) {k : Int} (hk : k = 1 ∨ P.covers = []) {order : List Nat} (ho : order.Perm (List.range P.graph.edges.length))
    {t es : List Nat} {z : Nat → Int} (ht : Feas P.graph P.prize P.quota P.root t)
    (hmin : ∀ t', Feas P.graph P.prize P.quota P.root t' → KeptBy P ub t' → walkCost P.graph P.cost t ≤ walkCost P.graph P.cost t')
    (hinc : IncidenceOf P.graph t es z) {found : List (Nat → Int)} (hfound : ∀ y ∈ found, Accepted P order y) {row : Row}
    (hr : Adds k P order found row) : row.Sat z := by
  refine h.added_scaled ho ht hinc (fun dist hdist y hy v hv => ?_) hr
  rcases hk with rfl | hk
  swap
  · rw [hk] at hdist; simp at hdist
  obtain ⟨t', es', ht', hk', hinc'⟩ := h.tour_of_accepted ho (hfound y hy)
  rw [Int.ediv_one, objective_incidence h.simple h.loop ht'.tour ht'.three hinc']
  exact Int.le_trans (hcov dist hdist t ht v hv) (hmin t' ht' hk')

/-- The status `infeasible`: no solution has been found, so no bound has been used. -/
theorem Sound.infeasible (h : Sound P ub) {k : Int} {order : List Nat} (ho : order.Perm (List.range P.graph.edges.length))
    {a : ScipOutcome} (ha : ScipSpec k P order a) (hs : a.status = .infeasible) :
    a.best = none ∧ ∀ t, Feas P.graph P.prize P.quota P.root t → ¬ KeptBy P ub t := by
  obtain ⟨found, added, hfound, hadd, hopt, hinf⟩ := ha.added
  obtain ⟨h1, h2⟩ := hinf hs
  refine ⟨h1, fun t ht hkt => ?_⟩
  obtain ⟨es', z, hinc', hbin⟩ := incidence_exists ht.tour ht.three
  obtain ⟨row, hr, hno⟩ := h2 z (h.accepted_of_tour ho ht hkt hinc' hbin)
  refine hno (h.added_scaled ho ht hinc' (fun dist hd x hx v hv => ?_) (hadd row hr))
  obtain ⟨-, y', hy', -⟩ := hfound x hx
  rw [h1] at hy'
  simp at hy'

/-- What the answer of the solver means if the bounds of the events are divided by `k`. -/
theorem Sound.answer_scaled (h : Sound P ub) {k : Int} (hk : 0 < k) {order : List Nat} (ho : order.Perm (List.range P.graph.edges.length))
    {a : ScipOutcome} (ha : ScipSpec k P order a) :
    (∀ y, a.best = some y → ∃ t es, Feas P.graph P.prize P.quota P.root t ∧ KeptBy P ub t ∧ IncidenceOf P.graph t es y) ∧
    (a.status = .optimal → ∃ y t es, a.best = some y ∧ Feas P.graph P.prize P.quota P.root t ∧ KeptBy P ub t ∧ IncidenceOf P.graph t es y ∧
      ∀ t', Feas P.graph P.prize P.quota P.root t' → KeptBy P ub t' →
        (∀ dist ∈ P.covers, ∀ v ∈ t', dist v ≤ walkCost P.graph P.cost t / k) → walkCost P.graph P.cost t ≤ walkCost P.graph P.cost t') ∧
    (a.status = .infeasible → a.best = none ∧ ∀ t, Feas P.graph P.prize P.quota P.root t → ¬ KeptBy P ub t) := by
  obtain ⟨found, added, hfound, hadd, hopt, hinf⟩ := ha.added
  refine ⟨fun y hy => h.tour_of_accepted ho (ha.best y hy), fun hs => ?_, fun hs => ?_⟩
  · obtain ⟨y, hy, hle⟩ := hopt hs
    obtain ⟨t, es, ht, hkt, hinc⟩ := h.tour_of_accepted ho (ha.best y hy)
    refine ⟨y, t, es, hy, ht, hkt, hinc, fun t' ht' hk' hb => ?_⟩
    obtain ⟨es', z, hinc', hbin⟩ := incidence_exists ht'.tour ht'.three
    have hobj := objective_incidence h.simple h.loop ht.tour ht.three hinc
    rw [← hobj, ← objective_incidence h.simple h.loop ht'.tour ht'.three hinc']
    refine hle z (h.accepted_of_tour ho ht' hk' hinc' hbin) fun row hr => h.added_scaled ho ht' hinc' (fun dist hd x hx v hv => ?_) (hadd row hr)
    obtain ⟨-, y', hy', hle'⟩ := hfound x hx
    rw [hy] at hy'
    injection hy' with hy'
    subst hy'
    have h1 := hb dist hd v hv
    rw [← hobj] at h1
    exact Int.le_trans h1 (Int.ediv_le_ediv hk hle')
  · exact h.infeasible ho ha hs

/-- What the answer of the solver means. -/
theorem Sound.answer (h : Sound P ub) (hcov : CoversValid P) {k : Int} (hk1 : k = 1 ∨ P.covers = []) {order : List Nat} (ho : order.Perm (List.range P.graph.edges.length)) {a : ScipOutcome}
    (ha : ScipSpec k P order a) :
    (∀ y, a.best = some y → ∃ t es, Feas P.graph P.prize P.quota P.root t ∧ KeptBy P ub t ∧ IncidenceOf P.graph t es y) ∧
    (a.status = .optimal → ∃ y t es, a.best = some y ∧ Feas P.graph P.prize P.quota P.root t ∧ KeptBy P ub t ∧ IncidenceOf P.graph t es y ∧
      ∀ t', Feas P.graph P.prize P.quota P.root t' → KeptBy P ub t' → walkCost P.graph P.cost t ≤ walkCost P.graph P.cost t') ∧
    (a.status = .infeasible → a.best = none ∧ ∀ t, Feas P.graph P.prize P.quota P.root t → ¬ KeptBy P ub t) := by
  have key : (∃ t, Feas P.graph P.prize P.quota P.root t ∧ KeptBy P ub t) → ∃ t es z, Feas P.graph P.prize P.quota P.root t ∧ IncidenceOf P.graph t es z ∧
      Accepted P order z ∧ (∀ found, (∀ y ∈ found, Accepted P order y) → ∀ row, Adds k P order found row → row.Sat z) ∧
      ∀ t', Feas P.graph P.prize P.quota P.root t' → KeptBy P ub t' → walkCost P.graph P.cost t ≤ walkCost P.graph P.cost t' := by
    intro hex
    obtain ⟨t, ⟨ht, hk⟩, hmin⟩ := walk_minimal (cost := P.cost) h.nonneg hex
    obtain ⟨es, z, hinc, hbin⟩ := incidence_exists ht.tour ht.three
    exact ⟨t, es, z, ht, hinc, h.accepted_of_tour ho ht hk hinc hbin, fun found hf row hr => h.added hcov hk1 ho ht (fun t' h1 h2 => hmin t' ⟨h1, h2⟩) hinc hf hr,
      fun t' h1 h2 => hmin t' ⟨h1, h2⟩⟩
  obtain ⟨found, added, hfound, hadd, hopt, hinf⟩ := ha.added
  refine ⟨fun y hy => h.tour_of_accepted ho (ha.best y hy), fun hs => ?_, fun hs => ?_⟩
  · obtain ⟨y, hy, hle⟩ := hopt hs
    obtain ⟨t, es, ht, hk, hinc⟩ := h.tour_of_accepted ho (ha.best y hy)
    refine ⟨y, t, es, hy, ht, hk, hinc, fun t' ht' hk' => ?_⟩
    obtain ⟨t₀, es₀, z, ht₀, hinc₀, hacc, hsat, hmin⟩ := key ⟨t, ht, hk⟩
    have h1 := hle z hacc fun row hr => hsat found (fun y hy => (hfound y hy).1) row (hadd row hr)
    rw [objective_incidence h.simple h.loop ht.tour ht.three hinc, objective_incidence h.simple h.loop ht₀.tour ht₀.three hinc₀] at h1
    exact Int.le_trans h1 (hmin t' ht' hk')
  · exact h.infeasible ho ha hs

theorem Built.sound {heur : List Nat} {prize : Nat → Int} {quota : Int} {root : Nat} {o : SolveOptions} {disjoint : Nat → Int}
    {pick : Pick} (hpick : pick.Heap) (h : Built g heur cost prize quota root o disjoint pick P)
    (hg : g.WF) (hno : ∀ e ∈ g.edges, e.1 ≠ e.2) (hs : (g.edges.map und).Nodup) (hc : ∀ e < g.edges.length, 0 ≤ cost e) (hroot : root < g.n)
    (hreach : o.coverShortest = true → ∀ v < g.n, ∃ d, Reaches g cost (fun _ => false) root v d ∧ d ≤ 1073741823)
    (hprize : o.cycleCover = true → ∀ v < g.n, 0 ≤ prize v) :
    Sound P (heur.map cost).sum ∧ (∀ t, Feas P.graph P.prize P.quota P.root t ↔ Feas g prize quota root t) ∧
      (∀ t, Feas g prize quota root t → Pctsp.walkCost P.graph P.cost t = Pctsp.walkCost g cost t) ∧
      (∀ t b, Feas g prize quota root t → ((∀ dist ∈ P.covers, ∀ v ∈ t, dist v ≤ b) ↔ Within g cost root o disjoint b t)) ∧
      ((o.coverDisjoint = true → ∀ t, Feas g prize quota root t → ∀ v ∈ t, disjoint v ≤ Pctsp.walkCost g cost t) → CoversValid P ∧
        ∀ t, Feas g prize quota root t → Pctsp.walkCost g cost t ≤ (heur.map cost).sum → KeptBy P (heur.map cost).sum t) := by
  have hS := h.loops.simple hg hno hs
  have hroot' : P.root < P.graph.n := by rw [h.root, h.loops.n]; exact hroot
  have hfeas : ∀ t, Feas P.graph P.prize P.quota P.root t ↔ Feas g prize quota root t := by
    intro t
    rw [h.prize, h.quota, h.root]
    constructor
    · rintro ⟨a, b, c⟩; exact ⟨(h.loops.tour (by omega)).1 a, b, c⟩
    · rintro ⟨a, b, c⟩; exact ⟨(h.loops.tour (by omega)).2 a, b, c⟩
  have hcost : ∀ t, Feas g prize quota root t → Pctsp.walkCost P.graph P.cost t = Pctsp.walkCost g cost t := fun t ht => h.loops.walkCost ht.tour.walk
  have hsp : ∀ dists, shortestPathCoverDistances P.graph P.cost pick root = .ok dists → ∀ v < g.n, ∃ d, dists.getD v 0 = 2 * d ∧
      Reaches g cost (fun _ => false) root v d ∧ ∀ d', Reaches g cost (fun _ => false) root v d' → d ≤ d' := by
    intro dists hd v hv
    obtain ⟨-, h1⟩ := shortestPathCover_ok hS.wf hpick (by rw [h.loops.n]; exact hroot) hd
    obtain ⟨d, h2, h3, h4⟩ := h1 v (by rw [h.loops.n]; exact hv)
    exact ⟨d, by simp [List.getD_eq_getElem?_getD, h2], h.loops.reaches_back h3, fun d' hd' => h4 d' (h.loops.reaches hd')⟩
  have hcov : (o.coverDisjoint = true → ∀ t, Feas g prize quota root t → ∀ v ∈ t, disjoint v ≤ Pctsp.walkCost g cost t) → CoversValid P := by
    intro hdis dist hd t ht v hv
    rcases (h.covers dist).1 hd with ⟨ho, rfl⟩ | ⟨ho, dists, h1, rfl⟩
    · rw [hcost t ((hfeas t).1 ht)]
      exact hdis ho t ((hfeas t).1 ht) v hv
    · rw [← h.root] at h1
      obtain ⟨es, x, hinc, -⟩ := incidence_exists ht.tour ht.three
      obtain ⟨rows', h2, h3⟩ := C38_shortest_paths hS.wf hS.loops (h.loops.cost_nonneg hc) hpick hroot' h1 (objective P.graph P.cost x)
      have h4 := (coverRows_sat hS hroot' h2 ht.tour hinc).1 (fun row hr => h3 row hr t es x ht.tour hinc (Int.le_refl _)) v hv
      rw [objective_incidence hS h.loops.loop ht.tour ht.three hinc] at h4
      exact h4
  refine ⟨⟨hS, hroot', h.loops.loop, h.loops.cost_nonneg hc, ?_, ?_⟩, hfeas, hcost, fun t b ht => ?_, fun hdis => ⟨hcov hdis, fun t ht hle _ dist hd v hv =>
    Int.le_trans (hcov hdis dist hd t ((hfeas t).2 ht) v hv) (by rw [hcost t ht]; exact hle)⟩⟩
  · rw [h.cycleCover, h.prize, h.loops.n]; exact hprize
  · rw [h.prize, h.quota, h.root]; exact h.rows
  · constructor
    · intro hk v hv
      have hvn := tour_lt hg ht.tour v hv
      refine ⟨fun ho => hk disjoint ((h.covers _).2 (Or.inl ⟨ho, rfl⟩)) v hv, fun ho => ?_⟩
      obtain ⟨dists, h1, -⟩ := C39_exact hS.wf (h.loops.cost_nonneg hc) hpick (by rw [h.loops.n]; exact hroot : root < P.graph.n) (fun v hv => by
        obtain ⟨d, h6, h7⟩ := hreach ho v (by rw [← h.loops.n]; exact hv)
        exact ⟨d, h.loops.reaches h6, h7⟩) 0
      obtain ⟨d, h2, h3, -⟩ := hsp dists h1 v hvn
      have h4 := hk _ ((h.covers _).2 (Or.inr ⟨ho, dists, h1, rfl⟩)) v hv
      exact ⟨d, h3, by omega⟩
    · intro htr dist hd v hv
      have hvn := tour_lt hg ht.tour v hv
      obtain ⟨h1, h2⟩ := htr v hv
      rcases (h.covers dist).1 hd with ⟨ho, rfl⟩ | ⟨ho, dists, h3, rfl⟩
      · exact h1 ho
      · obtain ⟨d, h4, h5⟩ := h2 ho
        obtain ⟨d', h6, -, h7⟩ := hsp dists h3 v hvn
        have := h7 d h4
        show dists.getD v 0 ≤ _
        omega

theorem edgesOfTour_of_und {t : List Nat} {ps : List (Nat × Nat)} (h : (ps.map und).Perm ((consec t).map und)) : EdgesOfTour t ps := by
  have h1 : List.Forall₂ (fun p u => u = und p) ps (ps.map und) := by
    rw [List.forall₂_map_right_iff]; exact List.forall₂_same.2 fun _ _ => rfl
  have h2 : List.Forall₂ (fun u (q : Nat × Nat) => u = und q) ((consec t).map und) (consec t) := by
    rw [List.forall₂_map_left_iff]; exact List.forall₂_same.2 fun _ _ => rfl
  obtain ⟨qs, h3, h4⟩ : Relation.Comp (List.Forall₂ fun u (q : Nat × Nat) => u = und q) List.Perm (ps.map und) (consec t) := by
    rw [List.forall₂_comp_perm_eq_perm_comp_forall₂]
    exact ⟨_, h, h2⟩
  refine ⟨qs, h4, ?_⟩
  rw [List.forall₂_map_left_iff] at h3
  exact h3.imp fun p q hpq => by
    obtain ⟨a, b⟩ := p
    obtain ⟨c, d⟩ := q
    rcases und_eq_iff.1 hpq with ⟨rfl, rfl⟩ | ⟨rfl, rfl⟩
    · exact Or.inl rfl
    · exact Or.inr rfl

/-- The edges that are read off the incidence vector of a tour. -/
theorem solution_pairs {order : List Nat} (ho : order.Perm (List.range g.edges.length)) {prize : Nat → Int} {quota : Int} {root : Nat} {y : Nat → Int}
    {t es : List Nat} (ht : Feas g prize quota root t) (hinc : IncidenceOf g t es y) :
    ∃ ps, getVertexPairVectorFromEdgeSubset g (getSolutionEdges g order fun e => decide (0 < y e)) = .ok ps ∧ EdgesOfTour t ps := by
  obtain ⟨-, -, ps, h5, h6⟩ := C87_edges ho ht.tour (by have := ht.three; omega) hinc
  exact ⟨ps, h5, edgesOfTour_of_und h6⟩

theorem EdgesOfTour.sum {α : Type} {t : List α} {ps : List (α × α)} (h : EdgesOfTour t ps) {f : α → α → Int} (hf : ∀ x y, f x y = f y x) :
    (ps.map fun p => f p.1 p.2).sum = ((consec t).map fun p => f p.1 p.2).sum := by
  obtain ⟨qs, h1, h2⟩ := h
  rw [← (h1.map _).sum_eq]
  clear h1
  induction h2 with
  | nil => rfl
  | @cons p q ps qs hpq _ ih =>
    rw [List.map_cons, List.map_cons, List.sum_cons, List.sum_cons, ih]
    rcases hpq with rfl | rfl
    · rfl
    · rw [hf]

theorem EdgesOfTour.ne_nil {α : Type} {t : List α} {ps : List (α × α)} (h : EdgesOfTour t ps) (ht : 2 ≤ t.length) : ps ≠ [] := by
  rintro rfl
  obtain ⟨qs, h1, h2⟩ := h
  cases h2
  have := h1.length_eq
  simp [consec] at this
  omega

theorem EdgesOfTour.und {t : List Nat} {ps : List (Nat × Nat)} (h : EdgesOfTour t ps) : (ps.map und).Perm ((consec t).map und) := by
  obtain ⟨qs, h1, h2⟩ := h
  have : ps.map Pctsp.und = qs.map Pctsp.und := by
    clear h1
    induction h2 with
    | nil => rfl
    | @cons p q ps qs hpq _ ih =>
      rw [List.map_cons, List.map_cons, ih]
      congr 1
      rcases hpq with rfl | rfl
      · rfl
      · exact und_eq_iff.2 (Or.inr ⟨rfl, rfl⟩)
  rw [this]
  exact h1.map _

/-- A start solution that is a feasible tour is accepted, unless its own rows exclude it. -/
theorem Built.start {heur : List Nat} {prize : Nat → Int} {quota : Int} {root : Nat} {o : SolveOptions} {disjoint : Nat → Int} {pick : Pick} {ub : Int}
    (hB : Built g heur cost prize quota root o disjoint pick P) (hsnd : Sound P ub) {order : List Nat} (ho : order.Perm (List.range P.graph.edges.length))
    (hno : ∀ e ∈ g.edges, e.1 ≠ e.2) {t : List Nat} (ht : Feas P.graph P.prize P.quota P.root t) (hkept : KeptBy P ub t) {ps : List (Nat × Nat)}
    (hps : List.Forall₂ (fun e p => g.edges[e]? = some p) heur ps) (hedges : EdgesOfTour t ps) :
    ∃ vars, P.warm = some vars ∧ Accepted P order (heuristicSol vars) ∧ objective P.graph P.cost (heuristicSol vars) = walkCost P.graph P.cost t := by
  have hps' : List.Forall₂ (fun e p => P.graph.edges[e]? = some p) heur ps := hps.imp fun e p h => by
    rw [hB.loops.edges, List.getElem?_append_left (List.getElem?_eq_some_iff.1 h).1, h]
  have hne : ∀ e ∈ heur, ∃ u v, P.graph.edges[e]? = some (u, v) ∧ u ≠ v := by
    intro e he
    obtain ⟨p, hp, h1⟩ := forall₂_left_mem hps he
    obtain ⟨p', hp', h2⟩ := forall₂_left_mem hps' he
    obtain ⟨u, v⟩ := p
    refine ⟨u, v, ?_, hno _ (List.mem_of_getElem? h1)⟩
    rw [hB.loops.edges, List.getElem?_append_left (List.getElem?_eq_some_iff.1 h1).1, h1]
  have hnd : heur.Nodup := by
    have h1 : (ps.map und).Nodup := hedges.und.nodup_iff.2 (und_tour_nodup ht.tour ht.three)
    have h2 : ps = heur.map (endsOf g) := by
      obtain ⟨h2, -⟩ := forall₂_ends hps
      exact h2
    rw [h2] at h1
    exact List.Nodup.of_map _ (List.Nodup.of_map _ h1)
  obtain ⟨vars, h1, hinc⟩ := heuristic_incidence hsnd.simple hnd hne ht.tour ht.three hps' hedges.und
  obtain ⟨vars', h2, h3⟩ := hB.warm (by
    rintro rfl
    cases hps
    exact hedges.ne_nil (by have := ht.three; omega) rfl)
  obtain rfl : vars = vars' := by rw [h1] at h2; exact Res.ok.inj h2
  exact ⟨vars, h3, hsnd.accepted_of_tour ho ht hkept hinc (fun e => by unfold heuristicSol; split <;> simp),
    objective_incidence hsnd.simple hsnd.loop ht.tour ht.three hinc⟩

/-- The solver for a graph of the library: `k` is the divisor of the objective function. -/
theorem solve_graph (hg : g.WF) (hno : ∀ e ∈ g.edges, e.1 ≠ e.2) (hs : (g.edges.map und).Nodup) (hc : ∀ e < g.edges.length, 0 ≤ cost e)
    {heur : List Nat} (hheur : ∀ e ∈ heur, e < g.edges.length) {prize : Nat → Int} {quota : Int} {root : Nat} (hroot : root < g.n) (o : SolveOptions)
    {disjoint : Nat → Int} {pick : Pick} (hpick : pick.Heap) {scip : Problem → ScipOutcome} {order : Nat → List Nat}
    (ho : ∀ n, (order n).Perm (List.range n)) {k : Int} (hscip : ∀ P, ScipSpec k P (order P.graph.edges.length) (scip P))
    (hreach : o.coverShortest = true → ∀ v < g.n, ∃ d, Reaches g cost (fun _ => false) root v d ∧ d ≤ 1073741823)
    (hprize : o.cycleCover = true → ∀ v < g.n, 0 ≤ prize v) :
    ∃ st ps, solvePCTSP scip order g heur cost prize quota root o disjoint pick = .ok (st, ps) ∧
      (ps = [] ∨ ∃ t, Feas g prize quota root t ∧ Trusted g cost root o disjoint (heur.map cost).sum t ∧ EdgesOfTour t ps) ∧
      (st = .optimal → ∃ t, Feas g prize quota root t ∧ Trusted g cost root o disjoint (heur.map cost).sum t ∧ EdgesOfTour t ps ∧
        ((k = 1 ∨ (o.coverDisjoint = false ∧ o.coverShortest = false)) →
          (o.coverDisjoint = true → ∀ t, Feas g prize quota root t → ∀ v ∈ t, disjoint v ≤ Pctsp.walkCost g cost t) →
          ∀ t', Feas g prize quota root t' → Trusted g cost root o disjoint (heur.map cost).sum t' → Pctsp.walkCost g cost t ≤ Pctsp.walkCost g cost t') ∧
        (0 < k → ∀ t', Feas g prize quota root t' → Trusted g cost root o disjoint (heur.map cost).sum t' →
          Within g cost root o disjoint (Pctsp.walkCost g cost t / k) t' → Pctsp.walkCost g cost t ≤ Pctsp.walkCost g cost t')) ∧
      (st = .infeasible → ps = [] ∧ ∀ t, Feas g prize quota root t → ¬ Trusted g cost root o disjoint (heur.map cost).sum t) ∧
      ((o.coverDisjoint = true → ∀ t, Feas g prize quota root t → ∀ v ∈ t, disjoint v ≤ Pctsp.walkCost g cost t) →
        ∀ t, Feas g prize quota root t → Pctsp.walkCost g cost t ≤ (heur.map cost).sum → Trusted g cost root o disjoint (heur.map cost).sum t) ∧
      ((∀ P, KeepsStart P (order P.graph.edges.length) (scip P)) → ∀ t qs, Feas g prize quota root t →
        Trusted g cost root o disjoint (heur.map cost).sum t → List.Forall₂ (fun e p => g.edges[e]? = some p) heur qs → EdgesOfTour t qs →
        ∃ t', Feas g prize quota root t' ∧ Trusted g cost root o disjoint (heur.map cost).sum t' ∧ EdgesOfTour t' ps ∧
          Pctsp.walkCost g cost t' ≤ Pctsp.walkCost g cost t) := by
  obtain ⟨P, h1, hB⟩ := buildProblem_ok hg hno hs hc hheur prize quota hroot o disjoint hpick hreach
  obtain ⟨hsnd, hfeas, hcost, hwithin, hcheap⟩ := hB.sound hpick hg hno hs hc hroot hreach hprize
  have hkept : ∀ t, Feas g prize quota root t → (KeptBy P (heur.map cost).sum t ↔ Trusted g cost root o disjoint (heur.map cost).sum t) :=
    fun t ht => imp_congr_right fun _ => hwithin t _ ht
  have hP := ho P.graph.edges.length
  have hlast : (o.coverDisjoint = true → ∀ t, Feas g prize quota root t → ∀ v ∈ t, disjoint v ≤ Pctsp.walkCost g cost t) →
      ∀ t, Feas g prize quota root t → Pctsp.walkCost g cost t ≤ (heur.map cost).sum → Trusted g cost root o disjoint (heur.map cost).sum t :=
    fun hdis t ht hle => (hkept t ht).1 ((hcheap hdis).2 t ht hle)
  have hobj : ∀ y t es, Feas P.graph P.prize P.quota P.root t → IncidenceOf P.graph t es y → objective P.graph P.cost y = Pctsp.walkCost g cost t :=
    fun y t es ht hinc => by rw [objective_incidence hsnd.simple hsnd.loop ht.tour ht.three hinc, hcost t ((hfeas t).1 ht)]
  rw [solvePCTSP, h1]
  simp only [Res.ok_bind]
  cases hb : (scip P).best with
  | none =>
    refine ⟨(scip P).status, [], rfl, Or.inl rfl, fun hst => ?_, fun hst => ?_, hlast, fun hkeep t qs ht hT hqs he => ?_⟩
    · obtain ⟨found, added, -, -, hopt, -⟩ := (hscip P).added
      obtain ⟨y, hy, -⟩ := hopt hst
      rw [hb] at hy
      simp at hy
    · exact ⟨rfl, fun t ht hk => (hsnd.infeasible hP (hscip P) hst).2 t ((hfeas t).2 ht) ((hkept t ht).2 hk)⟩
    · obtain ⟨vars, k1, k2, -⟩ := hB.start hsnd hP hno ((hfeas t).2 ht) ((hkept t ht).2 hT) hqs he
      obtain ⟨y, hy, -⟩ := hkeep P vars k1 k2
      rw [hb] at hy
      simp at hy
  | some y =>
    obtain ⟨t, es, ht, hk, hinc⟩ := hsnd.tour_of_accepted hP ((hscip P).best y hb)
    obtain ⟨ps, h5, h6⟩ := solution_pairs hP ht hinc
    have hf := (hfeas t).1 ht
    have hT := (hkept t hf).1 hk
    refine ⟨(scip P).status, ps, by simp only [h5, Res.ok_bind]; rfl, Or.inr ⟨t, hf, hT, h6⟩, fun hst => ⟨t, hf, hT, h6, fun hk1 hdis t' ht' hT' => ?_,
      fun hk1 t' ht' hT' hw' => ?_⟩, fun hst => ?_, hlast, fun hkeep t' qs ht' hT' hqs he => ⟨t, hf, hT, h6, ?_⟩⟩
    · obtain ⟨-, h3, -⟩ := hsnd.answer (hcheap hdis).1 (hk1.imp_right fun ⟨a, b⟩ => List.eq_nil_iff_forall_not_mem.2 fun dist hd => by
        have := (hB.covers dist).1 hd
        simp [a, b] at this) hP (hscip P)
      obtain ⟨y', s, es', hy', hs', -, hinc', hmin⟩ := h3 hst
      obtain rfl : y = y' := by rw [hb] at hy'; exact Option.some.inj hy'
      have := hmin t' ((hfeas t').2 ht') ((hkept t' ht').2 hT')
      rw [hcost t' ht', hcost s ((hfeas s).1 hs'), ← hobj y s es' hs' hinc', hobj y t es ht hinc] at this
      exact this
    · obtain ⟨-, h3, -⟩ := hsnd.answer_scaled hk1 hP (hscip P)
      obtain ⟨y', s, es', hy', hs', -, hinc', hmin⟩ := h3 hst
      obtain rfl : y = y' := by rw [hb] at hy'; exact Option.some.inj hy'
      have hst : Pctsp.walkCost P.graph P.cost s = Pctsp.walkCost g cost t := by
        rw [hcost s ((hfeas s).1 hs'), ← hobj y s es' hs' hinc', hobj y t es ht hinc]
      have := hmin t' ((hfeas t').2 ht') ((hkept t' ht').2 hT') ((hwithin t' _ ht').2 (by rw [hst]; exact hw'))
      rw [hcost t' ht', hst] at this
      exact this
    · have := (hsnd.infeasible hP (hscip P) hst).1
      rw [hb] at this
      simp at this
    · obtain ⟨vars, k1, k2, k3⟩ := hB.start hsnd hP hno ((hfeas t').2 ht') ((hkept t' ht').2 hT') hqs he
      obtain ⟨y', hy', hle⟩ := hkeep P vars k1 k2
      obtain rfl : y = y' := by rw [hb] at hy'; exact Option.some.inj hy'
      rw [k3, hcost t' ht', hobj y t es ht hinc] at hle
      exact hle

end Pctsp
