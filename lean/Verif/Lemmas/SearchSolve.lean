import Verif.Lemmas.SolveBind
import Verif.Lemmas.SearchEnds

/-! # The problem that the solver is called with -/

namespace Pctsp

variable {α : Type} [DecidableEq α]

/-- The problem has the shape that the bindings give it, and its costs are those of the caller. -/
structure Posed (w : α → α → Int) (P : Problem) : Prop where
  sound : ∃ ub, Sound P ub
  cost : ∀ e < P.graph.edges.length, P.cost e = 0 ∨ ∃ x y, P.cost e = w x y

/-- The answer of the bindings only depends on what SCIP does with one problem, and the status is the one of SCIP. -/
theorem solveBind_posed_covers {es heur : List (α × α)} {costs : List ((α × α) × Int)} {prizes : List (α × Int)} {w : α → α → Int} {π δ : α → Int}
    (h : Describes es costs prizes w π) (hno : ∀ e ∈ es, e.1 ≠ e.2) (hw : ∀ x y, 0 ≤ w x y) (quota : Int) {root : α} (hroot : root ∈ endpoints es)
    (hheur : ∀ p ∈ heur, AdjIn es p.1 p.2) (o : SolveOptions) {disjoint : List (α × Int)} (hkeys : ∀ x c, (x, c) ∈ disjoint → c = δ x ∧ x ∈ endpoints es)
    {pick : Pick} (hpick : pick.Heap)
    (hreach : o.coverShortest = true → ∀ x ∈ endpoints es, ∃ l, (root :: l).getLast? = some x ∧ (∀ p ∈ consec (root :: l), AdjIn es p.1 p.2) ∧
      namedCost w (root :: l) ≤ 1073741823)
    (hprize : o.cycleCover = true → ∀ x, 0 ≤ π x) (order : Nat → List Nat) :
    ∃ P, (Posed w P ∧ ((o.coverDisjoint = true → ∀ x c, (x, c) ∈ disjoint → ∀ t, FeasibleIn es π quota root t → x ∈ t → c ≤ namedCost w t) → CoversValid P)) ∧
      (∀ scip scip' : Problem → ScipOutcome, scip P = scip' P → solveBind scip order es heur costs prizes quota root o disjoint pick =
        solveBind scip' order es heur costs prizes quota root o disjoint pick) ∧
      ∀ (scip : Problem → ScipOutcome) st ps, solveBind scip order es heur costs prizes quota root o disjoint pick = .ok (st, ps) → st = (scip P).status := by
  obtain ⟨p, h1, hp, -⟩ := prepare_spec h (tour := []) (by simp)
  obtain ⟨ne, h2, h3⟩ := renameEdges_nil es
  rw [prepare, h2] at h1
  simp only at h1
  obtain ⟨t0, -, h1⟩ := Res.bind_eq_ok.1 h1
  obtain ⟨cost, hcost, h1⟩ := Res.bind_eq_ok.1 h1
  obtain ⟨prize, hprz, h1⟩ := Res.bind_eq_ok.1 h1
  injection h1 with h1
  subst h1
  obtain ⟨r, hr⟩ := List.mem_iff_getElem?.1 ((hp.mem root).2 hroot)
  obtain ⟨dist, h4, h5⟩ := fillVertexMap_spec hp.nodup δ disjoint (fun x c hx => (hkeys x c hx).1) (fun x c hx => (hp.mem x).2 (hkeys x c hx).2) (fun _ => 0)
  obtain ⟨hs, is, h6, h7, h8, -⟩ := namedEdges_ok hp heur hheur
  have hfeas : ∀ {t t'}, List.Forall₂ (NameOf (firstSeen es)) t t' → Feas (graphOf ne) prize quota r t' → FeasibleIn es π quota root t := by
    rintro t t' htt ⟨a, b, c⟩
    have hlen := htt.length_eq
    have hpr := hp.prize htt
    simp only at hpr
    exact ⟨(hp.isTour htt hr).1 a, by omega, by rw [← hpr]; exact c⟩
  have hsimple : ((graphOf ne).edges.map und).Nodup := by rw [graphOf_edges]; exact graphOf_simple h3 h.distinct
  have hloop : ∀ e ∈ (graphOf ne).edges, e.1 ≠ e.2 := by rw [graphOf_edges]; exact graphOf_loopless h3 hno
  have hreach' : o.coverShortest = true → ∀ v < (graphOf ne).n, ∃ d, Reaches (graphOf ne) cost (fun _ => false) r v d ∧ d ≤ 1073741823 := fun hon v hv => by
    obtain ⟨x, hx⟩ := graphOf_named h3 hv
    obtain ⟨l, l1, l2, l3⟩ := hreach hon x ((hp.mem x).1 (List.mem_of_getElem? hx))
    exact ⟨_, reaches_of_named hp l2 hr .start hx l1, by omega⟩
  obtain ⟨P, k1, hB⟩ := buildProblem_ok hp.wf hloop hsimple (hp.costNonneg hw) h8 prize quota (hp.lt r root hr) o dist hpick hreach'
  obtain ⟨hsnd, -, -, -, hvalid⟩ := hB.sound hpick hp.wf hloop hsimple (hp.costNonneg hw) (hp.lt r root hr) hreach' fun hon v hv => hp.nonneg (hprize hon) v
  have h6' : getNewEdges (number 0 (firstSeen es)) heur = .ok hs := h6
  have h7' : edgesFromVertexPairs (graphOf ne) hs = .ok is := h7
  refine ⟨P, ⟨⟨⟨_, hsnd⟩, fun e he => ?_⟩, fun hdis => (hvalid fun hon t' ht' v hv => ?_).1⟩, fun scip scip' heq => ?_, fun scip st ps hok => ?_⟩
  · by_cases hlt : e < (graphOf ne).edges.length
    · right
      rw [hB.loops.old e hlt]
      have hget := List.getElem?_eq_getElem hlt
      obtain ⟨hu, hv⟩ := hp.wf _ (List.getElem_mem hlt)
      obtain ⟨x, hx⟩ := graphOf_named h3 hu
      obtain ⟨y, hy⟩ := graphOf_named h3 hv
      exact ⟨x, y, named_edge_cost hp hsimple (Or.inl hget) hx hy⟩
    · left
      have hget : P.graph.edges[e]? = some (e - (graphOf ne).edges.length, e - (graphOf ne).edges.length) := by
        have hedges : P.graph.edges = (graphOf ne).edges ++ (List.range (graphOf ne).n).map fun v => (v, v) := hB.loops.edges
        rw [hedges] at he ⊢
        rw [List.length_append, List.length_map, List.length_range] at he
        rw [List.getElem?_append_right (by omega), List.getElem?_map, List.getElem?_range (by omega)]
        rfl
      exact hB.loops.loop _ _ hget
  · obtain ⟨t, htt⟩ := hp.names ht'.tour.walk (by have := ht'.three; omega)
    have ht := hfeas htt ht'
    have hc := hp.cost htt ht'.tour.walk
    obtain ⟨x, hx, hxv⟩ := forall₂_mem_right htt hv
    rw [hc]
    by_cases hex : ∃ c, (x, c) ∈ disjoint
    · obtain ⟨c, hc1⟩ := hex
      rcases h5 v x hxv with h' | ⟨-, h'⟩
      · rw [h', ← (hkeys x c hc1).1]; exact hdis hon x c hc1 t ht hx
      · exact absurd hc1 (h' c)
    · rw [fillVertexMap_absent hp.nodup h4 hxv fun c hc => hex ⟨c, hc⟩, ← hc]
      exact walkCost_nonneg (hp.costNonneg hw) t'
  · rw [solveBind, solveBind, h2]
    simp only [h6', h7', Res.ok_bind, (getNewVertex_number hp.nodup _ _).2 hr, hcost, hprz, h4, solvePCTSP, k1, heq]
  · rw [solveBind, h2] at hok
    simp only [h6', h7', Res.ok_bind, (getNewVertex_number hp.nodup _ _).2 hr, hcost, hprz, h4, solvePCTSP, k1] at hok
    obtain ⟨⟨st', ps'⟩, m1, m2⟩ := Res.bind_eq_ok.1 hok
    obtain ⟨_, -, m2⟩ := Res.bind_eq_ok.1 m2
    obtain ⟨_, -, m1⟩ := Res.bind_eq_ok.1 m1
    cases m1
    cases m2
    rfl

/-- The same without the covers. -/
theorem solveBind_posed {es heur : List (α × α)} {costs : List ((α × α) × Int)} {prizes : List (α × Int)} {w : α → α → Int} {π δ : α → Int}
    (h : Describes es costs prizes w π) (hno : ∀ e ∈ es, e.1 ≠ e.2) (hw : ∀ x y, 0 ≤ w x y) (quota : Int) {root : α} (hroot : root ∈ endpoints es)
    (hheur : ∀ p ∈ heur, AdjIn es p.1 p.2) (o : SolveOptions) {disjoint : List (α × Int)} (hkeys : ∀ x c, (x, c) ∈ disjoint → c = δ x ∧ x ∈ endpoints es)
    {pick : Pick} (hpick : pick.Heap)
    (hreach : o.coverShortest = true → ∀ x ∈ endpoints es, ∃ l, (root :: l).getLast? = some x ∧ (∀ p ∈ consec (root :: l), AdjIn es p.1 p.2) ∧
      namedCost w (root :: l) ≤ 1073741823)
    (hprize : o.cycleCover = true → ∀ x, 0 ≤ π x) (order : Nat → List Nat) :
    ∃ P, Posed w P ∧
      (∀ scip scip' : Problem → ScipOutcome, scip P = scip' P → solveBind scip order es heur costs prizes quota root o disjoint pick =
        solveBind scip' order es heur costs prizes quota root o disjoint pick) ∧
      ∀ (scip : Problem → ScipOutcome) st ps, solveBind scip order es heur costs prizes quota root o disjoint pick = .ok (st, ps) → st = (scip P).status := by
  obtain ⟨P, h1, h2⟩ := solveBind_posed_covers h hno hw quota hroot hheur o hkeys hpick hreach hprize order
  exact ⟨P, h1.1, h2⟩

end Pctsp
