import Verif.Lemmas.SolveLoops
import Verif.Props.Solve

/-!
# C120: the solver on graphs with self-loops

C88 is about graphs without self-loops.  The solver needs one self-loop for each vertex and adds them only if one is missing.
-/

namespace Pctsp

variable {α : Type} [DecidableEq α]

/-- **C120.** Every vertex has a self-loop and no cost cover is on.  The answer is the edges of a feasible tour or nothing, as without self-loops; but
`optimal` means that the cost of the edges of the tour plus that of the self-loops of its vertices is least. -/
theorem C120_answer {es heur : List (α × α)} {costs : List ((α × α) × Int)} {prizes : List (α × Int)} {w : α → α → Int} {π δ : α → Int}
    (h : Describes es costs prizes w π) (hloops : ∀ x ∈ endpoints es, (x, x) ∈ es) {quota : Int} {root : α} (hroot : root ∈ endpoints es)
    (hheur : ∀ p ∈ heur, AdjIn es p.1 p.2) {o : SolveOptions} (hd : o.coverDisjoint = false) (hs : o.coverShortest = false)
    {disjoint : List (α × Int)} (hkeys : ∀ x c, (x, c) ∈ disjoint → c = δ x ∧ x ∈ endpoints es) {pick : Pick} {scip : Problem → ScipOutcome}
    {order : Nat → List Nat} (ho : ∀ n, (order n).Perm (List.range n)) {k : Int} (hscip : ∀ P, ScipSpec k P (order P.graph.edges.length) (scip P))
    (hprize : o.cycleCover = true → ∀ x, 0 ≤ π x) :
    ∃ st ps, solveBind scip order es heur costs prizes quota root o disjoint pick = .ok (st, ps) ∧
      (ps = [] ∨ ∃ t, FeasibleIn es π quota root t ∧ EdgesOfTour t ps) ∧
      (st = .optimal → ∃ t, FeasibleIn es π quota root t ∧ EdgesOfTour t ps ∧ ∀ t', FeasibleIn es π quota root t' →
        namedCost w t + (t.dropLast.map fun x => w x x).sum ≤ namedCost w t' + (t'.dropLast.map fun x => w x x).sum) ∧
      (st = .infeasible → ps = [] ∧ ∀ t, ¬ FeasibleIn es π quota root t) := by
  obtain ⟨p, h1, hp, -⟩ := prepare_spec h (tour := []) (by simp)
  obtain ⟨ne, h2, h3⟩ := renameEdges_nil es
  rw [prepare, h2] at h1
  simp only at h1
  obtain ⟨t0, -, h1⟩ := Res.bind_eq_ok.1 h1
  obtain ⟨cost, hcost, h1⟩ := Res.bind_eq_ok.1 h1
  obtain ⟨prize, hprz, h1⟩ := Res.bind_eq_ok.1 h1
  injection h1 with h1
  subst h1
  obtain ⟨r, hr⟩ := List.mem_iff_getElem?.1 ((hp.mem root).2 hroot)
  obtain ⟨dist, h4, -⟩ := fillVertexMap_spec hp.nodup δ disjoint (fun x c hx => (hkeys x c hx).1) (fun x c hx => (hp.mem x).2 (hkeys x c hx).2) (fun _ => 0)
  obtain ⟨hs', is, h6, h7, h8, -⟩ := namedEdges_ok hp heur hheur
  have hsimple : ((graphOf ne).edges.map und).Nodup := by rw [graphOf_edges]; exact graphOf_simple h3 h.distinct
  have hg : SimpleWithLoops (graphOf ne) := by
    refine ⟨hp.wf, fun v hv => ?_, hsimple⟩
    obtain ⟨x, hx⟩ := graphOf_named h3 hv
    have h5 := (hp.adj hx hx).2 (Or.inl (hloops x ((hp.mem x).1 (List.mem_of_getElem? hx))))
    rcases h5 with h5 | h5 <;> exact h5
  have hpair : ∀ v x, (firstSeen es)[v]? = some x → pairCost (graphOf ne) cost v v = w x x := by
    intro v x hx
    have hv := hp.lt v x hx
    obtain ⟨i, hi⟩ := Option.isSome_iff_exists.1 (edgeIdx_isSome_iff.2 (Or.inl (hg.loops v hv) : Adj (graphOf ne) v v))
    rw [pairCost_eq hi]
    exact named_edge_cost hp hsimple (edgeIdx_eq_some hi) hx hx
  have hloop : ∀ {t : List α} {t' : List Nat}, List.Forall₂ (NameOf (firstSeen es)) t t' →
      tourPrize (fun v => pairCost (graphOf ne) cost v v) t' = (t.dropLast.map fun x => w x x).sum := by
    have key : ∀ {t : List α} {t' : List Nat}, List.Forall₂ (NameOf (firstSeen es)) t t' →
        (t'.map fun v => pairCost (graphOf ne) cost v v) = t.map fun x => w x x := by
      intro t t' htt
      induction htt with
      | nil => rfl
      | cons h _ ih => rw [List.map_cons, List.map_cons, ih, hpair _ _ h]
    intro t t' htt
    rw [tourPrize, prizeSum, List.map_dropLast, key htt, List.map_dropLast]
  have hfeas : ∀ {t t'}, List.Forall₂ (NameOf (firstSeen es)) t t' → (Feas (graphOf ne) prize quota r t' ↔ FeasibleIn es π quota root t) := by
    intro t t' htt
    have hlen := htt.length_eq
    have hpr := hp.prize htt
    simp only at hpr
    constructor
    · rintro ⟨a, b, c⟩
      exact ⟨(hp.isTour htt hr).1 a, by omega, by rw [← hpr]; exact c⟩
    · rintro ⟨a, b, c⟩
      exact ⟨(hp.isTour htt hr).2 a, by omega, by rw [hpr]; exact c⟩
  have hold : ∀ t, FeasibleIn es π quota root t → ∃ t', List.Forall₂ (NameOf (firstSeen es)) t t' ∧ Feas (graphOf ne) prize quota r t' ∧
      walkCost (graphOf ne) cost t' = namedCost w t := by
    intro t ht
    obtain ⟨t', htt⟩ := names_of_mem hp.mem t ht.tour.mem_endpoints
    exact ⟨t', htt, (hfeas htt).2 ht, hp.cost htt ((hfeas htt).2 ht).tour.walk⟩
  obtain ⟨st, ps, k1, k2, k3, k4⟩ := solve_graph_loops (cost := cost) hg h8 (prize := prize) (quota := quota) (hp.lt r root hr) hd hs (disjoint := dist)
    (pick := pick) ho hscip (fun hon v _ => hp.nonneg (hprize hon) v)
  have hback : ∀ t' , Feas (graphOf ne) prize quota r t' → EdgesOfTour t' ps → ∃ old t, getOldEdges (number 0 (firstSeen es)) ps = .ok old ∧
      FeasibleIn es π quota root t ∧ EdgesOfTour t old ∧ walkCost (graphOf ne) cost t' = namedCost w t ∧ List.Forall₂ (NameOf (firstSeen es)) t t' := by
    intro t' ht' hps
    obtain ⟨t, htt⟩ := hp.names ht'.tour.walk (by have := ht'.three; omega)
    obtain ⟨old, m1, m2⟩ := edgesOfTour_old htt hps
    exact ⟨old, t, m1, (hfeas htt).1 ht', m2, hp.cost htt ht'.tour.walk, htt⟩
  have hok : ∃ old, getOldEdges (number 0 (firstSeen es)) ps = .ok old ∧ (ps = [] → old = []) := by
    rcases k2 with rfl | ⟨t', ht', hps⟩
    · exact ⟨[], rfl, fun _ => rfl⟩
    · obtain ⟨old, t, m1, -⟩ := hback t' ht' hps
      exact ⟨old, m1, by rintro rfl; rw [getOldEdges, mapRes] at m1; injection m1 with m1; exact m1.symm⟩
  obtain ⟨old, m1, m2⟩ := hok
  refine ⟨st, old, ?_, ?_, fun hst => ?_, fun hst => ?_⟩
  · have h6' : getNewEdges (number 0 (firstSeen es)) heur = .ok hs' := h6
    have h7' : edgesFromVertexPairs (graphOf ne) hs' = .ok is := h7
    rw [solveBind, h2]
    simp only [h6', h7', Res.ok_bind, (getNewVertex_number hp.nodup _ _).2 hr, hcost, hprz, h4, k1, m1]
    rfl
  · rcases k2 with hn | ⟨t', ht', hps⟩
    · exact Or.inl (m2 hn)
    · obtain ⟨old', t, n1, n2, n3, -⟩ := hback t' ht' hps
      obtain rfl : old = old' := by rw [m1] at n1; exact Res.ok.inj n1
      exact Or.inr ⟨t, n2, n3⟩
  · obtain ⟨t', ht', hps, hmin⟩ := k3 hst
    obtain ⟨old', t, n1, n2, n3, n4, n5⟩ := hback t' ht' hps
    obtain rfl : old = old' := by rw [m1] at n1; exact Res.ok.inj n1
    refine ⟨t, n2, n3, fun s hs => ?_⟩
    obtain ⟨s', hss, hs', hc⟩ := hold s hs
    rw [← n4, ← hc, ← hloop n5, ← hloop hss]
    exact hmin s' hs'
  · obtain ⟨hn, hnone⟩ := k4 hst
    refine ⟨m2 hn, fun t ht => ?_⟩
    obtain ⟨t', -, ht', -⟩ := hold t ht
    exact hnone t' ht'

/-- **C120.** If some vertices have a self-loop and others do not, the model is built from uninitialised memory, whatever the options are. -/
theorem C120_mixed {es heur : List (α × α)} {costs : List ((α × α) × Int)} {prizes : List (α × Int)} {w : α → α → Int} {π δ : α → Int}
    (h : Describes es costs prizes w π) {x y : α} (hx : (x, x) ∈ es) (hy : y ∈ endpoints es) (hyy : (y, y) ∉ es) {quota : Int} {root : α}
    (hroot : root ∈ endpoints es) (hheur : ∀ p ∈ heur, AdjIn es p.1 p.2) (o : SolveOptions)
    {disjoint : List (α × Int)} (hkeys : ∀ x c, (x, c) ∈ disjoint → c = δ x ∧ x ∈ endpoints es) (pick : Pick) (scip : Problem → ScipOutcome)
    (order : Nat → List Nat) : (solveBind scip order es heur costs prizes quota root o disjoint pick).isUb = true := by
  obtain ⟨p, h1, hp, -⟩ := prepare_spec h (tour := []) (by simp)
  obtain ⟨ne, h2, h3⟩ := renameEdges_nil es
  rw [prepare, h2] at h1
  simp only at h1
  obtain ⟨t0, -, h1⟩ := Res.bind_eq_ok.1 h1
  obtain ⟨cost, hcost, h1⟩ := Res.bind_eq_ok.1 h1
  obtain ⟨prize, hprz, h1⟩ := Res.bind_eq_ok.1 h1
  injection h1 with h1
  subst h1
  obtain ⟨r, hr⟩ := List.mem_iff_getElem?.1 ((hp.mem root).2 hroot)
  obtain ⟨dist, h4, -⟩ := fillVertexMap_spec hp.nodup δ disjoint (fun x c hx => (hkeys x c hx).1) (fun x c hx => (hp.mem x).2 (hkeys x c hx).2) (fun _ => 0)
  obtain ⟨hs', is, h6, h7, h8, -⟩ := namedEdges_ok hp heur hheur
  obtain ⟨v, hv⟩ := List.mem_iff_getElem?.1 ((hp.mem x).2 (by simp only [endpoints, List.mem_flatMap]; exact ⟨_, hx, by simp⟩))
  obtain ⟨u, hu⟩ := List.mem_iff_getElem?.1 ((hp.mem y).2 hy)
  have hvv : (v, v) ∈ (graphOf ne).edges := by rcases (hp.adj hv hv).2 (Or.inl hx) with h | h <;> exact h
  have huu : (u, u) ∉ (graphOf ne).edges := fun hc => hyy (by rcases (hp.adj hu hu).1 (Or.inl hc) with h | h <;> exact h)
  have hun := hp.lt u y hu
  have hvn := hp.lt v x hv
  have hrn := hp.lt r root hr
  simp only at hun hvn hrn
  set g := graphOf ne with hg
  have hn : ¬ hasSelfLoopsOnAllVertices g = true := fun h => huu ((hasSelfLoops_iff g).1 h u hun)
  obtain ⟨-, htwo⟩ := C31_partial_loops_doubled g cost u v hun huu hvn hvv
  rcases hens : ensureSelfLoops g cost with ⟨g', cost'⟩
  rw [hens] at htwo
  simp only at htwo
  have hg' : g'.n = g.n ∧ ∀ a < g.n, 0 < g'.edges.count (a, a) := by
    rw [ensureSelfLoops, if_neg hn, addSelfLoops_eq] at hens
    simp only [Prod.mk.injEq] at hens
    obtain ⟨rfl, -⟩ := hens
    refine ⟨rfl, fun a ha => ?_⟩
    simp only [List.count_append]
    rw [count_loops, if_pos ha]
    omega
  have hub : (degreeRows g').isUb = true := by
    refine mapRes_isUb (x := v) (List.mem_range.2 (by rw [hg'.1]; exact hvn)) ((C32_self_loops g' v).2.2.2 htwo) fun a ha => ?_
    have h0 := hg'.2 a (by rw [← hg'.1]; exact List.mem_range.1 ha)
    by_cases h1 : g'.edges.count (a, a) = 1
    · obtain ⟨row, hrow⟩ := (C32_self_loops g' a).2.1.2 h1
      exact Or.inr (by rw [hrow]; rfl)
    · exact Or.inl ((C32_self_loops g' a).2.2.2 (by omega))
  have hmodel : (modelWithoutSECs g' prize quota r).isUb = true := by
    have hl := List.count_pos_iff.1 (hg'.2 r hrn)
    obtain ⟨i, hi⟩ := Option.isSome_iff_exists.1 (edgeIdx_isSome_iff.2 (Or.inl hl : Adj g' r r))
    rw [modelWithoutSECs, Graph.edge, if_pos (by rw [hg'.1]; exact hrn), hi]
    exact Res.isUb_bind hub _
  have hbuild : (buildProblem g is cost prize quota r o dist pick).isUb = true := by
    rw [buildProblem, hens]
    exact Res.isUb_bind hmodel _
  have h6' : getNewEdges (number 0 (firstSeen es)) heur = .ok hs' := h6
  have h7' : edgesFromVertexPairs g hs' = .ok is := h7
  rw [solveBind, h2]
  simp only [h6', h7', Res.ok_bind, (getNewVertex_number hp.nodup _ _).2 hr, hcost, hprz, h4, ← hg]
  exact Res.isUb_bind (Res.isUb_bind hbuild _) _

/-- The two triangles with a self-loop at every vertex. -/
def exBowLoops : List (Nat × Nat) := exBow ++ [(0, 0), (1, 1), (2, 2), (3, 3), (4, 4)]

/-- The self-loops at 3 and 4 cost 100 each, the others nothing. -/
def exLoopCost (x y : Nat) : Int := if x = y then (if x ≤ 2 then 0 else 100) else exBowCost x y

theorem exLoopCost_nonneg (x y : Nat) : 0 ≤ exLoopCost x y := by
  unfold exLoopCost
  split
  · split <;> decide
  · exact exBowCost_nonneg x y

theorem exBowLoops_describes : Describes exBowLoops (exBowLoops.map fun p => (p, exLoopCost p.1 p.2)) ((List.range 5).map fun v => (v, 1))
    exLoopCost (fun _ => 1) where
  distinct := by decide
  symm x y := by
    by_cases h : x = y
    · rw [h]
    · rw [exLoopCost, exLoopCost, if_neg h, if_neg (fun e => h e.symm), exBow_describes.symm]
  costOk p c h := by
    have : ∀ q ∈ exBowLoops.map fun p => (p, exLoopCost p.1 p.2), q.2 = exLoopCost q.1.1 q.1.2 ∧ AdjIn exBowLoops q.1.1 q.1.2 := by decide
    exact this _ h
  allCosts e he := ⟨e, _, List.mem_map.2 ⟨e, he, rfl⟩, Or.inl rfl⟩
  prizeOk x c h := by
    have : ∀ q ∈ (List.range 5).map fun v => (v, (1 : Int)), q.2 = 1 ∧ q.1 ∈ endpoints exBowLoops := by decide
    exact this _ h
  allPrizes := by
    have : ∀ x ∈ endpoints exBowLoops, (x, (1 : Int)) ∈ (List.range 5).map fun v => (v, (1 : Int)) := by decide
    exact fun x hx => ⟨1, this x hx⟩

/-- **C120.** The self-loops of the vertices 3 and 4 have a cost, which no tour pays.  With the status `optimal` the solver returns the tour of cost 13
although there is one of cost 10, even if it is given that one as the start solution. -/
theorem C120_wrong : FeasibleIn exBowLoops (fun _ => 1) 3 0 [0, 3, 4, 0] ∧ namedCost exLoopCost [0, 3, 4, 0] = 10 ∧
    ∀ (o : SolveOptions) (scip : Problem → ScipOutcome) (order : Nat → List Nat), o.coverShortest = false → o.coverDisjoint = false →
      (∀ n, (order n).Perm (List.range n)) → (∀ P, ScipSpec 1 P (order P.graph.edges.length) (scip P)) →
      ∃ st ps, solveBind scip order exBowLoops [(0, 3), (3, 4), (4, 0)] (exBowLoops.map fun p => (p, exLoopCost p.1 p.2))
          ((List.range 5).map fun v => (v, 1)) 3 0 o [] exPick = .ok (st, ps) ∧ st ≠ .infeasible ∧
        (st = .optimal → ∃ t, EdgesOfTour t ps ∧ (t = [0, 1, 2, 0] ∨ t = [0, 2, 1, 0]) ∧ namedCost exLoopCost t = 13) := by
  refine ⟨⟨⟨⟨[3, 4], rfl⟩, by decide, by decide⟩, by decide, by decide⟩, by decide, fun o scip order hs hd ho hscip => ?_⟩
  obtain ⟨st, ps, h1, -, h3, h4⟩ := C120_answer (δ := fun _ => 0) exBowLoops_describes (by decide) (quota := 3) (root := 0) (by decide)
    (heur := [(0, 3), (3, 4), (4, 0)]) (by decide) hd hs (disjoint := []) (by simp) (pick := exPick) ho hscip (fun _ _ => by decide)
  have hfeas : FeasibleIn exBowLoops (fun _ => 1) 3 0 [0, 1, 2, 0] := ⟨⟨⟨[1, 2], rfl⟩, by decide, by decide⟩, by decide, by decide⟩
  refine ⟨st, ps, h1, fun hst => (h4 hst).2 _ hfeas, fun hst => ?_⟩
  obtain ⟨t, ht, hps, hmin⟩ := h3 hst
  have hle := hmin _ hfeas
  have h13 : namedCost exLoopCost [0, 1, 2, 0] + (([0, 1, 2, 0] : List Nat).dropLast.map fun x => exLoopCost x x).sum = 13 := by decide
  rw [h13] at hle
  obtain ⟨m, rfl⟩ := ht.tour.shape
  have hdl : (0 :: (m ++ [0])).dropLast = 0 :: m := by rw [← List.cons_append, List.dropLast_concat]
  have hnd := ht.tour.nodup
  rw [hdl] at hnd hle
  have hlen := ht.three
  simp only [List.length_cons, List.length_append, List.length_nil] at hlen
  have hpos : 0 ≤ namedCost exLoopCost (0 :: (m ++ [0])) := by
    refine List.sum_nonneg fun y hy => ?_
    obtain ⟨p, -, rfl⟩ := List.mem_map.1 hy
    exact exLoopCost_nonneg _ _
  refine ⟨_, hps, ?_⟩
  rcases exTriangles hnd (by omega) (fun v hv => by
    by_contra hc
    have h5 := List.single_le_sum (l := (0 :: m).map fun x => exLoopCost x x) (fun y hy => by
      obtain ⟨x, -, rfl⟩ := List.mem_map.1 hy
      exact exLoopCost_nonneg _ _) (exLoopCost v v) (List.mem_map.2 ⟨v, by simp [hv], rfl⟩)
    rw [exLoopCost, if_pos rfl, if_neg hc] at h5
    omega) with rfl | rfl <;> exact ⟨by simp, by decide⟩

/-- There is a solver as in C120_wrong whose status is `optimal`. -/
example : ∃ scip : Problem → ScipOutcome, ∃ ps, solveBind scip List.range exBowLoops [(0, 3), (3, 4), (4, 0)]
    (exBowLoops.map fun p => (p, exLoopCost p.1 p.2)) ((List.range 5).map fun v => (v, 1)) 3 0 ⟨false, false, true, true, true⟩ [] exPick
      = .ok (.optimal, ps) ∧ (EdgesOfTour [0, 1, 2, 0] ps ∨ EdgesOfTour [0, 2, 1, 0] ps) := by
  obtain ⟨scip, hscip⟩ := exists_scip 1 List.range
  obtain ⟨st, ps, h1, h2, h3⟩ := C120_wrong.2.2 ⟨false, false, true, true, true⟩ scip List.range rfl rfl (fun n => List.Perm.refl _)
    (fun P => (hscip P).1)
  obtain ⟨P, hP⟩ := solveBind_status h1
  have hst : st = .optimal := by
    rcases (hscip P).2 with h | h
    · rw [hP, h]
    · exact absurd (hP.trans h) h2
  subst hst
  obtain ⟨t, ht, rfl | rfl, -⟩ := h3 rfl
  · exact ⟨scip, ps, h1, Or.inl ht⟩
  · exact ⟨scip, ps, h1, Or.inr ht⟩

/-- One self-loop, at the root, and a start solution: the hypotheses of C120_mixed. -/
example (o : SolveOptions) (scip : Problem → ScipOutcome) : (solveBind scip List.range ((0, 0) :: exBow) [(0, 1), (1, 2), (2, 0)]
    (((0, 0) :: exBow).map fun p => (p, exLoopCost p.1 p.2)) ((List.range 5).map fun v => (v, 1)) 3 0 o [(1, 0)] exPick).isUb = true := by
  refine C120_mixed (w := exLoopCost) (π := fun _ => 1) (δ := fun _ => 0) (x := 0) (y := 3) ?_ (by decide) (by decide) (by decide) (by decide)
    (by decide) o (by simp; decide) _ _ _
  exact {
    distinct := by decide
    symm := exBowLoops_describes.symm
    costOk := fun p c h => by
      have : ∀ q ∈ ((0, 0) :: exBow).map fun p => (p, exLoopCost p.1 p.2), q.2 = exLoopCost q.1.1 q.1.2 ∧ AdjIn ((0, 0) :: exBow) q.1.1 q.1.2 := by decide
      exact this _ h
    allCosts := fun e he => ⟨e, _, List.mem_map.2 ⟨e, he, rfl⟩, Or.inl rfl⟩
    prizeOk := fun x c h => by
      have : ∀ q ∈ (List.range 5).map fun v => (v, (1 : Int)), q.2 = 1 ∧ q.1 ∈ endpoints ((0, 0) :: exBow) := by decide
      exact this _ h
    allPrizes := by
      have : ∀ x ∈ endpoints ((0, 0) :: exBow), (x, (1 : Int)) ∈ (List.range 5).map fun v => (v, (1 : Int)) := by decide
      exact fun x hx => ⟨1, this x hx⟩ }

end Pctsp
