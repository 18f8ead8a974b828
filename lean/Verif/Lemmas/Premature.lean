import Verif.Props.Start
import Verif.Lemmas.RunAlgorithm

/-!
# An optimum that is reported too early: lemmas
-/

namespace Pctsp

open Classical in
/-- If the distance of the root is larger than the cost of a feasible tour, the solver may report this tour as optimal. -/
theorem premature_graph {g : Graph} {cost prize : Nat → Int} (hg : g.WF) (hno : ∀ e ∈ g.edges, e.1 ≠ e.2) (hs : (g.edges.map und).Nodup)
    (hc : ∀ e < g.edges.length, 0 ≤ cost e) {quota : Int} {root : Nat} (hroot : root < g.n) (o : SolveOptions) (hon : o.coverDisjoint = true)
    {disjoint : Nat → Int} {pick : Pick} (hpick : pick.Heap)
    (hreach : o.coverShortest = true → ∀ v < g.n, ∃ d, Reaches g cost (fun _ => false) root v d ∧ d ≤ 1073741823)
    (hprize : o.cycleCover = true → ∀ v < g.n, 0 ≤ prize v) {order : Nat → List Nat} (ho : ∀ n, (order n).Perm (List.range n)) {t : List Nat}
    (ht : Feas g prize quota root t) (hlt : walkCost g cost t < disjoint root) :
    ∃ scip : Problem → ScipOutcome, (∀ P, ScipSpec 1 P (order P.graph.edges.length) (scip P)) ∧
      ∃ ps, solvePCTSP scip order g [] cost prize quota root o disjoint pick = .ok (.optimal, ps) ∧ EdgesOfTour t ps := by
  obtain ⟨P, h1, hB⟩ := buildProblem_ok hg hno hs hc (heur := []) (by simp) prize quota hroot o disjoint hpick hreach
  obtain ⟨hsnd, hfeas, hcost, -, -⟩ := hB.sound hpick hg hno hs hc hroot hreach hprize
  have hP := ho P.graph.edges.length
  obtain ⟨es, y, hinc, hbin⟩ := incidence_exists ((hfeas _).2 ht).tour ht.three
  have hacc : Accepted P (order P.graph.edges.length) y := hsnd.accepted_of_tour hP ((hfeas _).2 ht) (fun h => absurd h (by simp)) hinc hbin
  have hy : objective P.graph P.cost y = walkCost g cost t := by
    rw [objective_incidence hsnd.simple hsnd.loop ((hfeas _).2 ht).tour ht.three hinc, hcost _ ht]
  have hmem : disjoint ∈ P.covers := (hB.covers _).2 (Or.inl ⟨hon, rfl⟩)
  obtain ⟨rows, hrows, -⟩ := costCover_rows hsnd.simple.loops hsnd.root disjoint (objective P.graph P.cost y / 1)
  have hspec : ScipSpec 1 P (order P.graph.edges.length) ⟨.optimal, some y⟩ := by
    refine ⟨fun z hz => by cases hz; exact hacc, [y], rows, fun z hz => ?_, fun row hr => .cover hmem (List.mem_singleton.2 rfl) hrows hr,
      fun _ => ⟨y, rfl, fun z hz hsat => ?_⟩, by simp⟩
    · rw [List.mem_singleton] at hz
      subst hz
      exact ⟨hacc, z, rfl, Int.le_refl _⟩
    · obtain ⟨t', es', ht', -, hinc'⟩ := hsnd.tour_of_accepted hP hz
      have h2 := (coverRows_sat hsnd.simple hsnd.root hrows ht'.tour hinc').1 hsat root (by
        obtain ⟨m, rfl⟩ := ht'.tour.shape
        rw [hB.root]; simp)
      rw [hy, Int.ediv_one] at h2
      omega
  obtain ⟨scip, hscip⟩ := exists_scip 1 order
  refine ⟨fun Q => if Q = P then ⟨.optimal, some y⟩ else scip Q, fun Q => ?_, ?_⟩
  · by_cases hQ : Q = P
    · subst hQ; simp only [if_true]; exact hspec
    · simp only [if_neg hQ]; exact (hscip Q).1
  · obtain ⟨ps, h5, h6⟩ := solution_pairs hP ((hfeas _).2 ht) hinc
    refine ⟨ps, ?_, h6⟩
    rw [solvePCTSP, h1]
    simp only [Res.ok_bind, if_true, h5]
    rfl

variable {α : Type} [DecidableEq α]

/-- The same for the binding. -/
theorem premature_named {es : List (α × α)} {costs : List ((α × α) × Int)} {prizes : List (α × Int)} {w : α → α → Int} {π δ : α → Int}
    (h : Describes es costs prizes w π) (hno : ∀ e ∈ es, e.1 ≠ e.2) (hw : ∀ x y, 0 ≤ w x y) {quota : Int} {root : α} (hroot : root ∈ endpoints es)
    (o : SolveOptions) (hon : o.coverDisjoint = true) {disjoint : List (α × Int)} (hkeys : ∀ x c, (x, c) ∈ disjoint → c = δ x ∧ x ∈ endpoints es)
    {pick : Pick} (hpick : pick.Heap) {order : Nat → List Nat} (ho : ∀ n, (order n).Perm (List.range n))
    (hreach : o.coverShortest = true → ∀ x ∈ endpoints es, ∃ l, (root :: l).getLast? = some x ∧ (∀ p ∈ consec (root :: l), AdjIn es p.1 p.2) ∧
      namedCost w (root :: l) ≤ 1073741823)
    (hprize : o.cycleCover = true → ∀ x, 0 ≤ π x) {c : Int} (hc : (root, c) ∈ disjoint) {t : List α} (ht : FeasibleIn es π quota root t)
    (hlt : namedCost w t < c) :
    ∃ scip : Problem → ScipOutcome, (∀ P, ScipSpec 1 P (order P.graph.edges.length) (scip P)) ∧
      ∃ ps, solveBind scip order es [] costs prizes quota root o disjoint pick = .ok (.optimal, ps) ∧ EdgesOfTour t ps := by
  obtain ⟨p, h1, hp, -⟩ := prepare_spec h (tour := []) (by simp)
  obtain ⟨ne, h2, h3⟩ := renameEdges_nil es
  rw [prepare, h2] at h1
  simp only at h1
  obtain ⟨t0, -, h1⟩ := Res.bind_eq_ok.1 h1
  obtain ⟨cost, hcost, h1⟩ := Res.bind_eq_ok.1 h1
  obtain ⟨prize, hprz, h1⟩ := Res.bind_eq_ok.1 h1
  injection h1 with h1
  subst h1
  obtain ⟨r, hr⟩ := List.mem_iff_getElem?.1 ((hp.mem root).2 hroot)
  obtain ⟨dist, h4, h5⟩ := fillVertexMap_spec hp.nodup δ disjoint (fun x c hx => (hkeys x c hx).1) (fun x c hx => (hp.mem x).2 (hkeys x c hx).2) (fun _ => 0)
  have hsimple : ((graphOf ne).edges.map und).Nodup := by rw [graphOf_edges]; exact graphOf_simple h3 h.distinct
  obtain ⟨t', htt⟩ := names_of_mem hp.mem t ht.tour.mem_endpoints
  have hlen := htt.length_eq
  have ht' : Feas (graphOf ne) prize quota r t' := by
    have hpr := hp.prize htt
    simp only at hpr
    obtain ⟨a, b, c⟩ := ht
    exact ⟨(hp.isTour htt hr).2 a, by omega, by rw [hpr]; exact c⟩
  have hcost' : walkCost (graphOf ne) cost t' = namedCost w t := hp.cost htt ht'.tour.walk
  have hdist : dist r = c := by
    rcases h5 r root hr with h' | ⟨-, h'⟩
    · rw [h', ← (hkeys root c hc).1]
    · exact absurd hc (h' c)
  obtain ⟨scip, hscip, ps, k1, k2⟩ := premature_graph (g := graphOf ne) (cost := cost) (prize := prize) (quota := quota) (root := r) hp.wf
    (by rw [graphOf_edges]; exact graphOf_loopless h3 hno) hsimple (hp.costNonneg hw) (hp.lt r root hr) o hon (disjoint := dist) hpick
    (fun hon v hv => by
      obtain ⟨x, hx⟩ := graphOf_named h3 hv
      obtain ⟨l, l1, l2, l3⟩ := hreach hon x ((hp.mem x).1 (List.mem_of_getElem? hx))
      exact ⟨_, reaches_of_named hp l2 hr .start hx l1, by omega⟩)
    (fun hon v hv => hp.nonneg (hprize hon) v) ho ht' (by rw [hcost', hdist]; exact hlt)
  obtain ⟨old, m1, m2⟩ := edgesOfTour_old htt k2
  refine ⟨scip, hscip, old, ?_, m2⟩
  have h6 : getNewEdges (number 0 (firstSeen es)) ([] : List (α × α)) = .ok [] := rfl
  have h7 : edgesFromVertexPairs (graphOf ne) [] = .ok [] := rfl
  rw [solveBind, h2]
  simp only [h6, h7, Res.ok_bind, (getNewVertex_number hp.nodup _ _).2 hr, hcost, hprz, h4, k1, m1]
  rfl

end Pctsp
