import Verif.Props.Solve

/-!
# C89: cost cover rows and the scaled objective function
-/

namespace Pctsp

/-- **C89.** If SCIP divides the objective function by `k`, the bounds that the cost cover events see are divided by `k`, the distances are not.
The answer is still a feasible tour or nothing, and `infeasible` is still right.  `optimal` only says that the tour costs no more than the
tours that have no vertex further from the root than its own cost divided by `k`. -/
theorem C89_guarantee {α : Type} [DecidableEq α] {es heur : List (α × α)} {costs : List ((α × α) × Int)} {prizes : List (α × Int)} {w : α → α → Int}
    {π δ : α → Int} (h : Describes es costs prizes w π) (hno : ∀ e ∈ es, e.1 ≠ e.2) (hw : ∀ x y, 0 ≤ w x y) {quota : Int} {root : α}
    (hroot : root ∈ endpoints es) (hheur : ∀ p ∈ heur, AdjIn es p.1 p.2) (o : SolveOptions) {disjoint : List (α × Int)}
    (hkeys : ∀ x c, (x, c) ∈ disjoint → c = δ x ∧ x ∈ endpoints es) {pick : Pick} (hpick : pick.Heap) {scip : Problem → ScipOutcome}
    {order : Nat → List Nat} (ho : ∀ n, (order n).Perm (List.range n)) {k : Int} (hk : 0 < k)
    (hscip : ∀ P, ScipSpec k P (order P.graph.edges.length) (scip P))
    (hreach : o.coverShortest = true → ∀ x ∈ endpoints es, ∃ l, (root :: l).getLast? = some x ∧ (∀ p ∈ consec (root :: l), AdjIn es p.1 p.2) ∧
      namedCost w (root :: l) ≤ 1073741823)
    (hprize : o.cycleCover = true → ∀ x, 0 ≤ π x) {ub : Int} (hub : ub = (heur.map fun p => w p.1 p.2).sum) :
    ∃ st ps, solveBind scip order es heur costs prizes quota root o disjoint pick = .ok (st, ps) ∧
      (ps = [] ∨ ∃ t, FeasibleIn es π quota root t ∧ TrustedIn es w root o disjoint ub t ∧ EdgesOfTour t ps) ∧
      (st = .optimal → ∃ t, FeasibleIn es π quota root t ∧ TrustedIn es w root o disjoint ub t ∧ EdgesOfTour t ps ∧
        ∀ t', FeasibleIn es π quota root t' → TrustedIn es w root o disjoint ub t' →
          WithinIn es w root o disjoint (namedCost w t / k) t' → namedCost w t ≤ namedCost w t') ∧
      (st = .infeasible → ps = [] ∧ ∀ t, FeasibleIn es π quota root t → ¬ TrustedIn es w root o disjoint ub t) := by
  obtain ⟨st, ps, h1, h2, h3, h4, -⟩ := solve_named h hno hw (quota := quota) hroot hheur o hkeys hpick ho hscip hreach hprize hub
  refine ⟨st, ps, h1, h2, fun hst => ?_, h4⟩
  obtain ⟨t, a, b, c, -, d⟩ := h3 hst
  exact ⟨t, a, b, c, d hk⟩

/-! ### A wrong optimum -/

/-- Two triangles that share the vertex 0. -/
def exBowGraph : Graph := { n := 5, edges := exBow }

/-- The triangle 0, 1, 2 costs 12 and the triangle 0, 3, 4 costs 10; every cost is even. -/
def exEven (e : Nat) : Int := [2, 8, 2, 4, 2, 4].getD e 0

theorem exEven_far {v : Nat} {d : Int} (h : Reaches exBowGraph exEven (fun _ => false) 0 v d) : v < 5 ∧ (if v ≤ 2 then 0 else 4) ≤ d := by
  induction h with
  | start => decide
  | @step u v e d _ he _ ih =>
    have h1 : e < 6 := by
      rcases he with he | he <;> exact (List.getElem?_eq_some_iff.1 he).1
    have h2 : ∀ e < 6, ∀ u < 5, ∀ v ∈ endpoints exBow, EdgeBetween exBowGraph e u v → v < 5 ∧ (if v ≤ 2 then (0 : Int) else 4) ≤ (if u ≤ 2 then 0 else 4) + exEven e := by
      unfold EdgeBetween
      decide +kernel
    have h3 : v ∈ endpoints exBow := by
      simp only [endpoints, List.mem_flatMap]
      rcases he with he | he
      · exact ⟨_, List.mem_of_getElem? he, by simp⟩
      · exact ⟨_, List.mem_of_getElem? he, by simp⟩
    have h4 := h2 e h1 u ih.1 v h3 he
    exact ⟨h4.1, by omega⟩

open Classical in
/-- **C89.** All costs are even and the objective function is divided by 2.  Once the tour of cost 12 has been found, the rows of the event remove
every vertex whose doubled distance is more than 6; the tour of cost 10 is lost, and the tour of cost 12 is returned with the status `optimal`. -/
theorem C89_wrong_optimum : Feas exBowGraph (fun _ => 1) 3 0 [0, 3, 4, 0] ∧ walkCost exBowGraph exEven [0, 3, 4, 0] = 10 ∧
    walkCost exBowGraph exEven [0, 1, 2, 0] = 12 ∧ (∀ e, 2 ∣ exEven e) ∧
    ∀ (o : SolveOptions) (order : Nat → List Nat), o.coverShortest = true → o.coverDisjoint = false → (∀ n, (order n).Perm (List.range n)) →
      ∃ scip : Problem → ScipOutcome, (∀ P, ScipSpec 2 P (order P.graph.edges.length) (scip P)) ∧
        ∃ ps, solvePCTSP scip order exBowGraph [] exEven (fun _ => 1) 3 0 o (fun _ => 0) exPick = .ok (.optimal, ps) ∧ EdgesOfTour [0, 1, 2, 0] ps := by
  have hf1 : Feas exBowGraph (fun _ => 1) 3 0 [0, 1, 2, 0] := ⟨⟨⟨[1, 2], rfl⟩, by decide, by decide⟩, by decide, by decide⟩
  have hf2 : Feas exBowGraph (fun _ => 1) 3 0 [0, 3, 4, 0] := ⟨⟨⟨[3, 4], rfl⟩, by decide, by decide⟩, by decide, by decide⟩
  have hc1 : walkCost exBowGraph exEven [0, 1, 2, 0] = 12 := by decide
  have heven : ∀ e, 2 ∣ exEven e := by
    intro e
    unfold exEven
    rcases lt_or_ge e 6 with h | h
    · revert e; decide
    · simp [List.getD_eq_getElem?_getD, List.getElem?_eq_none (show [(2 : Int), 8, 2, 4, 2, 4].length ≤ e from h)]
  refine ⟨hf2, by decide, hc1, heven, fun o order hon hoff ho => ?_⟩
  have hg : exBowGraph.WF := by intro e he; revert e; decide
  have hno : ∀ e ∈ exBowGraph.edges, e.1 ≠ e.2 := by decide
  have hs : (exBowGraph.edges.map und).Nodup := by decide
  have hc : ∀ e < exBowGraph.edges.length, 0 ≤ exEven e := by decide
  have hreach : o.coverShortest = true → ∀ v < exBowGraph.n, ∃ d, Reaches exBowGraph exEven (fun _ => false) 0 v d ∧ d ≤ 1073741823 := by
    intro _ v hv
    have h5 : v < 5 := hv
    have : v = 0 ∨ v = 1 ∨ v = 2 ∨ v = 3 ∨ v = 4 := by omega
    rcases this with rfl | rfl | rfl | rfl | rfl
    · exact ⟨_, .start, by decide⟩
    · exact ⟨_, .step .start (e := 0) (Or.inl rfl) rfl, by decide⟩
    · exact ⟨_, .step .start (e := 2) (Or.inr rfl) rfl, by decide⟩
    · exact ⟨_, .step .start (e := 3) (Or.inl rfl) rfl, by decide⟩
    · exact ⟨_, .step .start (e := 5) (Or.inr rfl) rfl, by decide⟩
  have hroot : 0 < exBowGraph.n := by decide
  obtain ⟨P, h1, hB⟩ := buildProblem_ok hg hno hs hc (heur := []) (by simp) (fun _ => 1) 3 hroot o (fun _ => 0) exPick_heap hreach
  obtain ⟨hsnd, hfeas, hcost, hwithin, -⟩ := hB.sound exPick_heap hg hno hs hc hroot hreach (fun _ _ _ => by decide)
  have hP := ho P.graph.edges.length
  obtain ⟨es, y, hinc, hbin⟩ := incidence_exists ((hfeas _).2 hf1).tour hf1.three
  have hacc : Accepted P (order P.graph.edges.length) y := hsnd.accepted_of_tour hP ((hfeas _).2 hf1) (fun h => absurd h (by simp)) hinc hbin
  have hy : objective P.graph P.cost y = 12 := by
    rw [objective_incidence hsnd.simple hsnd.loop ((hfeas _).2 hf1).tour hf1.three hinc, hcost _ hf1, hc1]
  obtain ⟨dists, hd⟩ : ∃ dists, shortestPathCoverDistances P.graph P.cost exPick 0 = .ok dists := by
    obtain ⟨dists, h2, -⟩ := C39_exact hsnd.simple.wf hsnd.nonneg exPick_heap (by rw [hB.loops.n]; exact hroot : 0 < P.graph.n) (fun v hv => by
      obtain ⟨d, h6, h7⟩ := hreach hon v (by rw [← hB.loops.n]; exact hv)
      exact ⟨d, hB.loops.reaches h6, h7⟩) 0
    exact ⟨dists, h2⟩
  have hmem : (fun v => dists.getD v 0) ∈ P.covers := (hB.covers _).2 (Or.inr ⟨hon, dists, hd, rfl⟩)
  have honly : ∀ dist ∈ P.covers, dist = fun v => dists.getD v 0 := by
    intro dist hdist
    rcases (hB.covers dist).1 hdist with ⟨h2, -⟩ | ⟨-, dists', h2, rfl⟩
    · simp [hoff] at h2
    · rw [hd] at h2
      cases h2
      rfl
  obtain ⟨rows, hrows, -⟩ := costCover_rows hsnd.simple.loops hsnd.root (fun v => dists.getD v 0) (objective P.graph P.cost y / 2)
  have hspec : ScipSpec 2 P (order P.graph.edges.length) ⟨.optimal, some y⟩ := by
    refine ⟨fun z hz => by cases hz; exact hacc, [y], rows, fun z hz => ?_, fun row hr => .cover hmem (List.mem_singleton.2 rfl) hrows hr,
      fun _ => ⟨y, rfl, fun z hz hsat => ?_⟩, by simp⟩
    · rw [List.mem_singleton] at hz
      subst hz
      exact ⟨hacc, z, rfl, Int.le_refl _⟩
    · obtain ⟨t, es', ht, -, hinc'⟩ := hsnd.tour_of_accepted hP hz
      rw [hy, objective_incidence hsnd.simple hsnd.loop ht.tour ht.three hinc', hcost t ((hfeas t).1 ht)]
      have h2 := (coverRows_sat hsnd.simple hsnd.root hrows ht.tour hinc').1 hsat
      rw [hy] at h2
      have h3 := (hwithin t 6 ((hfeas t).1 ht)).1 fun dist hdist v hv => by rw [honly dist hdist]; exact h2 v hv
      have ht' := (hfeas t).1 ht
      obtain ⟨m, rfl⟩ := ht'.tour.shape
      have hnd := ht'.tour.nodup
      rw [show (0 :: (m ++ [0])).dropLast = 0 :: m by rw [← List.cons_append, List.dropLast_concat]] at hnd
      have hlen := ht'.three
      simp only [List.length_cons, List.length_append, List.length_nil] at hlen
      rcases exTriangles hnd (by omega) (fun v hv => by
        obtain ⟨d, h4, h5⟩ := (h3 v (by simp [hv])).2 hon
        have h6 := (exEven_far h4).2
        by_contra hcon
        rw [if_neg hcon] at h6
        omega) with rfl | rfl <;> decide
  obtain ⟨scip, hscip⟩ := exists_scip 2 order
  refine ⟨fun Q => if Q = P then ⟨.optimal, some y⟩ else scip Q, fun Q => ?_, ?_⟩
  · by_cases hQ : Q = P
    · subst hQ; simp only [if_true]; exact hspec
    · simp only [if_neg hQ]; exact (hscip Q).1
  · obtain ⟨ps, h5, h6⟩ := solution_pairs hP ((hfeas _).2 hf1) hinc
    refine ⟨ps, ?_, h6⟩
    rw [solvePCTSP, h1]
    simp only [Res.ok_bind, if_true, h5]
    rfl

/-- The hypotheses of C89_guarantee hold with all the options on, and the answer is a tour. -/
example : ∃ scip : Problem → ScipOutcome, ∃ ps, solveBind scip List.range exBow [(0, 1), (1, 2), (2, 0)] (exBow.map fun p => (p, exBowCost p.1 p.2))
      ((List.range 5).map fun v => (v, 1)) 3 0 ⟨true, true, true, true, true⟩ [(1, 0), (4, 0)] exPick = .ok (.optimal, ps) ∧
      ∃ t, FeasibleIn exBow (fun _ => 1) 3 0 t ∧ EdgesOfTour t ps := by
  obtain ⟨scip, hscip⟩ := exists_scip 2 List.range
  obtain ⟨st, ps, h1, -, h2, h3⟩ := C89_guarantee (δ := fun _ => 0) exBow_describes (by decide) exBowCost_nonneg (quota := 3) (root := 0) (by decide)
    (heur := [(0, 1), (1, 2), (2, 0)]) (by decide) ⟨true, true, true, true, true⟩ (disjoint := [(1, 0), (4, 0)])
    (fun x c h => by
      have : ∀ q ∈ [(1, (0 : Int)), (4, 0)], q.2 = 0 ∧ q.1 ∈ endpoints exBow := by decide
      exact this _ h) exPick_heap (fun n => List.Perm.refl _) (k := 2) (by decide) (fun P => (hscip P).1) (fun _ => exBow_reach) (by simp) rfl
  have hf1 : FeasibleIn exBow (fun _ => 1) 3 0 [0, 1, 2, 0] := ⟨⟨⟨[1, 2], rfl⟩, by decide, by decide⟩, by decide, by decide⟩
  have ht1 : TrustedIn exBow exBowCost 0 ⟨true, true, true, true, true⟩ [(1, 0), (4, 0)]
      (([(0, 1), (1, 2), (2, 0)] : List (Nat × Nat)).map fun p => exBowCost p.1 p.2).sum [0, 1, 2, 0] := fun _ x hx => by
    refine ⟨fun _ c hc => ?_, fun _ => ?_⟩
    · have : ∀ q ∈ [(1, (0 : Int)), (4, 0)], q.2 ≤ (([(0, 1), (1, 2), (2, 0)] : List (Nat × Nat)).map fun p => exBowCost p.1 p.2).sum := by decide
      exact this _ hc
    · have : x = 0 ∨ x = 1 ∨ x = 2 := by
        have : x = 0 ∨ x = 1 ∨ x = 2 ∨ x = 0 := by simpa using hx
        omega
      rcases this with rfl | rfl | rfl
      · exact ⟨[], by decide, by decide, by decide⟩
      · exact ⟨[1], by decide, by decide, by decide⟩
      · exact ⟨[2], by decide, by decide, by decide⟩
  obtain ⟨P, hP⟩ := solveBind_status h1
  have hst : st = .optimal := by
    rcases (hscip P).2 with h | h
    · rw [hP, h]
    · exact absurd ht1 ((h3 (by rw [hP, h])).2 _ hf1)
  subst hst
  obtain ⟨t, h4, -, h5, -⟩ := h2 rfl
  exact ⟨scip, ps, h1, t, h4, h5⟩

end Pctsp
