import Verif.Lemmas.RunAlgorithm
import Verif.Props.Lab
import Verif.Props.Start

/-!
# C92: what `run_algorithm` reports
-/

set_option linter.unusedSectionVars false

namespace Pctsp

variable {F V W : Type} [DecidableEq V] [LinearOrder W] {A : DiGraph W} {tail head : V → W} {names : SplitNames V W} {dij : DijkstraOut W} {depth : Nat}
  {T : STree W} {st : SState W}

/-- **C92**, exact algorithms.  What is reported is nothing, or a feasible tour with its cost and its prize.  If the status is `optimal`, it is a
cheapest feasible tour, and if it is `infeasible`, there is none, whatever start solution the heuristic finds.  If SCIP keeps start solutions, the
report is no worse than the result of the heuristic, also at the time limit. -/
theorem C92_exact {env : LabEnv F V} {G : LabGraph V} {w : V → V → Int} {π : V → Int} {root : V} (hG : G.Ok w π) (hE : env.Ok G π root)
    (hno : ∀ e ∈ G.edges, e.1 ≠ e.2) (hroot : root ∈ endpoints G.edges) (hS : SuurballeOn G.nx w A tail head names root dij depth T st)
    {m : List (V × (List V × List V))} (hm : undirectedVertexDisjointPathsMap names T st (treeNodes (head root) dij) = .ok m)
    {quota : Int} (hyes : env.YesSound G π quota root) {reorder : List (V × V) → Option (List (V × V))} (hre : ReorderOk reorder)
    {mp : ModelParams} (hh : mp.isHeuristic = false) (he : mp.isExact = true)
    (hstart : ∀ alg, mp.heuristic = some alg → ∃ es, runHeuristic env G quota root alg (vertexDisjointCostMap names T st (treeNodes (head root) dij)) m
      mp.collapsePaths mp.depthLimit mp.stepSize = .ok es)
    {scip : Problem → ScipOutcome} {order : Nat → List Nat} (ho : ∀ n, (order n).Perm (List.range n))
    {k : Int} (hscip : ∀ P, ScipSpec k P (order P.graph.edges.length) (scip P))
    (hreach : mp.coverShortest = true → ∀ x ∈ endpoints G.edges, ∃ l, (root :: l).getLast? = some x ∧ (∀ p ∈ consec (root :: l), AdjIn G.edges p.1 p.2) ∧
      namedCost w (root :: l) ≤ 1073741823)
    (hentry : mp.coverDisjoint = true → ∀ c, dictGet (vertexDisjointCostMap names T st (treeNodes (head root) dij)) root = some c →
      ∀ t, FeasibleIn G.edges π quota root t → c ≤ namedCost w t) :
    ∃ s r, runAlgorithm env scip order reorder names A (head root) dij depth G quota root mp = .ok (some s, r) ∧
      (ReportsNothing r ∨ ∃ t, FeasibleIn G.edges π quota root t ∧ Reports w π t r) ∧
      (s = .optimal → k = 1 ∨ mp.coverDisjoint = false ∧ mp.coverShortest = false →
        ∃ t, FeasibleIn G.edges π quota root t ∧ Reports w π t r ∧ ∀ t', FeasibleIn G.edges π quota root t' → namedCost w t ≤ namedCost w t') ∧
      (s = .infeasible → ReportsNothing r ∧ ∀ t, ¬ FeasibleIn G.edges π quota root t) ∧
      ((∀ P, KeepsStart P (order P.graph.edges.length) (scip P)) → ∀ alg es, mp.heuristic = some alg →
        runHeuristic env G quota root alg (vertexDisjointCostMap names T st (treeNodes (head root) dij)) m mp.collapsePaths mp.depthLimit mp.stepSize = .ok es →
        env.isYes es = .ok true → ∃ t, FeasibleIn G.edges π quota root t ∧ Reports w π t r ∧ namedCost w t ≤ (es.map fun p => w p.1 p.2).sum) := by
  obtain ⟨heur, h1, h2, h3, h4⟩ := startSolution_ok hE hstart
  obtain ⟨o1, o2, o3⟩ := optionsOf_spec mp (vertexDisjointCostMap names T st (treeNodes (head root) dij))
  have hheur : heur = [] ∨ ∃ t, FeasibleIn G.edges π quota root t ∧ EdgesOfTour t heur := h3.imp_right (hyes heur)
  have hadj : ∀ p ∈ heur, AdjIn G.edges p.1 p.2 := by
    rcases hheur with rfl | ⟨t, ht, h⟩
    · simp
    · exact h.adj ht.tour
  obtain ⟨s, ps, k1, k2, k3, k4, k5, k6⟩ := solve_named hG.describes hno hG.costs (quota := quota) hroot hadj
    (optionsOf mp (vertexDisjointCostMap names T st (treeNodes (head root) dij))) (hG.keys hS hroot) hE.pickCover ho hscip (by rw [o1]; exact hreach)
    (by rw [o2]; simp) rfl
  have hdis := fun h => hG.entries hS (hentry (o3.1 h).1)
  have hub : ∀ t, EdgesOfTour t heur → (heur.map fun p => w p.1 p.2).sum = namedCost w t := fun t h => h.sum hG.describes.symm
  have hres : ∃ r, makeResult reorder G ps = .ok r ∧ (ps = [] → ReportsNothing r) ∧
      ∀ t, FeasibleIn G.edges π quota root t → EdgesOfTour t ps → Reports w π t r := by
    rcases k2 with rfl | ⟨t, ht, -, h⟩
    · obtain ⟨r, h5, h6⟩ := makeResult_nil G hre
      exact ⟨r, h5, fun _ => h6, fun t ht h => absurd rfl (h.ne_nil (by have := ht.three; omega))⟩
    · obtain ⟨r, h5, -⟩ := makeResult_tour hG hno hre ht.tour h
      refine ⟨r, h5, fun e => absurd e (h.ne_nil (by have := ht.three; omega)), fun t' ht' h' => ?_⟩
      obtain ⟨r', h6, h7⟩ := makeResult_tour hG hno hre ht'.tour h'
      rw [h5] at h6
      obtain rfl := Res.ok.inj h6
      exact h7
  obtain ⟨r, r1, r2, r3⟩ := hres
  refine ⟨s, r, runAlgorithm_exact hS hh he hm h1 h2 k1 r1, ?_, fun hs hk => ?_, fun hs => ?_, fun hkeep alg es ha hes hy => ?_⟩
  · rcases k2 with h | ⟨t, ht, -, h⟩
    · exact .inl (r2 h)
    · exact .inr ⟨t, ht, r3 t ht h⟩
  · obtain ⟨t, ht, hT, h, hmin, -⟩ := k3 hs
    have hk' : k = 1 ∨ (optionsOf mp (vertexDisjointCostMap names T st (treeNodes (head root) dij))).coverDisjoint = false ∧
        (optionsOf mp (vertexDisjointCostMap names T st (treeNodes (head root) dij))).coverShortest = false := by
      refine hk.imp_right fun hk => ⟨?_, by rw [o1]; exact hk.2⟩
      rw [← Bool.not_eq_true, o3, hk.1]
      simp
    have hmin := hmin hk' hdis
    refine ⟨t, ht, r3 t ht h, fun t' ht' => ?_⟩
    rcases hheur with rfl | ⟨t₀, ht₀, h₀⟩
    · exact hmin t' ht' fun hpos => absurd hpos (by simp)
    · by_cases hle : namedCost w t' ≤ (heur.map fun p => w p.1 p.2).sum
      · exact hmin t' ht' (k5 hdis t' ht' hle)
      · have := hmin t₀ ht₀ (k5 hdis t₀ ht₀ (Int.le_of_eq (hub t₀ h₀).symm))
        have := hub t₀ h₀
        omega
  · obtain ⟨hps, hnone⟩ := k4 hs
    refine ⟨r2 hps, fun t ht => ?_⟩
    rcases hheur with rfl | ⟨t₀, ht₀, h₀⟩
    · exact hnone t ht fun hpos => absurd hpos (by simp)
    · exact hnone t₀ ht₀ (k5 hdis t₀ ht₀ (Int.le_of_eq (hub t₀ h₀).symm))
  · obtain rfl := h4 alg es ha hes hy
    obtain ⟨t₀, ht₀, h₀⟩ := hyes heur hy
    obtain ⟨t, ht, -, h, hle⟩ := k6 hkeep t₀ ht₀ (k5 hdis t₀ ht₀ (Int.le_of_eq (hub t₀ h₀).symm)) h₀
    exact ⟨t, ht, r3 t ht h, by rw [hub t₀ h₀]; exact hle⟩

/-- **C92.** With cost cover by disjoint paths, a heuristic that finds a feasible tour of positive cost below the root's entry of the map prevents every
answer: nothing is reported, and the status is never `optimal`. -/
theorem C92_lost {env : LabEnv F V} {G : LabGraph V} {w : V → V → Int} {π : V → Int} {root : V} (hG : G.Ok w π) (hE : env.Ok G π root)
    (hno : ∀ e ∈ G.edges, e.1 ≠ e.2) (hroot : root ∈ endpoints G.edges) (hS : SuurballeOn G.nx w A tail head names root dij depth T st)
    {m : List (V × (List V × List V))} (hm : undirectedVertexDisjointPathsMap names T st (treeNodes (head root) dij) = .ok m)
    {quota : Int} (hyes : env.YesSound G π quota root) {reorder : List (V × V) → Option (List (V × V))} (hre : ReorderOk reorder)
    {mp : ModelParams} (hh : mp.isHeuristic = false) (he : mp.isExact = true)
    {scip : Problem → ScipOutcome} {order : Nat → List Nat} (ho : ∀ n, (order n).Perm (List.range n))
    {k : Int} (hscip : ∀ P, ScipSpec k P (order P.graph.edges.length) (scip P))
    (hreach : mp.coverShortest = true → ∀ x ∈ endpoints G.edges, ∃ l, (root :: l).getLast? = some x ∧ (∀ p ∈ consec (root :: l), AdjIn G.edges p.1 p.2) ∧
      namedCost w (root :: l) ≤ 1073741823)
    (hon : mp.coverDisjoint = true) {alg : AlgorithmName} {es : List (V × V)} (ha : mp.heuristic = some alg)
    (hes : runHeuristic env G quota root alg (vertexDisjointCostMap names T st (treeNodes (head root) dij)) m mp.collapsePaths mp.depthLimit mp.stepSize = .ok es)
    (hy : env.isYes es = .ok true) {c : Int} (hc : dictGet (vertexDisjointCostMap names T st (treeNodes (head root) dij)) root = some c)
    (hpos : 0 < (es.map fun p => w p.1 p.2).sum) (hlt : (es.map fun p => w p.1 p.2).sum < c) :
    ∃ s r, runAlgorithm env scip order reorder names A (head root) dij depth G quota root mp = .ok (some s, r) ∧ ReportsNothing r ∧ s ≠ .optimal := by
  obtain ⟨heur, h1, h2, -, h4⟩ := startSolution_ok hE (mp := mp) (m := m) (quota := quota)
    (costMap := vertexDisjointCostMap names T st (treeNodes (head root) dij)) (fun alg' h => by
      rw [ha] at h
      obtain rfl := Option.some.inj h
      exact ⟨es, hes⟩)
  obtain rfl := h4 alg es ha hes hy
  obtain ⟨o1, o2, o3⟩ := optionsOf_spec mp (vertexDisjointCostMap names T st (treeNodes (head root) dij))
  obtain ⟨t₀, ht₀, h₀⟩ := hyes heur hy
  have hmem := (dictGet_eq_some hS.costMap_nodup).1 hc
  obtain ⟨s, k1, k2⟩ := C93_lost hG.describes hno hG.costs (quota := quota) hroot (h₀.adj ht₀.tour)
    (optionsOf mp (vertexDisjointCostMap names T st (treeNodes (head root) dij))) (hG.keys hS hroot) hE.pickCover ho hscip (by rw [o1]; exact hreach)
    (by rw [o2]; simp) (o3.2 ⟨hon, by rintro e; rw [e] at hmem; cases hmem⟩) hmem hpos hlt
  obtain ⟨r, r1, r2⟩ := makeResult_nil G hre
  exact ⟨s, r, runAlgorithm_exact hS hh he hm h1 h2 k1 r1, r2, k2⟩

/-- **C92**, heuristics.  If the heuristic returns a tour, its cost and its prize are reported, and if it returns nothing, both are 0. -/
theorem C92_heuristic {env : LabEnv F V} {G : LabGraph V} {w : V → V → Int} {π : V → Int} {root : V} (hG : G.Ok w π)
    (hno : ∀ e ∈ G.edges, e.1 ≠ e.2) (hS : SuurballeOn G.nx w A tail head names root dij depth T st)
    {m : List (V × (List V × List V))} (hm : undirectedVertexDisjointPathsMap names T st (treeNodes (head root) dij) = .ok m)
    {quota : Int} {reorder : List (V × V) → Option (List (V × V))} (hre : ReorderOk reorder) {mp : ModelParams} (hh : mp.isHeuristic = true)
    (scip : Problem → ScipOutcome) (order : Nat → List Nat) {t : List V}
    (hes : runHeuristic env G quota root mp.algorithm (vertexDisjointCostMap names T st (treeNodes (head root) dij)) m none mp.depthLimit mp.stepSize
      = .ok (consec t)) (ht : t = [] ∨ IsTourIn G.edges root t) :
    ∃ r, runAlgorithm env scip order reorder names A (head root) dij depth G quota root mp = .ok (none, r) ∧
      (t = [] → ReportsNothing r) ∧ (t ≠ [] → Reports w π t r) := by
  rcases ht with rfl | ht
  · obtain ⟨r, r1, r2⟩ := makeResult_nil G hre
    exact ⟨r, runAlgorithm_heuristic hS hh hm hes r1, fun _ => r2, fun h => absurd rfl h⟩
  · obtain ⟨r, r1, r2⟩ := makeResult_tour hG hno hre ht (ps := consec t) ⟨_, List.Perm.refl _, List.forall₂_same.2 fun _ _ => .inl rfl⟩
    exact ⟨r, runAlgorithm_heuristic hS hh hm hes r1, fun e => by obtain ⟨_, rfl⟩ := ht.shape; simp at e, fun _ => r2⟩

/-- **C92**, the heuristics that start from a cycle found by breadth first search: if there is a cycle through the root, they report a tour from the
root with at least three vertices, and the one with path extension reports nothing or a feasible tour. -/
theorem C92_bfs {env : LabEnv F V} {G : LabGraph V} {w : V → V → Int} {π : V → Int} {root : V} (hG : G.Ok w π) (hE : env.Ok G π root)
    (hno : ∀ e ∈ G.edges, e.1 ≠ e.2) (hroot : root ∈ G.nx.nodes) (hc : ∃ vs, NxCycle G.nx vs ∧ root ∈ vs)
    (hS : SuurballeOn G.nx w A tail head names root dij depth T st)
    {quota : Int} {reorder : List (V × V) → Option (List (V × V))} (hre : ReorderOk reorder) {mp : ModelParams} (hh : mp.isHeuristic = true)
    (scip : Problem → ScipOutcome) (order : Nat → List Nat) :
    (mp.algorithm = .bfsExtensionCollapse → ∃ r t, runAlgorithm env scip order reorder names A (head root) dij depth G quota root mp = .ok (none, r) ∧
      IsTourIn G.edges root t ∧ 4 ≤ t.length ∧ Reports w π t r) ∧
    (mp.algorithm = .bfsPathExtensionCollapse → ∃ r, runAlgorithm env scip order reorder names A (head root) dij depth G quota root mp = .ok (none, r) ∧
      (ReportsNothing r ∨ ∃ t, FeasibleIn G.edges π quota root t ∧ Reports w π t r)) := by
  obtain ⟨m, hm, -⟩ := C85_paths hS
  obtain ⟨m₀, -, ⟨-, t1, -, -, -, h1, h2, hl, -⟩, t2, h3, h4⟩ := C91_bfs hG hE hroot hc quota (vertexDisjointCostMap names T st (treeNodes (head root) dij)) m none
    mp.depthLimit mp.stepSize
  refine ⟨fun ha => ?_, fun ha => ?_⟩
  · rw [← ha] at h1
    obtain ⟨r, r1, -, r2⟩ := C92_heuristic hG hno hS hm hre hh scip order h1 (.inr h2)
    exact ⟨r, t1, r1, h2, hl, r2 (by obtain ⟨_, rfl⟩ := h2.shape; simp)⟩
  · rw [← ha] at h3
    obtain ⟨r, r1, r2, r3⟩ := C92_heuristic hG hno hS hm hre hh scip order h3 (h4.imp And.left fun h => h.1.tour)
    refine ⟨r, r1, ?_⟩
    rcases h4 with ⟨h, -⟩ | ⟨h, -⟩
    · exact .inl (r2 h)
    · exact .inr ⟨t2, h, r3 (by obtain ⟨_, rfl⟩ := h.tour.shape; simp)⟩

/-- **C92**, Suurballe's heuristic: it reports nothing, or a tour that meets the quota and is cheapest among the tours through some other vertex. -/
theorem C92_suurballe {env : LabEnv F V} {G : LabGraph V} {w : V → V → Int} {π : V → Int} {root : V} (hG : G.Ok w π) (hE : env.Ok G π root)
    (hno : ∀ e ∈ G.edges, e.1 ≠ e.2) (hS : SuurballeOn G.nx w A tail head names root dij depth T st)
    (hne : vertexDisjointCostMap names T st (treeNodes (head root) dij) ≠ [])
    {quota : Int} {reorder : List (V × V) → Option (List (V × V))} (hre : ReorderOk reorder) {mp : ModelParams} (hh : mp.isHeuristic = true)
    (ha : mp.algorithm = .suurballesHeuristic) (scip : Problem → ScipOutcome) (order : Nat → List Nat) :
    ∃ r, runAlgorithm env scip order reorder names A (head root) dij depth G quota root mp = .ok (none, r) ∧
      (ReportsNothing r ∨ ∃ t, FeasibleIn G.edges π quota root t ∧ Reports w π t r ∧
        ∃ v ∈ t, v ≠ root ∧ ∀ c, TourThrough G.nx w root v c → r.objective ≤ c) := by
  have hl : root ∉ G.nx.adj root := by
    intro h
    rcases (hG.adj _ _).1 h with h | h <;> exact hno _ h rfl
  obtain ⟨m, t, h1, h2, h3, -⟩ := C91_suurballe hG hE hS hl hne quota none mp.depthLimit mp.stepSize
  rw [← ha] at h2
  obtain ⟨r, r1, r2, r3⟩ := C92_heuristic hG hno hS h1 hre hh scip order h2 (by
    by_cases ht : t = []
    · exact .inl ht
    · exact .inr (h3 ht).1.tour)
  refine ⟨r, r1, ?_⟩
  by_cases ht : t = []
  · exact .inl (r2 ht)
  · obtain ⟨h4, v, h5, h6, h7⟩ := h3 ht
    exact .inr ⟨t, h4, r3 ht, v, h5, h6, fun c hc => by rw [(r3 ht).objective]; exact h7 c hc⟩

/-- **C92.** Other algorithms are rejected, but only after Suurballe's algorithm has been run. -/
theorem C92_rejected {env : LabEnv F V} {G : LabGraph V} {w : V → V → Int} {root : V} (hS : SuurballeOn G.nx w A tail head names root dij depth T st)
    {quota : Int} {reorder : List (V × V) → Option (List (V × V))} {mp : ModelParams} (scip : Problem → ScipOutcome) (order : Nat → List Nat) :
    (mp.isHeuristic = false → mp.isExact = false →
      runAlgorithm env scip order reorder names A (head root) dij depth G quota root mp = .throw .notImplementedError) ∧
    (mp.isHeuristic = true → mp.algorithm ∈ [AlgorithmName.extension, .solvePctsp, .disjointToursRelaxation] →
      runAlgorithm env scip order reorder names A (head root) dij depth G quota root mp = .throw .notImplementedError) := by
  obtain ⟨m, hm, -⟩ := C85_paths hS
  refine ⟨fun hh he => ?_, fun hh ha => ?_⟩
  · simp [runAlgorithm, hS.run, hm, algorithmEdges, hh, he]
  · have := (C91_errors env G quota root (vertexDisjointCostMap names T st (treeNodes (head root) dij)) m none mp.depthLimit mp.stepSize).1 _ ha
    simp [runAlgorithm, hS.run, hm, algorithmEdges, hh, this]

/-- The complete graph with four vertices; the root's entry of the map is 40, the tours 0, 1, 2 and 0, 1, 3 cost 21 and 35. -/
def fourLab : LabGraph (Fin 4) := labGraph [(0, 1), (0, 2), (0, 3), (1, 2), (1, 3), (2, 3)] fourCost (fun _ => 1)

theorem fourLab_ok : fourLab.Ok fourCost (fun _ => 1) :=
  labGraph_ok (by decide) (by decide) (by decide) (by decide) (by decide)

theorem fourLab_on : SuurballeOn fourLab.nx fourCost fourSplit (fun v => v.val) (fun v => v.val + 4) (plainNames 4) 0 fourDij 10 fourRun.1 fourRun.2 := by
  have : fourLab.nx = four := by
    have h1 : fourLab.nx.nodes = four.nodes := by decide
    have h2 : fourLab.nx.adj = four.adj := by decide
    cases h : fourLab.nx
    rw [h] at h1 h2
    exact NxGraph.mk.injEq .. ▸ ⟨h1, h2⟩
  rw [this]
  exact four_on

/-- The maps of `fourLab`. -/
def fourCosts : List (Fin 4 × Int) := [(1, 21), (2, 21), (3, 35), (0, 40)]
def fourPaths : List (Fin 4 × (List (Fin 4) × List (Fin 4))) :=
  [(1, ([0, 2, 1], [0, 1])), (2, ([0, 1, 2], [0, 2])), (3, ([0, 1, 3], [0, 3])), (0, ([0, 2, 0], [0, 1, 0]))]

theorem fourCosts_eq : vertexDisjointCostMap (plainNames 4) fourRun.1 fourRun.2 (treeNodes 4 fourDij) = fourCosts := by decide +kernel
theorem fourPaths_eq : undirectedVertexDisjointPathsMap (plainNames 4) fourRun.1 fourRun.2 (treeNodes 4 fourDij) = .ok fourPaths := by decide +kernel

/-- The test of a solution accepts one tour only. -/
def oneEnv {V : Type} [DecidableEq V] (G : LabGraph V) (π : V → Int) (root : V) (t : List V) : LabEnv Ext V :=
  { plainEnv G π root with isYes := fun ps => .ok (decide (ps = consec t)) }

theorem oneEnv_ok {G : LabGraph V} {w : V → V → Int} {π : V → Int} {root : V} (hG : G.Ok w π) (hr : root ∈ G.nx.nodes) (t : List V) :
    (oneEnv G π root t).Ok G π root :=
  { plainEnv_ok hG hr with isYes := fun _ => ⟨_, rfl⟩ }

theorem oneEnv_sound {G : LabGraph V} {π : V → Int} {root : V} {t : List V} {quota : Int} (ht : FeasibleIn G.edges π quota root t) :
    (oneEnv G π root t).YesSound G π quota root := by
  intro ps h
  have := Res.ok.inj h
  rw [decide_eq_true_eq] at this
  subst this
  exact ⟨t, ht, _, List.Perm.refl _, List.forall₂_same.2 fun _ _ => .inl rfl⟩

theorem reorderOk_none : ReorderOk (fun _ : List (V × V) => none) := by
  intro ps qs h
  cases h

/-- The status of the answer is that of SCIP. -/
theorem runAlgorithm_status {env : LabEnv F V} {scip : Problem → ScipOutcome} {order : Nat → List Nat} {reorder : List (V × V) → Option (List (V × V))}
    {source : W} {G : LabGraph V} {quota : Int} {root : V} {mp : ModelParams} {s : ScipStatus} {r : LabResult V}
    (h : runAlgorithm env scip order reorder names A source dij depth G quota root mp = .ok (some s, r)) : ∃ P, s = (scip P).status := by
  rw [runAlgorithm] at h
  obtain ⟨⟨T, st⟩, -, h⟩ := Res.bind_eq_ok.1 h
  obtain ⟨m, -, h⟩ := Res.bind_eq_ok.1 h
  obtain ⟨a, ha, h⟩ := Res.bind_eq_ok.1 h
  obtain ⟨r', -, h⟩ := Res.bind_eq_ok.1 h
  have h := Prod.mk.inj (Res.ok.inj h)
  rw [algorithmEdges] at ha
  split at ha
  · obtain ⟨es, -, ha⟩ := Res.bind_eq_ok.1 ha
    have := Res.ok.inj ha
    rw [← this] at h
    simp at h
  · split at ha
    · obtain ⟨heur, -, ha⟩ := Res.bind_eq_ok.1 ha
      obtain ⟨a', hs, ha⟩ := Res.bind_eq_ok.1 ha
      have := Res.ok.inj ha
      rw [← this] at h
      obtain rfl := Option.some.inj h.1
      rw [solvePctspPy] at hs
      obtain ⟨i, -, hs⟩ := Res.bind_eq_ok.1 hs
      exact solveBind_status (ps := a'.2) hs
    · cases ha

/-- The exact algorithm with Suurballe's heuristic and both kinds of cost cover. -/
def exactParams : ModelParams := ⟨.solvePctsp, true, false, some .suurballesHeuristic, none, none, none, true, true, true, true⟩

/-- **C92.** In the complete graph with four vertices Suurballe's heuristic finds the optimal tour, of cost 21.  The exact algorithm, with cost cover by
disjoint paths and this heuristic, reports nothing and the status `infeasible`. -/
theorem C92_optimal_lost : ∃ (G : LabGraph (Fin 4)) (w : Fin 4 → Fin 4 → Int) (π : Fin 4 → Int) (env : LabEnv Ext (Fin 4)) (A : DiGraph Nat)
    (dij : DijkstraOut Nat) (T : STree Nat) (st : SState Nat) (scip : Problem → ScipOutcome) (r : LabResult (Fin 4)),
    G.Ok w π ∧ env.Ok G π 0 ∧ env.YesSound G π 3 0 ∧ (∀ P, ScipSpec 1 P (List.range P.graph.edges.length) (scip P)) ∧
    SuurballeOn G.nx w A (fun v => v.val) (fun v => v.val + 4) (plainNames 4) 0 dij 10 T st ∧
    FeasibleIn G.edges π 3 0 [0, 2, 1, 0] ∧ (∀ t, FeasibleIn G.edges π 3 0 t → namedCost w [0, 2, 1, 0] ≤ namedCost w t) ∧
    (∃ m, undirectedVertexDisjointPathsMap (plainNames 4) T st (treeNodes 4 dij) = .ok m ∧
      runHeuristic env G 3 0 .suurballesHeuristic (vertexDisjointCostMap (plainNames 4) T st (treeNodes 4 dij)) m none none none
        = .ok (consec [0, 2, 1, 0])) ∧
    runAlgorithm env scip List.range (fun _ => none) (plainNames 4) A 4 dij 10 G 3 0 exactParams = .ok (some .infeasible, r) ∧ ReportsNothing r := by
  obtain ⟨scip, hscip⟩ := exists_scip_keeps 1 List.range
  have hf : FeasibleIn fourLab.edges (fun _ => 1) 3 0 [0, 2, 1, 0] := ⟨⟨⟨[2, 1], rfl⟩, by decide, by decide⟩, by decide, by decide⟩
  have hE := oneEnv_ok fourLab_ok (π := fun _ => 1) (root := 0) (by decide) [0, 2, 1, 0]
  have hY := oneEnv_sound hf
  have hh : runHeuristic (oneEnv fourLab (fun _ => 1) 0 [0, 2, 1, 0]) fourLab 3 0 .suurballesHeuristic
      (vertexDisjointCostMap (plainNames 4) fourRun.1 fourRun.2 (treeNodes 4 fourDij)) fourPaths none none none = .ok (consec [0, 2, 1, 0]) := by
    rw [fourCosts_eq]; decide +kernel
  obtain ⟨s, r, h1, h2, h3⟩ := C92_lost fourLab_ok hE (by decide) (by decide) fourLab_on fourPaths_eq hY reorderOk_none (mp := exactParams) rfl rfl
    (order := List.range) (fun n => List.Perm.refl _) (fun P => (hscip P).1) (fun _ x _ => by
      refine ⟨if x = 0 then [] else [x], ?_⟩
      revert x; decide) rfl rfl hh (by decide) (c := 40) (by rw [show (0 : Fin 4).val + 4 = 4 from rfl, fourCosts_eq]; decide) (by decide) (by decide)
  refine ⟨fourLab, fourCost, fun _ => 1, _, fourSplit, fourDij, fourRun.1, fourRun.2, scip, r, fourLab_ok, hE, hY, fun P => (hscip P).1, fourLab_on, hf, ?_,
    ⟨fourPaths, fourPaths_eq, hh⟩, ?_, h2⟩
  · rintro t ⟨⟨⟨m, rfl⟩, hn, hw⟩, h3, -⟩
    have hlen : m.length ≤ 3 := by
      rw [← List.cons_append, List.dropLast_concat] at hn
      have := hn.length_le_card
      simp at this
      omega
    match m, hlen with
    | [], _ => simp at h3
    | [a], _ => simp at h3
    | [a, b], _ => clear h3; revert a b; decide +kernel
    | [a, b, c], _ => clear h3; revert a b c; decide +kernel
  · obtain ⟨P, hP⟩ := runAlgorithm_status h1
    have : s = .infeasible := by
      rcases (hscip P).2.2 with h | h
      · exact absurd (hP.trans h) h3
      · exact hP.trans h
    rw [← this]
    exact h1

/-- The hypotheses of C92_exact with both kinds of cost cover: the root's entry of the map is 4, the two tours cost 21, and the one that the heuristic
finds is accepted. -/
example : FeasibleIn tieLab.edges tiePrize 6 0 [0, 3, 1, 0] ∧ (0 : Fin 5) ∈ endpoints tieLab.edges ∧
    SuurballeOn tieLab.nx tieCost tieSplit (fun v => v.val) (fun v => v.val + 5) (plainNames 5) 0 tieDij 10 tieRun.1 tieRun.2 ∧
    (∃ scip : Problem → ScipOutcome, (∀ P, ScipSpec 1 P (List.range P.graph.edges.length) (scip P)) ∧
      (∀ P, KeepsStart P (List.range P.graph.edges.length) (scip P))) ∧
    (oneEnv tieLab tiePrize 0 [0, 3, 1, 0]).YesSound tieLab tiePrize 6 0 ∧
    undirectedVertexDisjointPathsMap (plainNames 5) tieRun.1 tieRun.2 (treeNodes 5 tieDij) = .ok tiePaths ∧
    runHeuristic (oneEnv tieLab tiePrize 0 [0, 3, 1, 0]) tieLab 6 0 .suurballesHeuristic (vertexDisjointCostMap (plainNames 5) tieRun.1 tieRun.2
      (treeNodes 5 tieDij)) tiePaths none none none = .ok (consec [0, 3, 1, 0]) ∧
    (oneEnv tieLab tiePrize 0 [0, 3, 1, 0]).isYes (consec [0, 3, 1, 0]) = .ok true ∧
    (∀ x ∈ endpoints tieLab.edges, ∃ l, (0 :: l).getLast? = some x ∧ (∀ p ∈ consec (0 :: l), AdjIn tieLab.edges p.1 p.2) ∧
      namedCost tieCost (0 :: l) ≤ 1073741823) ∧
    ∀ c, dictGet (vertexDisjointCostMap (plainNames 5) tieRun.1 tieRun.2 (treeNodes 5 tieDij)) 0 = some c →
      ∀ t, FeasibleIn tieLab.edges tiePrize 6 0 t → c ≤ namedCost tieCost t := by
  have hf : FeasibleIn tieLab.edges tiePrize 6 0 [0, 3, 1, 0] := ⟨⟨⟨[3, 1], rfl⟩, by decide, by decide⟩, by decide, by decide⟩
  obtain ⟨scip, hscip⟩ := exists_scip_keeps 1 List.range
  have hcm : vertexDisjointCostMap (plainNames 5) tieRun.1 tieRun.2 (treeNodes 5 tieDij) = [(1, 21), (2, 21), (0, 4), (3, 21), (4, 21)] := by decide +kernel
  refine ⟨hf, by decide, tie_on, ⟨scip, fun P => (hscip P).1, fun P => (hscip P).2.1⟩, oneEnv_sound hf, by decide +kernel, by rw [hcm]; decide +kernel,
    by decide, fun x _ => ⟨if x = 0 then [] else [x], by revert x; decide⟩, ?_⟩
  rw [hcm]
  intro c hc t ht
  obtain rfl : (4 : Int) = c := Option.some.inj hc
  obtain ⟨⟨⟨m, rfl⟩, hn, hw⟩, h3, -⟩ := ht
  have hw : ∀ p ∈ consec (0 :: (m ++ [0])), AdjIn tieEdges p.1 p.2 := hw
  have hlen : m.length ≤ 4 := by
    rw [← List.cons_append, List.dropLast_concat] at hn
    have := hn.length_le_card
    simp at this
    omega
  match m, hlen with
  | [], _ => simp at h3
  | [a], _ => simp at h3
  | [a, b], _ => clear h3; revert a b; decide +kernel
  | [a, b, c], _ => clear h3; revert a b c; decide +kernel
  | [a, b, c, d], _ => clear h3; revert a b c d; decide +kernel

/-- The heuristics: what is reported for the two graphs of C91. -/
example : (∃ vs, NxCycle fourLab.nx vs ∧ 0 ∈ vs) ∧ vertexDisjointCostMap (plainNames 4) fourRun.1 fourRun.2 (treeNodes 4 fourDij) ≠ [] ∧
    runHeuristic (plainEnv fourLab (fun _ => 1) 0) fourLab 4 0 .bfsPathExtensionCollapse fourCosts fourPaths none none none
      = .ok (consec [0, 3, 1, 2, 0]) ∧
    IsTourIn fourLab.edges 0 [0, 3, 1, 2, 0] :=
  ⟨⟨[0, 1, 2], ⟨by decide, by decide, by decide, by unfold NxWalk; decide⟩, by decide⟩, by rw [fourCosts_eq]; decide, by decide +kernel,
    ⟨[3, 1, 2], rfl⟩, by decide, by decide⟩

end Pctsp
