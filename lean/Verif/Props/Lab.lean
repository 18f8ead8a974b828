import Verif.Lemmas.LabExamples

/-!
# C91: what the heuristics of `run_heuristic` return
-/

set_option linter.unusedSectionVars false

namespace Pctsp

variable {F V : Type} [DecidableEq V]

/-- **C91**, the two heuristics that start from a cycle found by breadth first search, if there is a cycle through the root.  Extension and collapse
returns a tour from the root with at least three vertices; it meets the quota if the extension of the first cycle does.  Path extension and collapse
returns nothing or a feasible tour. -/
theorem C91_bfs {env : LabEnv F V} {G : LabGraph V} {w : V → V → Int} {π : V → Int} {root : V} (hG : G.Ok w π) (hE : env.Ok G π root)
    (hroot : root ∈ G.nx.nodes) (hc : ∃ vs, NxCycle G.nx vs ∧ root ∈ vs) (quota : Int) (costMap : List (V × Int))
    (pathsMap : List (V × (List V × List V))) (cp : Option Bool) (dl ss : Option Int) :
    ∃ m, NxCycle G.nx (root :: m) ∧
      (∃ long t, extensionUnitaryGainBind env.float G.edges (root :: (m ++ [root])) G.costs G.prizes = .ok long ∧ IsTourIn G.edges root long ∧
        namedPrize π (root :: (m ++ [root])) ≤ namedPrize π long ∧
        runHeuristic env G quota root .bfsExtensionCollapse costMap pathsMap cp dl ss = .ok (consec t) ∧ IsTourIn G.edges root t ∧
        4 ≤ t.length ∧ namedCost w t ≤ namedCost w long ∧ (quota ≤ namedPrize π long → FeasibleIn G.edges π quota root t)) ∧
      (∃ t, runHeuristic env G quota root .bfsPathExtensionCollapse costMap pathsMap cp dl ss = .ok (consec t) ∧
        (t = [] ∧ namedPrize π (root :: (m ++ [root])) < quota ∨
         FeasibleIn G.edges π quota root t ∧
           (quota ≤ namedPrize π (root :: (m ++ [root])) → namedCost w t ≤ namedCost w (root :: (m ++ [root]))))) := by
  obtain ⟨small, h1, h2, h3⟩ := C76_bfs_cycle env.setOrder hE.setOrder G.nx hG.wf root hroot env.tree hE.tree
  obtain ⟨m, rfl, hm⟩ := h3 fun e => h2.1 e hc
  have hs := hG.tour hm
  have hlen : 4 ≤ (root :: (m ++ [root])).length := by
    have := hm.long
    simp at this ⊢; omega
  refine ⟨m, hm, ?_, ?_⟩
  · obtain ⟨long, t, k1, k2, k3, k4, k5, k6, k7, k8⟩ := runExtensionCollapse_spec hG hE quota hs
    exact ⟨long, t, k1, k2, k3, runHeuristic_of_first hE (by simp [usesSuurballe]) h1 k4, k5, k8 hlen, k6, fun hq => ⟨k5, k8 hlen, k7 hq⟩⟩
  · obtain ⟨t, k1, k2⟩ := C52_path_extension_collapse env.float hE.signSound G.edges G.costs G.prizes w π hG.describes hG.prizes root _ hs quota
      (cp.getD false) (fun _ => hG.costs) env.pick0 env.picks hE.pick0 hE.picks (orDefault dl G.nx.nodes.length) (orDefault ss 10)
    refine ⟨t, runHeuristic_of_first hE (by simp [usesSuurballe]) h1 k1, k2.imp_right ?_⟩
    rintro ⟨j1, j2, j3, j4⟩
    exact ⟨⟨j1, j4 hlen, j2⟩, j3⟩

example : (plainEnv farLab (fun _ => 1) 0).Ok farLab (fun _ => 1) 0 ∧ (0 : Fin 4) ∈ farLab.nx.nodes ∧ (∃ vs, NxCycle farLab.nx vs ∧ 0 ∈ vs) ∧
    runHeuristic (plainEnv farLab (fun _ => 1) 0) farLab 4 0 .bfsPathExtensionCollapse [] [] none none none = .ok [(0, 3), (3, 1), (1, 2), (2, 0)] :=
  ⟨plainEnv_ok farLab_ok (by decide), by decide, ⟨[0, 1, 2], ⟨by decide, by decide, by decide, by unfold NxWalk; decide⟩, by decide⟩, by decide +kernel⟩

/-- **C91.** Without a cycle through the root both are undefined: the empty tour is passed to the library. -/
theorem C91_bfs_no_cycle {env : LabEnv F V} {G : LabGraph V} {w : V → V → Int} {π : V → Int} {root : V} (hG : G.Ok w π) (hE : env.Ok G π root)
    (hroot : root ∈ G.nx.nodes) (hc : ¬ ∃ vs, NxCycle G.nx vs ∧ root ∈ vs) (quota : Int) (costMap : List (V × Int))
    (pathsMap : List (V × (List V × List V))) (cp : Option Bool) (dl ss : Option Int) :
    (runHeuristic env G quota root .bfsExtensionCollapse costMap pathsMap cp dl ss).isUb = true ∧
    (runHeuristic env G quota root .bfsPathExtensionCollapse costMap pathsMap cp dl ss).isUb = true := by
  obtain ⟨small, h1, h2, h3⟩ := C76_bfs_cycle env.setOrder hE.setOrder G.nx hG.wf root hroot env.tree hE.tree
  obtain rfl := h2.2 hc
  exact ⟨runHeuristic_ub (by simp [usesSuurballe]) h1 (runExtensionCollapse_nil hG quota),
    runHeuristic_ub (by simp [usesSuurballe]) h1 (runPathExtensionCollapse_nil hG quota cp dl ss)⟩

/-- A triangle that is joined to the root by an edge. -/
example : ∃ (G : LabGraph (Fin 4)) (w : Fin 4 → Fin 4 → Int) (π : Fin 4 → Int) (env : LabEnv Ext (Fin 4)), G.Ok w π ∧ env.Ok G π 0 ∧ 0 ∈ G.nx.nodes ∧
    (¬ ∃ vs, NxCycle G.nx vs ∧ 0 ∈ vs) ∧ ∃ vs, NxCycle G.nx vs := by
  have hok : (labGraph (n := 4) [(0, 1), (1, 2), (2, 3), (1, 3)] (fun _ _ => 1) (fun _ => 1)).Ok (fun _ _ => 1) (fun _ => 1) :=
    labGraph_ok (by decide) (by decide) (by decide) (by decide) (by decide)
  refine ⟨_, _, _, _, hok, plainEnv_ok hok (by decide), by decide, ?_, [1, 2, 3], by decide, by decide, by decide, by unfold NxWalk; decide⟩
  obtain ⟨r, h1, h2, -⟩ := C76_networkx id (fun _ => List.Perm.refl _) _ hok.wf 0 (by decide)
  refine h2.1 ?_
  have : findCycleFromBfs id (labGraph (n := 4) [(0, 1), (1, 2), (2, 3), (1, 3)] (fun _ _ => 1) (fun _ => 1)).nx
    (nxBfsTree (labGraph (n := 4) [(0, 1), (1, 2), (2, 3), (1, 3)] (fun _ _ => 1) (fun _ => 1)).nx 0) 0 = .ok [] := by decide +kernel
  rw [this] at h1
  exact (Res.ok.inj h1).symm

section Suurballe

variable {W : Type} [LinearOrder W] {A : DiGraph W} {tail head : V → W} {names : SplitNames V W} {dij : DijkstraOut W} {depth : Nat} {T : STree W}
  {st : SState W}

/-- **C91**, Suurballe's heuristic with the maps that `run_algorithm` computes: nothing is raised unless the maps are empty; what is returned is empty or
a tour from the root that meets the quota and is cheapest among the tours through some other vertex.  It is empty only if no pair of paths of a vertex
other than the root closes to a tour that meets the quota. -/
theorem C91_suurballe {env : LabEnv F V} {G : LabGraph V} {w : V → V → Int} {π : V → Int} {root : V} (hG : G.Ok w π) (hE : env.Ok G π root)
    (hS : SuurballeOn G.nx w A tail head names root dij depth T st) (hl : root ∉ G.nx.adj root)
    (hne : vertexDisjointCostMap names T st (treeNodes (head root) dij) ≠ []) (quota : Int) (cp : Option Bool) (dl ss : Option Int) :
    ∃ m t, undirectedVertexDisjointPathsMap names T st (treeNodes (head root) dij) = .ok m ∧
      runHeuristic env G quota root .suurballesHeuristic (vertexDisjointCostMap names T st (treeNodes (head root) dij)) m cp dl ss = .ok (consec t) ∧
      (t ≠ [] → FeasibleIn G.edges π quota root t ∧ ∃ v ∈ t, v ≠ root ∧ ∀ c, TourThrough G.nx w root v c → namedCost w t ≤ c) ∧
      (t = [] → ∀ v pq s, dictGet m v = some pq → v ≠ root → ClosesTo pq s → namedCost w s < maxsize → namedPrize π s < quota) := by
  obtain ⟨m', hm', hkeys, hpaths⟩ := C85_paths hS
  obtain ⟨m, t, h1, h2, h3, h4⟩ := C85_heuristic hS hl env.prizeOf quota
  obtain rfl : m = m' := by rw [h1] at hm'; exact Res.ok.inj hm'
  have hmne : m ≠ [] := by
    rintro rfl
    simp at hkeys
    exact hne hkeys
  refine ⟨m, t, h1, runHeuristic_of_first (small := []) hE (fun _ => ⟨hne, hmne⟩) rfl h2, fun ht => ?_, fun ht v pq s hv hr hs hlt => ?_⟩
  · obtain ⟨vs, rfl, k1, k2, v, k3, k4⟩ := h3 ht
    have htour := hG.tour k1
    refine ⟨⟨htour, ?_, by rw [← hE.prizeOf _ htour]; exact k2⟩, v, by simp [k3], ?_, k4⟩
    · have := k1.long; simp at this ⊢; omega
    · rintro rfl
      exact (List.nodup_cons.1 k1.nodup).1 k3
  · obtain ⟨vs, k1, k2, -, -⟩ := hpaths v pq hr hv
    have := k1.unique hs
    subst this
    rw [← hE.prizeOf _ (hG.tour k2)]
    exact h4 ht v pq _ hv hr hs hlt

/-- **C91**, the two heuristics that start from a pair of disjoint paths.  If the pair of a vertex other than the root has a larger prize than the closed
walk of the root's own entry, or closes to a tour that meets the quota, then extension and collapse returns a tour from the root with at least three
vertices, and path extension and collapse returns nothing or a feasible tour.  If the pair closes to a tour that meets the quota, both return a feasible tour. -/
theorem C91_suurballe_extension {env : LabEnv F V} {G : LabGraph V} {w : V → V → Int} {π : V → Int} {root : V} (hG : G.Ok w π) (hE : env.Ok G π root)
    (hS : SuurballeOn G.nx w A tail head names root dij depth T st) (hl : root ∉ G.nx.adj root) {m : List (V × (List V × List V))}
    (hm : undirectedVertexDisjointPathsMap names T st (treeNodes (head root) dij) = .ok m) (quota : Int) (cp : Option Bool) (dl ss : Option Int)
    {v : V} {pq : List V × List V} {s : List V} (hv : v ≠ root) (hpq : dictGet m v = some pq) (hs : ClosesTo pq s)
    (hpos : quota ≤ namedPrize π s ∧ namedCost w s < maxsize ∨
      0 < namedPrize π s ∧ ∀ pq' s', dictGet m root = some pq' → ClosesTo pq' s' → env.prizeOf s' < namedPrize π s) :
    ∃ ec pec, runHeuristic env G quota root .suurballesExtensionCollapse (vertexDisjointCostMap names T st (treeNodes (head root) dij)) m cp dl ss = .ok (consec ec) ∧
      IsTourIn G.edges root ec ∧ 4 ≤ ec.length ∧
      runHeuristic env G quota root .suurballesPathExtensionCollapse (vertexDisjointCostMap names T st (treeNodes (head root) dij)) m cp dl ss = .ok (consec pec) ∧
      (pec = [] ∨ FeasibleIn G.edges π quota root pec) ∧
      (quota ≤ namedPrize π s → namedCost w s < maxsize → FeasibleIn G.edges π quota root ec ∧ pec ≠ []) := by
  obtain ⟨m', h1, h2, h3⟩ := hS.pathsMap
  obtain rfl : m = m' := by rw [h1] at hm; exact (Res.ok.inj hm).symm
  have hn : (m.map Prod.fst).Nodup := by rw [h2]; exact hS.costMap_nodup
  have hentry : ∀ e ∈ m, (∃ t, ClosesTo e.2 t) ∧ ∃ c, dictGet (vertexDisjointCostMap names T st (treeNodes (head root) dij)) e.1 = some c := by
    rintro ⟨v, pq⟩ hm
    obtain ⟨c, a, b, k1, -, rfl⟩ := h3 v pq hm fun _ => hl
    exact ⟨⟨_, root, v, a, b, rfl, rfl, rfl⟩, c, k1⟩
  have hmem : (v, pq) ∈ m := (dictGet_eq_some hn).1 hpq
  have hmne : m ≠ [] := by rintro rfl; cases hmem
  have hne : vertexDisjointCostMap names T st (treeNodes (head root) dij) ≠ [] := by
    intro e; rw [e] at h2; simp at h2; exact hmne h2
  have other : ∀ v pq t, (v, pq) ∈ m → v ≠ root → ClosesTo pq t → IsTourIn G.edges root t ∧
      dictGet (vertexDisjointCostMap names T st (treeNodes (head root) dij)) v = some (namedCost w t) ∧ 4 ≤ t.length := by
    intro v pq t hm hv ht
    obtain ⟨_, k0, -, k1⟩ := C85_paths hS
    rw [h1] at k0; obtain rfl := Res.ok.inj k0
    obtain ⟨vs, k2, k3, -, k5⟩ := k1 v pq hv ((dictGet_eq_some hn).2 hm)
    obtain rfl := k2.unique ht
    refine ⟨hG.tour k3, k5, ?_⟩
    have := k3.long
    simp at this ⊢; omega
  obtain ⟨hst, hsc, -⟩ := other v pq s hmem hv hs
  have hsp := hE.prizeOf s hst
  have key : ∃ small, suurballesInit maxsize env.prizeOf quota (dictGet (vertexDisjointCostMap names T st (treeNodes (head root) dij))) m = .ok small ∧
      IsTourIn G.edges root small ∧ 4 ≤ small.length ∧ (quota ≤ namedPrize π s → namedCost w s < maxsize → quota ≤ namedPrize π small) := by
    obtain ⟨small, k1, k2, k3⟩ := C73_init maxsize env.prizeOf quota (dictGet (vertexDisjointCostMap names T st (treeNodes (head root) dij))) m hentry
    refine ⟨small, k1, ?_⟩
    by_cases hq : ∃ e ∈ m, ∃ t c, ClosesTo e.2 t ∧ dictGet (vertexDisjointCostMap names T st (treeNodes (head root) dij)) e.1 = some c ∧
        Qualifies env.prizeOf quota maxsize c t
    · obtain ⟨_, t, j1, j2, j3, -⟩ := C85_heuristic hS hl env.prizeOf quota
      rw [h1] at j1; obtain rfl := Res.ok.inj j1
      have := k2 hq
      rw [j2] at this; obtain rfl := Res.ok.inj this
      have hne : t ≠ [] := by
        rintro rfl
        obtain ⟨_, i1, i2, -⟩ := C72_heuristic maxsize env.prizeOf quota (dictGet (vertexDisjointCostMap names T st (treeNodes (head root) dij))) m hentry
        rw [j2] at i1; obtain rfl := Res.ok.inj i1
        obtain ⟨e, he, t, c, q1, q2, q3⟩ := hq
        exact i2.1 rfl e he t c q1 q2 q3
      obtain ⟨vs, rfl, i2, i3, -⟩ := j3 hne
      have ht := hG.tour i2
      refine ⟨ht, ?_, fun _ _ => by rw [← hE.prizeOf _ ht]; exact i3⟩
      have := i2.long
      simp at this ⊢; omega
    · have hno : ¬ (quota ≤ namedPrize π s ∧ namedCost w s < maxsize) := fun h =>
        hq ⟨(v, pq), hmem, s, namedCost w s, hs, hsc, h.2, by rw [hsp]; exact h.1, hst.nodup⟩
      obtain ⟨h0, hroot⟩ := hpos.resolve_left hno
      obtain ⟨j1, j2⟩ := k3 hq
      have hsm : small ≠ [] := fun e => by have := j1.1 e (v, pq) hmem s hs; omega
      obtain ⟨A, e, B, j3, j4, j5, j6⟩ := j2 hsm
      have hmax : env.prizeOf s ≤ env.prizeOf small := by
        rw [j3] at hmem
        rcases List.mem_append.1 hmem with h | h
        · exact Int.le_of_lt (j5 _ h s hs)
        · rcases List.mem_cons.1 h with h | h
          · subst h; rw [hs.unique j4]
          · exact j6 _ h s hs
      have her : e.1 ≠ root := by
        intro er
        have := hroot e.2 small ((dictGet_eq_some hn).2 (by rw [← er, j3]; simp)) j4
        omega
      obtain ⟨o1, -, o2⟩ := other e.1 e.2 small (by rw [j3]; simp) her j4
      exact ⟨o1, o2, fun a b => absurd ⟨a, b⟩ hno⟩
  obtain ⟨small, k1, k2, k4, k3⟩ := key
  obtain ⟨long, ec, i1, i2, i3, i4, i5, i6, i7, i8⟩ := runExtensionCollapse_spec hG hE quota k2
  obtain ⟨pec, e1, e2⟩ := C52_path_extension_collapse env.float hE.signSound G.edges G.costs G.prizes w π hG.describes hG.prizes root _ k2 quota
      (cp.getD false) (fun _ => hG.costs) env.pick0 env.picks hE.pick0 hE.picks (orDefault dl G.nx.nodes.length) (orDefault ss 10)
  refine ⟨ec, pec, runHeuristic_of_first hE (fun _ => ⟨hne, hmne⟩) k1 i4, i5, i8 k4, runHeuristic_of_first hE (fun _ => ⟨hne, hmne⟩) k1 e1, ?_, fun a b => ?_⟩
  · rcases e2 with ⟨h, -⟩ | ⟨h, h', -, hl⟩
    · exact .inl h
    · exact .inr ⟨h, hl k4, h'⟩
  · have := k3 a b
    refine ⟨⟨i5, i8 k4, i7 (by omega)⟩, ?_⟩
    rcases e2 with ⟨-, h⟩ | ⟨⟨⟨_, h⟩, -⟩, -⟩
    · omega
    · rw [h]; simp

/-- **C91.** If no pair of paths meets the quota and none has a positive prize, these two are undefined. -/
theorem C91_suurballe_no_prize {env : LabEnv F V} {G : LabGraph V} {w : V → V → Int} {π : V → Int} {root : V} (hG : G.Ok w π)
    (hS : SuurballeOn G.nx w A tail head names root dij depth T st) (hl : root ∉ G.nx.adj root) {m : List (V × (List V × List V))}
    (hm : undirectedVertexDisjointPathsMap names T st (treeNodes (head root) dij) = .ok m) (hne : m ≠ []) {quota : Int} (hq : 0 < quota)
    (hno : ∀ e ∈ m, ∀ s, ClosesTo e.2 s → env.prizeOf s ≤ 0) (cp : Option Bool) (dl ss : Option Int) :
    (runHeuristic env G quota root .suurballesExtensionCollapse (vertexDisjointCostMap names T st (treeNodes (head root) dij)) m cp dl ss).isUb = true ∧
    (runHeuristic env G quota root .suurballesPathExtensionCollapse (vertexDisjointCostMap names T st (treeNodes (head root) dij)) m cp dl ss).isUb = true := by
  obtain ⟨m', h1, h2, h3⟩ := hS.pathsMap
  obtain rfl : m = m' := by rw [h1] at hm; exact (Res.ok.inj hm).symm
  have hentry : ∀ e ∈ m, (∃ t, ClosesTo e.2 t) ∧ ∃ c, dictGet (vertexDisjointCostMap names T st (treeNodes (head root) dij)) e.1 = some c := by
    rintro ⟨v, pq⟩ hm
    obtain ⟨c, a, b, k1, -, rfl⟩ := h3 v pq hm fun _ => hl
    exact ⟨⟨_, root, v, a, b, rfl, rfl, rfl⟩, c, k1⟩
  have hne' : vertexDisjointCostMap names T st (treeNodes (head root) dij) ≠ [] := by
    intro e; rw [e] at h2; simp at h2; exact hne h2
  obtain ⟨small, k1, -, k3⟩ := C73_init maxsize env.prizeOf quota (dictGet (vertexDisjointCostMap names T st (treeNodes (head root) dij))) m hentry
  have hnot : ¬ ∃ e ∈ m, ∃ t c, ClosesTo e.2 t ∧ dictGet (vertexDisjointCostMap names T st (treeNodes (head root) dij)) e.1 = some c ∧
      Qualifies env.prizeOf quota maxsize c t := by
    rintro ⟨e, he, t, c, q1, -, -, q3, -⟩
    have := hno e he t q1
    omega
  obtain rfl := (k3 hnot).1.2 hno
  exact ⟨runHeuristic_ub (fun _ => ⟨hne', hne⟩) k1 (runExtensionCollapse_nil hG quota),
    runHeuristic_ub (fun _ => ⟨hne', hne⟩) k1 (runPathExtensionCollapse_nil hG quota cp dl ss)⟩

end Suurballe

/-- The hypotheses of the three theorems hold in the graph with two triangles; with quota 6 the tour of the vertex 1 meets the quota. -/
example : SuurballeOn tieLab.nx tieCost tieSplit (fun v => v.val) (fun v => v.val + 5) (plainNames 5) 0 tieDij 10 tieRun.1 tieRun.2 ∧
    (0 : Fin 5) ∉ tieLab.nx.adj 0 ∧
    vertexDisjointCostMap (plainNames 5) tieRun.1 tieRun.2 (treeNodes 5 tieDij) = [(1, 21), (2, 21), (0, 4), (3, 21), (4, 21)] ∧
    undirectedVertexDisjointPathsMap (plainNames 5) tieRun.1 tieRun.2 (treeNodes 5 tieDij) = .ok tiePaths ∧
    dictGet tiePaths 1 = some ([0, 3, 1], [0, 1]) ∧ ClosesTo ([0, 3, 1], [0, 1]) ([0, 3, 1, 0] : List (Fin 5)) ∧
    6 ≤ namedPrize tiePrize [0, 3, 1, 0] ∧ namedCost tieCost [0, 3, 1, 0] < maxsize ∧
    runHeuristic (plainEnv tieLab tiePrize 0) tieLab 6 0 .suurballesHeuristic [(1, 21), (2, 21), (0, 4), (3, 21), (4, 21)] tiePaths none none none
      = .ok [(0, 3), (3, 1), (1, 0)] :=
  ⟨tie_on, by decide, by decide +kernel, by decide +kernel, by decide, ⟨0, 1, [3], [], rfl, rfl, rfl⟩, by decide, by decide, by decide +kernel⟩

/-- Without prizes no pair of paths has a positive prize. -/
example : ∀ e ∈ tiePaths, ∀ s, ClosesTo e.2 s → (plainEnv tieLab (fun _ => 0) 0).prizeOf s ≤ 0 := by
  intro e _ s _
  simp [plainEnv, namedPrize]

/-- **C91.** Extension and collapse can return a tour below the quota although `extension_until_prize_feasible`, which it calls first, has found one that
meets it: that result is thrown away. -/
theorem C91_discarded : ∃ (G : LabGraph (Fin 4)) (w : Fin 4 → Fin 4 → Int) (π : Fin 4 → Int) (env : LabEnv Ext (Fin 4)), G.Ok w π ∧ env.Ok G π 0 ∧
    (∃ small long, findCycleFromBfs env.setOrder G.nx env.tree 0 = .ok small ∧
      extensionUntilPrizeFeasibleBind env.float G.edges small G.costs G.prizes 4 = .ok long ∧ FeasibleIn G.edges π 4 0 long) ∧
    runHeuristic env G 4 0 .bfsExtensionCollapse [] [] none none none = .ok (consec [0, 1, 2, 0]) ∧ namedPrize π [0, 1, 2, 0] < 4 := by
  refine ⟨farLab, farCost, fun _ => 1, plainEnv farLab (fun _ => 1) 0, farLab_ok, plainEnv_ok farLab_ok (by decide), ?_, by decide +kernel, by decide⟩
  exact ⟨[0, 1, 2, 0], [0, 3, 1, 2, 0], by decide +kernel, by decide +kernel, ⟨⟨[3, 1, 2], rfl⟩, by decide, by decide⟩, by decide, by decide⟩

/-- **C91.** The heuristics that start from a pair of paths can return a closed walk that visits the root twice and goes along an edge twice, with prize at
least the quota, although no tour from the root meets the quota: the root's own entry of the map of paths consists of two closed walks.  Suurballe's
heuristic returns nothing here. -/
theorem C91_figure_eight : ∃ (G : LabGraph (Fin 5)) (w : Fin 5 → Fin 5 → Int) (π : Fin 5 → Int) (env : LabEnv Ext (Fin 5)) (A : DiGraph Nat)
    (dij : DijkstraOut Nat) (T : STree Nat) (st : SState Nat) (costMap : List (Fin 5 × Int)) (m : List (Fin 5 × (List (Fin 5) × List (Fin 5)))),
    G.Ok w π ∧ env.Ok G π 0 ∧
    SuurballeOn G.nx w A (fun v => v.val) (fun v => v.val + 5) (plainNames 5) 0 dij 10 T st ∧
    costMap = vertexDisjointCostMap (plainNames 5) T st (treeNodes 5 dij) ∧
    undirectedVertexDisjointPathsMap (plainNames 5) T st (treeNodes 5 dij) = .ok m ∧
    (∀ t, ¬ FeasibleIn G.edges π 10 0 t) ∧
    runHeuristic env G 10 0 .suurballesExtensionCollapse costMap m none none none = .ok [(0, 2), (2, 0), (0, 1), (1, 0)] ∧
    runHeuristic env G 10 0 .suurballesPathExtensionCollapse costMap m none none none = .ok [(0, 2), (2, 0), (0, 1), (1, 0)] ∧
    runHeuristic env G 10 0 .suurballesHeuristic costMap m none none none = .ok [] := by
  refine ⟨tieLab, tieCost, tiePrize, plainEnv tieLab tiePrize 0, tieSplit, tieDij, tieRun.1, tieRun.2,
    [(1, 21), (2, 21), (0, 4), (3, 21), (4, 21)], tiePaths, tieLab_ok, plainEnv_ok tieLab_ok (by decide), tie_on, by decide +kernel, by decide +kernel,
    ?_, by decide +kernel, by decide +kernel, by decide +kernel⟩
  rintro t ⟨⟨⟨m, rfl⟩, hn, hw⟩, -, hp⟩
  have hlen : m.length ≤ 4 := by
    rw [← List.cons_append, List.dropLast_concat] at hn
    have := hn.length_le_card
    simp at this
    omega
  have hw : ∀ p ∈ consec (0 :: (m ++ [0])), AdjIn tieEdges p.1 p.2 := hw
  match m, hlen with
  | [], _ => revert hp; decide
  | [a], _ => revert a; decide +kernel
  | [a, b], _ => revert a b; decide +kernel
  | [a, b, c], _ => revert a b c; decide +kernel
  | [a, b, c, d], _ => revert a b c d; decide +kernel

/-- **C91.** The names that are no heuristics are rejected, and so are empty maps. -/
theorem C91_errors (env : LabEnv F V) (G : LabGraph V) (quota : Int) (root : V) (costMap : List (V × Int)) (pathsMap : List (V × (List V × List V)))
    (cp : Option Bool) (dl ss : Option Int) :
    (∀ alg ∈ [AlgorithmName.extension, .solvePctsp, .disjointToursRelaxation],
      runHeuristic env G quota root alg costMap pathsMap cp dl ss = .throw .notImplementedError) ∧
    (∀ alg ∈ [AlgorithmName.suurballesExtensionCollapse, .suurballesHeuristic, .suurballesPathExtensionCollapse], costMap = [] ∨ pathsMap = [] →
      runHeuristic env G quota root alg costMap pathsMap cp dl ss = .throw .valueError) := by
  constructor
  · intro alg h
    simp only [List.mem_cons, List.not_mem_nil, or_false] at h
    rcases h with rfl | rfl | rfl <;> rfl
  · intro alg h h0
    have hu : usesSuurballe alg = true := by
      simp only [List.mem_cons, List.not_mem_nil, or_false] at h
      rcases h with rfl | rfl | rfl <;> rfl
    have : (costMap.isEmpty || pathsMap.isEmpty) = true := by rcases h0 with rfl | rfl <;> simp
    rw [runHeuristic, hu, this]
    rfl

/-- **C91.** The settings of the path extension: `None` and 0 are the same, for the depth the same as the number of vertices, for the step size the same as
10; no `collapse_paths` is the same as `False`.  The other heuristics ignore all three. -/
theorem C91_settings (env : LabEnv F V) (G : LabGraph V) (quota : Int) (root : V) (alg : AlgorithmName) (costMap : List (V × Int))
    (pathsMap : List (V × (List V × List V))) (cp : Option Bool) (dl ss : Option Int) :
    runHeuristic env G quota root alg costMap pathsMap none dl ss = runHeuristic env G quota root alg costMap pathsMap (some false) dl ss ∧
    runHeuristic env G quota root alg costMap pathsMap cp none ss = runHeuristic env G quota root alg costMap pathsMap cp (some 0) ss ∧
    runHeuristic env G quota root alg costMap pathsMap cp none ss = runHeuristic env G quota root alg costMap pathsMap cp (some G.nx.nodes.length) ss ∧
    runHeuristic env G quota root alg costMap pathsMap cp dl none = runHeuristic env G quota root alg costMap pathsMap cp dl (some 0) ∧
    runHeuristic env G quota root alg costMap pathsMap cp dl none = runHeuristic env G quota root alg costMap pathsMap cp dl (some 10) ∧
    (alg ≠ .bfsPathExtensionCollapse → alg ≠ .suurballesPathExtensionCollapse → ∀ cp' dl' ss',
      runHeuristic env G quota root alg costMap pathsMap cp dl ss = runHeuristic env G quota root alg costMap pathsMap cp' dl' ss') := by
  have h : orDefault (some (G.nx.nodes.length : Int)) (G.nx.nodes.length : Int) = G.nx.nodes.length := by simp [orDefault]
  have key : ∀ dl dl' ss ss', orDefault dl G.nx.nodes.length = orDefault dl' G.nx.nodes.length → orDefault ss 10 = orDefault ss' 10 →
      runHeuristic env G quota root alg costMap pathsMap cp dl ss = runHeuristic env G quota root alg costMap pathsMap cp dl' ss' := by
    intro dl dl' ss ss' h1 h2
    cases alg <;> simp only [runHeuristic, heuristicTour, runPathExtensionCollapse, h1, h2]
  refine ⟨?_, key _ _ _ _ rfl rfl, key _ _ _ _ h.symm rfl, key _ _ _ _ rfl rfl, key _ _ _ _ rfl rfl, fun h1 h2 cp' dl' ss' => ?_⟩
  · cases alg <;> rfl
  · cases alg <;> first | rfl | exact absurd rfl h1 | exact absurd rfl h2

end Pctsp
