import Verif.Lemmas.Vial
import Verif.Spec.Vial
import Verif.Props.RunAlgorithm

/-!
# C99: preprocessing and solving together
-/

namespace Pctsp

variable {F V W : Type} [DecidableEq V] [LinearOrder W] {component : NxGraph V → V → List V} {components : NxGraph V → List (List V)} {limit : Nat}
  {flags : PreprocessFlags} {names : SplitNames V W} {A : DiGraph W} {tail head : V → W} {dij : DijkstraOut W} {depth : Nat} {T : STree W} {st : SState W}

/-- **C99.** The preprocessed graph has the same feasible tours, with the same costs and prizes. -/
theorem C99_tours {G : LabGraph V} {w : V → V → Int} {π : V → Int} (hG : G.Ok w π) {root : V} {h : NxGraph V}
    (hp : Preprocessed component components limit flags G.nx root h) (quota : Int) (t : List V) :
    FeasibleIn (G.restrict h).edges π quota root t ↔ FeasibleIn G.edges π quota root t := by
  obtain ⟨⟨s, hs⟩, h2, -⟩ := C70_tours_kept component components limit flags G.nx h root hG.wf hp.comp hp.bicomp hp.run
  have hw : h.WF := by rw [hs]; exact hG.wf.subgraph s
  rw [feasibleIn_iff hG.wf hG.adj, feasibleIn_iff hw (restrict_adj hG hs)]
  refine exists_congr fun m => ?_
  rw [h2 _ (by simp)]

/-- **C99.** If some cycle goes through the root, the preprocessed graph meets everything that the algorithms expect. -/
theorem C99_ok {G : LabGraph V} {w : V → V → Int} {π : V → Int} (hG : G.Ok w π) {root : V} {h : NxGraph V}
    (hp : Preprocessed component components limit flags G.nx root h) (hc : ∃ vs, NxCycle G.nx vs ∧ root ∈ vs) :
    (G.restrict h).Ok w π ∧ root ∈ endpoints (G.restrict h).edges ∧ root ∈ h.nodes ∧ ∃ vs, NxCycle h vs ∧ root ∈ vs := by
  obtain ⟨⟨s, hs⟩, h2, -⟩ := C70_tours_kept component components limit flags G.nx h root hG.wf hp.comp hp.bicomp hp.run
  obtain ⟨vs, h3, h4⟩ := hc
  have h5 := (h2 vs h4).2 h3
  refine ⟨restrict_ok hG hs fun v hv y hy => preprocess_closed hG.wf hp.comp hp.bicomp hp.run (fun _ => ⟨vs, h3, h4⟩) hv hy, ?_, h5.inside _ h4, vs, h5, h4⟩
  obtain ⟨m, hm, -⟩ := h5.rotate h4
  obtain ⟨z, hz⟩ := exists_consec (l := root :: m) (z := root) (x := root) (by simp)
  exact mem_endpoints.2 ⟨z, (restrict_adj hG hs _ _).1 (hm.closed _ (by simpa using hz))⟩

/-- **C99.** If one-connected components are kept, the preprocessed graph meets what the exact algorithm expects, cycle or not, as soon as the root has an
edge in it; and the root does not lose its edges if leaves are kept too. -/
theorem C99_kept {G : LabGraph V} {w : V → V → Int} {π : V → Int} (hG : G.Ok w π) {root : V} {h : NxGraph V}
    (hp : Preprocessed component components limit flags G.nx root h) (hf : flags.removeOneConnected = false) :
    (G.restrict h).Ok w π ∧ (root ∈ endpoints (G.restrict h).edges → root ∈ h.nodes) ∧
    (flags.removeLeaves = false → (root ∈ endpoints (G.restrict h).edges ↔ root ∈ endpoints G.edges)) := by
  obtain ⟨⟨s, hs⟩, -⟩ := C70_tours_kept component components limit flags G.nx h root hG.wf hp.comp hp.bicomp hp.run
  have hcl : ∀ v ∈ h.nodes, ∀ y, y ∈ G.nx.adj v → ∃ y, y ∈ h.adj v := fun v hv y hy =>
    preprocess_closed hG.wf hp.comp hp.bicomp hp.run (fun h => by rw [hf] at h; cases h) hv hy
  have hw : h.WF := by rw [hs]; exact hG.wf.subgraph s
  refine ⟨restrict_ok hG hs hcl, fun hr => ?_, fun hl => ⟨fun hr => ?_, fun hr => ?_⟩⟩
  · obtain ⟨y, hy⟩ := mem_endpoints.1 hr
    exact (hw.closed _ _ ((restrict_adj hG hs _ _).2 hy)).1
  · obtain ⟨y, hy⟩ := mem_endpoints.1 hr
    exact mem_endpoints.2 ⟨y, hy.imp (fun h => (List.mem_filter.1 h).1) fun h => (List.mem_filter.1 h).1⟩
  · obtain ⟨y, hy⟩ := mem_endpoints.1 hr
    have hya := (hG.adj _ _).2 hy
    have hroot : root ∈ h.nodes := by
      have hrun := hp.run
      simp only [runPreprocessing, hf, hl, Res.bind_eq_ok, Bool.false_eq_true, if_false, Res.ok.injEq] at hrun
      obtain ⟨g1, hg1, g2, rfl, hh⟩ := hrun
      have e : g1 = h := by
        split at hh
        · cases hh
        · split at hh
          · cases hh
          · simpa using hh
      subst e
      split at hg1
      · simp only [removeDisconnected] at hg1
        split at hg1
        · injection hg1 with hg1
          rw [← hg1]
          have hn := (hG.wf.closed _ _ hya).1
          exact NxGraph.mem_subgraph_nodes.2 ⟨hn, (hp.comp root).2 ⟨hn, [root], by simp [NxWalk, consec], rfl, rfl⟩⟩
        · cases hg1
      · rw [← Res.ok.inj hg1]
        exact (hG.wf.closed _ _ hya).1
    obtain ⟨z, hz⟩ := hcl root hroot y hya
    exact mem_endpoints.2 ⟨z, (restrict_adj hG hs _ _).1 hz⟩

/-- **C99.** The exact algorithm after the preprocessing: what is reported is a feasible tour of the original graph, or nothing; `optimal` means that no
feasible tour of the original graph is cheaper, and `infeasible` that it has none.  If one-connected components are kept, no cycle through the root is needed
for this, only an edge at the root. -/
theorem C99_exact {env : LabEnv F V} {G : LabGraph V} {w : V → V → Int} {π : V → Int} {root : V} (hG : G.Ok w π)
    (hno : ∀ e ∈ G.edges, e.1 ≠ e.2) {h : NxGraph V} (hp : Preprocessed component components limit flags G.nx root h)
    (hc : (∃ vs, NxCycle G.nx vs ∧ root ∈ vs) ∨ flags.removeOneConnected = false ∧ root ∈ endpoints (G.restrict h).edges) (hE : env.Ok (G.restrict h) π root)
    (hS : SuurballeOn h w A tail head names root dij depth T st)
    {m : List (V × (List V × List V))} (hm : undirectedVertexDisjointPathsMap names T st (treeNodes (head root) dij) = .ok m)
    {quota : Int} (hyes : env.YesSound (G.restrict h) π quota root) {reorder : List (V × V) → Option (List (V × V))} (hre : ReorderOk reorder)
    {mp : ModelParams} (hh : mp.isHeuristic = false) (he : mp.isExact = true)
    (hstart : ∀ alg, mp.heuristic = some alg → ∃ es, runHeuristic env (G.restrict h) quota root alg
      (vertexDisjointCostMap names T st (treeNodes (head root) dij)) m mp.collapsePaths mp.depthLimit mp.stepSize = .ok es)
    {scip : Problem → ScipOutcome} {order : Nat → List Nat} (ho : ∀ n, (order n).Perm (List.range n))
    {k : Int} (hscip : ∀ P, ScipSpec k P (order P.graph.edges.length) (scip P))
    (hreach : mp.coverShortest = true → ∀ x ∈ endpoints (G.restrict h).edges, ∃ l, (root :: l).getLast? = some x ∧
      (∀ p ∈ consec (root :: l), AdjIn (G.restrict h).edges p.1 p.2) ∧ namedCost w (root :: l) ≤ 1073741823)
    (hentry : mp.coverDisjoint = true → ∀ c, dictGet (vertexDisjointCostMap names T st (treeNodes (head root) dij)) root = some c →
      ∀ t, FeasibleIn G.edges π quota root t → c ≤ namedCost w t) :
    ∃ s r, runVial component components limit flags env scip order reorder names A (head root) dij depth G quota root mp = .ok (some s, r) ∧
      (ReportsNothing r ∨ ∃ t, FeasibleIn G.edges π quota root t ∧ Reports w π t r) ∧
      (s = .optimal → k = 1 ∨ mp.coverDisjoint = false ∧ mp.coverShortest = false →
        ∃ t, FeasibleIn G.edges π quota root t ∧ Reports w π t r ∧ ∀ t', FeasibleIn G.edges π quota root t' → namedCost w t ≤ namedCost w t') ∧
      (s = .infeasible → ReportsNothing r ∧ ∀ t, ¬ FeasibleIn G.edges π quota root t) := by
  obtain ⟨h1, h2, h3⟩ : (G.restrict h).Ok w π ∧ root ∈ endpoints (G.restrict h).edges ∧ root ∈ h.nodes := by
    rcases hc with hc | ⟨hf, hc⟩
    · obtain ⟨h1, h2, h3, -⟩ := C99_ok hG hp hc
      exact ⟨h1, h2, h3⟩
    · obtain ⟨h1, h2, -⟩ := C99_kept hG hp hf
      exact ⟨h1, hc, h2 hc⟩
  have key := C99_tours hG hp quota
  obtain ⟨s, r, r1, r2, r3, r4, -⟩ := C92_exact h1 hE (fun e he => hno e (List.mem_filter.1 he).1) h2 hS hm hyes hre hh he hstart ho hscip hreach
    (fun ha c hc t ht => hentry ha c hc t ((key t).1 ht))
  refine ⟨s, r, ?_, ?_, ?_, ?_⟩
  · simp only [runVial, hp.run, Res.ok_bind, if_pos h3, r1]
  · simpa only [key] using r2
  · simpa only [key] using r3
  · simpa only [key] using r4

/-- **C99.** Any run that returns a tour after the preprocessing returns a tour of the original graph. -/
theorem C99_subgraph {G : LabGraph V} {h : NxGraph V} {root : V} {t : List V} (ht : IsTourIn (G.restrict h).edges root t) : IsTourIn G.edges root t :=
  ⟨ht.shape, ht.nodup, fun p hp => (ht.walk p hp).imp (fun h => (List.mem_filter.1 h).1) fun h => (List.mem_filter.1 h).1⟩

/-- **C99.** If no cycle goes through the root, removing the one-connected components makes the exact algorithm fail instead of reporting that the instance
is infeasible: no run has a result, whatever the externals do, and without a heuristic the run is undefined as soon as Suurballe's algorithm is done.  If
one-connected components are kept, this happens if the root has no edge after the preprocessing. -/
theorem C99_no_cycle {env : LabEnv F V} {G : LabGraph V} {w : V → V → Int} {π : V → Int} {root : V} (hG : G.Ok w π) (hno : ∀ e ∈ G.edges, e.1 ≠ e.2)
    {h : NxGraph V} (hp : Preprocessed component components limit flags G.nx root h)
    (hf : flags.removeOneConnected = true ∨ root ∉ endpoints (G.restrict h).edges) (hc : ¬ ∃ vs, NxCycle G.nx vs ∧ root ∈ vs) {reorder : List (V × V) → Option (List (V × V))} {mp : ModelParams} (hh : mp.isHeuristic = false)
    (he : mp.isExact = true) {scip : Problem → ScipOutcome} {order : Nat → List Nat} {quota : Int} :
    (∀ source x, runVial component components limit flags env scip order reorder names A source dij depth G quota root mp ≠ .ok x) ∧
    (root ∈ h.nodes → mp.heuristic = none → SuurballeOn h w A tail head names root dij depth T st →
      (runVial component components limit flags env scip order reorder names A (head root) dij depth G quota root mp).isUb = true) ∧
    (root ∉ h.nodes → ∀ source, runVial component components limit flags env scip order reorder names A source dij depth G quota root mp
      = .throw .valueError) ∧
    ∀ t, ¬ FeasibleIn G.edges π quota root t := by
  have hend : root ∉ endpoints (G.restrict h).edges := by
    rcases hf with hf | hf
    case inr => exact hf
    have hnodes := fun v => oneConnected_nodes hG.wf hp hf hc (v := v)
    intro hr
    obtain ⟨e, h1, -⟩ := List.mem_flatMap.1 hr
    simp only [LabGraph.restrict, List.mem_filter, decide_eq_true_eq] at h1
    exact hno e h1.1 (by rw [hnodes _ h1.2.1, hnodes _ h1.2.2])
  refine ⟨fun source x hx => ?_, fun hr hnone hS => ?_, fun hr source => ?_, fun t ht => ?_⟩
  · simp only [runVial, hp.run, Res.ok_bind] at hx
    split at hx
    · simp only [runAlgorithm, Res.bind_eq_ok] at hx
      obtain ⟨_, -, _, -, a, ha, -⟩ := hx
      simp only [algorithmEdges, hh, he, Bool.false_eq_true, if_false, if_true, Res.bind_eq_ok] at ha
      obtain ⟨_, -, b, hb, -⟩ := ha
      simp only [solvePctspPy, Res.bind_eq_ok] at hb
      obtain ⟨_, -, hb⟩ := hb
      exact (solveBind_unknown hend).1 _ hb
    · cases hx
  · obtain ⟨m, hm, -⟩ := C85_paths hS
    simp only [runVial, hp.run, Res.ok_bind, if_pos hr, runAlgorithm, hS.run, hm, algorithmEdges, hh, he, Bool.false_eq_true, if_false, if_true,
      startSolution, hnone, solvePctspPy, initialYesInstance, List.isEmpty_nil]
    exact Res.isUb_bind (Res.isUb_bind ((solveBind_unknown hend).2 rfl) _) _
  · simp only [runVial, hp.run, Res.ok_bind, if_neg hr]
  · obtain ⟨m, -, h1, -⟩ := (feasibleIn_iff hG.wf hG.adj).1 ht
    exact hc ⟨_, h1, by simp⟩

/-! ## Examples -/

/-- A triangle with a pendant vertex. -/
def leafLab : LabGraph (Fin 4) := labGraph [(0, 1), (1, 2), (0, 2), (2, 3)] (fun _ _ => 1) (fun _ => 1)

theorem leafLab_ok : leafLab.Ok (fun _ _ => 1) (fun _ => 1) := labGraph_ok (by decide) (by decide) (by decide) (by decide) (by decide)

/-- The triangle is left. -/
def leafH : NxGraph (Fin 4) := match runPreprocessing (fun g _ => g.nodes) (fun _ => [[0, 1, 2]]) 10 allSteps leafLab.nx 0 with
  | .ok h => h
  | _ => ⟨[], fun _ => []⟩

theorem leafLab_run : runPreprocessing (fun g _ => g.nodes) (fun _ => [[0, 1, 2]]) 10 allSteps leafLab.nx 0 = .ok leafH := by
  have h : (match runPreprocessing (fun g _ => g.nodes) (fun _ => [[0, 1, 2]]) 10 allSteps leafLab.nx 0 with | .ok _ => true | _ => false) = true := by
    decide +kernel
  rw [leafH]
  revert h
  cases runPreprocessing (fun g _ => g.nodes) (fun _ => [[0, 1, 2]]) 10 allSteps leafLab.nx 0 <;> simp

theorem leafLab_preprocessed : Preprocessed (fun g _ => g.nodes) (fun _ => [[0, 1, 2]]) 10 allSteps leafLab.nx 0 leafH where
  run := leafLab_run
  comp := by
    intro v
    refine ⟨fun h => ⟨h, ?_⟩, fun h => h.1⟩
    have : ∀ v : Fin 4, NxWalk leafLab.nx (if v = 0 then [0] else if v = 3 then [0, 2, 3] else [0, v]) ∧
        (if v = 0 then [0] else if v = 3 then [0, 2, 3] else [0, v]).head? = some (0 : Fin 4) ∧
        (if v = 0 then [0] else if v = 3 then [0, 2, 3] else [0, v]).getLast? = some v := by unfold NxWalk; decide
    exact ⟨_, this v⟩
  bicomp := by
    intro g' h
    have he : ∃ g'', runPreprocessing (fun g _ => g.nodes) (fun _ => [[0, 1, 2]]) 10 { allSteps with removeOneConnected := false } leafLab.nx 0
        = .ok g'' ∧ g''.nodes = [0, 1, 2] ∧ (∀ u ∈ [0, 1, 2], ∀ v ∈ [0, 1, 2], u ≠ v → v ∈ g''.adj u) := by
      refine ⟨_, rfl, ?_, ?_⟩ <;> decide +kernel
    obtain ⟨g'', h1, h2, h3⟩ := he
    rw [h] at h1; injection h1 with h1; subst h1
    have hc : NxCycle g' [0, 1, 2] := by
      refine ⟨by decide, by decide, by rw [h2]; decide, ?_⟩
      intro p hp
      have hp' : p ∈ [((0 : Fin 4), (1 : Fin 4)), (1, 2), (2, 0)] := hp
      simp at hp'
      rcases hp' with rfl | rfl | rfl <;> exact h3 _ (by simp) _ (by simp) (by decide)
    refine ⟨by decide, by rw [h2]; decide, ?_, ?_⟩
    · intro vs hvs
      exact ⟨_, by simp, fun v hv => h2 ▸ hvs.inside v hv⟩
    · intro c hcm _ u hu v hv _
      simp at hcm; subst hcm
      exact ⟨_, hc, hu, hv⟩

def leafSplit : DiGraph Nat :=
  .ofEdges 8 [((0, 4), 0), ((1, 5), 0), ((2, 6), 0), ((4, 1), 1), ((5, 0), 1), ((4, 2), 1), ((6, 0), 1), ((5, 2), 1), ((6, 1), 1)]

def leafDij : DijkstraOut Nat :=
  .ofTable [(4, 0, [4]), (1, 1, [4, 1]), (2, 1, [4, 2]), (5, 1, [4, 1, 5]), (6, 1, [4, 2, 6]), (0, 2, [4, 1, 5, 0])]

theorem leaf_split : SplitOf leafH (fun _ _ => 1) leafSplit (fun v => v.val) (fun v => v.val + 4) where
  tailInj u v h := Fin.ext h
  headInj u v h := Fin.ext (by simpa using h)
  disj u v := by have := u.isLt; intro h; omega
  edges x y h := by
    have key : ∀ e ∈ ([(0, 4), (1, 5), (2, 6), (4, 1), (5, 0), (4, 2), (6, 0), (5, 2), (6, 1)] : List (Nat × Nat)),
        (∃ v : Fin 4, e.1 = v.val ∧ e.2 = v.val + 4) ∨ ∃ a b : Fin 4, e.1 = a.val + 4 ∧ e.2 = b.val ∧ b ∈ leafH.adj a := by decide +kernel
    exact key (x, y) (DiGraph.mem_ofEdges.1 h)
  inner := by decide +kernel
  outer := by decide +kernel
  innerCost := by decide +kernel
  outerCost := by decide +kernel

def leafRun : STree Nat × SState Nat := match suurballe leafSplit leafDij 10 4 with
  | .ok r => r
  | _ => tieRun

theorem leafRun_ok : suurballe leafSplit leafDij 10 4 = .ok (leafRun.1, leafRun.2) := by
  have h : (match suurballe leafSplit leafDij 10 4 with | .ok _ => true | _ => false) = true := by decide +kernel
  rw [leafRun]
  revert h
  cases suurballe leafSplit leafDij 10 4 <;> simp

theorem leaf_on : SuurballeOn leafH (fun _ _ => 1) leafSplit (fun v => v.val) (fun v => v.val + 4) (plainNames 4) 0 leafDij 10 leafRun.1 leafRun.2 := by
  obtain ⟨⟨s, hs⟩, -⟩ := C70_tours_kept _ _ _ _ _ _ _ leafLab_ok.wf leafLab_preprocessed.comp leafLab_preprocessed.bicomp leafLab_preprocessed.run
  exact ⟨by rw [hs]; exact leafLab_ok.wf.subgraph s, fun _ _ _ => rfl, DiGraph.ofEdges_wf (by decide) (by decide), leaf_split, plainNames_ok 4,
    DijkstraOut.ofTable_ok (by decide) (by decide) (by decide) (by decide) (by decide) (by decide), leafRun_ok⟩

-- a vertex is removed, and the solver proves the triangle optimal for the whole graph whenever it says so
example : leafH.nodes = [0, 1, 2] ∧ ∃ (scip : Problem → ScipOutcome) (s : ScipStatus) (r : LabResult (Fin 4)),
    runVial (fun g _ => g.nodes) (fun _ => [[0, 1, 2]]) 10 allSteps (oneEnv (leafLab.restrict leafH) (fun _ => 1) 0 [0, 1, 2, 0]) scip List.range (fun _ => none)
      (plainNames 4) leafSplit 4 leafDij 10 leafLab 3 0 ⟨.solvePctsp, true, false, none, none, none, none, false, true, true, true⟩ = .ok (some s, r) ∧
    (s = .optimal → r.objective = 3) := by
  refine ⟨by decide +kernel, ?_⟩
  obtain ⟨scip, hscip⟩ := exists_scip_keeps 1 List.range
  have hc : ∃ vs, NxCycle leafLab.nx vs ∧ 0 ∈ vs := ⟨[0, 1, 2], ⟨by decide, by decide, by decide, by unfold NxWalk; decide⟩, by decide⟩
  obtain ⟨k1, k2, k3, k4⟩ := C99_ok leafLab_ok leafLab_preprocessed hc
  obtain ⟨m, hm, -⟩ := C85_paths leaf_on
  have hf : FeasibleIn leafLab.edges (fun _ => 1) 3 0 [0, 1, 2, 0] := ⟨⟨⟨[1, 2], rfl⟩, by decide, by decide⟩, by decide, by decide⟩
  have hf' := (C99_tours leafLab_ok leafLab_preprocessed 3 _).2 hf
  obtain ⟨s, r, h1, h2, h3, h4⟩ := C99_exact (env := oneEnv (leafLab.restrict leafH) (fun _ => 1) 0 [0, 1, 2, 0])
    (mp := ⟨.solvePctsp, true, false, none, none, none, none, false, true, true, true⟩) leafLab_ok (by decide) leafLab_preprocessed (.inl hc)
    (oneEnv_ok k1 k3 _) leaf_on hm (oneEnv_sound hf') reorderOk_none rfl rfl (fun alg h => by simp at h) (order := List.range)
    (fun n => List.Perm.refl _) (fun P => (hscip P).1)
    (fun _ x hx => ⟨if x = 0 then [] else [x], by revert x; decide +kernel⟩) (fun h => by simp at h)
  refine ⟨scip, s, r, ?_, fun hs => ?_⟩
  · exact h1
  · obtain ⟨t, ht, hr, hmin⟩ := h3 hs (.inl rfl)
    have := hmin _ hf
    rw [hr.objective]
    have hl : namedCost (fun _ _ => 1) t = (t.length - 1 : Nat) := by
      simp [namedCost, consec]
    have := ht.three
    have h0 : namedCost (fun (_ _ : Fin 4) => 1) [0, 1, 2, 0] = 3 := by decide
    omega

/-- One edge. -/
def edgeLab : LabGraph (Fin 2) := labGraph [(0, 1)] (fun _ _ => 1) (fun _ => 1)
def edgeH : NxGraph (Fin 2) := edgeLab.nx.subgraph [0]
def onlyOneConnected : PreprocessFlags := ⟨false, false, true, false, false⟩

theorem edgeLab_no_cycle {g : NxGraph (Fin 2)} {vs : List (Fin 2)} (h : NxCycle g vs) : False := by
  have := h.nodup.length_le_card
  have := h.long
  simp at *
  omega

theorem edgeLab_preprocessed : Preprocessed (fun g _ => g.nodes) (fun _ => [[0, 1]]) 10 onlyOneConnected edgeLab.nx 0 edgeH where
  run := by rfl
  comp := by
    intro v
    refine ⟨fun h => ⟨h, ?_⟩, fun h => h.1⟩
    have : ∀ v : Fin 2, NxWalk edgeLab.nx (if v = 0 then [0] else [0, v]) ∧ (if v = 0 then [0] else [0, v]).head? = some (0 : Fin 2) ∧
        (if v = 0 then [0] else [0, v]).getLast? = some v := by unfold NxWalk; decide
    exact ⟨_, this v⟩
  bicomp := by
    intro g' h
    obtain rfl : edgeLab.nx = g' := Res.ok.inj h
    exact ⟨by decide, by decide, fun vs hvs => (edgeLab_no_cycle hvs).elim, fun c hc h => by simp at hc; subst hc; simp at h⟩

theorem edgeLab_ok : edgeLab.Ok (fun _ _ => 1) (fun _ => 1) := labGraph_ok (by decide) (by decide) (by decide) (by decide) (by decide)

def edgeSplit : DiGraph Nat := .ofEdges 4 [((0, 2), 0)]
def edgeDij : DijkstraOut Nat := .ofTable [(2, 0, [2])]

def edgeRun : STree Nat × SState Nat := match suurballe edgeSplit edgeDij 10 2 with
  | .ok r => r
  | _ => tieRun

theorem edgeRun_ok : suurballe edgeSplit edgeDij 10 2 = .ok (edgeRun.1, edgeRun.2) := by
  have h : (match suurballe edgeSplit edgeDij 10 2 with | .ok _ => true | _ => false) = true := by decide +kernel
  rw [edgeRun]
  revert h
  cases suurballe edgeSplit edgeDij 10 2 <;> simp

theorem edge_split : SplitOf edgeH (fun _ _ => 1) edgeSplit (fun v => v.val) (fun v => v.val + 2) where
  tailInj u v h := Fin.ext h
  headInj u v h := Fin.ext (by simpa using h)
  disj u v := by have := u.isLt; intro h; omega
  edges x y h := by
    have key : ∀ e ∈ ([(0, 2)] : List (Nat × Nat)),
        (∃ v : Fin 2, e.1 = v.val ∧ e.2 = v.val + 2) ∨ ∃ a b : Fin 2, e.1 = a.val + 2 ∧ e.2 = b.val ∧ b ∈ edgeH.adj a := by decide +kernel
    exact key (x, y) (DiGraph.mem_ofEdges.1 h)
  inner := by decide +kernel
  outer := by decide +kernel
  innerCost := by decide +kernel
  outerCost := by decide +kernel

theorem edge_on : SuurballeOn edgeH (fun _ _ => 1) edgeSplit (fun v => v.val) (fun v => v.val + 2) (plainNames 2) 0 edgeDij 10 edgeRun.1 edgeRun.2 :=
  ⟨edgeLab_ok.wf.subgraph _, fun _ _ _ => rfl, DiGraph.ofEdges_wf (by decide) (by decide), edge_split, plainNames_ok 2,
    DijkstraOut.ofTable_ok (by decide) (by decide) (by decide) (by decide) (by decide) (by decide), edgeRun_ok⟩

-- the root is the only vertex left, and the run is undefined although the instance is just infeasible
example (scip : Problem → ScipOutcome) : (0 : Fin 2) ∈ edgeH.nodes ∧ edgeH.nodes.length = 1 ∧
    (runVial (fun g _ => g.nodes) (fun _ => [[0, 1]]) 10 onlyOneConnected (plainEnv (edgeLab.restrict edgeH) (fun _ => 1) 0) scip List.range (fun _ => none)
      (plainNames 2) edgeSplit 2 edgeDij 10 edgeLab 2 0 ⟨.solvePctsp, true, false, none, none, none, none, false, true, true, true⟩).isUb = true :=
  ⟨by decide, by decide, (C99_no_cycle edgeLab_ok (by decide) edgeLab_preprocessed (.inl rfl) (fun ⟨_, h, _⟩ => edgeLab_no_cycle h) rfl rfl).2.1
    (by decide) rfl edge_on⟩

end Pctsp
