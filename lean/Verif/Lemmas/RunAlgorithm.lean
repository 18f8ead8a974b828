import Verif.Lemmas.LabResult
import Verif.Lemmas.SolveBind
import Verif.Lemmas.Lab
import Verif.Props.DisjointMap

/-!
# Lemmas about `run_algorithm`
-/

set_option linter.unusedSectionVars false

namespace Pctsp

variable {F V W : Type} [DecidableEq V] [LinearOrder W] {A : DiGraph W} {tail head : V → W} {names : SplitNames V W} {dij : DijkstraOut W} {depth : Nat}
  {T : STree W} {st : SState W}

/-- A tour in the list of edges is a cycle in the graph. -/
theorem LabGraph.Ok.cycle {G : LabGraph V} {w : V → V → Int} {π : V → Int} (h : G.Ok w π) {root : V} {m : List V}
    (ht : IsTourIn G.edges root (root :: (m ++ [root]))) (hlen : 2 ≤ m.length) : NxCycle G.nx (root :: m) := by
  have hn := ht.nodup
  rw [← List.cons_append, List.dropLast_concat] at hn
  have hw : NxWalk G.nx (root :: (m ++ [root])) := fun p hp => (h.adj _ _).2 (ht.walk p hp)
  refine ⟨by simp; omega, hn, fun v hv => ?_, by simpa using hw⟩
  obtain ⟨y, hy⟩ := exists_consec (z := root) hv
  exact (h.wf.closed _ _ (hw _ (by simpa using hy))).1

/-- The keys of the map of the costs are ends of edges, and each of them is there once. -/
theorem LabGraph.Ok.keys {G : LabGraph V} {w : V → V → Int} {π : V → Int} (hG : G.Ok w π) {root : V}
    (hS : SuurballeOn G.nx w A tail head names root dij depth T st) (hroot : root ∈ endpoints G.edges) :
    ∀ x c, (x, c) ∈ vertexDisjointCostMap names T st (treeNodes (head root) dij) →
      c = (dictGet (vertexDisjointCostMap names T st (treeNodes (head root) dij)) x).getD 0 ∧ x ∈ endpoints G.edges := by
  intro x c hx
  have hx' := (dictGet_eq_some hS.costMap_nodup).2 hx
  refine ⟨by rw [hx']; rfl, ?_⟩
  by_cases hxr : x = root
  · rw [hxr]; exact hroot
  · obtain ⟨⟨m, h1, h2, -⟩, -⟩ := C85_entry hS hxr hx'
    obtain ⟨y, hy⟩ := exists_consec (z := root) h2
    exact ((hG.adj _ _).1 (h1.closed _ (by simpa using hy))).endpoints.1

/-- The entries of the map are no more than the costs of the feasible tours through the vertex, if that holds for the root. -/
theorem LabGraph.Ok.entries {G : LabGraph V} {w : V → V → Int} {π : V → Int} (hG : G.Ok w π) {root : V}
    (hS : SuurballeOn G.nx w A tail head names root dij depth T st) {quota : Int}
    (hr : ∀ c, dictGet (vertexDisjointCostMap names T st (treeNodes (head root) dij)) root = some c → ∀ t, FeasibleIn G.edges π quota root t → c ≤ namedCost w t) :
    ∀ x c, (x, c) ∈ vertexDisjointCostMap names T st (treeNodes (head root) dij) → ∀ t, FeasibleIn G.edges π quota root t → x ∈ t → c ≤ namedCost w t := by
  intro x c hx t ht hxt
  have hx' := (dictGet_eq_some hS.costMap_nodup).2 hx
  by_cases hxr : x = root
  · rw [hxr] at hx'
    exact hr c hx' t ht
  · refine (C85_entry hS hxr hx').2 _ ?_
    obtain ⟨m, rfl⟩ := ht.tour.shape
    have h3 := ht.three
    simp only [List.length_cons, List.length_append, List.length_nil] at h3
    refine ⟨m, hG.cycle ht.tour (by omega), ?_, rfl⟩
    simp only [List.mem_cons, List.mem_append, List.not_mem_nil, or_false] at hxt ⊢
    rcases hxt with h | h | h
    · exact .inl h
    · exact .inr h
    · exact .inl h

/-- The options that `solve_pctsp` passes on. -/
def optionsOf (mp : ModelParams) (costMap : List (V × Int)) : SolveOptions :=
  if costMap.isEmpty then ⟨false, mp.coverShortest, false, mp.secDisjoint, mp.secMaxflow⟩
  else ⟨mp.coverDisjoint, mp.coverShortest, false, mp.secDisjoint, mp.secMaxflow⟩

theorem optionsOf_spec (mp : ModelParams) (costMap : List (V × Int)) : (optionsOf mp costMap).coverShortest = mp.coverShortest ∧
    (optionsOf mp costMap).cycleCover = false ∧ ((optionsOf mp costMap).coverDisjoint = true ↔ mp.coverDisjoint = true ∧ costMap ≠ []) := by
  cases costMap <;> simp [optionsOf]

/-- The start solution that reaches the solver: nothing, or what the heuristic returns if the test accepts it. -/
theorem startSolution_ok {env : LabEnv F V} {G : LabGraph V} {π : V → Int} {root : V} (hE : env.Ok G π root) {quota : Int} {mp : ModelParams}
    {costMap : List (V × Int)} {m : List (V × (List V × List V))}
    (hstart : ∀ alg, mp.heuristic = some alg → ∃ es, runHeuristic env G quota root alg costMap m mp.collapsePaths mp.depthLimit mp.stepSize = .ok es) :
    ∃ heur, startSolution env G quota root mp costMap m = .ok heur ∧ initialYesInstance env heur = .ok heur ∧ (heur = [] ∨ env.isYes heur = .ok true) ∧
      ∀ alg es, mp.heuristic = some alg → runHeuristic env G quota root alg costMap m mp.collapsePaths mp.depthLimit mp.stepSize = .ok es →
        env.isYes es = .ok true → heur = es := by
  cases hh : mp.heuristic with
  | none => exact ⟨[], by simp [startSolution, hh], rfl, .inl rfl, by simp⟩
  | some alg =>
    obtain ⟨es, h1⟩ := hstart alg hh
    obtain ⟨b, h2⟩ := hE.isYes es
    refine ⟨if b then es else [], ?_, ?_, ?_, ?_⟩
    · simp only [startSolution, hh, h1, h2, Res.ok_bind]; rfl
    · cases b with
      | false => rfl
      | true =>
        simp only [if_true, initialYesInstance]
        split
        · next h => rw [List.isEmpty_iff.1 h]
        · simp only [h2, Res.ok_bind]; rfl
    · cases b with
      | false => exact .inl rfl
      | true => exact .inr h2
    · intro alg' es' ha h3 h4
      obtain rfl := Option.some.inj ha
      rw [h1] at h3
      obtain rfl := Res.ok.inj h3
      rw [h2] at h4
      obtain rfl := Res.ok.inj h4
      rfl

/-- `run_algorithm` for an exact algorithm: the solver is called with the start solution, and its answer is reported. -/
theorem runAlgorithm_exact {env : LabEnv F V} {G : LabGraph V} {w : V → V → Int} {root : V}
    (hS : SuurballeOn G.nx w A tail head names root dij depth T st) {quota : Int} {mp : ModelParams} (hh : mp.isHeuristic = false) (he : mp.isExact = true)
    {scip : Problem → ScipOutcome} {order : Nat → List Nat} {reorder : List (V × V) → Option (List (V × V))} {m : List (V × (List V × List V))}
    (hm : undirectedVertexDisjointPathsMap names T st (treeNodes (head root) dij) = .ok m) {heur ps : List (V × V)} {s : ScipStatus} {r : LabResult V}
    (h1 : startSolution env G quota root mp (vertexDisjointCostMap names T st (treeNodes (head root) dij)) m = .ok heur)
    (h2 : initialYesInstance env heur = .ok heur)
    (h3 : solveBind scip order G.edges heur G.costs G.prizes quota root (optionsOf mp (vertexDisjointCostMap names T st (treeNodes (head root) dij)))
      (vertexDisjointCostMap names T st (treeNodes (head root) dij)) env.pickCover = .ok (s, ps))
    (h4 : makeResult reorder G ps = .ok r) :
    runAlgorithm env scip order reorder names A (head root) dij depth G quota root mp = .ok (some s, r) := by
  rw [optionsOf] at h3
  simp only [runAlgorithm, hS.run, Res.ok_bind, hm, algorithmEdges, hh, he, h1, solvePctspPy, h2, h3, Bool.false_eq_true, if_false, if_true]
  simp only [Res.ok_bind, h4, pure]

/-- `run_algorithm` for a heuristic. -/
theorem runAlgorithm_heuristic {env : LabEnv F V} {G : LabGraph V} {w : V → V → Int} {root : V}
    (hS : SuurballeOn G.nx w A tail head names root dij depth T st) {quota : Int} {mp : ModelParams} (hh : mp.isHeuristic = true)
    {scip : Problem → ScipOutcome} {order : Nat → List Nat} {reorder : List (V × V) → Option (List (V × V))} {m : List (V × (List V × List V))}
    (hm : undirectedVertexDisjointPathsMap names T st (treeNodes (head root) dij) = .ok m) {ps : List (V × V)} {r : LabResult V}
    (h1 : runHeuristic env G quota root mp.algorithm (vertexDisjointCostMap names T st (treeNodes (head root) dij)) m none mp.depthLimit mp.stepSize = .ok ps)
    (h4 : makeResult reorder G ps = .ok r) :
    runAlgorithm env scip order reorder names A (head root) dij depth G quota root mp = .ok (none, r) := by
  simp only [runAlgorithm, hS.run, Res.ok_bind, hm, algorithmEdges, hh, h1, if_true]
  simp only [Res.ok_bind, h4, pure]

end Pctsp
