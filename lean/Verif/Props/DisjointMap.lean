import Verif.Lemmas.DisjointMap
import Verif.Lemmas.SplitExamples
import Verif.Props.PyHeuristic

/-!
# C85: the map from vertices to costs of tours, and the pairs of paths
-/

set_option linter.unusedSectionVars false

namespace Pctsp

variable {V W : Type} [DecidableEq V] [LinearOrder W] {U : NxGraph V} {cost : V → V → Int} {A : DiGraph W} {tail head : V → W}
  {names : SplitNames V W} {r : V} {dij : DijkstraOut W} {depth : Nat} {T : STree W} {st : SState W}

/-- **C85.** The entry of a vertex other than the root is the least cost of a tour through the root and the vertex. -/
theorem C85_entry (h : SuurballeOn U cost A tail head names r dij depth T st) {v : V} (hv : v ≠ r) {c : Int}
    (hc : dictGet (vertexDisjointCostMap names T st (treeNodes (head r) dij)) v = some c) :
    TourThrough U cost r v c ∧ ∀ c', TourThrough U cost r v c' → c ≤ c' := by
  obtain ⟨h1, h2⟩ := h.entry hc
  rw [disjointWalks_tour h.und h.symm hv] at h1
  exact ⟨h1, fun c' hc' => h2 c' ((disjointWalks_tour h.und h.symm hv).2 hc')⟩

/-- **C85.** A vertex other than the root has no entry only if no tour through the root and the vertex costs less than `sys.maxsize`. -/
theorem C85_no_entry (h : SuurballeOn U cost A tail head names r dij depth T st) {v : V} (hv : v ≠ r)
    (hc : dictGet (vertexDisjointCostMap names T st (treeNodes (head r) dij)) v = none) {c : Int} (ht : TourThrough U cost r v c) : maxsize ≤ c :=
  h.no_entry hc ((disjointWalks_tour h.und h.symm hv).2 ht)

/-- **C85.** The map of the paths has the same keys in the same order; the pair of paths of a vertex other than the root closes to a tour through it,
and the tour costs what the other map says. -/
theorem C85_paths (h : SuurballeOn U cost A tail head names r dij depth T st) :
    ∃ m, undirectedVertexDisjointPathsMap names T st (treeNodes (head r) dij) = .ok m ∧
      m.map Prod.fst = (vertexDisjointCostMap names T st (treeNodes (head r) dij)).map Prod.fst ∧
      ∀ v pq, v ≠ r → dictGet m v = some pq → ∃ vs, ClosesTo pq (r :: (vs ++ [r])) ∧ NxCycle U (r :: vs) ∧ v ∈ vs ∧
        dictGet (vertexDisjointCostMap names T st (treeNodes (head r) dij)) v = some (walkWeight cost (r :: (vs ++ [r]))) := by
  obtain ⟨m, h1, h2, h3⟩ := h.pathsMap
  refine ⟨m, h1, h2, ?_⟩
  intro v pq hv hm
  rw [dictGet_eq_some (by rw [h2]; exact h.costMap_nodup)] at hm
  obtain ⟨c, a, b, h4, h5, rfl⟩ := h3 v pq hm fun e => absurd e hv
  obtain ⟨vs, h6, h7, h8⟩ := disjointWalks_round h.und h.symm hv h5
  exact ⟨vs, h6, h7, h8.1, by rw [h8.2]; exact h4⟩

/-- **C85.** The heuristic with these two maps raises nothing if the root has no self-loop.  What it returns is empty or a tour from the root with prize
at least the quota that is cheapest among the tours through some vertex. -/
theorem C85_heuristic (h : SuurballeOn U cost A tail head names r dij depth T st) (hr : r ∉ U.adj r) (prizeOf : List V → Int) (quota : Int) :
    ∃ m t, undirectedVertexDisjointPathsMap names T st (treeNodes (head r) dij) = .ok m ∧
      suurballesHeuristic maxsize prizeOf quota (dictGet (vertexDisjointCostMap names T st (treeNodes (head r) dij))) m = .ok t ∧
      (t ≠ [] → ∃ vs, t = r :: (vs ++ [r]) ∧ NxCycle U (r :: vs) ∧ quota ≤ prizeOf t ∧
        ∃ v ∈ vs, ∀ c, TourThrough U cost r v c → walkWeight cost t ≤ c) ∧
      (t = [] → ∀ v pq s, dictGet m v = some pq → v ≠ r → ClosesTo pq s → walkWeight cost s < maxsize → prizeOf s < quota) := by
  obtain ⟨m, h1, h2, h3⟩ := h.pathsMap
  have hn : (m.map Prod.fst).Nodup := by rw [h2]; exact h.costMap_nodup
  obtain ⟨t, h4, h5, h6⟩ := C72_heuristic maxsize prizeOf quota (dictGet (vertexDisjointCostMap names T st (treeNodes (head r) dij))) m (by
    rintro ⟨v, pq⟩ hm
    obtain ⟨c, a, b, k1, -, rfl⟩ := h3 v pq hm fun _ => hr
    exact ⟨⟨_, r, v, a, b, rfl, rfl, rfl⟩, c, k1⟩)
  refine ⟨m, t, h1, h4, fun ht => ?_, fun ht v pq s hm hv hs hlt => ?_⟩
  · obtain ⟨_, ⟨v, pq⟩, _, c, rfl, k1, k2, k3, -, -⟩ := h6 ht
    obtain ⟨c', a, b, k4, k5, rfl⟩ := h3 v pq (by simp) fun _ => hr
    obtain ⟨s, x, a', b', e1, e2, rfl⟩ := k1
    simp only [List.cons.injEq] at e1 e2
    obtain ⟨rfl, e1⟩ := e1
    obtain ⟨rfl, rfl⟩ := List.append_singleton_inj.1 e1
    obtain ⟨rfl, -⟩ := List.append_singleton_inj.1 e2.2
    have hv : v ≠ r := by
      rintro rfl
      have := k3.2.2
      have e : v :: (a ++ v :: (b.reverse ++ [v])) = (v :: (a ++ v :: b.reverse)) ++ [v] := by simp
      rw [e, List.dropLast_concat] at this
      simp at this
    obtain ⟨vs, q1, q2, q3, q4⟩ := disjointWalks_round h.und h.symm hv k5
    have e := q1.unique ⟨r, v, a, b, rfl, rfl, rfl⟩
    rw [← e]
    refine ⟨vs, rfl, q2, by rw [e]; exact k3.2.1, v, q3, fun d hd => ?_⟩
    rw [q4]
    exact (C85_entry h hv k4).2 d hd
  · rw [dictGet_eq_some hn] at hm
    obtain ⟨c, a, b, k1, k2, rfl⟩ := h3 v pq hm fun _ => hr
    obtain ⟨vs, q1, q2, q3, q4⟩ := disjointWalks_round h.und h.symm hv k2
    have e := q1.unique hs
    subst e
    have := h5.1 ht (v, _) hm _ c q1 k1
    by_contra hq
    refine this ⟨by omega, by omega, ?_⟩
    have e : r :: (vs ++ [r]) = (r :: vs) ++ [r] := by simp
    rw [e, List.dropLast_concat]
    exact q2.nodup

example : SuurballeOn four fourCost fourSplit (fun v => v.val) (fun v => v.val + 4) (plainNames 4) 0 fourDij 10 fourRun.1 fourRun.2 ∧ (0 : Fin 4) ∉ four.adj 0 ∧
    vertexDisjointCostMap (plainNames 4) fourRun.1 fourRun.2 (treeNodes 4 fourDij) = [(1, 21), (2, 21), (3, 35), (0, 40)] ∧
    (match undirectedVertexDisjointPathsMap (plainNames 4) fourRun.1 fourRun.2 (treeNodes 4 fourDij) with | .ok m => m | _ => []) =
      [(1, ([0, 2, 1], [0, 1])), (2, ([0, 1, 2], [0, 2])), (3, ([0, 1, 3], [0, 3])), (0, ([0, 2, 0], [0, 1, 0]))] :=
  ⟨four_on, by decide, by decide +kernel, by decide +kernel⟩

example := C85_entry four_on (v := 3) (by decide) (c := 35) (by decide +kernel)

end Pctsp
