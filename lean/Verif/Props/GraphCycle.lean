import Verif.Lemmas.GraphCycle
import Verif.Props.SimpleCycle
import Verif.Props.Solution
import Verif.Props.Cuts

/-!
# Property theorems: is a graph a simple cycle (C144)
-/

namespace Pctsp

/-- **C144.** With a vector that has an entry for each vertex, `isGraphSimpleCycle` is true iff the graph is one cycle through all its
vertices.  The vector then starts with the labels of the components and keeps its length and its later entries; a graph without vertices or edges leaves
it as it is. -/
theorem C144_iff {g : Graph} (hwf : g.WF) {m : Nat} {ids : List Nat} (hc : IsGraphComponents g m ids) {cv : List Nat} (hcv : g.n ≤ cv.length) :
    ∃ b cv', isGraphSimpleCycle g m ids cv = .ok (b, cv') ∧ (b = true ↔ IsCycleGraph g) ∧ cv'.length = cv.length ∧
      (∀ i, g.n ≤ i → cv'[i]? = cv[i]?) ∧ (g.edges = [] → cv' = cv) ∧ (g.edges ≠ [] → ∀ v < g.n, cv'[v]? = ids[v]?) := by
  rw [isCycleGraph_iff hwf, isGraphSimpleCycle]
  by_cases hn : g.n = 0
  · rw [if_pos hn]
    refine ⟨false, cv, rfl, by simp [hn], rfl, fun _ _ => rfl, fun _ => rfl, fun _ v hv => by omega⟩
  rw [if_neg hn]
  by_cases he : g.edges.length = 0
  · rw [if_pos he]
    have he' := List.length_eq_zero_iff.1 he
    refine ⟨false, cv, rfl, ?_, rfl, fun _ _ => rfl, fun _ => rfl, fun h => absurd he' h⟩
    simp only [Bool.false_eq_true, false_iff]
    rintro ⟨-, -, h⟩
    have := h 0 (by omega)
    rw [adjacent_eq_adjOf, he'] at this
    simp [adjOf] at this
  rw [if_neg he, if_neg (by omega)]
  have hlen : (ids ++ cv.drop g.n).length = cv.length := by rw [List.length_append, List.length_drop, hc.length]; omega
  have hlate : ∀ i, g.n ≤ i → (ids ++ cv.drop g.n)[i]? = cv[i]? := by
    intro i hi
    rw [List.getElem?_append_right (by rw [hc.length]; exact hi), hc.length, List.getElem?_drop]
    congr 1; omega
  have hearly : ∀ v < g.n, (ids ++ cv.drop g.n)[v]? = ids[v]? := fun v hv => by
    rw [List.getElem?_append_left (by rw [hc.length]; exact hv)]
  have hene : g.edges ≠ [] := fun h => he (by rw [h]; rfl)
  have hone := components_one_iff hc hn
  by_cases hm : m = 1
  · refine ⟨_, _, by simp only [hm]; rfl, ?_, hlen, hlate, fun h => absurd h hene, fun _ => hearly⟩
    simp only [List.all_eq_true, List.mem_range, beq_iff_eq, ne_eq, hn, not_false_eq_true, true_and]
    exact ⟨fun h => ⟨hone.1 hm, h⟩, fun h => h.2⟩
  · refine ⟨false, _, by simp only [ne_eq, hm, not_false_eq_true, if_true], ?_, hlen, hlate, fun h => absurd h hene, fun _ => hearly⟩
    simp only [Bool.false_eq_true, false_iff]
    rintro ⟨-, h, -⟩
    exact hm (hone.2 h)

/-- **C144.** With a shorter vector the test is undefined behaviour, unless the graph has no edges. -/
theorem C144_short {g : Graph} (m : Nat) (ids : List Nat) {cv : List Nat} (hcv : cv.length < g.n) :
    (g.edges ≠ [] → ∃ s, isGraphSimpleCycle g m ids cv = .ub s) ∧ (g.edges = [] → isGraphSimpleCycle g m ids cv = .ok (false, cv)) := by
  constructor
  · intro h
    rw [isGraphSimpleCycle, if_neg (by omega), if_neg (by simpa using h), if_pos hcv]
    exact ⟨_, rfl⟩
  · intro h
    rw [isGraphSimpleCycle, if_neg (by omega), if_pos (by simp [h])]

/-- **C144.** The two tests of the library agree on all edges of a graph, but for two differences: a vertex without edges is noticed only by
`isGraphSimpleCycle`, and one vertex with one self-loop is a cycle only for `isGraphSimpleCycle`. -/
theorem C144_agrees {g : Graph} (hwf : g.WF) {m : Nat} {ids : List Nat} (hc : IsGraphComponents g m ids) {cv : List Nat} (hcv : g.n ≤ cv.length) :
    ∃ b cv' b', isGraphSimpleCycle g m ids cv = .ok (b, cv') ∧ isSimpleCycle g (getEdgeVectorOfGraph g) = .ok b' ∧
      (b = true ↔ (b' = true ∧ ∀ v < g.n, ∃ e ∈ g.edges, v = e.1 ∨ v = e.2) ∨ (g.n = 1 ∧ g.edges = [(0, 0)])) := by
  obtain ⟨b, cv', h1, h2, -⟩ := C144_iff hwf hc hcv
  obtain ⟨ps, b', h3, h4, h5⟩ := C30_isSimpleCycle_iff g (getEdgeVectorOfGraph g) (by rw [getEdgeVector_eq]; simp)
  have hps : ps = g.edges := by
    rw [getEdgeVector_eq] at h3
    have hl := h3.length_eq
    rw [List.length_range] at hl
    apply List.ext_getElem? 
    intro i
    by_cases hi : i < g.edges.length
    · have := h3.get (i := i) (by simpa using hi) (by omega)
      simp at this
      rw [List.getElem?_eq_getElem hi, List.getElem?_eq_getElem (by omega)]
      rw [← this, List.getElem?_eq_getElem hi]
    · rw [List.getElem?_eq_none (by omega), List.getElem?_eq_none (by omega)]
  subst hps
  refine ⟨b, cv', b', h1, h4, ?_⟩
  rw [h2, h5]
  constructor
  · rintro ⟨vs, k1, k2, k3, k4⟩
    match vs, k1, k2, k3, k4 with
    | [s], k1, k2, k3, k4 =>
      right
      have hs : s < g.n := (k3 s).1 (by simp)
      have h0 : 0 = s := by simpa using (k3 0).2 (by omega)
      subst h0
      have hn : g.n = 1 := by
        by_contra hh
        have : 1 = 0 := by simpa using (k3 1).2 (by omega)
        omega
      refine ⟨hn, ?_⟩
      have hl := k4.length_eq
      simp [cycleEdges, consec] at hl
      obtain ⟨e, he⟩ := List.length_eq_one_iff.1 hl
      have := hwf e (by rw [he]; simp)
      rw [hn] at this
      rw [he]
      congr 1
      ext <;> simp <;> omega
    | s :: a :: l, k1, k2, k3, k4 =>
      left
      refine ⟨⟨_, by simp, k2, k4⟩, ?_⟩
      intro v hv
      have hl := adjOf_cycle_length k2 (by simp) v
      have hp := (adjOf_perm k4 v).length_eq
      rw [cycleEdges_cons, hl, if_pos ((k3 v).2 hv)] at hp
      clear hl
      by_contra hno
      simp only [not_exists, not_and, not_or] at hno
      rw [adjOf_of_not_mem fun e he => ⟨fun h => (hno e he).1 h.symm, fun h => (hno e he).2 h.symm⟩] at hp
      simp at hp
  · rintro (⟨⟨vs, k1, k2, k3⟩, hcov⟩ | ⟨hn, he⟩)
    · match vs, k1, k2, k3 with
      | s :: a :: l, k1, k2, k3 =>
        refine ⟨s :: a :: l, by simp, k2, ?_, k3⟩
        intro v
        have hl := adjOf_cycle_length k2 (by simp) v
        rw [← cycleEdges_cons, ← (adjOf_perm k3 v).length_eq, adjOf_length] at hl
        constructor
        · intro hv
          rw [if_pos hv] at hl
          by_contra hge
          rw [← adjOf_length, adjOf_of_not_mem fun e he => by have := hwf e he; omega] at hl
          simp at hl
        · intro hv
          obtain ⟨e, he, hve⟩ := hcov v hv
          by_contra hno
          rw [if_neg hno] at hl
          have := degreeIn_ne_zero he
          rcases hve with rfl | rfl <;> omega
    · exact ⟨[0], by simp, by simp, by intro v; rw [hn]; simp, by rw [he]; simp [cycleEdges, consec, und]⟩

/-- **C144.** The solution graph of a tour, from a graph without vertices: its edges are those of the tour, each once, and its vertices are all numbers up to
the largest one on the tour.  So it is a simple cycle iff the tour leaves out no vertex with a smaller number than one it visits. -/
theorem C144_solution_graph {g : Graph} {root : Nat} {order : List Nat} (ho : order.Perm (List.range g.edges.length)) {t es : List Nat} {x : Nat → Int}
    (ht : IsTour g root t) (hlen : 3 ≤ t.length) (hinc : IncidenceOf g t es x) :
    ∃ sg, getSolutionGraph g ⟨0, []⟩ order (fun e => decide (0 < x e)) = .ok sg ∧ sg.WF ∧
      (sg.edges.map und).Perm ((consec t).map und) ∧ (∀ v, v < sg.n ↔ ∃ w ∈ t, v ≤ w) ∧
      (IsCycleGraph sg ↔ ∀ w ∈ t, ∀ v ≤ w, v ∈ t) := by
  obtain ⟨h1, h2, ps, h3, h4⟩ := C87_edges ho ht hlen hinc
  have hf : List.Forall₂ (fun e p => g.edges[e]? = some p) (getSolutionEdges g order fun e => decide (0 < x e)) ps :=
    (mapRes_eq_ok.1 h3).imp fun _ _ h => ends_ok.1 h
  obtain ⟨l, hl⟩ := ht.shape
  have hnd := ht.nodup
  subst hl
  rw [dropLast_tour] at hnd
  have hlne : l ≠ [] := by rintro rfl; simp at hlen
  have hmemt : ∀ v, v ∈ root :: (l ++ [root]) ↔ v ∈ root :: l := by intro v; simp; tauto
  have hloop : ∀ p ∈ ps, p.1 ≠ p.2 := by
    rintro ⟨a, b⟩ hp hab
    simp only at hab
    subst hab
    obtain ⟨⟨c, d⟩, hq, hu⟩ := List.mem_map.1 (h4.mem_iff.1 (List.mem_map_of_mem hp))
    have := cycle_no_loop hnd hlne _ hq
    rw [und_eq_iff] at hu
    simp only at this
    omega
  have hend : ∀ v, v ∈ endpoints ps ↔ v ∈ root :: l := by
    intro v
    have hlv := adjOf_cycle_length hnd hlne v
    rw [← (adjOf_perm h4 v).length_eq, adjOf_length] at hlv
    simp only [endpoints, List.mem_flatMap]
    constructor
    · rintro ⟨e, he, hv⟩
      by_contra hno
      rw [if_neg hno] at hlv
      have := degreeIn_ne_zero he
      simp at hv
      rcases hv with rfl | rfl <;> omega
    · intro hv
      rw [if_pos hv] at hlv
      by_contra hno
      simp only [not_exists, not_and] at hno
      rw [← adjOf_length, adjOf_of_not_mem fun e he => ⟨fun h => hno e he (by simp [h]), fun h => hno e he (by simp [h])⟩] at hlv
      simp at hlv
  have hedges : ((⟨0, []⟩ : Graph).addEdges ps).edges = ps := by rw [addEdges_edges]; simp
  have hn : ∀ v, v < ((⟨0, []⟩ : Graph).addEdges ps).n ↔ ∃ w ∈ root :: (l ++ [root]), v ≤ w := by
    intro v
    rw [lt_addEdges_n]
    simp only [Nat.not_lt_zero, false_or]
    exact ⟨fun ⟨w, hw, h⟩ => ⟨w, (hmemt w).2 ((hend w).1 hw), h⟩, fun ⟨w, hw, h⟩ => ⟨w, (hend w).2 ((hmemt w).1 hw), h⟩⟩
  refine ⟨(⟨0, []⟩ : Graph).addEdges ps, solutionGraphLoop_eq hf hloop _, (addEdges_wf _ (by intro e he; simp at he) ps).1, by rw [hedges]; exact h4, hn, ?_⟩
  constructor
  · rintro ⟨vs, k1, k2, k3, k4⟩ w hw v hvw
    rw [hedges] at k4
    have hv : v ∈ vs := (k3 v).2 ((hn v).2 ⟨w, hw, hvw⟩)
    have hl2 := adjOf_cycle_length hnd hlne v
    rw [hmemt]
    by_contra hno
    rw [if_neg hno, ← (adjOf_perm h4 v).length_eq, (adjOf_perm k4 v).length_eq] at hl2
    match vs, k1, k2, hv with
    | [s], _, _, hv =>
      simp at hv
      subst hv
      simp [cycleEdges, consec, adjOf, Graph.nbrsOf] at hl2
    | s :: a :: r, _, k2, hv =>
      rw [cycleEdges_cons, adjOf_cycle_length k2 (by simp), if_pos hv] at hl2
      omega
  · intro h
    refine ⟨root :: l, by simp, hnd, ?_, by rw [hedges, cycleEdges_cons]; exact h4⟩
    intro v
    rw [hn v, ← hmemt]
    exact ⟨fun hv => ⟨v, hv, Nat.le_refl v⟩, fun ⟨w, hw, hvw⟩ => h w hw v hvw⟩

/-! ## Examples -/

/-- A cycle of four vertices. -/
def exRing : Graph := { n := 4, edges := [(1, 0), (2, 3), (1, 2), (0, 3)] }

theorem exRing_components : IsGraphComponents exRing 1 [0, 0, 0, 0] := by
  refine isComponents_check rfl (by decide) (by decide) (by decide) (fun _ => 0) (by decide) ?_
  have hs : ∀ e u v, EdgeBetween exRing e u v → SupportConnected exRing (fun _ => 1) u v := fun e u v he => .single ⟨e, he, Int.one_pos⟩
  intro v hv
  have : v = 0 ∨ v = 1 ∨ v = 2 ∨ v = 3 := by simp [exRing] at hv; omega
  rcases this with rfl | rfl | rfl | rfl
  · exact .refl
  · exact hs 0 1 0 (.inl rfl)
  · exact (hs 2 2 1 (.inr rfl)).trans (hs 0 1 0 (.inl rfl))
  · exact hs 3 3 0 (.inr rfl)

/-- Two parallel edges and a vertex without edges. -/
def exPairAlone : Graph := { n := 3, edges := [(0, 2), (2, 0)] }

theorem exPairAlone_components : IsGraphComponents exPairAlone 2 [0, 1, 0] := by
  refine isComponents_check rfl (by decide) (by decide) (by decide) (fun v => if v = 1 then 1 else 0) (by decide) ?_
  intro v hv
  have : v = 0 ∨ v = 1 ∨ v = 2 := by simp [exPairAlone] at hv; omega
  rcases this with rfl | rfl | rfl
  · exact .refl
  · exact .refl
  · exact .single ⟨0, .inr rfl, by decide⟩

example := C144_iff (g := exRing) (by decide) exRing_components (cv := [7, 7, 7, 7, 7, 7]) (by decide)
example := C144_iff (g := exPairAlone) (by decide) exPairAlone_components (cv := [7, 7, 7]) (by decide)
example : isGraphSimpleCycle exRing 1 [0, 0, 0, 0] [7, 7, 7, 7, 7, 8] = .ok (true, [0, 0, 0, 0, 7, 8]) := by decide
example : isGraphSimpleCycle exPairAlone 2 [0, 1, 0] [7, 7, 7] = .ok (false, [0, 1, 0]) := by decide
example : isGraphSimpleCycle { n := 1, edges := [(0, 0)] } 1 [0] [5] = .ok (true, [0]) := by decide
example : isGraphSimpleCycle { n := 3, edges := [(0, 1), (1, 2)] } 1 [0, 0, 0] [5, 5, 5] = .ok (false, [0, 0, 0]) := by decide
example := (C144_short (g := exRing) 1 [0, 0, 0, 0] (cv := [7, 7, 7]) (by decide)).1 (by decide)
example := (C144_short (g := { n := 2, edges := [] }) 2 [0, 1] (cv := []) (by decide)).2 rfl
example := C144_agrees (g := exRing) (by decide) exRing_components (cv := [7, 7, 7, 7]) (by decide)
/-- The edges of the second graph are a cycle, the graph is not. -/
example : isSimpleCycle exPairAlone (getEdgeVectorOfGraph exPairAlone) = .ok true := by decide +kernel
example := C144_agrees (g := exPairAlone) (by decide) exPairAlone_components (cv := [7, 7, 7]) (by decide)

example := C144_solution_graph (g := exTwo) (root := 0) (order := List.range 13) (by decide) ⟨⟨[1, 2], rfl⟩, by decide, by decide⟩ (by decide) exTriangle_incidence
/-- The tour 3, 4, 5, 3 leaves out the vertices 0, 1 and 2: its solution graph has six vertices and is not a simple cycle. -/
example : getSolutionGraph exTwo ⟨0, []⟩ (List.range 13) (fun e => e == 3 || e == 4 || e == 5) = .ok ⟨6, [(3, 4), (4, 5), (5, 3)]⟩ ∧
    isGraphSimpleCycle ⟨6, [(3, 4), (4, 5), (5, 3)]⟩ 4 [0, 1, 2, 3, 3, 3] (List.replicate 6 0) = .ok (false, [0, 1, 2, 3, 3, 3]) := by decide +kernel

end Pctsp
