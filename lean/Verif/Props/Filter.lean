import Verif.Lemmas.Filter

/-!
# C140: the view of a graph on its marked vertices

`filterMarkedVertices`, include/pctsp/graph.hh 390-423.
-/

namespace Pctsp

/-- **C140, vertices.**  The view keeps the marked vertices (and removes the others), in increasing order. -/
theorem C140_vertices (g : Graph) (mark : List Bool) (hm : g.n ≤ mark.length) :
    ∃ vs, (filterMarkedVertices g mark).vertices = .ok vs ∧ vs.Pairwise (· < ·) ∧ (∀ v, v ∈ vs ↔ v < g.n ∧ mark[v]? = some true) ∧
      (filterMarkedVertices g mark).numVertices = .ok vs.length := by
  have h : (filterMarkedVertices g mark).vertices = .ok ((List.range g.n).filter fun v => mark.getD v false) :=
    filterRes_ok fun v hv => vertexFilter_ok (by have : v < g.n := List.mem_range.1 hv; omega)
  refine ⟨_, h, List.Pairwise.sublist List.filter_sublist List.pairwise_lt_range, ?_, ?_⟩
  · intro v
    simp only [List.mem_filter, List.mem_range, List.getD]
    constructor
    · rintro ⟨h1, h2⟩
      refine ⟨h1, ?_⟩
      cases hx : mark[v]? with
      | none => rw [hx] at h2; simp at h2
      | some b => rw [hx] at h2; simp at h2; rw [h2]
    · rintro ⟨h1, h2⟩
      exact ⟨h1, by rw [h2]; rfl⟩
  · unfold FilteredGraph.numVertices
    rw [h]; rfl

/-- **C140, edges.**  The view has the edges with two marked ends, each as often as the graph and in the same order, although the
predicate of the edges asks for one marked end only. -/
theorem C140_edges (g : Graph) (mark : List Bool) (hg : g.WF) (hm : g.n ≤ mark.length) :
    ∃ es, (filterMarkedVertices g mark).edges = .ok es ∧ es.Sublist g.edges ∧
      (∀ e, mark[e.1]? = some true → mark[e.2]? = some true → es.count e = g.edges.count e) ∧
      (∀ e ∈ es, mark[e.1]? = some true ∧ mark[e.2]? = some true) ∧ (filterMarkedVertices g mark).numEdges = .ok es.length := by
  have h : (filterMarkedVertices g mark).edges = .ok (g.edges.filter fun e => mark.getD e.1 false && mark.getD e.2 false) :=
    filterRes_ok fun e he => keepsEdge_ok (by have := hg e he; omega) (by have := hg e he; omega)
  refine ⟨_, h, List.filter_sublist, ?_, ?_, ?_⟩
  · intro e h1 h2
    exact List.count_filter (by simp [List.getD, h1, h2])
  · intro e he
    have h1 := (List.mem_filter.1 he).2
    simp only [List.getD, Bool.and_eq_true] at h1
    constructor
    · cases hx : mark[e.1]? with
      | none => rw [hx] at h1; simp at h1
      | some b => rw [hx] at h1; simp at h1; rw [h1.1]
    · cases hx : mark[e.2]? with
      | none => rw [hx] at h1; simp at h1
      | some b => rw [hx] at h1; simp at h1; rw [h1.2]
  · unfold FilteredGraph.numEdges
    rw [h]; rfl

/-- **C140, neighbours.**  The neighbours of a vertex in the view are its marked neighbours, each as often as in the
graph. -/
theorem C140_neighbours (g : Graph) (mark : List Bool) (hg : g.WF) (hm : g.n ≤ mark.length) (u : Nat) (hu : u < g.n) :
    ∃ vs, (filterMarkedVertices g mark).adjacent u = .ok vs ∧ vs.Sublist (g.adjacent u) ∧
      (∀ v, v ∈ vs ↔ Adj g u v ∧ mark[v]? = some true) ∧ (∀ v ∈ vs, vs.count v = (g.adjacent u).count v) := by
  refine ⟨_, filtered_adjacent hg hm hu, List.filter_sublist, ?_, ?_⟩
  · intro v
    rw [List.mem_filter, mem_adjacent_iff]
    simp only [List.getD]
    constructor
    · rintro ⟨h1, h2⟩
      refine ⟨h1, ?_⟩
      cases hx : mark[v]? with
      | none => rw [hx] at h2; simp at h2
      | some b => rw [hx] at h2; simp at h2; rw [h2]
    · rintro ⟨h1, h2⟩
      exact ⟨h1, by rw [h2]; rfl⟩
  · intro v hv
    exact List.count_filter (p := fun v => mark.getD v false) (List.mem_filter.1 hv).2

/-- One step of a search in the view. -/
def FilteredGraph.Step (f : FilteredGraph) (u v : Nat) : Prop := ∃ vs, f.adjacent u = .ok vs ∧ v ∈ vs

/-- **C140, searches.**  What a search in the view that starts at a marked vertex can reach is what can be reached in the graph
through marked vertices only. -/
theorem C140_search (g : Graph) (mark : List Bool) (hg : g.WF) (hm : g.n ≤ mark.length) (s t : Nat) (hs : s < g.n)
    (hms : mark[s]? = some true) :
    Relation.ReflTransGen (filterMarkedVertices g mark).Step s t ↔
      ∃ l, IsWalk g (s :: l) ∧ (s :: l).getLast? = some t ∧ ∀ v ∈ s :: l, mark[v]? = some true := by
  have hstep : ∀ u v, u < g.n → ((filterMarkedVertices g mark).Step u v ↔ Adj g u v ∧ mark[v]? = some true) := by
    intro u v hu
    obtain ⟨vs, h1, -, h2, -⟩ := C140_neighbours g mark hg hm u hu
    constructor
    · rintro ⟨ws, h3, h4⟩
      rw [h1] at h3
      cases h3
      exact (h2 v).1 h4
    · intro h; exact ⟨vs, h1, (h2 v).2 h⟩
  constructor
  · intro h
    induction h using Relation.ReflTransGen.head_induction_on with
    | refl => exact ⟨[], by simp [IsWalk, consec], rfl, by simpa using hms⟩
    | @head a b h1 _ ih =>
      have h2 := (hstep a b hs).1 h1
      obtain ⟨l, k1, k2, k3⟩ := ih (adj_lt hg h2.1).2 h2.2
      refine ⟨b :: l, ?_, ?_, ?_⟩
      · intro p hp
        simp only [consec, List.tail_cons, List.zip_cons_cons, List.mem_cons] at hp
        rcases hp with rfl | hp
        · exact h2.1
        · exact k1 p (by simpa [consec] using hp)
      · rw [List.getLast?_cons_cons]; exact k2
      · intro v hv
        rcases List.mem_cons.1 hv with rfl | hv
        · exact hms
        · exact k3 v hv
  · rintro ⟨l, h1, h2, h3⟩
    induction l generalizing s with
    | nil => simp at h2; subst h2; exact .refl
    | cons b l ih =>
      have hab : Adj g s b := h1 (s, b) (by simp [consec])
      refine Relation.ReflTransGen.head ((hstep s b hs).2 ⟨hab, h3 b (by simp)⟩) ?_
      refine ih b (adj_lt hg hab).2 (h3 b (by simp)) ?_ ?_ ?_
      · intro p hp
        exact h1 p (by simp only [consec, List.tail_cons, List.zip_cons_cons, List.mem_cons] at hp ⊢; exact Or.inr hp)
      · rw [List.getLast?_cons_cons] at h2; exact h2
      · intro v hv; exact h3 v (List.mem_cons_of_mem _ hv)

/-- **C140, from outside.**  The view can be asked for the neighbours of a vertex that it does not have, and then it is not
symmetric: the vertex has its marked neighbours, and they do not have it. -/
theorem C140_outside (g : Graph) (mark : List Bool) (hg : g.WF) (hm : g.n ≤ mark.length) (u v : Nat) (hadj : Adj g u v)
    (hu : mark[u]? = some false) (hv : mark[v]? = some true) :
    (filterMarkedVertices g mark).Step u v ∧ ¬ (filterMarkedVertices g mark).Step v u ∧
      ∀ vs, (filterMarkedVertices g mark).vertices = .ok vs → u ∉ vs ∧ v ∈ vs := by
  obtain ⟨hun, hvn⟩ := adj_lt hg hadj
  obtain ⟨us, h1, -, h2, -⟩ := C140_neighbours g mark hg hm u hun
  obtain ⟨ws, h3, -, h4, -⟩ := C140_neighbours g mark hg hm v hvn
  refine ⟨⟨us, h1, (h2 v).2 ⟨hadj, hv⟩⟩, ?_, ?_⟩
  · rintro ⟨ws', k1, k2⟩
    rw [h3] at k1
    cases k1
    have := ((h4 u).1 k2).2
    rw [hu] at this; cases this
  · intro vs hvs
    obtain ⟨xs, k1, -, k2, -⟩ := C140_vertices g mark hm
    rw [k1] at hvs
    cases hvs
    refine ⟨fun h => ?_, (k2 v).2 ⟨hvn, hv⟩⟩
    have := ((k2 u).1 h).2
    rw [hu] at this; cases this

/-- **C140, too few marks.**  If there are fewer marks than vertices, going through the vertices of the view is undefined; so
is asking for the neighbours of a marked vertex with a neighbour without a mark. -/
theorem C140_too_few (g : Graph) (mark : List Bool) (hm : mark.length < g.n) :
    (∃ w, (filterMarkedVertices g mark).vertices = .ub w) ∧
      ∀ u v, u < g.n → mark[u]? = some true → Adj g u v → mark[v]? = none → ∃ w, (filterMarkedVertices g mark).adjacent u = .ub w := by
  have hthrow : ∀ u e, vertexFilter mark u ≠ .throw e := by
    intro u e; unfold vertexFilter; split <;> simp
  constructor
  · apply filterRes_ub
    · intro a _ e; exact hthrow a e
    · refine ⟨mark.length, List.mem_range.2 hm, "is_vertex_filtered: out of bounds", ?_⟩
      show vertexFilter mark mark.length = _
      unfold vertexFilter
      simp
  · intro u v hu hmu hadj hv
    have hout : ∀ x, (filterMarkedVertices g mark).keepsOutEdge (u, x) = vertexFilter mark x := by
      intro x
      unfold FilteredGraph.keepsOutEdge filterMarkedVertices edgeFilter
      have : vertexFilter mark u = .ok true := by unfold vertexFilter; rw [hmu]
      simp only [this]
      rfl
    have h2 : ∃ w, filterRes (filterMarkedVertices g mark).keepsOutEdge ((g.adjacent u).map fun v => (u, v)) = .ub w := by
      apply filterRes_ub
      · intro a ha e
        obtain ⟨x, -, rfl⟩ := List.mem_map.1 ha
        rw [hout]; exact hthrow x e
      · refine ⟨(u, v), List.mem_map.2 ⟨v, mem_adjacent_iff.2 hadj, rfl⟩, "is_vertex_filtered: out of bounds", ?_⟩
        rw [hout]; unfold vertexFilter; rw [hv]
    obtain ⟨w, hw⟩ := h2
    refine ⟨w, ?_⟩
    unfold FilteredGraph.adjacent FilteredGraph.outEdges Graph.adjacentVertices
    have h1 : (filterMarkedVertices g mark).graph = g := rfl
    rw [h1, if_pos hu]
    show Res.bind (Res.bind (.ok _) _) _ = _
    simp only [Res.bind]
    rw [hw]

/-- A path of five vertices with a parallel edge and a self-loop; 0, 1 and 4 are marked. -/
def exFilterGraph : Graph := { n := 5, edges := [(0, 1), (1, 2), (2, 4), (3, 4), (1, 0), (0, 0), (0, 3)] }

/-- The marks of the examples. -/
def exFilterMarks : List Bool := [true, true, false, false, true]

example : (filterMarkedVertices exFilterGraph exFilterMarks).vertices = .ok [0, 1, 4] := by decide
example : (filterMarkedVertices exFilterGraph exFilterMarks).edges = .ok [(0, 1), (1, 0), (0, 0)] := by decide
example : (filterMarkedVertices exFilterGraph exFilterMarks).adjacent 0 = .ok [1, 1, 0, 0] := by decide
example : ∃ vs, (filterMarkedVertices exFilterGraph exFilterMarks).vertices = .ok vs ∧ 4 ∈ vs ∧ 2 ∉ vs := by
  obtain ⟨vs, h1, -, h2, -⟩ := C140_vertices exFilterGraph exFilterMarks (by decide)
  exact ⟨vs, h1, (h2 4).2 (by decide), fun h => absurd ((h2 2).1 h) (by decide)⟩
example : ∃ es, (filterMarkedVertices exFilterGraph exFilterMarks).edges = .ok es ∧ es.count (1, 0) = 1 := by
  obtain ⟨es, h1, -, h2, -⟩ := C140_edges exFilterGraph exFilterMarks (by decide) (by decide)
  exact ⟨es, h1, by rw [h2 _ (by decide) (by decide)]; decide⟩
example : ∃ vs, (filterMarkedVertices exFilterGraph exFilterMarks).adjacent 1 = .ok vs ∧ 0 ∈ vs := by
  obtain ⟨vs, h1, -, h2, -⟩ := C140_neighbours exFilterGraph exFilterMarks (by decide) (by decide) 1 (by decide)
  exact ⟨vs, h1, (h2 0).2 (by decide)⟩
/-- 1 is reached from 0. -/
example : Relation.ReflTransGen (filterMarkedVertices exFilterGraph exFilterMarks).Step 0 1 :=
  (C140_search exFilterGraph exFilterMarks (by decide) (by decide) 0 1 (by decide) (by decide)).2 ⟨[1], by decide, by decide, by decide⟩
example : (filterMarkedVertices exFilterGraph exFilterMarks).Step 2 4 ∧ ¬ (filterMarkedVertices exFilterGraph exFilterMarks).Step 4 2 := by
  obtain ⟨h1, h2, -⟩ := C140_outside exFilterGraph exFilterMarks (by decide) (by decide) 2 4 (by decide) (by decide) (by decide)
  exact ⟨h1, h2⟩
example : ∃ w, (filterMarkedVertices exFilterGraph [true, true, true]).adjacent 0 = .ub w :=
  (C140_too_few exFilterGraph [true, true, true] (by decide)).2 0 3 (by decide) (by decide) (by decide) (by decide)

end Pctsp
