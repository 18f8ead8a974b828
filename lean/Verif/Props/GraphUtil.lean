import Verif.Lemmas.GraphUtil

/-!
# Properties C28, C29, C31, C46: components, self-loops and edges of vertex sets
-/

namespace Pctsp

/-- **C28.** If every vertex has a label below `m`, the result has `m` vectors, and vector `c` lists the vertices with label `c` in
increasing order; so every vertex is in exactly one vector, once.  Any other labelling is undefined behaviour. -/
theorem C28_component_vectors (n m : Nat) (ids : List Nat) (h : ∀ v < n, ∃ c, ids[v]? = some c ∧ c < m) :
    ∃ vecs, getConnectedComponentsVectors n m ids = .ok vecs ∧ vecs.length = m ∧
      (∀ c vec, vecs[c]? = some vec → vec.Pairwise (· < ·) ∧ ∀ v, v ∈ vec ↔ v < n ∧ ids[v]? = some c) ∧
      (∀ v < n, ∃! c : Nat, ∃ vec, vecs[c]? = some vec ∧ v ∈ vec) ∧
      vecs.flatten.Perm (List.range n) := by
  refine ⟨_, getConnectedComponentsVectors_ok h, by simp, ?_, ?_, ?_⟩
  · intro c vec hc
    simp only [List.getElem?_map, Option.map_eq_some_iff] at hc
    obtain ⟨d, hd, rfl⟩ := hc
    have : d = c := by
      rw [List.getElem?_eq_some_iff] at hd
      obtain ⟨_, h⟩ := hd
      simpa using h.symm
    subst this
    exact ⟨List.Pairwise.filter _ List.pairwise_lt_range, fun v => by simp⟩
  · intro v hv
    obtain ⟨c, hc, hcm⟩ := h v hv
    refine ⟨c, ⟨_, by simp [List.getElem?_range hcm]; rfl, by simp [hv, hc]⟩, ?_⟩
    rintro d ⟨vec, hd, hm⟩
    simp only [List.getElem?_map, Option.map_eq_some_iff] at hd
    obtain ⟨d', hd', rfl⟩ := hd
    have : d' = d := by
      rw [List.getElem?_eq_some_iff] at hd'
      obtain ⟨_, h⟩ := hd'
      simpa using h.symm
    subst this
    simp only [List.mem_filter, hc, beq_iff_eq, Option.some.injEq] at hm
    exact hm.2.symm
  · refine (List.perm_ext_iff_of_nodup ?_ List.nodup_range).2 ?_
    · rw [List.nodup_flatten]
      refine ⟨?_, ?_⟩
      · intro l hl
        obtain ⟨c, _, rfl⟩ := List.mem_map.1 hl
        exact List.nodup_range.filter _
      · rw [List.pairwise_map]
        refine List.pairwise_lt_range.imp ?_
        intro c d hcd v hv hv'
        simp only [List.mem_filter, beq_iff_eq] at hv hv'
        rw [hv.2] at hv'
        have := hv'.2
        simp only [Option.some.injEq] at this
        omega
    · intro v
      simp only [List.mem_flatten, List.mem_map, List.mem_range, exists_exists_and_eq_and, List.mem_filter, beq_iff_eq]
      constructor
      · rintro ⟨_, _, h, _⟩; exact h
      · intro hv
        obtain ⟨c, hc, hcm⟩ := h v hv
        exact ⟨c, hcm, hv, hc⟩

example := C28_component_vectors 4 2 [0, 1, 1, 0] (fun v hv => by
  match v, hv with
  | 0, _ => exact ⟨0, rfl, by decide⟩
  | 1, _ => exact ⟨1, rfl, by decide⟩
  | 2, _ => exact ⟨1, rfl, by decide⟩
  | 3, _ => exact ⟨0, rfl, by decide⟩)

/-- **C28.** The precondition is needed: without it an index is out of bounds. -/
theorem C28_bad_labels (n m : Nat) (ids : List Nat) (h : ¬ ∀ v < n, ∃ c, ids[v]? = some c ∧ c < m) :
    (getConnectedComponentsVectors n m ids).isUb = true := getConnectedComponentsVectors_ub h

example : getConnectedComponentsVectors 5 3 [0, 2, 0, 1, 2] = .ok [[0, 2], [3], [1, 4]] := by decide +kernel
example : ∀ v < 5, ∃ c, [0, 2, 0, 1, 2][v]? = some c ∧ c < 3 := by decide
example : ¬ ∀ v < 5, ∃ c, [0, 2, 0, 3, 2][v]? = some c ∧ c < 3 := by decide

/-- The components with at least two vertices. -/
def nonSingular {α : Type} (comps : List (List α)) : List (List α) := comps.filter fun c => decide (2 ≤ c.length)

/-- **C29.** The function is meant to return the components with at least two vertices; it can return another list. -/
theorem C29_wrong_components :
    ∃ comps : List (List Nat), ∃ r, getNonSingularConnectedComponentVectors comps = .ok r ∧ r ≠ nonSingular comps ∧ [0] ∈ r ∧ [1, 2] ∉ r :=
  ⟨[[0], [1, 2]], [[0]], by decide +kernel, by decide, by decide, by decide⟩

/-- **C29.** Whenever a component with one vertex (or none) precedes one with two, the result is wrong. -/
theorem C29_wrong_after_singular {α : Type} (pre : List (List α)) (c : List α) (post : List (List α)) (hc : c.length < 2)
    (hpost : ∃ d ∈ post, 2 ≤ d.length) (r : List (List α))
    (h : getNonSingularConnectedComponentVectors (pre ++ c :: post) = .ok r) : r ≠ nonSingular (pre ++ c :: post) := by
  rw [getNonSingular_eq] at h
  cases h
  intro heq
  have hnc : decide (1 < c.length) = false := by simp; omega
  have hfun : (fun c : List α => decide (2 ≤ c.length)) = fun c => decide (1 < c.length) := by funext c; rfl
  -- the number of non-singular components before `c`, at most `pre.length`
  have hall : ∀ l ∈ nonSingular (pre ++ c :: post), 2 ≤ l.length := by
    intro l hl; simpa using (List.mem_filter.1 hl).2
  rw [← heq] at hall
  -- all of the first `m` components are non-singular, hence `m ≤ pre.length`
  by_cases hm : pre.length < (pre ++ c :: post).countP (fun c => decide (1 < c.length))
  · have : c ∈ (pre ++ c :: post).take ((pre ++ c :: post).countP fun c => decide (1 < c.length)) := by
      rw [List.mem_take_iff_getElem]
      exact ⟨pre.length, by rw [Nat.lt_min]; exact ⟨hm, by simp⟩, by simp⟩
    have := hall c this
    omega
  · have h1 : ∀ l ∈ pre.take ((pre ++ c :: post).countP fun c => decide (1 < c.length)), 2 ≤ l.length := by
      intro l hl
      refine hall l ?_
      rw [List.take_append_of_le_length (by omega)]
      exact hl
    have h2 : pre.countP (fun c => decide (1 < c.length)) ≥ (pre ++ c :: post).countP (fun c => decide (1 < c.length)) := by
      have e1 : (pre.take ((pre ++ c :: post).countP fun c => decide (1 < c.length))).countP (fun c => decide (1 < c.length)) =
          (pre ++ c :: post).countP fun c => decide (1 < c.length) := by
        rw [List.countP_eq_length.2 (by intro l hl; have := h1 l hl; simp; omega), List.length_take]
        omega
      calc _ = _ := e1.symm
        _ ≤ _ := List.Sublist.countP_le (List.take_sublist _ _)
    rw [List.countP_append, List.countP_cons, hnc] at h2
    obtain ⟨d, hd, hd2⟩ := hpost
    have : 0 < post.countP (fun c => decide (1 < c.length)) := List.countP_pos_iff.2 ⟨d, hd, by simp; omega⟩
    simp at h2
    omega

example := C29_wrong_after_singular [[1, 2]] [3] [[4, 5]] (by decide) ⟨_, List.mem_cons_self, by decide⟩ _ rfl

/-- **C29.** The function never fails; the result is right iff no component with fewer than two vertices precedes one with two. -/
theorem C29_right_iff {α : Type} (comps : List (List α)) :
    ∃ r, getNonSingularConnectedComponentVectors comps = .ok r ∧ r <+: comps ∧ r.length = (nonSingular comps).length ∧
      (r = nonSingular comps ↔ ¬ ∃ pre c post, comps = pre ++ c :: post ∧ c.length < 2 ∧ ∃ d ∈ post, 2 ≤ d.length) := by
  have hlen : (nonSingular comps).length = comps.countP fun c => decide (1 < c.length) := by
    rw [nonSingular, ← List.countP_eq_length_filter]; rfl
  refine ⟨_, getNonSingular_eq comps, List.take_prefix _ _, ?_, ?_⟩
  · rw [List.length_take, hlen]
    exact Nat.min_eq_left List.countP_le_length
  · constructor
    · rintro heq ⟨pre, c, post, rfl, hc, hpost⟩
      exact C29_wrong_after_singular pre c post hc hpost _ (getNonSingular_eq _) heq
    · intro hno
      clear hlen
      induction comps with
      | nil => rfl
      | cons c cs ih =>
        have hno' : ¬ ∃ pre c post, cs = pre ++ c :: post ∧ c.length < 2 ∧ ∃ d ∈ post, 2 ≤ d.length := by
          rintro ⟨pre, d, post, rfl, h⟩
          exact hno ⟨c :: pre, d, post, rfl, h⟩
        have ih := ih hno'
        by_cases hc : 2 ≤ c.length
        · have hc' : decide (1 < c.length) = true := by simp; omega
          rw [List.countP_cons, hc', nonSingular, List.filter_cons]
          simp only [if_true, hc, decide_true, List.take_succ_cons]
          rw [ih, nonSingular]
        · have hz : cs.countP (fun c => decide (1 < c.length)) = 0 := by
            rw [List.countP_eq_zero]
            intro d hd hd2
            exact hno ⟨[], c, cs, rfl, by omega, d, hd, by simp at hd2; omega⟩
          have hc' : decide (1 < c.length) = false := by simp; omega
          rw [List.countP_cons, hc', hz, nonSingular, List.filter_cons]
          simp only [hc, decide_false, Bool.false_eq_true, if_false, Nat.add_zero, List.take_zero]
          symm
          rw [List.filter_eq_nil_iff]
          intro d hd hd2
          exact hno ⟨[], c, cs, rfl, by omega, d, hd, by simp at hd2; omega⟩

example : getNonSingularConnectedComponentVectors [[0, 1], [2, 3, 4], [5], [6]] = .ok [[0, 1], [2, 3, 4]] := by decide +kernel
example : nonSingular [[0, 1], [2, 3, 4], [5], [6]] = [[0, 1], [2, 3, 4]] := by decide

/-- **C31.** A graph without self-loops gets exactly one self-loop per vertex, with cost 0; vertices, other edges (with their descriptors)
and their costs are unchanged; and preparing the graph again changes nothing. -/
theorem C31_self_loops (g : Graph) (cost : Nat → Int) (hg : g.WF) (hno : ∀ e ∈ g.edges, e.1 ≠ e.2) :
    ∃ g' cost', ensureSelfLoops g cost = (g', cost') ∧ g'.n = g.n ∧ g'.WF ∧ g.edges <+: g'.edges ∧
      (∀ v < g.n, g'.edges.count (v, v) = 1) ∧ (∀ i p, g'.edges[i]? = some p → p.1 ≠ p.2 → i < g.edges.length) ∧
      (∀ i < g.edges.length, cost' i = cost i) ∧ (∀ i v, g'.edges[i]? = some (v, v) → cost' i = 0) ∧
      hasSelfLoopsOnAllVertices g' = true ∧ ∀ cost'', ensureSelfLoops g' cost'' = (g', cost'') := by
  have hnot : ∀ v, (v, v) ∉ g.edges := fun v hv => hno _ hv rfl
  have hall : hasSelfLoopsOnAllVertices (addSelfLoopsToGraph g cost).1 = true := by
    rw [hasSelfLoops_iff, addSelfLoops_eq]; intro v hv; simp at hv; simp [hv]
  by_cases hn : hasSelfLoopsOnAllVertices g = true
  · -- only possible without vertices
    have hz : g.n = 0 := by
      by_contra h
      exact hnot 0 ((hasSelfLoops_iff g).1 hn 0 (by omega))
    refine ⟨g, cost, by simp [ensureSelfLoops, hn], rfl, hg, List.prefix_refl _, by simp [hz], ?_, by simp, ?_, hn, fun _ => by simp [ensureSelfLoops, hn]⟩
    · intro i p hi _; exact (List.getElem?_eq_some_iff.1 hi).1
    · intro i v hi; exact absurd (List.mem_of_getElem? hi) (hnot v)
  · refine ⟨(addSelfLoopsToGraph g cost).1, assignZeroCostToSelfLoops (addSelfLoopsToGraph g cost).1 (addSelfLoopsToGraph g cost).2,
      by simp [ensureSelfLoops, hn], ?_, ?_, ?_, ?_, ?_, ?_, ?_, hall, fun _ => by simp [ensureSelfLoops, hall]⟩
    · rw [addSelfLoops_eq]
    · rw [addSelfLoops_eq]
      intro e he
      simp only [List.mem_append, List.mem_map, List.mem_range] at he
      rcases he with he | ⟨v, hv, rfl⟩
      · exact hg e he
      · exact ⟨hv, hv⟩
    · rw [addSelfLoops_eq]; exact List.prefix_append _ _
    · intro v hv
      rw [addSelfLoops_eq]
      simp only [List.count_append, List.count_eq_zero.2 (hnot v), Nat.zero_add]
      rw [count_loops, if_pos hv]
    · intro i p hi hp
      rw [addSelfLoops_eq] at hi
      by_contra hlt
      rw [List.getElem?_append_right (by omega), List.getElem?_map, Option.map_eq_some_iff] at hi
      obtain ⟨v, _, rfl⟩ := hi
      exact hp rfl
    · intro i hi
      rw [assignZero_eq, if_neg, addSelfLoops_eq]
      · simp only; rw [if_neg (by omega)]
      · rintro ⟨v, hv, h⟩
        rw [addSelfLoops_eq] at h
        have := edgeIdx_eq_some h
        rw [or_self, List.getElem?_append_left hi] at this
        exact hnot v (List.mem_of_getElem? this)
    · intro i v hi
      rw [assignZero_eq]
      split
      · rfl
      · rw [addSelfLoops_eq] at hi ⊢
        simp only
        have hlt : i < g.edges.length + g.n := by
          have := (List.getElem?_eq_some_iff.1 hi).1
          simpa using this
        have hge : g.edges.length ≤ i := by
          by_contra hlt'
          rw [List.getElem?_append_left (by omega)] at hi
          exact hnot v (List.mem_of_getElem? hi)
        rw [if_pos ⟨hge, hlt⟩]

example := C31_self_loops { n := 3, edges := [(0, 1), (1, 2), (2, 0)] } (fun e => e + 1) (by decide) (by decide)

/-- **C31.** If some but not all vertices have a self-loop, every vertex that had a self-loop ends with one more, so with at least two. -/
theorem C31_partial_loops_doubled (g : Graph) (cost : Nat → Int) (u v : Nat) (hu : u < g.n) (hu' : (u, u) ∉ g.edges) (hv : v < g.n)
    (hv' : (v, v) ∈ g.edges) :
    (ensureSelfLoops g cost).1.edges.count (v, v) = g.edges.count (v, v) + 1 ∧ 2 ≤ (ensureSelfLoops g cost).1.edges.count (v, v) := by
  have hn : ¬ hasSelfLoopsOnAllVertices g = true := fun h => hu' ((hasSelfLoops_iff g).1 h u hu)
  have h1 : (ensureSelfLoops g cost).1.edges.count (v, v) = g.edges.count (v, v) + 1 := by
    simp only [ensureSelfLoops, hn]
    rw [addSelfLoops_eq]
    simp only [Bool.false_eq_true, if_false, List.count_append]
    rw [count_loops, if_pos hv]
  refine ⟨h1, ?_⟩
  have : 0 < g.edges.count (v, v) := List.count_pos_iff.2 hv'
  omega

example := C31_partial_loops_doubled { n := 3, edges := [(0, 1), (1, 2), (2, 0), (1, 1)] } (fun e => e + 1) 0 1 (by decide) (by decide) (by decide) (by decide)

/-- **C31.** The weights of the prize row: the (first) self-loop of a vertex carries its prize, every other edge carries 0. -/
theorem C31_prize_weights (g : Graph) (prize : Nat → Int) (i : Nat) (p : Nat × Nat) (hi : g.edges[i]? = some p) :
    (p.1 ≠ p.2 → putPrizeOntoEdgeWeights g prize i = 0) ∧
    (∀ v, p = (v, v) → g.edges.count (v, v) = 1 → putPrizeOntoEdgeWeights g prize i = prize v) := by
  rw [putPrize_eq g prize hi]
  refine ⟨fun h => by simp [h], ?_⟩
  rintro v rfl h1
  rw [if_pos ⟨rfl, edgeIdx_loop_of_count_one hi (Nat.le_of_eq h1)⟩]

example : (ensureSelfLoops ⟨3, [(0, 1), (1, 2)]⟩ (fun _ => 5)).1 = ⟨3, [(0, 1), (1, 2), (0, 0), (1, 1), (2, 2)]⟩ := by decide +kernel
example : (ensureSelfLoops ⟨2, [(0, 0), (0, 1)]⟩ (fun _ => 5)).1.edges.count (0, 0) = 2 := by decide +kernel
example : putPrizeOntoEdgeWeights ⟨2, [(0, 1), (0, 0), (1, 1)]⟩ (fun v => 10 + v) 2 = 11 := by decide +kernel

/-- **C46.** `getVerticesOfEdges`: the end points of the edges, strictly increasing. -/
theorem C46_vertices_of_edges (g : Graph) (es : List Nat) (he : ∀ e ∈ es, e < g.edges.length) :
    ∃ vs, getVerticesOfEdges g es = .ok vs ∧ vs.Pairwise (· < ·) ∧
      ∀ v, v ∈ vs ↔ ∃ e ∈ es, ∃ p, g.edges[e]? = some p ∧ (v = p.1 ∨ v = p.2) := by
  obtain ⟨r, h1, h2, h3⟩ := verticesOfEdgesLoop_ok g es [] List.Pairwise.nil he
  exact ⟨r, h1, h2, fun v => by rw [h3]; simp⟩

example := C46_vertices_of_edges { n := 5, edges := [(0, 1), (1, 2), (2, 0), (4, 2)] } [3, 0] (by decide)

/-- **C46.** `getSelfLoops` returns a self-loop of each vertex, in order, if all of them have one. -/
theorem C46_self_loops (g : Graph) (vs : List Nat) (h : ∀ v ∈ vs, v < g.n ∧ (v, v) ∈ g.edges) :
    ∃ es, getSelfLoops g vs = .ok es ∧ List.Forall₂ (fun v e => g.edges[e]? = some (v, v)) vs es := by
  have : ∃ es, List.Forall₂ (fun v e => v < g.n ∧ g.edgeIdx v v = some e) vs es := by
    induction vs with
    | nil => exact ⟨[], .nil⟩
    | cons v vs ih =>
      obtain ⟨es, hes⟩ := ih (fun w hw => h w (by simp [hw]))
      obtain ⟨hv, hm⟩ := h v (by simp)
      obtain ⟨e, he⟩ := Option.isSome_iff_exists.1 (edgeIdx_isSome_iff.2 (Or.inl hm : Adj g v v))
      exact ⟨e :: es, .cons ⟨hv, he⟩ hes⟩
  obtain ⟨es, hes⟩ := this
  refine ⟨es, getSelfLoops_ok.2 hes, hes.imp ?_⟩
  rintro v e ⟨_, h⟩
  rcases edgeIdx_eq_some h with h | h <;> exact h

example := C46_self_loops { n := 3, edges := [(0, 1), (1, 1), (2, 0), (2, 2)] } [2, 1] (by decide)

/-- **C46.** The first vertex without a self-loop is reported by an exception. -/
theorem C46_self_loop_missing (g : Graph) (pre : List Nat) (v : Nat) (post : List Nat) (hpre : ∀ u ∈ pre, u < g.n ∧ (u, u) ∈ g.edges)
    (hv : v < g.n) (hn : (v, v) ∉ g.edges) : getSelfLoops g (pre ++ v :: post) = .throw (.noSelfLoopFound v) :=
  getSelfLoops_throw pre v post (fun u hu => ⟨(hpre u hu).1, Or.inl (hpre u hu).2⟩) hv (by simpa [Adj] using hn)

example := C46_self_loop_missing { n := 3, edges := [(0, 1), (1, 1), (2, 0), (2, 2)] } [2, 1] 0 [1] (by decide) (by decide) (by decide)

/-- **C46.** `getEdgesInducedByVertices` on a list of distinct vertices of a graph without parallel edges: exactly the edges between two
different vertices of the list, each once. -/
theorem C46_induced_edges (g : Graph) (vs : List Nat) (h : ∀ v ∈ vs, v < g.n) (hnd : vs.Nodup)
    (hsimple : ∀ i j u v : Nat, u ≠ v → (g.edges[i]? = some (u, v) ∨ g.edges[i]? = some (v, u)) →
      (g.edges[j]? = some (u, v) ∨ g.edges[j]? = some (v, u)) → i = j) :
    ∃ es, getEdgesInducedByVertices g vs = .ok es ∧ es.Nodup ∧
      ∀ e, e ∈ es ↔ ∃ u v, g.edges[e]? = some (u, v) ∧ u ≠ v ∧ u ∈ vs ∧ v ∈ vs := by
  refine ⟨_, getEdgesInduced_ok vs h, ?_, ?_⟩
  · induction vs with
    | nil => exact List.Pairwise.nil
    | cons u vs ih =>
      rw [List.nodup_cons] at hnd
      simp only [orderedPairs, List.filterMap_append, List.filterMap_map]
      rw [List.nodup_append]
      refine ⟨?_, ih (fun v hv => h v (by simp [hv])) hnd.2, ?_⟩
      · have hp : vs.Pairwise (· ≠ ·) := hnd.2
        refine (List.Pairwise.filterMap (S := (· ≠ ·)) _ ?_ hp)
        rintro a b hab i hi j hj rfl
        simp only [Function.comp_apply] at hi hj
        have h1 := edgeIdx_eq_some hi
        have h2 := edgeIdx_eq_some hj
        rcases h1 with h1 | h1 <;> rcases h2 with h2 | h2 <;> rw [h1] at h2 <;>
          simp only [Option.some.injEq, Prod.mk.injEq] at h2 <;> omega
      · rintro i hi j hj rfl
        obtain ⟨a, ha, hi⟩ := List.mem_filterMap.1 hi
        obtain ⟨⟨b, c⟩, hbc, hj⟩ := List.mem_filterMap.1 hj
        have hmem : ∀ (l : List Nat) (p : Nat × Nat), p ∈ orderedPairs l → p.1 ∈ l ∧ p.2 ∈ l := by
          intro l
          induction l with
          | nil => simp [orderedPairs]
          | cons a l ih =>
            intro p hp
            simp only [orderedPairs, List.mem_append, List.mem_map] at hp
            rcases hp with ⟨b, hb, rfl⟩ | hp
            · exact ⟨by simp, by simp [hb]⟩
            · exact ⟨by simp [(ih p hp).1], by simp [(ih p hp).2]⟩
        obtain ⟨hb, hc⟩ := hmem _ _ hbc
        simp only [Function.comp_apply] at hi hj hb hc
        have h1 := edgeIdx_eq_some hi
        have h2 := edgeIdx_eq_some hj
        have hub : u ≠ b := fun e => hnd.1 (e ▸ hb)
        have huc : u ≠ c := fun e => hnd.1 (e ▸ hc)
        rcases h1 with h1 | h1 <;> rcases h2 with h2 | h2 <;> rw [h1] at h2 <;>
          simp only [Option.some.injEq, Prod.mk.injEq] at h2 <;> omega
  · intro e
    have hpair : ∀ (l : List Nat), l.Nodup → ∀ u v, u ∈ l → v ∈ l → u ≠ v → (u, v) ∈ orderedPairs l ∨ (v, u) ∈ orderedPairs l := by
      intro l
      induction l with
      | nil => simp
      | cons a l ih =>
        intro hnd u v hu hv huv
        rw [List.nodup_cons] at hnd
        simp only [orderedPairs, List.mem_append, List.mem_map, Prod.mk.injEq]
        rcases List.mem_cons.1 hu with hu | hu <;> rcases List.mem_cons.1 hv with hv | hv
        · omega
        · exact Or.inl (Or.inl ⟨v, hv, hu.symm, rfl⟩)
        · exact Or.inr (Or.inl ⟨u, hu, hv.symm, rfl⟩)
        · rcases ih hnd.2 u v hu hv huv with h | h
          · exact Or.inl (Or.inr h)
          · exact Or.inr (Or.inr h)
    have hmem : ∀ (l : List Nat), l.Nodup → ∀ p : Nat × Nat, p ∈ orderedPairs l → p.1 ∈ l ∧ p.2 ∈ l ∧ p.1 ≠ p.2 := by
      intro l
      induction l with
      | nil => simp [orderedPairs]
      | cons a l ih =>
        intro hnd p hp
        rw [List.nodup_cons] at hnd
        simp only [orderedPairs, List.mem_append, List.mem_map] at hp
        rcases hp with ⟨b, hb, rfl⟩ | hp
        · exact ⟨by simp, by simp [hb], fun e => hnd.1 (by simp only at e; rw [e]; exact hb)⟩
        · obtain ⟨h1, h2, h3⟩ := ih hnd.2 p hp
          exact ⟨by simp [h1], by simp [h2], h3⟩
    rw [List.mem_filterMap]
    constructor
    · rintro ⟨⟨a, b⟩, hab, he⟩
      obtain ⟨h1, h2, h3⟩ := hmem vs hnd _ hab
      simp only at he h1 h2 h3
      rcases edgeIdx_eq_some he with h | h
      · exact ⟨a, b, h, h3, h1, h2⟩
      · exact ⟨b, a, h, h3.symm, h2, h1⟩
    · rintro ⟨u, v, he, huv, hu, hv⟩
      have hadj : Adj g u v := Or.inl (List.mem_of_getElem? he)
      obtain ⟨i, hi⟩ := Option.isSome_iff_exists.1 (edgeIdx_isSome_iff.2 hadj)
      have : i = e := hsimple i e u v huv (edgeIdx_eq_some hi) (Or.inl he)
      subst this
      rcases hpair vs hnd u v hu hv huv with h | h
      · exact ⟨_, h, hi⟩
      · exact ⟨_, h, by simp only; rw [edgeIdx_comm]; exact hi⟩

example := C46_induced_edges { n := 4, edges := [(0, 1), (1, 2), (2, 0), (3, 3)] } [2, 3, 1] (by decide) (by decide) (by
  have key : ∀ (k : Nat) (p : Nat × Nat), [(0, 1), (1, 2), (2, 0), (3, 3)][k]? = some p →
      k = 0 ∧ p = (0, 1) ∨ k = 1 ∧ p = (1, 2) ∨ k = 2 ∧ p = (2, 0) ∨ k = 3 ∧ p = (3, 3) := by
    intro k p h
    match k, h with
    | 0, h | 1, h | 2, h | 3, h => simpa using h.symm
    | k + 4, h => simp at h
  intro i j u v hne hi hj
  have hi := hi.imp (key _ _) (key _ _)
  have hj := hj.imp (key _ _) (key _ _)
  simp only [Prod.mk.injEq] at hi hj
  omega)

/-- **C46.** In general (parallel edges, repeated vertices) there is one entry for each pair of positions `i < j` whose vertices are joined,
and it is the first inserted edge between them. -/
theorem C46_induced_edges_positions (g : Graph) (vs : List Nat) (h : ∀ v ∈ vs, v < g.n) :
    ∃ es, getEdgesInducedByVertices g vs = .ok es ∧
      es.map some = (((List.range vs.length).flatMap fun i => ((List.range vs.length).filter (i < ·)).map fun j =>
        (vs[i]?.bind fun u => vs[j]?.bind fun v => g.edges.findIdx? fun e => decide (e = (u, v) ∨ e = (v, u)))).filter Option.isSome) := by
  refine ⟨_, getEdgesInduced_ok vs h, ?_⟩
  have hp : (orderedPairs vs).map (fun p => g.edgeIdx p.1 p.2) = (List.range vs.length).flatMap fun i =>
      ((List.range vs.length).filter (i < ·)).map fun j =>
        (vs[i]?.bind fun u => vs[j]?.bind fun v => g.edges.findIdx? fun e => decide (e = (u, v) ∨ e = (v, u))) := by
    clear h
    induction vs with
    | nil => rfl
    | cons u vs ih =>
      rw [orderedPairs, List.map_append, ih, List.length_cons, List.range_succ_eq_map, List.flatMap_cons, List.flatMap_map]
      congr 1
      · simp only [List.map_map, Function.comp_def, Graph.edgeIdx, joins_eq]
        rw [List.filter_cons, List.filter_map]
        simp only [Nat.lt_irrefl, decide_false, Bool.false_eq_true, if_false, List.map_map]
        rw [List.filter_eq_self.2 (by intro a _; simp)]
        refine List.ext_getElem? ?_
        intro k
        by_cases hk : k < vs.length
        · simp [hk]
        · simp [Nat.not_lt.1 hk]
      · refine List.flatMap_congr ?_
        intro i _
        rw [List.filter_cons, if_neg (by simp), List.filter_map, List.map_map]
        have : ((fun x => decide (i.succ < x)) ∘ Nat.succ) = fun x => decide (i < x) := by funext x; simp
        rw [this]
        refine List.map_congr_left ?_
        intro j _
        simp
  rw [← hp]
  generalize orderedPairs vs = l
  induction l with
  | nil => rfl
  | cons p l ih =>
    cases h : g.edgeIdx p.1 p.2 <;> simp [h, ih]

example := C46_induced_edges_positions { n := 4, edges := [(0, 1), (1, 2), (2, 0), (3, 3)] } [2, 3, 1] (by decide)

/-- **C46.** `edgesFromVertexPairs` finds an edge for every pair, in order, or throws for the first pair that is not joined. -/
theorem C46_edges_from_pairs (g : Graph) (hg : g.WF) (ps : List (Nat × Nat)) (h : ∀ p ∈ ps, Adj g p.1 p.2) :
    ∃ es, edgesFromVertexPairs g ps = .ok es ∧ List.Forall₂ (fun p e => g.edges[e]? = some p ∨ g.edges[e]? = some (p.2, p.1)) ps es := by
  have : ∃ es, List.Forall₂ (fun (p : Nat × Nat) e => p.1 < g.n ∧ g.edgeIdx p.1 p.2 = some e) ps es := by
    induction ps with
    | nil => exact ⟨[], .nil⟩
    | cons p ps ih =>
      obtain ⟨es, hes⟩ := ih (fun w hw => h w (by simp [hw]))
      have ha := h p (by simp)
      obtain ⟨e, he⟩ := Option.isSome_iff_exists.1 (edgeIdx_isSome_iff.2 ha)
      exact ⟨e :: es, .cons ⟨ha.lt_left hg, he⟩ hes⟩
  obtain ⟨es, hes⟩ := this
  exact ⟨es, edgesFromVertexPairs_ok.2 hes, hes.imp fun p e h => edgeIdx_eq_some h.2⟩

example := C46_edges_from_pairs { n := 4, edges := [(0, 1), (1, 2), (2, 0), (3, 3)] } (by decide) [(1, 0), (3, 3)] (by decide)

/-- **C46.** The exception of `edgesFromVertexPairs`. -/
theorem C46_edges_from_pairs_missing (g : Graph) (hg : g.WF) (pre : List (Nat × Nat)) (p : Nat × Nat) (post : List (Nat × Nat))
    (hpre : ∀ q ∈ pre, Adj g q.1 q.2) (hp : p.1 < g.n) (hn : ¬ Adj g p.1 p.2) :
    edgesFromVertexPairs g (pre ++ p :: post) = .throw (.edgeNotFound p.1 p.2) :=
  edgesFromVertexPairs_throw pre p post (fun q hq => ⟨(hpre q hq).lt_left hg, hpre q hq⟩) hp hn

example := C46_edges_from_pairs_missing { n := 4, edges := [(0, 1), (1, 2), (2, 0), (3, 3)] } (by decide) [(1, 0)] (1, 3) [(0, 1)] (by decide) (by decide)
  (by decide)

/-- **C46.** `getEdgeVectorOfGraph` lists all edges in insertion order, and turning them to pairs gives the inserted edges. -/
theorem C46_edge_vector (g : Graph) : getVertexPairVectorFromEdgeSubset g (getEdgeVectorOfGraph g) = .ok g.edges := by
  rw [getEdgeVector_eq, getVertexPairVectorFromEdgeSubset]
  refine mapRes_eq_ok.2 ?_
  rw [List.forall₂_iff_get]
  refine ⟨by simp, ?_⟩
  intro i h1 h2
  simp [ends_ok]

example : getVerticesOfEdges ⟨5, [(3, 1), (1, 2), (4, 3), (0, 0)]⟩ [2, 0, 1] = .ok [1, 2, 3, 4] := by decide +kernel
example : getSelfLoops ⟨3, [(0, 1), (1, 1), (0, 0)]⟩ [0, 1] = .ok [2, 1] := by decide +kernel
example : getSelfLoops ⟨3, [(0, 1), (1, 1), (0, 0)]⟩ [0, 2, 1] = .throw (.noSelfLoopFound 2) := by decide +kernel
example : getEdgesInducedByVertices ⟨4, [(0, 1), (2, 1), (2, 0), (1, 1), (2, 3)]⟩ [0, 1, 2] = .ok [0, 2, 1] := by decide +kernel
example : edgesFromVertexPairs ⟨3, [(0, 1), (2, 1)]⟩ [(1, 2), (0, 1)] = .ok [1, 0] := by decide +kernel

end Pctsp
