import Verif.Props.Program

/-!
# C87: reading a tour off a solution of the solver
-/

namespace Pctsp

/-- **C87.** The vertices of the solution that belongs to a tour are the vertices of the tour, in increasing order. -/
theorem C87_vertices {g : Graph} (hl : ∀ v < g.n, (v, v) ∈ g.edges) {t es : List Nat} {x : Nat → Int} (hinc : IncidenceOf g t es x) :
    getSolutionVertices g (fun e => decide (0 < x e)) = .ok ((List.range g.n).filter fun v => decide (v ∈ t)) := by
  rw [getSolutionVertices]
  have key : ∀ l : List Nat, (∀ v ∈ l, v < g.n) → l.foldr (solutionVertexStep g fun e => decide (0 < x e)) (.ok []) = .ok (l.filter fun v => decide (v ∈ t)) := by
    intro l hlt
    induction l with
    | nil => rfl
    | cons v l ih =>
      have h1 := loopVal_incidence hinc (hl v (hlt v (by simp)))
      obtain ⟨e, he⟩ := Option.isSome_iff_exists.1 (edgeIdx_isSome_iff.2 (Or.inl (hl v (hlt v (by simp))) : Adj g v v))
      rw [loopVal, he, Option.getD_some] at h1
      rw [List.foldr_cons, ih fun w hw => hlt w (by simp [hw]), solutionVertexStep, he]
      by_cases hv : v ∈ t
      · simp [h1, hv, Res.pure_eq]
      · simp [h1, hv]
  exact key _ fun v hv => List.mem_range.1 hv

/-- **C87.** Without the self-loop of some vertex an exception names the first such vertex, whatever the solution is. -/
theorem C87_missing_loop {g : Graph} (pos : Nat → Bool) {v : Nat} (hv : v < g.n) (hl : (v, v) ∉ g.edges) (hfirst : ∀ u < v, (u, u) ∈ g.edges) :
    getSolutionVertices g pos = .throw (.edgeNotFound v v) := by
  rw [getSolutionVertices]
  obtain ⟨k, hk⟩ : ∃ k, g.n = v + (k + 1) := ⟨g.n - v - 1, by omega⟩
  rw [hk, List.range_add, List.foldr_append, List.range_succ_eq_map]
  have hnone : g.edgeIdx v v = none := edgeIdx_eq_none_iff.2 fun h => hl (by simpa [Adj] using h)
  have hstep : ∀ rest, solutionVertexStep g pos v rest = .throw (.edgeNotFound v v) := fun rest => by rw [solutionVertexStep, hnone]
  rw [List.map_cons, List.foldr_cons, Nat.add_zero, hstep]
  have key : ∀ l : List Nat, (∀ u ∈ l, u < v) → l.foldr (solutionVertexStep g pos) (.throw (.edgeNotFound v v) : Res (List Nat)) = .throw (.edgeNotFound v v) := by
    intro l hlt
    induction l with
    | nil => rfl
    | cons u l ih =>
      obtain ⟨e, he⟩ := Option.isSome_iff_exists.1 (edgeIdx_isSome_iff.2 (Or.inl (hfirst u (hlt u (by simp))) : Adj g u u))
      rw [List.foldr_cons, ih fun w hw => hlt w (by simp [hw]), solutionVertexStep, he]
      simp [Res.throw_bind]
  exact key _ fun u hu => List.mem_range.1 hu

/-- **C87.** The edges of the solution that belongs to a tour are the edges of the tour, in the order of the map; self-loops are left out. -/
theorem C87_edges {g : Graph} {root : Nat} {order : List Nat} (ho : order.Perm (List.range g.edges.length)) {t es : List Nat} {x : Nat → Int}
    (ht : IsTour g root t) (hlen : 3 ≤ t.length) (hinc : IncidenceOf g t es x) :
    (getSolutionEdges g order fun e => decide (0 < x e)).Perm es ∧ (getSolutionEdges g order fun e => decide (0 < x e)).Sublist order ∧
      ∃ ps, getVertexPairVectorFromEdgeSubset g (getSolutionEdges g order fun e => decide (0 < x e)) = .ok ps ∧
        (ps.map und).Perm ((consec t).map und) := by
  obtain ⟨h3, h4, h5⟩ := incidence_nonloop ht hlen hinc
  have hperm : (getSolutionEdges g order fun e => decide (0 < x e)).Perm es := by
    rw [List.perm_ext_iff_of_nodup (getSolutionEdges_nodup ho _) hinc.nodup]
    intro e
    rw [mem_getSolutionEdges ho]
    constructor
    · rintro ⟨u, v, hp, huv, h⟩
      by_contra he
      rw [hinc.edge e u v hp huv, if_neg he] at h
      simp at h
    · intro he
      have hp : g.edges[e]? = some (endsOf g e) := by simp [endsOf, h4 e he]
      exact ⟨_, _, hp, h5 e he, by simp [hinc.edge e _ _ hp (h5 e he), he]⟩
  refine ⟨hperm, List.filter_sublist, (getSolutionEdges g order fun e => decide (0 < x e)).map (endsOf g), ?_, ?_⟩
  · refine mapRes_forall₂ ?_
    rw [List.forall₂_map_right_iff, List.forall₂_same]
    intro e he
    have : g.edges[e]? = some (endsOf g e) := by simp [endsOf, h4 e (hperm.mem_iff.1 he)]
    rw [Graph.ends, this]
  · exact ((hperm.map _).map _).trans h3

theorem exTriangle_incidence : IncidenceOf exTwo [0, 1, 2, 0] [0, 1, 2] exTriangle where
  used := ⟨[(0, 1), (1, 2), (2, 0)], by simp [exTwo], by decide⟩
  nodup := by decide
  edge e u v he hne := by
    have key : ∀ e < exTwo.edges.length, ∀ p ∈ exTwo.edges[e]?, p.1 ≠ p.2 → exTriangle e = if e ∈ [0, 1, 2] then 1 else 0 := by decide
    exact key e (List.getElem?_eq_some_iff.1 he).1 (u, v) he hne
  loop e v he := by
    have key : ∀ e < exTwo.edges.length, ∀ p ∈ exTwo.edges[e]?, p.1 = p.2 → exTriangle e = if p.1 ∈ [0, 1, 2, 0] then 1 else 0 := by decide
    exact key e (List.getElem?_eq_some_iff.1 he).1 (v, v) he rfl

example : getSolutionVertices exTwo (fun e => decide (0 < exTriangle e)) = .ok [0, 1, 2] := by decide +kernel
example : getSolutionVertices { n := 3, edges := [(0, 0), (0, 1), (2, 2)] } (fun _ => true) = .throw (.edgeNotFound 1 1) := by decide +kernel

example := C87_vertices (g := exTwo) (by decide) exTriangle_incidence
example := C87_missing_loop (g := { n := 3, edges := [(0, 0), (0, 1), (2, 2)] }) (fun _ => true) (v := 1) (by decide) (by decide) (by decide)

end Pctsp
