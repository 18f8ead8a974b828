import Verif.Lemmas.Renaming

/-!
# Properties C25-C27: renaming
-/

namespace Pctsp

variable {α : Type} [DecidableEq α]

/-- **C25.** From an empty lookup, renaming the edges numbers the end points `0, 1, ...` in order of first appearance (`D` lists them),
and going back and forth is the identity. -/
theorem C25_edges_round_trip (es : List (α × α)) :
    ∃ (D : List α) (ne : List (Nat × Nat)) (b : Bimap α), renameEdges [] es = (ne, b) ∧
      D.Nodup ∧ (∀ x, x ∈ D ↔ x ∈ endpoints es) ∧
      (∀ x y, x ∈ D → y ∈ D → (D.idxOf x < D.idxOf y ↔ (endpoints es).idxOf x < (endpoints es).idxOf y)) ∧
      (∀ x k, getNewVertex b x = .ok k ↔ D[k]? = some x) ∧ (∀ k x, getOldVertex b k = .ok x ↔ D[k]? = some x) ∧
      getOldEdges b ne = .ok es ∧ getNewEdges b es = .ok ne := by
  obtain ⟨ne, h1, h2⟩ := renameEdges_nil es
  refine ⟨firstSeen es, ne, _, h1, firstSeen_nodup es, mem_firstSeen es, ?_, getNewVertex_number (firstSeen_nodup es),
    getOldVertex_number _, ?_, ?_⟩
  · intro x y hx hy
    exact foldl_addNew_order _ x y ((mem_firstSeen es x).1 hx) ((mem_firstSeen es y).1 hy)
  · refine mapRes_forall₂ (List.Forall₂.imp ?_ h2.flip)
    rintro e' e ⟨ha, hb⟩
    rw [getOldEdge, (getOldVertex_number _ _ _).2 ha, Res.ok_bind, (getOldVertex_number _ _ _).2 hb]; rfl
  · refine mapRes_forall₂ (List.Forall₂.imp ?_ h2)
    rintro e e' ⟨ha, hb⟩
    rw [getNewEdge, (getNewVertex_number (firstSeen_nodup es) _ _).2 ha, Res.ok_bind,
      (getNewVertex_number (firstSeen_nodup es) _ _).2 hb]; rfl

/-- **C25.** The same for a list of vertices. -/
theorem C25_vertices_round_trip (vs : List α) :
    ∃ D : List α, D.Nodup ∧ (∀ x, x ∈ D ↔ x ∈ vs) ∧
      (∀ x y, x ∈ D → y ∈ D → (D.idxOf x < D.idxOf y ↔ vs.idxOf x < vs.idxOf y)) ∧
      (∀ x k, getNewVertex (renameVertices [] vs) x = .ok k ↔ D[k]? = some x) ∧
      (∀ k x, getOldVertex (renameVertices [] vs) k = .ok x ↔ D[k]? = some x) ∧
      ∃ ns, getNewVertices (renameVertices [] vs) vs = .ok ns ∧ getOldVertices (renameVertices [] vs) ns = .ok vs := by
  have hnd : (vs.foldl addNew []).Nodup := foldl_addNew_nodup vs [] (by simp)
  have hmem : ∀ x, x ∈ vs.foldl addNew [] ↔ x ∈ vs := fun x => by rw [mem_foldl_addNew]; simp
  have he : renameVertices [] vs = number 0 (vs.foldl addNew []) := renameVerticesLoop_number vs (D := []) (by simp)
  rw [he]
  refine ⟨vs.foldl addNew [], hnd, hmem, ?_, getNewVertex_number hnd, getOldVertex_number _, ?_⟩
  · intro x y hx hy
    exact foldl_addNew_order vs x y ((hmem x).1 hx) ((hmem y).1 hy)
  · have gen : ∀ l : List α, (∀ x ∈ l, x ∈ vs) → ∃ ns, List.Forall₂ (NameOf (vs.foldl addNew [])) l ns := by
      intro l
      induction l with
      | nil => intro; exact ⟨[], List.Forall₂.nil⟩
      | cons x l ih =>
        intro hl
        obtain ⟨ns, hns⟩ := ih (fun y hy => hl y (by simp [hy]))
        obtain ⟨k, hk⟩ := List.mem_iff_getElem?.1 ((hmem x).2 (hl x (by simp)))
        exact ⟨k :: ns, List.Forall₂.cons hk hns⟩
    obtain ⟨ns, hns⟩ := gen vs (fun x h => h)
    refine ⟨ns, mapRes_forall₂ (List.Forall₂.imp ?_ hns), mapRes_forall₂ (List.Forall₂.imp ?_ hns.flip)⟩
    · intro x k hk; exact (getNewVertex_number hnd _ _).2 hk
    · intro k x hk; exact (getOldVertex_number _ _ _).2 hk

example : renameEdges [] [("c", "a"), ("a", "b"), ("b", "c")] = ([(0, 1), (1, 2), (2, 0)], [(0, "c"), (1, "a"), (2, "b")]) := by
  decide +kernel
example : renameVertices [] ["c", "a", "c", "b"] = [(0, "c"), (1, "a"), (2, "b")] := by decide +kernel

/-- **C26.** Whenever the lookup gives id 0 to some vertex, an edge list that starts with an unknown vertex is renamed so that this vertex
shares the id 0, and the round trip returns another vertex. -/
theorem C26_nonempty_lookup (b : Bimap α) (x : α) (hx : getOldVertex b 0 = .ok x) (y z : α) (hy : ∀ p ∈ b, p.2 ≠ y)
    (hz : z = y ∨ ∀ p ∈ b, p.2 ≠ z) :
    ∃ ne b', renameEdges b [(y, z)] = (ne, b') ∧ (∃ e ∈ ne, e.1 = 0) ∧ getOldVertex b' 0 = .ok x ∧ x ≠ y ∧
      getOldEdges b' ne ≠ .ok [(y, z)] := by
  have h0 : ∃ p, b.find? (fun p => decide (p.1 = 0)) = some p ∧ p.2 = x := by
    rw [getOldVertex] at hx
    cases h : b.find? (fun p => decide (p.1 = 0)) with
    | none => rw [h] at hx; cases hx
    | some p => rw [h] at hx; cases hx; exact ⟨p, rfl, rfl⟩
  obtain ⟨p, hp, rfl⟩ := h0
  have hpm := List.mem_of_find?_eq_some hp
  have hp0 : p.1 = 0 := by simpa using List.find?_some hp
  have hne : p.2 ≠ y := hy p hpm
  have nofind : ∀ c : Bimap α, ∀ u : α, (∀ q ∈ c, q.2 ≠ u) → c.find? (fun q => decide (q.2 = u)) = none := by
    intro c u hu
    rw [List.find?_eq_none]
    intro q hq; simpa using hu q hq
  have e1 : findOrInsertVertex b y 0 = (0, b, 1) := by
    rw [findOrInsertVertex, nofind b y hy]
    simp only
    rw [Bimap.insert, if_pos]
    rw [Bool.or_eq_true]; left
    rw [List.any_eq_true]
    exact ⟨p, hpm, by simpa using hp0⟩
  have hz' : ∀ q ∈ b, q.2 ≠ z := by
    rcases hz with rfl | h
    · exact hy
    · exact h
  have e2 : findOrInsertVertex b z 1 = (1, b.insert 1 z, 2) := by
    rw [findOrInsertVertex, nofind b z hz']
  have hfind : (b.insert 1 z).find? (fun q => decide (q.1 = 0)) = some p := by
    rw [Bimap.insert]
    split
    · exact hp
    · rw [List.find?_append, hp]; rfl
  have hold : getOldVertex (b.insert 1 z) 0 = .ok p.2 := by rw [getOldVertex, hfind]
  refine ⟨[(0, 1)], b.insert 1 z, ?_, ⟨(0, 1), by simp, rfl⟩, hold, hne, ?_⟩
  · rw [renameEdges, renameEdgesLoop, e1]
    simp only [e2]
    rfl
  · intro h
    rw [getOldEdges, mapRes_eq_ok] at h
    cases h with
    | cons h1 _ =>
      rw [getOldEdge] at h1
      simp only [hold, Res.ok_bind] at h1
      obtain ⟨u, -, h3⟩ := Res.bind_eq_ok.1 h1
      cases h3
      exact hne rfl

/-- The hypotheses of `C26_nonempty_lookup` hold after a first renaming. -/
example : getOldVertex (renameVertices [] [5]) 0 = .ok 5 ∧ (∀ p ∈ renameVertices [] [5], p.2 ≠ 7) ∧
    renameEdges (renameVertices [] [5]) [(7, 8)] = ([(0, 1)], [(0, 5), (1, 8)]) ∧
    getOldEdges [(0, 5), (1, 8)] [(0, 1)] = .ok [(5, 8)] := by decide +kernel

/-- **C26.** The bijection claimed for empty lookups fails for lookups in general. -/
theorem C26_round_trip_fails :
    ¬ ∀ (vs : List Nat) (es : List (Nat × Nat)) (ne : List (Nat × Nat)) (b : Bimap Nat),
      renameEdges (renameVertices [] vs) es = (ne, b) → getOldEdges b ne = .ok es := by
  intro h
  have := h [5] [(7, 8)] [(0, 1)] [(0, 5), (1, 8)] (by decide +kernel)
  revert this; decide +kernel

/-- **C26.** What remains true for a non-empty lookup: if it already knows all end points, it stays unchanged and the new edges are those
of `getNewEdges`. -/
theorem C26_known_vertices (b : Bimap α) (es : List (α × α)) (h : ∀ x ∈ endpoints es, ∃ p ∈ b, p.2 = x) :
    ∃ ne, renameEdges b es = (ne, b) ∧ getNewEdges b es = .ok ne := by
  rw [renameEdges]
  generalize 0 = next
  have known : ∀ x : α, (∃ p ∈ b, p.2 = x) → ∀ next, ∃ k, findOrInsertVertex b x next = (k, b, next) ∧ getNewVertex b x = .ok k := by
    rintro x ⟨p, hp, hx⟩ next
    rw [findOrInsertVertex, getNewVertex]
    cases hf : b.find? (fun q => decide (q.2 = x)) with
    | none =>
      have := List.find?_eq_none.1 hf p hp
      simp [hx] at this
    | some q => exact ⟨q.1, rfl, rfl⟩
  induction es with
  | nil => exact ⟨[], rfl, rfl⟩
  | cons e es ih =>
    obtain ⟨ne, h1, h2⟩ := ih (fun x hx => h x (by
      simp only [endpoints, List.flatMap_cons, List.mem_append]; right; exact hx))
    obtain ⟨s, h3, h4⟩ := known e.1 (h e.1 (by simp [endpoints])) next
    obtain ⟨t, h5, h6⟩ := known e.2 (h e.2 (by simp [endpoints])) next
    refine ⟨(s, t) :: ne, ?_, ?_⟩
    · rw [renameEdgesLoop, h3]
      simp only [h5, h1]
    · rw [getNewEdges, mapRes, getNewEdge, h4, Res.ok_bind, h6]
      rw [getNewEdges] at h2
      rw [h2]; rfl

example : renameEdges [(3, "a"), (1, "b")] [("b", "a"), ("a", "a")] = ([(1, 3), (3, 3)], [(3, "a"), (1, "b")]) := by decide +kernel

/-- **C27.** Renaming a graph without repeated edges and filling the cost and prize maps: edge `i` of the new graph has the cost of edge
`i` of the old graph, every vertex has its prize, and the cost and prize of any walk computed in the new graph are those of the walk of
the old graph it is mapped back to. -/
theorem C27_costs_and_prizes (es : List (α × α)) (hes : es.Pairwise fun p q => ¬ SameEdge p q)
    (w : α → α → Int) (hw : ∀ x y, w x y = w y x) (π : α → Int)
    (costs : List ((α × α) × Int)) (hc : ∀ p c, (p, c) ∈ costs → c = w p.1 p.2 ∧ AdjIn es p.1 p.2)
    (hcall : ∀ e ∈ es, ∃ p c, (p, c) ∈ costs ∧ SameEdge p e)
    (prizes : List (α × Int)) (hp : ∀ x c, (x, c) ∈ prizes → c = π x ∧ x ∈ endpoints es)
    (hpall : ∀ x ∈ endpoints es, ∃ c, (x, c) ∈ prizes) (f0 p0 : Nat → Int) :
    ∃ ne b f p, renameEdges [] es = (ne, b) ∧ fillCostMap (graphOf ne) b costs f0 = .ok f ∧ fillVertexMap b prizes p0 = .ok p ∧
      (∀ i e, es[i]? = some e → f i = w e.1 e.2) ∧ (∀ k x, getNewVertex b x = .ok k → p k = π x) ∧
      ∀ t', IsWalk (graphOf ne) t' → 2 ≤ t'.length →
        ∃ t, getOldVertices b t' = .ok t ∧ (∀ q ∈ consec t, AdjIn es q.1 q.2) ∧
          totalCost (graphOf ne) f t' = .ok (namedCost w t) ∧ totalPrizeOfTour p t' = .ok (namedPrize π t) := by
  obtain ⟨ne, h1, h2⟩ := renameEdges_nil es
  have hD := firstSeen_nodup es
  obtain ⟨f, h3, h4⟩ := fillCostMap_spec hD h2 (mem_firstSeen es) hes w hw costs (fun p c h => (hc p c h).1) (fun p c h => (hc p c h).2) f0
  obtain ⟨p, h5, h6⟩ := fillVertexMap_spec hD π prizes (fun x c h => (hp x c h).1) (fun x c h => (mem_firstSeen es x).2 (hp x c h).2) p0
  have hf : ∀ i e, es[i]? = some e → f i = w e.1 e.2 := by
    intro i e hi
    rcases h4 i e hi with h | ⟨-, h⟩
    · exact h
    · obtain ⟨q, c, hq, hs⟩ := hcall e (List.mem_of_getElem? hi)
      exact absurd hs (h q c hq)
  have hpi : ∀ k x, (firstSeen es)[k]? = some x → p k = π x := by
    intro k x hk
    rcases h6 k x hk with h | ⟨-, h⟩
    · exact h
    · obtain ⟨c, hx⟩ := hpall x ((mem_firstSeen es x).1 (List.mem_of_getElem? hk))
      exact absurd hx (h c)
  refine ⟨ne, _, f, p, h1, h3, h5, hf, fun k x h => hpi k x ((getNewVertex_number hD x k).1 h), ?_⟩
  intro t' hwalk hl
  obtain ⟨t, ht⟩ := walk_named h2 hwalk (by omega)
  have hg := graphOf_wf ne
  refine ⟨t, mapRes_forall₂ (List.Forall₂.imp (fun k x hk => (getOldVertex_number _ _ _).2 hk) ht.flip), ?_, ?_, ?_⟩
  · intro q hq
    obtain ⟨i, hi⟩ := List.mem_iff_getElem?.1 hq
    obtain ⟨q', hq', hn⟩ := (forall₂_getElem? (consec_forall₂ ht)).1 q hi
    exact (adj_graphOf hD h2 hn.1 hn.2).1 (hwalk q' (List.mem_of_getElem? hq'))
  · rw [totalCost_of_isWalk hg f hwalk, cost_transport hD h2 hes hw hf ht hwalk]
  · rw [totalPrizeOfTour_eq p (by rintro rfl; simp at hl), prize_transport hpi ht]

/-- The hypotheses hold for a triangle with names 7, 9, 4 whose cost entries name the edges in either direction. -/
example : ([(7, 9), (9, 4), (4, 7)] : List (Nat × Nat)).Pairwise (fun p q => ¬ SameEdge p q) ∧
    (∀ q ∈ [((9, 7), 16), ((4, 9), 13), ((4, 7), 11)], q.2 = ((q.1.1 + q.1.2 : Nat) : Int) ∧ AdjIn [(7, 9), (9, 4), (4, 7)] q.1.1 q.1.2) ∧
    (∀ e ∈ [(7, 9), (9, 4), (4, 7)], ∃ q ∈ [((9, 7), (16 : Int)), ((4, 9), 13), ((4, 7), 11)], SameEdge q.1 e) := by decide +kernel

/-- **C27.** If the prize dictionary names a vertex that no edge touches, filling the prize map is undefined (the end iterator of the
lookup is dereferenced), whatever the other entries are. -/
theorem C27_isolated_vertex_ub (es : List (α × α)) (prizes : List (α × Int)) (x : α) (c : Int) (hx : (x, c) ∈ prizes)
    (hiso : x ∉ endpoints es) (p0 : Nat → Int) :
    ∃ ne b, renameEdges [] es = (ne, b) ∧ (fillVertexMap b prizes p0).isUb = true := by
  obtain ⟨ne, h1, -⟩ := renameEdges_nil es
  exact ⟨ne, _, h1, fillVertexMap_unknown (firstSeen_nodup es) prizes p0 hx (by rwa [mem_firstSeen])⟩

example : (fillVertexMap (renameEdges [] [(1, 2), (2, 3)]).2 [(1, 5), (9, 1), (2, 5)] (fun _ => 0)).isUb = true := by decide +kernel

end Pctsp
