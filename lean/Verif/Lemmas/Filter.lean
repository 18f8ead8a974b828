import Verif.Model.Filter
import Verif.Spec.Tour
import Mathlib.Logic.Relation
import Mathlib.Data.List.Basic

/-! # Lemmas on filtered graphs -/

namespace Pctsp

/-- If the predicate is defined on the list, the filtered sequence is the filtered list. -/
theorem filterRes_ok {α : Type} {p : α → Res Bool} {q : α → Bool} : ∀ {l : List α}, (∀ a ∈ l, p a = .ok (q a)) →
    filterRes p l = .ok (l.filter q)
  | [], _ => rfl
  | a :: as, h => by
    have h1 := h a (by simp)
    have h2 := filterRes_ok (p := p) (q := q) (l := as) (fun b hb => h b (by simp [hb]))
    unfold filterRes
    rw [h1, h2]
    cases hq : q a <;> simp [hq, bind, Res.bind, pure]

/-- If the predicate is undefined somewhere and throws nowhere, so is the filtered sequence. -/
theorem filterRes_ub {α : Type} {p : α → Res Bool} : ∀ {l : List α}, (∀ a ∈ l, ∀ e, p a ≠ .throw e) → (∃ a ∈ l, ∃ w, p a = .ub w) →
    ∃ w, filterRes p l = .ub w
  | [], _, h => by simp at h
  | a :: as, ht, h => by
    unfold filterRes
    cases hp : p a with
    | throw e => exact absurd hp (ht a (by simp) e)
    | ub w => exact ⟨w, rfl⟩
    | ok b =>
      have h2 : ∃ a ∈ as, ∃ w, p a = .ub w := by
        obtain ⟨c, hc, w, hw⟩ := h
        rcases List.mem_cons.1 hc with rfl | hc
        · rw [hp] at hw; cases hw
        · exact ⟨c, hc, w, hw⟩
      obtain ⟨w, hw⟩ := filterRes_ub (fun a ha => ht a (by simp [ha])) h2
      exact ⟨w, by rw [hw]; rfl⟩

theorem vertexFilter_ok {mark : List Bool} {u : Nat} (h : u < mark.length) : vertexFilter mark u = .ok (mark.getD u false) := by
  unfold vertexFilter
  simp [List.getElem?_eq_getElem h, List.getD]

theorem edgeFilter_ok {mark : List Bool} {e : Nat × Nat} (h1 : e.1 < mark.length) (h2 : e.2 < mark.length) :
    edgeFilter mark e = .ok (mark.getD e.1 false || mark.getD e.2 false) := by
  unfold edgeFilter
  rw [vertexFilter_ok h1, vertexFilter_ok h2]
  cases mark.getD e.1 false <;> rfl

theorem keepsEdge_ok {g : Graph} {mark : List Bool} {e : Nat × Nat} (h1 : e.1 < mark.length) (h2 : e.2 < mark.length) :
    (filterMarkedVertices g mark).keepsEdge e = .ok (mark.getD e.1 false && mark.getD e.2 false) := by
  unfold FilteredGraph.keepsEdge filterMarkedVertices
  simp only
  rw [edgeFilter_ok h1 h2, vertexFilter_ok h1, vertexFilter_ok h2]
  cases mark.getD e.1 false <;> cases mark.getD e.2 false <;> rfl

theorem keepsOutEdge_ok {g : Graph} {mark : List Bool} {e : Nat × Nat} (h1 : e.1 < mark.length) (h2 : e.2 < mark.length) :
    (filterMarkedVertices g mark).keepsOutEdge e = .ok (mark.getD e.2 false) := by
  unfold FilteredGraph.keepsOutEdge filterMarkedVertices
  simp only
  rw [edgeFilter_ok h1 h2, vertexFilter_ok h2]
  cases mark.getD e.1 false <;> cases mark.getD e.2 false <;> rfl

theorem mem_adjacent_iff {g : Graph} {u v : Nat} : v ∈ g.adjacent u ↔ Adj g u v := by
  unfold Graph.adjacent Adj
  simp only [List.mem_flatMap, Graph.nbrsOf]
  constructor
  · rintro ⟨⟨a, b⟩, he, hv⟩
    simp only [List.mem_append] at hv
    rcases hv with hv | hv
    · split_ifs at hv with h
      · simp only [List.mem_singleton] at hv
        subst h hv; exact Or.inl he
      · simp at hv
    · split_ifs at hv with h
      · simp only [List.mem_singleton] at hv
        subst h hv; exact Or.inr he
      · simp at hv
  · rintro (h | h)
    · exact ⟨_, h, by simp⟩
    · exact ⟨_, h, by simp⟩

theorem adj_lt {g : Graph} (hg : g.WF) {u v : Nat} (h : Adj g u v) : u < g.n ∧ v < g.n := by
  rcases h with h | h
  · exact hg _ h
  · exact (hg _ h).symm

/-- The neighbours in the view. -/
theorem filtered_adjacent {g : Graph} {mark : List Bool} (hg : g.WF) (hm : g.n ≤ mark.length) {u : Nat} (hu : u < g.n) :
    (filterMarkedVertices g mark).adjacent u = .ok ((g.adjacent u).filter fun v => mark.getD v false) := by
  unfold FilteredGraph.adjacent FilteredGraph.outEdges Graph.adjacentVertices
  have h1 : (filterMarkedVertices g mark).graph = g := rfl
  rw [h1, if_pos hu]
  have h2 : filterRes (filterMarkedVertices g mark).keepsOutEdge ((g.adjacent u).map fun v => (u, v))
      = .ok (((g.adjacent u).map fun v => (u, v)).filter fun e => mark.getD e.2 false) := by
    apply filterRes_ok
    intro e he
    obtain ⟨v, hv, rfl⟩ := List.mem_map.1 he
    have := adj_lt hg (mem_adjacent_iff.1 hv)
    exact keepsOutEdge_ok (by simp only; omega) (by simp only; omega)
  show Res.bind (Res.bind (.ok _) _) _ = _
  simp only [Res.bind]
  rw [h2]
  simp only [pure, List.filter_map, List.map_map]
  congr 1
  have : (Prod.snd ∘ fun v => (u, v)) = (id : Nat → Nat) := rfl
  rw [this, List.map_id]
  rfl

end Pctsp
