import Verif.Spec.Suurballe
import Mathlib.Order.Nat
import Mathlib.Data.List.Nodup

/-!
# Small graphs for the examples about Suurballe's algorithm
-/

namespace Pctsp

/-- The graph with nodes `0, ..., n - 1` and the listed edges with their costs. -/
def DiGraph.ofEdges (n : Nat) (E : List ((Nat × Nat) × Int)) : DiGraph Nat where
  nodes := List.range n
  succ u := (E.filter fun e => e.1.1 == u).map fun e => e.1.2
  weight u v := ((E.find? fun e => e.1 == (u, v)).map Prod.snd).getD 0

theorem DiGraph.mem_ofEdges {n : Nat} {E : List ((Nat × Nat) × Int)} {u v : Nat} : v ∈ (DiGraph.ofEdges n E).succ u ↔ (u, v) ∈ E.map Prod.fst := by
  simp only [DiGraph.ofEdges, List.mem_map, List.mem_filter, beq_iff_eq]
  constructor
  · rintro ⟨e, ⟨h1, rfl⟩, rfl⟩; exact ⟨e, h1, rfl⟩
  · rintro ⟨e, h1, h2⟩; exact ⟨e, ⟨h1, by rw [h2]⟩, by rw [h2]⟩

theorem DiGraph.ofEdges_wf {n : Nat} {E : List ((Nat × Nat) × Int)} (h1 : (E.map Prod.fst).Nodup)
    (h2 : ∀ e ∈ E.map Prod.fst, e.1 < n ∧ e.2 < n ∧ e.1 ≠ e.2 ∧ 0 ≤ (DiGraph.ofEdges n E).weight e.1 e.2) : (DiGraph.ofEdges n E).WF := by
  refine ⟨List.nodup_range, ?_, ?_, ?_, ?_⟩
  · intro u
    have h3 : ((E.map Prod.fst).filter fun e => e.1 == u).Nodup := h1.filter _
    have h4 : (DiGraph.ofEdges n E).succ u = ((E.map Prod.fst).filter fun e => e.1 == u).map Prod.snd := by
      rw [List.filter_map, List.map_map]; rfl
    rw [h4]
    refine List.Nodup.map_on ?_ h3
    rintro ⟨a, b⟩ ha ⟨c, d⟩ hc hbd
    simp only [List.mem_filter, beq_iff_eq] at ha hc
    simp only at hbd
    rw [ha.2, hc.2, hbd]
  · intro u v h
    have := h2 _ (DiGraph.mem_ofEdges.1 h)
    simp [DiGraph.ofEdges, this.1, this.2.1]
  · intro u h
    exact (h2 _ (DiGraph.mem_ofEdges.1 h)).2.2.1 rfl
  · intro u v h
    exact (h2 _ (DiGraph.mem_ofEdges.1 h)).2.2.2

theorem DiGraph.ofEdges_asymmetric {n : Nat} {E : List ((Nat × Nat) × Int)} (h : ∀ e ∈ E.map Prod.fst, (e.2, e.1) ∉ E.map Prod.fst) :
    (DiGraph.ofEdges n E).Asymmetric := by
  intro u v huv hvu
  exact h _ (DiGraph.mem_ofEdges.1 huv) (DiGraph.mem_ofEdges.1 hvu)

/-- Distances and paths from a table. -/
def DijkstraOut.ofTable (t : List (Nat × Int × List Nat)) : DijkstraOut Nat where
  distKeys := t.map Prod.fst
  dist v := ((t.find? fun r => r.1 == v).map fun r => r.2.1).getD 0
  pathKeys := t.map Prod.fst
  path v := ((t.find? fun r => r.1 == v).map fun r => r.2.2).getD []

theorem DijkstraOut.ofTable_ok {G : DiGraph Nat} {t : List (Nat × Int × List Nat)} {s : Nat} (h1 : (t.map Prod.fst).Nodup) (h2 : s ∈ t.map Prod.fst)
    (h3 : (DijkstraOut.ofTable t).path s = [s]) (h4 : (DijkstraOut.ofTable t).dist s = 0)
    (h5 : ∀ v ∈ t.map Prod.fst, v ≠ s → ∃ u ∈ t.map Prod.fst, (DijkstraOut.ofTable t).path v = (DijkstraOut.ofTable t).path u ++ [v] ∧
      v ∈ G.succ u ∧ (DijkstraOut.ofTable t).dist v = (DijkstraOut.ofTable t).dist u + G.weight u v)
    (h6 : ∀ u ∈ t.map Prod.fst, ∀ v ∈ G.succ u, v ∈ t.map Prod.fst ∧ (DijkstraOut.ofTable t).dist v ≤ (DijkstraOut.ofTable t).dist u + G.weight u v) :
    IsDijkstra G s (DijkstraOut.ofTable t) := ⟨h1, List.Perm.refl _, h2, h3, h4, h5, h6⟩

/-- A vertex with two edge-disjoint paths that the algorithm does not find. -/
def missGraph : DiGraph Nat := .ofEdges 6 [((0, 1), 1), ((1, 2), 1), ((2, 3), 1), ((1, 4), 1), ((1, 5), 1), ((0, 3), 10), ((3, 4), 1), ((3, 5), 1)]

def missDij : DijkstraOut Nat :=
  .ofTable [(0, 0, [0]), (1, 1, [0, 1]), (2, 2, [0, 1, 2]), (4, 2, [0, 1, 4]), (5, 2, [0, 1, 5]), (3, 3, [0, 1, 2, 3])]

theorem missGraph_wf : missGraph.WF := DiGraph.ofEdges_wf (by decide) (by decide)
theorem missGraph_asymmetric : missGraph.Asymmetric := DiGraph.ofEdges_asymmetric (by decide)
theorem missDij_ok : IsDijkstra missGraph 0 missDij :=
  DijkstraOut.ofTable_ok (by decide) (by decide) (by decide) (by decide) (by decide) (by decide)

/-- A vertex for which the algorithm reports too high a cost. -/
def highGraph : DiGraph Nat := .ofEdges 5 [((0, 1), 1), ((1, 2), 1), ((2, 3), 1), ((1, 4), 1), ((0, 3), 10), ((3, 4), 1), ((3, 1), 3)]

def highDij : DijkstraOut Nat := .ofTable [(0, 0, [0]), (1, 1, [0, 1]), (2, 2, [0, 1, 2]), (4, 2, [0, 1, 4]), (3, 3, [0, 1, 2, 3])]

theorem highGraph_wf : highGraph.WF := DiGraph.ofEdges_wf (by decide) (by decide)
theorem highGraph_asymmetric : highGraph.Asymmetric := DiGraph.ofEdges_asymmetric (by decide)
theorem highDij_ok : IsDijkstra highGraph 0 highDij :=
  DijkstraOut.ofTable_ok (by decide) (by decide) (by decide) (by decide) (by decide) (by decide)

/-- Two extracted walks with a common edge. -/
def shareGraph : DiGraph Nat := .ofEdges 6 [((0, 1), 4), ((1, 2), 1), ((3, 1), 3), ((2, 3), 1), ((0, 4), 0), ((4, 2), 3), ((3, 4), 1), ((0, 5), 1), ((1, 5), 3),
  ((5, 3), 0), ((4, 5), 0)]

def shareDij : DijkstraOut Nat :=
  .ofTable [(0, 0, [0]), (4, 0, [0, 4]), (5, 0, [0, 4, 5]), (3, 0, [0, 4, 5, 3]), (1, 3, [0, 4, 5, 3, 1]), (2, 3, [0, 4, 2])]

theorem shareGraph_wf : shareGraph.WF := DiGraph.ofEdges_wf (by decide) (by decide)
theorem shareGraph_asymmetric : shareGraph.Asymmetric := DiGraph.ofEdges_asymmetric (by decide)
theorem shareDij_ok : IsDijkstra shareGraph 0 shareDij :=
  DijkstraOut.ofTable_ok (by decide) (by decide) (by decide) (by decide) (by decide) (by decide)

theorem DiGraph.ofEdges_splitLike {n : Nat} {E : List ((Nat × Nat) × Int)} {s : Nat}
    (h : ∀ e ∈ E.map Prod.fst, e.1 ≠ s → e.2 ≠ s → (∀ f ∈ E.map Prod.fst, f.2 = e.2 → f.1 = e.1) ∨
      ∀ f ∈ E.map Prod.fst, ∀ g ∈ E.map Prod.fst, f.2 = e.1 → g.2 = e.1 → f.1 = g.1) : (DiGraph.ofEdges n E).SplitLike s := by
  intro u w huw hu hw
  refine (h _ (DiGraph.mem_ofEdges.1 huw) hu hw).imp (fun h1 a ha => ?_) (fun h1 a b ha hb => ?_)
  · exact h1 _ (DiGraph.mem_ofEdges.1 ha) rfl
  · exact h1 _ (DiGraph.mem_ofEdges.1 ha) _ (DiGraph.mem_ofEdges.1 hb) rfl rfl

theorem DiGraph.ofEdges_narrow {n : Nat} {E : List ((Nat × Nat) × Int)} {s : Nat}
    (h : ∀ e ∈ E.map Prod.fst, ∀ f ∈ E.map Prod.fst, e.2 = f.2 → e.1 ≠ f.1 → e.2 ≠ s →
      ∀ a ∈ E.map Prod.fst, ∀ b ∈ E.map Prod.fst, a.1 = e.2 → b.1 = e.2 → a.2 = b.2) : (DiGraph.ofEdges n E).Narrow s := by
  intro v hv
  by_cases h1 : ∀ a b, v ∈ (DiGraph.ofEdges n E).succ a → v ∈ (DiGraph.ofEdges n E).succ b → a = b
  · exact .inl h1
  · right
    push Not at h1
    obtain ⟨a, b, ha, hb, hne⟩ := h1
    intro c d hc hd
    exact h _ (DiGraph.mem_ofEdges.1 ha) _ (DiGraph.mem_ofEdges.1 hb) rfl hne hv _ (DiGraph.mem_ofEdges.1 hc) _ (DiGraph.mem_ofEdges.1 hd) rfl rfl

/-- A triangle 0, 1, 2 with costs 10, 10 and 1 and split vertices: vertex `v` has the tail `v` and the head `v + 3`. -/
def triSplit : DiGraph Nat := .ofEdges 6 [((0, 3), 0), ((1, 4), 0), ((3, 1), 10), ((4, 0), 10), ((2, 5), 0), ((3, 2), 10), ((5, 0), 10), ((4, 2), 1), ((5, 1), 1)]

def triDij : DijkstraOut Nat := .ofTable [(3, 0, [3]), (1, 10, [3, 1]), (2, 10, [3, 2]), (4, 10, [3, 1, 4]), (5, 10, [3, 2, 5]), (0, 20, [3, 1, 4, 0])]

theorem triSplit_wf : triSplit.WF := DiGraph.ofEdges_wf (by decide) (by decide)
theorem triSplit_splitLike : triSplit.SplitLike 3 := DiGraph.ofEdges_splitLike (by decide)
theorem triSplit_narrow : triSplit.Narrow 3 := DiGraph.ofEdges_narrow (by decide)
theorem triDij_ok : IsDijkstra triSplit 3 triDij :=
  DijkstraOut.ofTable_ok (by decide) (by decide) (by decide) (by decide) (by decide) (by decide)

end Pctsp
