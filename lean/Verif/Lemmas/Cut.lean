import Verif.Model.Cut
import Verif.Lemmas.Filter
import Verif.Lemmas.GraphUtil
import Verif.Lemmas.Dijkstra
import Verif.Spec.Incidence

/-!
# Helper lemmas: the edges of a cut and the support graph
-/

namespace Pctsp

theorem sideOf_ok {α : Type} {parity : List α} {v : Nat} {a : α} : sideOf parity v = .ok a ↔ parity[v]? = some a := by
  unfold sideOf; split <;> simp_all

theorem sideOf_short {α : Type} {parity : List α} {v : Nat} (h : parity.length ≤ v) : ∃ w, sideOf parity v = .ub w := by
  unfold sideOf; rw [List.getElem?_eq_none h]; exact ⟨_, rfl⟩

theorem sideOf_get {α : Type} {parity : List α} {v : Nat} (h : v < parity.length) : sideOf parity v = .ok parity[v] :=
  sideOf_ok.2 (List.getElem?_eq_getElem h)

theorem edgesFromCutLoop_ok {α : Type} [DecidableEq α] {parity : List α} : ∀ {es : List (Nat × Nat)} {i : Nat},
    (∀ e ∈ es, e.1 < parity.length ∧ e.2 < parity.length) → ∃ r, edgesFromCutLoop parity i es = .ok r ∧ r.Pairwise (· < ·) ∧
      ∀ k, k ∈ r ↔ ∃ j u v, k = i + j ∧ es[j]? = some (u, v) ∧ parity[u]? ≠ parity[v]?
  | [], i, _ => ⟨[], rfl, .nil, by simp⟩
  | (u, v) :: es, i, h => by
    obtain ⟨r, h1, h2, h3⟩ := edgesFromCutLoop_ok (i := i + 1) fun e he => h e (List.mem_cons_of_mem _ he)
    obtain ⟨hu, hv⟩ := h (u, v) (by simp)
    refine ⟨if parity[u] ≠ parity[v] then i :: r else r, ?_, ?_, ?_⟩
    · rw [edgesFromCutLoop, sideOf_get hu, Res.ok_bind, sideOf_get hv, Res.ok_bind, h1, Res.ok_bind]; rfl
    · split
      · refine List.pairwise_cons.2 ⟨fun k hk => ?_, h2⟩
        obtain ⟨j, -, -, rfl, -⟩ := (h3 k).1 hk
        omega
      · exact h2
    · intro k
      have hne : parity[u]? ≠ parity[v]? ↔ parity[u] ≠ parity[v] := by
        rw [List.getElem?_eq_getElem hu, List.getElem?_eq_getElem hv]; simp
      have hsplit : (∃ j a b, k = i + j ∧ ((u, v) :: es)[j]? = some (a, b) ∧ parity[a]? ≠ parity[b]?) ↔
          (k = i ∧ parity[u] ≠ parity[v]) ∨ ∃ j a b, k = i + 1 + j ∧ es[j]? = some (a, b) ∧ parity[a]? ≠ parity[b]? := by
        constructor
        · rintro ⟨j, a, b, rfl, hj, hp⟩
          match j, hj with
          | 0, hj =>
            simp only [List.getElem?_cons_zero, Option.some.injEq, Prod.mk.injEq] at hj
            obtain ⟨rfl, rfl⟩ := hj
            exact Or.inl ⟨rfl, hne.1 hp⟩
          | j + 1, hj => exact Or.inr ⟨j, a, b, by omega, by simpa using hj, hp⟩
        · rintro (⟨rfl, hp⟩ | ⟨j, a, b, rfl, hj, hp⟩)
          · exact ⟨0, u, v, rfl, rfl, hne.2 hp⟩
          · exact ⟨j + 1, a, b, by omega, by simpa using hj, hp⟩
      rw [hsplit, ← h3 k]
      split <;> simp_all

theorem edgesFromCutLoop_short {α : Type} [DecidableEq α] {parity : List α} : ∀ {es : List (Nat × Nat)} {i : Nat},
    (∃ e ∈ es, parity.length ≤ e.1 ∨ parity.length ≤ e.2) → ∃ w, edgesFromCutLoop parity i es = .ub w
  | [], _, h => by simp at h
  | (u, v) :: es, i, h => by
    rw [edgesFromCutLoop]
    rcases Nat.lt_or_ge u parity.length with hu | hu
    · rw [sideOf_get hu, Res.ok_bind]
      rcases Nat.lt_or_ge v parity.length with hv | hv
      · rw [sideOf_get hv, Res.ok_bind]
        obtain ⟨e, he, hl⟩ := h
        rcases List.mem_cons.1 he with rfl | he
        · simp only at hl; omega
        · obtain ⟨w, hw⟩ := edgesFromCutLoop_short (i := i + 1) ⟨e, he, hl⟩
          exact ⟨w, by rw [hw, Res.ub_bind]⟩
      · obtain ⟨w, hw⟩ := sideOf_short hv
        exact ⟨w, by rw [hw, Res.ub_bind]⟩
    · obtain ⟨w, hw⟩ := sideOf_short hu
      exact ⟨w, by rw [hw, Res.ub_bind]⟩

theorem getVertexPairVectorFromGraph_eq (g : Graph) : getVertexPairVectorFromGraph g = .ok g.edges := by
  rw [getVertexPairVectorFromGraph, getVertexPairVectorFromEdgeSubset, getEdgeVector_eq]
  refine mapRes_eq_ok.2 ?_
  refine List.forall₂_iff_get.2 ⟨by simp, fun i h1 h2 => ?_⟩
  simp only [List.get_eq_getElem, List.getElem_range]
  exact ends_ok.2 (List.getElem?_eq_getElem h2)

theorem supportFilter_ok {α : Type} {hasVar pos : Nat → Bool} {key : α → Nat} : ∀ {l : List α}, (∀ a ∈ l, hasVar (key a) = true) →
    supportFilter hasVar pos key l = .ok (l.filter fun a => pos (key a))
  | [], _ => rfl
  | a :: l, h => by
    rw [supportFilter, positiveEdgeVar, if_pos (h a (by simp)), Res.ok_bind, supportFilter_ok fun b hb => h b (by simp [hb]), Res.ok_bind]
    cases hp : pos (key a) <;> simp [hp, Res.pure_eq]

theorem supportFilter_short {α : Type} {hasVar pos : Nat → Bool} {key : α → Nat} : ∀ {l : List α}, (∃ a ∈ l, hasVar (key a) = false) →
    ∃ w, supportFilter hasVar pos key l = .ub w
  | [], h => by simp at h
  | a :: l, h => by
    rw [supportFilter, positiveEdgeVar]
    cases ha : hasVar (key a) with
    | false => exact ⟨_, by simp [Res.ub_bind]; rfl⟩
    | true =>
      obtain ⟨b, hb, hl⟩ := h
      rcases List.mem_cons.1 hb with rfl | hb
      · rw [ha] at hl; cases hl
      · obtain ⟨w, hw⟩ := supportFilter_short (pos := pos) ⟨b, hb, hl⟩
        exact ⟨w, by simp [Res.ok_bind, hw, Res.ub_bind]⟩

theorem outEdges_snd (g : Graph) (u : Nat) : (g.outEdges u).map Prod.snd = g.adjacent u := by
  have key : ∀ (es : List (Nat × Nat)) (i : Nat), ((es.zipIdx i).flatMap fun p => (Graph.nbrsOf u p.1).map fun v => (p.2, v)).map Prod.snd =
      es.flatMap (Graph.nbrsOf u) := by
    intro es
    induction es with
    | nil => simp
    | cons e es ih => intro i; simp only [List.zipIdx_cons, List.flatMap_cons, List.map_append, List.map_map, ih]; simp [Function.comp_def]
  exact key g.edges 0

end Pctsp
