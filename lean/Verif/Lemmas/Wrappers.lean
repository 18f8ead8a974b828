import Verif.Model.Wrappers
import Verif.Lemmas.Renaming

/-!
# The attributes of a networkx graph as dictionaries, and missing attributes
-/

namespace Pctsp

variable {α : Type} [DecidableEq α]

theorem AttrGraph.mem_costDict {G : AttrGraph α} {e : α × α} {c : Int} : (e, c) ∈ G.costDict ↔ e ∈ G.edges ∧ G.cost e = some c := by
  simp only [AttrGraph.costDict, List.mem_filterMap, Option.map_eq_some_iff, Prod.mk.injEq]
  constructor
  · rintro ⟨e', h1, c', h2, rfl, rfl⟩; exact ⟨h1, h2⟩
  · rintro ⟨h1, h2⟩; exact ⟨e, h1, c, h2, rfl, rfl⟩

theorem AttrGraph.mem_prizeDict {G : AttrGraph α} {v : α} {p : Int} : (v, p) ∈ G.prizeDict ↔ v ∈ G.nodes ∧ G.prize v = some p := by
  simp only [AttrGraph.prizeDict, List.mem_filterMap, Option.map_eq_some_iff, Prod.mk.injEq]
  constructor
  · rintro ⟨v', h1, p', h2, rfl, rfl⟩; exact ⟨h1, h2⟩
  · rintro ⟨h1, h2⟩; exact ⟨v, h1, p, h2, rfl, rfl⟩

theorem mem_endpoints_iff {es : List (α × α)} {x : α} : x ∈ endpoints es ↔ ∃ y, AdjIn es x y := by
  simp only [endpoints, List.mem_flatMap, AdjIn]
  constructor
  · rintro ⟨⟨a, b⟩, h, hx⟩
    simp only [List.mem_cons, List.not_mem_nil, or_false] at hx
    rcases hx with rfl | rfl
    · exact ⟨b, .inl h⟩
    · exact ⟨a, .inr h⟩
  · rintro ⟨y, h | h⟩
    · exact ⟨_, h, by simp⟩
    · exact ⟨_, h, by simp⟩

/-- The graph with zeros for missing attributes of edges and of vertices with edges. -/
def AttrGraph.filled (G : AttrGraph α) : AttrGraph α :=
  { G with cost := fun e => some ((G.cost e).getD 0)
           prize := fun v => if v ∈ endpoints G.edges then some ((G.prize v).getD 0) else G.prize v }

theorem fillCostMap_filled {D : List α} (hD : D.Nodup) {es : List (α × α)} {ne : List (Nat × Nat)} (h : List.Forall₂ (Names D) es ne)
    (hmem : ∀ x, x ∈ D ↔ x ∈ endpoints es) (hes : es.Pairwise fun p q => ¬ SameEdge p q) (cost : α × α → Option Int) (l : List (α × α))
    (hl : l.Pairwise fun p q => ¬ SameEdge p q) (hsub : ∀ e ∈ l, e ∈ es) (f : Nat → Int) (hf : ∀ e ∈ l, ∀ i, es[i]? = some e → f i = 0) :
    fillCostMap (graphOf ne) (number 0 D) (l.filterMap fun e => (cost e).map fun c => (e, c)) f =
      fillCostMap (graphOf ne) (number 0 D) (l.filterMap fun e => (some ((cost e).getD 0)).map fun c => (e, c)) f := by
  induction l generalizing f with
  | nil => rfl
  | cons e l ih =>
    obtain ⟨x, y⟩ := e
    have he := hsub (x, y) (by simp)
    obtain ⟨i, hi⟩ := List.mem_iff_getElem?.1 he
    have hx : x ∈ D := (hmem x).2 (by rw [endpoints, List.mem_flatMap]; exact ⟨_, he, by simp⟩)
    have hy : y ∈ D := (hmem y).2 (by rw [endpoints, List.mem_flatMap]; exact ⟨_, he, by simp⟩)
    obtain ⟨s, hs⟩ := List.mem_iff_getElem?.1 hx
    obtain ⟨t, ht⟩ := List.mem_iff_getElem?.1 hy
    have step : ∀ c rest, fillCostMap (graphOf ne) (number 0 D) (((x, y), c) :: rest) f =
        fillCostMap (graphOf ne) (number 0 D) rest (upd f i c) := by
      intro c rest
      rw [fillCostMap, (getNewVertex_number hD x s).2 hs, Res.ok_bind, (getNewVertex_number hD y t).2 ht, Res.ok_bind, Graph.edge,
        if_pos (lt_graphOf hD h (fun x => (hmem x).1) hs), edgeIdx_graphOf hD h hes hs ht hi (.inl rfl)]
      rfl
    rw [List.pairwise_cons] at hl
    have hrest : ∀ c, ∀ e ∈ l, ∀ j, es[j]? = some e → upd f i c j = 0 := by
      intro c e he' j hj
      have hne : j ≠ i := by
        rintro rfl
        rw [hi] at hj
        injection hj with hj
        subst hj
        exact hl.1 _ he' (.inl rfl)
      rw [upd, if_neg hne]
      exact hf e (by simp [he']) j hj
    have ihc := fun c => ih hl.2 (fun e he => hsub e (by simp [he])) (upd f i c) (hrest c)
    cases hc : cost (x, y) with
    | some c => simp only [List.filterMap_cons, hc, Option.map_some, Option.getD_some, step]; exact ihc c
    | none =>
      simp only [List.filterMap_cons, hc, Option.map_some, Option.map_none, Option.getD_none, step]
      have h0 := ihc 0
      simp only [Option.map_some] at h0
      rw [← h0]
      congr 1
      funext j
      by_cases hj : j = i
      · rw [upd, if_pos hj, hj]; exact hf _ (by simp) i hi
      · rw [upd, if_neg hj]

theorem fillVertexMap_filled {D : List α} (hD : D.Nodup) (prize : α → Option Int) (l : List α) (hl : l.Nodup) (f : Nat → Int)
    (hf : ∀ x ∈ l, ∀ k, D[k]? = some x → f k = 0) :
    fillVertexMap (number 0 D) (l.filterMap fun v => (prize v).map fun p => (v, p)) f =
      fillVertexMap (number 0 D) (l.filterMap fun v => (if v ∈ D then some ((prize v).getD 0) else prize v).map fun p => (v, p)) f := by
  induction l generalizing f with
  | nil => rfl
  | cons x l ih =>
    rw [List.nodup_cons] at hl
    by_cases hx : x ∈ D
    · obtain ⟨k, hk⟩ := List.mem_iff_getElem?.1 hx
      have step : ∀ c rest, fillVertexMap (number 0 D) ((x, c) :: rest) f = fillVertexMap (number 0 D) rest (upd f k c) := by
        intro c rest
        rw [fillVertexMap, (getNewVertex_number hD x k).2 hk]
        rfl
      have ihc := fun c => ih hl.2 (upd f k c) (by
        intro y hy j hj
        have hne : j ≠ k := by
          rintro rfl
          rw [hk] at hj
          injection hj with hj
          exact hl.1 (hj ▸ hy)
        rw [upd, if_neg hne]
        exact hf y (by simp [hy]) j hj)
      cases hc : prize x with
      | some c => simp only [List.filterMap_cons, hc, if_pos hx, Option.map_some, Option.getD_some, step]; exact ihc c
      | none =>
        simp only [List.filterMap_cons, hc, if_pos hx, Option.map_some, Option.map_none, Option.getD_none, step]
        rw [← ihc 0]
        congr 1
        funext j
        by_cases hj : j = k
        · rw [upd, if_pos hj, hj]; exact hf x (by simp) k hk
        · rw [upd, if_neg hj]
    · have hrest := fun f' hf' => ih hl.2 f' hf'
      cases hc : prize x with
      | some c =>
        simp only [List.filterMap_cons, hc, if_neg hx, Option.map_some]
        rw [fillVertexMap, fillVertexMap]
        have hnone : ∀ v, getNewVertex (number 0 D) x ≠ .ok v := fun v h => hx (List.mem_of_getElem? ((getNewVertex_number hD x v).1 h))
        cases hg : getNewVertex (number 0 D) x with
        | ok v => exact absurd hg (hnone v)
        | throw e => rfl
        | ub m => rfl
      | none =>
        simp only [List.filterMap_cons, hc, if_neg hx, Option.map_none]
        exact hrest f fun y hy => hf y (by simp [hy])

theorem prepare_filled (G : AttrGraph α) (hes : G.edges.Pairwise fun p q => ¬ SameEdge p q) (hn : G.nodes.Nodup) (t : List α) :
    prepare G.edges t G.costDict G.prizeDict = prepare G.edges t G.filled.costDict G.filled.prizeDict := by
  obtain ⟨ne, h1, h2⟩ := renameEdges_nil G.edges
  have hD := firstSeen_nodup G.edges
  have hc : fillCostMap (graphOf ne) (number 0 (firstSeen G.edges)) G.costDict (fun _ => 0) =
      fillCostMap (graphOf ne) (number 0 (firstSeen G.edges)) G.filled.costDict (fun _ => 0) :=
    fillCostMap_filled hD h2 (mem_firstSeen G.edges) hes G.cost G.edges hes (fun _ h => h) _ (fun _ _ _ _ => rfl)
  have hp : fillVertexMap (number 0 (firstSeen G.edges)) G.prizeDict (fun _ => 0) =
      fillVertexMap (number 0 (firstSeen G.edges)) G.filled.prizeDict (fun _ => 0) := by
    have := fillVertexMap_filled hD G.prize G.nodes hn (fun _ => 0) (fun _ _ _ _ => rfl)
    simp only [mem_firstSeen] at this
    exact this
  rw [prepare, prepare, h1]
  simp only [hc, hp]

end Pctsp
