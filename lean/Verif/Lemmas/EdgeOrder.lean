import Verif.Lemmas.RepeatsBind

/-! Helper lemmas: the bindings on two lists with the same edges. -/

namespace Pctsp

variable {α : Type} [DecidableEq α]

theorem foldl_addNew (D l : List α) : l.foldl addNew D = D ++ newFrom D l := by
  induction l generalizing D with
  | nil => simp [newFrom]
  | cons x l ih =>
    rw [List.foldl_cons, newFrom, addNew]
    by_cases h : x ∈ D
    · rw [if_pos h, if_pos h, ih]
    · rw [if_neg h, if_neg h, ih, List.append_assoc, newFrom_congr (S := D ++ [x]) (T := x :: D) (by simp [or_comm])]
      rfl

theorem newFrom_eraseDups (S l : List α) : newFrom S l = (l.filter fun x => decide (x ∉ S)).eraseDups := by
  induction l generalizing S with
  | nil => rfl
  | cons x l ih =>
    rw [newFrom, List.filter_cons]
    by_cases h : x ∈ S
    · simp only [h, not_true, decide_false, if_true]
      exact ih S
    · simp only [h, not_false_eq_true, decide_true, if_true, if_false, List.eraseDups_cons, List.filter_filter]
      rw [ih (x :: S)]
      congr 2
      refine List.filter_congr fun y _ => ?_
      by_cases hy : y = x <;> simp [hy]

/-- The numbers of the vertices are given in the order in which they occur first. -/
theorem firstSeen_eraseDups (es : List (α × α)) : firstSeen es = (endpoints es).eraseDups := by
  rw [firstSeen, foldl_addNew, List.nil_append, newFrom_eraseDups]
  congr 1
  exact List.filter_eq_self.2 (by simp)

theorem AdjIn.of_mem {es : List (α × α)} {p : α × α} (hp : p ∈ es) : AdjIn es p.1 p.2 := Or.inl hp

theorem adjIn_congr {es es' : List (α × α)} (h : ∀ e ∈ es, AdjIn es' e.1 e.2) (h' : ∀ e ∈ es', AdjIn es e.1 e.2) (x y : α) :
    AdjIn es x y ↔ AdjIn es' x y :=
  ⟨fun H => H.elim (h _) fun H => (h _ H).symm, fun H => H.elim (h' _) fun H => (h' _ H).symm⟩

/-- Lists with the same edges are renamed to lists with the same edges. -/
theorem names_covers {D : List α} (hD : D.Nodup) {es es' : List (α × α)} (hadj : ∀ x y, AdjIn es x y → AdjIn es' x y) {ne ne' : List (Nat × Nat)}
    (h : List.Forall₂ (Names D) es ne) (h' : List.Forall₂ (Names D) es' ne') {p : Nat × Nat} (hp : p ∈ ne) : ∃ q ∈ ne', SameEdge q p := by
  obtain ⟨i, hi⟩ := List.getElem?_of_mem hp
  obtain ⟨e, he, hn⟩ := (forall₂_getElem? h).2 p hi
  have key : ∀ f ∈ es', SameEdge f e → ∃ q ∈ ne', SameEdge q p := by
    intro f hf hfe
    obtain ⟨j, hj⟩ := List.getElem?_of_mem hf
    obtain ⟨q, hq, hm⟩ := (forall₂_getElem? h').1 f hj
    exact ⟨q, List.mem_of_getElem? hq, (sameEdge_names hD hm hn).2 hfe⟩
  rcases hadj _ _ (AdjIn.of_mem (List.mem_of_getElem? he)) with h1 | h1
  · exact key _ h1 (Or.inl rfl)
  · exact key _ h1 (Or.inr rfl)

theorem sameCosts_order {ne ne' : List (Nat × Nat)} (h : ∀ p ∈ ne, ∃ q ∈ ne', SameEdge q p) (h' : ∀ p ∈ ne', ∃ q ∈ ne, SameEdge q p) :
    SameCosts (graphOf ne) (fun _ => 0) (graphOf ne') (fun _ => 0) := by
  refine ⟨graphOf_wf _, graphOf_wf _, ?_, fun u v => ?_⟩
  · have key : ∀ {a b : List (Nat × Nat)}, (∀ p ∈ a, ∃ q ∈ b, SameEdge q p) → (graphOf a).n ≤ (graphOf b).n := by
      intro a b hab
      rw [graphOf, graph_n_le]
      refine ⟨Nat.zero_le _, fun p hp => ?_⟩
      obtain ⟨q, hq, hqp⟩ := hab p hp
      have := ((graph_n_le b _ _).1 (Nat.le_refl (graphOf b).n)).2 q hq
      rcases hqp with rfl | rfl
      · exact this
      · exact this.symm
    exact Nat.le_antisymm (key h') (key h)
  · have : ((graphOf ne').edgeIdx u v).isSome = ((graphOf ne).edgeIdx u v).isSome := by
      rw [Graph.edgeIdx, Graph.edgeIdx, graphOf_edges, graphOf_edges, Bool.eq_iff_iff, List.findIdx?_isSome, List.findIdx?_isSome, List.any_eq_true,
        List.any_eq_true]
      constructor
      · rintro ⟨e, he, hj⟩
        obtain ⟨f, hf, hfe⟩ := h' e he
        exact ⟨f, hf, joins_sameEdge hj hfe⟩
      · rintro ⟨e, he, hj⟩
        obtain ⟨f, hf, hfe⟩ := h e he
        exact ⟨f, hf, joins_sameEdge hj hfe⟩
    cases h1 : (graphOf ne').edgeIdx u v <;> cases h2 : (graphOf ne).edgeIdx u v <;> rw [h1, h2] at this <;> simp at this <;> rfl

/-- What the bindings build from two lists with the same edges and the same order of the vertices. -/
theorem prepare_order {es es' : List (α × α)} (hadj : ∀ x y, AdjIn es x y ↔ AdjIn es' x y) (hseen : (endpoints es).eraseDups = (endpoints es').eraseDups) :
    (renameEdges [] es').2 = (renameEdges [] es).2 ∧ ∀ (tour : List α) (costs : List ((α × α) × Int)) (prizes : List (α × Int)),
    (∃ x, prepare es' tour costs prizes = .ub x ∧ prepare es tour costs prizes = .ub x) ∨
      (∃ x, prepare es' tour costs prizes = .throw x ∧ prepare es tour costs prizes = .throw x) ∨
      ∃ q p, prepare es' tour costs prizes = .ok q ∧ prepare es tour costs prizes = .ok p ∧ q.lookup = p.lookup ∧ q.tour = p.tour ∧
        q.prize = p.prize ∧ SameCosts p.graph p.cost q.graph q.cost := by
  rw [← firstSeen_eraseDups, ← firstSeen_eraseDups] at hseen
  obtain ⟨ne, h1, h2⟩ := renameEdges_nil es
  obtain ⟨ne', h3, h4⟩ := renameEdges_nil es'
  rw [← hseen] at h3 h4
  refine ⟨by rw [h1, h3], fun tour costs prizes => ?_⟩
  have hD := firstSeen_nodup es
  have H := sameCosts_order (fun p hp => names_covers hD (fun x y => (hadj x y).1) h2 h4 hp) (fun p hp => names_covers hD (fun x y => (hadj x y).2) h4 h2 hp)
  rw [prepare, prepare, h1, h3]
  simp only
  cases getNewVertices (number 0 (firstSeen es)) tour with
  | ub x => exact Or.inl ⟨x, rfl, rfl⟩
  | throw x => exact Or.inr (Or.inl ⟨x, rfl, rfl⟩)
  | ok t =>
    simp only [Res.ok_bind]
    rcases H.fillCostMap (number 0 (firstSeen es)) costs with ⟨x, h1, h2⟩ | ⟨x, h1, h2⟩ | ⟨f', f, h1, h2, h3⟩
    · rw [h1, h2]; exact Or.inl ⟨x, rfl, rfl⟩
    · rw [h1, h2]; exact Or.inr (Or.inl ⟨x, rfl, rfl⟩)
    · rw [h1, h2]
      simp only [Res.ok_bind]
      cases fillVertexMap (number 0 (firstSeen es)) prizes (fun _ => 0) with
      | ub x => exact Or.inl ⟨x, rfl, rfl⟩
      | throw x => exact Or.inr (Or.inl ⟨x, rfl, rfl⟩)
      | ok pr => exact Or.inr (Or.inr ⟨_, _, rfl, rfl, rfl, rfl, rfl, h3⟩)

/-- A binding without a root. -/
theorem prepare_bind_order {β : Type} {es es' : List (α × α)} (hadj : ∀ x y, AdjIn es x y ↔ AdjIn es' x y)
    (hseen : (endpoints es).eraseDups = (endpoints es').eraseDups) (tour : List α) (costs : List ((α × α) × Int)) (prizes : List (α × Int))
    (k : Renamed α → Res β) (hk : ∀ q p : Renamed α, q.lookup = p.lookup → q.tour = p.tour → q.prize = p.prize →
      SameCosts p.graph p.cost q.graph q.cost → k q = k p) :
    (prepare es' tour costs prizes >>= k) = (prepare es tour costs prizes >>= k) := by
  rcases (prepare_order hadj hseen).2 tour costs prizes with ⟨x, h1, h2⟩ | ⟨x, h1, h2⟩ | ⟨q, p, h1, h2, h3, h4, h5, h6⟩
  · rw [h1, h2]
  · rw [h1, h2]
  · rw [h1, h2]
    exact hk q p h3 h4 h5 h6

/-- A binding with a root. -/
theorem prepareRoot_bind_order {β : Type} {es es' : List (α × α)} (hadj : ∀ x y, AdjIn es x y ↔ AdjIn es' x y)
    (hseen : (endpoints es).eraseDups = (endpoints es').eraseDups) (tour : List α) (costs : List ((α × α) × Int)) (prizes : List (α × Int)) (root : α)
    (k : Renamed α × Nat → Res β) (hk : ∀ (q p : Renamed α) (r : Nat), q.lookup = p.lookup → q.tour = p.tour → q.prize = p.prize →
      SameCosts p.graph p.cost q.graph q.cost → k (q, r) = k (p, r)) :
    (prepareRoot es' tour costs prizes root >>= k) = (prepareRoot es tour costs prizes root >>= k) := by
  rw [prepareRoot, prepareRoot]
  simp only [(prepare_order hadj hseen).1]
  cases getNewVertex (renameEdges [] es).2 root with
  | ub x => rfl
  | throw x => rfl
  | ok r =>
    simp only [Res.ok_bind]
    rcases (prepare_order hadj hseen).2 tour costs prizes with ⟨x, h1, h2⟩ | ⟨x, h1, h2⟩ | ⟨q, p, h1, h2, h3, h4, h5, h6⟩
    · rw [h1, h2]
    · rw [h1, h2]
    · rw [h1, h2]
      exact hk q p r h3 h4 h5 h6

end Pctsp
