import Verif.Props.Preprocess

/-! Helper lemmas: running the preprocessing on its own result. -/

namespace Pctsp

variable {V : Type} [DecidableEq V]

omit [DecidableEq V] in
/-- A walk can be shortened to one without repetition. -/
theorem NxConnected.simple [DecidableEq V] {g : NxGraph V} {u v : V} (h : NxConnected g u v) :
    ∃ l, NxWalk g l ∧ l.head? = some u ∧ l.getLast? = some v ∧ l.Nodup := by
  obtain ⟨l, hw, hu, hv⟩ := h
  induction l generalizing u with
  | nil => simp at hu
  | cons a l ih =>
    simp only [List.head?_cons, Option.some.injEq] at hu
    subst hu
    cases l with
    | nil =>
      simp only [List.getLast?_singleton, Option.some.injEq] at hv
      subst hv
      exact ⟨[a], by intro p hp; simp at hp, rfl, rfl, by simp⟩
    | cons b l =>
      have hw' : NxWalk g (b :: l) := fun p hp => hw p (by rw [consec_cons_cons]; exact List.mem_cons_of_mem _ hp)
      obtain ⟨k, k1, k2, k3, k4⟩ := ih hw' rfl (by simpa using hv)
      by_cases ha : a ∈ k
      · obtain ⟨A, B, rfl⟩ := List.append_of_mem ha
        refine ⟨a :: B, fun p hp => k1 p ?_, rfl, ?_, (List.nodup_append.1 k4).2.1⟩
        · rw [consec_append]; exact List.mem_append_right _ hp
        · rw [List.getLast?_append] at k3; simpa using k3
      · cases k with
        | nil => simp at k2
        | cons c k =>
          simp only [List.head?_cons, Option.some.injEq] at k2
          subst k2
          refine ⟨a :: c :: k, ?_, rfl, by simpa using k3, List.nodup_cons.2 ⟨ha, k4⟩⟩
          intro p hp
          rw [consec_cons_cons, List.mem_cons] at hp
          rcases hp with rfl | hp
          · exact hw _ (by rw [consec_cons_cons]; exact List.mem_cons_self)
          · exact k1 p hp

/-- Removing leaves disconnects nothing that stays. -/
theorem removeLeaves_connected {g h : NxGraph V} (hg : g.WF) {depth : Nat} (hh : removeLeaves depth g = .ok h) {u v : V} (hu : u ∈ h.nodes)
    (hv : v ∈ h.nodes) (hc : NxConnected g u v) : NxConnected h u v := by
  obtain ⟨s, rfl, h2, h3⟩ := removeLeaves_spec _ g hg _ hh
  obtain ⟨l, l1, l2, l3, l4⟩ := hc.simple
  have hin : ∀ w ∈ l, w ∈ s := by
    have key : ∀ w ∈ l, w ∉ (g.subgraph s).nodes → ∃ x y, x ≠ y ∧ x ≠ w ∧ y ≠ w ∧ x ∈ g.adj w ∧ y ∈ g.adj w ∧ x ∈ l ∧ y ∈ l := by
      intro w hw hns
      obtain ⟨A, B, rfl⟩ := List.append_of_mem hw
      rcases List.eq_nil_or_concat A with rfl | ⟨A, y, rfl⟩
      · simp only [List.nil_append, List.head?_cons, Option.some.injEq] at l2
        exact absurd (l2 ▸ hu) hns
      · rcases B with _ | ⟨x, B⟩
        · simp only [List.concat_eq_append, List.getLast?_append, List.getLast?_singleton, Option.some_or, Option.some.injEq] at l3
          exact absurd (l3 ▸ hv) hns
        · simp only [List.concat_eq_append] at *
          have e1 : (y, w) ∈ consec (A ++ [y] ++ w :: x :: B) := by
            have := mem_consec_append A (x :: B) y w; simpa using this
          have e2 : (w, x) ∈ consec (A ++ [y] ++ w :: x :: B) := mem_consec_append (A ++ [y]) B w x
          refine ⟨x, y, ?_, ?_, ?_, l1 _ e2, hg.symm _ _ (l1 _ e1), by simp, by simp⟩ <;> rintro rfl <;> simp [List.nodup_append] at l4
    have h2' := h2
    rw [twoNeighbours_subgraph (fun v hv => (NxGraph.mem_subgraph_nodes.1 hv).2)] at h2'
    intro w hw
    refine h3 (fun w => w ∈ (g.subgraph s).nodes ∨ w ∈ l) ?_ ?_ w (.inr hw)
    · rintro w (hw | hw)
      · exact (NxGraph.mem_subgraph_nodes.1 hw).1
      · by_cases hns : w ∈ (g.subgraph s).nodes
        · exact (NxGraph.mem_subgraph_nodes.1 hns).1
        · obtain ⟨x, _, _, _, _, hx, _⟩ := key w hw hns
          exact (hg.closed _ _ hx).1
    · intro w hw
      by_cases hns : w ∈ (g.subgraph s).nodes
      · obtain ⟨a, b, q1, q2, q3, q4, q5, q6, q7⟩ := h2' w hns
        exact ⟨a, b, q1, q2, q3, q4, q5, .inl q6, .inl q7⟩
      · obtain ⟨x, y, q1, q2, q3, q4, q5, q6, q7⟩ := key w (hw.resolve_left hns) hns
        exact ⟨x, y, q1, q2, q3, q4, q5, .inr q6, .inr q7⟩
  exact ⟨l, fun p hp => NxGraph.mem_subgraph_adj.2 ⟨l1 p hp, hin _ (mem_of_mem_consec hp).1, hin _ (mem_of_mem_consec hp).2⟩, l2, l3⟩

/-- A graph without leaves is left alone. -/
theorem removeLeaves_of_two {h : NxGraph V} (hw : h.WF) (h1 : TwoNeighbours h (· ∈ h.nodes)) (d : Nat) : removeLeaves (d + 1) h = .ok h := by
  have hno : h.nodes.filter (fun v => degreeWithoutSelfLoops h v ≤ 1) = [] := by
    rw [List.filter_eq_nil_iff]
    intro v hv
    obtain ⟨a, b, ha⟩ := h1 v hv
    have := (two_le_degree_iff hw v).2 ⟨a, b, ha.1, ha.2.1, ha.2.2.1, ha.2.2.2.1, ha.2.2.2.2.1⟩
    simpa using this
  rw [removeLeaves]
  simp only [hno, ne_eq, not_true_eq_false, if_false]
  rw [NxGraph.subgraph_self hw]
  intro v hv; simpa using hv

/-- The component of the root is connected. -/
theorem component_connected {g : NxGraph V} {root : V} {c : List V} (hc : IsNodeComponent g root c) (hg : g.WF)
    {v : V} (hv : v ∈ (g.subgraph c).nodes) : NxConnected (g.subgraph c) root v := by
  rw [NxGraph.mem_subgraph_nodes] at hv
  obtain ⟨l, l1, l2, l3⟩ := ((hc v).1 hv.2).2
  refine ⟨l, fun p hp => ?_, l2, l3⟩
  have hin : ∀ x ∈ l, x ∈ g.nodes → x ∈ c := fun x hx hn => (hc x).2 ⟨hn, nxConnected_of_walk l1 l2 hx⟩
  have := l1 p hp
  have hm := mem_of_mem_consec hp
  exact NxGraph.mem_subgraph_adj.2 ⟨this, hin _ hm.1 (hg.closed _ _ this).1, hin _ hm.2 (hg.closed _ _ this).2⟩

/-- A graph whose vertices are all on cycles through the root is left alone by the third step. -/
theorem removeOneConnected_self {components : NxGraph V → List (List V)} {h : NxGraph V} (hw : h.WF) {root : V}
    (hb : IsBicomponents h (components h)) (hall : ∀ v ∈ h.nodes, v = root ∨ ∃ vs, NxCycle h vs ∧ root ∈ vs ∧ v ∈ vs) :
    removeOneConnected components h root = h := by
  have hmem := C70_one_connected components h root hb
  unfold removeOneConnected at hmem ⊢
  refine NxGraph.subgraph_self hw fun v hv => ?_
  exact (NxGraph.mem_subgraph_nodes.1 ((hmem v).2 ⟨hv, hall v hv⟩)).2

/-- The first step on a graph that is connected to the root. -/
theorem removeDisconnected_self {component : NxGraph V → V → List V} {h : NxGraph V} (hw : h.WF) {root : V} (hr : root ∈ h.nodes)
    (hc : IsNodeComponent h root (component h root)) (hall : ∀ v ∈ h.nodes, NxConnected h root v) :
    removeDisconnected component h root = .ok h := by
  unfold removeDisconnected
  rw [if_pos hr, NxGraph.subgraph_self hw fun v hv => (hc v).2 ⟨hv, hall v hv⟩]

end Pctsp
