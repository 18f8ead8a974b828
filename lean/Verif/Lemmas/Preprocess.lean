import Verif.Spec.Cycles
import Verif.Lemmas.Walk

/-! # Lemmas about the preprocessing -/

namespace Pctsp

variable {V : Type} [DecidableEq V]

theorem degreeWithoutSelfLoops_eq (g : NxGraph V) (v : V) :
    degreeWithoutSelfLoops g v = ((g.adj v).filter (· ≠ v)).length := by
  have h : ∀ (l : List V) (k : Nat), l.foldl (fun count u => if u ≠ v then count + 1 else count) k = k + (l.filter (· ≠ v)).length := by
    intro l
    induction l with
    | nil => simp
    | cons a l ih =>
      intro k
      rw [List.foldl_cons, ih]
      by_cases h : a = v <;> simp [h]
      omega
  simp only [degreeWithoutSelfLoops]
  rw [h]; simp

/-- A vertex that is not a leaf has two other neighbours. -/
theorem two_le_degree_iff {g : NxGraph V} (hg : g.WF) (v : V) :
    ¬ degreeWithoutSelfLoops g v ≤ 1 ↔ ∃ a b, a ≠ b ∧ a ≠ v ∧ b ≠ v ∧ a ∈ g.adj v ∧ b ∈ g.adj v := by
  rw [degreeWithoutSelfLoops_eq]
  have hn : ((g.adj v).filter (· ≠ v)).Nodup := (hg.adjNodup v).filter _
  have hm : ∀ x, x ∈ (g.adj v).filter (· ≠ v) ↔ x ∈ g.adj v ∧ x ≠ v := by simp
  generalize (g.adj v).filter (· ≠ v) = l at *
  constructor
  · intro h
    match l, hn, h with
    | a :: b :: l, hn, _ =>
      have ha := (hm a).1 (by simp)
      have hb := (hm b).1 (by simp)
      refine ⟨a, b, ?_, ha.2, hb.2, ha.1, hb.1⟩
      rintro rfl; simp at hn
    | [], _, h => simp at h
    | [a], _, h => simp at h
  · rintro ⟨a, b, hab, hav, hbv, ha, hb⟩ h
    have ha' := (hm a).2 ⟨ha, hav⟩
    have hb' := (hm b).2 ⟨hb, hbv⟩
    match l, h, ha', hb' with
    | [c], _, ha', hb' =>
      simp at ha' hb'; exact hab (ha'.trans hb'.symm)
    | [], _, ha', _ => simp at ha'
    | _ :: _ :: _, h, _, _ => simp at h

namespace NxGraph

@[simp] theorem mem_subgraph_nodes {g : NxGraph V} {s : List V} {v : V} : v ∈ (g.subgraph s).nodes ↔ v ∈ g.nodes ∧ v ∈ s := by
  simp [subgraph]

@[simp] theorem mem_subgraph_adj {g : NxGraph V} {s : List V} {u v : V} :
    v ∈ (g.subgraph s).adj u ↔ v ∈ g.adj u ∧ u ∈ s ∧ v ∈ s := by
  by_cases h : u ∈ s <;> simp [subgraph, h]

theorem WF.subgraph {g : NxGraph V} (hg : g.WF) (s : List V) : (g.subgraph s).WF where
  nodup := hg.nodup.filter _
  adjNodup u := by
    simp only [NxGraph.subgraph]
    split
    · exact (hg.adjNodup u).filter _
    · exact List.nodup_nil
  closed u v h := by
    rw [mem_subgraph_adj] at h
    have := hg.closed u v h.1
    simp [this, h]
  symm u v h := by
    rw [mem_subgraph_adj] at h ⊢
    exact ⟨hg.symm u v h.1, h.2.2, h.2.1⟩

theorem subgraph_subgraph (g : NxGraph V) (s t : List V) : (g.subgraph s).subgraph t = g.subgraph (s.filter (· ∈ t)) := by
  simp only [subgraph, NxGraph.mk.injEq]
  constructor
  · rw [List.filter_filter]
    congr 1; funext v; simp [Bool.and_comm]
  · funext u
    by_cases h1 : u ∈ s <;> by_cases h2 : u ∈ t <;> simp [h1, h2, List.filter_filter, Bool.and_comm]

theorem subgraph_self {g : NxGraph V} (hg : g.WF) {s : List V} (hs : ∀ v ∈ g.nodes, v ∈ s) : g.subgraph s = g := by
  cases g with
  | mk nodes adj =>
    simp only [subgraph, NxGraph.mk.injEq]
    constructor
    · rw [List.filter_eq_self]; intro v hv; simpa using hs v hv
    · funext u
      have hc : ∀ v ∈ adj u, u ∈ s ∧ v ∈ s := fun v hv => ⟨hs _ (hg.closed u v hv).1, hs _ (hg.closed u v hv).2⟩
      split
      · rw [List.filter_eq_self]; intro v hv; simpa using (hc v hv).2
      · rename_i hu
        symm; rw [List.eq_nil_iff_forall_not_mem]
        intro v hv; exact hu (hc v hv).1

end NxGraph

/-- Neighbours inside `s` do not depend on the rest of the graph. -/
theorem twoNeighbours_subgraph {g : NxGraph V} {s : List V} {S : V → Prop} (hS : ∀ v, S v → v ∈ s) :
    TwoNeighbours (g.subgraph s) S ↔ TwoNeighbours g S := by
  constructor
  · intro h v hv
    obtain ⟨a, b, h1, h2, h3, h4, h5, h6, h7⟩ := h v hv
    rw [NxGraph.mem_subgraph_adj] at h4 h5
    exact ⟨a, b, h1, h2, h3, h4.1, h5.1, h6, h7⟩
  · intro h v hv
    obtain ⟨a, b, h1, h2, h3, h4, h5, h6, h7⟩ := h v hv
    refine ⟨a, b, h1, h2, h3, ?_, ?_, h6, h7⟩ <;> rw [NxGraph.mem_subgraph_adj]
    · exact ⟨h4, hS v hv, hS a h6⟩
    · exact ⟨h5, hS v hv, hS b h7⟩

/-- The invariant of the recursion of `remove_leaves`. -/
theorem removeLeaves_spec : ∀ (depth : Nat) (g : NxGraph V), g.WF → ∀ h, removeLeaves depth g = .ok h →
    ∃ s, h = g.subgraph s ∧ TwoNeighbours h (· ∈ h.nodes) ∧
      ∀ S : V → Prop, (∀ v, S v → v ∈ g.nodes) → TwoNeighbours g S → ∀ v, S v → v ∈ s := by
  intro depth
  induction depth with
  | zero => intro g _ h hh; simp [removeLeaves] at hh
  | succ depth ih =>
    intro g hg h hh
    rw [removeLeaves] at hh
    have hkeep : ∀ v, v ∈ g.nodes.filter (fun v => v ∉ g.nodes.filter fun v => degreeWithoutSelfLoops g v ≤ 1) ↔
        v ∈ g.nodes ∧ ¬ degreeWithoutSelfLoops g v ≤ 1 := by
      intro v; simp only [List.mem_filter, decide_eq_true_eq]; tauto
    have hS : ∀ S : V → Prop, (∀ v, S v → v ∈ g.nodes) → TwoNeighbours g S → ∀ v, S v →
        v ∈ g.nodes.filter (fun v => v ∉ g.nodes.filter fun v => degreeWithoutSelfLoops g v ≤ 1) := by
      intro S hS h2 v hv
      rw [hkeep, two_le_degree_iff hg]
      obtain ⟨a, b, h1, h2, h3, h4, h5, _, _⟩ := h2 v hv
      exact ⟨hS v hv, a, b, h1, h2, h3, h4, h5⟩
    generalize hs : g.nodes.filter (fun v => v ∉ g.nodes.filter fun v => degreeWithoutSelfLoops g v ≤ 1) = s at *
    split at hh
    · obtain ⟨t, rfl, h2, h3⟩ := ih _ (hg.subgraph s) h hh
      refine ⟨_, NxGraph.subgraph_subgraph g s t, h2, ?_⟩
      intro S hS' hT v hv
      have hSs := hS S hS' hT
      simp only [List.mem_filter, decide_eq_true_eq]
      refine ⟨hSs v hv, h3 S ?_ ((twoNeighbours_subgraph hSs).2 hT) v hv⟩
      intro v hv
      rw [NxGraph.mem_subgraph_nodes]; exact ⟨hS' v hv, hSs v hv⟩
    · rename_i hl
      simp only [ne_eq, not_not] at hl
      injection hh with hh
      subst hh
      refine ⟨s, rfl, ?_, hS⟩
      have hall : ∀ v ∈ g.nodes, v ∈ s := by
        intro v hv
        rw [hkeep]
        refine ⟨hv, fun hd => ?_⟩
        have : v ∈ g.nodes.filter fun v => degreeWithoutSelfLoops g v ≤ 1 := by simp [hv, hd]
        rw [hl] at this; simp at this
      rw [NxGraph.subgraph_self hg hall]
      intro v hv
      obtain ⟨a, b, h1, h2, h3, h4, h5⟩ := (two_le_degree_iff hg v).1 ((hkeep v).1 (hall v hv)).2
      exact ⟨a, b, h1, h2, h3, h4, h5, (hg.closed _ _ h4).2, (hg.closed _ _ h5).2⟩

/-- Every call but the last one removes a vertex. -/
theorem removeLeaves_ok : ∀ (depth : Nat) (g : NxGraph V), g.nodes.length < depth → ∃ h, removeLeaves depth g = .ok h := by
  intro depth
  induction depth with
  | zero => intro g h; omega
  | succ depth ih =>
    intro g hd
    rw [removeLeaves]
    split
    · rename_i hl
      apply ih
      obtain ⟨v, hv⟩ := List.exists_mem_of_ne_nil _ hl
      have hlt : ((g.nodes.filter fun v => v ∈ g.nodes.filter (fun v => v ∉ g.nodes.filter fun v => degreeWithoutSelfLoops g v ≤ 1))).length
          < g.nodes.length := by
        apply List.length_filter_lt_length_iff_exists.2
        refine ⟨v, (List.mem_filter.1 hv).1, ?_⟩
        simp only [List.mem_filter, decide_eq_true_eq] at hv ⊢
        tauto
      simp only [NxGraph.subgraph]
      omega
    · exact ⟨_, rfl⟩

/-- More depth does not change the answer. -/
theorem removeLeaves_mono : ∀ (depth : Nat) (g h : NxGraph V), removeLeaves depth g = .ok h → removeLeaves (depth + 1) g = .ok h := by
  intro depth
  induction depth with
  | zero => intro g h hh; simp [removeLeaves] at hh
  | succ depth ih =>
    intro g h hh
    rw [removeLeaves] at hh ⊢
    split at hh
    · rename_i hl; rw [if_pos hl]; exact ih _ _ hh
    · rename_i hl; rw [if_neg hl]; exact hh

theorem removeLeaves_outcome : ∀ (depth : Nat) (g : NxGraph V), (∃ h, removeLeaves depth g = .ok h) ∨ removeLeaves depth g = .throw .recursionError := by
  intro depth
  induction depth with
  | zero => intro g; exact .inr rfl
  | succ depth ih =>
    intro g
    rw [removeLeaves]
    split
    · exact ih _
    · exact .inl ⟨_, rfl⟩

theorem removeLeaves_unique {d e : Nat} {g h k : NxGraph V} (h1 : removeLeaves d g = .ok h) (h2 : removeLeaves e g = .ok k) : h = k := by
  have up : ∀ (n d : Nat) (h : NxGraph V), removeLeaves d g = .ok h → removeLeaves (d + n) g = .ok h := by
    intro n
    induction n with
    | zero => intro d h hh; exact hh
    | succ n ih => intro d h hh; exact removeLeaves_mono _ _ _ (ih d h hh)
  have a := up e d h h1
  have b := up d e k h2
  rw [Nat.add_comm] at b
  rw [a] at b; injection b

omit [DecidableEq V] in
theorem mem_consec_append (A B : List V) (a b : V) : (a, b) ∈ consec (A ++ a :: b :: B) := by
  induction A with
  | nil => simp
  | cons x A ih =>
    cases A with
    | nil => simp
    | cons y A =>
      simp only [List.cons_append, consec_cons_cons] at ih ⊢
      exact List.mem_cons_of_mem _ ih

omit [DecidableEq V] in
/-- The vertices of a cycle have two neighbours each on it. -/
theorem NxCycle.twoNeighbours {g : NxGraph V} (hg : g.WF) {vs : List V} (h : NxCycle g vs) : TwoNeighbours g (· ∈ vs) := by
  intro v hv
  obtain ⟨A, B, rfl⟩ := List.append_of_mem hv
  have hw := h.closed
  have hn := h.nodup
  have hl := h.long
  -- the next vertex `x` and the previous vertex `y`
  rcases B with _ | ⟨x, B⟩
  · rcases A with _ | ⟨x, A⟩
    · simp at hl
    · rcases List.eq_nil_or_concat A with rfl | ⟨A, y, rfl⟩
      · simp at hl
      · simp only [List.concat_eq_append] at *
        have e1 : (y, v) ∈ consec (x :: (A ++ [y]) ++ [v] ++ List.take 1 (x :: (A ++ [y]) ++ [v])) := by
          have := mem_consec_append (x :: A) [x] y v
          simpa using this
        have e2 : (v, x) ∈ consec (x :: (A ++ [y]) ++ [v] ++ List.take 1 (x :: (A ++ [y]) ++ [v])) := by
          have := mem_consec_append (x :: (A ++ [y])) [] v x
          simpa using this
        refine ⟨x, y, ?_, ?_, ?_, hw _ e2, hg.symm _ _ (hw _ e1), by simp, by simp⟩ <;> rintro rfl <;> simp [List.nodup_append] at hn
  · rcases List.eq_nil_or_concat A with rfl | ⟨A, y, rfl⟩
    · rcases List.eq_nil_or_concat B with rfl | ⟨B, y, rfl⟩
      · simp at hl
      · simp only [List.concat_eq_append, List.nil_append] at *
        have e1 : (y, v) ∈ consec (v :: x :: (B ++ [y]) ++ List.take 1 (v :: x :: (B ++ [y]))) := by
          have := mem_consec_append (v :: x :: B) [] y v
          simpa using this
        have e2 : (v, x) ∈ consec (v :: x :: (B ++ [y]) ++ List.take 1 (v :: x :: (B ++ [y]))) := by
          have := mem_consec_append [] (B ++ [y] ++ [v]) v x
          simp
        refine ⟨x, y, ?_, ?_, ?_, hw _ e2, hg.symm _ _ (hw _ e1), by simp, by simp⟩ <;> rintro rfl <;> simp [List.nodup_append] at hn
    · simp only [List.concat_eq_append] at *
      have e1 : (y, v) ∈ consec (A ++ [y] ++ v :: x :: B ++ List.take 1 (A ++ [y] ++ v :: x :: B)) := by
        have := mem_consec_append A (x :: B ++ List.take 1 (A ++ [y] ++ v :: x :: B)) y v
        simpa using this
      have e2 : (v, x) ∈ consec (A ++ [y] ++ v :: x :: B ++ List.take 1 (A ++ [y] ++ v :: x :: B)) := by
        have := mem_consec_append (A ++ [y]) (B ++ List.take 1 (A ++ [y] ++ v :: x :: B)) v x
        simpa using this
      refine ⟨x, y, ?_, ?_, ?_, hw _ e2, hg.symm _ _ (hw _ e1), by simp, by simp⟩ <;> rintro rfl <;> simp [List.nodup_append] at hn

/-- The cycles of an induced subgraph are the cycles inside it. -/
theorem nxCycle_subgraph {g : NxGraph V} {s vs : List V} : NxCycle (g.subgraph s) vs ↔ NxCycle g vs ∧ ∀ v ∈ vs, v ∈ s := by
  constructor
  · rintro ⟨h1, h2, h3, h4⟩
    refine ⟨⟨h1, h2, fun v hv => (NxGraph.mem_subgraph_nodes.1 (h3 v hv)).1, fun p hp => (NxGraph.mem_subgraph_adj.1 (h4 p hp)).1⟩,
      fun v hv => (NxGraph.mem_subgraph_nodes.1 (h3 v hv)).2⟩
  · rintro ⟨⟨h1, h2, h3, h4⟩, h5⟩
    refine ⟨h1, h2, fun v hv => NxGraph.mem_subgraph_nodes.2 ⟨h3 v hv, h5 v hv⟩, fun p hp => ?_⟩
    have hin : ∀ x ∈ vs ++ vs.take 1, x ∈ s := by
      intro x hx
      rcases List.mem_append.1 hx with hx | hx
      · exact h5 x hx
      · exact h5 x (List.mem_of_mem_take hx)
    have := mem_of_mem_consec hp
    exact NxGraph.mem_subgraph_adj.2 ⟨h4 p hp, hin _ this.1, hin _ this.2⟩

theorem NxGraph.subgraph_congr {g : NxGraph V} {s t : List V} (h : ∀ v, v ∈ s ↔ v ∈ t) : g.subgraph s = g.subgraph t := by
  simp only [NxGraph.subgraph, h]

/-- The vertices that `remove_one_connected_components` keeps. -/
theorem mem_rootComponent {root v : V} : ∀ (cs : List (List V)) (acc : List V),
    v ∈ cs.foldl (fun acc c => if root ∈ c ∧ 3 ≤ c.length then acc ++ c else acc) acc ↔
      v ∈ acc ∨ ∃ c ∈ cs, root ∈ c ∧ 3 ≤ c.length ∧ v ∈ c := by
  intro cs
  induction cs with
  | nil => simp
  | cons c cs ih =>
    intro acc
    rw [List.foldl_cons, ih]
    by_cases h : root ∈ c ∧ 3 ≤ c.length
    · simp only [if_pos h, List.mem_append, List.mem_cons, exists_eq_or_imp]; tauto
    · simp only [if_neg h, List.mem_cons, exists_eq_or_imp]; tauto

omit [DecidableEq V] in
/-- The vertices of a closed walk are connected to each other: a list of vertices is connected along itself. -/
theorem nxConnected_of_walk {g : NxGraph V} {l : List V} (hw : NxWalk g l) {u v : V} (hu : l.head? = some u) (hv : v ∈ l) : NxConnected g u v := by
  obtain ⟨A, B, rfl⟩ := List.append_of_mem hv
  refine ⟨A ++ [v], ?_, ?_, by simp⟩
  · intro p hp
    apply hw
    rw [consec_append]
    exact List.mem_append_left _ hp
  · cases A <;> simpa using hu

end Pctsp
