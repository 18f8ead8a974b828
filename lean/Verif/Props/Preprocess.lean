import Verif.Lemmas.Preprocess
import Mathlib.Data.List.Perm.Subperm

/-!
# Properties of the preprocessing (C69, C70)
-/

namespace Pctsp

variable {V : Type} [DecidableEq V]

/-! ## C69: removing leaves -/

/-- C69.  There is one graph that `remove_leaves` returns at every recursion limit that suffices, and a limit above the number of vertices
does.  A vertex is kept iff it belongs to a set of vertices that have two other neighbours each in the set; edges between kept
vertices are kept. -/
theorem C69_remove_leaves (g : NxGraph V) (hg : g.WF) : ∃ h : NxGraph V,
    (∀ depth, removeLeaves depth g = .ok h ∨ removeLeaves depth g = .throw .recursionError) ∧
    (∀ depth, g.nodes.length < depth → removeLeaves depth g = .ok h) ∧
    (∀ v, v ∈ h.nodes ↔ ∃ S : V → Prop, (∀ w, S w → w ∈ g.nodes) ∧ TwoNeighbours g S ∧ S v) ∧
    (∀ u v, v ∈ h.adj u ↔ v ∈ g.adj u ∧ u ∈ h.nodes ∧ v ∈ h.nodes) := by
  obtain ⟨h, hh⟩ := removeLeaves_ok (g.nodes.length + 1) g (Nat.lt_succ_self _)
  refine ⟨h, ?_, ?_, ?_, ?_⟩
  · intro depth
    rcases removeLeaves_outcome depth g with ⟨k, hk⟩ | hk
    · left; rw [hk, removeLeaves_unique hk hh]
    · exact .inr hk
  · intro depth hd
    obtain ⟨k, hk⟩ := removeLeaves_ok depth g hd
    rw [hk, removeLeaves_unique hk hh]
  · obtain ⟨s, rfl, h1, h2⟩ := removeLeaves_spec _ g hg _ hh
    intro v
    constructor
    · intro hv
      refine ⟨(· ∈ (g.subgraph s).nodes), fun w hw => (NxGraph.mem_subgraph_nodes.1 hw).1, ?_, hv⟩
      exact (twoNeighbours_subgraph fun w hw => (NxGraph.mem_subgraph_nodes.1 hw).2).1 h1
    · rintro ⟨S, hS, hT, hv⟩
      exact NxGraph.mem_subgraph_nodes.2 ⟨hS v hv, h2 S hS hT v hv⟩
  · obtain ⟨s, rfl, -, -⟩ := removeLeaves_spec _ g hg _ hh
    intro u v
    rw [NxGraph.mem_subgraph_adj, NxGraph.mem_subgraph_nodes, NxGraph.mem_subgraph_nodes]
    constructor
    · rintro ⟨h1, h2, h3⟩
      exact ⟨h1, ⟨(hg.closed _ _ h1).1, h2⟩, (hg.closed _ _ h1).2, h3⟩
    · tauto

/-- C69.  The cycles of the graph are those of the result: no tour is lost. -/
theorem C69_keeps_cycles (g h : NxGraph V) (hg : g.WF) (depth : Nat) (hh : removeLeaves depth g = .ok h) (vs : List V) :
    NxCycle h vs ↔ NxCycle g vs := by
  obtain ⟨s, rfl, -, h2⟩ := removeLeaves_spec _ g hg _ hh
  rw [nxCycle_subgraph]
  constructor
  · exact fun h => h.1
  · exact fun h => ⟨h, fun v hv => h2 _ h.inside (h.twoNeighbours hg) v hv⟩

/-- C69.  Removing leaves from the result changes nothing. -/
theorem C69_idempotent (g h : NxGraph V) (hg : g.WF) (depth d : Nat) (hh : removeLeaves depth g = .ok h) :
    removeLeaves (d + 1) h = .ok h := by
  obtain ⟨s, rfl, h1, -⟩ := removeLeaves_spec _ g hg _ hh
  have hw := hg.subgraph s
  have hno : (g.subgraph s).nodes.filter (fun v => degreeWithoutSelfLoops (g.subgraph s) v ≤ 1) = [] := by
    rw [List.filter_eq_nil_iff]
    intro v hv
    obtain ⟨a, b, ha⟩ := h1 v hv
    have := (two_le_degree_iff hw v).2 ⟨a, b, ha.1, ha.2.1, ha.2.2.1, ha.2.2.2.1, ha.2.2.2.2.1⟩
    simpa using this
  rw [removeLeaves]
  simp only [hno, ne_eq, not_true_eq_false, if_false]
  rw [NxGraph.subgraph_self hw]
  intro v hv; simpa using hv

/-- The path through the `m` vertices from `a` on. -/
structure IsPathGraph (g : NxGraph Nat) (a m : Nat) : Prop where
  wf : g.WF
  nodes : ∀ v, v ∈ g.nodes ↔ a ≤ v ∧ v < a + m
  adj : ∀ u v, v ∈ g.adj u ↔ (v = u + 1 ∨ u = v + 1) ∧ (a ≤ u ∧ u < a + m) ∧ (a ≤ v ∧ v < a + m)

/-- C69.  The recursion loses the two ends of a path in each call, so a path of `m` vertices needs more than `m / 2` nested calls: every
recursion limit is exceeded by some graph. -/
theorem C69_recursion (g : NxGraph Nat) (a m depth : Nat) (h : IsPathGraph g a m) :
    removeLeaves depth g = .throw .recursionError ↔ 2 * depth < m + 2 := by
  induction depth generalizing g a m with
  | zero => simp [removeLeaves]
  | succ depth ih =>
    have hleaf : ∀ v, v ∈ g.nodes.filter (fun v => degreeWithoutSelfLoops g v ≤ 1) ↔ (a ≤ v ∧ v < a + m) ∧ (v = a ∨ v + 1 = a + m) := by
      intro v
      rw [List.mem_filter, h.nodes]
      apply and_congr_right
      intro hv
      rw [decide_eq_true_eq, ← not_iff_not, two_le_degree_iff h.wf]
      constructor
      · rintro ⟨x, y, hxy, hx, hy, h1, h2⟩ hend
        rw [h.adj] at h1 h2
        omega
      · intro hend
        refine ⟨v - 1, v + 1, by omega, by omega, by omega, ?_, ?_⟩ <;> rw [h.adj] <;> omega
    rw [removeLeaves]
    by_cases hm : m = 0
    · have : g.nodes.filter (fun v => degreeWithoutSelfLoops g v ≤ 1) = [] := by
        rw [List.eq_nil_iff_forall_not_mem]; intro v hv; rw [hleaf] at hv; omega
      simp [this, hm]; omega
    · have hne : g.nodes.filter (fun v => degreeWithoutSelfLoops g v ≤ 1) ≠ [] := by
        intro h0
        have := (hleaf a).2 (by omega)
        rw [h0] at this; simp at this
      rw [if_pos hne]
      have hk : ∀ v, v ∈ g.nodes.filter (fun v => v ∉ g.nodes.filter fun v => degreeWithoutSelfLoops g v ≤ 1) ↔
          a + 1 ≤ v ∧ v < a + 1 + (m - 2) := by
        intro v
        rw [List.mem_filter, decide_eq_true_eq, hleaf, h.nodes]; omega
      rw [ih _ (a + 1) (m - 2)]
      · omega
      · refine ⟨h.wf.subgraph _, ?_, ?_⟩
        · intro v
          rw [NxGraph.mem_subgraph_nodes, hk, h.nodes]; omega
        · intro u v
          rw [NxGraph.mem_subgraph_adj, hk, hk, h.adj]; omega

/-- The path graph. -/
def nxPath (m : Nat) : NxGraph Nat where
  nodes := List.range m
  adj u := (List.range m).filter fun v => u < m ∧ (v = u + 1 ∨ u = v + 1)

theorem nxPath_isPathGraph (m : Nat) : IsPathGraph (nxPath m) 0 m where
  wf := {
    nodup := List.nodup_range
    adjNodup := fun u => List.nodup_range.filter _
    closed := by intro u v h; simp [nxPath] at h ⊢; omega
    symm := by intro u v h; simp [nxPath] at h ⊢; omega }
  nodes := by intro v; simp [nxPath]
  adj := by intro u v; simp [nxPath]; omega

-- a limit of 1000 nested calls is too small for a path of 1999 vertices (and enough for 1998)
example : removeLeaves 1000 (nxPath 1999) = .throw .recursionError := (C69_recursion _ 0 1999 1000 (nxPath_isPathGraph _)).2 (by omega)
example : removeLeaves 1000 (nxPath 1998) ≠ .throw .recursionError := fun h => by
  have := (C69_recursion _ 0 1998 1000 (nxPath_isPathGraph _)).1 h; omega

/-- A triangle 0-1-2 with a tail 2-3-4, a triangle 4-5-6, a leaf 7 at 0 and a loop at 8. -/
def nxExample : NxGraph Nat :=
  let es := [(0, 1), (1, 2), (2, 0), (2, 3), (3, 4), (4, 5), (5, 6), (6, 4), (0, 7)]
  { nodes := List.range 9
    adj := fun u => if u < 9 then (List.range 9).filter fun v => (u, v) ∈ es ∨ (v, u) ∈ es ∨ (u = 8 ∧ v = 8) else [] }

theorem nxExample_wf : nxExample.WF := by
  have hin : ∀ u v, v ∈ nxExample.adj u → u < 9 ∧ v < 9 := by
    intro u v h
    by_cases hu : u < 9
    · simp only [nxExample, hu, if_true, List.mem_filter, List.mem_range] at h; exact ⟨hu, h.1⟩
    · simp [nxExample, hu] at h
  refine ⟨List.nodup_range, ?_, ?_, ?_⟩
  · intro u
    simp only [nxExample]
    split
    · exact List.nodup_range.filter _
    · exact List.nodup_nil
  · intro u v h
    simpa [nxExample] using hin u v h
  · intro u v h
    have hall : ∀ u < 9, ∀ v < 9, v ∈ nxExample.adj u → u ∈ nxExample.adj v := by decide +kernel
    exact hall u (hin u v h).1 v (hin u v h).2 h

-- the leaf and the loop go, the path between the triangles stays
example : ∃ h, removeLeaves 10 nxExample = .ok h ∧ h.nodes = [0, 1, 2, 3, 4, 5, 6] := by
  refine ⟨_, rfl, ?_⟩
  decide +kernel

example : NxCycle nxExample [0, 1, 2] :=
  ⟨by decide, by decide, by decide, by unfold NxWalk; decide⟩

/-! ## C70: all preprocessing steps -/

/-- The kept vertices of `remove_one_connected_components`: the root and every vertex on a cycle through the root. -/
theorem C70_one_connected (components : NxGraph V → List (List V)) (g : NxGraph V) (root : V)
    (hc : IsBicomponents g (components g)) (v : V) :
    v ∈ (removeOneConnected components g root).nodes ↔
      v ∈ g.nodes ∧ (v = root ∨ ∃ vs, NxCycle g vs ∧ root ∈ vs ∧ v ∈ vs) := by
  simp only [removeOneConnected, NxGraph.mem_subgraph_nodes, List.mem_filter, decide_eq_true_eq, mem_rootComponent, List.mem_singleton]
  constructor
  · rintro ⟨h1, -, h | ⟨c, h2, h3, h4, h5⟩⟩
    · exact ⟨h1, .inl h⟩
    · by_cases hv : v = root
      · exact ⟨h1, .inl hv⟩
      · obtain ⟨vs, h6, h7, h8⟩ := hc.common c h2 h4 root h3 v h5 (Ne.symm hv)
        exact ⟨h1, .inr ⟨vs, h6, h7, h8⟩⟩
  · rintro ⟨h1, h⟩
    refine ⟨h1, h1, ?_⟩
    rcases h with h | ⟨vs, h2, h3, h4⟩
    · exact .inl h
    · obtain ⟨c, h5, h6⟩ := hc.cycle vs h2
      refine .inr ⟨c, h5, h6 _ h3, ?_, h6 _ h4⟩
      exact h2.long.trans (List.subperm_of_subset h2.nodup h6).length_le

omit [DecidableEq V] in
/-- A vertex on a cycle reaches every other vertex of the cycle. -/
theorem NxCycle.connected {g : NxGraph V} {vs : List V} (h : NxCycle g vs) {u v : V} (hu : u ∈ vs) (hv : v ∈ vs) : NxConnected g u v := by
  obtain ⟨A, B, rfl⟩ := List.append_of_mem hu
  have hw : NxWalk g (u :: B ++ A ++ [u]) := by
    cases A with
    | nil => simpa [NxWalk] using h.closed
    | cons a A =>
      have h1 := h.closed
      intro p hp
      apply h1
      have e1 : a :: A ++ u :: B ++ List.take 1 (a :: A ++ u :: B) = a :: A ++ u :: (B ++ [a]) := by simp
      have e2 : u :: B ++ a :: A ++ [u] = (u :: B) ++ a :: (A ++ [u]) := by simp
      rw [e1, consec_append]
      rw [e2, consec_append] at hp
      simp only [List.mem_append, List.cons_append] at hp ⊢
      tauto
  refine nxConnected_of_walk hw (by simp) ?_
  simp at hv ⊢; tauto

/-- C70.  The preprocessing keeps every cycle through the root and adds none, whatever the flags: the result is an induced subgraph with the
same tours.  With the third flag and a root on a cycle, the kept vertices are those on a cycle through the root, so the first two
flags make no difference. -/
theorem C70_tours_kept (component : NxGraph V → V → List V) (components : NxGraph V → List (List V)) (depth : Nat) (flags : PreprocessFlags)
    (g h : NxGraph V) (root : V) (hg : g.WF) (h1 : IsNodeComponent g root (component g root))
    (h2 : ∀ g', runPreprocessing component components depth { flags with removeOneConnected := false } g root = .ok g' →
      IsBicomponents g' (components g'))
    (hh : runPreprocessing component components depth flags g root = .ok h) :
    (∃ s, h = g.subgraph s) ∧ (∀ vs, root ∈ vs → (NxCycle h vs ↔ NxCycle g vs)) ∧
    (flags.removeOneConnected = true → (∃ vs, NxCycle g vs ∧ root ∈ vs) →
      ∀ v, v ∈ h.nodes ↔ ∃ vs, NxCycle g vs ∧ root ∈ vs ∧ v ∈ vs) := by
  simp only [runPreprocessing, Res.bind_eq_ok] at hh
  obtain ⟨g1, hg1, g2, hg2, hh⟩ := hh
  -- the first step
  have s1 : ∃ s, g1 = g.subgraph s ∧ ∀ vs, root ∈ vs → NxCycle g vs → ∀ v ∈ vs, v ∈ s := by
    split at hg1
    · simp only [removeDisconnected] at hg1
      split at hg1
      · injection hg1 with hg1
        refine ⟨_, hg1.symm, fun vs hr hc v hv => (h1 v).2 ⟨hc.inside v hv, hc.connected hr hv⟩⟩
      · cases hg1
    · injection hg1 with hg1
      refine ⟨g.nodes, ?_, fun vs _ hc v hv => hc.inside v hv⟩
      rw [NxGraph.subgraph_self hg (fun v hv => hv), hg1]
  obtain ⟨s, rfl, hs⟩ := s1
  -- the second step
  have s2 : ∃ t, g2 = (g.subgraph s).subgraph t ∧ ∀ vs, NxCycle (g.subgraph s) vs → ∀ v ∈ vs, v ∈ t := by
    split at hg2
    · obtain ⟨t, ht, -, ht3⟩ := removeLeaves_spec _ _ (hg.subgraph s) _ hg2
      exact ⟨t, ht, fun vs hc v hv => ht3 _ hc.inside (hc.twoNeighbours (hg.subgraph s)) v hv⟩
    · injection hg2 with hg2
      refine ⟨(g.subgraph s).nodes, ?_, fun vs hc v hv => hc.inside v hv⟩
      rw [NxGraph.subgraph_self (hg.subgraph s) (fun v hv => hv), hg2]
  obtain ⟨t, rfl, ht⟩ := s2
  have hcyc2 : ∀ vs, root ∈ vs → (NxCycle ((g.subgraph s).subgraph t) vs ↔ NxCycle g vs) := by
    intro vs hr
    rw [nxCycle_subgraph, nxCycle_subgraph]
    constructor
    · exact fun h => h.1.1
    · intro h
      have h' : NxCycle (g.subgraph s) vs := nxCycle_subgraph.2 ⟨h, hs vs hr h⟩
      exact ⟨⟨h, hs vs hr h⟩, ht vs h'⟩
  have hnot : flags.shortestPathCutoff = false ∧ flags.disjointPathCutoff = false := by
    split at hh
    · cases hh
    · split at hh
      · cases hh
      · constructor <;> simp_all
  rw [hnot.1, hnot.2] at hh
  simp only [Bool.false_eq_true, if_false] at hh
  injection hh with hh
  by_cases hf : flags.removeOneConnected = true
  · rw [if_pos hf] at hh
    have hb : IsBicomponents ((g.subgraph s).subgraph t) (components ((g.subgraph s).subgraph t)) := by
      apply h2
      simp only [runPreprocessing, Res.bind_eq_ok]
      exact ⟨_, hg1, _, hg2, by simp [hnot]⟩
    have hmem := C70_one_connected components _ root hb
    rw [hh] at hmem
    have hsub : ∃ r, h = ((g.subgraph s).subgraph t).subgraph r := ⟨_, hh.symm⟩
    obtain ⟨r, hr⟩ := hsub
    have hc3 : ∀ vs, root ∈ vs → (NxCycle h vs ↔ NxCycle g vs) := by
      intro vs hroot
      rw [← hcyc2 vs hroot, hr, nxCycle_subgraph]
      constructor
      · exact fun h => h.1
      · intro hc
        refine ⟨hc, fun v hv => ?_⟩
        have := (hmem v).2 ⟨hc.inside v hv, .inr ⟨vs, hc, hroot, hv⟩⟩
        rw [hr, NxGraph.mem_subgraph_nodes] at this
        exact this.2
    refine ⟨?_, hc3, fun _ hex v => ?_⟩
    · rw [hr, NxGraph.subgraph_subgraph, NxGraph.subgraph_subgraph]; exact ⟨_, rfl⟩
    · rw [hmem]
      constructor
      · rintro ⟨-, h | ⟨vs, h3, h4, h5⟩⟩
        · obtain ⟨vs, h3, h4⟩ := hex
          exact ⟨vs, h3, h4, h ▸ h4⟩
        · exact ⟨vs, (hcyc2 vs h4).1 h3, h4, h5⟩
      · rintro ⟨vs, h3, h4, h5⟩
        have := (hcyc2 vs h4).2 h3
        exact ⟨this.inside v h5, .inr ⟨vs, this, h4, h5⟩⟩
  · rw [if_neg hf] at hh
    subst hh
    exact ⟨by rw [NxGraph.subgraph_subgraph]; exact ⟨_, rfl⟩, hcyc2, fun h => absurd h hf⟩

/-- C70.  The preprocessing returns a graph iff no cutoff is requested, the root is a vertex (if disconnected vertices are removed) and the
recursion of `remove_leaves` stays within its limit; in the third case the number of vertices suffices. -/
theorem C70_outcomes (component : NxGraph V → V → List V) (components : NxGraph V → List (List V)) (depth : Nat) (flags : PreprocessFlags)
    (g : NxGraph V) (root : V) :
    (flags.removeDisconnected = true → root ∉ g.nodes → runPreprocessing component components depth flags g root = .throw .keyError) ∧
    (flags.shortestPathCutoff = true ∨ flags.disjointPathCutoff = true →
      ∀ h, runPreprocessing component components depth flags g root ≠ .ok h) ∧
    (flags.shortestPathCutoff = false → flags.disjointPathCutoff = false → (flags.removeDisconnected = true → root ∈ g.nodes) →
      g.nodes.length < depth → ∃ h, runPreprocessing component components depth flags g root = .ok h) := by
  refine ⟨?_, ?_, ?_⟩
  · intro h1 h2
    simp [runPreprocessing, h1, removeDisconnected, h2]
  · intro h1 h hh
    simp only [runPreprocessing, Res.bind_eq_ok] at hh
    obtain ⟨_, -, _, -, hh⟩ := hh
    rcases h1 with h1 | h1
    · simp [h1] at hh
    · simp [h1] at hh
  · intro h1 h2 h3 h4
    have e1 : ∃ g1 : NxGraph V, (if flags.removeDisconnected = true then removeDisconnected component g root else .ok g) = .ok g1 ∧
        g1.nodes.length ≤ g.nodes.length := by
      by_cases hf : flags.removeDisconnected = true
      · simp only [hf, if_true, removeDisconnected, h3 hf]
        exact ⟨_, rfl, List.length_filter_le _ _⟩
      · simp only [hf]; exact ⟨_, rfl, le_refl _⟩
    obtain ⟨g1, e1, hl⟩ := e1
    have e2 : ∃ g2 : NxGraph V, (if flags.removeLeaves = true then removeLeaves depth g1 else .ok g1) = .ok g2 := by
      by_cases hf : flags.removeLeaves = true
      · simp only [hf, if_true]; exact removeLeaves_ok depth g1 (by omega)
      · simp only [hf]; exact ⟨_, rfl⟩
    obtain ⟨g2, e2⟩ := e2
    refine ⟨if flags.removeOneConnected = true then removeOneConnected components g2 root else g2, ?_⟩
    simp only [runPreprocessing, e1, e2, Res.ok_bind, h1, h2, Bool.false_eq_true, if_false]

/-- C70.  The root itself is not protected: if it is in no set of vertices with two neighbours each (a leaf, say), `remove_leaves` deletes it,
and the next step then deletes all vertices. -/
theorem C70_root_lost (component : NxGraph V → V → List V) (components : NxGraph V → List (List V)) (depth : Nat) (flags : PreprocessFlags)
    (g h : NxGraph V) (root : V) (hg : g.WF) (hf : flags.removeLeaves = true)
    (hroot : ¬ ∃ S : V → Prop, (∀ v, S v → v ∈ g.nodes) ∧ TwoNeighbours g S ∧ S root)
    (h2 : ∀ g', runPreprocessing component components depth { flags with removeOneConnected := false } g root = .ok g' →
      IsBicomponents g' (components g'))
    (hh : runPreprocessing component components depth flags g root = .ok h) :
    root ∉ h.nodes ∧ (flags.removeOneConnected = true → h.nodes = []) := by
  simp only [runPreprocessing, Res.bind_eq_ok] at hh
  obtain ⟨g1, hg1, g2, hg2, hh⟩ := hh
  have s1 : ∃ s, g1 = g.subgraph s := by
    split at hg1
    · simp only [removeDisconnected] at hg1
      split at hg1
      · injection hg1 with hg1; exact ⟨_, hg1.symm⟩
      · cases hg1
    · injection hg1 with hg1
      exact ⟨g.nodes, by rw [NxGraph.subgraph_self hg (fun v hv => hv), hg1]⟩
  obtain ⟨s, rfl⟩ := s1
  rw [if_pos hf] at hg2
  obtain ⟨t, ht, ht2, -⟩ := removeLeaves_spec _ _ (hg.subgraph s) _ hg2
  have hr2 : root ∉ g2.nodes := by
    intro hr
    apply hroot
    refine ⟨(· ∈ g2.nodes), ?_, ?_, hr⟩
    · intro v hv
      rw [ht] at hv
      exact (NxGraph.mem_subgraph_nodes.1 (NxGraph.mem_subgraph_nodes.1 hv).1).1
    · have := ht2
      rw [ht] at this
      rw [twoNeighbours_subgraph (fun v hv => (NxGraph.mem_subgraph_nodes.1 hv).2),
        twoNeighbours_subgraph (fun v hv => (NxGraph.mem_subgraph_nodes.1 (NxGraph.mem_subgraph_nodes.1 hv).1).2)] at this
      rw [ht]; exact this
  have hnot : flags.shortestPathCutoff = false ∧ flags.disjointPathCutoff = false := by
    split at hh
    · cases hh
    · split at hh
      · cases hh
      · constructor <;> simp_all
  rw [hnot.1, hnot.2] at hh
  simp only [Bool.false_eq_true, if_false] at hh
  injection hh with hh
  by_cases hf3 : flags.removeOneConnected = true
  · rw [if_pos hf3] at hh
    have hb : IsBicomponents g2 (components g2) := by
      apply h2
      simp only [runPreprocessing, Res.bind_eq_ok]
      refine ⟨_, hg1, g2, ?_, by simp [hnot]⟩
      rw [if_pos hf]; exact hg2
    have hmem := C70_one_connected components _ root hb
    rw [hh] at hmem
    have hnil : h.nodes = [] := by
      rw [List.eq_nil_iff_forall_not_mem]
      intro v hv
      obtain ⟨h3, h4 | ⟨vs, h4, h5, -⟩⟩ := (hmem v).1 hv
      · exact hr2 (h4 ▸ h3)
      · exact hr2 (h4.inside _ h5)
    exact ⟨by rw [hnil]; simp, fun _ => hnil⟩
  · rw [if_neg hf3] at hh
    subst hh
    exact ⟨hr2, fun h => absurd h hf3⟩

/-! A graph for the hypotheses of C70: a triangle 0-1-2, a leaf 3 at 0 and a separate edge 4-5. -/

/-- The neighbours of the example. -/
def nxSmallAdj : Nat → List Nat
  | 0 => [1, 2, 3]
  | 1 => [0, 2]
  | 2 => [1, 0]
  | 3 => [0]
  | 4 => [5]
  | 5 => [4]
  | _ => []

/-- The example. -/
def nxSmall : NxGraph Nat := ⟨[0, 1, 2, 3, 4, 5], nxSmallAdj⟩

theorem nxSmall_wf : nxSmall.WF := by
  have hin : ∀ u v, v ∈ nxSmall.adj u → u < 6 ∧ v < 6 := by
    intro u v h
    simp only [nxSmall, nxSmallAdj] at h
    split at h <;> simp at h <;> omega
  refine ⟨by decide, ?_, ?_, ?_⟩
  · intro u; simp only [nxSmall, nxSmallAdj]; split <;> decide
  · intro u v h
    have := hin u v h
    simp [nxSmall]; omega
  · intro u v h
    have hall : ∀ u < 6, ∀ v < 6, v ∈ nxSmall.adj u → u ∈ nxSmall.adj v := by decide
    exact hall u (hin u v h).1 v (hin u v h).2 h

theorem nxSmall_component : IsNodeComponent nxSmall 0 [0, 1, 2, 3] := by
  have hclosed : ∀ l : List Nat, NxWalk nxSmall l → ∀ u v, l.head? = some u → l.getLast? = some v → u < 4 → v < 4 := by
    intro l
    induction l with
    | nil => simp
    | cons a l ih =>
      intro hw u v hu hv hlt
      cases l with
      | nil => simp at hu hv; omega
      | cons b l =>
        have h1 := hw (a, b) (by simp)
        simp only [List.head?_cons, Option.some.injEq] at hu
        subst hu
        refine ih (fun p hp => hw p (by simp [hp])) b v rfl (by simpa using hv) ?_
        simp only [nxSmall, nxSmallAdj] at h1
        split at h1 <;> simp at h1 <;> omega
  intro v
  constructor
  · intro hv
    simp at hv
    rcases hv with rfl | rfl | rfl | rfl
    · exact ⟨by decide, [0], by unfold NxWalk; decide, rfl, rfl⟩
    · exact ⟨by decide, [0, 1], by unfold NxWalk; decide, rfl, rfl⟩
    · exact ⟨by decide, [0, 2], by unfold NxWalk; decide, rfl, rfl⟩
    · exact ⟨by decide, [0, 3], by unfold NxWalk; decide, rfl, rfl⟩
  · rintro ⟨-, l, hw, h1, h2⟩
    have := hclosed l hw 0 v h1 h2 (by omega)
    simp; omega

/-- All three steps are switched on. -/
def allSteps : PreprocessFlags := ⟨true, true, true, false, false⟩

theorem nxSmall_bicomponents (g' : NxGraph Nat)
    (h : runPreprocessing (fun _ _ => [0, 1, 2, 3]) (fun _ => [[0, 1, 2]]) 10 { allSteps with removeOneConnected := false } nxSmall 0 = .ok g') :
    IsBicomponents g' [[0, 1, 2]] := by
  have he : ∃ g'', runPreprocessing (fun _ _ => [0, 1, 2, 3]) (fun _ => [[0, 1, 2]]) 10 { allSteps with removeOneConnected := false } nxSmall 0
      = .ok g'' ∧ g''.nodes = [0, 1, 2] ∧ (∀ u ∈ [0, 1, 2], ∀ v ∈ [0, 1, 2], u ≠ v → v ∈ g''.adj u) := by
    refine ⟨_, rfl, ?_, ?_⟩ <;> decide +kernel
  obtain ⟨g'', h1, h2, h3⟩ := he
  rw [h] at h1; injection h1 with h1; subst h1
  have hc : NxCycle g' [0, 1, 2] := by
    refine ⟨by decide, by decide, by rw [h2]; decide, ?_⟩
    intro p hp
    have hp' : p ∈ [(0, 1), (1, 2), (2, 0)] := hp
    simp at hp'
    rcases hp' with rfl | rfl | rfl <;> exact h3 _ (by simp) _ (by simp) (by decide)
  refine ⟨by decide, by rw [h2]; decide, ?_, ?_⟩
  · intro vs hvs
    exact ⟨_, by simp, fun v hv => h2 ▸ hvs.inside v hv⟩
  · intro c hcm _ u hu v hv _
    simp at hcm; subst hcm
    exact ⟨_, hc, hu, hv⟩

-- the hypotheses of C70_tours_kept hold, and the triangle remains
example : ∃ h, runPreprocessing (fun _ _ => [0, 1, 2, 3]) (fun _ => [[0, 1, 2]]) 10 allSteps nxSmall 0 = .ok h ∧ h.nodes = [0, 1, 2] ∧
    ∀ v, v ∈ h.nodes ↔ ∃ vs, NxCycle nxSmall vs ∧ 0 ∈ vs ∧ v ∈ vs := by
  obtain ⟨h, hh⟩ := (C70_outcomes (fun _ _ => [0, 1, 2, 3]) (fun _ => [[0, 1, 2]]) 10 allSteps nxSmall 0).2.2 rfl rfl (by decide) (by decide)
  have h1 := C70_tours_kept (fun _ _ => [0, 1, 2, 3]) (fun _ => [[0, 1, 2]]) 10 allSteps nxSmall h 0 nxSmall_wf nxSmall_component
    nxSmall_bicomponents hh
  refine ⟨h, hh, ?_, h1.2.2 rfl ⟨[0, 1, 2], ⟨by decide, by decide, by decide, by unfold NxWalk; decide⟩, by decide⟩⟩
  have he : ∃ h, runPreprocessing (fun _ _ => [0, 1, 2, 3]) (fun _ => [[0, 1, 2]]) 10 allSteps nxSmall 0 = .ok h ∧ h.nodes = [0, 1, 2] :=
    ⟨_, rfl, by decide +kernel⟩
  obtain ⟨k, hk, hn⟩ := he
  rw [hh] at hk; injection hk with hk; rw [hk]; exact hn

-- with the leaf 3 as root nothing remains
example : ∃ h, runPreprocessing (fun _ _ => [0, 1, 2, 3]) (fun _ => [[0, 1, 2]]) 10 allSteps nxSmall 3 = .ok h ∧ h.nodes = [] :=
  ⟨_, rfl, by decide +kernel⟩

/-- The hypothesis of C70_root_lost about the root holds for the leaf. -/
theorem nxSmall_leaf : ¬ ∃ S : Nat → Prop, (∀ v, S v → v ∈ nxSmall.nodes) ∧ TwoNeighbours nxSmall S ∧ S 3 := by
  rintro ⟨S, -, h2, h3⟩
  obtain ⟨a, b, hab, -, -, ha, hb, -⟩ := h2 3 h3
  simp [nxSmall, nxSmallAdj] at ha hb
  exact hab (ha.trans hb.symm)

/-! The theorems applied to these graphs. -/

theorem nxSmall_triangle (g : NxGraph Nat) (h2 : g.nodes = [0, 1, 2]) (h3 : ∀ u ∈ [0, 1, 2], ∀ v ∈ [0, 1, 2], u ≠ v → v ∈ g.adj u) :
    IsBicomponents g [[0, 1, 2]] := by
  have hc : NxCycle g [0, 1, 2] := by
    refine ⟨by decide, by decide, by rw [h2]; decide, ?_⟩
    intro p hp
    have hp' : p ∈ [(0, 1), (1, 2), (2, 0)] := hp
    simp at hp'
    rcases hp' with rfl | rfl | rfl <;> exact h3 _ (by simp) _ (by simp) (by decide)
  refine ⟨by decide, by rw [h2]; decide, fun vs hvs => ⟨_, by simp, fun v hv => h2 ▸ hvs.inside v hv⟩, ?_⟩
  intro c hcm _ u hu v hv _
  simp at hcm; subst hcm
  exact ⟨_, hc, hu, hv⟩

example := C69_remove_leaves nxExample nxExample_wf
example := fun h hh => C69_keeps_cycles nxExample h nxExample_wf 10 hh [0, 1, 2]
example := fun h hh => C69_idempotent nxExample h nxExample_wf 10 5 hh
example := C70_one_connected (fun _ => [[0, 1, 2]]) ⟨[0, 1, 2], fun u => [0, 1, 2].filter (· ≠ u)⟩ 0 (nxSmall_triangle _ rfl (by decide)) 1
example : ∃ h, runPreprocessing (fun _ _ => [0, 1, 2, 3]) (fun _ => [[0, 1, 2]]) 10 allSteps nxSmall 3 = .ok h ∧ 3 ∉ h.nodes := by
  refine ⟨_, rfl, (C70_root_lost (fun _ _ => [0, 1, 2, 3]) (fun _ => [[0, 1, 2]]) 10 allSteps nxSmall _ 3 nxSmall_wf rfl nxSmall_leaf ?_ rfl).1⟩
  intro g' hg'
  have he : ∃ g'', runPreprocessing (fun _ _ => [0, 1, 2, 3]) (fun _ => [[0, 1, 2]]) 10 { allSteps with removeOneConnected := false } nxSmall 3
      = .ok g'' ∧ g''.nodes = [0, 1, 2] ∧ (∀ u ∈ [0, 1, 2], ∀ v ∈ [0, 1, 2], u ≠ v → v ∈ g''.adj u) := by
    refine ⟨_, rfl, ?_, ?_⟩ <;> decide +kernel
  obtain ⟨g'', h1, h2, h3⟩ := he
  rw [hg'] at h1; injection h1 with h1; subst h1
  exact nxSmall_triangle _ h2 h3

end Pctsp
