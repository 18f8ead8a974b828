import Verif.Lemmas.Again

/-!
# C142: preprocessing again
-/

namespace Pctsp

variable {V : Type} [DecidableEq V]

/-- C142.  A second run of the preprocessing changes nothing, whatever the flags, if the root is still there and, when both leaves and
one-connected components are removed, it is on a cycle. -/
theorem C142_preprocessing (component : NxGraph V → V → List V) (components : NxGraph V → List (List V)) (depth d : Nat) (flags : PreprocessFlags)
    (g h : NxGraph V) (root : V) (hg : g.WF) (h1 : IsNodeComponent g root (component g root)) (h1' : IsNodeComponent h root (component h root))
    (h2 : ∀ g', runPreprocessing component components depth { flags with removeOneConnected := false } g root = .ok g' →
      IsBicomponents g' (components g')) (h2' : IsBicomponents h (components h))
    (hh : runPreprocessing component components depth flags g root = .ok h)
    (hroot : flags.removeDisconnected = true → root ∈ h.nodes)
    (hcyc : flags.removeLeaves = true → flags.removeOneConnected = true → root ∈ h.nodes → ∃ vs, NxCycle g vs ∧ root ∈ vs) :
    runPreprocessing component components (d + 1) flags h root = .ok h := by
  obtain ⟨⟨r, hr⟩, hkept, -⟩ := C70_tours_kept component components depth flags g h root hg h1 h2 hh
  have hw : h.WF := hr ▸ hg.subgraph r
  have hh0 := hh
  simp only [runPreprocessing, Res.bind_eq_ok] at hh
  obtain ⟨g1, hg1, g2, hg2, hh⟩ := hh
  have hnot : flags.shortestPathCutoff = false ∧ flags.disjointPathCutoff = false := by
    split at hh
    · cases hh
    · split at hh
      · cases hh
      · constructor <;> simp_all
  rw [hnot.1, hnot.2] at hh
  simp only [Bool.false_eq_true, if_false] at hh
  injection hh with hh
  -- the graph after the first step
  have s1 : g1.WF ∧ (∃ s, g1 = g.subgraph s) ∧ (flags.removeDisconnected = true → ∀ v ∈ g1.nodes, NxConnected g1 root v) := by
    split at hg1
    · simp only [removeDisconnected] at hg1
      split at hg1
      · injection hg1 with hg1
        subst hg1
        exact ⟨hg.subgraph _, ⟨_, rfl⟩, fun _ v hv => component_connected h1 hg hv⟩
      · cases hg1
    · rename_i hf
      injection hg1 with hg1
      subst hg1
      exact ⟨hg, ⟨g.nodes, (NxGraph.subgraph_self hg fun v hv => hv).symm⟩, fun h => absurd h hf⟩
  obtain ⟨hw1, ⟨s, hs⟩, hconn1⟩ := s1
  -- the graph after the second step
  have s2 : g2.WF ∧ (∃ t, g2 = g1.subgraph t) ∧ (flags.removeLeaves = true → TwoNeighbours g2 (· ∈ g2.nodes)) ∧
      (flags.removeDisconnected = true → root ∈ g2.nodes → ∀ v ∈ g2.nodes, NxConnected g2 root v) := by
    split at hg2
    · obtain ⟨t, ht, ht2, -⟩ := removeLeaves_spec _ _ hw1 _ hg2
      have hsub : ∀ v ∈ g2.nodes, v ∈ g1.nodes := fun v hv => by rw [ht] at hv; exact (NxGraph.mem_subgraph_nodes.1 hv).1
      exact ⟨ht ▸ hw1.subgraph t, ⟨t, ht⟩, fun _ => ht2,
        fun hf hrt v hv => removeLeaves_connected hw1 hg2 hrt hv (hconn1 hf v (hsub v hv))⟩
    · rename_i hf
      injection hg2 with hg2
      subst hg2
      exact ⟨hw1, ⟨g1.nodes, (NxGraph.subgraph_self hw1 fun v hv => hv).symm⟩, fun h => absurd h hf, fun hf _ v hv => hconn1 hf v hv⟩
  obtain ⟨hw2, ⟨t, ht⟩, htwo2, hconn2⟩ := s2
  -- the graph after the third step
  have s3 : flags.removeOneConnected = true → ∀ v ∈ h.nodes, v = root ∨ ∃ vs, NxCycle h vs ∧ root ∈ vs ∧ v ∈ vs := by
    intro hf v hv
    rw [if_pos hf] at hh
    have hb : IsBicomponents g2 (components g2) := by
      apply h2
      simp only [runPreprocessing, Res.bind_eq_ok]
      exact ⟨_, hg1, _, hg2, by simp [hnot]⟩
    rw [← hh, C70_one_connected components g2 root hb] at hv
    rcases hv.2 with h | ⟨vs, q1, q2, q3⟩
    · exact .inl h
    · refine .inr ⟨vs, (hkept vs q2).2 ?_, q2, q3⟩
      rw [ht, nxCycle_subgraph, hs, nxCycle_subgraph] at q1
      exact q1.1.1
  have hstep1 : (if flags.removeDisconnected = true then removeDisconnected component h root else .ok h) = .ok h := by
    split
    · rename_i hf
      refine removeDisconnected_self hw (hroot hf) h1' fun v hv => ?_
      by_cases hf3 : flags.removeOneConnected = true
      · rcases s3 hf3 v hv with rfl | ⟨vs, q1, q2, q3⟩
        · exact ⟨[v], by intro p hp; simp at hp, rfl, rfl⟩
        · exact q1.connected q2 q3
      · rw [if_neg hf3] at hh
        subst hh
        exact hconn2 hf (hroot hf) v hv
    · rfl
  have hstep2 : (if flags.removeLeaves = true then removeLeaves (d + 1) h else .ok h) = .ok h := by
    split
    · rename_i hf
      refine removeLeaves_of_two hw ?_ d
      by_cases hf3 : flags.removeOneConnected = true
      · intro v hv
        have hex : ∃ vs, NxCycle h vs ∧ v ∈ vs := by
          rcases s3 hf3 v hv with rfl | ⟨vs, q1, q2, q3⟩
          · obtain ⟨vs, q1, q2⟩ := hcyc hf hf3 hv
            exact ⟨vs, (hkept vs q2).2 q1, q2⟩
          · exact ⟨vs, q1, q3⟩
        obtain ⟨vs, q1, q2⟩ := hex
        obtain ⟨a, b, e1, e2, e3, e4, e5, e6, e7⟩ := q1.twoNeighbours hw v q2
        exact ⟨a, b, e1, e2, e3, e4, e5, q1.inside a e6, q1.inside b e7⟩
      · rw [if_neg hf3] at hh
        subst hh
        exact htwo2 hf
    · rfl
  have hstep3 : (if flags.removeOneConnected = true then removeOneConnected components h root else h) = h := by
    split
    · rename_i hf
      exact removeOneConnected_self hw h2' (s3 hf)
    · rfl
  simp only [runPreprocessing, hstep1, hstep2, Res.ok_bind, hstep3, hnot.1, hnot.2, Bool.false_eq_true, if_false]

/-- C142.  If the root is on no cycle but survives, the first run leaves the root alone; the second run removes it too, and the third
run raises a `KeyError` when disconnected vertices are to be removed. -/
theorem C142_root_alone (component : NxGraph V → V → List V) (components : NxGraph V → List (List V)) (depth d e : Nat) (flags : PreprocessFlags)
    (g h : NxGraph V) (root : V) (hg : g.WF) (h1 : IsNodeComponent g root (component g root)) (h1' : IsNodeComponent h root (component h root))
    (h2 : ∀ g', runPreprocessing component components depth { flags with removeOneConnected := false } g root = .ok g' →
      IsBicomponents g' (components g'))
    (hh : runPreprocessing component components depth flags g root = .ok h)
    (hf2 : flags.removeLeaves = true) (hf3 : flags.removeOneConnected = true) (hroot : root ∈ h.nodes)
    (hcyc : ¬ ∃ vs, NxCycle g vs ∧ root ∈ vs) :
    h.nodes = [root] ∧ ∃ k, runPreprocessing component components (d + 2) flags h root = .ok k ∧ k.nodes = [] ∧
      (flags.removeDisconnected = true → runPreprocessing component components e flags k root = .throw .keyError) := by
  obtain ⟨⟨r, hr⟩, hkept, -⟩ := C70_tours_kept component components depth flags g h root hg h1 h2 hh
  have hw : h.WF := hr ▸ hg.subgraph r
  simp only [runPreprocessing, Res.bind_eq_ok] at hh
  obtain ⟨g1, hg1, g2, hg2, hh⟩ := hh
  have hnot : flags.shortestPathCutoff = false ∧ flags.disjointPathCutoff = false := by
    split at hh
    · cases hh
    · split at hh
      · cases hh
      · constructor <;> simp_all
  rw [hnot.1, hnot.2, if_pos hf3] at hh
  simp only [Bool.false_eq_true, if_false] at hh
  injection hh with hh
  have hb : IsBicomponents g2 (components g2) := by
    apply h2
    simp only [runPreprocessing, Res.bind_eq_ok]
    exact ⟨_, hg1, _, hg2, by simp [hnot]⟩
  have hsub : (∃ s, g1 = g.subgraph s) ∧ ∃ t, g2 = g1.subgraph t := by
    have s1 : ∃ s, g1 = g.subgraph s := by
      split at hg1
      · simp only [removeDisconnected] at hg1
        split at hg1
        · injection hg1 with hg1; exact ⟨_, hg1.symm⟩
        · cases hg1
      · injection hg1 with hg1
        exact ⟨g.nodes, by rw [NxGraph.subgraph_self hg (fun v hv => hv), hg1]⟩
    refine ⟨s1, ?_⟩
    obtain ⟨s, rfl⟩ := s1
    rw [if_pos hf2] at hg2
    obtain ⟨t, ht, -⟩ := removeLeaves_spec _ _ (hg.subgraph s) _ hg2
    exact ⟨t, ht⟩
  obtain ⟨⟨s, hs⟩, t, ht⟩ := hsub
  have honly : ∀ v ∈ h.nodes, v = root := by
    intro v hv
    rw [← hh, C70_one_connected components g2 root hb] at hv
    rcases hv.2 with h | ⟨vs, q1, q2, q3⟩
    · exact h
    · rw [ht, nxCycle_subgraph, hs, nxCycle_subgraph] at q1
      exact absurd ⟨vs, q1.1.1, q2⟩ hcyc
  have hnodes : h.nodes = [root] := by
    have hnd := hw.nodup
    rcases hn : h.nodes with _ | ⟨a, l⟩
    · rw [hn] at hroot; simp at hroot
    · rw [hn] at honly hnd
      have ha := honly a (by simp)
      subst ha
      rcases l with _ | ⟨b, l⟩
      · rfl
      · have := honly b (by simp)
        subst this
        simp at hnd
  refine ⟨hnodes, ?_⟩
  have hstep1 : (if flags.removeDisconnected = true then removeDisconnected component h root else .ok h) = .ok h := by
    split
    · refine removeDisconnected_self hw hroot h1' fun v hv => ?_
      rw [honly v hv]
      exact ⟨[root], by intro p hp; simp at hp, rfl, rfl⟩
    · rfl
  obtain ⟨k, hk, hkn⟩ : ∃ k, removeLeaves (d + 2) h = .ok k ∧ k.nodes = [] := by
    obtain ⟨k, hk⟩ := removeLeaves_ok (d + 2) h (by rw [hnodes]; simp)
    refine ⟨k, hk, ?_⟩
    obtain ⟨t, ht, ht2, -⟩ := removeLeaves_spec _ _ hw _ hk
    rw [List.eq_nil_iff_forall_not_mem]
    intro v hv
    obtain ⟨a, b, e1, e2, e3, e4, e5, e6, e7⟩ := ht2 v hv
    have hin : ∀ x ∈ k.nodes, x = root := fun x hx => honly x (by rw [ht] at hx; exact (NxGraph.mem_subgraph_nodes.1 hx).1)
    exact e1 ((hin a e6).trans (hin b e7).symm)
  have hk3 : (removeOneConnected components k root).nodes = [] := by
    simp [removeOneConnected, NxGraph.subgraph, hkn]
  refine ⟨removeOneConnected components k root, ?_, hk3, fun hf => ?_⟩
  · simp only [runPreprocessing, hstep1, hk, Res.ok_bind, hf2, hf3, hnot.1, hnot.2, Bool.false_eq_true, if_false, if_true]
  · exact (C70_outcomes component components e flags _ root).1 hf (by rw [hk3]; simp)

/-! A graph for C142_preprocessing: the triangle with a leaf and a separate edge. -/

/-- The component of 0 in the graphs that occur. -/
def nxSmallComponent (g : NxGraph Nat) (_ : Nat) : List Nat := g.nodes.filter (· < 4)

example : ∃ h, runPreprocessing nxSmallComponent (fun _ => [[0, 1, 2]]) 10 allSteps nxSmall 0 = .ok h ∧ h.nodes = [0, 1, 2] ∧
    runPreprocessing nxSmallComponent (fun _ => [[0, 1, 2]]) 1 allSteps h 0 = .ok h := by
  have he : ∃ h, runPreprocessing nxSmallComponent (fun _ => [[0, 1, 2]]) 10 allSteps nxSmall 0 = .ok h ∧ h.nodes = [0, 1, 2] ∧
      (∀ u ∈ [0, 1, 2], ∀ v ∈ [0, 1, 2], u ≠ v → v ∈ h.adj u) := by
    refine ⟨_, rfl, ?_, ?_⟩ <;> decide +kernel
  obtain ⟨h, hh, h2, h3⟩ := he
  have hcomp : nxSmallComponent nxSmall 0 = [0, 1, 2, 3] := by decide
  refine ⟨h, hh, h2, C142_preprocessing nxSmallComponent (fun _ => [[0, 1, 2]]) 10 0 allSteps nxSmall h 0 nxSmall_wf (hcomp ▸ nxSmall_component) ?_ ?_
    (nxSmall_triangle h h2 h3) hh (fun _ => by rw [h2]; decide) fun _ _ _ => ⟨[0, 1, 2], ⟨by decide, by decide, by decide, by unfold NxWalk; decide⟩, by decide⟩⟩
  · intro v
    simp only [nxSmallComponent, List.mem_filter, decide_eq_true_eq, h2]
    constructor
    · rintro ⟨hv, -⟩
      refine ⟨hv, ?_⟩
      by_cases h0 : v = 0
      · subst h0; exact ⟨[0], by intro p hp; simp at hp, rfl, rfl⟩
      · refine ⟨[0, v], fun p hp => ?_, rfl, rfl⟩
        simp only [consec_cons_cons, consec_singleton, List.mem_singleton] at hp
        subst hp
        exact h3 0 (by simp) v hv (Ne.symm h0)
    · rintro ⟨hv, -⟩
      exact ⟨hv, by simp at hv; omega⟩
  · intro g' hg'
    have he : ∃ g'', runPreprocessing nxSmallComponent (fun _ => [[0, 1, 2]]) 10 { allSteps with removeOneConnected := false } nxSmall 0
        = .ok g'' ∧ g''.nodes = [0, 1, 2] ∧ (∀ u ∈ [0, 1, 2], ∀ v ∈ [0, 1, 2], u ≠ v → v ∈ g''.adj u) := by
      refine ⟨_, rfl, ?_, ?_⟩ <;> decide +kernel
    obtain ⟨g'', e1, e2, e3⟩ := he
    rw [hg'] at e1; injection e1 with e1; subst e1
    exact nxSmall_triangle _ e2 e3

/-! A graph for C142_root_alone: two triangles 0-1-2 and 4-5-6 joined by the path 2-3-4. -/

/-- The neighbours. -/
def nxBridgeAdj : Nat → List Nat
  | 0 => [1, 2]
  | 1 => [0, 2]
  | 2 => [0, 1, 3]
  | 3 => [2, 4]
  | 4 => [3, 5, 6]
  | 5 => [4, 6]
  | 6 => [4, 5]
  | _ => []

/-- The graph. -/
def nxBridge : NxGraph Nat := ⟨[0, 1, 2, 3, 4, 5, 6], nxBridgeAdj⟩

theorem nxBridge_lt (u v : Nat) (h : v ∈ nxBridge.adj u) : u < 7 ∧ v < 7 := by
  simp only [nxBridge, nxBridgeAdj] at h
  split at h <;> simp at h <;> omega

theorem nxBridge_wf : nxBridge.WF := by
  refine ⟨by decide, ?_, ?_, ?_⟩
  · intro u; simp only [nxBridge, nxBridgeAdj]; split <;> decide
  · intro u v h
    have := nxBridge_lt u v h
    simp [nxBridge]; omega
  · intro u v h
    have hall : ∀ u < 7, ∀ v < 7, v ∈ nxBridge.adj u → u ∈ nxBridge.adj v := by decide
    exact hall u (nxBridge_lt u v h).1 v (nxBridge_lt u v h).2 h

/-- A walk that avoids 3 stays on its side. -/
theorem nxBridge_side : ∀ l : List Nat, NxWalk nxBridge l → 3 ∉ l → ∀ a, l.head? = some a → ∀ v ∈ l, (a < 3 ↔ v < 3) := by
  intro l
  induction l with
  | nil => simp
  | cons x l ih =>
    intro hw h3 a ha v hv
    simp only [List.head?_cons, Option.some.injEq] at ha
    subst ha
    cases l with
    | nil => simp at hv; subst hv; rfl
    | cons y l =>
      have h1 := hw (x, y) (by simp)
      have hy : (x < 3 ↔ y < 3) := by
        have hx3 : x ≠ 3 := by rintro rfl; simp at h3
        have hy3 : y ≠ 3 := by rintro rfl; simp at h3
        have hall : ∀ u < 7, ∀ v < 7, u = 3 ∨ v = 3 ∨ v ∉ nxBridge.adj u ∨ (u < 3 ↔ v < 3) := by decide
        have := hall x (nxBridge_lt _ _ h1).1 y (nxBridge_lt _ _ h1).2
        tauto
      rcases List.mem_cons.1 hv with rfl | hv
      · rfl
      · rw [hy]
        exact ih (fun p hp => hw p (by rw [consec_cons_cons]; exact List.mem_cons_of_mem _ hp)) (by simp at h3 ⊢; tauto) y rfl v hv

theorem nxBridge_no_cycle {vs : List Nat} (h : NxCycle nxBridge vs) : 3 ∉ vs := by
  intro h3
  obtain ⟨A, B, rfl⟩ := List.append_of_mem h3
  -- the cycle read from 3 on
  have hn : 3 ∉ B ++ A := by
    have := h.nodup
    simp [List.nodup_append] at this
    simp; exact ⟨this.2.1.1, fun h => this.2.2 3 h |>.1 rfl⟩
  have hw : NxWalk nxBridge (3 :: (B ++ A) ++ [3]) := by
    cases A with
    | nil => simpa [NxWalk] using h.closed
    | cons a A =>
      have h1 := h.closed
      intro p hp
      apply h1
      have e1 : a :: A ++ 3 :: B ++ List.take 1 (a :: A ++ 3 :: B) = a :: A ++ 3 :: (B ++ [a]) := by simp
      have e2 : 3 :: (B ++ a :: A) ++ [3] = (3 :: B) ++ a :: (A ++ [3]) := by simp
      rw [e1, consec_append]
      rw [e2, consec_append] at hp
      simp only [List.mem_append, List.cons_append] at hp ⊢
      tauto
  have hm : ∃ l, B ++ A = l ∧ l.Nodup ∧ 2 ≤ l.length := by
    refine ⟨_, rfl, ?_, ?_⟩
    · have := h.nodup
      rw [List.nodup_append] at this ⊢
      obtain ⟨n1, n2, n3⟩ := this
      rw [List.nodup_cons] at n2
      exact ⟨n2.2, n1, fun a ha b hb e => n3 b hb a (List.mem_cons_of_mem _ ha) e.symm⟩
    · have := h.long
      simp at this ⊢; omega
  obtain ⟨l, hl, hnd, hlen⟩ := hm
  rw [hl] at hn hw
  rcases l with _ | ⟨x, l⟩
  · simp at hlen
  rcases List.eq_nil_or_concat l with rfl | ⟨l, y, rfl⟩
  · simp at hlen
  simp only [List.concat_eq_append] at *
  have a1 : x ∈ nxBridge.adj 3 := hw (3, x) (by simp)
  have a2 : 3 ∈ nxBridge.adj y := by
    have := mem_consec_append (3 :: x :: l) [] y 3
    exact hw (y, 3) (by simpa using this)
  have a2' := nxBridge_wf.symm _ _ a2
  have hside := nxBridge_side (x :: (l ++ [y])) (fun p hp => hw p (by
    have e : 3 :: (x :: (l ++ [y])) ++ [3] = (3 :: x :: l) ++ y :: [3] := by simp
    rw [e, consec_append, List.cons_append, List.cons_append, consec_cons_cons]
    exact List.mem_append_left _ (List.mem_cons_of_mem _ hp))) hn x rfl y (by simp)
  have hxy : x ≠ y := by rintro rfl; simp at hnd
  have ha : x = 2 ∨ x = 4 := by simpa [nxBridge, nxBridgeAdj] using a1
  have hb : y = 2 ∨ y = 4 := by simpa [nxBridge, nxBridgeAdj] using a2'
  omega

theorem nxBridge_bicomponents : IsBicomponents nxBridge [[0, 1, 2], [2, 3], [3, 4], [4, 5, 6]] := by
  refine ⟨by decide, by decide, ?_, ?_⟩
  · intro vs hvs
    have h3 := nxBridge_no_cycle hvs
    rcases vs with _ | ⟨a, vs⟩
    · have := hvs.long; simp at this
    have hs := nxBridge_side (a :: vs) (fun p hp => hvs.closed p (by
      have e : a :: vs ++ List.take 1 (a :: vs) = a :: (vs ++ [a]) := by simp
      rw [e]
      rcases List.eq_nil_or_concat vs with rfl | ⟨vs, y, rfl⟩
      · simp at hp
      · have e2 : a :: ((vs ++ [y]) ++ [a]) = (a :: vs) ++ y :: [a] := by simp
        rw [List.concat_eq_append] at hp ⊢
        rw [e2, consec_append]
        exact List.mem_append_left _ (by simpa using hp))) h3 a rfl
    have hin : ∀ v ∈ a :: vs, v < 7 ∧ v ≠ 3 := fun v hv =>
      ⟨by have := hvs.inside v hv; simp [nxBridge] at this; omega, fun e => h3 (e ▸ hv)⟩
    by_cases ha : a < 3
    · refine ⟨[0, 1, 2], by simp, fun v hv => ?_⟩
      have := (hs v hv).1 ha
      simp; omega
    · refine ⟨[4, 5, 6], by simp, fun v hv => ?_⟩
      have h1 := hin v hv
      have h2 : ¬ v < 3 := fun h => ha ((hs v hv).2 h)
      simp; omega
  · intro c hc hl u hu v hv _
    simp at hc
    rcases hc with rfl | rfl | rfl | rfl
    · exact ⟨[0, 1, 2], ⟨by decide, by decide, by decide, by unfold NxWalk; decide⟩, hu, hv⟩
    · simp at hl
    · simp at hl
    · exact ⟨[4, 5, 6], ⟨by decide, by decide, by decide, by unfold NxWalk; decide⟩, hu, hv⟩

/-- Everything that is left is connected. -/
def allNodes (g : NxGraph Nat) (_ : Nat) : List Nat := g.nodes

theorem nxBridge_component : IsNodeComponent nxBridge 3 (allNodes nxBridge 3) := by
  intro v
  constructor
  · intro hv
    refine ⟨hv, ?_⟩
    simp [allNodes, nxBridge] at hv
    rcases hv with rfl | rfl | rfl | rfl | rfl | rfl | rfl
    · exact ⟨[3, 2, 0], by unfold NxWalk; decide, rfl, rfl⟩
    · exact ⟨[3, 2, 1], by unfold NxWalk; decide, rfl, rfl⟩
    · exact ⟨[3, 2], by unfold NxWalk; decide, rfl, rfl⟩
    · exact ⟨[3], by unfold NxWalk; decide, rfl, rfl⟩
    · exact ⟨[3, 4], by unfold NxWalk; decide, rfl, rfl⟩
    · exact ⟨[3, 4, 5], by unfold NxWalk; decide, rfl, rfl⟩
    · exact ⟨[3, 4, 6], by unfold NxWalk; decide, rfl, rfl⟩
  · exact fun h => h.1

-- the root 3 is on no cycle: it is left alone first and removed by the second run; the third run fails
example : ∃ h k, runPreprocessing allNodes (fun _ => [[0, 1, 2], [2, 3], [3, 4], [4, 5, 6]]) 10 allSteps nxBridge 3 = .ok h ∧ h.nodes = [3] ∧
    runPreprocessing allNodes (fun _ => [[0, 1, 2], [2, 3], [3, 4], [4, 5, 6]]) 10 allSteps h 3 = .ok k ∧ k.nodes = [] ∧
    runPreprocessing allNodes (fun _ => [[0, 1, 2], [2, 3], [3, 4], [4, 5, 6]]) 10 allSteps k 3 = .throw .keyError := by
  have he : ∃ h, runPreprocessing allNodes (fun _ => [[0, 1, 2], [2, 3], [3, 4], [4, 5, 6]]) 10 allSteps nxBridge 3 = .ok h ∧ h.nodes = [3] := by
    refine ⟨_, rfl, ?_⟩; decide +kernel
  obtain ⟨h, hh, hn⟩ := he
  have hcomp : IsNodeComponent h 3 (allNodes h 3) := by
    intro v
    simp only [allNodes, hn]
    constructor
    · intro hv
      simp at hv; subst hv
      exact ⟨by simp, [3], by intro p hp; simp at hp, rfl, rfl⟩
    · exact fun h => h.1
  have hb : ∀ g', runPreprocessing allNodes (fun _ => [[0, 1, 2], [2, 3], [3, 4], [4, 5, 6]]) 10 { allSteps with removeOneConnected := false } nxBridge 3 = .ok g' →
      IsBicomponents g' [[0, 1, 2], [2, 3], [3, 4], [4, 5, 6]] := by
    intro g' hg'
    have e : runPreprocessing allNodes (fun _ => [[0, 1, 2], [2, 3], [3, 4], [4, 5, 6]]) 10 { allSteps with removeOneConnected := false } nxBridge 3 = .ok nxBridge := by
      have e1 : removeDisconnected allNodes nxBridge 3 = .ok nxBridge :=
        removeDisconnected_self nxBridge_wf (by decide) nxBridge_component fun v hv => ((nxBridge_component v).1 hv).2
      have e2 : removeLeaves 10 nxBridge = .ok nxBridge := by
        refine removeLeaves_of_two nxBridge_wf ?_ 9
        intro v hv
        have hall : ∀ v ∈ nxBridge.nodes, ∃ a ∈ nxBridge.nodes, ∃ b ∈ nxBridge.nodes, a ≠ b ∧ a ≠ v ∧ b ≠ v ∧ a ∈ nxBridge.adj v ∧ b ∈ nxBridge.adj v := by
          decide
        obtain ⟨a, ha, b, hb, q1, q2, q3, q4, q5⟩ := hall v hv
        exact ⟨a, b, q1, q2, q3, q4, q5, ha, hb⟩
      simp [runPreprocessing, allSteps, e1, e2]
    rw [e] at hg'; injection hg' with hg'; subst hg'
    exact nxBridge_bicomponents
  obtain ⟨-, k, q1, q2, q3⟩ := C142_root_alone allNodes (fun _ => [[0, 1, 2], [2, 3], [3, 4], [4, 5, 6]]) 10 8 10 allSteps nxBridge h 3 nxBridge_wf
    nxBridge_component hcomp hb hh rfl rfl (by rw [hn]; decide) (fun ⟨vs, h1, h2⟩ => nxBridge_no_cycle h1 h2)
  exact ⟨h, k, hh, hn, q1, q2, q3 rfl⟩

end Pctsp
