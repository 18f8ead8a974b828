import Verif.Lemmas.SplitExists
import Verif.Props.Experiments
import Verif.Props.Start

/-!
# C127: what is expected of the libraries can be met on every instance
-/

namespace Pctsp

open Classical in
/-- The vertices that a walk from the given vertex reaches. -/
noncomputable def reachedFrom {V : Type} (g : NxGraph V) (u : V) : List V := g.nodes.filter fun v => decide (NxConnected g u v)

open Classical in
/-- All sets of vertices of which any two are on a common cycle. -/
noncomputable def commonCycles {V : Type} (g : NxGraph V) : List (List V) :=
  g.nodes.dedup.sublists.filter fun c => decide (∀ u ∈ c, ∀ v ∈ c, u ≠ v → ∃ vs, NxCycle g vs ∧ u ∈ vs ∧ v ∈ vs)

open Classical in
/-- Accepts just the edges of feasible tours. -/
noncomputable def exactEnv {V : Type} [DecidableEq V] (G : LabGraph V) (π : V → Int) (quota : Int) (root : V) : LabEnv Ext V :=
  { plainEnv G π root with isYes := fun ps => .ok (decide (∃ t, FeasibleIn G.edges π quota root t ∧ EdgesOfTour t ps)) }

theorem reachedFrom_component {V : Type} (g : NxGraph V) (u : V) : IsNodeComponent g u (reachedFrom g u) := by
  intro v
  simp [reachedFrom]

theorem commonCycles_bicomponents {V : Type} (g : NxGraph V) : IsBicomponents g (commonCycles g) := by
  classical
  refine ⟨fun c hc => ?_, fun c hc v hv => ?_, fun vs hvs => ?_, fun c hc _ => ?_⟩
  · have := (List.mem_filter.1 hc).1
    rw [List.mem_sublists] at this
    exact this.nodup (List.nodup_dedup _)
  · have := (List.mem_filter.1 hc).1
    rw [List.mem_sublists] at this
    exact List.mem_dedup.1 (this.subset hv)
  · refine ⟨g.nodes.dedup.filter fun v => decide (v ∈ vs), List.mem_filter.2 ⟨List.mem_sublists.2 List.filter_sublist, ?_⟩, fun v hv => ?_⟩
    · simp only [decide_eq_true_eq, List.mem_filter]
      exact fun u hu v hv _ => ⟨vs, hvs, hu.2, hv.2⟩
    · exact List.mem_filter.2 ⟨List.mem_dedup.2 (hvs.inside v hv), decide_eq_true hv⟩
  · simpa using (List.mem_filter.1 hc).2

variable {V : Type} [LinearOrder V] {G : LabGraph V} {w : V → V → Int} {π : V → Int} {root : V}

/-- **C127.** On every graph without self-loops in which a cycle goes through the root, for every quota and every choice of preprocessing without cutoffs,
all that is expected of networkx, of SCIP and of the other functions outside can be met together: the exact algorithm has a run, without a start or with one
from the cycle of the breadth first search.  It ends with the status `optimal` iff there is a feasible tour, and with `infeasible` iff there is none.  Without a
start and without removing leaves and one-connected components, no cycle is needed, only an edge at the root. -/
theorem C127_exact (hG : G.Ok w π) (hno : ∀ e ∈ G.edges, e.1 ≠ e.2) (quota : Int) {flags : PreprocessFlags}
    (hf : flags.shortestPathCutoff = false ∧ flags.disjointPathCutoff = false) {mp : ModelParams} (hh : mp.isHeuristic = false) (he : mp.isExact = true)
    (hs : (∃ vs, NxCycle G.nx vs ∧ root ∈ vs) ∧ mp.heuristic ∈ [none, some .bfsExtensionCollapse, some .bfsPathExtensionCollapse] ∨
      flags.removeOneConnected = false ∧ flags.removeLeaves = false ∧ root ∈ endpoints G.edges ∧ mp.heuristic = none)
    (hd : mp.coverDisjoint = false) (hreach : mp.coverShortest = false) :
    ∃ s r, ∃ R : VialRun flags G w π quota root mp (some s) r, R.CoverOk ∧ (s = .optimal ↔ ∃ t, FeasibleIn G.edges π quota root t) ∧
      (s = .infeasible ↔ ¬ ∃ t, FeasibleIn G.edges π quota root t) := by
  have hr : root ∈ G.nx.nodes := by
    rcases hs with ⟨⟨vs, h1, h2⟩, -⟩ | ⟨-, -, h, -⟩
    · exact h1.inside _ h2
    · obtain ⟨y, hy⟩ := mem_endpoints.1 h
      exact (hG.wf.closed _ _ ((hG.adj _ _).2 hy)).1
  obtain ⟨h, hrun⟩ := (C70_outcomes reachedFrom commonCycles (G.nx.nodes.length + 1) flags G.nx root).2.2 hf.1 hf.2 (fun _ => hr) (by omega)
  have hp : Preprocessed reachedFrom commonCycles (G.nx.nodes.length + 1) flags G.nx root h :=
    ⟨reachedFrom_component _ _, fun g' _ => commonCycles_bicomponents g', hrun⟩
  obtain ⟨h1, h3, hc⟩ : (G.restrict h).Ok w π ∧ root ∈ h.nodes ∧ ((∃ vs, NxCycle G.nx vs ∧ root ∈ vs) ∨
      flags.removeOneConnected = false ∧ root ∈ endpoints (G.restrict h).edges) := by
    rcases hs with ⟨hc, -⟩ | ⟨k1, k2, k3, -⟩
    · obtain ⟨h1, -, h3, -⟩ := C99_ok hG hp hc
      exact ⟨h1, h3, .inl hc⟩
    · obtain ⟨h1, h2, h3⟩ := C99_kept hG hp k1
      exact ⟨h1, h2 ((h3 k2).2 k3), .inr ⟨k1, (h3 k2).2 k3⟩⟩
  obtain ⟨dij, depth, T, st, hS⟩ := exists_suurballeOn (U := h) h1.wf (cost := w) (fun u v _ => h1.describes.symm u v) (fun u v _ => h1.costs u v) root
  obtain ⟨m, hm, -⟩ := C85_paths hS
  have hE : (exactEnv (G.restrict h) π quota root).Ok (G.restrict h) π root := { plainEnv_ok h1 h3 with isYes := fun _ => ⟨_, rfl⟩ }
  have hY : (exactEnv (G.restrict h) π quota root).YesSound (G.restrict h) π quota root := fun ps hps => by
    classical exact of_decide_eq_true (Res.ok.inj hps)
  obtain ⟨scip, hscip⟩ := exists_scip_keeps 1 List.range
  have hstart : ∀ alg, mp.heuristic = some alg → ∃ es, runHeuristic (exactEnv (G.restrict h) π quota root) (G.restrict h) quota root alg
      (vertexDisjointCostMap splitNames T st (treeNodes (headOf root) dij)) m mp.collapsePaths mp.depthLimit mp.stepSize = .ok es := by
    intro alg ha
    obtain ⟨hcyc, hs⟩ := hs.resolve_right fun h => by rw [ha] at h; exact absurd h.2.2.2 (by simp)
    obtain ⟨-, -, -, h4⟩ := C99_ok hG hp hcyc
    obtain ⟨_, -, ⟨_, t, -, -, -, k1, -⟩, t', k2, -⟩ := C91_bfs h1 hE h3 h4 quota
      (vertexDisjointCostMap splitNames T st (treeNodes (headOf root) dij)) m mp.collapsePaths mp.depthLimit mp.stepSize
    simp only [ha, List.mem_cons, Option.some.injEq, List.not_mem_nil, or_false, reduceCtorEq, false_or] at hs
    rcases hs with rfl | rfl
    · exact ⟨_, k1⟩
    · exact ⟨_, k2⟩
  obtain ⟨s, r, r1, -, r3, r4⟩ := C99_exact hG hno hp hc hE hS hm hY reorderOk_none hh he hstart (order := List.range) (fun n => List.Perm.refl _)
    (fun P => (hscip P).1) (by simp [hreach]) (by simp [hd])
  have hstatus : s = .optimal ∨ s = .infeasible := by
    have := r1
    simp only [runVial, hp.run, Res.ok_bind, if_pos h3] at this
    obtain ⟨P, hP⟩ := runAlgorithm_status this
    rw [hP]
    exact (hscip P).2.2
  refine ⟨s, r, ⟨Ext, SplitV V, exactEnv (G.restrict h) π quota root, reachedFrom, commonCycles, G.nx.nodes.length + 1, h, splitGraph h w, tailOf, headOf,
    splitNames, dij, depth, T, st, scip, List.range, fun _ => none, hp, hE, hY, hS, reorderOk_none, fun n => List.Perm.refl _, fun P => (hscip P).1, r1⟩,
    ⟨by simp [hreach], by simp [hd]⟩, ?_⟩
  have ho : s = .optimal → ∃ t, FeasibleIn G.edges π quota root t := fun hs => by
    obtain ⟨t, ht, -⟩ := r3 hs (.inl rfl)
    exact ⟨t, ht⟩
  have hi : s = .infeasible → ¬ ∃ t, FeasibleIn G.edges π quota root t := fun hs ⟨t, ht⟩ => (r4 hs).2 t ht
  exact ⟨⟨ho, fun hex => hstatus.resolve_right fun h => hi h hex⟩, hi, fun hex => hstatus.resolve_left fun h => hex (ho h)⟩

/-- **C127.** Under the same conditions the heuristics from the breadth first search have a run, and so has Suurballe's heuristic if some tour from the root costs
less than `sys.maxsize`.  They report the edges of a tour from the root, with its cost and its prize, or nothing. -/
theorem C127_heuristics (hG : G.Ok w π) (hno : ∀ e ∈ G.edges, e.1 ≠ e.2) (hc : ∃ vs, NxCycle G.nx vs ∧ root ∈ vs) (quota : Int) {flags : PreprocessFlags}
    (hf : flags.shortestPathCutoff = false ∧ flags.disjointPathCutoff = false) {mp : ModelParams} (hh : mp.isHeuristic = true)
    (hs : mp.algorithm = .bfsExtensionCollapse ∨ mp.algorithm = .bfsPathExtensionCollapse ∨
      mp.algorithm = .suurballesHeuristic ∧ ∃ t q, FeasibleIn G.edges π q root t ∧ namedCost w t < maxsize) :
    ∃ r, Nonempty (VialRun flags G w π quota root mp none r) ∧ (ReportsNothing r ∨ ∃ t, IsTourIn G.edges root t ∧ Reports w π t r) := by
  have hr : root ∈ G.nx.nodes := by
    obtain ⟨vs, h1, h2⟩ := hc
    exact h1.inside _ h2
  obtain ⟨h, hrun⟩ := (C70_outcomes reachedFrom commonCycles (G.nx.nodes.length + 1) flags G.nx root).2.2 hf.1 hf.2 (fun _ => hr) (by omega)
  have hp : Preprocessed reachedFrom commonCycles (G.nx.nodes.length + 1) flags G.nx root h :=
    ⟨reachedFrom_component _ _, fun g' _ => commonCycles_bicomponents g', hrun⟩
  obtain ⟨h1, h2, h3, h4⟩ := C99_ok hG hp hc
  have hno' : ∀ e ∈ (G.restrict h).edges, e.1 ≠ e.2 := fun e he => hno e (List.mem_filter.1 he).1
  obtain ⟨dij, depth, T, st, hS⟩ := exists_suurballeOn (U := h) h1.wf (cost := w) (fun u v _ => h1.describes.symm u v) (fun u v _ => h1.costs u v) root
  obtain ⟨m, hm, -⟩ := C85_paths hS
  have hE : (exactEnv (G.restrict h) π quota root).Ok (G.restrict h) π root := { plainEnv_ok h1 h3 with isYes := fun _ => ⟨_, rfl⟩ }
  have hY : (exactEnv (G.restrict h) π quota root).YesSound (G.restrict h) π quota root := fun ps hps => by
    classical exact of_decide_eq_true (Res.ok.inj hps)
  obtain ⟨scip, hscip⟩ := exists_scip_keeps 1 List.range
  have hstart : ∃ t, runHeuristic (exactEnv (G.restrict h) π quota root) (G.restrict h) quota root mp.algorithm
      (vertexDisjointCostMap splitNames T st (treeNodes (headOf root) dij)) m none mp.depthLimit mp.stepSize = .ok (consec t) ∧
        (t = [] ∨ IsTourIn (G.restrict h).edges root t) := by
    obtain ⟨_, -, ⟨_, t, -, -, -, k1, k2, -⟩, t', k3, k4⟩ := C91_bfs h1 hE h3 h4 quota
      (vertexDisjointCostMap splitNames T st (treeNodes (headOf root) dij)) m none mp.depthLimit mp.stepSize
    rcases hs with hs | hs | ⟨hs, t, q, ht, hlt⟩ <;> rw [hs]
    · exact ⟨_, k1, .inr k2⟩
    · exact ⟨_, k3, k4.imp (·.1) fun h => h.1.tour⟩
    · have hl : root ∉ h.adj root := fun hl => by
        rcases (h1.adj root root).1 hl with hl | hl <;> exact hno' _ hl rfl
      have hne : vertexDisjointCostMap splitNames T st (treeNodes (headOf root) dij) ≠ [] := by
        intro hnil
        obtain ⟨l, rfl, hl, -⟩ := (feasibleIn_iff h1.wf h1.adj).1 ((C99_tours hG hp q t).2 ht)
        match l, hl with
        | [], hl => have := hl.long; simp at this
        | v :: l, hl =>
          have hv : v ≠ root := fun e => by have := hl.nodup; simp [e] at this
          have := C85_no_entry hS hv (by rw [hnil]; rfl) ⟨v :: l, hl, by simp, rfl⟩
          exact absurd hlt (not_lt.2 this)
      obtain ⟨m', t', k5, k6, k7, -⟩ := C91_suurballe h1 hE hS hl hne quota none mp.depthLimit mp.stepSize
      obtain rfl : m' = m := by rw [hm] at k5; exact (Res.ok.inj k5).symm
      by_cases e : t' = []
      · exact ⟨_, k6, .inl e⟩
      · exact ⟨_, k6, .inr (k7 e).1.tour⟩
  obtain ⟨t, k1, k2⟩ := hstart
  obtain ⟨r, r1, r2, r3⟩ := C92_heuristic h1 hno' hS hm (reorder := fun _ => none) reorderOk_none hh scip List.range k1 k2
  refine ⟨r, ⟨⟨Ext, SplitV V, exactEnv (G.restrict h) π quota root, reachedFrom, commonCycles, G.nx.nodes.length + 1, h, splitGraph h w, tailOf, headOf,
    splitNames, dij, depth, T, st, scip, List.range, fun _ => none, hp, hE, hY, hS, reorderOk_none, fun n => List.Perm.refl _, fun P => (hscip P).1, ?_⟩⟩, ?_⟩
  · simp only [runVial, hp.run, Res.ok_bind, if_pos h3, r1]
  · by_cases e : t = []
    · exact .inl (r2 e)
    · exact .inr ⟨t, C99_subgraph (k2.resolve_left e), r3 e⟩

/-! ## Examples -/

/-- An instance with a feasible tour, and a quota that no tour meets. -/
example : fourLab.Ok fourCost (fun _ => 1) ∧ (∀ e ∈ fourLab.edges, e.1 ≠ e.2) ∧ (∃ vs, NxCycle fourLab.nx vs ∧ 0 ∈ vs) ∧
    (∃ t, FeasibleIn fourLab.edges (fun _ => 1) 3 0 t ∧ namedCost fourCost t < maxsize) ∧ ¬ ∃ t, FeasibleIn fourLab.edges (fun _ => 1) 5 0 t := by
  refine ⟨fourLab_ok, by decide, ⟨[0, 1, 2], ⟨by decide, by decide, by decide, by unfold NxWalk; decide +kernel⟩, by decide⟩, ⟨_, fourLab_feasible, by decide⟩, ?_⟩
  rintro ⟨t, ⟨⟨m, rfl⟩, hn, -⟩, -, hp⟩
  rw [← List.cons_append, List.dropLast_concat] at hn
  have h1 := hn.length_le_card
  have h2 : namedPrize (fun _ : Fin 4 => 1) (0 :: (m ++ [0])) = ((0 :: m).length : Int) := by
    rw [namedPrize, ← List.cons_append, List.dropLast_concat]
    simp
    omega
  simp only [Fintype.card_fin] at h1
  rw [h2] at hp
  omega

/-- An instance without a cycle: the command `tsplib` keeps its only edge, and a run ends with the status `infeasible`; the command `londonaq` has no run. -/
example : (∃ r, Nonempty (VialRun ⟨false, false, false, false, false⟩ edgeLab (fun _ _ => 1) (fun _ => 1) 2 0 ⟨.solvePctsp, true, false, none, none, none, none, false, false, true, true⟩ (some .infeasible) r)) ∧
    ∀ s r, ¬ Nonempty (VialRun onlyOneConnected edgeLab (fun _ _ => 1) (fun _ => 1) 2 0 ⟨.solvePctsp, true, false, none, none, none, none, false, false, true, true⟩ s r) := by
  have hnone : ¬ ∃ t, FeasibleIn edgeLab.edges (fun _ => 1) 2 0 t := by
    rintro ⟨t, ht⟩
    obtain ⟨m, -, h, -⟩ := (feasibleIn_iff edgeLab_ok.wf edgeLab_ok.adj).1 ht
    exact edgeLab_no_cycle h
  obtain ⟨s, r, R, -, -, h⟩ := C127_exact edgeLab_ok (by decide) (root := 0) 2 (flags := ⟨false, false, false, false, false⟩) ⟨rfl, rfl⟩ (mp := ⟨.solvePctsp, true, false, none, none, none, none, false, false, true, true⟩) rfl rfl
    (.inr ⟨rfl, rfl, by decide, rfl⟩) rfl rfl
  refine ⟨⟨r, ?_⟩, fun s r ⟨R⟩ => ?_⟩
  · rw [← h.2 hnone]; exact ⟨R⟩
  · obtain ⟨vs, h, -⟩ := R.cycle edgeLab_ok (by decide) rfl rfl rfl
    exact edgeLab_no_cycle h

end Pctsp
