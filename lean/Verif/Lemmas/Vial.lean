import Verif.Model.Vial
import Verif.Props.Preprocess
import Verif.Lemmas.Lab
import Verif.Lemmas.LabResult
import Verif.Lemmas.Binding
import Verif.Spec.Vial

/-!
# Lemmas on the preprocessed graph, its attributes and its root
-/

namespace Pctsp

variable {F V : Type} [DecidableEq V]

theorem preprocess_closed {component : NxGraph V → V → List V} {components : NxGraph V → List (List V)} {limit : Nat} {flags : PreprocessFlags}
    {g h : NxGraph V} {root : V} (hg : g.WF) (h1 : IsNodeComponent g root (component g root))
    (h2 : ∀ g', runPreprocessing component components limit { flags with removeOneConnected := false } g root = .ok g' →
      IsBicomponents g' (components g'))
    (hh : runPreprocessing component components limit flags g root = .ok h) (hc : flags.removeOneConnected = true → ∃ vs, NxCycle g vs ∧ root ∈ vs) {v : V}
    (hv : v ∈ h.nodes) {y : V} (hy : y ∈ g.adj v) : ∃ y, y ∈ h.adj v := by
  obtain ⟨-, t2, t3⟩ := C70_tours_kept component components limit flags g h root hg h1 h2 hh
  by_cases hf : flags.removeOneConnected = true
  · obtain ⟨vs, h3, h4, h5⟩ := (t3 hf (hc hf) v).1 hv
    obtain ⟨a, b, h⟩ := NxCycle.twoNeighbours hg h3 v h5
    have hcyc := (t2 vs h4).2 h3
    obtain ⟨m, hm, hp⟩ := hcyc.rotate h5
    obtain ⟨z, hz⟩ := exists_consec (l := v :: m) (z := v) (x := v) (by simp)
    exact ⟨z, hm.closed _ (by simpa using hz)⟩
  · simp only [runPreprocessing, Res.bind_eq_ok, hf] at hh
    obtain ⟨g1, hg1, g2, hg2, hh⟩ := hh
    have e : g2 = h := by
      split at hh
      · cases hh
      · split at hh
        · cases hh
        · simpa using hh
    subst e
    have hg1' : g1.WF ∧ (flags.removeLeaves = false → ∃ y, y ∈ g1.adj v) := by
      split at hg1
      · simp only [removeDisconnected] at hg1
        split at hg1
        · injection hg1 with hg1
          subst hg1
          refine ⟨hg.subgraph _, fun hf2 => ?_⟩
          rw [hf2] at hg2
          simp only [Bool.false_eq_true, if_false, Res.ok.injEq] at hg2
          subst hg2
          obtain ⟨k1, k2⟩ := NxGraph.mem_subgraph_nodes.1 hv
          obtain ⟨-, l, l1, l2, l3⟩ := (h1 v).1 k2
          refine ⟨y, NxGraph.mem_subgraph_adj.2 ⟨hy, k2, (h1 y).2 ⟨(hg.closed _ _ hy).2, l ++ [y], ?_, ?_, by simp⟩⟩⟩
          · obtain ⟨l', rfl⟩ : ∃ l', l = l' ++ [v] := by
              rcases List.eq_nil_or_concat l with rfl | ⟨l', b, rfl⟩
              · simp at l3
              · simp only [List.concat_eq_append, List.getLast?_append, List.getLast?_singleton, Option.some_or, Option.some.injEq] at l3
                exact ⟨l', by simp [l3]⟩
            intro p hp
            rw [List.append_assoc, List.singleton_append, consec_append] at hp
            rcases List.mem_append.1 hp with hp | hp
            · exact l1 p hp
            · simp only [consec, List.tail_cons, List.zip_cons_cons, List.zip_nil_right, List.mem_cons, List.not_mem_nil, or_false] at hp
              subst hp; exact hy
          · cases l with
            | nil => simp at l3
            | cons a l => simpa using l2
        · cases hg1
      · injection hg1 with hg1
        subst hg1
        exact ⟨hg, fun _ => ⟨y, hy⟩⟩
    by_cases hf2 : flags.removeLeaves = true
    · rw [if_pos hf2] at hg2
      obtain ⟨t, rfl, ht, -⟩ := removeLeaves_spec _ _ hg1'.1 _ hg2
      obtain ⟨a, b, -, -, -, h3, -⟩ := ht v hv
      exact ⟨a, h3⟩
    · rw [if_neg hf2] at hg2
      injection hg2 with hg2
      subst hg2
      exact hg1'.2 (by simpa using hf2)

theorem restrict_adj {G : LabGraph V} {w : V → V → Int} {π : V → Int} (hG : G.Ok w π) {h : NxGraph V} {s : List V} (hs : h = G.nx.subgraph s) (x y : V) :
    y ∈ h.adj x ↔ AdjIn (G.restrict h).edges x y := by
  have : AdjIn (G.restrict h).edges x y ↔ AdjIn G.edges x y ∧ x ∈ h.nodes ∧ y ∈ h.nodes := by
    simp only [AdjIn, LabGraph.restrict, List.mem_filter, decide_eq_true_eq]; tauto
  rw [this, ← hG.adj, hs]
  simp only [NxGraph.mem_subgraph_adj, NxGraph.mem_subgraph_nodes]
  constructor
  · rintro ⟨h1, h2, h3⟩
    have := hG.wf.closed _ _ h1
    exact ⟨h1, ⟨this.1, h2⟩, this.2, h3⟩
  · rintro ⟨h1, ⟨-, h2⟩, -, h3⟩
    exact ⟨h1, h2, h3⟩

theorem mem_endpoints {es : List (V × V)} {x : V} : x ∈ endpoints es ↔ ∃ y, AdjIn es x y := by
  simp only [endpoints, List.mem_flatMap, List.mem_cons, List.not_mem_nil, or_false, AdjIn]
  constructor
  · rintro ⟨⟨a, b⟩, h, rfl | rfl⟩
    · exact ⟨b, .inl h⟩
    · exact ⟨a, .inr h⟩
  · rintro ⟨y, h | h⟩
    · exact ⟨_, h, .inl rfl⟩
    · exact ⟨_, h, .inr rfl⟩

/-- The preprocessed graph is as expected by the algorithms. -/
theorem restrict_ok {G : LabGraph V} {w : V → V → Int} {π : V → Int} (hG : G.Ok w π) {h : NxGraph V} {s : List V} (hs : h = G.nx.subgraph s)
    (hcl : ∀ v ∈ h.nodes, ∀ y, y ∈ G.nx.adj v → ∃ y, y ∈ h.adj v) : (G.restrict h).Ok w π where
  wf := by show h.WF; rw [hs]; exact hG.wf.subgraph s
  describes := {
    distinct := hG.describes.distinct.sublist List.filter_sublist
    symm := hG.describes.symm
    costOk := by
      intro p c hp
      simp only [LabGraph.restrict, List.mem_filter, decide_eq_true_eq] at hp
      obtain ⟨h1, h2⟩ := hG.describes.costOk p c hp.1
      refine ⟨h1, ?_⟩
      simp only [AdjIn, LabGraph.restrict, List.mem_filter, decide_eq_true_eq] at h2 ⊢
      tauto
    allCosts := by
      intro e he
      simp only [LabGraph.restrict, List.mem_filter, decide_eq_true_eq] at he
      obtain ⟨p, c, h1, h2⟩ := hG.describes.allCosts e he.1
      refine ⟨p, c, ?_, h2⟩
      simp only [LabGraph.restrict, List.mem_filter, decide_eq_true_eq]
      rcases h2 with rfl | rfl
      · exact ⟨h1, he.2⟩
      · exact ⟨h1, he.2.2, he.2.1⟩
    prizeOk := by
      intro x c hx
      simp only [LabGraph.restrict, List.mem_filter, decide_eq_true_eq] at hx
      obtain ⟨h1, h2⟩ := hG.describes.prizeOk x c hx.1
      obtain ⟨y, hy⟩ := mem_endpoints.1 h2
      obtain ⟨z, hz⟩ := hcl x hx.2 y ((hG.adj _ _).2 hy)
      exact ⟨h1, mem_endpoints.2 ⟨z, (restrict_adj hG hs _ _).1 hz⟩⟩
    allPrizes := by
      intro x hx
      simp only [endpoints, LabGraph.restrict, List.mem_flatMap, List.mem_filter, decide_eq_true_eq, List.mem_cons, List.not_mem_nil, or_false] at hx
      obtain ⟨e, ⟨h1, h2, h3⟩, h4⟩ := hx
      obtain ⟨c, hc⟩ := hG.describes.allPrizes x (List.mem_flatMap.2 ⟨e, h1, by simpa using h4⟩)
      refine ⟨c, ?_⟩
      simp only [LabGraph.restrict, List.mem_filter, decide_eq_true_eq]
      exact ⟨hc, by rcases h4 with rfl | rfl <;> assumption⟩ }
  adj := fun x y => restrict_adj hG hs x y
  prizes := hG.prizes
  costs := hG.costs

/-- Feasible tours and cycles through the root. -/
theorem feasibleIn_iff {g : NxGraph V} (hg : g.WF) {es : List (V × V)} (hadj : ∀ x y, y ∈ g.adj x ↔ AdjIn es x y) {π : V → Int} {quota : Int} {root : V}
    {t : List V} : FeasibleIn es π quota root t ↔ ∃ m, t = root :: (m ++ [root]) ∧ NxCycle g (root :: m) ∧ quota ≤ namedPrize π t := by
  constructor
  · rintro ⟨⟨⟨m, rfl⟩, h2, h3⟩, h4, h5⟩
    rw [← List.cons_append, List.dropLast_concat] at h2
    have hw : NxWalk g ((root :: m) ++ [root]) := fun p hp => (hadj _ _).2 (h3 p (by simpa using hp))
    refine ⟨m, rfl, ⟨?_, h2, fun v hv => ?_, by simpa using hw⟩, h5⟩
    · simp at h4 ⊢; omega
    · obtain ⟨z, hz⟩ := exists_consec (z := root) hv
      exact (hg.closed _ _ (hw _ hz)).1
  · rintro ⟨m, rfl, h1, h2⟩
    refine ⟨⟨⟨m, rfl⟩, ?_, fun p hp => (hadj _ _).1 (h1.closed p (by simpa using hp))⟩, ?_, h2⟩
    · rw [← List.cons_append, List.dropLast_concat]; exact h1.nodup
    · have := h1.long; simp at this ⊢; omega

theorem solveBind_unknown {scip : Problem → ScipOutcome} {order : Nat → List Nat} {es heur : List (V × V)} {costs : List ((V × V) × Int)}
    {prizes : List (V × Int)} {quota : Int} {root : V} (h : root ∉ endpoints es) {o : SolveOptions} {disjoint : List (V × Int)} {pick : Pick} :
    (∀ x, solveBind scip order es heur costs prizes quota root o disjoint pick ≠ .ok x) ∧
    (heur = [] → (solveBind scip order es heur costs prizes quota root o disjoint pick).isUb = true) := by
  have hu := getNewVertex_unknown h
  constructor
  · intro x hx
    simp only [solveBind, Res.bind_eq_ok] at hx
    obtain ⟨_, -, _, -, r, hr, -⟩ := hx
    rw [hr] at hu
    cases hu
  · rintro rfl
    simp only [solveBind]
    exact Res.isUb_bind hu _

theorem oneConnected_nodes {component : NxGraph V → V → List V} {components : NxGraph V → List (List V)} {limit : Nat} {flags : PreprocessFlags}
    {g h : NxGraph V} {root : V} (hg : g.WF) (hp : Preprocessed component components limit flags g root h)
    (hf : flags.removeOneConnected = true) (hc : ¬ ∃ vs, NxCycle g vs ∧ root ∈ vs) {v : V} (hv : v ∈ h.nodes) : v = root := by
  have hrun := hp.run
  simp only [runPreprocessing, Res.bind_eq_ok, hf, if_true] at hrun
  obtain ⟨g1, hg1, g2, hg2, hh⟩ := hrun
  have hcut : flags.shortestPathCutoff = false ∧ flags.disjointPathCutoff = false := by
    split at hh
    · cases hh
    · split at hh
      · cases hh
      · simp_all
  simp only [hcut.1, hcut.2, Bool.false_eq_true, if_false, Res.ok.injEq] at hh
  have h2 : runPreprocessing component components limit { flags with removeOneConnected := false } g root = .ok g2 := by
    simp only [runPreprocessing, Res.bind_eq_ok]
    exact ⟨g1, hg1, g2, hg2, by simp [hcut]⟩
  subst hh
  rcases ((C70_one_connected components g2 root (hp.bicomp g2 h2) v).1 hv).2 with h | ⟨vs, k1, k2, -⟩
  · exact h
  · obtain ⟨-, k3, -⟩ := C70_tours_kept component components limit { flags with removeOneConnected := false } g g2 root hg hp.comp
      (fun g' hg' => hp.bicomp g' hg') h2
    exact absurd ⟨vs, (k3 vs k2).1 k1, k2⟩ hc

end Pctsp
