import Verif.Props.Experiments

/-!
# An instance on which the extension variants of Suurballe's heuristic report less than the optimum
-/

namespace Pctsp

instance eightResultDec : DecidableEq (LabResult (Fin 5)) := fun a b =>
  decidable_of_iff (a.objective = b.objective ∧ a.prize = b.prize ∧ a.edges = b.edges) (by cases a; cases b; simp)

/-- Two triangles that share the vertex 0, and an edge between them. -/
def eightEdges : List (Fin 5 × Fin 5) := [(0, 1), (0, 2), (0, 3), (0, 4), (1, 3), (2, 4), (3, 4)]
def eightLab : LabGraph (Fin 5) := labGraph eightEdges tieCost tiePrize

theorem eightLab_ok : eightLab.Ok tieCost tiePrize :=
  labGraph_ok (by decide) (by decide) (by decide) (by decide) (by decide)

def eightSplit : DiGraph Nat := .ofEdges 10 [((0, 5), 0), ((1, 6), 0), ((2, 7), 0), ((3, 8), 0), ((4, 9), 0), ((5, 1), 1), ((6, 0), 1), ((5, 2), 1), ((7, 0), 1),
  ((5, 3), 10), ((8, 0), 10), ((5, 4), 10), ((9, 0), 10), ((6, 3), 10), ((8, 1), 10), ((7, 4), 10), ((9, 2), 10), ((8, 4), 10), ((9, 3), 10)]

theorem eightSplit_wf : eightSplit.WF := DiGraph.ofEdges_wf (by decide) (by decide)
theorem eightDij_ok : IsDijkstra eightSplit 5 tieDij :=
  DijkstraOut.ofTable_ok (by decide) (by decide) (by decide) (by decide) (by decide) (by decide)

theorem eight_split : SplitOf eightLab.nx tieCost eightSplit (fun v => v.val) (fun v => v.val + 5) where
  tailInj u v h := Fin.ext h
  headInj u v h := Fin.ext (by simpa using h)
  disj u v := by have := u.isLt; intro h; omega
  edges x y h := by
    have key : ∀ e ∈ ([(0, 5), (1, 6), (2, 7), (3, 8), (4, 9), (5, 1), (6, 0), (5, 2), (7, 0), (5, 3), (8, 0), (5, 4), (9, 0), (6, 3), (8, 1), (7, 4),
        (9, 2), (8, 4), (9, 3)] : List (Nat × Nat)),
        (∃ v : Fin 5, e.1 = v.val ∧ e.2 = v.val + 5) ∨ ∃ a b : Fin 5, e.1 = a.val + 5 ∧ e.2 = b.val ∧ b ∈ eightLab.nx.adj a := by decide
    exact key (x, y) (DiGraph.mem_ofEdges.1 h)
  inner := by decide
  outer := by decide
  innerCost := by decide
  outerCost := by decide

/-- The result of the algorithm. -/
def eightRun : STree Nat × SState Nat := match suurballe eightSplit tieDij 10 5 with
  | .ok r => r
  | _ => (⟨0, fun _ => [], fun _ => [], fun _ => 0, fun _ => 0, fun _ _ => 0, fun _ => 0⟩,
    ⟨fun _ => 0, fun _ => none, fun _ => none, fun _ => false, [], fun _ => [], fun _ => [], fun _ => none⟩)

theorem eightRun_ok : suurballe eightSplit tieDij 10 5 = .ok (eightRun.1, eightRun.2) := by
  have h : (match suurballe eightSplit tieDij 10 5 with | .ok _ => true | _ => false) = true := by decide +kernel
  rw [eightRun]
  revert h
  cases suurballe eightSplit tieDij 10 5 <;> simp

theorem eight_on : SuurballeOn eightLab.nx tieCost eightSplit (fun v => v.val) (fun v => v.val + 5) (plainNames 5) 0 tieDij 10 eightRun.1 eightRun.2 :=
  ⟨eightLab_ok.wf, by decide, eightSplit_wf, eight_split, plainNames_ok 5, eightDij_ok, eightRun_ok⟩

theorem eightCosts_eq : vertexDisjointCostMap (plainNames 5) eightRun.1 eightRun.2 (treeNodes 5 tieDij) = [(1, 21), (2, 21), (0, 4), (3, 21), (4, 21)] := by
  decide +kernel
theorem eightPaths_eq : undirectedVertexDisjointPathsMap (plainNames 5) eightRun.1 eightRun.2 (treeNodes 5 tieDij) = .ok tiePaths := by decide +kernel

theorem eightLab_feasible : FeasibleIn eightLab.edges tiePrize 10 0 [0, 1, 3, 4, 2, 0] := ⟨⟨⟨[1, 3, 4, 2], rfl⟩, by decide, by decide⟩, by decide, by decide⟩

/-- Every tour with prize 10 costs at least 32. -/
theorem eightLab_cheapest {t : List (Fin 5)} (ht : FeasibleIn eightLab.edges tiePrize 10 0 t) : 32 ≤ namedCost tieCost t := by
  obtain ⟨⟨⟨m, rfl⟩, hn, hw⟩, h3, hp⟩ := ht
  have hlen : m.length ≤ 4 := by
    rw [← List.cons_append, List.dropLast_concat] at hn
    have := hn.length_le_card
    simp at this
    omega
  match m, hlen with
  | [], _ => simp at h3
  | [a], _ => simp at h3
  | [a, b], _ => clear h3; revert a b; decide +kernel
  | [a, b, c], _ => clear h3; revert a b c; decide +kernel
  | [a, b, c, d], _ => clear h3; revert a b c d; decide +kernel

/-- Preprocessing leaves the graph as it is. -/
theorem eightLab_preprocessed : Preprocessed (fun g _ => g.nodes) (fun _ => [[0, 1, 2, 3, 4]]) 10 ⟨false, false, true, false, false⟩ eightLab.nx 0 eightLab.nx where
  run := by
    have h : runPreprocessing (fun g _ => g.nodes) (fun _ => [[0, 1, 2, 3, 4]]) 10 ⟨false, false, true, false, false⟩ eightLab.nx 0
        = .ok (removeOneConnected (fun _ => [[0, 1, 2, 3, 4]]) eightLab.nx 0) := rfl
    rw [h]
    congr 1
    have h1 : (removeOneConnected (fun _ => [[0, 1, 2, 3, 4]]) eightLab.nx 0).nodes = eightLab.nx.nodes := by decide
    have h2 : (removeOneConnected (fun _ => [[0, 1, 2, 3, 4]]) eightLab.nx 0).adj = eightLab.nx.adj := by decide
    cases hx : removeOneConnected (fun _ => [[0, 1, 2, 3, 4]]) eightLab.nx 0
    rw [hx] at h1 h2
    cases hy : eightLab.nx
    rw [hy] at h1 h2
    exact NxGraph.mk.injEq .. ▸ ⟨h1, h2⟩
  comp := by
    intro v
    refine ⟨fun h => ⟨h, ?_⟩, fun h => h.1⟩
    have : ∀ v : Fin 5, NxWalk eightLab.nx (if v = 0 then [0] else [0, v]) ∧ (if v = 0 then [0] else [0, v]).head? = some (0 : Fin 5) ∧
        (if v = 0 then [0] else [0, v]).getLast? = some v := by unfold NxWalk; decide
    exact ⟨_, this v⟩
  bicomp := by
    intro g' h
    obtain rfl : eightLab.nx = g' := Res.ok.inj h
    have hc : NxCycle eightLab.nx [0, 1, 3, 4, 2] := ⟨by decide, by decide, by decide, by unfold NxWalk; decide⟩
    refine ⟨by decide, by decide, fun vs hvs => ⟨[0, 1, 2, 3, 4], by simp, fun v _ => (by decide : ∀ v : Fin 5, v ∈ [(0 : Fin 5), 1, 2, 3, 4]) v⟩, ?_⟩
    intro c hcm _ u hu v hv _
    exact ⟨_, hc, (by decide : ∀ v : Fin 5, v ∈ [(0 : Fin 5), 1, 3, 4, 2]) u, (by decide : ∀ v : Fin 5, v ∈ [(0 : Fin 5), 1, 3, 4, 2]) v⟩

theorem eightLab_restrict : eightLab.restrict eightLab.nx = eightLab := by
  have h1 : (eightLab.restrict eightLab.nx).edges = eightLab.edges := by decide
  have h2 : (eightLab.restrict eightLab.nx).costs = eightLab.costs := by decide
  have h3 : (eightLab.restrict eightLab.nx).prizes = eightLab.prizes := by decide
  have h4 : (eightLab.restrict eightLab.nx).nx = eightLab.nx := rfl
  cases hx : eightLab.restrict eightLab.nx
  rw [hx] at h1 h2 h3 h4
  cases hy : eightLab
  rw [hy] at h1 h2 h3 h4
  exact LabGraph.mk.injEq .. ▸ ⟨h4, h1, h2, h3⟩

/-- Functions outside that do what is expected; the test of a solution accepts only the optimal tour. -/
def eightEnv : LabEnv Ext (Fin 5) := oneEnv eightLab tiePrize 0 [0, 1, 3, 4, 2, 0]

theorem eightEnv_ok : eightEnv.Ok eightLab tiePrize 0 := oneEnv_ok eightLab_ok (by decide) _
theorem eightEnv_sound : eightEnv.YesSound eightLab tiePrize 10 0 := oneEnv_sound eightLab_feasible

theorem eightLab_reach : ∀ x : Fin 5, (0 :: if x = 0 then [] else [x]).getLast? = some x ∧
    (∀ p ∈ consec (0 :: if x = 0 then [] else [x]), AdjIn eightLab.edges p.1 p.2) ∧ namedCost tieCost (0 :: if x = 0 then [] else [x]) ≤ 1073741823 := by
  decide

/-- A run of the algorithm is a run of the vial. -/
theorem eightLab_vial {scip : Problem → ScipOutcome} (hscip : ∀ P, ScipSpec 1 P (List.range P.graph.edges.length) (scip P))
    {mp : ModelParams} {s : Option ScipStatus} {r : LabResult (Fin 5)}
    (h : runAlgorithm eightEnv scip List.range (fun _ => none) (plainNames 5) eightSplit 5 tieDij 10 eightLab 10 0 mp = .ok (s, r)) :
    ∃ R : VialRun ⟨false, false, true, false, false⟩ eightLab tieCost tiePrize 10 0 mp s r, R.graph = eightLab ∧ R.pathsOf = dictGet tiePaths ∧
      R.costMap = [(1, 21), (2, 21), (0, 4), (3, 21), (4, 21)] ∧ R.env.prizeOf = namedPrize tiePrize := by
  refine ⟨⟨Ext, Nat, eightEnv, fun g _ => g.nodes, fun _ => [[0, 1, 2, 3, 4]], 10, eightLab.nx, eightSplit, fun v => v.val,
    fun v => v.val + 5, plainNames 5, tieDij, 10, eightRun.1, eightRun.2, scip, List.range, fun _ => none, eightLab_preprocessed, ?_, ?_, eight_on,
    reorderOk_none, fun n => List.Perm.refl _, hscip, ?_⟩, eightLab_restrict, ?_, eightCosts_eq, rfl⟩
  · rw [eightLab_restrict]; exact eightEnv_ok
  · rw [eightLab_restrict]; exact eightEnv_sound
  · simp only [runVial, eightLab_preprocessed.run, Res.ok_bind, eightLab_restrict]
    rw [if_pos (by decide)]
    exact h
  · exact congrArg foundPaths eightPaths_eq

/-- An exact setting that starts from Suurballe's paths finds the optimum. -/
theorem eightLab_exact {mp : ModelParams} (he : mp.isExact = true) (hh : mp.isHeuristic = false)
    (ha : mp.heuristic = some .suurballesPathExtensionCollapse) (hp : mp.collapsePaths = some true) (hd : mp.depthLimit = none)
    (hs : mp.stepSize = some 10) : ∃ r : LabResult (Fin 5),
      (∃ R : VialRun ⟨false, false, true, false, false⟩ eightLab tieCost tiePrize 10 0 mp (some .optimal) r, R.CoverOk) ∧ r.objective = 32 := by
  obtain ⟨scip, hscip⟩ := exists_scip_keeps 1 List.range
  have hrun : runHeuristic eightEnv eightLab 10 0 .suurballesPathExtensionCollapse
      (vertexDisjointCostMap (plainNames 5) eightRun.1 eightRun.2 (treeNodes 5 tieDij)) tiePaths mp.collapsePaths mp.depthLimit mp.stepSize
        = .ok [(0, 2), (2, 0), (0, 1), (1, 0)] := by
    rw [eightCosts_eq, hp, hd, hs]; decide +kernel
  have hreach : ∀ x ∈ endpoints eightLab.edges, ∃ l, (0 :: l).getLast? = some x ∧ (∀ p ∈ consec (0 :: l), AdjIn eightLab.edges p.1 p.2) ∧
      namedCost tieCost (0 :: l) ≤ 1073741823 := fun x _ => ⟨_, eightLab_reach x⟩
  have hentry : ∀ c, dictGet (vertexDisjointCostMap (plainNames 5) eightRun.1 eightRun.2 (treeNodes 5 tieDij)) 0 = some c →
      ∀ t, FeasibleIn eightLab.edges tiePrize 10 0 t → c ≤ namedCost tieCost t := by
    intro c hc t ht
    rw [eightCosts_eq] at hc
    obtain rfl : 4 = c := Option.some.inj hc
    have := eightLab_cheapest ht
    omega
  obtain ⟨s, r, h1, -, h3, h4, -⟩ := C92_exact eightLab_ok eightEnv_ok (by decide) (by decide) eight_on eightPaths_eq eightEnv_sound reorderOk_none hh he
    (fun alg h => by rw [ha] at h; obtain rfl := Option.some.inj h; exact ⟨_, hrun⟩)
    (order := List.range) (fun n => List.Perm.refl _) (fun P => (hscip P).1) (fun _ => hreach) (fun _ => hentry)
  have hst : s = .optimal := by
    obtain ⟨P, hP⟩ := runAlgorithm_status h1
    exact ((hP ▸ (hscip P).2.2 : s = .optimal ∨ s = .infeasible)).resolve_right fun h => (h4 h).2 _ eightLab_feasible
  subst hst
  obtain ⟨R, hR1, -, hR3, -⟩ := eightLab_vial (fun P => (hscip P).1) h1
  refine ⟨r, ⟨R, ⟨fun _ => by rw [hR1]; exact hreach, fun _ c hc => by rw [hR3] at hc; rw [← eightCosts_eq] at hc; exact hentry c hc⟩⟩, ?_⟩
  obtain ⟨t, ht, hr, hmin⟩ := h3 rfl (.inl rfl)
  rw [hr.objective]
  have h32 : namedCost tieCost [0, 1, 3, 4, 2, 0] = 32 := by decide
  exact Int.le_antisymm (h32 ▸ hmin _ eightLab_feasible) (eightLab_cheapest ht)

/-- A heuristic setting that returns the two closed walks. -/
theorem eightLab_heuristic {mp : ModelParams} (hh : mp.isHeuristic = true)
    (h : runHeuristic eightEnv eightLab 10 0 mp.algorithm [(1, 21), (2, 21), (0, 4), (3, 21), (4, 21)] tiePaths none mp.depthLimit mp.stepSize
      = .ok [(0, 2), (2, 0), (0, 1), (1, 0)]) :
    ∃ r : LabResult (Fin 5), Nonempty (VialRun ⟨false, false, true, false, false⟩ eightLab tieCost tiePrize 10 0 mp none r) ∧ r.objective = 4 ∧ r.prize = 10 := by
  obtain ⟨scip, hscip⟩ := exists_scip_keeps 1 List.range
  rw [← eightCosts_eq] at h
  have hr : makeResult (fun _ => none) eightLab [(0, 2), (2, 0), (0, 1), (1, 0)] = .ok ⟨4, 10, [(0, 2), (2, 0), (0, 1), (1, 0)]⟩ := by decide +kernel
  obtain ⟨R, -⟩ := eightLab_vial (fun P => (hscip P).1) (runAlgorithm_heuristic eight_on hh eightPaths_eq h hr)
  exact ⟨_, ⟨R⟩, rfl, rfl⟩

end Pctsp
