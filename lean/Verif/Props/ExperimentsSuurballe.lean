import Verif.Lemmas.EightExample

/-!
# C103: the extension variants of Suurballe's heuristic against the exact settings
-/

namespace Pctsp

variable {V : Type} [DecidableEq V] {G : LabGraph V} {w : V → V → Int} {π : V → Int} {root : V}

/-- **C103.** The extension variants of Suurballe's heuristic against exact settings.  If the pair of paths of some vertex other than the root closes to a
tour that meets the quota (and costs less than `sys.maxsize`), or to one with more prize than the closed walk of the root's own entry, then such a heuristic
with a prize of at least the quota does not report less than the optimal objective, and it does not report a tour if the exact setting is `infeasible`. -/
theorem C103_suurballe (hG : G.Ok w π) (hno : ∀ e ∈ G.edges, e.1 ≠ e.2) {I : Instances} {gens : List Nat} {dataset dataset' : DatasetName}
    {name name' : ExperimentName} {ts ts' : List Trial} (h : experimentTrials I gens dataset name = .ok ts)
    (h' : experimentTrials I gens dataset' name' = .ok ts') {d : DataConfig} {p p' : RunParams} {f f' : PreprocessFlags} (hx : (d, p, f) ∈ ts)
    (hx' : (d, p', f') ∈ ts') (he : p.model.isExact = true)
    (ha : p'.model.algorithm ∈ [AlgorithmName.suurballesExtensionCollapse, .suurballesPathExtensionCollapse])
    {s s' : Option ScipStatus} {r r' : LabResult V}
    (R : VialRun f G w π d.quota root p.model s r) (R' : VialRun f' G w π d.quota root p'.model s' r') (hcov : R.CoverOk) (hq : d.quota ≤ r'.prize)
    {v : V} {pq : List V × List V} {c : List V} (hv : v ≠ root) (hpq : R'.pathsOf v = some pq) (hs : ClosesTo pq c)
    (hpos : d.quota ≤ namedPrize π c ∧ namedCost w c < maxsize ∨
      0 < namedPrize π c ∧ ∀ pq' c', R'.pathsOf root = some pq' → ClosesTo pq' c' → R'.env.prizeOf c' < namedPrize π c) :
    (s = some .optimal → ReportsNothing r' ∨ r.objective ≤ r'.objective) ∧ (s = some .infeasible → ReportsNothing r') := by
  obtain ⟨hf, a1, a2, -⟩ := C103_settings h hx
  obtain ⟨hf', b1, b2, -⟩ := C103_settings h' hx'
  have hh : p.model.isHeuristic = false := by
    rw [← Bool.not_eq_true, a2, a1.1 he]; decide
  have hh' : p'.model.isHeuristic = true := by
    rw [b2]
    simp only [List.mem_cons, List.not_mem_nil, or_false] at ha
    rcases ha with e | e <;> rw [e] <;> decide
  have hc := R.cycle hG hno (by rw [hf]) hh he
  obtain ⟨k1, k2, k3⟩ := R.exact hG hno hh he hcov
  have key : ReportsNothing r' ∨ ∃ t, FeasibleIn G.edges π d.quota root t ∧ Reports w π t r' := by
    letI := R'.ord
    obtain ⟨c1, c2, c3, c4⟩ := C99_ok hG R'.preprocessed hc
    have hno' : ∀ e ∈ (G.restrict R'.h).edges, e.1 ≠ e.2 := fun e he => hno e (List.mem_filter.1 he).1
    have hl : root ∉ (G.restrict R'.h).nx.adj root := by
      intro h
      rcases (c1.adj _ _).1 h with h | h <;> exact hno' _ h rfl
    have hrun := R'.run
    simp only [runVial, R'.preprocessed.run, Res.ok_bind, if_pos c3] at hrun
    have hfeas := C99_tours hG R'.preprocessed d.quota
    obtain ⟨m, hm, -⟩ := C85_paths R'.suurballe
    have hmp : R'.pathsOf = dictGet m := by
      unfold VialRun.pathsOf
      rw [hm]
      rfl
    rw [hmp] at hpq hpos
    obtain ⟨ec, pec, h1, h2, h3, h4, h5, -⟩ := C91_suurballe_extension c1 R'.envOk R'.suurballe hl hm d.quota none p'.model.depthLimit p'.model.stepSize
      hv hpq hs hpos
    simp only [List.mem_cons, List.not_mem_nil, or_false] at ha
    rcases ha with e | e
    · rw [← e] at h1
      obtain ⟨r₁, r1, -, r2⟩ := C92_heuristic c1 hno' R'.suurballe hm R'.reorderOk hh' R'.scip R'.order h1 (.inr h2)
      rw [hrun] at r1
      obtain ⟨-, rfl⟩ := Prod.mk.inj (Res.ok.inj r1)
      have h6 := r2 (by obtain ⟨_, rfl⟩ := h2.shape; simp)
      exact .inr ⟨ec, (hfeas ec).1 ⟨h2, h3, by rw [← h6.prize]; exact hq⟩, h6⟩
    · rw [← e] at h4
      obtain ⟨r₁, r1, r2, r3⟩ := C92_heuristic c1 hno' R'.suurballe hm R'.reorderOk hh' R'.scip R'.order h4 (h5.imp_right fun h => h.tour)
      rw [hrun] at r1
      obtain ⟨-, rfl⟩ := Prod.mk.inj (Res.ok.inj r1)
      rcases h5 with h5 | h5
      · exact .inl (r2 h5)
      · exact .inr ⟨pec, (hfeas pec).1 h5, r3 (by obtain ⟨_, rfl⟩ := h5.tour.shape; simp)⟩
  refine ⟨fun hs => key.imp_right ?_, fun hs => key.resolve_right fun ⟨t, ht, _⟩ => (k3 hs).2 t ht⟩
  rintro ⟨t', ht', hr'⟩
  obtain ⟨t, ht, hr, hmin⟩ := k2 hs
  rw [hr.objective, hr'.objective]
  exact hmin t' ht'

/-- Files in which every quota is 10. -/
def tenInstances : Instances := ⟨fun _ _ _ => 10, fun _ _ => 0, fun _ _ => 10, fun _ => 0⟩

/-- **C103.** Without that condition these heuristics can report less than the optimum.  There is an instance with a tour of cost 32 and no cheaper feasible
one, on which all settings of `cost_cover` report `optimal` and 32, but both extension variants of Suurballe's heuristic in `compare_heuristics` report the
objective 4 with a prize that meets the quota: the two closed walks of the root's own entry. -/
theorem C103_below : ∃ (I : Instances) (d : DataConfig) (G : LabGraph (Fin 5)) (w : Fin 5 → Fin 5 → Int) (π : Fin 5 → Int) (ts ts' : List Trial),
    G.Ok w π ∧ (∀ e ∈ G.edges, e.1 ≠ e.2) ∧ FeasibleIn G.edges π d.quota 0 [0, 1, 3, 4, 2, 0] ∧ namedCost w [0, 1, 3, 4, 2, 0] = 32 ∧
    (∀ t, FeasibleIn G.edges π d.quota 0 t → 32 ≤ namedCost w t) ∧
    experimentTrials I [1, 2, 3] .tspwplib .costCover = .ok ts ∧ experimentTrials I [1, 2, 3] .tspwplib .compareHeuristics = .ok ts' ∧
    (∃ p f, (d, p, f) ∈ ts) ∧
    (∀ p f, (d, p, f) ∈ ts → ∃ r, (∃ R : VialRun f G w π d.quota 0 p.model (some .optimal) r, R.CoverOk) ∧ r.objective = 32) ∧
    (∀ alg ∈ [AlgorithmName.suurballesExtensionCollapse, .suurballesPathExtensionCollapse], ∃ p f, (d, p, f) ∈ ts' ∧ p.model.algorithm = alg) ∧
    ∀ p f, (d, p, f) ∈ ts' → p.model.algorithm ∈ [AlgorithmName.suurballesExtensionCollapse, .suurballesPathExtensionCollapse] →
      ∃ r, Nonempty (VialRun f G w π d.quota 0 p.model none r) ∧ r.objective = 4 ∧ d.quota ≤ r.prize := by
  have hp1 : ∀ p ∈ costCoverParams, p.model.isExact = true ∧ p.model.isHeuristic = false ∧ p.model.heuristic = some .suurballesPathExtensionCollapse ∧
      p.model.collapsePaths = some true ∧ p.model.depthLimit = none ∧ p.model.stepSize = some 10 := by decide
  have hp2 : ∀ p ∈ heuristicParams, p.model.algorithm ∈ [AlgorithmName.suurballesExtensionCollapse, .suurballesPathExtensionCollapse] →
      p.model.isHeuristic = true ∧ runHeuristic eightEnv eightLab 10 0 p.model.algorithm [(1, 21), (2, 21), (0, 4), (3, 21), (4, 21)] tiePaths none
        p.model.depthLimit p.model.stepSize = .ok [(0, 2), (2, 0), (0, 1), (1, 0)] := by decide +kernel
  let d : DataConfig := ⟨.tspwplib, .euc2d, .st70, 10, 0, some 25, some 1, some 10, some 0⟩
  have hflags : (⟨false, false, true, false, false⟩ : PreprocessFlags) ∈ productOfPreprocessing [false] [false] [true] := by
    decide
  have hd : d ∈ defaultData tenInstances [1, 2, 3] .tspwplib := by
    simp only [defaultData, productOfTspwplib, List.mem_flatMap, List.mem_map]
    exact ⟨25, by decide, some 10, by decide, 1, by decide, .st70, by decide, .euc2d, by decide, rfl⟩
  refine ⟨tenInstances, d, eightLab, tieCost, tiePrize, _, _, eightLab_ok, by decide, eightLab_feasible, by decide, fun t ht => eightLab_cheapest ht, rfl, rfl,
    ⟨_, _, mem_product3.2 ⟨hd, List.mem_cons_self, hflags⟩⟩, fun p f hpf => ?_, fun alg ha => ?_, fun p f hpf ha => ?_⟩
  · obtain ⟨-, h1, h2⟩ := mem_product3.1 hpf
    obtain rfl : f = ⟨false, false, true, false, false⟩ := by simpa [productOfPreprocessing, product3] using h2
    obtain ⟨a1, a2, a3, a4, a5, a6⟩ := hp1 p h1
    exact eightLab_exact a1 a2 a3 a4 a5 a6
  · have : ∀ alg ∈ [AlgorithmName.suurballesExtensionCollapse, .suurballesPathExtensionCollapse], ∃ p ∈ heuristicParams, p.model.algorithm = alg := by decide
    obtain ⟨p, h1, h2⟩ := this alg ha
    exact ⟨p, _, mem_product3.2 ⟨hd, h1, hflags⟩, h2⟩
  · obtain ⟨-, h1, h2⟩ := mem_product3.1 hpf
    obtain rfl : f = ⟨false, false, true, false, false⟩ := by simpa [productOfPreprocessing, product3] using h2
    obtain ⟨a1, a2⟩ := hp2 p h1 ha
    obtain ⟨r, h3, h4, h5⟩ := eightLab_heuristic a1 a2
    exact ⟨r, h3, h4, by rw [h5]⟩

/-- The hypotheses of `C103_suurballe`: on the complete graph with four vertices the pair of paths of the vertex 1 closes to a tour that meets the quota. -/
example : ∃ ts ts', experimentTrials threeInstances [1, 2, 3] .tspwplib .costCover = .ok ts ∧
    experimentTrials threeInstances [1, 2, 3] .tspwplib .compareHeuristics = .ok ts' ∧ ∃ d p p' f, (d, p, f) ∈ ts ∧ (d, p', f) ∈ ts' ∧
    p'.model.algorithm = .suurballesPathExtensionCollapse ∧ ∃ s s' r r', ∃ (R : VialRun f fourLab fourCost (fun _ => 1) d.quota 0 p.model s r)
      (R' : VialRun f fourLab fourCost (fun _ => 1) d.quota 0 p'.model s' r'), R.CoverOk ∧ s = some .optimal ∧ d.quota ≤ r'.prize ∧
      ∃ pq c, R'.pathsOf 1 = some pq ∧ ClosesTo pq c ∧ d.quota ≤ namedPrize (fun _ => 1) c ∧ namedCost fourCost c < maxsize := by
  refine ⟨_, _, rfl, rfl, ⟨.tspwplib, .euc2d, .st70, 3, 0, some 25, some 1, some 10, some 0⟩,
    exactRun .suurballesPathExtensionCollapse true 10 false false 2 secMaxTailingOffIter, heuristicRun .suurballesPathExtensionCollapse (some true) none (some 10),
    ⟨false, false, true, false, false⟩, mem_product3.2 ⟨?_, by decide, by decide⟩, mem_product3.2 ⟨?_, by decide, by decide⟩, rfl, ?_⟩
  · simp only [defaultData, productOfTspwplib, List.mem_flatMap, List.mem_map]
    exact ⟨25, by decide, some 10, by decide, 1, by decide, .st70, by decide, .euc2d, by decide, rfl⟩
  · simp only [defaultData, productOfTspwplib, List.mem_flatMap, List.mem_map]
    exact ⟨25, by decide, some 10, by decide, 1, by decide, .st70, by decide, .euc2d, by decide, rfl⟩
  · obtain ⟨s, r, ⟨R, -⟩, -, hs⟩ := fourLab_run (mp := (exactRun .suurballesPathExtensionCollapse true 10 false false 2 secMaxTailingOffIter).model)
      rfl rfl rfl rfl rfl rfl
    obtain ⟨scip, hscip⟩ := exists_scip_keeps 1 List.range
    have h0 : runHeuristic (oneEnv fourLab (fun _ => 1) 0 [0, 2, 1, 0]) fourLab 3 0 .suurballesPathExtensionCollapse
        (vertexDisjointCostMap (plainNames 4) fourRun.1 fourRun.2 (treeNodes 4 fourDij)) fourPaths none none (some 10) = .ok (consec [0, 2, 1, 0]) := by
      rw [fourCosts_eq]; decide +kernel
    obtain ⟨r', h1, -, h2⟩ := C92_heuristic (mp := (heuristicRun .suurballesPathExtensionCollapse (some true) none (some 10)).model) fourLab_ok (by decide)
      fourLab_on fourPaths_eq reorderOk_none rfl scip List.range h0 (.inr fourLab_feasible.tour)
    obtain ⟨R', -, hR⟩ := fourLab_vial hscip h1
    refine ⟨_, _, r, r', R, R', ⟨fun h => (by cases h), fun h => (by cases h)⟩, congrArg some (hs rfl).1, ?_, ([0, 2, 1], [0, 1]), [0, 2, 1, 0], ?_, ?_, ?_, ?_⟩
    · rw [(h2 (by simp)).prize]; decide
    · rw [hR]; decide
    · exact ⟨0, 1, [2], [], rfl, rfl, rfl⟩
    · decide
    · decide

end Pctsp
