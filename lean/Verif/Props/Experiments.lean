import Verif.Lemmas.Experiments

/-!
# C103: the experiments
-/

namespace Pctsp

/-- **C103.** The experiments that are offered for a data set have vials, and every other name is rejected with a `ValueError`; the errors that the
experiments themselves raise, and a missing key, never occur. -/
theorem C103_offered (I : Instances) (gens : List Nat) (dataset : DatasetName) (name : ExperimentName) :
    ((dataset, name) ∈ offered → ∃ ts, experimentTrials I gens dataset name = .ok ts) ∧
    ((dataset, name) ∉ offered → experimentTrials I gens dataset name = .throw .valueError) := by
  refine ⟨fun h => ?_, fun h => ?_⟩
  · cases dataset <;> cases name <;> first | exact ⟨_, rfl⟩ | (exact absurd h (by decide))
  · exact experimentTrials_rejected h

/-- **C103.** An experiment solves every one of its instances with every one of its settings, exactly once, and its instances are of the data set that has
been asked for. -/
theorem C103_once {I : Instances} {gens : List Nat} {dataset : DatasetName} {name : ExperimentName} {ts : List Trial}
    (h : experimentTrials I gens dataset name = .ok ts) :
    (gens.Nodup → ts.Nodup) ∧ ts.length = instanceCount gens.length dataset name * settingCount name ∧
    (∀ x ∈ ts, x.1.dataset = dataset) ∧ ∀ x ∈ ts, ∀ y ∈ ts, (x.1, y.2.1, x.2.2) ∈ ts := by
  obtain ⟨data, params, rfl, h1, h2, h3, h4, h5⟩ := experiment_product h
  unfold trials
  refine ⟨fun hg => product3_nodup (h1 hg) h2 (by decide), ?_, fun x hx => h3 _ (mem_product3.1 hx).1, fun x hx y hy => ?_⟩
  · rw [product3_length, h4, h5]
    simp [productOfPreprocessing, product3]
  · exact mem_product3.2 ⟨(mem_product3.1 hx).1, (mem_product3.1 hy).2.1, (mem_product3.1 hx).2.2⟩

/-- **C103.** The instances of an experiment have the quota and the root of their file: for tspwplib the quota for the percentage `alpha` of the instance; for
londonaq that for the percentage if there is one, and one of the quotas of the experiment otherwise. -/
theorem C103_data {I : Instances} {gens : List Nat} {dataset : DatasetName} {name : ExperimentName} {ts : List Trial}
    (h : experimentTrials I gens dataset name = .ok ts) {d : DataConfig} {p : RunParams} {f : PreprocessFlags} (hx : (d, p, f) ∈ ts) :
    (dataset = .tspwplib → ∃ a g, d.alpha = some a ∧ d.generation = some g ∧ (g ∈ gens ∨ g ∈ [1, 2, 3]) ∧ d.quota = I.oplibQuota g d.graphName a ∧
      d.root = I.oplibRoot g d.graphName ∧ d.costFunction ∈ tsplibCosts ∧ d.kappa ≠ some 0) ∧
    (dataset = .londonaq → d.root = I.laqRoot d.graphName ∧ d.costFunction = .ofFile d.graphName ∧ d.kappa = none ∧ d.generation = none ∧
      (d.alpha = none ∧ d.quota ∈ 200 :: londonaqQuotas ∧ name ∉ [ExperimentName.ccLondonaqAlpha, .londonaqAlpha] ∨
       ∃ a ∈ tsplibAlphas, d.alpha = some a ∧ d.quota = I.laqQuota d.graphName a ∧ name ∈ [ExperimentName.ccLondonaqAlpha, .londonaqAlpha])) := by
  have hoff : (dataset, name) ∈ offered := by
    by_contra hn
    rw [experimentTrials_rejected hn] at h
    cases h
  have key : ∀ data params, experimentTrials I gens dataset name = .ok (trials data params) → d ∈ data := by
    intro data params h1
    rw [h] at h1
    obtain rfl := Res.ok.inj h1
    exact (mem_product3.1 hx).1
  have ht : ∀ {alphas kappas gens' names costs}, d ∈ productOfTspwplib I alphas kappas gens' names costs → (∀ g ∈ gens', g ∈ gens ∨ g ∈ [1, 2, 3]) →
      (∀ c ∈ costs, c ∈ tsplibCosts) → ∃ a g, d.alpha = some a ∧ d.generation = some g ∧ (g ∈ gens ∨ g ∈ [1, 2, 3]) ∧
        d.quota = I.oplibQuota g d.graphName a ∧ d.root = I.oplibRoot g d.graphName ∧ d.costFunction ∈ tsplibCosts ∧ d.kappa ≠ some 0 := by
    intro alphas kappas gens' names costs hd hg hc
    simp only [productOfTspwplib, List.mem_flatMap, List.mem_map] at hd
    obtain ⟨a, -, k, -, g, hg', n, -, c, hc', rfl⟩ := hd
    refine ⟨a, g, rfl, rfl, hg g hg', rfl, rfl, hc c hc', ?_⟩
    unfold kappaOf
    cases k with
    | none => simp
    | some k => simp only; split <;> simp [*]
  have hl : ∀ {quotas names}, d ∈ productOfLondonaq I quotas names → (∀ q ∈ quotas, q ∈ 200 :: londonaqQuotas) →
      d.root = I.laqRoot d.graphName ∧ d.costFunction = .ofFile d.graphName ∧ d.kappa = none ∧ d.generation = none ∧ d.alpha = none ∧
        d.quota ∈ 200 :: londonaqQuotas := by
    intro quotas names hd hq
    simp only [productOfLondonaq, List.mem_flatMap, List.mem_map] at hd
    obtain ⟨q, hq', n, -, rfl⟩ := hd
    exact ⟨rfl, rfl, rfl, rfl, rfl, hq q hq'⟩
  have ha : ∀ {names}, d ∈ productOfLondonaqAlpha I tsplibAlphas names →
      d.root = I.laqRoot d.graphName ∧ d.costFunction = .ofFile d.graphName ∧ d.kappa = none ∧ d.generation = none ∧
        ∃ a ∈ tsplibAlphas, d.alpha = some a ∧ d.quota = I.laqQuota d.graphName a := by
    intro names hd
    simp only [productOfLondonaqAlpha, List.mem_flatMap, List.mem_map] at hd
    obtain ⟨a, ha', n, -, rfl⟩ := hd
    exact ⟨rfl, rfl, rfl, rfl, a, ha', rfl, rfl⟩
  simp only [offered, List.mem_cons, List.not_mem_nil, or_false, Prod.mk.injEq] at hoff
  rcases hoff with ⟨rfl, rfl⟩ | ⟨rfl, rfl⟩ | ⟨rfl, rfl⟩ | ⟨rfl, rfl⟩ | ⟨rfl, rfl⟩ | ⟨rfl, rfl⟩ | ⟨rfl, rfl⟩ | ⟨rfl, rfl⟩ | ⟨rfl, rfl⟩ | ⟨rfl, rfl⟩ |
    ⟨rfl, rfl⟩ | ⟨rfl, rfl⟩ | ⟨rfl, rfl⟩ | ⟨rfl, rfl⟩
  all_goals
    have h1 := key _ _ rfl
    first
      | exact ⟨fun _ => ht h1 (fun g hg => .inl hg) (by decide), by simp⟩
      | exact ⟨fun _ => ht h1 (fun g hg => .inr (by revert hg; revert g; decide)) (by decide), by simp⟩
      | (obtain ⟨a1, a2, a3, a4, a5, a6⟩ := hl h1 (by decide)
         exact ⟨by simp, fun _ => ⟨a1, a2, a3, a4, .inl ⟨a5, a6, by decide⟩⟩⟩)
      | (obtain ⟨a1, a2, a3, a4, a, a5, a6, a7⟩ := ha h1
         exact ⟨by simp, fun _ => ⟨a1, a2, a3, a4, .inr ⟨a, a5, a6, a7, by decide⟩⟩⟩)

/-- **C103.** What the settings of the experiments have in common.  Only one-connected components are removed.  A setting is exact iff it is
branch and cut, and a heuristic iff its algorithm is one; both kinds of subtour separation belong to the exact ones.  Cost covers of disjoint paths occur
in `cost_cover`, `cc_londonaq_alpha` and `tailing_off` only, never together with those of shortest paths, and always with a start from Suurballe's paths;
in `tailing_off` they are always on. -/
theorem C103_settings {I : Instances} {gens : List Nat} {dataset : DatasetName} {name : ExperimentName} {ts : List Trial}
    (h : experimentTrials I gens dataset name = .ok ts) {d : DataConfig} {p : RunParams} {f : PreprocessFlags} (hx : (d, p, f) ∈ ts) :
    f = ⟨false, false, true, false, false⟩ ∧ (p.model.isExact = true ↔ p.model.algorithm = .solvePctsp) ∧
    (p.model.isHeuristic = true ↔ p.model.algorithm ∈ heuristicAlgorithms) ∧ p.model.secDisjoint = p.model.isExact ∧
    p.model.secMaxflow = p.model.isExact ∧ (p.search.isSome = p.model.isExact) ∧
    (p.model.coverDisjoint = true → name ∈ [ExperimentName.costCover, .ccLondonaqAlpha, .tailingOff] ∧ p.model.coverShortest = false ∧
      p.model.isExact = true ∧ p.model.heuristic = some .suurballesPathExtensionCollapse) ∧
    (p.model.coverShortest = true → name ∈ [ExperimentName.costCover, .ccLondonaqAlpha] ∧ p.model.isExact = true) ∧
    (name = .tailingOff → p.model.coverDisjoint = true) := by
  have hoff : (dataset, name) ∈ offered := by
    by_contra hn
    rw [experimentTrials_rejected hn] at h
    cases h
  have key : ∀ data params, experimentTrials I gens dataset name = .ok (trials data params) →
      p ∈ params ∧ f ∈ productOfPreprocessing [false] [false] [true] := by
    intro data params h1
    rw [h] at h1
    obtain rfl := Res.ok.inj h1
    exact (mem_product3.1 hx).2
  simp only [offered, List.mem_cons, List.not_mem_nil, or_false, Prod.mk.injEq] at hoff
  have hf : f ∈ productOfPreprocessing [false] [false] [true] → f = ⟨false, false, true, false, false⟩ := by
    simp [productOfPreprocessing, product3]
  rcases hoff with ⟨rfl, rfl⟩ | ⟨rfl, rfl⟩ | ⟨rfl, rfl⟩ | ⟨rfl, rfl⟩ | ⟨rfl, rfl⟩ | ⟨rfl, rfl⟩ | ⟨rfl, rfl⟩ | ⟨rfl, rfl⟩ | ⟨rfl, rfl⟩ | ⟨rfl, rfl⟩ |
    ⟨rfl, rfl⟩ | ⟨rfl, rfl⟩ | ⟨rfl, rfl⟩ | ⟨rfl, rfl⟩
  all_goals
    obtain ⟨h1, h2⟩ := key _ _ rfl
    refine ⟨hf h2, ?_⟩
    clear hx key hf h2 h
    revert h1
    revert p
    decide

/-- **C103.** The limits of the exact settings: four hours, and ten seconds in the dry run; only the tailing-off experiment varies the branching and the
number of rounds of separation, in all combinations. -/
theorem C103_limits {I : Instances} {gens : List Nat} {dataset : DatasetName} {name : ExperimentName} {ts : List Trial}
    (h : experimentTrials I gens dataset name = .ok ts) {d : DataConfig} {p : RunParams} {f : PreprocessFlags} (hx : (d, p, f) ∈ ts) :
    ∀ s ∈ p.search, s.timeLimit = (if name = .dryrun then 10 else 14400) ∧
      (name ∈ [ExperimentName.dryrun, .simpleBranchCut] → s.branchingStrategy = 0 ∧ s.branchingMaxDepth = -1 ∧ s.maxTailingOff = -1) ∧
      (name = .tailingOff → s.branchingStrategy ∈ [2, 4] ∧ s.branchingMaxDepth = 1 ∧ s.maxTailingOff ∈ [-1, 5, 10] ∧
        ∀ b ∈ [2, 4], ∀ m ∈ [-1, 5, 10], ∃ p', (d, p', f) ∈ ts ∧ p'.search = some ⟨1, b, m, 14400⟩) ∧
      (name ∉ [ExperimentName.dryrun, .simpleBranchCut, .tailingOff] → s.branchingStrategy = 2 ∧ s.branchingMaxDepth = 1 ∧ s.maxTailingOff = 5) := by
  have hoff : (dataset, name) ∈ offered := by
    by_contra hn
    rw [experimentTrials_rejected hn] at h
    cases h
  have key : ∀ data params, experimentTrials I gens dataset name = .ok (trials data params) →
      p ∈ params ∧ ∀ p' ∈ params, (d, p', f) ∈ ts := by
    intro data params h1
    rw [h] at h1
    obtain rfl := Res.ok.inj h1
    have h2 := mem_product3.1 hx
    exact ⟨h2.2.1, fun p' hp' => mem_product3.2 ⟨h2.1, hp', h2.2.2⟩⟩
  have hall : ∀ b ∈ [2, 4], ∀ m ∈ [-1, 5, 10], ∃ p' ∈ tailingOffParams, p'.search = some ⟨1, b, m, 14400⟩ := by decide
  simp only [offered, List.mem_cons, List.not_mem_nil, or_false, Prod.mk.injEq] at hoff
  rcases hoff with ⟨rfl, rfl⟩ | ⟨rfl, rfl⟩ | ⟨rfl, rfl⟩ | ⟨rfl, rfl⟩ | ⟨rfl, rfl⟩ | ⟨rfl, rfl⟩ | ⟨rfl, rfl⟩ | ⟨rfl, rfl⟩ | ⟨rfl, rfl⟩ | ⟨rfl, rfl⟩ |
    ⟨rfl, rfl⟩ | ⟨rfl, rfl⟩ | ⟨rfl, rfl⟩ | ⟨rfl, rfl⟩
  all_goals
    obtain ⟨h1, h2⟩ := key _ _ rfl
    refine fun s hs => ⟨?_, ?_, fun hn => ⟨?_, ?_, ?_, fun b hb m hm => ?_⟩, ?_⟩
    on_goal 6 =>
      first
      | (cases hn; done)
      | (obtain ⟨p', hp', he⟩ := hall b hb m hm
         exact ⟨p', h2 p' hp', he⟩)
    all_goals
      first
      | exact absurd hn (by decide)
      | (try clear hn
         clear hx key hall h2 h
         revert s
         revert h1
         revert p
         decide)

/-- **C103.** The vials of an experiment are the ones of `product_of_vials`: one for each combination, with the quota of its instance, and with different
identifiers. -/
theorem C103_vials {U : Type} {I : Instances} {gens : List Nat} {dataset : DatasetName} {name : ExperimentName} {ts : List Trial}
    (h : experimentTrials I gens dataset name = .ok ts) {uuid : Nat → U} (hu : ∀ i j, uuid i = uuid j → i = j) : ∃ data params,
    (productOfVials uuid (·.quota) data params (productOfPreprocessing [false] [false] [true])).map (·.params) = ts ∧
    Distinct (productOfVials uuid (·.quota) data params (productOfPreprocessing [false] [false] [true])) ∧
    ∀ v ∈ productOfVials uuid (·.quota) data params (productOfPreprocessing [false] [false] [true]), v.quota = v.params.1.quota := by
  obtain ⟨data, params, rfl, -⟩ := experiment_product h
  obtain ⟨-, -, h1, -, h2⟩ := C98_vials uuid (·.quota) data params (productOfPreprocessing [false] [false] [true])
  refine ⟨data, params, ?_, h2 hu, h1⟩
  unfold productOfVials trials
  rw [List.map_map]
  exact List.zipIdx_map_fst 0 _

example (I : Instances) : experimentTrials I [1, 2, 3] .londonaq .simpleBranchCut = .throw .valueError ∧
    ∃ ts, experimentTrials I [1, 2, 3] .londonaq .dryrun = .ok ts ∧ ts.map (fun x => (x.1.graphName, x.2.1.model.algorithm)) =
      [(.laqtinyA, .bfsExtensionCollapse), (.laqtinyA, .suurballesHeuristic), (.laqtinyA, .solvePctsp)] := ⟨rfl, _, rfl, rfl⟩

section runs

variable {V : Type} [DecidableEq V] {flags : PreprocessFlags} {G : LabGraph V} {w : V → V → Int} {π : V → Int} {quota : Int} {root : V}

/-- An exact run that has ended was started on an instance with a cycle through the root, if one-connected components are removed. -/
theorem VialRun.cycle (hG : G.Ok w π) (hno : ∀ e ∈ G.edges, e.1 ≠ e.2) {mp : ModelParams} {s : Option ScipStatus} {r : LabResult V}
    (R : VialRun flags G w π quota root mp s r) (hf : flags.removeOneConnected = true) (hh : mp.isHeuristic = false) (he : mp.isExact = true) :
    ∃ vs, NxCycle G.nx vs ∧ root ∈ vs := by
  letI := R.ord
  by_contra hc
  exact (C99_no_cycle (T := R.T) (st := R.st) (tail := R.tail) (head := R.head) hG hno R.preprocessed (.inl hf) hc hh he).1 _ _ R.run

/-- What an exact run reports. -/
theorem VialRun.exact (hG : G.Ok w π) (hno : ∀ e ∈ G.edges, e.1 ≠ e.2) {mp : ModelParams} {s : Option ScipStatus} {r : LabResult V}
    (R : VialRun flags G w π quota root mp s r) (hh : mp.isHeuristic = false) (he : mp.isExact = true) (hcov : R.CoverOk) :
    (ReportsNothing r ∨ ∃ t, FeasibleIn G.edges π quota root t ∧ Reports w π t r) ∧
    (s = some .optimal → ∃ t, FeasibleIn G.edges π quota root t ∧ Reports w π t r ∧
      ∀ t', FeasibleIn G.edges π quota root t' → namedCost w t ≤ namedCost w t') ∧
    (s = some .infeasible → ReportsNothing r ∧ ∀ t, ¬ FeasibleIn G.edges π quota root t) := by
  letI := R.ord
  obtain ⟨m, hm, -⟩ := C85_paths R.suurballe
  have hc : (∃ vs, NxCycle G.nx vs ∧ root ∈ vs) ∨ flags.removeOneConnected = false ∧ root ∈ endpoints (G.restrict R.h).edges := by
    refine or_iff_not_imp_left.2 fun hc => ⟨?_, ?_⟩ <;> by_contra hf
    · exact hc (R.cycle hG hno (by simpa using hf) hh he)
    · exact (C99_no_cycle (T := R.T) (st := R.st) (tail := R.tail) (head := R.head) hG hno R.preprocessed (.inr hf) hc hh he).1 _ _ R.run
  have hrun := R.run
  have hroot : root ∈ R.h.nodes := by
    by_contra hr
    simp only [runVial, R.preprocessed.run, Res.ok_bind, if_neg hr] at hrun
    cases hrun
  have hstart : ∀ alg, mp.heuristic = some alg → ∃ es, runHeuristic R.env (G.restrict R.h) quota root alg
      (vertexDisjointCostMap R.names R.T R.st (treeNodes (R.head root) R.dij)) m mp.collapsePaths mp.depthLimit mp.stepSize = .ok es := by
    intro alg ha
    have h1 := R.run
    simp only [runVial, R.preprocessed.run, Res.ok_bind, if_pos hroot, runAlgorithm, R.suurballe.run, hm, algorithmEdges, hh, he, Bool.false_eq_true,
      if_false, if_true, startSolution, ha] at h1
    obtain ⟨_, h2, -⟩ := Res.bind_eq_ok.1 h1
    obtain ⟨_, h3, -⟩ := Res.bind_eq_ok.1 h2
    obtain ⟨es, h4, -⟩ := Res.bind_eq_ok.1 h3
    exact ⟨es, h4⟩
  obtain ⟨s', r', h1, h2, h3, h4⟩ := C99_exact hG hno R.preprocessed hc R.envOk R.suurballe hm R.yesSound R.reorderOk hh he hstart R.orderPerm R.scipSpec
    hcov.reach hcov.entry
  rw [hrun] at h1
  obtain ⟨rfl, rfl⟩ := Prod.mk.inj (Res.ok.inj h1)
  exact ⟨h2, fun hs => h3 (Option.some.inj hs) (.inl rfl), fun hs => h4 (Option.some.inj hs)⟩

/-- **C103.** Exact settings of experiments agree.  Let two vials have the same instance, and let both be run.  If both are `optimal`, the objectives are
equal; if one is `optimal`, the other is not `infeasible` and reports nothing or an objective that is no better; and if one is `infeasible`, the other
reports nothing. -/
theorem C103_agree (hG : G.Ok w π) (hno : ∀ e ∈ G.edges, e.1 ≠ e.2) {I : Instances} {gens : List Nat} {dataset dataset' : DatasetName}
    {name name' : ExperimentName} {ts ts' : List Trial} (h : experimentTrials I gens dataset name = .ok ts)
    (h' : experimentTrials I gens dataset' name' = .ok ts') {d : DataConfig} {p p' : RunParams} {f f' : PreprocessFlags} (hx : (d, p, f) ∈ ts)
    (hx' : (d, p', f') ∈ ts') (he : p.model.isExact = true) (he' : p'.model.isExact = true) {s s' : Option ScipStatus} {r r' : LabResult V}
    (R : VialRun f G w π d.quota root p.model s r) (R' : VialRun f' G w π d.quota root p'.model s' r') (hcov : R.CoverOk) (hcov' : R'.CoverOk) :
    (s = some .optimal → s' = some .optimal → r.objective = r'.objective) ∧
    (s = some .optimal → s' ≠ some .infeasible ∧ (ReportsNothing r' ∨ r.objective ≤ r'.objective)) ∧
    (s = some .infeasible → ReportsNothing r') := by
  obtain ⟨hf, a1, a2, -⟩ := C103_settings h hx
  obtain ⟨hf', b1, b2, -⟩ := C103_settings h' hx'
  have hh : p.model.isHeuristic = false := by
    rw [← Bool.not_eq_true, a2, a1.1 he]; decide
  have hh' : p'.model.isHeuristic = false := by
    rw [← Bool.not_eq_true, b2, b1.1 he']; decide
  obtain ⟨k1, k2, k3⟩ := R.exact hG hno hh he hcov
  obtain ⟨l1, l2, l3⟩ := R'.exact hG hno hh' he' hcov'
  refine ⟨fun hs hs' => ?_, fun hs => ⟨fun hs' => ?_, ?_⟩, fun hs => ?_⟩
  · obtain ⟨t, ht, hr, hmin⟩ := k2 hs
    obtain ⟨t', ht', hr', hmin'⟩ := l2 hs'
    rw [hr.objective, hr'.objective]
    exact Int.le_antisymm (hmin t' ht') (hmin' t ht)
  · obtain ⟨t, ht, -⟩ := k2 hs
    exact (l3 hs').2 t ht
  · obtain ⟨t, ht, hr, hmin⟩ := k2 hs
    refine l1.imp_right ?_
    rintro ⟨t', ht', hr'⟩
    rw [hr.objective, hr'.objective]
    exact hmin t' ht'
  · exact l1.resolve_right fun ⟨t, ht, _⟩ => (k3 hs).2 t ht

/-- **C103.** Heuristics against exact settings: if an exact run of the instance is `optimal`, a heuristic that reports a prize of at least the quota does not
report a smaller objective; and if it is `infeasible`, no heuristic reports a prize of at least the quota, unless it reports nothing.  This is for the
heuristics that start from a cycle of a breadth first search and for Suurballe's heuristic. -/
theorem C103_heuristics (hG : G.Ok w π) (hno : ∀ e ∈ G.edges, e.1 ≠ e.2) {I : Instances} {gens : List Nat} {dataset dataset' : DatasetName}
    {name name' : ExperimentName} {ts ts' : List Trial} (h : experimentTrials I gens dataset name = .ok ts)
    (h' : experimentTrials I gens dataset' name' = .ok ts') {d : DataConfig} {p p' : RunParams} {f f' : PreprocessFlags} (hx : (d, p, f) ∈ ts)
    (hx' : (d, p', f') ∈ ts') (he : p.model.isExact = true)
    (ha : p'.model.algorithm ∈ [AlgorithmName.bfsExtensionCollapse, .bfsPathExtensionCollapse, .suurballesHeuristic])
    {s s' : Option ScipStatus} {r r' : LabResult V}
    (R : VialRun f G w π d.quota root p.model s r) (R' : VialRun f' G w π d.quota root p'.model s' r') (hcov : R.CoverOk) (hq : d.quota ≤ r'.prize) :
    (s = some .optimal → ReportsNothing r' ∨ r.objective ≤ r'.objective) ∧ (s = some .infeasible → ReportsNothing r') := by
  obtain ⟨hf, a1, a2, -⟩ := C103_settings h hx
  obtain ⟨hf', b1, b2, -⟩ := C103_settings h' hx'
  have hh : p.model.isHeuristic = false := by
    rw [← Bool.not_eq_true, a2, a1.1 he]; decide
  have hh' : p'.model.isHeuristic = true := by
    rw [b2]
    simp only [List.mem_cons, List.not_mem_nil, or_false] at ha
    rcases ha with e | e | e <;> rw [e] <;> decide
  have hc := R.cycle hG hno (by rw [hf]) hh he
  obtain ⟨k1, k2, k3⟩ := R.exact hG hno hh he hcov
  have key : ReportsNothing r' ∨ ∃ t, FeasibleIn G.edges π d.quota root t ∧ Reports w π t r' := by
    letI := R'.ord
    obtain ⟨c1, c2, c3, c4⟩ := C99_ok hG R'.preprocessed hc
    have hno' : ∀ e ∈ (G.restrict R'.h).edges, e.1 ≠ e.2 := fun e he => hno e (List.mem_filter.1 he).1
    have hrun := R'.run
    simp only [runVial, R'.preprocessed.run, Res.ok_bind, if_pos c3] at hrun
    have hfeas := C99_tours hG R'.preprocessed d.quota
    have hb := C92_bfs (mp := p'.model) (quota := d.quota) c1 R'.envOk hno' c3 c4 R'.suurballe R'.reorderOk hh' R'.scip R'.order
    simp only [List.mem_cons, List.not_mem_nil, or_false] at ha
    rcases ha with e | e | e
    · obtain ⟨r₁, t, h1, h2, h3, h4⟩ := hb.1 e
      rw [hrun] at h1
      obtain ⟨-, rfl⟩ := Prod.mk.inj (Res.ok.inj h1)
      exact .inr ⟨t, (hfeas t).1 ⟨h2, h3, by rw [← h4.prize]; exact hq⟩, h4⟩
    · obtain ⟨r₁, h1, h2⟩ := hb.2 e
      rw [hrun] at h1
      obtain ⟨-, rfl⟩ := Prod.mk.inj (Res.ok.inj h1)
      simpa only [hfeas] using h2
    · have hne : vertexDisjointCostMap R'.names R'.T R'.st (treeNodes (R'.head root) R'.dij) ≠ [] := by
        intro hnil
        obtain ⟨m, hm, -⟩ := C85_paths R'.suurballe
        have := (C91_errors R'.env (G.restrict R'.h) d.quota root (vertexDisjointCostMap R'.names R'.T R'.st (treeNodes (R'.head root) R'.dij)) m none
          p'.model.depthLimit p'.model.stepSize).2 .suurballesHeuristic (by simp) (.inl hnil)
        simp only [runAlgorithm, R'.suurballe.run, Res.ok_bind, hm, algorithmEdges, hh', if_true, e, this] at hrun
        cases hrun
      obtain ⟨r₁, h1, h2⟩ := C92_suurballe (quota := d.quota) c1 R'.envOk hno' R'.suurballe hne R'.reorderOk hh' e R'.scip R'.order
      rw [hrun] at h1
      obtain ⟨-, rfl⟩ := Prod.mk.inj (Res.ok.inj h1)
      refine h2.imp_right ?_
      rintro ⟨t, h3, h4, -⟩
      exact ⟨t, (hfeas t).1 h3, h4⟩
  refine ⟨fun hs => key.imp_right ?_, fun hs => key.resolve_right fun ⟨t, ht, _⟩ => (k3 hs).2 t ht⟩
  rintro ⟨t', ht', hr'⟩
  obtain ⟨t, ht, hr, hmin⟩ := k2 hs
  rw [hr.objective, hr'.objective]
  exact hmin t' ht'

end runs

/-- Preprocessing leaves the complete graph with four vertices as it is. -/
theorem fourLab_preprocessed : Preprocessed (fun g _ => g.nodes) (fun _ => [[0, 1, 2, 3]]) 10 ⟨false, false, true, false, false⟩ fourLab.nx 0 fourLab.nx where
  run := by
    have h : runPreprocessing (fun g _ => g.nodes) (fun _ => [[0, 1, 2, 3]]) 10 ⟨false, false, true, false, false⟩ fourLab.nx 0
        = .ok (removeOneConnected (fun _ => [[0, 1, 2, 3]]) fourLab.nx 0) := rfl
    rw [h]
    congr 1
    have h1 : (removeOneConnected (fun _ => [[0, 1, 2, 3]]) fourLab.nx 0).nodes = fourLab.nx.nodes := by decide
    have h2 : (removeOneConnected (fun _ => [[0, 1, 2, 3]]) fourLab.nx 0).adj = fourLab.nx.adj := by decide
    cases hx : removeOneConnected (fun _ => [[0, 1, 2, 3]]) fourLab.nx 0
    rw [hx] at h1 h2
    cases hy : fourLab.nx
    rw [hy] at h1 h2
    exact NxGraph.mk.injEq .. ▸ ⟨h1, h2⟩
  comp := by
    intro v
    refine ⟨fun h => ⟨h, ?_⟩, fun h => h.1⟩
    have : ∀ v : Fin 4, NxWalk fourLab.nx (if v = 0 then [0] else [0, v]) ∧ (if v = 0 then [0] else [0, v]).head? = some (0 : Fin 4) ∧
        (if v = 0 then [0] else [0, v]).getLast? = some v := by unfold NxWalk; decide
    exact ⟨_, this v⟩
  bicomp := by
    intro g' h
    obtain rfl : fourLab.nx = g' := Res.ok.inj h
    have hc : NxCycle fourLab.nx [0, 1, 2, 3] := ⟨by decide, by decide, by decide, by unfold NxWalk; decide⟩
    refine ⟨by decide, by decide, fun vs hvs => ⟨[0, 1, 2, 3], by simp, fun v _ => (by decide : ∀ v : Fin 4, v ∈ [(0 : Fin 4), 1, 2, 3]) v⟩, ?_⟩
    intro c hcm _ u hu v hv _
    simp at hcm; subst hcm
    exact ⟨_, hc, hu, hv⟩

theorem fourLab_restrict : fourLab.restrict fourLab.nx = fourLab := by
  have h1 : (fourLab.restrict fourLab.nx).edges = fourLab.edges := by decide
  have h2 : (fourLab.restrict fourLab.nx).costs = fourLab.costs := by decide
  have h3 : (fourLab.restrict fourLab.nx).prizes = fourLab.prizes := by decide
  have h4 : (fourLab.restrict fourLab.nx).nx = fourLab.nx := rfl
  cases hx : fourLab.restrict fourLab.nx
  rw [hx] at h1 h2 h3 h4
  cases hy : fourLab
  rw [hy] at h1 h2 h3 h4
  exact LabGraph.mk.injEq .. ▸ ⟨h4, h1, h2, h3⟩

/-- Every tour with at least three vertices costs at least 21. -/
theorem fourLab_cheapest {t : List (Fin 4)} (ht : FeasibleIn fourLab.edges (fun _ => 1) 3 0 t) : 21 ≤ namedCost fourCost t := by
  obtain ⟨⟨⟨m, rfl⟩, hn, hw⟩, h3, -⟩ := ht
  have hlen : m.length ≤ 3 := by
    rw [← List.cons_append, List.dropLast_concat] at hn
    have := hn.length_le_card
    simp at this
    omega
  match m, hlen with
  | [], _ => simp at h3
  | [a], _ => simp at h3
  | [a, b], _ => clear h3; revert a b; decide +kernel
  | [a, b, c], _ => clear h3; revert a b c; decide +kernel

theorem fourLab_heuristic : runHeuristic (oneEnv fourLab (fun _ => 1) 0 [0, 2, 1, 0]) fourLab 3 0 .suurballesPathExtensionCollapse fourCosts fourPaths
    (some true) none (some 10) = .ok (consec [0, 2, 1, 0]) := by decide +kernel

theorem fourLab_reach : ∀ x : Fin 4, (0 :: if x = 0 then [] else [x]).getLast? = some x ∧
    (∀ p ∈ consec (0 :: if x = 0 then [] else [x]), AdjIn fourLab.edges p.1 p.2) ∧ namedCost fourCost (0 :: if x = 0 then [] else [x]) ≤ 1073741823 := by
  decide

theorem fourLab_feasible : FeasibleIn fourLab.edges (fun _ => 1) 3 0 [0, 2, 1, 0] := ⟨⟨⟨[2, 1], rfl⟩, by decide, by decide⟩, by decide, by decide⟩

/-- A run of the algorithm is a run of the vial. -/
theorem fourLab_vial {scip : Problem → ScipOutcome} (hscip : ∀ P, ScipSpec 1 P (List.range P.graph.edges.length) (scip P) ∧
      KeepsStart P (List.range P.graph.edges.length) (scip P) ∧ ((scip P).status = .optimal ∨ (scip P).status = .infeasible))
    {mp : ModelParams} {s : Option ScipStatus} {r : LabResult (Fin 4)}
    (h : runAlgorithm (oneEnv fourLab (fun _ => 1) 0 [0, 2, 1, 0]) scip List.range (fun _ => none) (plainNames 4) fourSplit 4 fourDij 10
      fourLab 3 0 mp = .ok (s, r)) :
    ∃ R : VialRun ⟨false, false, true, false, false⟩ fourLab fourCost (fun _ => 1) 3 0 mp s r, R.graph = fourLab ∧ R.pathsOf = dictGet fourPaths := by
  refine ⟨⟨Ext, Nat, oneEnv fourLab (fun _ => 1) 0 [0, 2, 1, 0], fun g _ => g.nodes, fun _ => [[0, 1, 2, 3]], 10, fourLab.nx, fourSplit, fun v => v.val,
    fun v => v.val + 4, plainNames 4, fourDij, 10, fourRun.1, fourRun.2, scip, List.range, fun _ => none, fourLab_preprocessed, ?_, ?_, fourLab_on,
    reorderOk_none, fun n => List.Perm.refl _, fun P => (hscip P).1, ?_⟩, fourLab_restrict, congrArg foundPaths fourPaths_eq⟩
  · rw [fourLab_restrict]; exact oneEnv_ok fourLab_ok (by decide) _
  · rw [fourLab_restrict]; exact oneEnv_sound fourLab_feasible
  · simp only [runVial, fourLab_preprocessed.run, Res.ok_bind, fourLab_restrict]
    rw [if_pos (by decide)]
    exact h

/-- Files in which every quota is 3. -/
def threeInstances : Instances := ⟨fun _ _ _ => 3, fun _ _ => 0, fun _ _ => 3, fun _ => 0⟩

/-- A run on the complete graph with four vertices, of a setting with a start from Suurballe's paths. -/
theorem fourLab_run {mp : ModelParams} (he : mp.isExact = true) (hh : mp.isHeuristic = false)
    (ha : mp.heuristic = some .suurballesPathExtensionCollapse) (hp : mp.collapsePaths = some true) (hd : mp.depthLimit = none)
    (hs : mp.stepSize = some 10) : ∃ (s : ScipStatus) (r : LabResult (Fin 4)),
      (∃ R : VialRun ⟨false, false, true, false, false⟩ fourLab fourCost (fun _ => 1) 3 0 mp (some s) r, R.graph = fourLab) ∧
      (mp.coverDisjoint = true → s = .infeasible ∧ ReportsNothing r) ∧
      (mp.coverDisjoint = false → s = .optimal ∧ r.objective = 21) := by
  obtain ⟨scip, hscip⟩ := exists_scip_keeps 1 List.range
  have hf := fourLab_feasible
  have hE := oneEnv_ok fourLab_ok (π := fun _ => 1) (root := 0) (by decide) [0, 2, 1, 0]
  have hY := oneEnv_sound hf
  have hrun : runHeuristic (oneEnv fourLab (fun _ => 1) 0 [0, 2, 1, 0]) fourLab 3 0 .suurballesPathExtensionCollapse
      (vertexDisjointCostMap (plainNames 4) fourRun.1 fourRun.2 (treeNodes 4 fourDij)) fourPaths mp.collapsePaths mp.depthLimit mp.stepSize
        = .ok (consec [0, 2, 1, 0]) := by
    rw [fourCosts_eq, hp, hd, hs]; exact fourLab_heuristic
  have hreach : ∀ x ∈ endpoints fourLab.edges, ∃ l, (0 :: l).getLast? = some x ∧ (∀ p ∈ consec (0 :: l), AdjIn fourLab.edges p.1 p.2) ∧
      namedCost fourCost (0 :: l) ≤ 1073741823 := fun x _ => ⟨_, fourLab_reach x⟩
  have hstatus : ∀ {s r}, runAlgorithm (oneEnv fourLab (fun _ => 1) 0 [0, 2, 1, 0]) scip List.range (fun _ => none) (plainNames 4) fourSplit 4 fourDij 10
      fourLab 3 0 mp = .ok (some s, r) → s = .optimal ∨ s = .infeasible := by
    intro s r h
    obtain ⟨P, hP⟩ := runAlgorithm_status h
    rw [hP]
    exact (hscip P).2.2
  cases hcd : mp.coverDisjoint with
  | true =>
    obtain ⟨s, r, h1, h2, h3⟩ := C92_lost fourLab_ok hE (by decide) (by decide) fourLab_on fourPaths_eq hY reorderOk_none hh he
      (order := List.range) (fun n => List.Perm.refl _) (fun P => (hscip P).1) (fun _ => hreach) hcd ha hrun (by decide) (c := 40)
      (by rw [show (0 : Fin 4).val + 4 = 4 from rfl, fourCosts_eq]; decide) (by decide) (by decide)
    exact ⟨s, r, (fourLab_vial hscip h1).imp fun _ h => h.1, fun _ => ⟨(hstatus h1).resolve_left h3, h2⟩, by simp⟩
  | false =>
    obtain ⟨s, r, h1, -, h3, h4, -⟩ := C92_exact fourLab_ok hE (by decide) (by decide) fourLab_on fourPaths_eq hY reorderOk_none hh he
      (fun alg h => by rw [ha] at h; obtain rfl := Option.some.inj h; exact ⟨_, hrun⟩)
      (order := List.range) (fun n => List.Perm.refl _) (fun P => (hscip P).1) (fun _ => hreach) (by simp [hcd])
    have hs := (hstatus h1).resolve_right fun h => (h4 h).2 _ hf
    refine ⟨s, r, (fourLab_vial hscip h1).imp fun _ h => h.1, by simp, fun _ => ⟨hs, ?_⟩⟩
    obtain ⟨t, ht, hr, hmin⟩ := h3 hs (.inl rfl)
    rw [hr.objective]
    have h21 : namedCost fourCost [0, 2, 1, 0] = 21 := by decide
    exact Int.le_antisymm (h21 ▸ hmin _ hf) (fourLab_cheapest ht)

/-- **C103.** Without the condition on the entry of the root the settings disagree.  There is an instance with a feasible tour of cost 21, and no cheaper
one, on which the settings of `cost_cover` without cover and with shortest paths report `optimal` and 21, but the one with disjoint paths reports nothing and
the status `infeasible`; and so do all settings of `tailing_off`. -/
theorem C103_disagree : ∃ (I : Instances) (d : DataConfig) (G : LabGraph (Fin 4)) (w : Fin 4 → Fin 4 → Int) (π : Fin 4 → Int) (ts ts' : List Trial),
    G.Ok w π ∧ (∀ e ∈ G.edges, e.1 ≠ e.2) ∧ FeasibleIn G.edges π d.quota 0 [0, 2, 1, 0] ∧ namedCost w [0, 2, 1, 0] = 21 ∧
    (∀ t, FeasibleIn G.edges π d.quota 0 t → 21 ≤ namedCost w t) ∧
    experimentTrials I [1, 2, 3] .tspwplib .costCover = .ok ts ∧ experimentTrials I [1, 2, 3] .tspwplib .tailingOff = .ok ts' ∧
    (∃ p f, (d, p, f) ∈ ts) ∧ (∃ p f, (d, p, f) ∈ ts') ∧
    (∀ p f, (d, p, f) ∈ ts → ∃ s r, Nonempty (VialRun f G w π d.quota 0 p.model (some s) r) ∧
      (p.model.coverDisjoint = true → s = .infeasible ∧ ReportsNothing r) ∧ (p.model.coverDisjoint = false → s = .optimal ∧ r.objective = 21)) ∧
    (∃ p f, (d, p, f) ∈ ts ∧ p.model.coverDisjoint = true) ∧
    ∀ p f, (d, p, f) ∈ ts' → ∃ r, Nonempty (VialRun f G w π d.quota 0 p.model (some .infeasible) r) ∧ ReportsNothing r := by
  have hp1 : ∀ p ∈ costCoverParams, p.model.isExact = true ∧ p.model.isHeuristic = false ∧ p.model.heuristic = some .suurballesPathExtensionCollapse ∧
      p.model.collapsePaths = some true ∧ p.model.depthLimit = none ∧ p.model.stepSize = some 10 := by decide
  have hp2 : ∀ p ∈ tailingOffParams, p.model.isExact = true ∧ p.model.isHeuristic = false ∧ p.model.heuristic = some .suurballesPathExtensionCollapse ∧
      p.model.collapsePaths = some true ∧ p.model.depthLimit = none ∧ p.model.stepSize = some 10 ∧ p.model.coverDisjoint = true := by decide
  let d : DataConfig := ⟨.tspwplib, .euc2d, .st70, 3, 0, some 25, some 1, some 10, some 0⟩
  have hflags : (⟨false, false, true, false, false⟩ : PreprocessFlags) ∈ productOfPreprocessing [false] [false] [true] := by
    decide
  have hd1 : d ∈ defaultData threeInstances [1, 2, 3] .tspwplib := by
    simp only [defaultData, productOfTspwplib, List.mem_flatMap, List.mem_map]
    exact ⟨25, by decide, some 10, by decide, 1, by decide, .st70, by decide, .euc2d, by decide, rfl⟩
  have hd2 : d ∈ productOfTspwplib threeInstances [25, 75] [some 10, some 20] [1, 2, 3] tsplibNames tsplibCosts := by
    simp only [productOfTspwplib, List.mem_flatMap, List.mem_map]
    exact ⟨25, by decide, some 10, by decide, 1, by decide, .st70, by decide, .euc2d, by decide, rfl⟩
  refine ⟨threeInstances, d, fourLab, fourCost, fun _ => 1, _, _, fourLab_ok, by decide, ⟨⟨⟨[2, 1], rfl⟩, by decide, by decide⟩, by decide, by decide⟩, by decide,
    fun t ht => fourLab_cheapest ht, rfl, rfl, ⟨_, _, mem_product3.2 ⟨hd1, List.mem_cons_self, hflags⟩⟩,
    ⟨_, _, mem_product3.2 ⟨hd2, List.mem_cons_self, hflags⟩⟩, fun p f hpf => ?_,
    ⟨_, _, mem_product3.2 ⟨hd1, List.mem_cons_of_mem _ List.mem_cons_self, hflags⟩, rfl⟩, fun p f hpf => ?_⟩
  · obtain ⟨-, h1, h2⟩ := mem_product3.1 hpf
    obtain rfl : f = ⟨false, false, true, false, false⟩ := by simpa [productOfPreprocessing, product3] using h2
    obtain ⟨a1, a2, a3, a4, a5, a6⟩ := hp1 p h1
    obtain ⟨s, r, ⟨R, -⟩, h4⟩ := fourLab_run a1 a2 a3 a4 a5 a6
    exact ⟨s, r, ⟨R⟩, h4⟩
  · obtain ⟨-, h1, h2⟩ := mem_product3.1 hpf
    obtain rfl : f = ⟨false, false, true, false, false⟩ := by simpa [productOfPreprocessing, product3] using h2
    obtain ⟨a1, a2, a3, a4, a5, a6, a7⟩ := hp2 p h1
    obtain ⟨s, r, ⟨R, -⟩, h4, -⟩ := fourLab_run a1 a2 a3 a4 a5 a6
    obtain ⟨rfl, h5⟩ := h4 a7
    exact ⟨r, ⟨R⟩, h5⟩

/-- The hypotheses of `C103_agree`: an experiment with an instance that two settings solve. -/
example : ∃ ts, experimentTrials threeInstances [1, 2, 3] .tspwplib .costCover = .ok ts ∧ ∃ d p p' f, (d, p, f) ∈ ts ∧ (d, p', f) ∈ ts ∧ p ≠ p' ∧
    ∃ s s' r r', ∃ (R : VialRun f fourLab fourCost (fun _ => 1) d.quota 0 p.model s r) (R' : VialRun f fourLab fourCost (fun _ => 1) d.quota 0 p'.model s' r'),
      R.CoverOk ∧ R'.CoverOk := by
  refine ⟨_, rfl, ⟨.tspwplib, .euc2d, .st70, 3, 0, some 25, some 1, some 10, some 0⟩,
    exactRun .suurballesPathExtensionCollapse true 10 false false 2 secMaxTailingOffIter,
    exactRun .suurballesPathExtensionCollapse true 10 false true 2 secMaxTailingOffIter, ⟨false, false, true, false, false⟩,
    mem_product3.2 ⟨?_, by decide, by decide⟩, mem_product3.2 ⟨?_, by decide, by decide⟩, by decide, ?_⟩
  · simp only [defaultData, productOfTspwplib, List.mem_flatMap, List.mem_map]
    exact ⟨25, by decide, some 10, by decide, 1, by decide, .st70, by decide, .euc2d, by decide, rfl⟩
  · simp only [defaultData, productOfTspwplib, List.mem_flatMap, List.mem_map]
    exact ⟨25, by decide, some 10, by decide, 1, by decide, .st70, by decide, .euc2d, by decide, rfl⟩
  · obtain ⟨s, r, ⟨R, -⟩, -⟩ := fourLab_run (mp := (exactRun .suurballesPathExtensionCollapse true 10 false false 2 secMaxTailingOffIter).model) rfl rfl rfl rfl rfl rfl
    obtain ⟨s', r', ⟨R', hR⟩, -⟩ := fourLab_run (mp := (exactRun .suurballesPathExtensionCollapse true 10 false true 2 secMaxTailingOffIter).model) rfl rfl rfl rfl rfl rfl
    refine ⟨_, _, r, r', R, R', ⟨fun h => (by cases h), fun h => (by cases h)⟩, ⟨fun _ x _ => ?_, fun h => (by cases h)⟩⟩
    rw [hR]
    exact ⟨if x = 0 then [] else [x], fourLab_reach x⟩

/-- The hypotheses of `C103_heuristics`: the instance in the experiment that compares heuristics. -/
example : ∃ ts ts', experimentTrials threeInstances [1, 2, 3] .tspwplib .costCover = .ok ts ∧
    experimentTrials threeInstances [1, 2, 3] .tspwplib .compareHeuristics = .ok ts' ∧ ∃ d p p' f, (d, p, f) ∈ ts ∧ (d, p', f) ∈ ts' ∧
    p'.model.algorithm = .bfsExtensionCollapse ∧ ∃ s s' r r', ∃ (R : VialRun f fourLab fourCost (fun _ => 1) d.quota 0 p.model s r)
      (_ : VialRun f fourLab fourCost (fun _ => 1) d.quota 0 p'.model s' r'), R.CoverOk ∧ s = some .optimal ∧ d.quota ≤ r'.prize := by
  refine ⟨_, _, rfl, rfl, ⟨.tspwplib, .euc2d, .st70, 3, 0, some 25, some 1, some 10, some 0⟩,
    exactRun .suurballesPathExtensionCollapse true 10 false false 2 secMaxTailingOffIter, heuristicRun .bfsExtensionCollapse (some false) (some 2) (some 1),
    ⟨false, false, true, false, false⟩, mem_product3.2 ⟨?_, by decide, by decide⟩, mem_product3.2 ⟨?_, by decide, by decide⟩, rfl, ?_⟩
  · simp only [defaultData, productOfTspwplib, List.mem_flatMap, List.mem_map]
    exact ⟨25, by decide, some 10, by decide, 1, by decide, .st70, by decide, .euc2d, by decide, rfl⟩
  · simp only [defaultData, productOfTspwplib, List.mem_flatMap, List.mem_map]
    exact ⟨25, by decide, some 10, by decide, 1, by decide, .st70, by decide, .euc2d, by decide, rfl⟩
  · obtain ⟨s, r, ⟨R, -⟩, -, hs⟩ := fourLab_run (mp := (exactRun .suurballesPathExtensionCollapse true 10 false false 2 secMaxTailingOffIter).model)
      rfl rfl rfl rfl rfl rfl
    obtain ⟨scip, hscip⟩ := exists_scip_keeps 1 List.range
    obtain ⟨r', t, h1, h2, h3, h4⟩ := (C92_bfs (env := oneEnv fourLab (fun _ => 1) 0 [0, 2, 1, 0]) (quota := 3)
      (mp := (heuristicRun .bfsExtensionCollapse (some false) (some 2) (some 1)).model) fourLab_ok (oneEnv_ok fourLab_ok (by decide) _) (by decide) (by decide)
      ⟨[0, 1, 2], ⟨by decide, by decide, by decide, by unfold NxWalk; decide⟩, by decide⟩ fourLab_on reorderOk_none rfl scip List.range).1 rfl
    obtain ⟨R', -⟩ := fourLab_vial hscip h1
    refine ⟨_, _, r, r', R, R', ⟨fun h => (by cases h), fun h => (by cases h)⟩, congrArg some (hs rfl).1, ?_⟩
    rw [h4.prize]
    have hd : namedPrize (fun _ => 1) t = (t.dropLast.length : Int) := by simp [namedPrize]
    have : t.dropLast.length = t.length - 1 := by simp
    show 3 ≤ _
    omega

end Pctsp
