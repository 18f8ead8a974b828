import Verif.Model.OneRun
import Verif.Lemmas.Premature
import Verif.Props.Experiments

/-!
# C114, C115: the commands that run one algorithm, and the optimum that is reported too early
-/

namespace Pctsp

section options

variable {F V W : Type} [DecidableEq V] [LinearOrder W]

/-- **C114.** The options `collapse_paths`, `path_depth_limit` and `step_size` of the command `tsplib` have no influence on what is run, whatever the algorithm and
the heuristic of the start solution are; and if the algorithm is not the exact one, no option but `remove_leaves` has. -/
theorem C114_ignored (env : LabEnv F V) (scip : Problem → ScipOutcome) (order : Nat → List Nat) (reorder : List (V × V) → Option (List (V × V)))
    (names : SplitNames V W) (A : DiGraph W) (source : W) (dij : DijkstraOut W) (depth : Nat) (G : LabGraph V) (quota : Int) (root : V)
    (alg : AlgorithmName) (o : TsplibOptions) :
    (∀ c d s, runAlgorithm env scip order reorder names A source dij depth G quota root
        (tsplibParams { o with collapsePaths := c, depthLimit := d, stepSize := s } alg).model =
      runAlgorithm env scip order reorder names A source dij depth G quota root (tsplibParams o alg).model) ∧
    (alg ≠ .solvePctsp → ∀ o', (tsplibParams o' alg).search = none ∧
      runAlgorithm env scip order reorder names A source dij depth G quota root (tsplibParams o' alg).model =
        runAlgorithm env scip order reorder names A source dij depth G quota root (tsplibParams o alg).model) := by
  obtain ⟨bd, cp, cd, cs, heur, dl, rl, mt, ss, tl⟩ := o
  refine ⟨fun c d s => ?_, fun h o' => ?_⟩
  · cases alg <;> try rfl
    cases heur with
    | none => rfl
    | some a => cases a <;> rfl
  · cases alg <;> first | exact absurd rfl h | exact ⟨rfl, rfl⟩

/-- **C114.** What the settings of the two commands are: the exact algorithm gets the cost covers that were asked for, both kinds of subtour separation, and with
`tsplib` the heuristic that was asked for and with `londonaq` none; every other algorithm gets none of these.  `tsplib` does not remove anything from the
graph but leaves, if asked to; `londonaq` also removes one-connected components. -/
theorem C114_settings (o : TsplibOptions) (cd cs : Bool) (tl : Nat) (alg : AlgorithmName) :
    (∀ p ∈ [(tsplibParams o alg).model, (londonaqParams cd cs tl alg).model], p.algorithm = alg ∧ (p.isExact = true ↔ alg = .solvePctsp) ∧
      (p.isHeuristic = true ↔ alg ∈ heuristicAlgorithms) ∧ p.secDisjoint = p.isExact ∧ p.secMaxflow = p.isExact) ∧
    (alg = .solvePctsp → (tsplibParams o alg).model.coverDisjoint = o.coverDisjoint ∧ (tsplibParams o alg).model.coverShortest = o.coverShortest ∧
      (tsplibParams o alg).model.heuristic = o.heuristic ∧ (tsplibParams o alg).search = some ⟨o.branchingMaxDepth, 2, o.maxTailingOff, o.timeLimit⟩ ∧
      (londonaqParams cd cs tl alg).model.coverDisjoint = cd ∧ (londonaqParams cd cs tl alg).model.coverShortest = cs ∧
      (londonaqParams cd cs tl alg).model.heuristic = none ∧ (londonaqParams cd cs tl alg).search = some ⟨1, 2, -1, tl⟩) ∧
    (alg ≠ .solvePctsp → (tsplibParams o alg).model.heuristic = none ∧ (tsplibParams o alg).search = none ∧ (londonaqParams cd cs tl alg).search = none ∧
      (tsplibParams o alg).model.coverDisjoint = false ∧ (tsplibParams o alg).model.coverShortest = false) ∧
    tsplibFlags o.removeLeaves = ⟨false, o.removeLeaves, false, false, false⟩ ∧ londonaqFlags o.removeLeaves = ⟨false, o.removeLeaves, true, false, false⟩ := by
  obtain ⟨bd, cp, cd', cs', heur, dl, rl, mt, ss, tl'⟩ := o
  refine ⟨?_, fun h => ?_, fun h => ?_, rfl, rfl⟩
  · intro p hp
    simp only [List.mem_cons, List.not_mem_nil, or_false] at hp
    rcases hp with rfl | rfl
    · unfold tsplibParams
      by_cases hb : heur = some .bfsExtensionCollapse <;> cases alg <;> simp [blankParams, exactAlgorithms, heuristicAlgorithms, hb]
    · cases alg <;> simp [londonaqParams, blankParams, exactAlgorithms, heuristicAlgorithms]
  · subst h
    unfold tsplibParams
    by_cases hb : heur = some .bfsExtensionCollapse <;> simp [blankParams, exactAlgorithms, hb, londonaqParams, strongBranchingMaxDepth]
  · cases alg <;> first | exact absurd rfl h | exact ⟨rfl, rfl, rfl, rfl, rfl⟩

/-- **C114.** What is stored with the run: `collapse_paths`, `path_depth_limit` and `step_size` as they were given if extension and collapse is the algorithm, or
the heuristic of the exact one, and nothing otherwise, never with `londonaq`.  Without options `tsplib` stores `false`, 2 and 1; the exact algorithm then
starts without a heuristic, has four hours and the cost cover of disjoint paths only, gets 1 as the
depth of strong branching and 5 as the limit of tailing off; leaves are kept. -/
theorem C114_recorded (o : TsplibOptions) (cd cs : Bool) (tl : Nat) (alg : AlgorithmName) :
    (alg = .bfsExtensionCollapse ∨ (alg = .solvePctsp ∧ o.heuristic = some .bfsExtensionCollapse) →
      ((tsplibParams o alg).model.collapsePaths, (tsplibParams o alg).model.depthLimit, (tsplibParams o alg).model.stepSize) =
        (some o.collapsePaths, some o.depthLimit, some o.stepSize)) ∧
    (¬ (alg = .bfsExtensionCollapse ∨ (alg = .solvePctsp ∧ o.heuristic = some .bfsExtensionCollapse)) →
      ((tsplibParams o alg).model.collapsePaths, (tsplibParams o alg).model.depthLimit, (tsplibParams o alg).model.stepSize) = (none, none, none)) ∧
    ((londonaqParams cd cs tl alg).model.collapsePaths, (londonaqParams cd cs tl alg).model.depthLimit, (londonaqParams cd cs tl alg).model.stepSize) =
      (none, none, none) ∧
    (let p := (tsplibParams tsplibDefaults .bfsExtensionCollapse).model;
      (p.collapsePaths, p.depthLimit, p.stepSize) = (some false, some 2, some 1)) ∧
    (let p := tsplibParams tsplibDefaults .solvePctsp;
      (p.model.heuristic, p.model.coverDisjoint, p.model.coverShortest, p.search) = (none, true, false, some ⟨1, 2, 5, 14400⟩)) ∧
    tsplibDefaults.removeLeaves = false := by
  obtain ⟨bd, cp, cd', cs', heur, dl, rl, mt, ss, tl'⟩ := o
  refine ⟨fun h => ?_, fun h => ?_, ?_, by decide, by decide, rfl⟩
  · rcases h with rfl | ⟨rfl, h⟩
    · rfl
    · obtain rfl : heur = _ := h
      rfl
  · unfold tsplibParams
    cases alg <;> first | exact absurd (Or.inl rfl) h | rfl | skip
    have hb : heur ≠ some .bfsExtensionCollapse := fun hb => h (.inr ⟨rfl, hb⟩)
    simp [blankParams, exactAlgorithms, hb]
  · cases alg <;> rfl

/-- **C114.** With the relaxation or with the algorithm `extension` neither command ever gets a result. -/
theorem C114_never {U : Type} {A : DiGraph W} {tail head : V → W} {names : SplitNames V W} {dij : DijkstraOut W} {depth : Nat} {T : STree W} {st : SState W}
    {env : LabEnv F V} {G : LabGraph V} {w : V → V → Int} {root : V} (hS : SuurballeOn G.nx w A tail head names root dij depth T st)
    (scip : Problem → ScipOutcome) (order : Nat → List Nat) (reorder : List (V × V) → Option (List (V × V))) (quota : Int) (o : TsplibOptions) (cd cs : Bool)
    (tl : Nat) {alg : AlgorithmName} (h : alg ∈ [AlgorithmName.disjointToursRelaxation, .extension]) :
    ∀ mp ∈ [(tsplibParams o alg).model, (londonaqParams cd cs tl alg).model],
      (attemptOf (runAlgorithm env scip order reorder names A (head root) dij depth G quota root mp) : Attempt U V) = .failed := by
  intro mp hmp
  have key := C92_rejected (env := env) (quota := quota) (reorder := reorder) (mp := mp) hS scip order
  simp only [List.mem_cons, List.not_mem_nil, or_false] at h hmp
  rcases h with rfl | rfl
  · rw [key.1 (by rcases hmp with rfl | rfl <;> rfl) (by rcases hmp with rfl | rfl <;> rfl)]; rfl
  · rw [key.2 (by rcases hmp with rfl | rfl <;> rfl) (by rcases hmp with rfl | rfl <;> simp [tsplibParams, londonaqParams, blankParams, exactAlgorithms])]; rfl

end options

section runs

variable {V : Type} [DecidableEq V] {G : LabGraph V} {w : V → V → Int} {π : V → Int} {quota : Int} {root : V}

/-- **C114.** What the exact algorithm reports does not depend on the command and its options.  Let the graph have a cycle through the root, and take two runs
of any two commands or experiments on it, with any options.  If both are `optimal`, the objectives are equal; if one is `optimal`, the other is not
`infeasible` and reports nothing or an objective that is no better; and if one is `infeasible`, the other reports nothing. -/
theorem C114_agree (hG : G.Ok w π) (hno : ∀ e ∈ G.edges, e.1 ≠ e.2) {p p' : RunParams} {f f' : PreprocessFlags}
    (hp : ∀ x ∈ [(p, f), (p', f')], (∃ o, x = (tsplibParams o .solvePctsp, tsplibFlags o.removeLeaves)) ∨
      (∃ cd cs tl rl, x = (londonaqParams cd cs tl .solvePctsp, londonaqFlags rl)) ∨
      ∃ I gens dataset name ts d, experimentTrials I gens dataset name = .ok ts ∧ (d, x) ∈ ts ∧ x.1.model.isExact = true)
    {s s' : Option ScipStatus} {r r' : LabResult V} (R : VialRun f G w π quota root p.model s r) (R' : VialRun f' G w π quota root p'.model s' r')
    (hcov : R.CoverOk) (hcov' : R'.CoverOk) :
    (s = some .optimal → s' = some .optimal → r.objective = r'.objective) ∧
    (s = some .optimal → s' ≠ some .infeasible ∧ (ReportsNothing r' ∨ r.objective ≤ r'.objective)) ∧
    (s = some .infeasible → ReportsNothing r') := by
  have kinds : ∀ x ∈ [(p, f), (p', f')], x.1.model.isHeuristic = false ∧ x.1.model.isExact = true := by
    intro x hx
    rcases hp x hx with ⟨o, rfl⟩ | ⟨cd, cs, tl, rl, rfl⟩ | ⟨I, gens, dataset, name, ts, d, h1, h2, h3⟩
    · obtain ⟨a, b, c, -⟩ := (C114_settings o false false 0 .solvePctsp).1 _ List.mem_cons_self
      exact ⟨by rw [← Bool.not_eq_true, c]; decide, b.2 rfl⟩
    · exact ⟨rfl, rfl⟩
    · obtain ⟨-, a1, a2, -⟩ := C103_settings h1 h2
      exact ⟨by rw [← Bool.not_eq_true, a2, a1.1 h3]; decide, h3⟩
  obtain ⟨hh, he⟩ := kinds (p, f) (by simp)
  obtain ⟨hh', he'⟩ := kinds (p', f') (by simp)
  obtain ⟨k1, k2, k3⟩ := R.exact hG hno hh he hcov
  obtain ⟨l1, l2, l3⟩ := R'.exact hG hno hh' he' hcov'
  refine ⟨fun hs hs' => ?_, fun hs => ⟨fun hs' => ?_, ?_⟩, fun hs => ?_⟩
  · obtain ⟨t, ht, hr, hmin⟩ := k2 hs
    obtain ⟨t', ht', hr', hmin'⟩ := l2 hs'
    rw [hr.objective, hr'.objective]
    exact Int.le_antisymm (hmin t' ht') (hmin' t ht)
  · obtain ⟨t, ht, -⟩ := k2 hs
    exact (l3 hs').2 t ht
  · obtain ⟨t, ht, hr, hmin⟩ := k2 hs
    refine l1.imp_right ?_
    rintro ⟨t', ht', hr'⟩
    rw [hr.objective, hr'.objective]
    exact hmin t' ht'
  · exact l1.resolve_right fun ⟨t, ht, _⟩ => (k3 hs).2 t ht

end runs

section premature

variable {F V W : Type} [DecidableEq V] [LinearOrder W] {A : DiGraph W} {tail head : V → W} {names : SplitNames V W} {dij : DijkstraOut W} {depth : Nat}
  {T : STree W} {st : SState W}

/-- **C115.** With cost covers of disjoint paths and no start solution, any feasible tour that is cheaper than the entry of the root can be reported as optimal,
however cheap the other tours are: there is a solver that meets its specification and does so. -/
theorem C115_premature {env : LabEnv F V} {G : LabGraph V} {w : V → V → Int} {π : V → Int} {root : V} (hG : G.Ok w π) (hE : env.Ok G π root)
    (hno : ∀ e ∈ G.edges, e.1 ≠ e.2) (hroot : root ∈ endpoints G.edges) (hS : SuurballeOn G.nx w A tail head names root dij depth T st)
    {quota : Int} {reorder : List (V × V) → Option (List (V × V))} (hre : ReorderOk reorder)
    {mp : ModelParams} (hh : mp.isHeuristic = false) (he : mp.isExact = true) (hheur : mp.heuristic = none) (hon : mp.coverDisjoint = true)
    {order : Nat → List Nat} (ho : ∀ n, (order n).Perm (List.range n))
    (hreach : mp.coverShortest = true → ∀ x ∈ endpoints G.edges, ∃ l, (root :: l).getLast? = some x ∧ (∀ p ∈ consec (root :: l), AdjIn G.edges p.1 p.2) ∧
      namedCost w (root :: l) ≤ 1073741823)
    {c : Int} (hc : dictGet (vertexDisjointCostMap names T st (treeNodes (head root) dij)) root = some c) {t : List V} (ht : FeasibleIn G.edges π quota root t)
    (hlt : namedCost w t < c) :
    ∃ scip : Problem → ScipOutcome, (∀ P, ScipSpec 1 P (order P.graph.edges.length) (scip P)) ∧
      ∃ r, runAlgorithm env scip order reorder names A (head root) dij depth G quota root mp = .ok (some .optimal, r) ∧ Reports w π t r := by
  obtain ⟨m, hm, -⟩ := C85_paths hS
  obtain ⟨o1, o2, o3⟩ := optionsOf_spec mp (vertexDisjointCostMap names T st (treeNodes (head root) dij))
  have hmem := (dictGet_eq_some hS.costMap_nodup).1 hc
  obtain ⟨scip, hscip, ps, k1, k2⟩ := premature_named hG.describes hno hG.costs (quota := quota) hroot
    (optionsOf mp (vertexDisjointCostMap names T st (treeNodes (head root) dij))) (o3.2 ⟨hon, by rintro e; rw [e] at hmem; cases hmem⟩) (hG.keys hS hroot)
    hE.pickCover ho (by rw [o1]; exact hreach) (by rw [o2]; simp) hmem ht hlt
  obtain ⟨r, r1, r2⟩ := makeResult_tour hG hno hre ht.tour k2
  refine ⟨scip, hscip, r, runAlgorithm_exact hS hh he hm (heur := []) ?_ rfl k1 r1, r2⟩
  simp [startSolution, hheur]

end premature

/-- The settings of both commands with their defaults. -/
theorem defaults_cover : ∀ mp ∈ [(tsplibParams tsplibDefaults .solvePctsp).model, (londonaqParams true false fourHours .solvePctsp).model],
    mp.isHeuristic = false ∧ mp.isExact = true ∧ mp.heuristic = none ∧ mp.coverDisjoint = true ∧ mp.coverShortest = false := by decide

/-- **C115.** So with their default options both commands can report a wrong optimum: there is an instance whose cheapest feasible tour costs 21 and a solver that
meets its specification, and both report `optimal` and 35. -/
theorem C115_defaults : ∃ (G : LabGraph (Fin 4)) (w : Fin 4 → Fin 4 → Int) (π : Fin 4 → Int), G.Ok w π ∧ (∀ e ∈ G.edges, e.1 ≠ e.2) ∧
    FeasibleIn G.edges π 3 0 [0, 2, 1, 0] ∧ namedCost w [0, 2, 1, 0] = 21 ∧
    ∀ x ∈ [((tsplibParams tsplibDefaults .solvePctsp).model, tsplibFlags tsplibDefaults.removeLeaves),
        ((londonaqParams true false fourHours .solvePctsp).model, londonaqFlags false)],
      ∃ r, r.objective = 35 ∧ Nonempty (VialRun x.2 G w π 3 0 x.1 (some .optimal) r) := by
  refine ⟨fourLab, fourCost, fun _ => 1, fourLab_ok, by decide, fourLab_feasible, by decide, ?_⟩
  rintro ⟨mp, flags⟩ hx
  have hmp : mp ∈ [(tsplibParams tsplibDefaults .solvePctsp).model, (londonaqParams true false fourHours .solvePctsp).model] := by
    have := List.mem_map_of_mem (f := Prod.fst) hx
    simpa using this
  have hpre : Preprocessed (fun g _ => g.nodes) (fun _ => [[0, 1, 2, 3]]) 10 flags fourLab.nx 0 fourLab.nx := by
    rcases List.mem_pair.1 hx with h | h
    · cases h; exact ⟨fourLab_preprocessed.comp, fourLab_preprocessed.bicomp, rfl⟩
    · cases h; exact fourLab_preprocessed
  obtain ⟨hh, he, hheur, hon, hoff⟩ := defaults_cover mp hmp
  have hf : FeasibleIn fourLab.edges (fun _ => 1) 3 0 [0, 1, 3, 0] := ⟨⟨⟨[1, 3], rfl⟩, by decide, by decide⟩, by decide, by decide⟩
  have hE := oneEnv_ok fourLab_ok (π := fun _ => 1) (root := 0) (by decide) [0, 2, 1, 0]
  obtain ⟨scip, hscip, r, h1, h2⟩ := C115_premature fourLab_ok hE (by decide) (by decide) fourLab_on reorderOk_none hh he hheur hon (order := List.range)
    (fun n => List.Perm.refl _) (by rw [hoff]; simp) (c := 40) (by rw [show (0 : Fin 4).val + 4 = 4 from rfl, fourCosts_eq]; decide) hf (by decide)
  have h35 : namedCost fourCost [0, 1, 3, 0] = 35 := by decide
  refine ⟨r, by rw [h2.objective, h35], ⟨⟨Ext, Nat, oneEnv fourLab (fun _ => 1) 0 [0, 2, 1, 0], fun g _ => g.nodes, fun _ => [[0, 1, 2, 3]], 10, fourLab.nx,
    fourSplit, fun v => v.val, fun v => v.val + 4, plainNames 4, fourDij, 10, fourRun.1, fourRun.2, scip, List.range, fun _ => none, hpre, ?_, ?_,
    fourLab_on, reorderOk_none, fun n => List.Perm.refl _, hscip, ?_⟩⟩⟩
  · rw [fourLab_restrict]; exact oneEnv_ok fourLab_ok (by decide) _
  · rw [fourLab_restrict]; exact oneEnv_sound fourLab_feasible
  · simp only [runVial, hpre.run, Res.ok_bind, fourLab_restrict]
    rw [if_pos (by decide)]
    exact h1

/-- The hypotheses of `C114_agree`: two runs of the command `londonaq`, without cover and with shortest paths. -/
example : ∃ (s s' : Option ScipStatus) (r r' : LabResult (Fin 4))
    (R : VialRun (londonaqFlags false) fourLab fourCost (fun _ => 1) 3 0 (londonaqParams false false fourHours .solvePctsp).model s r)
    (R' : VialRun (londonaqFlags false) fourLab fourCost (fun _ => 1) 3 0 (londonaqParams false true fourHours .solvePctsp).model s' r'),
    R.CoverOk ∧ R'.CoverOk ∧ ∃ vs, NxCycle fourLab.nx vs ∧ 0 ∈ vs := by
  obtain ⟨scip, hscip⟩ := exists_scip_keeps 1 List.range
  have key : ∀ b, ∃ s r, ∃ R : VialRun (londonaqFlags false) fourLab fourCost (fun _ => 1) 3 0 (londonaqParams false b fourHours .solvePctsp).model s r,
      R.CoverOk := by
    intro b
    obtain ⟨s, r, h1, -⟩ := C92_exact (quota := 3) (mp := (londonaqParams false b fourHours .solvePctsp).model) fourLab_ok
      (oneEnv_ok fourLab_ok (π := fun _ => 1) (root := 0) (by decide) [0, 2, 1, 0]) (by decide) (by decide) fourLab_on fourPaths_eq
      (oneEnv_sound fourLab_feasible) reorderOk_none rfl rfl (fun alg h => by cases h) (order := List.range) (fun n => List.Perm.refl _) (fun P => (hscip P).1)
      (fun _ x _ => ⟨if x = 0 then [] else [x], fourLab_reach x⟩) (fun h => by cases h)
    obtain ⟨R, hR⟩ : ∃ R : VialRun (londonaqFlags false) fourLab fourCost (fun _ => 1) 3 0 _ _ _, R.graph = fourLab := (fourLab_vial hscip h1).imp fun _ h => h.1
    refine ⟨_, r, R, ⟨fun _ x _ => ?_, fun h => (by cases h)⟩⟩
    rw [hR]
    exact ⟨if x = 0 then [] else [x], fourLab_reach x⟩
  obtain ⟨s, r, R, h⟩ := key false
  obtain ⟨s', r', R', h'⟩ := key true
  exact ⟨s, s', r, r', R, R', h, h', [0, 1, 2], ⟨by decide, by decide, by decide, by unfold NxWalk; decide⟩, by decide⟩

/-- The hypotheses of `C114_ignored` are met by two option settings that differ: the parameters do, the runs do not. -/
example : (tsplibParams { tsplibDefaults with heuristic := some .bfsExtensionCollapse, stepSize := 7 } .solvePctsp).model ≠
    (tsplibParams { tsplibDefaults with heuristic := some .bfsExtensionCollapse } .solvePctsp).model := by decide

/-- The hypotheses of `C114_never`. -/
example (scip : Problem → ScipOutcome) : (attemptOf (runAlgorithm (oneEnv fourLab (fun _ => 1) 0 [0, 2, 1, 0]) scip List.range (fun _ => none) (plainNames 4) fourSplit
    4 fourDij 10 fourLab 3 0 (londonaqParams true false fourHours .extension).model) : Attempt Nat (Fin 4)) = .failed :=
  C114_never fourLab_on scip List.range (fun _ => none) 3 tsplibDefaults true false fourHours (alg := .extension) (by simp) _ (by simp)

end Pctsp
