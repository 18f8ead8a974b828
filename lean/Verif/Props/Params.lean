import Verif.Model.Params
import Verif.Props.RunAlgorithm
import Verif.Lemmas.BatchMissing

/-!
# C98: the parameters of an experiment
-/

namespace Pctsp

variable {F V W : Type} [DecidableEq V] [LinearOrder W]

/-- C98: every algorithm has exactly one of the three kinds. -/
theorem C98_kinds (alg : AlgorithmName) (c : Bool) (d s : Int) :
    ((modelParamsOf c d s alg).isExact, (modelParamsOf c d s alg).isHeuristic, decide (alg ∈ relaxationAlgorithms)) ∈
      [(true, false, false), (false, true, false), (false, false, true)] := by
  cases alg <;> simp [modelParamsOf, exactAlgorithms, heuristicAlgorithms, relaxationAlgorithms]

/-- C98: there is one set of parameters for every algorithm of the list, in its order; none of them has a first tour or cost cover inequalities, and
exactly the exact ones separate subtours. -/
theorem C98_algorithms (algs : List AlgorithmName) (c : Bool) (d s : Int) :
    (productOfModelParams algs c d s).map (·.algorithm) = algs ∧
    ∀ mp ∈ productOfModelParams algs c d s, mp.heuristic = none ∧ mp.coverDisjoint = false ∧ mp.coverShortest = false ∧
      mp.secDisjoint = mp.isExact ∧ mp.secMaxflow = mp.isExact ∧ (mp.isExact = true ↔ mp.algorithm = .solvePctsp) := by
  unfold productOfModelParams
  refine ⟨?_, fun mp hmp => ?_⟩
  · rw [List.map_map]
    exact List.map_id' algs
  · obtain ⟨alg, -, rfl⟩ := List.mem_map.1 hmp
    simp [modelParamsOf, exactAlgorithms]

example : ((productOfModelParams [.solvePctsp, .extension] true 5 10).map fun mp => (mp.algorithm, mp.secDisjoint)) =
    [(.solvePctsp, true), (.extension, false)] := by decide

/-- C98: the arguments `collapse_paths`, `path_depth_limit` and `step_size` have no influence on what any of the algorithms does. -/
theorem C98_ignored (env : LabEnv F V) (scip : Problem → ScipOutcome) (order : Nat → List Nat) (reorder : List (V × V) → Option (List (V × V)))
    (names : SplitNames V W) (A : DiGraph W) (source : W) (dij : DijkstraOut W) (depth : Nat) (G : LabGraph V) (quota : Int) (root : V)
    (algs : List AlgorithmName) (c c' : Bool) (d d' s s' : Int) :
    (productOfModelParams algs c d s).map (runAlgorithm env scip order reorder names A source dij depth G quota root) =
      (productOfModelParams algs c' d' s').map (runAlgorithm env scip order reorder names A source dij depth G quota root) := by
  unfold productOfModelParams
  rw [List.map_map, List.map_map]
  refine List.map_congr_left fun alg _ => ?_
  cases alg <;> rfl

/-- C98: the setting `collapse_paths` of a heuristic has no influence. -/
theorem C98_collapse (env : LabEnv F V) (scip : Problem → ScipOutcome) (order : Nat → List Nat) (reorder : List (V × V) → Option (List (V × V)))
    (names : SplitNames V W) (A : DiGraph W) (source : W) (dij : DijkstraOut W) (depth : Nat) (G : LabGraph V) (quota : Int) (root : V)
    (mp : ModelParams) (hh : mp.isHeuristic = true) (x : Option Bool) :
    runAlgorithm env scip order reorder names A source dij depth G quota root { mp with collapsePaths := x } =
      runAlgorithm env scip order reorder names A source dij depth G quota root mp := by
  unfold runAlgorithm algorithmEdges
  simp only [hh, if_true]

/-- A graph on which collapsing over shortest paths gives a cheaper tour. -/
def detourEdges : List (Fin 6 × Fin 6) := [(0, 2), (0, 4), (1, 2), (1, 3), (2, 5), (3, 4), (4, 5)]
def detourCost (u v : Fin 6) : Int := if u.val + v.val = 9 then 36 else 1
def detourPrize (v : Fin 6) : Int := [0, 3, 3, 1, 1, 4].getD v.val 0
def detourLab : LabGraph (Fin 6) := labGraph detourEdges detourCost detourPrize

/-- C98: although it makes a difference for the heuristic itself: the tour with the setting is cheaper than the one without it. -/
theorem C98_matters : ∃ (G : LabGraph (Fin 6)) (w : Fin 6 → Fin 6 → Int) (π : Fin 6 → Int) (env : LabEnv Ext (Fin 6)) (t t' : List (Fin 6)),
    G.Ok w π ∧ env.Ok G π 0 ∧ FeasibleIn G.edges π 6 0 t ∧ FeasibleIn G.edges π 6 0 t' ∧ namedCost w t < namedCost w t' ∧
    (∀ costMap m, runHeuristic env G 6 0 .bfsPathExtensionCollapse costMap m (some true) none none = .ok (consec t)) ∧
    (∀ costMap m, runHeuristic env G 6 0 .bfsPathExtensionCollapse costMap m none none none = .ok (consec t')) := by
  have hok : detourLab.Ok detourCost detourPrize := labGraph_ok (by decide) (by decide) (by decide) (by decide) (by decide)
  refine ⟨detourLab, detourCost, detourPrize, plainEnv detourLab detourPrize 0, [0, 4, 3, 1, 2, 0], [0, 4, 5, 2, 0], hok, plainEnv_ok hok (by decide),
    ⟨⟨⟨[4, 3, 1, 2], rfl⟩, by decide, by decide⟩, by decide, by decide⟩, ⟨⟨⟨[4, 5, 2], rfl⟩, by decide, by decide⟩, by decide, by decide⟩, by decide, ?_, ?_⟩
  · have : runHeuristic (plainEnv detourLab detourPrize 0) detourLab 6 0 .bfsPathExtensionCollapse [] [] (some true) none none
        = .ok (consec [0, 4, 3, 1, 2, 0]) := by decide +kernel
    exact fun _ _ => this
  · have : runHeuristic (plainEnv detourLab detourPrize 0) detourLab 6 0 .bfsPathExtensionCollapse [] [] none none none
        = .ok (consec [0, 4, 5, 2, 0]) := by decide +kernel
    exact fun _ _ => this

/-- C98: vials with the relaxation or with the algorithm `extension` never get a result. -/
theorem C98_never {U : Type} {A : DiGraph W} {tail head : V → W} {names : SplitNames V W} {dij : DijkstraOut W} {depth : Nat} {T : STree W} {st : SState W}
    {env : LabEnv F V} {G : LabGraph V} {w : V → V → Int} {root : V} (hS : SuurballeOn G.nx w A tail head names root dij depth T st)
    (scip : Problem → ScipOutcome) (order : Nat → List Nat) (reorder : List (V × V) → Option (List (V × V))) (quota : Int) (c : Bool) (d s : Int)
    {alg : AlgorithmName} (h : alg ∈ [AlgorithmName.disjointToursRelaxation, .extension]) :
    (attemptOf (runAlgorithm env scip order reorder names A (head root) dij depth G quota root (modelParamsOf c d s alg)) : Attempt U V) = .failed := by
  have := C92_rejected (env := env) (quota := quota) (reorder := reorder) (mp := modelParamsOf c d s alg) hS scip order
  simp only [List.mem_cons, List.not_mem_nil, or_false] at h
  rcases h with rfl | rfl
  · rw [this.1 rfl rfl]; rfl
  · rw [this.2 rfl (by simp [modelParamsOf])]; rfl

section product

variable {U α β γ : Type}

theorem product3_length (as : List α) (bs : List β) (cs : List γ) : (product3 as bs cs).length = as.length * (bs.length * cs.length) := by
  unfold product3
  simp [List.length_flatMap, List.map_const', List.sum_replicate]

theorem mem_product3 {as : List α} {bs : List β} {cs : List γ} {x : α × β × γ} : x ∈ product3 as bs cs ↔ x.1 ∈ as ∧ x.2.1 ∈ bs ∧ x.2.2 ∈ cs := by
  obtain ⟨a, b, c⟩ := x
  unfold product3
  simp [List.mem_flatMap]

theorem product3_nodup {as : List α} {bs : List β} {cs : List γ} (ha : as.Nodup) (hb : bs.Nodup) (hc : cs.Nodup) : (product3 as bs cs).Nodup := by
  unfold product3
  refine List.nodup_flatMap.2 ⟨fun a _ => List.nodup_flatMap.2 ⟨fun b _ => hc.map fun c c' h => by simpa using h, ?_⟩, ?_⟩
  · refine hb.imp fun {b b'} hne => ?_
    intro x hx hx'
    obtain ⟨c, _, rfl⟩ := List.mem_map.1 hx
    obtain ⟨c', _, h⟩ := List.mem_map.1 hx'
    exact hne (by simp at h; exact h.1.symm)
  · refine ha.imp fun {a a'} hne => ?_
    intro x hx hx'
    obtain ⟨b, _, hx⟩ := List.mem_flatMap.1 hx
    obtain ⟨b', _, hx'⟩ := List.mem_flatMap.1 hx'
    obtain ⟨c, _, rfl⟩ := List.mem_map.1 hx
    obtain ⟨c', _, h⟩ := List.mem_map.1 hx'
    exact hne (by simp at h; exact h.1.symm)

/-- C98: there is a vial for every combination of data, algorithm and preprocessing, and no other. -/
theorem C98_vials (uuid : Nat → U) (quotaOf : α → Int) (as : List α) (bs : List β) (cs : List γ) :
    (productOfVials uuid quotaOf as bs cs).length = as.length * bs.length * cs.length ∧
    (∀ a b c, (∃ v ∈ productOfVials uuid quotaOf as bs cs, v.params = (a, b, c)) ↔ a ∈ as ∧ b ∈ bs ∧ c ∈ cs) ∧
    (∀ v ∈ productOfVials uuid quotaOf as bs cs, v.quota = quotaOf v.params.1) ∧
    (as.Nodup → bs.Nodup → cs.Nodup → ((productOfVials uuid quotaOf as bs cs).map (·.params)).Nodup) ∧
    ((∀ i j, uuid i = uuid j → i = j) → Distinct (productOfVials uuid quotaOf as bs cs)) := by
  unfold productOfVials
  refine ⟨?_, fun a b c => ?_, ?_, fun ha hb hc => ?_, fun hinj => ?_⟩
  · simp [product3_length, Nat.mul_assoc]
  · constructor
    · rintro ⟨v, hv, hp⟩
      obtain ⟨x, hx, rfl⟩ := List.mem_map.1 hv
      have := mem_product3.1 (List.fst_mem_of_mem_zipIdx hx)
      simp only at hp
      rw [hp] at this; exact this
    · intro h
      obtain ⟨i, hi⟩ := List.mem_iff_getElem?.1 (mem_product3 (x := (a, b, c)) |>.2 h)
      exact ⟨_, List.mem_map.2 ⟨((a, b, c), i), List.mk_mem_zipIdx_iff_getElem?.2 hi, rfl⟩, rfl⟩
  · intro v hv
    obtain ⟨x, _, rfl⟩ := List.mem_map.1 hv
    rfl
  · rw [List.map_map]
    have : ((fun v : LabVial U (α × β × γ) => v.params) ∘ fun x : (α × β × γ) × Nat => (⟨uuid x.2, quotaOf x.1.1, x.1⟩ : LabVial U (α × β × γ))) =
        Prod.fst := rfl
    rw [this, List.zipIdx_map_fst]
    exact product3_nodup ha hb hc
  · unfold Distinct
    rw [List.map_map]
    have : ((fun v : LabVial U (α × β × γ) => v.uuid) ∘ fun x : (α × β × γ) × Nat => (⟨uuid x.2, quotaOf x.1.1, x.1⟩ : LabVial U (α × β × γ))) =
        uuid ∘ Prod.snd := rfl
    rw [this, ← List.map_map, List.zipIdx_map_snd]
    refine List.Nodup.map (fun i j h => hinj i j h) ?_
    exact List.nodup_range'

end product

example : ((productOfVials id (fun q : Int => q) [10, 20] [AlgorithmName.solvePctsp, .extension] [true]).map fun v => (v.uuid, v.quota, v.params.2.1)) =
    [(0, 10, .solvePctsp), (1, 10, .extension), (2, 20, .solvePctsp), (3, 20, .extension)] := by decide

end Pctsp
