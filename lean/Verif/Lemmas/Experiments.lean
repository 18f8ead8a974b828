import Verif.Spec.Experiment
import Verif.Props.Params
import Verif.Props.Vial

/-!
# The experiments: lemmas
-/

namespace Pctsp

/-- A concatenation has no repetitions if its parts have none and can be told apart by a key. -/
theorem nodup_flatMap_key {α β κ : Type} {l : List α} {f : α → List β} (key : β → κ) (k : α → κ) (hl : (l.map k).Nodup) (h1 : ∀ a ∈ l, (f a).Nodup)
    (h2 : ∀ a ∈ l, ∀ x ∈ f a, key x = k a) : (l.flatMap f).Nodup := by
  refine List.nodup_flatMap.2 ⟨h1, ?_⟩
  have := List.pairwise_map.1 hl
  refine (List.Pairwise.and_mem.1 this).imp fun {a b} h x hx hx' => h.2.2 ?_
  rw [← h2 a h.1 x hx, ← h2 b h.2.1 x hx']

theorem productOfTspwplib_nodup (I : Instances) {alphas : List Int} {kappas : List (Option Int)} {gens : List Nat} {names : List GraphName}
    {costs : List CostFunction} (ha : alphas.Nodup) (hk : (kappas.map kappaOf).Nodup) (hg : gens.Nodup) (hn : names.Nodup) (hc : costs.Nodup) :
    (productOfTspwplib I alphas kappas gens names costs).Nodup := by
  unfold productOfTspwplib
  refine nodup_flatMap_key (·.alpha) some (ha.map (Option.some_injective _)) (fun a _ => ?_) (by simp [List.mem_flatMap]; intros; subst_vars; rfl)
  refine nodup_flatMap_key (·.kappa) kappaOf hk (fun k _ => ?_) (by simp [List.mem_flatMap]; intros; subst_vars; rfl)
  refine nodup_flatMap_key (·.generation) some (hg.map (Option.some_injective _)) (fun g _ => ?_) (by simp [List.mem_flatMap]; intros; subst_vars; rfl)
  refine nodup_flatMap_key (·.graphName) id (by simpa using hn) (fun n _ => ?_) (by simp)
  exact hc.map fun c c' h => congrArg DataConfig.costFunction h

theorem productOfLondonaq_nodup (I : Instances) {quotas : List Int} {names : List GraphName} (hq : quotas.Nodup) (hn : names.Nodup) :
    (productOfLondonaq I quotas names).Nodup := by
  unfold productOfLondonaq
  refine nodup_flatMap_key (·.quota) id (by simpa using hq) (fun q _ => ?_) (by simp)
  exact hn.map fun n n' h => congrArg DataConfig.graphName h

theorem productOfLondonaqAlpha_nodup (I : Instances) {alphas : List Int} {names : List GraphName} (ha : alphas.Nodup) (hn : names.Nodup) :
    (productOfLondonaqAlpha I alphas names).Nodup := by
  unfold productOfLondonaqAlpha
  refine nodup_flatMap_key (·.alpha) some (ha.map (Option.some_injective _)) (fun q _ => ?_) (by simp)
  exact hn.map fun n n' h => congrArg DataConfig.graphName h

theorem productOfTspwplib_length (I : Instances) (alphas : List Int) (kappas : List (Option Int)) (gens : List Nat) (names : List GraphName)
    (costs : List CostFunction) : (productOfTspwplib I alphas kappas gens names costs).length =
      alphas.length * (kappas.length * (gens.length * (names.length * costs.length))) := by
  unfold productOfTspwplib
  simp [List.length_flatMap, List.map_const', List.sum_replicate]

theorem productOfLondonaq_length (I : Instances) (quotas : List Int) (names : List GraphName) :
    (productOfLondonaq I quotas names).length = quotas.length * names.length := by
  unfold productOfLondonaq
  simp [List.length_flatMap, List.map_const', List.sum_replicate]

theorem productOfLondonaqAlpha_length (I : Instances) (alphas : List Int) (names : List GraphName) :
    (productOfLondonaqAlpha I alphas names).length = alphas.length * names.length := by
  unfold productOfLondonaqAlpha
  simp [List.length_flatMap, List.map_const', List.sum_replicate]

theorem experimentTrials_rejected {I : Instances} {gens : List Nat} {dataset : DatasetName} {name : ExperimentName} (h : (dataset, name) ∉ offered) :
    experimentTrials I gens dataset name = .throw .valueError := by
  cases dataset <;> cases name <;> first | rfl | (exact absurd (by decide) h)

/-- An experiment is a product of instances and settings. -/
theorem experiment_product {I : Instances} {gens : List Nat} {dataset : DatasetName} {name : ExperimentName} {ts : List Trial}
    (h : experimentTrials I gens dataset name = .ok ts) : ∃ data params, ts = trials data params ∧ (gens.Nodup → data.Nodup) ∧ params.Nodup ∧
      (∀ d ∈ data, d.dataset = dataset) ∧ data.length = instanceCount gens.length dataset name ∧ params.length = settingCount name := by
  have hoff : (dataset, name) ∈ offered := by
    by_contra hn
    rw [experimentTrials_rejected hn] at h
    cases h
  have key : ∀ {l : List Int} {k g n c}, ∀ d ∈ productOfTspwplib I l k g n c, d.dataset = .tspwplib := by
    simp [productOfTspwplib, List.mem_flatMap]
    intros; subst_vars; rfl
  have key1 : ∀ {l n}, ∀ d ∈ productOfLondonaq I l n, d.dataset = .londonaq := by
    simp [productOfLondonaq, List.mem_flatMap]
    intros; subst_vars; rfl
  have key2 : ∀ {l n}, ∀ d ∈ productOfLondonaqAlpha I l n, d.dataset = .londonaq := by
    simp [productOfLondonaqAlpha, List.mem_flatMap]
    intros; subst_vars; rfl
  have ht : ∀ {alphas kappas names costs} {gens : List Nat}, gens.Nodup → alphas.Nodup → (kappas.map kappaOf).Nodup → names.Nodup → costs.Nodup →
      (productOfTspwplib I alphas kappas gens names costs).Nodup := fun hg ha hk hn hc => productOfTspwplib_nodup I ha hk hg hn hc
  have hfin : ∀ data params, experimentTrials I gens dataset name = .ok (trials data params) → (gens.Nodup → data.Nodup) → params.Nodup →
      (∀ d ∈ data, d.dataset = dataset) → data.length = instanceCount gens.length dataset name → params.length = settingCount name →
      ∃ data params, ts = trials data params ∧ (gens.Nodup → data.Nodup) ∧ params.Nodup ∧
      (∀ d ∈ data, d.dataset = dataset) ∧ data.length = instanceCount gens.length dataset name ∧ params.length = settingCount name := by
    intro data params h1 h2 h3 h4 h5 h6
    rw [h] at h1
    exact ⟨data, params, Res.ok.inj h1, h2, h3, h4, h5, h6⟩
  simp only [offered, List.mem_cons, List.not_mem_nil, or_false, Prod.mk.injEq] at hoff
  rcases hoff with ⟨rfl, rfl⟩ | ⟨rfl, rfl⟩ | ⟨rfl, rfl⟩ | ⟨rfl, rfl⟩ | ⟨rfl, rfl⟩ | ⟨rfl, rfl⟩ | ⟨rfl, rfl⟩ | ⟨rfl, rfl⟩ | ⟨rfl, rfl⟩ | ⟨rfl, rfl⟩ |
    ⟨rfl, rfl⟩ | ⟨rfl, rfl⟩ | ⟨rfl, rfl⟩ | ⟨rfl, rfl⟩
  all_goals
    refine hfin _ _ rfl ?_ (by decide) (by first | exact key | exact key1 | exact key2) ?_ (by decide)
    · intro hg
      first
        | exact ht hg (by decide) (by decide) (by decide) (by decide)
        | exact ht (by decide) (by decide) (by decide) (by decide) (by decide)
        | exact productOfLondonaq_nodup I (by decide) (by decide)
        | exact productOfLondonaqAlpha_nodup I (by decide) (by decide)
    · simp only [defaultData, productOfTspwplib_length, productOfLondonaq_length, productOfLondonaqAlpha_length, instanceCount, tsplibAlphas, tsplibKappas,
        tsplibNames, tsplibCosts, londonaqQuotas, londonaqNames, List.length_cons, List.length_nil]
      try omega

end Pctsp
