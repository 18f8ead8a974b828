import Verif.Model.DatasetCommand
import Verif.Lemmas.Load
import Verif.Props.Experiments
import Mathlib.Algebra.BigOperators.Group.List.Basic
import Mathlib.Data.Rat.Cast.Defs
import Mathlib.Tactic.FieldSimp

/-!
# C130: the statistics of a dataset are about the instances of the experiments
-/

namespace Pctsp

variable {V S : Type} [DecidableEq V]

/-- The row of the file that is about the instance of a trial. -/
def keyOf (d : DataConfig) : StatsKey :=
  match d.dataset with
  | .londonaq => ⟨d.graphName, none, none, none⟩
  | .tspwplib => ⟨d.graphName, d.generation, some d.costFunction, d.kappa⟩

/-- The configuration that a run loads the instance of a trial with; `fileKind` says of which kind the cost function of a file is. -/
def confOf (fileKind : GraphName → CostKind) (d : DataConfig) : DataConf (GraphName × Option Nat) where
  dataset := match d.dataset with
    | .londonaq => .londonaq
    | .tspwplib => .tspwplib
  name := (d.graphName, d.generation)
  kappa := d.kappa
  costFunction := match d.costFunction with
    | .euc2d => .other
    | .mst => .mst
    | .ofFile n => fileKind n

/-- The file of the instance of a trial is as the files of the two datasets are: a londonaq file has a demand at every vertex and a cost function that changes
nothing; a tspwplib file has a score at every vertex, and a vertex without a demand. -/
def FileOk (env : LoadEnv (GraphName × Option Nat) V) (fileKind : GraphName → CostKind) (d : DataConfig) : Prop :=
  match d.dataset with
  | .londonaq => env.londonaqRoot = true ∧ fileKind d.graphName = .other ∧
      ∀ g, env.londonaq (d.graphName, d.generation) = some g → ∀ x ∈ g.nodes, (g.demand x).isSome
  | .tspwplib => env.oplibRoot = true ∧ ∀ g score, env.oplib (d.graphName, d.generation) = some (g, score) →
      (∀ x ∈ g.nodes, (score x).isSome) ∧ ∃ x ∈ g.nodes, g.demand x = none

theorem mapM_eq_some_iff {α β : Type} {f : α → Option β} {l : List α} {r : List β} : l.mapM f = some r ↔ l.map f = r.map some := by
  induction l generalizing r with
  | nil => cases r <;> simp
  | cons a l ih =>
    rw [List.mapM_cons]
    cases hf : f a with
    | none => cases r <;> simp [hf]
    | some b =>
      cases hm : l.mapM f with
      | none =>
        have hne : ∀ r' : List β, l.map f ≠ r'.map some := fun r' h => by rw [ih.2 h] at hm; cases hm
        cases r with
        | nil => simp [hm, hf]
        | cons c r => simp [hm, hf, hne r]
      | some r' =>
        have := ih.1 hm
        cases r with
        | nil => simp [hm, hf]
        | cons c r =>
          simp [hf, this, (List.map_injective_iff.2 (Option.some_injective β)).eq_iff]

/-- **C130.** The file of statistics is written if and only if every instance of the dataset can be loaded and has statistics; otherwise it stays as it was.
If it is written, it has one row for every instance, in the order of the lists, no two rows with the same name, and each row holds the statistics of its own
instance for its own root. -/
theorem C130_rows (env : LoadEnv (GraphName × Option Nat) V) (stats : AttrGraph V → Int → Option S) (root : StatsKey → Int) (gens : List Nat) (hg : gens.Nodup)
    (dataset : DatasetName) (file : Option (List (StatsKey × S))) :
    ((statsOfDataset env stats root gens dataset file).2 = true ↔
      ∀ k ∈ statsKeys gens dataset, ∃ i s, statsInstance env dataset k = some i ∧ stats i (root k) = some s) ∧
    ((statsOfDataset env stats root gens dataset file).2 = false → (statsOfDataset env stats root gens dataset file).1 = file) ∧
    ((statsOfDataset env stats root gens dataset file).2 = true → ∃ rows, (statsOfDataset env stats root gens dataset file).1 = some rows ∧
      rows.map Prod.fst = statsKeys gens dataset ∧ (rows.map Prod.fst).Nodup ∧
      rows.length = (if dataset = .londonaq then 4 else 90 * gens.length) ∧
      ∀ x ∈ rows, ∃ i, statsInstance env dataset x.1 = some i ∧ stats i (root x.1) = some x.2) := by
  have hnd : (statsKeys gens dataset).Nodup := by
    cases dataset with
    | londonaq => exact (by decide : londonaqNames.Nodup).map fun n n' h => congrArg StatsKey.name h
    | tspwplib =>
      refine nodup_flatMap_key (·.name) id (by simpa using (by decide : tsplibNames.Nodup)) (fun n _ => ?_) (by simp [List.mem_flatMap]; intros; subst_vars; rfl)
      refine nodup_flatMap_key (·.generation) some (hg.map (Option.some_injective _)) (fun g _ => ?_) (by simp [List.mem_flatMap]; intros; subst_vars; rfl)
      refine nodup_flatMap_key (·.cost) some ((by decide : tsplibCosts.Nodup).map (Option.some_injective _)) (fun c _ => ?_) (by simp)
      exact (by decide : tsplibKappas.Nodup).map fun k k' h => congrArg StatsKey.kappa h
  have hlen : (statsKeys gens dataset).length = (if dataset = .londonaq then 4 else 90 * gens.length) := by
    cases dataset with
    | londonaq => rfl
    | tspwplib =>
      simp only [statsKeys, List.length_flatMap, List.map_const', List.sum_replicate, List.length_map]
      simp [tsplibNames, tsplibCosts, tsplibKappas]
      omega
  have hrow : ∀ k x, statsRow env stats root dataset k = some x ↔ x.1 = k ∧ ∃ i, statsInstance env dataset k = some i ∧ stats i (root k) = some x.2 := by
    rintro k ⟨k', s⟩
    simp only [statsRow, Option.map_eq_some_iff, Option.bind_eq_some_iff, Prod.mk.injEq]
    constructor
    · rintro ⟨s', ⟨i, h1, h2⟩, rfl, rfl⟩; exact ⟨rfl, i, h1, h2⟩
    · rintro ⟨rfl, i, h1, h2⟩; exact ⟨s, ⟨i, h1, h2⟩, rfl, rfl⟩
  unfold statsOfDataset
  cases hm : (statsKeys gens dataset).mapM (statsRow env stats root dataset) with
  | none =>
    refine ⟨⟨fun h => (by cases h), fun h => ?_⟩, fun _ => rfl, fun h => (by cases h)⟩
    exfalso
    have : ∀ l : List StatsKey, (∀ k ∈ l, k ∈ statsKeys gens dataset) → ∃ r, l.mapM (statsRow env stats root dataset) = some r := by
      intro l hl
      induction l with
      | nil => exact ⟨[], rfl⟩
      | cons k l ih =>
        obtain ⟨r, hr⟩ := ih fun k hk => hl k (by simp [hk])
        obtain ⟨i, s, h1, h2⟩ := h k (hl k (by simp))
        refine ⟨(k, s) :: r, ?_⟩
        rw [List.mapM_cons, (hrow k (k, s)).2 ⟨rfl, i, h1, h2⟩, hr]
        rfl
    obtain ⟨r, hr⟩ := this _ fun _ h => h
    rw [hr] at hm; cases hm
  | some rows =>
    have heq := mapM_eq_some_iff.1 hm
    have hmem : ∀ x ∈ rows, statsRow env stats root dataset x.1 = some x ∧ x.1 ∈ statsKeys gens dataset := by
      intro x hx
      have : some x ∈ (statsKeys gens dataset).map (statsRow env stats root dataset) := by rw [heq]; exact List.mem_map_of_mem hx
      obtain ⟨k, hk, hkx⟩ := List.mem_map.1 this
      obtain rfl := ((hrow k x).1 hkx).1
      exact ⟨hkx, hk⟩
    have hfst : rows.map Prod.fst = statsKeys gens dataset := by
      have h1 := congrArg (List.map (Option.map Prod.fst)) heq
      rw [List.map_map, List.map_map] at h1
      have h2 : (statsKeys gens dataset).map (Option.map Prod.fst ∘ statsRow env stats root dataset) = (statsKeys gens dataset).map some := by
        refine List.map_congr_left fun k hk => ?_
        have : statsRow env stats root dataset k ∈ rows.map some := by rw [← heq]; exact List.mem_map_of_mem hk
        obtain ⟨x, _, hx⟩ := List.mem_map.1 this
        have := (hrow k x).1 hx.symm
        rw [Function.comp_apply, ← hx, Option.map_some, this.1]
      rw [h2] at h1
      have h3 : rows.map (Option.map Prod.fst ∘ some) = (rows.map Prod.fst).map some := by rw [List.map_map]; rfl
      rw [h3] at h1
      exact (List.map_injective_iff.2 (Option.some_injective _) h1).symm
    refine ⟨⟨fun _ k hk => ?_, fun _ => rfl⟩, fun h => (by cases h), fun _ => ⟨rows, rfl, hfst, hfst ▸ hnd, ?_, fun x hx => ((hrow _ _).1 (hmem x hx).1).2⟩⟩
    · have : statsRow env stats root dataset k ∈ rows.map some := by rw [← heq]; exact List.mem_map_of_mem hk
      obtain ⟨x, _, hx⟩ := List.mem_map.1 this
      obtain ⟨-, i, h1, h2⟩ := (hrow k x).1 hx.symm
      exact ⟨i, _, h1, h2⟩
    · rw [← hlen, ← hfst, List.length_map]

/-- **C130.** A londonaq instance can be loaded exactly if its file can be read, every vertex has a demand and every edge a weight; the demands are the prizes and
the weights the costs.  A tspwplib instance cannot be loaded if its file cannot be read or an edge has no weight. -/
theorem C130_loads (env : LoadEnv (GraphName × Option Nat) V) (k : StatsKey) :
    (∀ i, statsInstance env .londonaq k = some i ↔ ∃ g, env.londonaq (k.name, k.generation) = some g ∧ (∀ v ∈ g.nodes, (g.demand v).isSome) ∧
      (∀ e ∈ g.edges, (g.weight e).isSome) ∧ i = ⟨g.nodes, fun v => if v ∈ g.nodes then g.demand v else none, g.edges, g.weight⟩) ∧
    (env.oplib (k.name, k.generation) = none ∨ (∃ g score, env.oplib (k.name, k.generation) = some (g, score) ∧ ∃ e ∈ g.edges, g.weight e = none) →
      statsInstance env .tspwplib k = none) := by
  refine ⟨fun i => ?_, ?_⟩
  · simp only [statsInstance, Option.bind_eq_some_iff]
    refine exists_congr fun g => and_congr_right fun _ => ?_
    unfold statsLondonaq
    by_cases hw : g.edges.all fun e => (g.weight e).isSome
    · rw [if_pos hw]
      have hw' : ∀ e ∈ g.edges, (g.weight e).isSome := List.all_eq_true.1 hw
      by_cases hd : ∀ v ∈ g.nodes, (g.demand v).isSome
      · rw [renameDemand_all hd]
        simp only [Option.some.injEq]
        exact ⟨fun h => ⟨hd, hw', h.symm⟩, fun h => h.2.2.symm⟩
      · have hm : ∃ x ∈ g.nodes, g.demand x = none := by
          push Not at hd
          obtain ⟨v, hv, h⟩ := hd
          exact ⟨v, hv, by simpa using h⟩
        have h2 := renameDemand_missing (prize := fun _ => none) hm
        rcases hr : renameDemand g.demand g.nodes (fun _ => none) with ⟨prize, b⟩
        rw [hr] at h2
        dsimp only at h2
        subst h2
        simp [hd]
    · rw [if_neg hw]
      exact ⟨fun h => (by cases h), fun h => absurd (List.all_eq_true.2 h.2.1) hw⟩
  · rintro (h | ⟨g, score, h, e, he, hw⟩)
    · simp [statsInstance, h]
    · simp only [statsInstance, h, Option.bind_some, statsTspwplib]
      rw [if_neg]
      intro hall
      have := List.all_eq_true.1 hall e he
      rw [hw] at this
      cases this

/-- **C130.** The instance of a row is the instance that every run of an experiment loads for a trial with the name of the row: the same vertices, edges, prizes
and costs, and loading fails for the one exactly if it fails for the other. -/
theorem C130_instance {I : Instances} {gens : List Nat} {dataset : DatasetName} {name : ExperimentName} {ts : List Trial}
    (h : experimentTrials I gens dataset name = .ok ts) {d : DataConfig} {p : RunParams} {f : PreprocessFlags} (hx : (d, p, f) ∈ ts)
    (hrow : keyOf d ∈ statsKeys gens dataset) (env : LoadEnv (GraphName × Option Nat) V) (fileKind : GraphName → CostKind) (hf : FileOk env fileKind d)
    (problem : Option (V → Option Int)) :
    (loadVial env problem (confOf fileKind d)).map Prod.fst = statsInstance env dataset (keyOf d) := by
  have hset := (C103_once h).2.2.1 _ hx
  have hdat := C103_data h hx
  dsimp only at hset
  subst hset
  rcases d with ⟨ds, c, n, q, r, a, g, k, t⟩
  cases ds with
  | londonaq =>
    obtain ⟨-, hc, hk, hg, -⟩ := hdat.2 rfl
    dsimp only at hc hk hg
    subst hc hk hg
    obtain ⟨hr, hkind, hdem⟩ := hf
    dsimp only at hr hkind hdem
    simp only [loadVial, confOf, keyOf, statsInstance, hr, if_true]
    cases hgr : env.londonaq (n, none) with
    | none => rfl
    | some raw =>
      have hd := hdem raw hgr
      simp only [Option.bind_eq_bind, Option.bind_some, instanceOf, statsLondonaq, loadPrizes_all hd, renameDemand_all hd, removeEdges, hkind, changeCosts]
      split <;> rfl
  | tspwplib =>
    obtain ⟨a', g', -, hg, -, -, -, hc, hk⟩ := hdat.1 rfl
    dsimp only at hc hk hg
    subst hg
    obtain ⟨hr, hprob⟩ := hf
    dsimp only at hr hprob
    have hk' : ∃ κ, k = some κ ∧ κ ≠ 0 := by
      simp only [keyOf, statsKeys, List.mem_flatMap, List.mem_map] at hrow
      obtain ⟨n', -, g'', -, c', -, k', hk', heq⟩ := hrow
      have := congrArg StatsKey.kappa heq
      dsimp only at this
      subst this
      simp only [tsplibKappas, List.mem_cons, List.not_mem_nil, or_false] at hk'
      rcases hk' with rfl | rfl | rfl | rfl | rfl <;> exact ⟨_, rfl, by decide⟩
    obtain ⟨κ, rfl, hκ⟩ := hk'
    simp only [loadVial, confOf, keyOf, statsInstance, hr, if_true]
    cases hgr : env.oplib (n, some g') with
    | none => rfl
    | some x =>
      obtain ⟨raw, score⟩ := x
      obtain ⟨hs, hmiss⟩ := hprob raw score hgr
      obtain ⟨-, hl⟩ := loadPrizes_missing hmiss
      obtain ⟨prize, hp, hp1, hp2⟩ := hl score
      have hpe : prize = fun v => if v ∈ raw.nodes then score v else none := by
        funext v
        by_cases hv : v ∈ raw.nodes
        · obtain ⟨s, hs'⟩ := Option.isSome_iff_exists.1 (hs v hv)
          rw [if_pos hv, hs', hp1 v hv s hs']
        · rw [if_neg hv, hp2 v hv]
      subst hpe
      simp only [Option.bind_eq_bind, Option.bind_some, instanceOf, statsTspwplib, hp, removeEdges, if_neg hκ]
      split
      · cases hsp : env.sparsify ⟨raw.nodes, fun v => if v ∈ raw.nodes then score v else none, raw.edges, raw.weight⟩ κ with
        | none => rfl
        | some i =>
          simp only [Option.bind_some]
          simp only [tsplibCosts, List.mem_cons, List.not_mem_nil, or_false] at hc
          rcases hc with rfl | rfl
          · simp [changeCosts, statsCost]
          · simp only [changeCosts, statsCost, if_true]
            cases env.mst i <;> rfl
      · rfl

/-- **C130.** Every instance of the experiments `baseline`, `compare_heuristics`, `cost_cover`, `tailing_off`, `cc_londonaq_alpha` and `londonaq_alpha` has a row;
so has every one of `disjoint_tours_vs_heuristics` and of `dryrun` on tspwplib, if the generations 1, 2 and 3 are among those of the package.  An instance of
`simple_branch_cut` has a row exactly if its graph is st70 or rat195 and its kappa is 10 or 20, and the instance of `dryrun` on londonaq has none. -/
theorem C130_covered {I : Instances} {gens : List Nat} (hgen : ∀ g ∈ [1, 2, 3], g ∈ gens) {dataset : DatasetName} {name : ExperimentName} {ts : List Trial}
    (h : experimentTrials I gens dataset name = .ok ts) {d : DataConfig} {p : RunParams} {f : PreprocessFlags} (hx : (d, p, f) ∈ ts) :
    (name ≠ .simpleBranchCut → ¬(name = .dryrun ∧ dataset = .londonaq) → keyOf d ∈ statsKeys gens dataset) ∧
    (name = .simpleBranchCut → (keyOf d ∈ statsKeys gens dataset ↔ d.graphName ∈ [GraphName.st70, .rat195] ∧ d.kappa ∈ [some 10, some 20])) ∧
    (name = .dryrun → dataset = .londonaq → keyOf d ∉ statsKeys gens dataset) := by
  have hkey : ∀ {alphas : List Int} {kappas : List (Option Int)} {gs : List Nat} {ns : List GraphName} {cs : List CostFunction},
      (∀ k ∈ kappas, kappaOf k ∈ tsplibKappas) → (∀ g ∈ gs, g ∈ gens) → (∀ n ∈ ns, n ∈ tsplibNames) → (∀ c ∈ cs, c ∈ tsplibCosts) →
      ∀ d ∈ productOfTspwplib I alphas kappas gs ns cs, keyOf d ∈ statsKeys gens .tspwplib := by
    intro alphas kappas gs ns cs h1 h2 h3 h4 d hd
    simp only [productOfTspwplib, List.mem_flatMap, List.mem_map] at hd
    obtain ⟨a, -, k, hk, g, hg, n, hn, c, hc, rfl⟩ := hd
    simp only [keyOf, statsKeys, List.mem_flatMap, List.mem_map]
    exact ⟨n, h3 n hn, g, h2 g hg, c, h4 c hc, _, h1 k hk, rfl⟩
  have hlaq : ∀ {qs : List Int} {ns : List GraphName}, (∀ n ∈ ns, n ∈ londonaqNames) → ∀ d ∈ productOfLondonaq I qs ns, keyOf d ∈ statsKeys gens .londonaq := by
    intro qs ns h1 d hd
    simp only [productOfLondonaq, List.mem_flatMap, List.mem_map] at hd
    obtain ⟨a, -, n, hn, rfl⟩ := hd
    simp only [keyOf, statsKeys, List.mem_map]
    exact ⟨n, h1 n hn, rfl⟩
  have hlaqa : ∀ {qs : List Int} {ns : List GraphName}, (∀ n ∈ ns, n ∈ londonaqNames) →
      ∀ d ∈ productOfLondonaqAlpha I qs ns, keyOf d ∈ statsKeys gens .londonaq := by
    intro qs ns h1 d hd
    simp only [productOfLondonaqAlpha, List.mem_flatMap, List.mem_map] at hd
    obtain ⟨a, -, n, hn, rfl⟩ := hd
    simp only [keyOf, statsKeys, List.mem_map]
    exact ⟨n, h1 n hn, rfl⟩
  have hmem : ∀ {data : List DataConfig} {params : List RunParams}, (d, p, f) ∈ trials data params → d ∈ data := fun h => (mem_product3.1 h).1
  have hoff : (dataset, name) ∈ offered := by
    by_contra hn
    rw [experimentTrials_rejected hn] at h
    cases h
  have hk0 : ∀ k ∈ tsplibKappas, kappaOf k ∈ tsplibKappas := by decide
  refine ⟨fun hn1 hn2 => ?_, fun hn => ?_, fun hn hd => ?_⟩
  · cases dataset <;> cases name <;> first
      | exact absurd rfl hn1
      | exact absurd ⟨rfl, rfl⟩ hn2
      | exact absurd hoff (by decide)
      | (cases h
         first
         | exact hlaq (fun _ h => h) d (hmem hx)
         | exact hlaqa (fun _ h => h) d (hmem hx)
         | exact hkey hk0 (fun _ h => h) (fun _ h => h) (fun _ h => h) d (hmem hx)
         | exact hkey (by decide) (fun _ h => h) (fun _ h => h) (fun _ h => h) d (hmem hx)
         | exact hkey (by decide) hgen (by decide) (by decide) d (hmem hx)
         | exact hkey (by decide) (fun g hg => hgen g (by simp at hg; simp [hg])) (by decide) (by decide) d (hmem hx))
  · subst hn
    cases dataset with
    | londonaq => exact absurd hoff (by decide)
    | tspwplib =>
      cases h
      have hd := hmem hx
      simp only [productOfTspwplib, List.mem_flatMap, List.mem_map] at hd
      obtain ⟨a, -, k, hk, g, hg, n, hn, c, hc, rfl⟩ := hd
      have hg' := hgen g hg
      simp only [keyOf, statsKeys, List.mem_flatMap, List.mem_map, StatsKey.mk.injEq, Option.some.injEq]
      have e1 : n ∈ tsplibNames ↔ n ∈ [GraphName.st70, .rat195] := by
        revert hn; clear * -; revert n; decide
      have e2 : kappaOf k ∈ tsplibKappas ↔ kappaOf k ∈ [some 10, some 20] := by
        revert hk; clear * -; revert k; decide
      rw [← e1, ← e2]
      constructor
      · rintro ⟨n', h1, g', h2, c', h3, k', h4, rfl, rfl, rfl, rfl⟩; exact ⟨h1, h4⟩
      · rintro ⟨h1, h2⟩; exact ⟨n, h1, g, hg', c, hc, _, h2, rfl, rfl, rfl, rfl⟩
  · subst hn hd
    cases h
    have hd := hmem hx
    simp only [productOfLondonaq, List.mem_flatMap, List.mem_map] at hd
    obtain ⟨a, -, n, hn, rfl⟩ := hd
    simp only [List.mem_cons, List.not_mem_nil, or_false] at hn
    subst hn
    simp [keyOf, statsKeys, londonaqNames]

theorem filter_statsKeys (gens : List Nat) {c : CostFunction} {k : Int} (hc : c ∈ tsplibCosts) (hk : some k ∈ tsplibKappas) :
    (statsKeys gens .tspwplib).filter (fun x => decide (x.cost = some c ∧ x.kappa = some k)) =
      tsplibNames.flatMap fun n => gens.map fun g => ⟨n, some g, some c, some k⟩ := by
  simp only [statsKeys, List.filter_flatMap]
  congr 1
  funext n
  rw [List.map_eq_flatMap]
  congr 1
  funext g
  simp only [tsplibCosts, tsplibKappas, List.mem_cons, List.not_mem_nil, or_false, Option.some.injEq] at hc hk
  rcases hc with rfl | rfl <;> rcases hk with rfl | rfl | rfl | rfl | rfl <;> rfl

/-- **C130.** The number that the table of the dataset shows for a cost function and a kappa is the mean over all nine graphs and all generations, each counted
once; there is such a number for the five kappas and the two cost functions, and for no others. -/
theorem C130_table (measure : S → Rat) (s : StatsKey → S) (gens : List Nat) (hg : gens ≠ []) (c : CostFunction) (k : Int) :
    (c ∈ tsplibCosts → k ∈ [5, 10, 15, 20, 25] →
      datasetCell measure ((statsKeys gens .tspwplib).map fun x => (x, s x)) c k =
        some ((tsplibNames.map fun n => (gens.map fun g => measure (s ⟨n, some g, some c, some k⟩)).sum).sum / (9 * gens.length))) ∧
    (c ∉ tsplibCosts ∨ k ∉ [5, 10, 15, 20, 25] → datasetCell measure ((statsKeys gens .tspwplib).map fun x => (x, s x)) c k = none) := by
  have hf : (((statsKeys gens .tspwplib).map fun x => (x, s x)).filter fun x => decide (x.1.cost = some c ∧ x.1.kappa = some k)).map
      (fun x => measure x.2) = ((statsKeys gens .tspwplib).filter fun x => decide (x.cost = some c ∧ x.kappa = some k)).map fun x => measure (s x) := by
    rw [List.filter_map, List.map_map]
    rfl
  have hk5 : k ∈ ([5, 10, 15, 20, 25] : List Int) ↔ some k ∈ tsplibKappas := by simp [tsplibKappas]
  rw [hk5]
  unfold datasetCell
  rw [hf]
  refine ⟨fun hc hk => ?_, fun h => ?_⟩
  · rw [filter_statsKeys gens hc hk]
    have hlen : ((tsplibNames.flatMap fun n => gens.map fun g => (⟨n, some g, some c, some k⟩ : StatsKey)).map fun x => measure (s x)).length =
        9 * gens.length := by
      simp [List.length_flatMap, tsplibNames]
      omega
    have hsum : ((tsplibNames.flatMap fun n => gens.map fun g => (⟨n, some g, some c, some k⟩ : StatsKey)).map fun x => measure (s x)).sum =
        (tsplibNames.map fun n => (gens.map fun g => measure (s ⟨n, some g, some c, some k⟩)).sum).sum := by
      simp [tsplibNames, Function.comp_def]
    have hpos : 0 < gens.length := List.length_pos_iff.2 hg
    cases hl : (tsplibNames.flatMap fun n => gens.map fun g => (⟨n, some g, some c, some k⟩ : StatsKey)).map fun x => measure (s x) with
    | nil => rw [hl, List.length_nil] at hlen; omega
    | cons x l =>
      rw [hl] at hlen hsum
      dsimp only
      rw [groupMean, hlen, hsum]
      push_cast
      rfl
  · have : ((statsKeys gens .tspwplib).filter fun x => decide (x.cost = some c ∧ x.kappa = some k)) = [] := by
      refine List.filter_eq_nil_iff.2 fun x hx => ?_
      simp only [statsKeys, List.mem_flatMap, List.mem_map] at hx
      obtain ⟨n, -, g, -, c', hc', k', hk', rfl⟩ := hx
      intro hd
      obtain ⟨h1, h2⟩ := of_decide_eq_true hd
      cases h1
      dsimp only at h2
      subst h2
      rcases h with h | h
      · exact h hc'
      · exact h hk'
    rw [this]
    rfl

/-! ### Non-vacuity -/

/-- Two vertices and one edge; every file of tspwplib is this one, without a demand at the second vertex. -/
def datasetEnv (demand : Nat → Option Int) : LoadEnv (GraphName × Option Nat) Nat where
  oplibRoot := true
  londonaqRoot := true
  oplib := fun _ => some (⟨[1, 2], demand, [(1, 2)], fun _ => some 7⟩, fun v => some (10 * v))
  londonaq := fun _ => some ⟨[1, 2], fun v => some v, [(1, 2)], fun _ => some 7⟩
  sparsify := fun g k => if k < 100 then some g else none
  uniformRandom := fun _ => none
  mst := fun g => some (g.edges.map fun e => (e, 1))
  semiMst := fun _ => none

/-- A trial of `baseline`. -/
def datasetTrial : DataConfig := ⟨.tspwplib, .mst, .st70, 50, 1, some 5, some 1, some 10, some 0⟩

/-- The hypotheses of `C130_instance` and `C130_covered` are met: the trial is one of `baseline`, its row exists, its files are as they should be; and the
instance has the scores as prizes and the changed cost. -/
example : (∃ p f ts, experimentTrials ⟨fun _ _ _ => 50, fun _ _ => 1, fun _ _ => 0, fun _ => 0⟩ [1, 2, 3] .tspwplib .baseline = .ok ts ∧ (datasetTrial, p, f) ∈ ts) ∧
    keyOf datasetTrial ∈ statsKeys [1, 2, 3] .tspwplib ∧ FileOk (datasetEnv fun v => if v = 1 then some 3 else none) (fun _ => .other) datasetTrial ∧
    ∃ i, statsInstance (datasetEnv fun v => if v = 1 then some 3 else none) .tspwplib (keyOf datasetTrial) = some i ∧
      i.nodes.map i.prize = [some 10, some 20] ∧ i.cost (1, 2) = some 1 := by
  refine ⟨⟨exactRun .bfsExtensionCollapse false 1 false false 2 secMaxTailingOffIter, ⟨false, false, true, false, false⟩, _, rfl, by decide +kernel⟩,
    by decide +kernel, ⟨rfl, ?_⟩, _, rfl, by decide +kernel, by decide +kernel⟩
  intro g score h
  cases h
  exact ⟨by decide, 2, by decide, rfl⟩

/-- The hypothesis about demands is needed: if every vertex of a tspwplib problem had a demand, a run would take the demands as prizes and the statistics would be
about the scores. -/
example : ((loadVial (datasetEnv fun v => some v) none (confOf (fun _ => .other) datasetTrial)).map fun x => x.1.nodes.map x.1.prize) = some [some 1, some 2] ∧
    ((statsInstance (datasetEnv fun v => some v) .tspwplib (keyOf datasetTrial)).map fun i => i.nodes.map i.prize) = some [some 10, some 20] := by
  decide +kernel

/-- The command writes 4 rows for londonaq; one file that cannot be read leaves the file of statistics as it was. -/
example : ((statsOfDataset (datasetEnv fun _ => none) (fun i _ => some i.nodes.length) (fun _ => 1) [1, 2, 3] .londonaq none).1.map List.length) = some 4 ∧
    (statsOfDataset { datasetEnv fun _ => none with londonaq := fun n => if n.1 = .laqwsA then none else (datasetEnv fun _ => none).londonaq n }
      (fun i _ => some i.nodes.length) (fun _ => 1) [1, 2, 3] .londonaq none) = (none, false) := by
  decide +kernel

/-- A londonaq file with a vertex without a demand cannot be loaded; with all demands it can. -/
example : ¬ (statsInstance { datasetEnv fun _ => none with londonaq := fun _ => some ⟨[1, 2], fun v => if v = 1 then some 3 else none, [(1, 2)], fun _ => some 7⟩ }
      .londonaq ⟨.laqwsA, none, none, none⟩).isSome ∧
    (statsInstance (datasetEnv fun _ => none) .londonaq ⟨.laqwsA, none, none, none⟩).isSome := by
  decide +kernel

/-- A number of the table: the mean of nine graphs and two generations. -/
example : datasetCell (fun x : Rat => x) ((statsKeys [1, 2] .tspwplib).map fun k => (k, if k.generation = some 1 then 1 else 0)) .mst 15 = some (1 / 2) ∧
    datasetCell (fun x : Rat => x) ((statsKeys [1, 2] .tspwplib).map fun k => (k, 1)) .mst 30 = none := by
  decide +kernel

end Pctsp
