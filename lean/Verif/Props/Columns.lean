import Verif.Lemmas.Columns

/-!
# Property theorems: the columns of the CSV files (C145)
-/

namespace Pctsp

variable {α : Type}

/-- The parts of a vial have the fields of their classes. -/
structure VialFields.Typed (v : VialFields α) : Prop where
  data : v.dataConfig.names = dataConfigNames
  model : v.modelParams.names = modelParamsNames
  pre : v.preprocessing.names = preprocessingNames

/-- The names of the fields of a vial. -/
def vialNames : List String := "uuid" :: (dataConfigNames ++ modelParamsNames ++ preprocessingNames)

/-- **C145.** The flat dictionary of a vial has all fields of its parts, each with its value, under the field's own name. -/
theorem C145_flat {v : VialFields α} (hv : v.Typed) :
    flatDictFromVial v = ("uuid", v.uuid) :: (v.dataConfig ++ v.modelParams ++ v.preprocessing) ∧
      (flatDictFromVial v).names = vialNames ∧ (flatDictFromVial v).names.Nodup := by
  have hnames : Fields.names (("uuid", v.uuid) :: (v.dataConfig ++ v.modelParams ++ v.preprocessing)) = vialNames := by
    show "uuid" :: Fields.names (v.dataConfig ++ v.modelParams ++ v.preprocessing) = _
    rw [Fields.names_append, Fields.names_append, hv.data, hv.model, hv.pre]
    rfl
  have hnd : vialNames.Nodup := by decide
  have key : flatDictFromVial v = ("uuid", v.uuid) :: (v.dataConfig ++ v.modelParams ++ v.preprocessing) := by
    rw [flatDictFromVial, List.foldl_cons, List.foldl_cons, List.foldl_cons, List.foldl_nil]
    rw [← hnames] at hnd
    have e : (("uuid", v.uuid) :: (v.dataConfig ++ v.modelParams ++ v.preprocessing)) =
        ([("uuid", v.uuid)] ++ v.dataConfig ++ v.modelParams) ++ v.preprocessing := by simp
    rw [e] at hnd
    have h2 : Fields.names ([("uuid", v.uuid)] ++ v.dataConfig ++ v.modelParams) |>.Nodup := by
      rw [Fields.names_append] at hnd; exact (List.nodup_append.1 hnd).1
    have h1 : Fields.names ([("uuid", v.uuid)] ++ v.dataConfig) |>.Nodup := by
      rw [Fields.names_append] at h2; exact (List.nodup_append.1 h2).1
    rw [Fields.update_eq h1, Fields.update_eq h2, Fields.update_eq hnd]
    exact e.symm
  rw [key]
  exact ⟨rfl, hnames, by rw [hnames]; exact hnd⟩

/-- **C145.** Two vials with the same flat dictionary are the same. -/
theorem C145_flat_injective {v w : VialFields α} (hv : v.Typed) (hw : w.Typed) (h : flatDictFromVial v = flatDictFromVial w) : v = w := by
  rw [(C145_flat hv).1, (C145_flat hw).1] at h
  have hlen : ∀ {d e : Fields α} {l : List String}, d.names = l → e.names = l → d.length = e.length := by
    intro d e l h1 h2
    have := congrArg List.length (h1.trans h2.symm)
    simpa [Fields.names] using this
  simp only [List.cons.injEq, Prod.mk.injEq, true_and] at h
  obtain ⟨hu, h⟩ := h
  have h3 := List.append_inj h (by rw [List.length_append, List.length_append, hlen hv.data hw.data, hlen hv.model hw.model])
  have h4 := List.append_inj h3.1 (hlen hv.data hw.data)
  cases v; cases w
  simp_all

/-- **C145.** In general a field is found with its own value iff no later field has the same name: what keeps the fields apart is only that their names differ. -/
theorem C145_flat_general (u : α) (parts : List (Fields α)) (k : String) :
    (parts.foldl Fields.update [("uuid", u)]).get k =
      (((("uuid", u) :: parts.flatten).reverse).find? fun p => p.1 = k).map Prod.snd := by
  have key : ∀ (d e : Fields α), (d.update e).get k = ((e.reverse.find? fun p => p.1 = k).map Prod.snd).or (d.get k) := by
    intro d e
    induction e generalizing d with
    | nil => simp [Fields.update]
    | cons p e ih =>
      rw [Fields.update, List.foldl_cons, ← Fields.update, ih, Fields.get_set, List.reverse_cons, List.find?_append]
      cases hf : e.reverse.find? (fun p => decide (p.1 = k)) with
      | some q => simp
      | none =>
        by_cases hk : k = p.1
        · simp [hk]
        · have hk' : ¬ p.1 = k := fun e => hk e.symm
          simp [hk, hk']
  have all : ∀ (ps : List (Fields α)) (d : Fields α), (ps.foldl Fields.update d) = d.update ps.flatten := by
    intro ps
    induction ps with
    | nil => intro d; simp [Fields.update]
    | cons p ps ih => intro d; rw [List.foldl_cons, ih, List.flatten_cons]; simp [Fields.update]
  rw [all, key, List.reverse_cons, List.find?_append]
  cases hf : parts.flatten.reverse.find? (fun p => decide (p.1 = k)) with
  | some q => simp
  | none =>
    by_cases hk : "uuid" = k
    · simp [Fields.get, hk]
    · simp [Fields.get, hk]

/-- The columns that `experiment_summary_df` adds. -/
def addedNames : List String := ["duration", "feasible", "overshoot"]

/-- **C145.** The row of a vial and its result in a CSV file: the fields of the vial, those of the result, then three more columns; no column gets a suffix and no
value is lost, except that the objective value is replaced if the prize is below the quota.  `feasible` compares the prize of the result with the quota of the vial. -/
theorem C145_summary (ops : AddedColumns α) {v : VialFields α} (hv : v.Typed) {r : Fields α} (hr : r.names = resultNames)
    {quota prize objective t₀ t₁ : α} (hq : ("quota", quota) ∈ v.dataConfig) (hp : ("prize", prize) ∈ r) (ho : ("objective", objective) ∈ r)
    (h₀ : ("start_time", t₀) ∈ r) (h₁ : ("end_time", t₁) ∈ r) :
    summaryFields ops v r = some (("uuid", v.uuid) :: (v.dataConfig ++ v.modelParams ++ v.preprocessing) ++
      withObjective r (ops.whereTrue (ops.atLeast prize quota) objective) ++
      [("duration", ops.seconds t₁ t₀), ("feasible", ops.atLeast prize quota), ("overshoot", ops.whereTrue (ops.atLeast prize quota) (ops.minus prize quota))]) := by
  obtain ⟨hf, hn, hnd⟩ := C145_flat hv
  have hmerge : mergeRow "uuid" "vial_uuid" (flatDictFromVial v) r = flatDictFromVial v ++ r := by
    have := mergeRow_disjoint (leftOn := "uuid") (rightOn := "vial_uuid") (l := flatDictFromVial v) (r := r) (by
      rw [if_neg (by decide), hn, hr]; decide)
    rw [this, if_neg (by decide)]
  have hnames : Fields.names (flatDictFromVial v ++ r) = vialNames ++ resultNames := by rw [Fields.names_append, hn, hr]
  have hqm : ("quota", quota) ∈ flatDictFromVial v := by rw [hf]; simp [hq]
  -- the four rows, one after the other
  have n0 : (Fields.names (flatDictFromVial v ++ r)).Nodup := by rw [hnames]; decide
  have n1 : (Fields.names (flatDictFromVial v ++ r ++ [("duration", ops.seconds t₁ t₀)])).Nodup := by
    rw [Fields.names_append, hnames]; simp only [Fields.names, List.map_cons, List.map_nil]; decide
  have n2 : (Fields.names (flatDictFromVial v ++ r ++ [("duration", ops.seconds t₁ t₀)] ++ [("feasible", ops.atLeast prize quota)])).Nodup := by
    rw [Fields.names_append, Fields.names_append, hnames]; simp only [Fields.names, List.map_cons, List.map_nil]; decide
  have g : ∀ {d : Fields α} {k : String} {x : α}, d.names.Nodup → (k, x) ∈ d → d.get k = some x := fun h1 h2 => (Fields.get_iff h1).2 h2
  have hobj : "objective" ∉ (flatDictFromVial v).names := by rw [hn]; decide
  have hobj' : ("objective" : String) ∈ Fields.names (r ++ [("duration", ops.seconds t₁ t₀)] ++ [("feasible", ops.atLeast prize quota)]) := by
    rw [Fields.names_append, Fields.names_append, hr]; simp only [Fields.names, List.map_cons, List.map_nil]; decide
  have hset : Fields.set (flatDictFromVial v ++ r ++ [("duration", ops.seconds t₁ t₀)] ++ [("feasible", ops.atLeast prize quota)]) "objective"
      (ops.whereTrue (ops.atLeast prize quota) objective) =
      flatDictFromVial v ++ withObjective r (ops.whereTrue (ops.atLeast prize quota) objective) ++ [("duration", ops.seconds t₁ t₀)] ++
        [("feasible", ops.atLeast prize quota)] := by
    have := set_in_right (x := ops.whereTrue (ops.atLeast prize quota) objective) hobj hobj'
    rw [List.append_assoc, List.append_assoc, ← List.append_assoc r, this]
    simp [withObjective]
  have hwn : Fields.names (withObjective r (ops.whereTrue (ops.atLeast prize quota) objective)) = resultNames := by
    rw [← hr, Fields.names, withObjective, List.map_map, Fields.names]
    apply List.map_congr_left
    intro p _
    by_cases h : p.1 = "objective" <;> simp [h]
  have n3 : (Fields.names (flatDictFromVial v ++ withObjective r (ops.whereTrue (ops.atLeast prize quota) objective) ++ [("duration", ops.seconds t₁ t₀)] ++
        [("feasible", ops.atLeast prize quota)])) = vialNames ++ resultNames ++ ["duration"] ++ ["feasible"] := by
    rw [Fields.names_append, Fields.names_append, Fields.names_append, hwn, hn]; rfl
  have n3' : (vialNames ++ resultNames ++ ["duration"] ++ ["feasible"]).Nodup := by decide
  have hpw : ("prize", prize) ∈ withObjective r (ops.whereTrue (ops.atLeast prize quota) objective) :=
    List.mem_map.2 ⟨_, hp, by simp⟩
  rw [summaryFields]
  simp only [hmerge]
  rw [g n0 (k := "end_time") (x := t₁) (by simp [h₁]), g n0 (k := "start_time") (x := t₀) (by simp [h₀])]
  simp only [Option.bind_eq_bind, Option.bind_some]
  rw [Fields.set_new (k := "duration") (by rw [hnames]; decide), g n1 (k := "prize") (x := prize) (by simp [hp]), g n1 (k := "quota") (x := quota) (by simp [hqm])]
  simp only [Option.bind_some]
  rw [Fields.set_new (k := "feasible") (by rw [Fields.names_append, hnames]; simp only [Fields.names, List.map_cons, List.map_nil]; decide),
    g n2 (k := "feasible") (x := ops.atLeast prize quota) (by simp), g n2 (k := "objective") (x := objective) (by simp [ho])]
  simp only [Option.bind_some]
  rw [hset, g (by rw [n3]; exact n3') (k := "feasible") (x := ops.atLeast prize quota) (by simp),
    g (by rw [n3]; exact n3') (k := "prize") (x := prize) (by simp [hpw]), g (by rw [n3]; exact n3') (k := "quota") (x := quota) (by simp [hqm])]
  simp only [Option.bind_some]
  rw [Fields.set_new (k := "overshoot") (by rw [n3]; decide), hf]
  simp

/-- **C145.** The row in the file of a branch and cut experiment: the row above and then the statistics, under their own names. -/
theorem C145_branch_cut (ops : AddedColumns α) {v : VialFields α} (hv : v.Typed) {r s : Fields α} (hr : r.names = resultNames) (hs : s.names = statsNames) (u : α)
    {quota prize objective t₀ t₁ : α} (hq : ("quota", quota) ∈ v.dataConfig) (hp : ("prize", prize) ∈ r) (ho : ("objective", objective) ∈ r)
    (h₀ : ("start_time", t₀) ∈ r) (h₁ : ("end_time", t₁) ∈ r) :
    ∃ row, summaryFields ops v r = some row ∧ branchCutFields ops v r s u = some (row ++ s) ∧
      Fields.names (row ++ s) = vialNames ++ resultNames ++ addedNames ++ statsNames ∧ (Fields.names (row ++ s)).Nodup := by
  have h := C145_summary ops hv hr hq hp ho h₀ h₁
  refine ⟨_, h, ?_⟩
  generalize hrow : (("uuid", v.uuid) :: (v.dataConfig ++ v.modelParams ++ v.preprocessing) ++
      withObjective r (ops.whereTrue (ops.atLeast prize quota) objective) ++
      [("duration", ops.seconds t₁ t₀), ("feasible", ops.atLeast prize quota), ("overshoot", ops.whereTrue (ops.atLeast prize quota) (ops.minus prize quota))]) = row at h
  have hwn : Fields.names (withObjective r (ops.whereTrue (ops.atLeast prize quota) objective)) = resultNames := by
    rw [← hr, Fields.names, withObjective, List.map_map, Fields.names]
    apply List.map_congr_left
    intro p _
    by_cases h : p.1 = "objective" <;> simp [h]
  have hn : Fields.names row = vialNames ++ resultNames ++ addedNames := by
    rw [← hrow, Fields.names_append, Fields.names_append, hwn, ← (C145_flat hv).1, (C145_flat hv).2.1]; rfl
  have hst : statsFields s u = s ++ [("vial_uuid", u)] := Fields.set_new (by rw [hs]; decide) u
  have hfil : (s ++ [("vial_uuid", u)]).filter (fun p => decide (p.1 ≠ "vial_uuid")) = s := by
    rw [List.filter_append]
    have : s.filter (fun p => decide (p.1 ≠ "vial_uuid")) = s := by
      rw [List.filter_eq_self]
      intro p hp'
      simp only [ne_eq, decide_not, Bool.not_eq_eq_eq_not, Bool.not_true, decide_eq_false_iff_not]
      intro e
      have : "vial_uuid" ∈ Fields.names s := e ▸ List.mem_map_of_mem hp'
      rw [hs] at this
      revert this; decide
    rw [this]; simp
  refine ⟨?_, by rw [Fields.names_append, hn, hs], by rw [Fields.names_append, hn, hs]; decide⟩
  rw [branchCutFields, h]
  simp only [Option.bind_eq_bind, Option.bind_some]
  rw [hst, mergeRow_disjoint]
  · rw [if_pos rfl, hfil]; rfl
  · rw [if_pos rfl, hfil, hn, hs]; decide

/-! ## Examples -/

/-- Some values, one per name. -/
def exFields (names : List String) (first : Int) : Fields Int := names.zipIdx.map fun p => (p.1, first + p.2)

/-- The columns that `cost_cover_table` and `tailing_off_table` read, pctsp/apps/tables_app.py 225-350. -/
def exactReads : List String := ["cost_function", "lower_bound", "upper_bound", "status", "cost_cover_disjoint_paths", "cost_cover_shortest_path", "alpha", "quota", "graph_name", "duration",
  "feasible", "num_cost_cover_disjoint_paths", "nconss_presolve_disjoint_paths", "num_cost_cover_shortest_paths", "nconss_presolve_shortest_paths", "num_sec_disjoint_tour",
  "num_sec_maxflow_mincut", "num_nodes", "branching_max_depth", "branching_strategy", "sec_lp_gap_improvement_threshold", "sec_max_tailing_off_iterations"]

/-- The columns of the file of the heuristics that `get_heuristics_df` and `heuristics_table` read, tables_app.py 402-506, and the settings of the preprocessing and the solution, which the
file is to record. -/
def heuristicReads : List String := ["dataset", "graph_name", "quota", "root", "generation", "kappa", "cost_function", "alpha", "algorithm", "path_depth_limit", "step_size", "collapse_paths",
  "objective", "feasible", "duration", "prize", "edge_list", "disjoint_path_cutoff", "remove_leaves", "remove_disconnected_components", "remove_one_connected_components",
  "shortest_path_cutoff", "heuristic", "time_limit", "sec_disjoint_tour", "sec_maxflow_mincut", "sec_sepafreq", "triangle", "is_exact", "is_heuristic", "is_relaxation"]

/-- **C145.** The files have every column that the tables read, and record all settings; the file of the heuristics has no bounds, so joining it with the bounds of the exact algorithm renames nothing. -/
theorem C145_read (ops : AddedColumns α) {v : VialFields α} (hv : v.Typed) {r s : Fields α} (hr : r.names = resultNames) (hs : s.names = statsNames) (u : α)
    {quota prize objective t₀ t₁ : α} (hq : ("quota", quota) ∈ v.dataConfig) (hp : ("prize", prize) ∈ r) (ho : ("objective", objective) ∈ r)
    (h₀ : ("start_time", t₀) ∈ r) (h₁ : ("end_time", t₁) ∈ r) :
    ∃ row full, summaryFields ops v r = some row ∧ branchCutFields ops v r s u = some full ∧ (∀ k ∈ exactReads, k ∈ full.names) ∧ (∀ k ∈ heuristicReads, k ∈ row.names) ∧
      "lower_bound" ∉ row.names ∧ "upper_bound" ∉ row.names := by
  obtain ⟨row, e1, e2, e3, -⟩ := C145_branch_cut ops hv hr hs u hq hp ho h₀ h₁
  have hrow : Fields.names row = vialNames ++ resultNames ++ addedNames := by
    rw [Fields.names_append, hs] at e3
    exact List.append_cancel_right e3
  refine ⟨row, row ++ s, e1, e2, ?_, ?_, ?_, ?_⟩
  · rw [e3]; decide
  · rw [hrow]; decide
  · rw [hrow]; decide
  · rw [hrow]; decide

/-- A vial with different values in all fields: the quota is 13. -/
def exVialFields : VialFields Int := ⟨1, exFields dataConfigNames 10, exFields modelParamsNames 30, exFields preprocessingNames 50⟩

theorem exVialFields_typed : exVialFields.Typed := ⟨by decide, by decide, by decide⟩

/-- A result with the prize 102 and the objective 101. -/
def exResultFields : Fields Int := exFields resultNames 100

/-- Numbers instead of times, 0 and 1 instead of Boolean values, -1 instead of NaN. -/
def exColumns : AddedColumns Int := ⟨fun a b => a - b, fun a b => if b ≤ a then 1 else 0, fun c x => if c = 1 then x else -1, fun a b => a - b⟩

example := C145_flat exVialFields_typed
example := C145_flat_injective (w := exVialFields) exVialFields_typed exVialFields_typed rfl
/-- Two fields with the same name: the later one wins. -/
example : ([[("root", 5)], [("root", 6)]].foldl Fields.update [("uuid", 1)]).get "root" = some 6 := by decide
example := C145_flat_general (1 : Int) [[("root", 5)], [("root", 6)]] "root"
example := C145_summary exColumns exVialFields_typed (r := exResultFields) (by decide) (quota := 13) (prize := 102) (objective := 101) (t₀ := 104) (t₁ := 105)
  (by decide) (by decide) (by decide) (by decide) (by decide)
example : (summaryFields exColumns exVialFields exResultFields).map (fun row => (row.get "feasible", row.get "objective", row.get "overshoot", row.get "duration")) =
    some (some 1, some 101, some 89, some 1) := by decide +kernel
/-- The same result for a vial with a greater quota. -/
example : (summaryFields exColumns { exVialFields with dataConfig := exFields dataConfigNames 500 } exResultFields).map
    (fun row => (row.get "feasible", row.get "objective", row.get "overshoot", row.get "prize")) = some (some 0, some (-1), some (-1), some 102) := by decide +kernel
example := C145_branch_cut exColumns exVialFields_typed (r := exResultFields) (s := exFields statsNames 200) (by decide) (by decide) 1
  (quota := 13) (prize := 102) (objective := 101) (t₀ := 104) (t₁ := 105) (by decide) (by decide) (by decide) (by decide) (by decide)
example := C145_read exColumns exVialFields_typed (r := exResultFields) (s := exFields statsNames 200) (by decide) (by decide) 1
  (quota := 13) (prize := 102) (objective := 101) (t₀ := 104) (t₁ := 105) (by decide) (by decide) (by decide) (by decide) (by decide)
/-- With a field of the same name in the statistics the merge would rename both columns. -/
example : (mergeRow "vial_uuid" "vial_uuid" [("vial_uuid", 1), ("prize", 2)] [("prize", 3), ("vial_uuid", 1)]) =
    [("vial_uuid", 1), ("prize_x", 2), ("prize_y", 3)] := by decide

end Pctsp
