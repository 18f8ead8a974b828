import Mathlib.Data.List.Basic
import Mathlib.Data.List.Nodup

/-!
# Python: the columns of the CSV files

`flat_dict_from_vial`, pctsp/vial/vial.py 26-46, and the handling of columns in `experiment_summary_df` and `write_branch_cut_experiment_to_csv`,
pctsp/apps/csv_app.py 29-48 and 87-110.  Which rows are joined is the subject of `Model/Batch` and `Model/Tables`; here one row is followed.  Values are of any type.
-/

namespace Pctsp

/-- A Python dictionary, or a row of a data frame, in insertion order. -/
abbrev Fields (α : Type) := List (String × α)

namespace Fields

variable {α : Type}

/-- The names. -/
def names (d : Fields α) : List String := d.map Prod.fst

/-- `d[k] = v`: replaces the value of a known key, appends an unknown one. -/
def set (d : Fields α) (k : String) (v : α) : Fields α :=
  if d.names.contains k then d.map fun p => if p.1 = k then (k, v) else p else d ++ [(k, v)]

/-- `for field, value in e.items(): d[field] = value`, vial.py 43-45. -/
def update (d e : Fields α) : Fields α := e.foldl (fun d p => d.set p.1 p.2) d

/-- `d[k]`. -/
def get (d : Fields α) (k : String) : Option α := (d.find? fun p => p.1 = k).map Prod.snd

end Fields

/-- A vial as the dictionaries of its parts (`BaseModel.dict()` lists the fields in the order of the class). -/
structure VialFields (α : Type) where
  uuid : α
  dataConfig : Fields α
  modelParams : Fields α
  preprocessing : Fields α

/-- The fields of `DataConfig`, pctsp/vial/data_config.py 24-32. -/
def dataConfigNames : List String := ["dataset", "cost_function", "graph_name", "quota", "root", "alpha", "generation", "kappa", "triangle"]

/-- The fields of `ModelParams`, pctsp/vial/model_params.py 76-93. -/
def modelParamsNames : List String := ["algorithm", "is_exact", "is_heuristic", "is_relaxation", "branching_strategy", "branching_max_depth", "collapse_paths",
  "cost_cover_disjoint_paths", "cost_cover_shortest_path", "heuristic", "path_depth_limit", "sec_disjoint_tour", "sec_lp_gap_improvement_threshold",
  "sec_maxflow_mincut", "sec_max_tailing_off_iterations", "sec_sepafreq", "step_size", "time_limit"]

/-- The fields of `Preprocessing`, pctsp/vial/preprocessing.py 11-15. -/
def preprocessingNames : List String := ["disjoint_path_cutoff", "remove_leaves", "remove_disconnected_components", "remove_one_connected_components",
  "shortest_path_cutoff"]

/-- The fields of `Result`, pctsp/vial/result.py 15-20. -/
def resultNames : List String := ["vial_uuid", "objective", "prize", "edge_list", "start_time", "end_time"]

/-- The fields of `SummaryStats`, pctsp/algorithms/data_structures.py 11-21. -/
def statsNames : List String := ["status", "lower_bound", "upper_bound", "num_cost_cover_disjoint_paths", "num_cost_cover_shortest_paths",
  "nconss_presolve_disjoint_paths", "nconss_presolve_shortest_paths", "num_cycle_cover", "num_nodes", "num_sec_disjoint_tour", "num_sec_maxflow_mincut"]

/-- `flat_dict_from_vial`, vial.py 26-46. -/
def flatDictFromVial {α : Type} (v : VialFields α) : Fields α :=
  [v.dataConfig, v.modelParams, v.preprocessing].foldl Fields.update [("uuid", v.uuid)]

/-- One row of `left.merge(right, left_on=…, right_on=…)` as pandas documents it: key columns of the same name become one, other columns of the same name get
the suffixes `_x` and `_y`. -/
def mergeRow {α : Type} (leftOn rightOn : String) (l r : Fields α) : Fields α :=
  let r : Fields α := if leftOn = rightOn then r.filter fun p => p.1 ≠ rightOn else r
  let both := l.names.filter r.names.contains
  let suffix (s : String) (p : String × α) : String × α := (if both.contains p.1 then p.1 ++ s else p.1, p.2)
  l.map (suffix "_x") ++ r.map (suffix "_y")

/-- What the added columns compute, csv_app.py 36-47. -/
structure AddedColumns (α : Type) where
  /-- seconds from the second argument to the first -/
  seconds : α → α → α
  /-- `>=` -/
  atLeast : α → α → α
  /-- `np.where(condition, value, np.nan)` -/
  whereTrue : α → α → α
  /-- `-` -/
  minus : α → α → α

/-- The row of a vial and its result, csv_app.py 33-48; `none` is a `KeyError`. -/
def summaryFields {α : Type} (ops : AddedColumns α) (v : VialFields α) (result : Fields α) : Option (Fields α) := do
  let row := mergeRow "uuid" "vial_uuid" (flatDictFromVial v) result
  let row := row.set "duration" (ops.seconds (← row.get "end_time") (← row.get "start_time"))
  let row := row.set "feasible" (ops.atLeast (← row.get "prize") (← row.get "quota"))
  let row := row.set "objective" (ops.whereTrue (← row.get "feasible") (← row.get "objective"))
  pure (row.set "overshoot" (ops.whereTrue (← row.get "feasible") (ops.minus (← row.get "prize") (← row.get "quota"))))

/-- The row of the statistics, csv_app.py 57-60. -/
def statsFields {α : Type} (stats : Fields α) (uuid : α) : Fields α := stats.set "vial_uuid" uuid

/-- The row in the file of a branch and cut experiment, csv_app.py 98-105. -/
def branchCutFields {α : Type} (ops : AddedColumns α) (v : VialFields α) (result stats : Fields α) (uuid : α) : Option (Fields α) := do
  let row ← summaryFields ops v result
  pure (mergeRow "vial_uuid" "vial_uuid" row (statsFields stats uuid))

end Pctsp
