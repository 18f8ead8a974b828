/-!
# Python: the column formats of the LaTeX tables

Model of the columns of `summarize_dataset`, `cost_cover_table` and `heuristics_table`, pctsp/apps/tables_app.py 94-145, 324-400 and 448-544, and of the argument `column_format` of `to_latex`.  A
format is modelled by its kind.  The columns are pairs of a label (a cover, an algorithm, a cost function) and a measure; labels are any list.
-/

namespace Pctsp

/-- The formats: `l`, `SI_GAP`, `SI_NUM`, `r` and `SI_SEP`, tables_app.py 74-79. -/
inductive ColFormat where
  | left
  | gap
  | num
  | count
  | sep
  deriving DecidableEq, Repr

/-- Insertion of a name into a sorted list; strings are compared by code points. -/
def insertColumn (s : String) : List String → List String
  | [] => [s]
  | t :: l => if s ≤ t then s :: t :: l else t :: insertColumn s l

/-- `sort_index(axis="columns")` within a label, tables_app.py 130-134, 378 and 514. -/
def sortColumns : List String → List String
  | [] => []
  | s :: l => insertColumn s (sortColumns l)

/-- The columns after `unstack`, `swaplevel` and `sort_index`. -/
def tableColumns (labels measures : List String) : List (String × String) := labels.flatMap fun n => (sortColumns measures).map fun m => (n, m)

/-- The measures of the table of the covers before lines 365-376: lines 337-354 without those that lines 355-364 drop. -/
def ccAggregated : List String :=
  ["mean_duration", "mean_lower_bound", "mean_upper_bound", "mean_gap", "num_optimal_solutions", "num_feasible_solutions", "avg_cuts_presolve"]

/-- Lines 365-376; `none` if the experiment is neither of the two, when `column_format` is unbound. -/
def ccMeasures (experiment : String) : Option (List String) :=
  if experiment = "cc_londonaq_alpha" then some (ccAggregated.filter fun m => ¬ m ∈ ["num_optimal_solutions", "avg_cuts_presolve", "mean_duration"])
  else if experiment = "cost_cover" then some (ccAggregated.filter fun m => ¬ m ∈ ["num_feasible_solutions", "mean_lower_bound", "mean_upper_bound"])
  else none

/-- The levels of the index in the table of the covers or of the heuristics, lines 324-335 and 482-499. -/
def indexLevels (tspwplib : Bool) : Nat := if tspwplib then 2 else 1

/-- Lines 365-385. -/
def ccFormat (tspwplib : Bool) (experiment : String) : Option (List ColFormat) :=
  let f := if experiment = "cc_londonaq_alpha" then some (.left :: (List.replicate 3 [.gap, .num, .num, .count]).flatten)
    else if experiment = "cost_cover" then some (.left :: (List.replicate 3 [.num, .num, .gap, .count]).flatten)
    else none
  f.map fun f => if tspwplib then .left :: f else f

/-- Lines 501-506. -/
def heuristicMeasures : List String := ["num_optimal_solutions", "num_feasible_solutions", "mean_gap", "mean_duration"]

/-- Lines 530-533. -/
def heuristicFormat (tspwplib : Bool) : List ColFormat :=
  (if tspwplib then [.left, .left] else [.left]) ++ (List.replicate 4 [.num, .gap, .count]).flatten

/-- The columns of the table of `londonaq`, lines 105-114, without the index. -/
def londonaqMeasures : List String :=
  ["num_nodes", "num_edges", "preprocessed_num_nodes", "preprocessed_num_edges", "preprocessed_prize_ratio", "metricness", "disjoint_prize_ratio"]

/-- Line 115. -/
def londonaqFormat : List ColFormat := .left :: (List.replicate 4 .sep ++ List.replicate 3 .gap)

/-- The measures of the other dataset, lines 126-129. -/
def tsplibMeasures : List String := ["mean_disjoint_prize_ratio", "mean_preprocessed_prize_ratio"]

/-- Line 119. -/
def tsplibFormat : List ColFormat := .left :: List.replicate 4 .gap

end Pctsp
