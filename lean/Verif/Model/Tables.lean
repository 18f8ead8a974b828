import Verif.Model.Batch
import Verif.Model.Stats
import Verif.Model.Float

/-!
# Python: the CSV file of a branch and cut experiment, and the tables of results

Model of `summary_stats_df`, `write_branch_cut_experiment_to_csv` and `write_all_experiments_to_csv`, pctsp/apps/csv_app.py 51-136, and of the computed columns
and counts of `tailing_off_table`, `cost_cover_table`, `get_heuristics_df` and `heuristics_table`, pctsp/apps/tables_app.py 223-510.  A number that is written
to a CSV file is read back as it was.  Layout, names of columns and LaTeX are left out.
-/

namespace Pctsp

/-- What `SummaryStats.from_yaml` finds in the directory of a vial. -/
inductive StatsFile where
  /-- `FileNotFoundError` -/
  | absent
  /-- `yaml.YAMLError` -/
  | corrupt
  /-- the document is empty, so `yaml.full_load` returns `None` -/
  | empty
  /-- a document that lacks a field or has one of a wrong type -/
  | invalid
  | good (s : SummaryStats Ext)

variable {U V P : Type} [DecidableEq U]

omit [DecidableEq U] in
/-- `summary_stats_df`, csv_app.py 51-64. -/
def summaryStatsOf (t : U → StatsFile) : List U → Except LabError (List (U × SummaryStats Ext))
  | [] => .ok []
  | u :: us =>
    match t u with
    | .absent | .corrupt => summaryStatsOf t us
    | .empty => .error .typeError
    | .invalid => .error .validation
    | .good s => (summaryStatsOf t us).map ((u, s) :: ·)

/-- A row of the CSV file of a branch and cut experiment. -/
structure BranchCutRow (U V P : Type) where
  row : SummaryRow U V P
  stats : SummaryStats Ext

/-- The inner join of the summary and the statistics, csv_app.py 103-105. -/
def joinStats (rows : List (SummaryRow U V P)) (stats : List (U × SummaryStats Ext)) : List (BranchCutRow U V P) :=
  rows.flatMap fun row => (stats.filter fun x => decide (x.1 = row.result.uuid)).map fun x => ⟨row, x.2⟩

/-- `write_branch_cut_experiment_to_csv`, csv_app.py 87-110: the table that is written.  A table of no statistics has no columns, so the join raises. -/
def branchCutTable (s : Store U V) (t : U → StatsFile) (vials : List (LabVial U P)) : Except LabError (List (BranchCutRow U V P)) := do
  let rs ← readResults s vials
  let rows ← experimentSummary vials rs
  let stats ← summaryStatsOf t (vials.map (·.uuid))
  if stats.isEmpty then .error .keyError else .ok (joinStats rows stats)

/-- `write_all_experiments_to_csv`, csv_app.py 113-136: one attempt per experiment, `none` if its file does not exist, which is caught.  The tables that are
written, and the exception that ends the command. -/
def writeAll {α : Type} : List (Option (Except LabError α)) → List α × Option LabError
  | [] => ([], none)
  | none :: xs => writeAll xs
  | some (.error e) :: _ => ([], some e)
  | some (.ok a) :: xs => (a :: (writeAll xs).1, (writeAll xs).2)

namespace Ext

/-- The sign is changed. -/
def neg : Ext → Ext
  | nan => nan
  | inf s => inf !s
  | fin q => fin (-q)

/-- `==` of IEEE 754. -/
def beq : Ext → Ext → Bool
  | nan, _ => false
  | x, y => decide (x = y)

end Ext

/-- `(upper_bound - lower_bound) / lower_bound`, tables_app.py 239, 302, 441-443. -/
def gapOf (rnd : Rat → Ext) (lb ub : Ext) : Ext := Ext.div rnd (Ext.add rnd ub lb.neg) lb

/-- `SCIP_STATUS_OPTIMAL`, `SCIP_STATUS_INFEASIBLE` and `SCIP_BIG_NUMBER`, tables_app.py 81-83. -/
def statusOptimal : Int := 11
/-- See `statusOptimal`. -/
def statusInfeasible : Int := 12
/-- See `statusOptimal`. -/
def scipBig : Rat := 100000000000000000000

/-- `set_to_nan`, tables_app.py 293-294. -/
def setToNan (x : Ext) : Ext := if x.beq (.fin scipBig) then .nan else x

/-- The column `gap` of the cost cover table, tables_app.py 296-305.  The rows also have columns of strings, so `apply` hands the function rows of Python objects
and the division is the one of Python: dividing by zero raises a `ZeroDivisionError` (`none`). -/
def costCoverGap (rnd : Rat → Ext) (s : SummaryStats Ext) : Option Ext :=
  if s.status = statusInfeasible then some .nan
  else if (setToNan s.lowerBound).beq (.fin 0) then none
  else some (gapOf rnd (setToNan s.lowerBound) (setToNan s.upperBound))

/-- The columns `gap` and `optimal` of a row of the cost cover table, tables_app.py 296-306. -/
def costCoverRow (rnd : Rat → Ext) (s : SummaryStats Ext) : Option (Ext × Bool) :=
  (costCoverGap rnd s).map fun g => (g, g.beq (.fin 0) && decide (s.status = statusOptimal))

/-- These columns of all rows. -/
def costCoverRows (rnd : Rat → Ext) : List (SummaryStats Ext) → Option (List (Ext × Bool))
  | [] => some []
  | s :: rows =>
    match costCoverRow rnd s with
    | none => none
    | some x => (costCoverRows rnd rows).map (x :: ·)

/-- The column `optimal` of the tailing off table, tables_app.py 239-240. -/
def tailingOptimal (rnd : Rat → Ext) (s : SummaryStats Ext) : Bool := (gapOf rnd s.lowerBound s.upperBound).beq (.fin 0)

/-- The rows of one group of `groupby`: a row whose key has a missing value is in no group. -/
def groupRows {α κ : Type} [DecidableEq κ] (key : α → Option κ) (k : κ) (rows : List α) : List α := rows.filter fun r => decide (key r = some k)

/-- `sum` of a column of truth values over a group. -/
def groupCount {α κ : Type} [DecidableEq κ] (key : α → Option κ) (flag : α → Bool) (k : κ) (rows : List α) : Nat :=
  ((groupRows key k rows).map fun r => (flag r).toNat).sum

/-- `drop_duplicates`: the first row of every key is kept. -/
def dropDuplicates {α κ : Type} [DecidableEq κ] (key : α → κ) : List α → List α
  | [] => []
  | a :: as => a :: (dropDuplicates key as).filter fun b => decide (key b ≠ key a)

/-- A row of the CSV file of the exact experiment: the instance, and the columns that the heuristics table reads. -/
structure ExactRow (K : Type) where
  instance_ : K
  coverDisjoint : Bool
  lowerBound : Ext
  upperBound : Ext

/-- A row of the CSV file of the heuristic experiment: the instance, the algorithm with its parameters, and the objective (`none` is NaN). -/
structure HeurRow (K A : Type) where
  instance_ : K
  alg : A
  feasible : Bool
  objective : Option Int

/-- A row of the table of `get_heuristics_df`. -/
structure HeurTableRow (K A : Type) where
  row : HeurRow K A
  lowerBound : Ext
  gap : Ext
  isOptimal : Bool

/-- An objective as a floating point number. -/
def objectiveExt (rnd : Rat → Ext) : Option Int → Ext
  | none => .nan
  | some c => rnd c

/-- The lower bound that is joined to a heuristic row, tables_app.py 425-440: that of the first row of the instance among the exact rows with the cover of
disjoint paths; NaN if there is none. -/
def joinedBound {K : Type} [DecidableEq K] (exact : List (ExactRow K)) (k : K) : Ext :=
  match (dropDuplicates (·.instance_) (exact.filter (·.coverDisjoint))).find? fun r => decide (r.instance_ = k) with
  | none => .nan
  | some r => r.lowerBound

/-- `get_heuristics_df`, tables_app.py 400-445. -/
def heuristicsTable {K A : Type} [DecidableEq K] [DecidableEq A] (rnd : Rat → Ext) (heur : List (HeurRow K A)) (exact : List (ExactRow K)) :
    List (HeurTableRow K A) :=
  (dropDuplicates (fun r => (r.instance_, r.alg)) heur).map fun r =>
    let lb := joinedBound exact r.instance_
    let gap := gapOf rnd lb (objectiveExt rnd r.objective)
    ⟨r, lb, gap, gap.beq (.fin 0)⟩

/-- `np.mean` of a column over a group: missing values are skipped. -/
def columnMean (rnd : Rat → Ext) (xs : List Ext) : Ext :=
  let ys := xs.filter fun x => decide (x ≠ .nan)
  Ext.div rnd (ys.foldl (Ext.add rnd) (.fin 0)) (rnd ys.length)

end Pctsp
