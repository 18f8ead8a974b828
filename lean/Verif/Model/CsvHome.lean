import Verif.Model.Commands
import Verif.Model.Tables
import Verif.Model.Experiments

/-!
# Python: the CSV files of the experiments

Model of the commands `csv heuristics`, `csv branch-cut` and `csv all` on the files of a lab, pctsp/apps/csv_app.py 67-136, and of how the tables read these
files, pctsp/apps/tables_app.py 231-243, 283-288 and 409-445.  Writing a CSV file does not fail; `pandas` raises `KeyError` for an absent column and, as documented,
`DataFrame.join` raises `ValueError` if both tables have a column.
-/

namespace Pctsp

/-- A CSV file of an experiment: with or without the columns of SCIP's statistics. -/
inductive CsvFile (U V P : Type) where
  | heuristics (rows : List (SummaryRow U V P))
  | branchCut (rows : List (BranchCutRow U V P))

/-- The files of an experiment, SCIP's statistics of the vials, and the CSV file, whose name is the same for both commands (csv_app.py 78-81 and 103-106). -/
structure CsvHome (U V P : Type) where
  dir : LabDir U V P
  stats : U → StatsFile
  csv : Option (CsvFile U V P)

variable {U V P : Type} [DecidableEq U]

/-- The table of `write_heuristics_experiment_to_csv`, csv_app.py 75-76. -/
def heuristicsCsvTable (s : Store U V) (vials : List (LabVial U P)) : Except LabError (List (SummaryRow U V P)) := do
  let rs ← readResults s vials
  experimentSummary vials rs

/-- `write_heuristics_experiment_to_csv`, csv_app.py 67-82. -/
def csvHeuristicsCmd (h : CsvHome U V P) : CsvHome U V P × Except CmdError Unit :=
  match readExperiment h.dir false with
  | .error e => (h, .error e)
  | .ok vials =>
    match heuristicsCsvTable h.dir.results vials with
    | .error e => (h, .error (.lab e))
    | .ok rows => ({ h with csv := some (.heuristics rows) }, .ok ())

/-- `write_branch_cut_experiment_to_csv`, csv_app.py 85-107. -/
def csvBranchCutCmd (h : CsvHome U V P) : CsvHome U V P × Except CmdError Unit :=
  match readExperiment h.dir false with
  | .error e => (h, .error e)
  | .ok vials =>
    match branchCutTable h.dir.results h.stats vials with
    | .error e => (h, .error (.lab e))
    | .ok rows => ({ h with csv := some (.branchCut rows) }, .ok ())

/-- One of the two commands; `true` is `branch-cut`. -/
def csvCmd (branchCut : Bool) (h : CsvHome U V P) : CsvHome U V P × Except CmdError Unit :=
  if branchCut then csvBranchCutCmd h else csvHeuristicsCmd h

/-- The files of a lab. -/
abbrev CsvLab (U V P : Type) := DatasetName × ExperimentName → CsvHome U V P

/-- The loop of `csv all`, csv_app.py 116-136: a `FileNotFoundError` is caught, any other exception ends the command. -/
def csvSteps : List ((DatasetName × ExperimentName) × Bool) → CsvLab U V P → CsvLab U V P × Option CmdError
  | [], L => (L, none)
  | (k, b) :: cs, L =>
    let x := csvCmd b (L k)
    let L' : CsvLab U V P := fun k' => if k' = k then x.1 else L k'
    match x.2 with
    | .ok () => csvSteps cs L'
    | .error e => if e = .fileNotFound then csvSteps cs L' else (L', some e)

/-- The calls of `csv all` in their order, csv_app.py 117-134. -/
def csvAllSteps : List ((DatasetName × ExperimentName) × Bool) :=
  [DatasetName.londonaq, .tspwplib].flatMap fun d => [((d, .costCover), true), ((d, .tailingOff), true), ((d, .compareHeuristics), false)]

/-- `write_all_experiments_to_csv`, csv_app.py 110-136. -/
def csvAllCmd (L : CsvLab U V P) : CsvLab U V P × Option CmdError := csvSteps csvAllSteps L

omit [DecidableEq U] in
/-- The rows that the tables of branch and cut experiments read, tables_app.py 238-239 and 288-299: they use the column `lower_bound`. -/
def exactTableRows (h : CsvHome U V P) : Except CmdError (List (BranchCutRow U V P)) :=
  match h.csv with
  | none => .error .fileNotFound
  | some (.heuristics _) => .error (.lab .keyError)
  | some (.branchCut rows) => .ok rows

omit [DecidableEq U] in
/-- The rows that the table of heuristics reads, tables_app.py 409-445: the file of the heuristics is joined with the columns `lower_bound` and `upper_bound` of
the other file. -/
def heuristicTableRows (heuristic exact : CsvHome U V P) : Except CmdError (List (SummaryRow U V P) × List (BranchCutRow U V P)) :=
  match heuristic.csv with
  | none => .error .fileNotFound
  | some f =>
    match exactTableRows exact with
    | .error e => .error e
    | .ok ex =>
      match f with
      | .heuristics rows => .ok (rows, ex)
      | .branchCut _ => .error .valueError

/-- What can happen to the files of an experiment between two looks at its CSV file. -/
inductive CsvEvent (U V P : Type) where
  /-- `setup` (or `lab`, see `labCmd`) writes the experiment -/
  | setup (vials : List (LabVial U P))
  /-- runs leave these result files -/
  | results (s : Store U V)
  /-- runs leave these statistics -/
  | stats (t : U → StatsFile)
  /-- one of the two commands -/
  | csv (branchCut : Bool)

/-- The files after an event. -/
def csvEvent (h : CsvHome U V P) : CsvEvent U V P → CsvHome U V P
  | .setup vials => { h with dir := setupCmd vials h.dir }
  | .results s => { h with dir := { h.dir with results := s } }
  | .stats t => { h with stats := t }
  | .csv b => (csvCmd b h).1

end Pctsp
