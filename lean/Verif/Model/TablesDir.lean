import Verif.Model.Pretty
import Verif.Model.CsvHome

/-!
# Python: the files that the commands for tables write

Model of `tables dataset`, `tables cost-cover`, `tables heuristics`, `tables tailing-off` and `tables all` on the directory of the tables, pctsp/apps/tables_app.py
93-145, 224-397, 448-583.  The text of a table, or the exception that computing it raises, is a parameter (see `Tables`, `Pretty` and `DatasetCommand` for what the
tables contain).  Writing a file fails only if its directory does not exist.  In that case `pathlib` raises a `FileNotFoundError`; `pandas`, which writes the tables of
the datasets, raises a `FileNotFoundError` or, from version 1.4 on, an `OSError` that is not one: both are modelled.
-/

namespace Pctsp

/-- An exception: `FileNotFoundError` or any other. -/
inductive TableFault where
  | notFound | other
  deriving DecidableEq

/-- A table: the dataset, of which `true` is `londonaq`, and the kind.  Its file is named after them. -/
abbrev TableName := Bool × TableKind

/-- The directory for the tables: whether its parent exists and, if it exists itself, its files. -/
structure TexDir (T : Type) where
  parent : Bool
  files : Option (TableName → Option T)

variable {T : Type}

/-- `write_text` to a file of the directory; `fault` is the exception if there is no directory. -/
def TexDir.write (d : TexDir T) (fault : TableFault) (t : TableName) (text : T) : TexDir T × Option TableFault :=
  match d.files with
  | none => (d, some fault)
  | some f => ({ d with files := some fun t' => if t' = t then some text else f t' }, none)

/-- `tables_dir.mkdir(exist_ok=True, parents=False)`, tables_app.py 231 and 281. -/
def TexDir.mkdir (d : TexDir T) : TexDir T × Option TableFault :=
  match d.files with
  | some _ => (d, none)
  | none => if d.parent then ({ d with files := some fun _ => none }, none) else (d, some .notFound)

/-- One of the four commands.  The table of a dataset is written without making the directory (93-145); those of the covers and of tailing off make it before they read
their data (231, 281); that of the heuristics is printed only, as the line that writes it is a comment (544). -/
def tableCmd (fault : TableFault) (source : TableName → Except TableFault T) (t : TableName) (d : TexDir T) : TexDir T × Option TableFault :=
  match t.2 with
  | .dataset =>
    match source t with
    | .error e => (d, some e)
    | .ok text => d.write fault t text
  | .heuristics =>
    match source t with
    | .error e => (d, some e)
    | .ok _ => (d, none)
  | _ =>
    match d.mkdir with
    | (d, some e) => (d, some e)
    | (d, none) =>
      match source t with
      | .error e => (d, some e)
      | .ok text => d.write .notFound t text

/-- The loop of `tables all`: a `FileNotFoundError` is caught, any other exception ends the command. -/
def tableSteps (fault : TableFault) (source : TableName → Except TableFault T) : List TableName → TexDir T → TexDir T × Bool
  | [], d => (d, true)
  | t :: ts, d =>
    match tableCmd fault source t d with
    | (d, some .other) => (d, false)
    | (d, _) => tableSteps fault source ts d

/-- `generate_all_tables`, tables_app.py 547-583; `true` if it ends well. -/
def tablesAllCmd (fault : TableFault) (source : TableName → Except TableFault T) (d : TexDir T) : TexDir T × Bool := tableSteps fault source allTables d

/-- The command again and again, with the data that there are each time. -/
def tablesRuns (fault : TableFault) (sources : List (TableName → Except TableFault T)) (d : TexDir T) : TexDir T :=
  sources.foldl (fun d source => (tablesAllCmd fault source d).1) d

/-- The exceptions of a command as `tables all` tells them apart. -/
def CmdError.fault (e : CmdError) : TableFault := if e = .fileNotFound then .notFound else .other

/-- Where the tables take their data from: the CSV files of the dataset (`dataset`) and of the experiments, tables_app.py 233-238, 283-288, 409-424; `render` makes the text of
a table of rows. -/
def csvSource {U V P : Type} (L : CsvLab U V P) (dataset : Bool → Except TableFault T)
    (render : TableName → List (SummaryRow U V P) → List (BranchCutRow U V P) → Except TableFault T) : TableName → Except TableFault T
  | (b, k) =>
    let name : DatasetName := if b then .londonaq else .tspwplib
    match k with
    | .dataset => dataset b
    | .costCover =>
      match exactTableRows (L (name, .costCover)) with
      | .error e => .error e.fault
      | .ok rows => render (b, k) [] rows
    | .tailingOff =>
      match exactTableRows (L (name, .tailingOff)) with
      | .error e => .error e.fault
      | .ok rows => render (b, k) [] rows
    | .heuristics =>
      match heuristicTableRows (L (name, .compareHeuristics)) (L (name, .costCover)) with
      | .error e => .error e.fault
      | .ok (rows, exact) => render (b, k) rows exact

end Pctsp
