import Verif.Model.Batch

/-!
# Python: the commands of the main app

Model of `setup`, `batch`, `nbatches`, `slurm`, `missing`, `vial`, `nmissing` and `infeasible`, pctsp/apps/main_app.py 165-403, on the files of one
experiment (`Lab.read_experiment_from_file` and `write_experiment_to_file`, pctsp/lab/lab.py 227-256), and of the array job that the script of `slurm` describes.
The vials of a new experiment are a parameter (see `Experiments`).  An experiment that is written is the one that is read.  Identifiers are compared as
values; the command `vial` compares their canonical texts.
-/

namespace Pctsp

/-- The exceptions that end a command. -/
inductive CmdError where
  | lab (e : LabError)
  | fileNotFound
  | fileExists
  | valueError
  | indexError
  deriving DecidableEq, Repr

/-- What the script of `slurm` says, main_app.py 291-313: the hours of `--time`, the last task of `--array`, the batch size, and `--only-missing-results`. -/
structure Script where
  hours : Int
  lastTask : Int
  size : Int
  onlyMissing : Bool
  deriving DecidableEq, Repr

/-- The files of an experiment: `experiment.json`, `missing_experiment.json`, the result files, and the script. -/
structure LabDir (U V P : Type) where
  experiment : Option (List (LabVial U P))
  missing : Option (List (LabVial U P))
  results : Store U V
  script : Option Script

variable {U V P : Type}

/-- An exception of the lab ends the command. -/
def liftLab {α : Type} : Except LabError α → Except CmdError α
  | .ok a => .ok a
  | .error e => .error (.lab e)

/-- `read_experiment_from_file`, lab.py 227-242. -/
def readExperiment (d : LabDir U V P) (onlyMissing : Bool) : Except CmdError (List (LabVial U P)) :=
  match if onlyMissing then d.missing else d.experiment with
  | none => .error .fileNotFound
  | some vials => .ok vials

/-- `setup`, main_app.py 165-192: writes `experiment.json` and nothing else. -/
def setupCmd (vials : List (LabVial U P)) (d : LabDir U V P) : LabDir U V P := { d with experiment := some vials }

/-- `missing`, main_app.py 317-342: writes `missing_experiment.json`, and returns the vials that it prints. -/
def missingCmd (d : LabDir U V P) : LabDir U V P × Except CmdError (List (LabVial U P)) :=
  match readExperiment d false with
  | .error e => (d, .error e)
  | .ok vials =>
    match missingVials d.results vials with
    | .error e => (d, .error (.lab e))
    | .ok m => ({ d with missing := some m }, .ok m)

/-- `batch`, main_app.py 195-221: the flag selects the file; `run_batch` is called without it. -/
def batchCmd [DecidableEq U] (run : LabVial U P → Attempt U V) (start size : Int) (onlyMissing : Bool) (d : LabDir U V P) :
    LabDir U V P × Except CmdError (List (StoredResult U V)) :=
  match readExperiment d onlyMissing with
  | .error e => (d, .error e)
  | .ok vials =>
    let x := runBatch run vials start size false d.results
    ({ d with results := x.1 }, liftLab x.2)

/-- `nbatches`, main_app.py 224-246. -/
def nbatchesCmd (rnd : Rat → Rat) (size : Int) (d : LabDir U V P) : Except CmdError Int :=
  if size ≤ 0 then .error .valueError
  else match readExperiment d false with
    | .error e => .error e
    | .ok vials => liftLab (getNbatches rnd vials.length size)

/-- The hours that `slurm` asks for, main_app.py 281-283; the constant called `two_days_in_hours` is the number of seconds of two days. -/
def slurmHours (rnd : Rat → Rat) (size : Int) (timeLimit : Rat) : Int :=
  let twoDaysInHours : Int := 2 * 24 * 3600
  let expected := ⌈rnd (rnd size * rnd (timeLimit / 3600))⌉
  min (expected + 1) twoDaysInHours

/-- `slurm`, main_app.py 249-314. -/
def slurmCmd (rnd : Rat → Rat) (size : Int) (onlyMissing overwrite : Bool) (timeLimit : Rat) (d : LabDir U V P) : LabDir U V P × Except CmdError Unit :=
  match readExperiment d onlyMissing with
  | .error e => (d, .error e)
  | .ok vials =>
    match getNbatches rnd vials.length size with
    | .error e => (d, .error (.lab e))
    | .ok n =>
      let hours := slurmHours rnd size timeLimit
      if d.script.isSome && !overwrite then (d, .error .fileExists)
      else ({ d with script := some ⟨hours, n - 1, size, onlyMissing⟩ }, .ok ())

/-- Tasks of the array job, one after the other in the given order, main_app.py 299-304: task `k` runs the batch that starts at `k * size`. -/
def runTasks [DecidableEq U] (run : LabVial U P → Attempt U V) (sc : Script) : List Nat → LabDir U V P → LabDir U V P
  | [], d => d
  | k :: ks, d => runTasks run sc ks (batchCmd run (k * sc.size) sc.size sc.onlyMissing d).1

/-- The loop of `vial` over the vials, main_app.py 364-367: the last one with the identifier. -/
def findVial [DecidableEq U] (uuid : U) (vials : List (LabVial U P)) : Option (LabVial U P) :=
  vials.foldl (fun found v => if v.uuid = uuid then some v else found) none

/-- `vial`, main_app.py 345-371: runs one vial and returns the result that it prints; the list of results is empty if the attempt raised. -/
def vialCmd [DecidableEq U] (run : LabVial U P → Attempt U V) (uuid : U) (d : LabDir U V P) : LabDir U V P × Except CmdError (StoredResult U V) :=
  match readExperiment d false with
  | .error e => (d, .error e)
  | .ok vials =>
    match findVial uuid vials with
    | none => (d, .error .valueError)
    | some v =>
      let x := runVials run [v] d.results
      ({ d with results := x.1 }, match x.2 with
        | .error e => .error (.lab e)
        | .ok [] => .error .indexError
        | .ok (r :: _) => .ok r)

/-- `nmissing`, main_app.py 374-386: the number of missing vials and of all vials. -/
def nmissingCmd (d : LabDir U V P) : Except CmdError (Nat × Nat) :=
  match readExperiment d false with
  | .error e => .error e
  | .ok vials => (liftLab (missingVials d.results vials)).map fun m => (m.length, vials.length)

/-- `infeasible`, main_app.py 389-402: the identifiers of the infeasible vials. -/
def infeasibleCmd (d : LabDir U V P) : Except CmdError (List U) :=
  match readExperiment d false with
  | .error e => .error e
  | .ok vials => (liftLab (infeasibleVials d.results vials)).map fun l => l.map (·.uuid)

end Pctsp
