import Verif.Model.Commands

/-!
# Python: the commands that run at once

Model of the commands `lab`, `londonaq` and `tsplib`, pctsp/apps/main_app.py 126-162, 467-499 and 572-594, on the files of one experiment of a dataset: they
write the experiment, run all its vials and write the list of the results to `results.json` (`Lab.write_results_to_file`, pctsp/lab/lab.py 258-269).
Writing these two files does not fail.
-/

namespace Pctsp

/-- The files of an experiment and `results.json`; `parent` tells whether the directory exists in which the lab makes its own (lab.py 53, `parents=False`). -/
structure LabHome (U V P : Type) where
  parent : Bool
  dir : LabDir U V P
  backup : Option (List (StoredResult U V))

variable {U V P : Type}

/-- `Lab.write_results_to_file`, lab.py 258-269. -/
def writeResults (rs : List (StoredResult U V)) (h : LabHome U V P) : LabHome U V P := { h with backup := some rs }

/-- `lab`, main_app.py 126-162: the constructor of the lab, then the experiment, the vials and the list of the results; an exception of a vial ends it. -/
def labCmd [DecidableEq U] (run : LabVial U P → Attempt U V) (vials : List (LabVial U P)) (h : LabHome U V P) : LabHome U V P × Except CmdError Unit :=
  if h.parent then
    let d := setupCmd vials h.dir
    let x := runVials run vials d.results
    let h' := { h with dir := { d with results := x.1 } }
    match x.2 with
    | .error e => (h', .error (.lab e))
    | .ok rs => (writeResults rs h', .ok ())
  else (h, .error .fileNotFound)

/-- `londonaq` and `tsplib`, main_app.py 467-499 and 572-594, once the instance has been read: an experiment of one vial. -/
def oneRunCmd [DecidableEq U] (run : LabVial U P → Attempt U V) (v : LabVial U P) (h : LabHome U V P) : LabHome U V P × Except CmdError Unit := labCmd run [v] h

/-- Commands one after the other, each in its own process. -/
def labCmds [DecidableEq U] : List ((LabVial U P → Attempt U V) × List (LabVial U P)) → LabHome U V P → LabHome U V P
  | [], h => h
  | c :: cs, h => labCmds cs (labCmd c.1 c.2 h).1

end Pctsp
