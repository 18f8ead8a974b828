import Verif.Model.Commands

/-!
# Python: the tasks of an array job at the same time

The tasks of the job that the script of `slurm` describes (pctsp/apps/main_app.py 291-304) run at the same time and can be killed, for instance by the limits of
the script.  Each runs the loop of pctsp/lab/lab.py 114-207 over its own vials; they share the directory of the experiment.  Here a step of the job is a step of
one task, and any task may make the next step.  Writing a result (pctsp/vial/result.py 22-41) takes two steps: `open(filepath, "w")` empties the file, and the text
is complete when the file is closed; in between the file cannot be parsed.  The experiment files are only read.
-/

namespace Pctsp

/-- A task: the vials that it has not begun, and the file that it is writing with the content that it will have. -/
structure TaskState (U V P : Type) where
  rest : List (LabVial U P)
  writing : Option (U × ResultFile U V)

/-- The job: its tasks and the result files. -/
structure JobState (ι U V P : Type) where
  tasks : ι → TaskState U V P
  results : Store U V

variable {ι U V P : Type} [DecidableEq ι] [DecidableEq U]

/-- One task changes. -/
def JobState.setTask (j : JobState ι U V P) (i : ι) (t : TaskState U V P) : ι → TaskState U V P := fun i' => if i' = i then t else j.tasks i'

/-- The job at its start: task `i` has the vials `batches i`. -/
def JobState.start (batches : ι → List (LabVial U P)) (s : Store U V) : JobState ι U V P := ⟨fun i => ⟨batches i, none⟩, s⟩

/-- A task that is not writing goes on to its next vial, lab.py 114-207: an exception while loading or undefined behaviour ends the task, a failure goes on to the
next vial, a result is about to be written. -/
def JobState.next (run : LabVial U P → Attempt U V) (j : JobState ι U V P) (i : ι) (v : LabVial U P) (vs : List (LabVial U P)) : JobState ι U V P :=
  match run v with
  | .abort | .died => { j with tasks := j.setTask i ⟨[], none⟩ }
  | .failed => { j with tasks := j.setTask i ⟨vs, none⟩ }
  | .unwritten _ f => ⟨j.setTask i ⟨vs, none⟩, setFile j.results v.uuid f⟩
  | .done r => ⟨j.setTask i ⟨vs, some (v.uuid, .good ⟨v.uuid, r⟩)⟩, setFile j.results v.uuid .corrupt⟩

/-- A file is closed, result.py 39-41. -/
def JobState.close (j : JobState ι U V P) (i : ι) (u : U) (f : ResultFile U V) : JobState ι U V P :=
  ⟨j.setTask i ⟨(j.tasks i).rest, none⟩, setFile j.results u f⟩

/-- A task is killed: the files stay as they are. -/
def JobState.kill (j : JobState ι U V P) (i : ι) : JobState ι U V P := { j with tasks := j.setTask i ⟨[], none⟩ }

/-- One step of the job; `kills` says whether tasks may be killed. -/
inductive JobStep (run : LabVial U P → Attempt U V) (kills : Bool) (j : JobState ι U V P) : JobState ι U V P → Prop
  | next (i : ι) (v : LabVial U P) (vs : List (LabVial U P)) (hw : (j.tasks i).writing = none) (hr : (j.tasks i).rest = v :: vs) :
      JobStep run kills j (j.next run i v vs)
  | close (i : ι) (u : U) (f : ResultFile U V) (hw : (j.tasks i).writing = some (u, f)) : JobStep run kills j (j.close i u f)
  | kill (i : ι) (hk : kills = true) (hn : (j.tasks i).rest ≠ [] ∨ (j.tasks i).writing ≠ none) : JobStep run kills j (j.kill i)

/-- The states that the job can reach, with the number of steps. -/
inductive JobReach (run : LabVial U P → Attempt U V) (kills : Bool) (j : JobState ι U V P) : Nat → JobState ι U V P → Prop
  | refl : JobReach run kills j 0 j
  | step {n : Nat} {k l : JobState ι U V P} (h : JobReach run kills j n k) (s : JobStep run kills k l) : JobReach run kills j (n + 1) l

/-- All tasks have ended. -/
def JobState.Ended (j : JobState ι U V P) : Prop := ∀ i, (j.tasks i).rest = [] ∧ (j.tasks i).writing = none

end Pctsp
