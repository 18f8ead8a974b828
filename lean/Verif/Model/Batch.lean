import Verif.Model.Lab
import Mathlib.Algebra.Order.Floor.Ring
import Mathlib.Data.Rat.Floor

/-!
# Python: experiments, batches and their result files

Model of the class `Lab` and of `get_nbatches`, pctsp/lab/lab.py, of `Result.read_from_json_file`, pctsp/vial/result.py 42-58, and of
`experiment_summary_df`, pctsp/apps/csv_app.py 29-48.  Loading a problem, preprocessing it and running the algorithm are parameters: what an attempt at a vial
ends with.  Logging, time stamps and the creation of directories are left out.
-/

namespace Pctsp

/-- The exceptions that leave the functions of this file. -/
inductive LabError where
  /-- `json.JSONDecodeError` -/
  | jsonDecode
  /-- `pydantic.ValidationError`, raised by `Result(**...)` -/
  | validation
  /-- `TypeError`, raised by `cls(**None)` for an empty file -/
  | typeError
  /-- `ZeroDivisionError` -/
  | zeroDivision
  /-- `KeyError`: merging a table without columns -/
  | keyError
  /-- whatever loading the problem of a vial raises -/
  | load
  /-- the process ends: undefined behaviour of the library -/
  | died
  deriving DecidableEq, Repr

/-- A vial: identifier, quota, and the remaining settings. -/
structure LabVial (U P : Type) where
  uuid : U
  quota : Int
  params : P
  deriving DecidableEq, Repr

/-- `Result`, result.py 12-20, without the time stamps. -/
structure StoredResult (U V : Type) where
  uuid : U
  result : LabResult V

/-- What `Result.read_from_json_file` finds in the directory of a vial, result.py 42-58. -/
inductive ResultFile (U V : Type) where
  /-- `FileNotFoundError` -/
  | absent
  /-- `json.JSONDecodeError`: an empty or truncated file -/
  | corrupt
  /-- the content is JSON but no `Result` -/
  | invalid
  | good (r : StoredResult U V)

/-- The result files of an experiment: one for every identifier. -/
abbrev Store (U V : Type) := U → ResultFile U V

variable {U V P : Type}

/-- `Lab.missing_vials`, lab.py 58-70. -/
def missingVials (s : Store U V) : List (LabVial U P) → Except LabError (List (LabVial U P))
  | [] => .ok []
  | v :: vs =>
    match s v.uuid with
    | .absent | .corrupt => (missingVials s vs).map (v :: ·)
    | .invalid => .error .validation
    | .good _ => missingVials s vs

/-- `Lab.infeasible_vials`, lab.py 72-86. -/
def infeasibleVials (s : Store U V) : List (LabVial U P) → Except LabError (List (LabVial U P))
  | [] => .ok []
  | v :: vs =>
    match s v.uuid with
    | .absent => infeasibleVials s vs
    | .corrupt => .error .jsonDecode
    | .invalid => .error .validation
    | .good r => if r.result.prize < v.quota then (infeasibleVials s vs).map (v :: ·) else infeasibleVials s vs

/-- `Lab.read_results_from_file`, lab.py 269-287. -/
def readResults (s : Store U V) : List (LabVial U P) → Except LabError (List (StoredResult U V))
  | [] => .ok []
  | v :: vs =>
    match s v.uuid with
    | .absent | .corrupt => readResults s vs
    | .invalid => .error .validation
    | .good r => (readResults s vs).map (r :: ·)

/-- How an attempt at a vial ends, lab.py 114-207. -/
inductive Attempt (U V : Type) where
  /-- loading the problem raises: nothing catches it, lab.py 114-175 -/
  | abort
  /-- the process ends -/
  | died
  /-- preprocessing or the algorithm raise: caught, lab.py 200-207 -/
  | failed
  /-- writing the result raises and leaves the file in some state: caught, but the result is already in the list -/
  | unwritten (r : LabResult V) (f : ResultFile U V)
  /-- the result is written -/
  | done (r : LabResult V)

/-- Change one file. -/
def setFile [DecidableEq U] (s : Store U V) (u : U) (f : ResultFile U V) : Store U V := fun u' => if u' = u then f else s u'

/-- Add a result to what the remaining vials return. -/
def consResult (r : StoredResult U V) (x : Store U V × Except LabError (List (StoredResult U V))) : Store U V × Except LabError (List (StoredResult U V)) :=
  (x.1, x.2.map (r :: ·))

/-- `Lab.run_experiment_from_vial_list`, lab.py 108-213: the files afterwards, and the list of results or the exception. -/
def runVials [DecidableEq U] (run : LabVial U P → Attempt U V) : List (LabVial U P) → Store U V → Store U V × Except LabError (List (StoredResult U V))
  | [], s => (s, .ok [])
  | v :: vs, s =>
    match run v with
    | .abort => (s, .error .load)
    | .died => (s, .error .died)
    | .failed => runVials run vs s
    | .unwritten r f => consResult ⟨v.uuid, r⟩ (runVials run vs (setFile s v.uuid f))
    | .done r => consResult ⟨v.uuid, r⟩ (runVials run vs (setFile s v.uuid (.good ⟨v.uuid, r⟩)))

/-- An index of a Python slice: negative numbers count from the end, and both ends are cut off. -/
def sliceIndex (n : Nat) (i : Int) : Nat := if i < 0 then (i + n).toNat else min i.toNat n

/-- `l[a:b]` -/
def pySlice {α : Type} (l : List α) (a b : Int) : List α := (l.take (sliceIndex l.length b)).drop (sliceIndex l.length a)

/-- The vials of a batch, lab.py 96-101. -/
def batchVials (s : Store U V) (vials : List (LabVial U P)) (start size : Int) (onlyMissing : Bool) : Except LabError (List (LabVial U P)) := do
  let stop := min (start + size) vials.length
  let l ← if onlyMissing then missingVials s vials else .ok vials
  .ok (pySlice l start stop)

/-- `Lab.run_batch`, lab.py 88-102. -/
def runBatch [DecidableEq U] (run : LabVial U P → Attempt U V) (vials : List (LabVial U P)) (start size : Int) (onlyMissing : Bool) (s : Store U V) :
    Store U V × Except LabError (List (StoredResult U V)) :=
  match batchVials s vials start size onlyMissing with
  | .error e => (s, .error e)
  | .ok l => runVials run l s

/-- `get_nbatches`, lab.py 290-292; `rnd` rounds to a floating point number. -/
def getNbatches (rnd : Rat → Rat) (n size : Int) : Except LabError Int :=
  if rnd size = 0 then .error .zeroDivision else .ok ⌈rnd (rnd n / rnd size)⌉

/-- Running batches with the given starts one after the other, each in a process of its own, so that an exception ends only its own batch: the array job of
`slurm`, pctsp/apps/main_app.py 291-313, when its tasks do not overlap. -/
def runBatches [DecidableEq U] (run : LabVial U P → Attempt U V) (vials : List (LabVial U P)) (size : Int) (onlyMissing : Bool) :
    List Int → Store U V → Store U V × List (Except LabError (List (StoredResult U V)))
  | [], s => (s, [])
  | a :: as, s =>
    let x := runBatch run vials a size onlyMissing s
    let y := runBatches run vials size onlyMissing as x.1
    (y.1, x.2 :: y.2)

/-- The starts of the array job: `start=$(($SLURM_ARRAY_TASK_ID * batch_size))` for the tasks `0` to `count - 1`, main_app.py 299-304. -/
def batchStarts (count : Nat) (size : Int) : List Int := (List.range count).map fun (i : Nat) => (i : Int) * size

/-- A row of the summary: the vial, its result, and the columns `feasible`, `objective` and `overshoot` (`none` is NaN). -/
structure SummaryRow (U V P : Type) where
  vial : LabVial U P
  result : StoredResult U V
  feasible : Bool
  objective : Option Int
  overshoot : Option Int

/-- The added columns, csv_app.py 39-47. -/
def summaryRow (v : LabVial U P) (r : StoredResult U V) : SummaryRow U V P :=
  let feasible := decide (v.quota ≤ r.result.prize)
  { vial := v, result := r, feasible, objective := if feasible then some r.result.objective else none,
    overshoot := if feasible then some (r.result.prize - v.quota) else none }

/-- `experiment_summary_df`, csv_app.py 29-48: an inner join of the vials and the results.  A table without rows has no columns, so the join raises. -/
def experimentSummary [DecidableEq U] (vials : List (LabVial U P)) (results : List (StoredResult U V)) : Except LabError (List (SummaryRow U V P)) :=
  if vials.isEmpty || results.isEmpty then .error .keyError
  else .ok (vials.flatMap fun v => (results.filter fun r => decide (r.uuid = v.uuid)).map (summaryRow v))

end Pctsp
