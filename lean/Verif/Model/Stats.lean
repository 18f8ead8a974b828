import Verif.Model.Res

/-!
# Summary statistics and the time stamps of the bounds

Model of src/stats.cpp 5-43 and of `timePointToString` (src/event_handlers.cpp 101-111).
-/

namespace Pctsp

/-- `SummaryStats`, stats.hh 12-24; the status is its integer. -/
structure SummaryStats (D : Type) where
  status : Int
  lowerBound : D
  upperBound : D
  numCostCoverDisjointPaths : Nat
  numCostCoverShortestPaths : Nat
  nconssPresolveDisjointPaths : Nat
  nconssPresolveShortestPaths : Nat
  numCycleCover : Nat
  numNodes : Int
  numSecDisjointTour : Nat
  numSecMaxflowMincut : Nat
  deriving DecidableEq, Repr

/-- A scalar of a YAML document.  The text of a scalar is left out: an integer, a counter or a `double` that is written is the one
that is read. -/
inductive Scalar (D : Type) where
  | int (i : Int)
  | nat (n : Nat)
  | num (d : D)
  deriving DecidableEq, Repr

/-- A YAML map. -/
abbrev Yaml (D : Type) := List (String × Scalar D)

variable {D : Type}

/-- `node[key]`. -/
def Yaml.get (y : Yaml D) (key : String) : Option (Scalar D) := (y.find? fun p => p.1 == key).map (·.2)

/-- The document of `writeSummaryStatsToYaml`, stats.cpp 7-18. -/
def SummaryStats.toYaml (s : SummaryStats D) : Yaml D :=
  [("status", .int s.status), ("lower_bound", .num s.lowerBound), ("upper_bound", .num s.upperBound),
   ("num_cost_cover_disjoint_paths", .nat s.numCostCoverDisjointPaths),
   ("num_cost_cover_shortest_paths", .nat s.numCostCoverShortestPaths),
   ("nconss_presolve_disjoint_paths", .nat s.nconssPresolveDisjointPaths),
   ("nconss_presolve_shortest_paths", .nat s.nconssPresolveShortestPaths),
   ("num_cycle_cover", .nat s.numCycleCover), ("num_nodes", .int s.numNodes),
   ("num_sec_disjoint_tour", .nat s.numSecDisjointTour), ("num_sec_maxflow_mincut", .nat s.numSecMaxflowMincut)]

/-- A place in the file system: whether the parent path exists (`exists("")` is false for a bare file name) and the content. -/
structure Place (D : Type) where
  parent : Bool
  content : Option (Yaml D)

/-- `writeSummaryStatsToYaml`, stats.cpp 5-22: silently does nothing if the parent path does not exist. -/
def writeSummary (s : SummaryStats D) (p : Place D) : Place D :=
  if p.parent then { p with content := some s.toYaml } else p

/-- How reading a file can fail. -/
inductive ReadError where
  | fileDoesNotExist
  | badConversion (key : String)
  deriving DecidableEq, Repr

/-- `node[key].as<unsigned int>()`. -/
def Yaml.asNat (y : Yaml D) (key : String) : Except ReadError Nat :=
  match y.get key with
  | some (.nat n) => .ok n
  | some (.int i) => if 0 ≤ i then .ok i.toNat else .error (.badConversion key)
  | _ => .error (.badConversion key)

/-- `node[key].as<int>()` and `.as<long long>()`. -/
def Yaml.asInt (y : Yaml D) (key : String) : Except ReadError Int :=
  match y.get key with
  | some (.nat n) => .ok n
  | some (.int i) => .ok i
  | _ => .error (.badConversion key)

/-- `node[key].as<double>()`. -/
def Yaml.asNum (y : Yaml D) (key : String) : Except ReadError D :=
  match y.get key with
  | some (.num d) => .ok d
  | _ => .error (.badConversion key)

/-- `readSummaryStatsFromYaml`, stats.cpp 24-43: the aggregate is filled by position. -/
def readSummary (p : Place D) : Except ReadError (SummaryStats D) :=
  match p.content with
  | none => .error .fileDoesNotExist
  | some y => do
    let status ← y.asInt "status"
    let lb ← y.asNum "lower_bound"
    let ub ← y.asNum "upper_bound"
    let a ← y.asNat "num_cost_cover_disjoint_paths"
    let b ← y.asNat "nconss_presolve_disjoint_paths"
    let c ← y.asNat "num_cost_cover_shortest_paths"
    let d ← y.asNat "nconss_presolve_shortest_paths"
    let cc ← y.asNat "num_cycle_cover"
    let nodes ← y.asInt "num_nodes"
    let sd ← y.asNat "num_sec_disjoint_tour"
    let sm ← y.asNat "num_sec_maxflow_mincut"
    pure ⟨status, lb, ub, a, b, c, d, cc, nodes, sd, sm⟩

/-- `SummaryStats.from_yaml` of pctsp/algorithms/data_structures.py: the fields are filled by name.  (Python integers are
signed, so it accepts negative counters, which the C++ code never writes; here they are rejected.) -/
def readSummaryPy (p : Place D) : Except ReadError (SummaryStats D) :=
  match p.content with
  | none => .error .fileDoesNotExist
  | some y => do
    let status ← y.asInt "status"
    let lb ← y.asNum "lower_bound"
    let ub ← y.asNum "upper_bound"
    let a ← y.asNat "num_cost_cover_disjoint_paths"
    let b ← y.asNat "num_cost_cover_shortest_paths"
    let c ← y.asNat "nconss_presolve_disjoint_paths"
    let d ← y.asNat "nconss_presolve_shortest_paths"
    let cc ← y.asNat "num_cycle_cover"
    let nodes ← y.asInt "num_nodes"
    let sd ← y.asNat "num_sec_disjoint_tour"
    let sm ← y.asNat "num_sec_maxflow_mincut"
    pure ⟨status, lb, ub, a, b, c, d, cc, nodes, sd, sm⟩

/-- The fractional part of a time stamp, `"." + std::to_string(ms.count())`, event_handlers.cpp 103 and 109: the decimal digits of the
milliseconds (`ms < 1000` for times since 1970), without leading zeros. -/
def fractionDigits (ms : Nat) : List Nat :=
  if ms < 10 then [ms] else if ms < 100 then [ms / 10, ms % 10] else [ms / 100, ms / 10 % 10, ms % 10]

end Pctsp
