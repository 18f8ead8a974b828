import Verif.Model.Params
import Verif.Model.Preprocess

/-!
# Python: the experiments

Model of the experiments that the command line offers: pctsp/vial/experiment.py, pctsp/vial/data_config.py, the files in pctsp/compare and
pctsp/apps/main_app.py 86-192.  Reading the instances is a parameter (`Instances`): all files are taken to be there.  `list(Generation)` of the package
tspwplib is the parameter `gens`.  The seconds of a time limit are whole numbers.
-/

namespace Pctsp

/-- `DatasetName`, data_config.py 10-15. -/
inductive DatasetName where
  | londonaq | tspwplib
  deriving DecidableEq, Repr

/-- `ExperimentName`, experiment.py 10-24. -/
inductive ExperimentName where
  | baseline | costCover | disjointToursVsHeuristics | ccLondonaqAlpha | dryrun | compareHeuristics | londonaqAlpha | onerun | simpleBranchCut | tailingOff
  deriving DecidableEq, Repr

/-- The graph names that the experiments use, of `GraphName` and of `LondonaqGraphName`. -/
inductive GraphName where
  | eil51 | st70 | rat195 | tsp225 | a280 | pr439 | rat575 | gr666 | pr1002 | pr152 | gr229 | laqbbA | laqidA | laqkxA | laqwsA | laqtinyA
  deriving DecidableEq, Repr

/-- `EdgeWeightType`, as far as the experiments use it; the one of a file is `ofFile`. -/
inductive CostFunction where
  | euc2d | mst | ofFile (name : GraphName)
  deriving DecidableEq, Repr

/-- `DataConfig`, data_config.py 21-32. -/
structure DataConfig where
  dataset : DatasetName
  costFunction : CostFunction
  graphName : GraphName
  quota : Int
  root : Int
  alpha : Option Int
  generation : Option Nat
  kappa : Option Int
  triangle : Option Int
  deriving DecidableEq, Repr

/-- What the experiments read from the files: the quota for a percentage `alpha`, and the root. -/
structure Instances where
  oplibQuota : Nat → GraphName → Int → Int
  oplibRoot : Nat → GraphName → Int
  laqQuota : GraphName → Int → Int
  laqRoot : GraphName → Int

deriving instance DecidableEq for ModelParams
deriving instance DecidableEq for PreprocessFlags

/-- The options of `ModelParams` that only SCIP sees, model_params.py 77-92; `none` if they are left `None`. -/
structure SearchParams where
  branchingMaxDepth : Int
  branchingStrategy : Nat
  maxTailingOff : Int
  timeLimit : Nat
  deriving DecidableEq, Repr

/-- All parameters of an algorithm. -/
structure RunParams where
  model : ModelParams
  search : Option SearchParams
  deriving DecidableEq

/-- `kappa if kappa else None`. -/
def kappaOf (kappa : Option Int) : Option Int :=
  match kappa with
  | none => none
  | some k => if k = 0 then none else some k

/-- `product_of_tspwplib_data_config`, product_of_params.py 33-65. -/
def productOfTspwplib (I : Instances) (alphas : List Int) (kappas : List (Option Int)) (gens : List Nat) (names : List GraphName)
    (costs : List CostFunction) : List DataConfig :=
  alphas.flatMap fun a => kappas.flatMap fun k => gens.flatMap fun g => names.flatMap fun n => costs.map fun c =>
    { dataset := .tspwplib, costFunction := c, graphName := n, quota := I.oplibQuota g n a, root := I.oplibRoot g n, alpha := some a,
      generation := some g, kappa := kappaOf k, triangle := some 0 }

/-- `product_of_londonaq_data_config`, product_of_params.py 68-90. -/
def productOfLondonaq (I : Instances) (quotas : List Int) (names : List GraphName) : List DataConfig :=
  quotas.flatMap fun q => names.map fun n =>
    { dataset := .londonaq, costFunction := .ofFile n, graphName := n, quota := q, root := I.laqRoot n, alpha := none, generation := none, kappa := none,
      triangle := none }

/-- `product_of_londonaq_data_config_from_alpha`, product_of_params.py 93-116. -/
def productOfLondonaqAlpha (I : Instances) (alphas : List Int) (names : List GraphName) : List DataConfig :=
  alphas.flatMap fun a => names.map fun n =>
    { dataset := .londonaq, costFunction := .ofFile n, graphName := n, quota := I.laqQuota n a, root := I.laqRoot n, alpha := some a, generation := none,
      kappa := none, triangle := none }

/-- `product_of_preprocessing`, product_of_params.py 159-184. -/
def productOfPreprocessing (disconnected leaves oneConnected : List Bool) : List PreprocessFlags :=
  (product3 disconnected leaves oneConnected).map fun x =>
    { removeDisconnected := x.1, removeLeaves := x.2.1, removeOneConnected := x.2.2, shortestPathCutoff := false, disjointPathCutoff := false }

/-- `FOUR_HOURS`, `SEC_MAX_TAILING_OFF_ITER`, `STRONG_BRANCHING_MAX_DEPTH`, constants.py 7-16. -/
def fourHours : Nat := 60 * 60 * 4
def secMaxTailingOffIter : Int := 5
def strongBranchingMaxDepth : Int := 1

/-- `product_of_model_params` with the options that only SCIP sees, product_of_params.py 119-156. -/
def productOfRunParams (algs : List AlgorithmName) (timeLimit : Nat) : List RunParams :=
  (productOfModelParams algs false 2 1).map fun mp => ⟨mp, if mp.isExact then some ⟨-1, 0, -1, timeLimit⟩ else none⟩

/-- The lists of params.py 7-35. -/
def londonaqQuotas : List Int := [1000, 2000, 3000, 4000, 5000]
def londonaqNames : List GraphName := [.laqbbA, .laqidA, .laqkxA, .laqwsA]
def tsplibAlphas : List Int := [5, 10, 25, 50, 75]
def tsplibCosts : List CostFunction := [.euc2d, .mst]
def tsplibKappas : List (Option Int) := [some 5, some 10, some 15, some 20, some 25]
def tsplibNames : List GraphName := [.eil51, .st70, .rat195, .tsp225, .a280, .pr439, .rat575, .gr666, .pr1002]

/-- What a vial consists of besides its identifier. -/
abbrev Trial := DataConfig × RunParams × PreprocessFlags

/-- The combinations of which `product_of_vials` makes vials (`productOfVials`). -/
def trials (data : List DataConfig) (params : List RunParams) : List Trial :=
  product3 data params (productOfPreprocessing [false] [false] [true])

/-- The data of `cost_cover`, `baseline` and `compare_heuristics`, exact_experiment.py 203-221, 250-266, heuristic_experiment.py 88-107. -/
def defaultData (I : Instances) (gens : List Nat) (dataset : DatasetName) : List DataConfig :=
  match dataset with
  | .tspwplib => productOfTspwplib I tsplibAlphas tsplibKappas gens tsplibNames tsplibCosts
  | .londonaq => productOfLondonaq I londonaqQuotas londonaqNames

/-- `simple_branch_cut`, exact_experiment.py 33-57. -/
def simpleBranchCut (I : Instances) (dataset : DatasetName) : Res (List Trial) :=
  match dataset with
  | .tspwplib => .ok (trials (productOfTspwplib I [25, 50, 75] [none, some 10, some 20, some 30] [1, 2, 3] [.st70, .rat195, .pr152, .gr229] tsplibCosts)
      (productOfRunParams [.bfsExtensionCollapse, .suurballesHeuristic, .solvePctsp] fourHours))
  | .londonaq => .throw .valueError

/-- An exact algorithm with the options that all these experiments share, exact_experiment.py 98-117, 134-197, 272-291. -/
def exactRun (heuristic : AlgorithmName) (collapse : Bool) (step : Int) (disjoint shortest : Bool) (strategy : Nat) (tailing : Int) : RunParams :=
  ⟨{ algorithm := .solvePctsp, isExact := true, isHeuristic := false, heuristic := some heuristic, collapsePaths := some collapse, depthLimit := none,
     stepSize := some step, coverDisjoint := disjoint, coverShortest := shortest, secDisjoint := true, secMaxflow := true },
   some ⟨strongBranchingMaxDepth, strategy, tailing, fourHours⟩⟩

/-- The parameters of `tailing_off`, exact_experiment.py 89-118. -/
def tailingOffParams : List RunParams :=
  [2, 4].flatMap fun strategy => [-1, secMaxTailingOffIter, 10].map fun tailing =>
    exactRun .suurballesPathExtensionCollapse true 10 true false strategy tailing

/-- `tailing_off`, exact_experiment.py 60-121. -/
def tailingOff (I : Instances) (gens : List Nat) (dataset : DatasetName) : Res (List Trial) :=
  match dataset with
  | .tspwplib => .ok (trials (productOfTspwplib I [25, 75] [some 10, some 20] gens tsplibNames tsplibCosts) tailingOffParams)
  | .londonaq => .ok (trials (productOfLondonaq I londonaqQuotas londonaqNames) tailingOffParams)

/-- `__get_cc_params`, exact_experiment.py 124-198. -/
def costCoverParams : List RunParams :=
  [exactRun .suurballesPathExtensionCollapse true 10 false false 2 secMaxTailingOffIter,
   exactRun .suurballesPathExtensionCollapse true 10 true false 2 secMaxTailingOffIter,
   exactRun .suurballesPathExtensionCollapse true 10 false true 2 secMaxTailingOffIter]

/-- `cost_cover`, exact_experiment.py 201-224. -/
def costCover (I : Instances) (gens : List Nat) (dataset : DatasetName) : Res (List Trial) :=
  .ok (trials (defaultData I gens dataset) costCoverParams)

/-- `cc_londonaq_alpha`, exact_experiment.py 227-239. -/
def ccLondonaqAlpha (I : Instances) (dataset : DatasetName) : Res (List Trial) :=
  if dataset ≠ .londonaq then .throw .valueError
  else .ok (trials (productOfLondonaqAlpha I tsplibAlphas londonaqNames) costCoverParams)

/-- `baseline`, exact_experiment.py 242-296. -/
def baseline (I : Instances) (gens : List Nat) (dataset : DatasetName) : Res (List Trial) :=
  .ok (trials (defaultData I gens dataset) [exactRun .bfsExtensionCollapse false 1 false false 2 secMaxTailingOffIter])

/-- The parameters of a heuristic, heuristic_experiment.py 27-68. -/
def heuristicRun (alg : AlgorithmName) (collapse : Option Bool) (depth step : Option Int) : RunParams :=
  ⟨{ algorithm := alg, isExact := false, isHeuristic := true, heuristic := none, collapsePaths := collapse, depthLimit := depth, stepSize := step,
     coverDisjoint := false, coverShortest := false, secDisjoint := false, secMaxflow := false }, none⟩

/-- `get_all_heuristic_params`, heuristic_experiment.py 24-69. -/
def heuristicParams : List RunParams :=
  [heuristicRun .bfsExtensionCollapse (some false) (some 2) (some 1), heuristicRun .bfsPathExtensionCollapse (some true) none (some 10),
   heuristicRun .suurballesExtensionCollapse (some false) (some 2) (some 1), heuristicRun .suurballesPathExtensionCollapse (some true) none (some 10),
   heuristicRun .suurballesHeuristic none none none]

/-- `londonaq_alpha`, heuristic_experiment.py 73-83: the data set is not tested. -/
def londonaqAlpha (I : Instances) (_dataset : DatasetName) : Res (List Trial) :=
  .ok (trials (productOfLondonaqAlpha I tsplibAlphas londonaqNames) heuristicParams)

/-- `compare_heuristics`, heuristic_experiment.py 86-111. -/
def compareHeuristics (I : Instances) (gens : List Nat) (dataset : DatasetName) : Res (List Trial) :=
  .ok (trials (defaultData I gens dataset) heuristicParams)

/-- `disjoint_tours_vs_heuristics`, relaxation_experiment.py 25-51. -/
def disjointToursVsHeuristics (I : Instances) (dataset : DatasetName) : Res (List Trial) :=
  match dataset with
  | .tspwplib => .ok (trials (productOfTspwplib I [25, 50, 75] [some 5, some 10, some 15, some 20] [1, 2, 3] [.st70, .rat195, .a280] [.euc2d])
      (productOfRunParams [.disjointToursRelaxation, .bfsExtensionCollapse, .suurballesHeuristic] fourHours))
  | .londonaq => .throw .valueError

/-- `dryrun`, dryrun_experiment.py 25-58. -/
def dryrun (I : Instances) (dataset : DatasetName) : Res (List Trial) :=
  let params := productOfRunParams [.bfsExtensionCollapse, .suurballesHeuristic, .solvePctsp] 10
  match dataset with
  | .tspwplib => .ok (trials (productOfTspwplib I [50] [some 10] [1] [.st70] [.euc2d]) params)
  | .londonaq => .ok (trials (productOfLondonaq I [200] [.laqtinyA]) params)

/-- `tsplib_experiment_lookup`, main_app.py 86-94. -/
def tsplibLookup (I : Instances) (gens : List Nat) : List (ExperimentName × (DatasetName → Res (List Trial))) :=
  [(.baseline, baseline I gens), (.compareHeuristics, compareHeuristics I gens), (.costCover, costCover I gens),
   (.disjointToursVsHeuristics, disjointToursVsHeuristics I), (.dryrun, dryrun I), (.simpleBranchCut, simpleBranchCut I), (.tailingOff, tailingOff I gens)]

/-- `londonaq_experiment_lookup`, main_app.py 96-104. -/
def londonaqLookup (I : Instances) (gens : List Nat) : List (ExperimentName × (DatasetName → Res (List Trial))) :=
  [(.baseline, baseline I gens), (.compareHeuristics, compareHeuristics I gens), (.costCover, costCover I gens), (.ccLondonaqAlpha, ccLondonaqAlpha I),
   (.dryrun, dryrun I), (.londonaqAlpha, londonaqAlpha I), (.tailingOff, tailingOff I gens)]

/-- `select_root_and_lookup`, main_app.py 107-127, without the directory. -/
def selectLookup (I : Instances) (gens : List Nat) (dataset : DatasetName) (name : ExperimentName) :
    Res (List (ExperimentName × (DatasetName → Res (List Trial)))) :=
  if dataset = .tspwplib ∧ name ∉ (tsplibLookup I gens).map (·.1) then .throw .valueError
  else if dataset = .londonaq then
    if name ∉ (londonaqLookup I gens).map (·.1) then .throw .valueError else .ok (londonaqLookup I gens)
  else .ok (tsplibLookup I gens)

/-- `lookup[experiment_name](dataset, root_dir)`, main_app.py 138-144 and 175-181: the vials of the commands `lab` and `setup`. -/
def experimentTrials (I : Instances) (gens : List Nat) (dataset : DatasetName) (name : ExperimentName) : Res (List Trial) := do
  let lookup ← selectLookup I gens dataset name
  match lookup.find? fun x => decide (x.1 = name) with
  | none => .throw .keyError
  | some x => x.2 dataset

end Pctsp
