import Verif.Model.Experiments

/-!
# Python: the commands that run one algorithm

Model of the settings that the commands `londonaq` and `tsplib` build from their options, pctsp/apps/main_app.py 405-594.
-/

namespace Pctsp

/-- The options of the command `tsplib` that concern the algorithm, main_app.py 501-523. -/
structure TsplibOptions where
  branchingMaxDepth : Int
  collapsePaths : Bool
  coverDisjoint : Bool
  coverShortest : Bool
  heuristic : Option AlgorithmName
  depthLimit : Int
  removeLeaves : Bool
  maxTailingOff : Int
  stepSize : Int
  timeLimit : Nat
  deriving DecidableEq, Repr

/-- The defaults, main_app.py 501-523 and options.py 27-36. -/
def tsplibDefaults : TsplibOptions :=
  { branchingMaxDepth := strongBranchingMaxDepth, collapsePaths := false, coverDisjoint := true, coverShortest := false, heuristic := none, depthLimit := 2,
    removeLeaves := false, maxTailingOff := secMaxTailingOffIter, stepSize := 1, timeLimit := fourHours }

/-- The parameters before the options are set, main_app.py 441-447 and 546-552. -/
def blankParams (alg : AlgorithmName) : ModelParams :=
  { algorithm := alg, isExact := decide (alg ∈ exactAlgorithms), isHeuristic := decide (alg ∈ heuristicAlgorithms), heuristic := none, collapsePaths := none,
    depthLimit := none, stepSize := none, coverDisjoint := false, coverShortest := false, secDisjoint := false, secMaxflow := false }

/-- The parameters of the command `tsplib`, main_app.py 546-570. -/
def tsplibParams (o : TsplibOptions) (alg : AlgorithmName) : RunParams :=
  let mp := blankParams alg
  let mp := if mp.isExact then
      { mp with coverDisjoint := o.coverDisjoint, coverShortest := o.coverShortest, heuristic := o.heuristic, secDisjoint := true, secMaxflow := true }
    else mp
  let search : Option SearchParams := if mp.isExact then some ⟨o.branchingMaxDepth, 2, o.maxTailingOff, o.timeLimit⟩ else none
  let mp := if mp.algorithm = .bfsExtensionCollapse ∨ mp.heuristic = some .bfsExtensionCollapse then
      { mp with collapsePaths := some o.collapsePaths, depthLimit := some o.depthLimit, stepSize := some o.stepSize }
    else mp
  ⟨mp, search⟩

/-- The preprocessing of the command `tsplib`, main_app.py 571-577. -/
def tsplibFlags (removeLeaves : Bool) : PreprocessFlags :=
  { removeDisconnected := false, removeLeaves, removeOneConnected := false, shortestPathCutoff := false, disjointPathCutoff := false }

/-- The parameters of the command `londonaq`, main_app.py 441-458. -/
def londonaqParams (coverDisjoint coverShortest : Bool) (timeLimit : Nat) (alg : AlgorithmName) : RunParams :=
  let mp := blankParams alg
  let mp' := if mp.isExact then { mp with coverDisjoint, coverShortest, secDisjoint := true, secMaxflow := true } else mp
  ⟨mp', if mp.isExact then some ⟨strongBranchingMaxDepth, 2, -1, timeLimit⟩ else none⟩

/-- The preprocessing of the command `londonaq`, main_app.py 459-465. -/
def londonaqFlags (removeLeaves : Bool) : PreprocessFlags :=
  { removeDisconnected := false, removeLeaves, removeOneConnected := true, shortestPathCutoff := false, disjointPathCutoff := false }

end Pctsp
