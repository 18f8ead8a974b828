import Verif.Model.Batch

/-!
# Python: the parameters of an experiment

Model of `product_of_model_params`, `product_of_preprocessing` and `product_of_vials`, pctsp/compare/product_of_params.py 119-206, and of the lists of
algorithms, pctsp/vial/model_params.py 50-59.
-/

namespace Pctsp

/-- `EXACT_ALGORITHMS`, model_params.py 50. -/
def exactAlgorithms : List AlgorithmName := [.solvePctsp]

/-- `HEURISTIC_ALGORITHMS`, model_params.py 51-58. -/
def heuristicAlgorithms : List AlgorithmName :=
  [.extension, .bfsExtensionCollapse, .bfsPathExtensionCollapse, .suurballesExtensionCollapse, .suurballesHeuristic, .suurballesPathExtensionCollapse]

/-- `RELAXATION_ALGORITHMS`, model_params.py 59. -/
def relaxationAlgorithms : List AlgorithmName := [.disjointToursRelaxation]

/-- The parameters of one algorithm, product_of_params.py 128-154.  Options that are left `None` and that only the exact algorithm reads are `false`. -/
def modelParamsOf (collapsePaths : Bool) (depthLimit stepSize : Int) (alg : AlgorithmName) : ModelParams :=
  let isExact := decide (alg ∈ exactAlgorithms)
  let heuristic : Option AlgorithmName := none
  let sets := decide (alg = .bfsExtensionCollapse ∨ heuristic = some .bfsExtensionCollapse)
  { algorithm := alg, isExact, isHeuristic := decide (alg ∈ heuristicAlgorithms), heuristic,
    collapsePaths := if sets then some collapsePaths else none,
    depthLimit := if sets then some depthLimit else none,
    stepSize := if sets then some stepSize else none,
    coverDisjoint := false, coverShortest := false, secDisjoint := isExact, secMaxflow := isExact }

/-- `product_of_model_params`, product_of_params.py 119-156. -/
def productOfModelParams (algs : List AlgorithmName) (collapsePaths : Bool) (depthLimit stepSize : Int) : List ModelParams :=
  algs.map (modelParamsOf collapsePaths depthLimit stepSize)

/-- `itertools.product` of three lists: the last one changes fastest. -/
def product3 {α β γ : Type} (as : List α) (bs : List β) (cs : List γ) : List (α × β × γ) :=
  as.flatMap fun a => bs.flatMap fun b => cs.map fun c => (a, b, c)

/-- `product_of_vials`, product_of_params.py 187-206; `uuid i` is the identifier that the `i`-th call of `uuid4` returns, `quotaOf` the quota of the data. -/
def productOfVials {U α β γ : Type} (uuid : Nat → U) (quotaOf : α → Int) (as : List α) (bs : List β) (cs : List γ) : List (LabVial U (α × β × γ)) :=
  (product3 as bs cs).zipIdx.map fun x => ⟨uuid x.2, quotaOf x.1.1, x.1⟩

/-- How an attempt at a vial ends whose problem has been loaded and whose result can be written: exceptions are caught, lab.py 177-207. -/
def attemptOf {U V : Type} (r : Res (Option ScipStatus × LabResult V)) : Attempt U V :=
  match r with
  | .ok a => .done a.2
  | .throw _ => .failed
  | .ub _ => .died

end Pctsp
