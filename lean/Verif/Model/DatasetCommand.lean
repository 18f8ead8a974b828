import Verif.Model.Load
import Verif.Model.Experiments
import Mathlib.Data.Rat.Defs

/-!
# Python: the statistics of a whole dataset

Model of the commands `dataset stats` and `tables dataset`: pctsp/apps/dataset_app.py 42-110 and pctsp/apps/tables_app.py 93-145.  Reading a file, removing edges
and changing costs are the functions of `LoadEnv`, as for the experiments; the statistics of one instance are a parameter (`datasetStats` is a model of them).
Writing and reading a CSV file is taken to lose nothing.
-/

namespace Pctsp

/-- What names a row of the file: the graph alone (londonaq, line 65), or graph, generation, cost function and kappa (tspwplib, lines 98-101). -/
structure StatsKey where
  name : GraphName
  generation : Option Nat
  cost : Option CostFunction
  kappa : Option Int
  deriving DecidableEq, Repr

/-- The loops over the instances, dataset_app.py 54 and 68-73. -/
def statsKeys (gens : List Nat) (dataset : DatasetName) : List StatsKey :=
  match dataset with
  | .londonaq => londonaqNames.map fun n => ⟨n, none, none, none⟩
  | .tspwplib => tsplibNames.flatMap fun n => gens.flatMap fun g => tsplibCosts.flatMap fun c => tsplibKappas.map fun k => ⟨n, some g, some c, k⟩

variable {V S : Type} [DecidableEq V]

/-- The graph of a londonaq file, dataset_app.py 56-60: a vertex without a demand or an edge without a weight raises `KeyError`. -/
def statsLondonaq (g : RawGraph V) : Option (AttrGraph V) :=
  if g.edges.all fun e => (g.weight e).isSome then
    match renameDemand g.demand g.nodes (fun _ => none) with
    | (prize, false) => some ⟨g.nodes, prize, g.edges, g.weight⟩
    | (_, true) => none
  else none

/-- `if cost == EdgeWeightType.MST`, dataset_app.py 93-95. -/
def statsCost {N : Type} (env : LoadEnv N V) (cost : Option CostFunction) (g : AttrGraph V) : Option (AttrGraph V) :=
  if cost = some .mst then (env.mst g).map (setEdgeCosts g) else some g

/-- The graph of a tspwplib problem, dataset_app.py 87-95: the scores are the prizes, `sparsify_uid` is called for every kappa (with `None` it raises). -/
def statsTspwplib {N : Type} (env : LoadEnv N V) (k : StatsKey) (g : RawGraph V) (score : V → Option Int) : Option (AttrGraph V) :=
  if g.edges.all fun e => (g.weight e).isSome then do
    let kappa ← k.kappa
    let i ← env.sparsify ⟨g.nodes, fun v => if v ∈ g.nodes then score v else none, g.edges, g.weight⟩ kappa
    statsCost env k.cost i
  else none

/-- The instance that a row is about. -/
def statsInstance (env : LoadEnv (GraphName × Option Nat) V) (dataset : DatasetName) (k : StatsKey) : Option (AttrGraph V) :=
  match dataset with
  | .londonaq => (env.londonaq (k.name, k.generation)).bind statsLondonaq
  | .tspwplib => (env.oplib (k.name, k.generation)).bind fun x => statsTspwplib env k x.1 x.2

/-- One turn of the loops. -/
def statsRow (env : LoadEnv (GraphName × Option Nat) V) (stats : AttrGraph V → Int → Option S) (root : StatsKey → Int) (dataset : DatasetName) (k : StatsKey) :
    Option (StatsKey × S) :=
  ((statsInstance env dataset k).bind fun i => stats i (root k)).map fun s => (k, s)

/-- `stats_of_dataset`, dataset_app.py 42-110: the file before and afterwards, and whether the command ended without an exception.  `stats` is `none` if
`get_graph_stats` raises. -/
def statsOfDataset (env : LoadEnv (GraphName × Option Nat) V) (stats : AttrGraph V → Int → Option S) (root : StatsKey → Int) (gens : List Nat)
    (dataset : DatasetName) (file : Option (List (StatsKey × S))) : Option (List (StatsKey × S)) × Bool :=
  match (statsKeys gens dataset).mapM (statsRow env stats root dataset) with
  | none => (file, false)
  | some rows => (some rows, true)

/-- `np.mean` of a group. -/
def groupMean (l : List Rat) : Rat := l.sum / l.length

/-- `df.groupby(["cost_function", "kappa"])` and `np.mean`, tables_app.py 122-125: the number in the row of a kappa, in the column of a cost function and a
measure (`none`, shown as NaN, if the group is empty). -/
def datasetCell (measure : S → Rat) (rows : List (StatsKey × S)) (cost : CostFunction) (kappa : Int) : Option Rat :=
  match (rows.filter fun x => decide (x.1.cost = some cost ∧ x.1.kappa = some kappa)).map fun x => measure x.2 with
  | [] => none
  | l => some (groupMean l)

end Pctsp
