import Verif.Model.Batch
import Verif.Model.Wrappers

/-!
# Python: loading the instance of a vial

Model of the first part of the loop of `Lab.run_experiment_from_vial_list`, pctsp/lab/lab.py 114-166.  The local variable `problem` keeps its value from
one vial to the next.  Reading the files, `sparsify_uid` and the cost functions of tspwplib are parameters; `none` means that they raise.
`rename_edge_attributes` and `rename_node_attributes` of tspwplib go through the edges or vertices in order and raise `KeyError` at the first one without
the attribute.  Logging is left out.
-/

namespace Pctsp

/-- `DatasetName`, pctsp/vial/data_config.py 10-15. -/
inductive DataSource where
  | londonaq | tspwplib
  deriving DecidableEq, Repr

/-- The cost functions that lab.py 157-166 tells apart. -/
inductive CostKind where
  | uniformRandom | mst | semiMst | other
  deriving DecidableEq, Repr

/-- The fields of `DataConfig` that are read, pctsp/vial/data_config.py 21-32; `name` is the graph name and the generation. -/
structure DataConf (N : Type) where
  dataset : DataSource
  name : N
  kappa : Option Int
  costFunction : CostKind

/-- The graph of `tsp.get_graph()`: attributes `demand` and `weight`, which a vertex or an edge may lack. -/
structure RawGraph (V : Type) where
  nodes : List V
  demand : V → Option Int
  edges : List (V × V)
  weight : V × V → Option Int

/-- What loading calls. -/
structure LoadEnv (N V : Type) where
  /-- `oplib_root` is given, exists and is a directory -/
  oplibRoot : Bool
  /-- `londonaq_root` is given and exists -/
  londonaqRoot : Bool
  /-- the graph of the problem and `problem.get_node_score()` -/
  oplib : N → Option (RawGraph V × (V → Option Int))
  /-- the graph of the yaml file -/
  londonaq : N → Option (RawGraph V)
  /-- `sparsify_uid(graph, kappa)` -/
  sparsify : AttrGraph V → Int → Option (AttrGraph V)
  /-- `uniform_random_cost(list(graph.edges()))` -/
  uniformRandom : List (V × V) → Option (List ((V × V) × Int))
  /-- `mst_cost(graph, cost_attr="cost")` -/
  mst : AttrGraph V → Option (List ((V × V) × Int))
  /-- `semi_mst_cost(graph, cost_attr="cost")` -/
  semiMst : AttrGraph V → Option (List ((V × V) × Int))

variable {N U V P : Type}

/-- `rename_node_attributes(graph, {"demand": "prize"}, del_old_attr=True)`, lab.py 148: the prizes, and whether it raises `KeyError`. -/
def renameDemand [DecidableEq V] (demand : V → Option Int) : List V → (V → Option Int) → (V → Option Int) × Bool
  | [], prize => (prize, false)
  | v :: vs, prize =>
    match demand v with
    | none => (prize, true)
    | some d => renameDemand demand vs (fun u => if u = v then some d else prize u)

/-- The prizes, lab.py 147-150; `problem` is the local variable, of which only the scores matter.  `none` if it has not been assigned. -/
def loadPrizes [DecidableEq V] (g : RawGraph V) (problem : Option (V → Option Int)) : Option (V → Option Int) :=
  match renameDemand g.demand g.nodes (fun _ => none) with
  | (prize, false) => some prize
  | (prize, true) =>
    match problem with
    | none => none
    | some score => some fun v => if v ∈ g.nodes then (score v).or (prize v) else none

/-- `nx.set_edge_attributes(graph, new, name="cost")`: an edge may be named in either direction, and the last entry counts. -/
def setEdgeCosts [DecidableEq V] (g : AttrGraph V) (new : List ((V × V) × Int)) : AttrGraph V :=
  { g with cost := fun e => (((new.reverse.find? fun c => decide (c.1 = e ∨ c.1 = (e.2, e.1))).map Prod.snd).or (g.cost e)) }

/-- The cost function, lab.py 156-166. -/
def changeCosts [DecidableEq V] (env : LoadEnv N V) (f : CostKind) (g : AttrGraph V) : Option (AttrGraph V) :=
  match f with
  | .uniformRandom => (env.uniformRandom g.edges).map (setEdgeCosts g)
  | .mst => (env.mst g).map (setEdgeCosts g)
  | .semiMst => (env.semiMst g).map (setEdgeCosts g)
  | .other => some g

/-- Removing edges, lab.py 152-154: `if data_config.kappa:`. -/
def removeEdges (env : LoadEnv N V) (kappa : Option Int) (g : AttrGraph V) : Option (AttrGraph V) :=
  match kappa with
  | none => some g
  | some k => if k = 0 then some g else env.sparsify g k

/-- The instance of a graph that has been read, lab.py 143-166. -/
def instanceOf [DecidableEq V] (env : LoadEnv N V) (problem : Option (V → Option Int)) (c : DataConf N) (g : RawGraph V) : Option (AttrGraph V) :=
  if g.edges.all fun e => (g.weight e).isSome then do
    let prize ← loadPrizes g problem
    let g ← removeEdges env c.kappa ⟨g.nodes, prize, g.edges, g.weight⟩
    changeCosts env c.costFunction g
  else none

/-- The instance of a vial and the variable `problem` afterwards, lab.py 115-166.  `none` if an exception leaves the loop. -/
def loadVial [DecidableEq V] (env : LoadEnv N V) (problem : Option (V → Option Int)) (c : DataConf N) : Option (AttrGraph V × Option (V → Option Int)) :=
  match c.dataset with
  | .tspwplib =>
    if env.oplibRoot then do
      let (g, score) ← env.oplib c.name
      let i ← instanceOf env (some score) c g
      pure (i, some score)
    else none
  | .londonaq =>
    if env.londonaqRoot then do
      let g ← env.londonaq c.name
      let i ← instanceOf env problem c g
      pure (i, problem)
    else none

/-- `Lab.run_experiment_from_vial_list`, lab.py 108-213, with the loading of the instances: `attempt` is preprocessing, running and writing. -/
def runVialsLoading [DecidableEq U] [DecidableEq V] (env : LoadEnv N V) (conf : LabVial U P → DataConf N)
    (attempt : LabVial U P → AttrGraph V → Attempt U V) :
    List (LabVial U P) → Option (V → Option Int) → Store U V → Store U V × Except LabError (List (StoredResult U V))
  | [], _, s => (s, .ok [])
  | v :: vs, problem, s =>
    match loadVial env problem (conf v) with
    | none => (s, .error .load)
    | some (g, problem) =>
      match attempt v g with
      | .abort => (s, .error .load)
      | .died => (s, .error .died)
      | .failed => runVialsLoading env conf attempt vs problem s
      | .unwritten r f => consResult ⟨v.uuid, r⟩ (runVialsLoading env conf attempt vs problem (setFile s v.uuid f))
      | .done r => consResult ⟨v.uuid, r⟩ (runVialsLoading env conf attempt vs problem (setFile s v.uuid (.good ⟨v.uuid, r⟩)))

end Pctsp
