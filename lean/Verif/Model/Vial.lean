import Verif.Model.Lab
import Verif.Model.Preprocess

/-!
# Python: preprocessing and running one vial

Model of the body of the `try` block in `Lab.run_experiment_from_vial_list`, pctsp/lab/lab.py 177-199: `run_preprocessing`, then `run_algorithm`.
-/

namespace Pctsp

variable {F V : Type} [DecidableEq V]

/-- The attributes of an induced subgraph `h` of the graph: the attributes of the vertices and edges that are left. -/
def LabGraph.restrict (G : LabGraph V) (h : NxGraph V) : LabGraph V where
  nx := h
  edges := G.edges.filter fun e => decide (e.1 ∈ h.nodes ∧ e.2 ∈ h.nodes)
  costs := G.costs.filter fun c => decide (c.1.1 ∈ h.nodes ∧ c.1.2 ∈ h.nodes)
  prizes := G.prizes.filter fun p => decide (p.1 ∈ h.nodes)

/-- Preprocessing and algorithm, lab.py 177-199.  The split graph, Dijkstra's answer and the other externals are those of the preprocessed graph.  If the
root has been deleted, `biggest_vertex_id_from_graph` or `nx.single_source_dijkstra` raise (run_algorithm.py 165-172); which exception is not modelled. -/
def runVial {W : Type} [LinearOrder W] (component : NxGraph V → V → List V) (components : NxGraph V → List (List V)) (limit : Nat) (flags : PreprocessFlags)
    (env : LabEnv F V) (scip : Problem → ScipOutcome) (order : Nat → List Nat) (reorder : List (V × V) → Option (List (V × V)))
    (names : SplitNames V W) (A : DiGraph W) (source : W) (dij : DijkstraOut W) (depth : Nat)
    (G : LabGraph V) (quota : Int) (root : V) (mp : ModelParams) : Res (Option ScipStatus × LabResult V) := do
  let h ← runPreprocessing component components limit flags G.nx root
  if root ∈ h.nodes then runAlgorithm env scip order reorder names A source dij depth (G.restrict h) quota root mp
  else .throw .valueError

end Pctsp
