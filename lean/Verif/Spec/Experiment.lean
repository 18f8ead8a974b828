import Verif.Model.Experiments
import Verif.Model.Vial
import Verif.Spec.Vial
import Verif.Spec.Lab
import Verif.Spec.Split

/-!
# The experiments that are offered, and the runs of their vials
-/

namespace Pctsp

/-- The experiments of each data set. -/
def offered : List (DatasetName × ExperimentName) :=
  [(.tspwplib, .baseline), (.tspwplib, .compareHeuristics), (.tspwplib, .costCover), (.tspwplib, .disjointToursVsHeuristics), (.tspwplib, .dryrun),
   (.tspwplib, .simpleBranchCut), (.tspwplib, .tailingOff), (.londonaq, .baseline), (.londonaq, .compareHeuristics), (.londonaq, .costCover),
   (.londonaq, .ccLondonaqAlpha), (.londonaq, .dryrun), (.londonaq, .londonaqAlpha), (.londonaq, .tailingOff)]

/-- How many instances an experiment has, if there are `g` generations. -/
def instanceCount (g : Nat) : DatasetName → ExperimentName → Nat
  | .tspwplib, .dryrun => 1
  | .tspwplib, .simpleBranchCut => 288
  | .tspwplib, .disjointToursVsHeuristics => 108
  | .tspwplib, .tailingOff => 72 * g
  | .tspwplib, _ => 450 * g
  | .londonaq, .dryrun => 1
  | .londonaq, _ => 20

/-- With how many settings an experiment solves each instance. -/
def settingCount : ExperimentName → Nat
  | .baseline => 1
  | .compareHeuristics => 5
  | .londonaqAlpha => 5
  | .tailingOff => 6
  | _ => 3

variable {V : Type} [DecidableEq V]

/-- A run of a vial that has ended with status `s` and result `r`: the functions outside, what is expected of them (they may differ from run to run), and
the run itself.  SCIP's answers are exact. -/
structure VialRun (flags : PreprocessFlags) (G : LabGraph V) (w : V → V → Int) (π : V → Int) (quota : Int) (root : V) (mp : ModelParams)
    (s : Option ScipStatus) (r : LabResult V) where
  F : Type
  W : Type
  [ord : LinearOrder W]
  env : LabEnv F V
  component : NxGraph V → V → List V
  components : NxGraph V → List (List V)
  limit : Nat
  h : NxGraph V
  A : DiGraph W
  tail : V → W
  head : V → W
  names : SplitNames V W
  dij : DijkstraOut W
  depth : Nat
  T : STree W
  st : SState W
  scip : Problem → ScipOutcome
  order : Nat → List Nat
  reorder : List (V × V) → Option (List (V × V))
  preprocessed : Preprocessed component components limit flags G.nx root h
  envOk : env.Ok (G.restrict h) π root
  yesSound : env.YesSound (G.restrict h) π quota root
  suurballe : SuurballeOn h w A tail head names root dij depth T st
  reorderOk : ReorderOk reorder
  orderPerm : ∀ n, (order n).Perm (List.range n)
  scipSpec : ∀ P, ScipSpec 1 P (order P.graph.edges.length) (scip P)
  run : runVial component components limit flags env scip order reorder names A (head root) dij depth G quota root mp = .ok (s, r)

/-- The graph after the preprocessing. -/
def VialRun.graph {flags : PreprocessFlags} {G : LabGraph V} {w : V → V → Int} {π : V → Int} {quota : Int} {root : V} {mp : ModelParams}
    {s : Option ScipStatus} {r : LabResult V} (R : VialRun flags G w π quota root mp s r) : LabGraph V := G.restrict R.h

/-- The costs of the pairs of disjoint paths that the run has computed. -/
def VialRun.costMap {flags : PreprocessFlags} {G : LabGraph V} {w : V → V → Int} {π : V → Int} {quota : Int} {root : V} {mp : ModelParams}
    {s : Option ScipStatus} {r : LabResult V} (R : VialRun flags G w π quota root mp s r) : List (V × Int) :=
  letI := R.ord
  vertexDisjointCostMap R.names R.T R.st (treeNodes (R.head root) R.dij)

/-- The pair of a vertex in a map of pairs of paths, if there is a map. -/
def foundPaths (m : Res (List (V × (List V × List V)))) : V → Option (List V × List V) :=
  match m with
  | .ok m => dictGet m
  | _ => fun _ => none

/-- The pairs of disjoint paths that the run has computed. -/
def VialRun.pathsOf {flags : PreprocessFlags} {G : LabGraph V} {w : V → V → Int} {π : V → Int} {quota : Int} {root : V} {mp : ModelParams}
    {s : Option ScipStatus} {r : LabResult V} (R : VialRun flags G w π quota root mp s r) : V → Option (List V × List V) :=
  letI := R.ord
  foundPaths (undirectedVertexDisjointPathsMap R.names R.T R.st (treeNodes (R.head root) R.dij))

/-- What the cost cover inequalities rely on, if they are used: with shortest paths, every vertex is reached at a cost below the largest number; with
disjoint paths, the entry of the root is no more than the cost of any feasible tour. -/
structure VialRun.CoverOk {flags : PreprocessFlags} {G : LabGraph V} {w : V → V → Int} {π : V → Int} {quota : Int} {root : V} {mp : ModelParams}
    {s : Option ScipStatus} {r : LabResult V} (R : VialRun flags G w π quota root mp s r) : Prop where
  reach : mp.coverShortest = true → ∀ x ∈ endpoints R.graph.edges, ∃ l, (root :: l).getLast? = some x ∧
    (∀ p ∈ consec (root :: l), AdjIn R.graph.edges p.1 p.2) ∧ namedCost w (root :: l) ≤ 1073741823
  entry : mp.coverDisjoint = true → ∀ c, dictGet R.costMap root = some c → ∀ t, FeasibleIn G.edges π quota root t → c ≤ namedCost w t

end Pctsp
