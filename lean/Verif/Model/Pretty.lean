import Verif.Model.Tables

/-!
# Python: the labels of tables and the figure of the heuristics

Model of `make_column_name_pretty`, `pretty_dataframe` and `get_cc_name`, pctsp/apps/tables_app.py 26-90, 148-221 and 308-322, of the order of work of
`generate_all_tables`, tables_app.py 547-583, and of which points `plot_heuristics_figure` shows, pctsp/apps/plot_app.py 26-223.  A data frame is a list of
columns, the names of the levels of its index, and rows of cells; columns with several levels are modelled apart, as the levels and codes that pandas keeps.
Truth values in cells are left out.
-/

namespace Pctsp

/-- A cell of a data frame, or a label of its index. -/
inductive Cell where
  | text (s : String)
  | num (q : Rat)
  | nan
  deriving DecidableEq

/-- A data frame whose columns have one level. -/
structure Frame where
  columns : List String
  index : List String
  rows : List (List Cell × List Cell)
  deriving DecidableEq

/-- `PRETTY_COLUMN_NAMES`, tables_app.py 27-71. -/
def prettyColumnNames : List (String × String) :=
  [("algorithm", "Algorithm"), ("alpha", "$\\alpha$"), ("branching_max_depth", "$\\Delta$"), ("branching_strategy", "Branching strategy"),
   ("cost_function", "Cost function"), ("avg_cuts", "AVG CUTS"), ("avg_cuts_presolve", "$\\overline{\\text{PRE-CUTS}}$"), ("duration", "TIME (s)"),
   ("graph_name", "Graph name"), ("kappa", "$\\kappa$"), ("gap", "GAP"), ("max_gap", "$\\max(\\text{GAP})$"),
   ("mean_duration", "$\\overline{\\text{TIME}}$ (s)"), ("mean_gap", "$\\overline{\\text{GAP}}$"), ("mean_lower_bound", "$\\overline{\\text{LB}}$"),
   ("mean_upper_bound", "$\\overline{\\text{UB}}$"), ("min_gap", "$\\min(\\\\text{GAP})$"), ("mean_num_nodes", "$\\mu (NODES)$"),
   ("mean_num_sec_disjoint_tour", "$\\mu (SEC_DT) $"), ("mean_num_sec_maxflow_mincut", "$\\mu (SEC_MM) $"), ("metricness", "$\\zeta(G, c)$"),
   ("num_edges", "$|E(G)|$"), ("num_nodes", "$|V(G)|$"), ("total_cost", "$c(E(G))$"), ("total_prize", "$p(V(G))$"), ("num_secs", "$\\mu (SEC)$"),
   ("num_feasible_solutions", "FEAS"), ("num_optimal_solutions", "OPT"), ("sec_lp_gap_improvement_threshold", "$\\gamma$"),
   ("sec_max_tailing_off_iterations", "$\\tau$"), ("sec_sepafreq", "SEC freq"), ("std_gap", "$\\sigma (\\text{GAP})$"), ("quota", "Quota"),
   ("biggest_disjoint_prize", "$\\max_{t \\in G} \\{ p(V(\\cP_1)) + p(V(\\cP_2)) - p(t) \\}$"), ("disjoint_prize_ratio", "$D(G)$"),
   ("preprocessed_num_nodes", "$|V(H)|$"), ("preprocessed_num_edges", "$|E(H)|$"), ("preprocessed_total_cost", "$c(E(H))"),
   ("preprocessed_total_prize", "$p(V(H))$"), ("preprocessed_metricness", "$\\zeta(H, c)$"),
   ("preprocessed_prize_ratio", "$\\frac{p(V(H))}{p(V(G))}$"),
   ("mean_preprocessed_prize_ratio", "\\text{AVG}$\\left(\\frac{p(V(H))}{p(V(G))}\\right)$"), ("mean_disjoint_prize_ratio", "\\text{AVG}$(D(G))$")]

/-- `make_column_name_pretty`, tables_app.py 86-90. -/
def prettyName (s : String) : String := (prettyColumnNames.lookup s).getD s

/-- The values of `AlgorithmName`, `ShortAlgorithmName` and `LongAlgorithmName`, pctsp/vial/model_params.py 10-47. -/
def algorithmLabels : List (String × String × String) :=
  [("disjoint_tours_relaxation", "DTR", "Disjoint Tours Relaxation"), ("extension", "Ex", "Extension"),
   ("bfs_extension_collapse", "BFS-EC", "BFS Extension and Collapse"), ("bfs_path_extension_collapse", "BFS-PEC", "BFS Path Extension and Collapse"),
   ("solve_pctsp", "BC", "PCTSP Branch and Cut"), ("suurballes_extension_collapse", "SBL-EC", "Suurballe's Extension and Collapse"),
   ("suurballes_heuristic", "SBL", "Suurballe's heuristic"),
   ("suurballes_path_extension_collapse", "SBL-PEC", "Suurballe's Path Extension and Collapse")]

/-- `value_replacements`, tables_app.py 158-172. -/
def valueReplacements (long : Bool) : List (String × String) :=
  algorithmLabels.map (fun x => (x.1, if long then x.2.2 else x.2.1)) ++ [("EUC_2D", "EUC"), ("MST", "MST")]

/-- The replacement of one cell by `value_replacements`. -/
def prettyValue (long : Bool) : Cell → Cell
  | .text s => .text (((valueReplacements long).lookup s).getD s)
  | c => c

/-- `branching_replacements`, tables_app.py 180-186. -/
def branchingReplacements : List (Rat × String) :=
  [(0, "Relative branching"), (1, "Strong branching"), (2, "Strong at tree top"), (4, "Default")]

/-- The replacement of one cell by `branching_replacements`. -/
def branchingLabel : Cell → Cell
  | .num q => match branchingReplacements.lookup q with
    | some s => .text s
    | none => .num q
  | c => c

/-- `df.replace({col: ...})` and `df.rename(index=..., level=col)`: the cells under one name are replaced. -/
def replaceUnder (names : List String) (col : String) (f : Cell → Cell) (cells : List Cell) : List Cell :=
  List.zipWith (fun n c => if n = col then f c else c) names cells

/-- The cells of one column are replaced. -/
def Frame.mapColumn (col : String) (f : Cell → Cell) (d : Frame) : Frame :=
  { d with rows := d.rows.map fun r => (r.1, replaceUnder d.columns col f r.2) }

/-- The labels of one level of the index are replaced. -/
def Frame.mapLevel (col : String) (f : Cell → Cell) (d : Frame) : Frame :=
  { d with rows := d.rows.map fun r => (replaceUnder d.index col f r.1, r.2) }

/-- `df.replace(...)` with a plain dictionary: the cells of all columns are replaced. -/
def Frame.mapCells (f : Cell → Cell) (d : Frame) : Frame :=
  { d with rows := d.rows.map fun r => (r.1, r.2.map f) }

/-- One round of the loop, tables_app.py 174-178. -/
def Frame.prettyRound (long : Bool) (d : Frame) (col : String) : Frame :=
  let d := if col ∈ d.columns then d.mapColumn col (prettyValue long) else d
  if col ∈ d.index then d.mapLevel col (prettyValue long) else d

/-- `pretty_dataframe` if the columns have one level, tables_app.py 148-197 and 212-221.  After the loop its variable is still `branching_strategy`, so line 190
renames that level. -/
def prettyFrame (long : Bool) (d : Frame) : Frame :=
  let d := ["algorithm", "cost_function", "branching_strategy"].foldl (Frame.prettyRound long) d
  let d := if "branching_strategy" ∈ d.columns then d.mapCells branchingLabel else d
  let d := if "branching_strategy" ∈ d.index then d.mapLevel "branching_strategy" branchingLabel else d
  { d with columns := d.columns.map prettyName, index := d.index.map prettyName }

/-- One level of a `MultiIndex` of columns: its labels, and for every column the position of its label. -/
structure ColumnLevel where
  labels : List String
  codes : List Nat

/-- `get_level_values`: the label of every column; `none` if a code has no label, which raises an exception. -/
def ColumnLevel.values (l : ColumnLevel) : Option (List String) := l.codes.mapM fun c => l.labels[c]?

/-- The renaming of one level, tables_app.py 199-210: the pretty names *of the columns* become the labels of the level. -/
def prettyLevel (l : ColumnLevel) : Option ColumnLevel :=
  l.values.map fun vs => { l with labels := vs.map prettyName }

/-- The codes of the second level of the columns after `unstack().swaplevel(0, 1).sort_index(axis=1)`, tables_app.py 377-378, with `n` labels above and `m`
below: all pairs in order. -/
def sortedCodes (n m : Nat) : List Nat := (List.range n).flatMap fun _ => List.range m

/-- The codes of the first level of the columns after `unstack()` alone. -/
def unstackedCodes (n m : Nat) : List Nat := (List.range m).flatMap fun j => (List.range n).map fun _ => j

/-- `get_cc_name`, tables_app.py 308-315; `none` is the `ValueError`. -/
def ccName (disjoint shortest : Bool) : Option String :=
  if disjoint && !shortest then some "Cost cover disjoint paths"
  else if !disjoint && shortest then some "Cost cover shortest paths"
  else if !disjoint && !shortest then some "No cost cover"
  else none

/-- The column `cc_name`, tables_app.py 317-322: one row that raises ends the command. -/
def ccNames (rows : List (Bool × Bool)) : Option (List String) := rows.mapM fun r => ccName r.1 r.2

/-- How the attempt to write one table ends. -/
inductive TableOutcome where
  | written
  /-- `FileNotFoundError` -/
  | absent
  /-- any other exception -/
  | failed
  deriving DecidableEq

/-- The four tables of one dataset. -/
inductive TableKind where
  | dataset | costCover | heuristics | tailingOff
  deriving DecidableEq

/-- Both datasets with their tables, in the order of `generate_all_tables`, tables_app.py 556-583; `true` is `londonaq`. -/
def allTables : List (Bool × TableKind) :=
  [true, false].flatMap fun d => [.dataset, .costCover, .heuristics, .tailingOff].map fun k => (d, k)

/-- The attempts that `generate_all_tables` makes among the given ones, and whether an exception ends it. -/
def attemptTables (outcome : Bool × TableKind → TableOutcome) : List (Bool × TableKind) → List (Bool × TableKind) × Bool
  | [] => ([], false)
  | t :: ts =>
    match outcome t with
    | .failed => ([t], true)
    | _ => (t :: (attemptTables outcome ts).1, (attemptTables outcome ts).2)

/-- A row of the data of the figure: the value of kappa, the cost function, the short name of the algorithm, and the gap. -/
structure FigureRow (K : Type) where
  kappa : K
  cost : String
  algorithm : String
  gap : Ext

/-- The algorithms that are drawn, plot_app.py 97-102. -/
def figureAlgorithms : List String := ["BFS-EC", "BFS-PEC", "SBL-EC", "SBL-PEC"]

/-- One box of a figure: its place, its algorithm, the gaps of its points, and whether the legend names it. -/
structure Box (K : Type) where
  kappa : K
  algorithm : String
  gaps : List Ext
  legend : Bool

variable {K : Type} [DecidableEq K]

/-- `unique()`: the values in the order of their first occurrence. -/
def uniqueValues (xs : List K) : List K := dropDuplicates id xs

/-- The boxes of the upper panel of the figure of one cost function, plot_app.py 86-111, and `show_legend` afterwards; `legend` is `show_legend` before.  The
lower panel has the same boxes, none of them in the legend. -/
def figureBoxes (rows : List (FigureRow K)) (cost : String) (legend : Bool) : List K → List (Box K) × Bool
  | [] => ([], legend)
  | k :: ks =>
    let kappaRows := (rows.filter fun r => decide (r.kappa = k)).filter fun r => decide (r.cost = cost)
    let boxes := figureAlgorithms.map fun a => ⟨k, a, (kappaRows.filter fun r => decide (r.algorithm = a)).map (·.gap), legend⟩
    let rest := figureBoxes rows cost false ks
    (boxes ++ rest.1, rest.2)

/-- The figures of `EUC_2D` and of `MST`, plot_app.py 76-134. -/
def heuristicFigures (rows : List (FigureRow K)) : List (Box K) × List (Box K) :=
  let kappas := uniqueValues (rows.map (·.kappa))
  let first := figureBoxes rows "EUC_2D" true kappas
  (first.1, (figureBoxes rows "MST" first.2 kappas).1)

/-- The range of the logarithmic axis of the upper panel, plot_app.py 177-207: `[10 ** -2, 10 ** 2]`. -/
def inUpperPanel : Ext → Bool
  | .fin q => decide (1 / 100 ≤ q ∧ q ≤ 100)
  | _ => false

/-- The range of the linear axis of the lower panel, plot_app.py 208-215: `[-0.001, 10 ** -2 - 0.001]`. -/
def inLowerPanel : Ext → Bool
  | .fin q => decide (-(1 / 1000) ≤ q ∧ q ≤ 1 / 100 - 1 / 1000)
  | _ => false

/-- The range `[-0.5, 4.5]` of the horizontal axis, plot_app.py 185: position `i` of a category is shown. -/
def columnShown (i : Nat) : Bool := decide (-(1 / 2 : Rat) ≤ i ∧ (i : Rat) ≤ 9 / 2)

/-- The categories of the horizontal axis: the values of kappa in the order in which boxes with points have them. -/
def figureCategories (boxes : List (Box K)) : List K := uniqueValues (boxes.flatMap fun b => b.gaps.map fun _ => b.kappa)

/-- The points that can be seen in a figure: those of columns that are shown whose gap lies in the range of a panel. -/
def visiblePoints (boxes : List (Box K)) : List (K × String × Ext) :=
  boxes.flatMap fun b => if columnShown ((figureCategories boxes).idxOf b.kappa) then
    (b.gaps.filter fun x => inUpperPanel x || inLowerPanel x).map fun x => (b.kappa, b.algorithm, x) else []

end Pctsp
