# Machine-checked model of pctsp (Lean 4)

Source: `/repo` (PatrickOHara/pctsp, C++ with a Python front end), read as text.
Model and proofs: `/verif/lean` (`lake build`). Properties: `/verif/properties.jsonl`.
Status per property: `/verif/MANIFEST.json`. Mutation log: `/verif/seeded/LOG.jsonl`.

## Layout

| Directory | Content |
|---|---|
| `Verif/Model/*.lean`  | executable model of the code; every definition cites the file and lines it models |
| `Verif/Spec/*.lean`   | specification vocabulary (simple closed tour, cycle, ...), independent of the model |
| `Verif/Lemmas/*.lean` | helper lemmas |
| `Verif/Props/*.lean`  | one theorem (or a few) per property, each followed by a concrete example meeting its hypotheses |
| `Verif/Tests/*.lean`  | the repository's own tests replayed on the model (evaluations, not proofs of properties) |

## Modelling decisions

* **Outcomes.** A C++ function that can fail returns `Res α`: `ok a`, `throw e` (a C++ exception, with the
  exception class and its arguments), or `ub why` (undefined behaviour: dereferencing or advancing an iterator out
  of range, reading an uninitialised value, signed overflow where it matters). Undefined behaviour is therefore
  something the theorems must exclude, not an assumption.
* **Graphs.** `boost::adjacency_list<listS, vecS, undirectedS>` is a vertex count plus the list of inserted
  edges in insertion order. An edge descriptor is the position in that list, so parallel edges and self-loops
  are different edges. `boost::edge(u,v,g)` returns the first inserted edge joining `u` and `v`; a
  self-loop occurs twice in the out-edge list of its vertex.
* **Numbers.** `int` costs and prizes are unbounded `Int` except where a property is about overflow (C39, C106). `Machine`
  repeats the heuristics with numbers of 32 bits; C106 says when both agree.
  `float` is an arbitrary type with the operations the code uses (`FloatOps`). Theorems about tours hold for
  every such type. Where a theorem needs a law of the comparison it is a named hypothesis: `SignSound` (only a
  positive integer compares greater than zero after conversion), `Lawful` (adds the converse, that `<` is a
  strict weak order except for NaN, and that a ratio with positive divisor is not NaN), and the laws of C49 about division. `Verif/Lemmas/Float.lean` proves
  these laws for rational arithmetic with any monotone rounding and for IEEE-like numbers with infinities and NaN (`Model/Float.lean`).
  `Spec/Ieee.lean` defines the rounding of `float` and `double` (nearest, ties to even, subnormal numbers, overflow), and C139 proves all these laws of it; that
  the compiled code rounds like that after every operation (no excess precision, no fast-math, default rounding mode) is trusted. There is one zero: the
  sign of a zero divisor would matter only for a divisor that was converted from an `int`, which is never `-0`. C134 uses `single` in Spec/Units.lean
  (exponents without bounds); `C139_single` says that it is the same on normal numbers.
* **Containers.** `std::list`/`std::vector` are `List`; `std::set` is a sorted list; `std::map` a
  function or an association list; `boost::bimap` a list of pairs unique on both sides.
* **Loops** become folds or structural recursion; `while` loops with no static bound use fuel, and a theorem
  states that the fuel supplied is enough (so termination is proved, not assumed).
* **SCIP** (LP, branch and bound, events) is an external. A row is its list of coefficients and sides. What SCIP answers
  (solution values, infeasible/efficacious flags, focus node) is a parameter over which theorems quantify.

## What is modelled, module by module

| Model module | Code | Properties |
|---|---|---|
| `Res` | exceptions, undefined behaviour | all |
| `Graph` | include/pctsp/graph.hh: `addEdgesToGraph`, `getSubpathOfCycle`, `depthFirstSearch`, `breadthFirstSearch`, `pathInTreeFromParents`; boost `edge`, `adjacent_vertices`, `add_edge` | C05-C08 |
| `Walk` | include/pctsp/walk.hh 15-187 | C01-C04 |
| `Extension` | src/heuristic.cpp, include/pctsp/heuristic.hh 41-357 | C09-C16, C90 |
| `Gain` | include/pctsp/heuristic.hh 360-580 | C17-C20, C48, C49, C77, C143, C158 |
| `Dijkstra` | boost `dijkstra_shortest_paths` with the visitor of walk.hh 189-268 | C51 |
| `Collapse` | include/pctsp/heuristic.hh 582-845 | C21-C24, C50, C143 |
| `Float` | an IEEE-like instance of `FloatOps` | C10, C48, C49, C139 |
| `Renaming` | include/pctsp/renaming.hh | C25-C27 |
| `Binding` | pctsp/pypctsp.cpp 129-312 | C52-C54 |
| `Python` | pctsp/algorithms/path_extension_collapse.py, extension_collapse.py (wrappers) | C45 |
| `GraphUtil` | include/pctsp/data_structures.hh, preprocessing.hh, src/preprocessing.cpp, src/graph.cpp, parts of graph.hh | C28, C29, C31, C46 |
| `SimpleCycle` | src/separation.cpp 13-75 | C30 |
| `Rows` | constraint.hh, algorithms.hh, sciputils.cpp, solution.cpp, subtour_elimination.{hh,cpp}, cycle_cover.{hh,cpp}, cost_cover.{hh,cpp} | C32-C38, C47, C55-C58, C87, C121 |
| `CostCover` | src/cost_cover.cpp 33-104, src/algorithms.cpp 163-187 | C38, C39, C59 |
| `Maxflow` | src/subtour_elimination.cpp 297-485, src/separation.cpp 74-97, subtour_elimination.hh 55-131 | C40, C64-C68 |
| `Tailing` | src/subtour_elimination.cpp 201-233, 276-295 | C41, C60 |
| `Events` | src/event_handlers.cpp 5-97, src/stats.cpp 45-59 | C42, C61 |
| `Stats` | src/stats.cpp 5-43, src/event_handlers.cpp 101-111, pctsp/algorithms/data_structures.py | C43, C62, C63 |
| `Branching` | src/branching.cpp 60-132 | C44 |
| `Preprocess` | pctsp/preprocessing/preprocessing.py 22-34, 88-156; pctsp/lab/run_algorithm.py 281-321 | C69, C70, C142 |
| `PyHeuristic` | pctsp/algorithms/heuristic.py | C71-C76 |
| `Suurballe` | pctsp/suurballe/suurballe.py | C78-C84 |
| `DisjointMap` | pctsp/preprocessing/preprocessing.py 37-86, the calls in pctsp/lab/run_algorithm.py 164-179 | C85, C86 |
| `Solve` | src/algorithms.cpp 117-325, pctsp/pypctsp.cpp 33-106 | C88, C89, C93, C120 |
| `Lab` | pctsp/lab/run_algorithm.py 55-278, pctsp/algorithms/algorithms.py 25-109 (without making the directory for logs) | C91, C92, C105, C147, C148 |
| `Batch` | pctsp/lab/lab.py 58-213, 269-292, pctsp/vial/result.py 42-58, pctsp/apps/csv_app.py 29-48, the array job of pctsp/apps/main_app.py 290-311 | C94-C97 |
| `Vial` | pctsp/lab/lab.py 177-199 (preprocessing, then algorithm) | C99 |
| `Tables` | pctsp/apps/csv_app.py 51-136, pctsp/apps/tables_app.py 223-510 (marks, gaps, counts and means, not the layout) | C100-C102 |
| `Experiments` | pctsp/vial/experiment.py, pctsp/vial/data_config.py, pctsp/compare/*_experiment.py, product_of_params.py 33-116 and 159-184, pctsp/apps/main_app.py 86-127; reading the instance files is a parameter | C103, C126, C127, C128, C138 |
| `BasicSolve` | src/algorithms.cpp 28-68, 327-373, pctsp/pypctsp.cpp 15-31 | C104 |
| `Machine` | the sums in include/pctsp/walk.hh 72-159 and include/pctsp/heuristic.hh with 32-bit numbers | C106 |
| `Logs` | src/stats.cpp 61-111, include/pctsp/filepath.hh, src/event_handlers.cpp 114-161, src/logger.cpp; how a number or time stamp is printed is a parameter | C107, C108, C109 |
| `Commands` | pctsp/apps/main_app.py 165-403 (setup, batch, nbatches, slurm, missing, vial, nmissing, infeasible) on the files of one experiment; an experiment that is written is the one that is read | C110, C111, C112, C113 |
| `OneRun` | the settings of the commands `londonaq` and `tsplib`, pctsp/apps/main_app.py 405-594 | C114, C115 |
| `Dataset` | `get_graph_stats`, pctsp/apps/dataset_app.py 113-178, without the metricness; what tspwplib's names do with a smaller biggest number is assumed (`IdNames`) | C116 |
| `Plot` | `edge_scatter`, `tour_edges_trace`, pctsp/plot; that plotly joins consecutive points is assumed | C117 |
| `Logger` | `get_pctsp_logger`, pctsp/utils/utils.py; the rules of Python's logging for names without dots | C118 |
| `Wrappers` | the nine wrappers of pctsp/algorithms/extension_collapse.py and path_extension_collapse.py on a networkx graph with attributes | C119 |
| `Load` | loading the instance of a vial in pctsp/lab/lab.py 114-166, with the variable `problem` that survives from one vial to the next | C122 |
| `Tolerance` | `isVarPositive`, src/solution.cpp 8-11, on rational values; the checks of SCIP with `numerics/epsilon` and `numerics/feastol` are in Spec/Tolerance | C123 |
| `Pretty` | pctsp/apps/tables_app.py 26-90, 148-221, 308-322, 550-592, pctsp/apps/plot_app.py 26-223, pctsp/vial/model_params.py 10-47 | C124, C125 |
| `RunStats` | src/algorithms.cpp 70-115, src/cycle_cover.cpp 95-109, 143-148, src/subtour_elimination.cpp 297-306, 455-484 | C129 |
| `DatasetCommand` | pctsp/apps/dataset_app.py 42-110 and pctsp/apps/tables_app.py 93-145; writing and reading a CSV file loses nothing, means are exact | C130 |
| `Job` | the loop of pctsp/lab/lab.py 114-207 for several tasks of the job of pctsp/apps/main_app.py 291-304 at the same time; a step is a step of one task, writing a file is two steps (emptied, complete), a kill leaves the files as they are; the file system shows all tasks the same files | C131 |
| `Archive` | pctsp/apps/utils_app.py 13-39 and, read from and tried with Python 3.11, what `shutil.make_archive` and `shutil.unpack_archive` do for `zip` files (file names without `..`; writing the archive itself does not fail) | C132 |
| `TolEvent` | src/cost_cover.cpp 81-86 with the cast of a bound that is not an integer | C156 |
| `LabHome` | the commands `lab`, `londonaq` and `tsplib` on the files of one experiment, pctsp/apps/main_app.py 126-162, 467-499, 572-594, pctsp/lab/lab.py 53 and 258-269; writing experiment.json and results.json does not fail | C157 |
| `CsvHome` | the commands `csv heuristics`, `csv branch-cut` and `csv all` on the files of a lab, pctsp/apps/csv_app.py 64-136, and whether the tables can read the file, pctsp/apps/tables_app.py 231-243, 283-288, 409-445; writing a CSV file does not fail | C159 |
| `TablesDir` | the commands `tables dataset`, `cost-cover`, `heuristics`, `tailing-off` and `all` on the directory of the tables, pctsp/apps/tables_app.py 93-145, 224-397, 448-583; the text of a table is a parameter, and so is the exception of pandas for a missing directory | C160 |
| `NodeGap` | the gap of `scip_enfolp`, src/subtour_elimination.cpp 201-233, on top of `Tailing`; `SCIPcomputeGap` is written after SCIP's documentation, numbers are exact; whether SCIP scales the objective function is a parameter | C161, C164 |
| `BranchDepth` | the order in which SCIP tries branching rules, with the priorities and the depth of src/branching.cpp 60-132 (`Branching`); SCIP's choice is a specification, without `maxbounddist` | C162 |
| `ScipLog` | the log file of SCIP in `solvePrizeCollectingTSP`, src/algorithms.cpp 148-151, 224-226, 233, over the runs of a process; the message handler of SCIP and the buffers of stdio are a specification | C163 |
| `EnforceAnswer` | the answer of `scip_enfolp`, src/subtour_elimination.cpp 201-233, with `SCIPbranchLP` (221) as a specification | C165 |
| `TableFormat` | the columns and column formats of `summarize_dataset`, `cost_cover_table` and `heuristics_table`, pctsp/apps/tables_app.py 94-145, 324-400, 448-544; a format is its kind | C166 |
| `Enforce`, `Pseudo` | src/subtour_elimination.cpp 189-199 on a pseudo solution, 201-233 on a solution of an LP relaxation (with `Tailing`), src/cycle_cover.cpp 122-127, src/cost_cover.cpp 81-86 for all handlers; the search around them is in Spec/Search | C137 |
| `Filter` | include/pctsp/graph.hh 390-423 and, as documented, the iterators of `boost::filtered_graph` | C140 |
| `Cut` | subtour_elimination.hh 14-27, graph.hh 73-77 and 244-252, solution.hh 32-69, src/solution.cpp 13-20 | C149, C150 |
| `PrizeRow` | constraint.hh 19-32 and 108-141 with the order of the variables and the addresses of their names | C151 |
| `Knapsack` | src/knapsack.cpp (the problem that SCIP is given, the return code and the released variables) | C141 |
| `GraphCycle` | src/separation.cpp 13-24, src/solution.cpp 54-69 | C144 |
| `Columns` | pctsp/vial/vial.py 26-46, the columns in pctsp/apps/csv_app.py 29-48 and 87-110 and, as documented, `DataFrame.merge` | C145 |
| `RowNames` | include/pctsp/sciputils.hh 11-25 and the prefixes of the names; the names of variables are a parameter | C146 |
| `Params` | pctsp/compare/product_of_params.py 119-206, pctsp/vial/model_params.py 50-59 | C98 |

### Simplifications of single definitions

* `int` arithmetic is unbounded (except `doubleDistances`, C39, and `Machine`, C106); positions, step sizes and counters stay unbounded; counters of the statistics are natural numbers.
* LP values are integers after scaling with a common denominator `q`; SCIP's comparisons are exact, except in C123 and C156, which show when the tolerances do not matter for accepted solutions and for the search.
* `std::map<edge, ...>` is traversed in an unspecified order (descriptors compare by address): the order is a parameter `order`, any permutation.
* The heap inside Dijkstra's algorithm is a `Pick`: any rule that returns a queued vertex of least distance; the rule may change from round to round.
* `index_of_extension` of `unitaryGainOfVertex` is uninitialised in the code until a gain is found: `Option`, and using `none` is undefined behaviour.
* The YAML text of a scalar is not modelled: a written scalar is read back as the same scalar.
* Names of variables and rows, logging, and the ignored return codes of SCIP are left out.
* `Suurballe`: dictionaries are total functions (every key that is looked up is a reached vertex); `heapq` is a list whose least pair is
  removed; Python's recursion limit is the parameter `depth`. The loops keep their positions in lists that shrink meanwhile, as Python does.
* Node numbers and component ids are natural numbers (the code uses `int` and `long long`).

### External code, as parameters with a specification

| External | Specification | Where |
|---|---|---|
| `boost::connected_components` | `IsComponents`: same id iff connected in the support graph (which is the reachability of the filtered view that the code passes: C150) | Spec/Incidence, Lemmas/Cuts |
| `boost::push_relabel_max_flow` | `FlowSpec`: residuals of a flow of maximum value; such an answer exists (`Lemmas/FlowExists`) | Spec/Flow |
| `boost::depth_first_visit` | `VisitSpec`: coloured iff reachable | Spec/Flow |
| SCIP: `SCIPcomputeGap` | `scipGap`: zero if the bounds agree up to epsilon; infinity if one is zero or infinite or the signs differ; else relative to the smaller absolute value | Model/NodeGap |
| SCIP: message handlers, `SCIPprintStatistics` | the log file is opened for appending and closed when the model is freed; output to no file goes to the log file | Model/ScipLog |
| stdio | `fopen` fails without descriptors; buffers are written when the process ends by itself, newest stream first, each at its own offset | Model/ScipLog |
| SCIP: `SCIPbranchLP` | without a fractional variable it leaves `SCIP_DIDNOTRUN`, which SCIP rejects as an answer of the enforcement; else it branches | Model/EnforceAnswer |
| SCIP: choice of a branching rule | by priority, up to the maximal depth, the first that runs | Model/BranchDepth |
| SCIP: `SCIPisCutEfficacious`, `SCIPaddRow` | `Solver`: arbitrary answers | Model/Rows |
| `nx.node_connected_component`, `nx.biconnected_components` | `IsNodeComponent`, `IsBicomponents` | Spec/Cycles |
| `nx.bfs_tree` | `IsBfsTree`; the search of networkx satisfies it (`nxBfsTree_isBfsTree`) | Spec/DisjointPaths |
| `nx.single_source_dijkstra` | `IsDijkstra`: distances and paths of a tree of shortest paths, for exactly the reached vertices | Spec/Suurballe |
| tspwplib: `asymmetric_from_undirected`, `split_head`, `is_vertex_split_tail`, `get_original_from_split_vertex`, `get_original_path_from_split_path` | `SplitOf`: the split graph; `SplitNames.Ok`: names of its vertices, paths without self-loops mapped back | Spec/Split |
| `random.choice`, order of iteration over a set | an arbitrary sequence of numbers; an arbitrary permutation | C74-C76 |
| tspwplib: `total_prize_of_tour` | an arbitrary function of the tour (C72, C73); the sum of the prizes of the vertices of a tour (`LabEnv.Ok`) | C72, C73, C91 |
| tspwplib: `rename_edge_attributes`, `rename_node_attributes` | go through the edges or vertices in order, raise `KeyError` at the first without the attribute | C122 |
| tspwplib: `ProfitsProblem.load`, `BaseTSP.from_yaml`, `get_graph`, `get_node_score`, `sparsify_uid`, `uniform_random_cost`, `mst_cost`, `semi_mst_cost` | arbitrary functions of their arguments that may raise (so the same edges get the same random costs) | C122 |
| tspwplib: `edge_list_from_walk`, `order_edge_list`, `total_cost`, `total_prize`, `is_pctsp_yes_instance` | consecutive pairs; a reordering of the edges, each in either direction, or a caught exception; sums over the edges and their vertices; a test that returns normally and, in C92, accepts only the edges of feasible tours (`YesSound`; its source was not available) | Model/Lab, Spec/Lab |
| `SCIPsolve` | `ScipSpec`, see below | Spec/Scip, C88, C89, C93 |
| `SCIPsolve`, in C137 | a search made of the steps of `Step`, see below | Spec/Search, C137 |
| `SCIPsolve`, in C156 | a search made of the steps of `TolStep`, see below | Spec/TolSearch, C156 |
| SCIP's checks of a solution | `AcceptedTol`: values within feastol of 0 or 1, rows violated by at most feastol relative to `max(1, activity, side)`, `SCIPisZero` compares with epsilon | Spec/Tolerance, C123 |
| pandas, plotly | `replace`, `rename`, `set_levels` and `unstack` as in `Model/Pretty`; categories of an axis in the order of their first point; the bounds of the panels are the decimal numbers in the source, without rounding | Model/Pretty, C124, C125 |
| result files, loading of instances, exceptions and crashes while a vial runs | a file is absent, not parseable, of invalid format or a result; the outcome of every attempt (`Attempt`) is a parameter | C94-C96 |
| the heap of boost's Dijkstra | its choice does not change if all distances are multiplied by a positive number (`UnitFree`) | C134 |
| `n / size` in floating point | `Rounds53`: monotone, exact on integers up to 2^53; proved of binary64 in C139 | C94 |
| `uuid` generator | injective | C98 |
| pandas | `pd.concat`, `join` and comparison of columns as in `experimentSummary`; the inner `merge` on the identifier, `groupby` without missing keys, `drop` of duplicated index entries, left `join` as in `Model/Tables`; arithmetic with `NaN` and infinities as in `Ext` | C97, C100-C102 |
| SCIP: LP solutions, upper bounds, node events | arbitrary inputs | C38, C41, C42, C59-C61, C129 |

These specifications are not contradictory: C127 constructs, for every instance with a cycle through the root, answers of all functions that a run of a vial calls
and that meet their specifications together (`Lemmas/DijkstraExists`, `Lemmas/SplitExists`, `exists_scip_keeps`, `commonCycles_bicomponents`).

`ScipSpec scale P order answer` is the whole of what C88 and C89 assume about SCIP: (1) the best solution is binary, satisfies the linear rows and passes the
check of every constraint handler; (2) rows are only added by the plug-ins, which are called with solutions of the linear relaxation and
with bounds of solutions that were found before; (3) `optimal` means that the best solution is no worse than any solution that passes the checks and
satisfies the added rows, and `infeasible` that there is no such solution. Branching, node selection, presolving, cuts of SCIP
itself and limits are left open (any other status says nothing). `scale` is the divisor of the objective function (`misc/scaleobj`). The
specification is not contradictory: `C88_solver_exists`. Only `C93_kept` uses `KeepsStart` in addition: a start solution that passes the checks is kept
(`exists_scip_keeps`: this can be met together with `ScipSpec`).

C137 replaces the assumption `ScipSpec` by the search that it describes (`Search`, `Step`, `Steps` in Spec/Search). What is assumed there: a row that SCIP
calls efficacious is violated by the LP solution; a row is only called infeasible in a node if no binary vector in the node satisfies it; a node is only dropped if its LP
relaxation, with rows that were added and facts that hold for all better solutions, is infeasible or costs more than the best solution minus the divisor
of the costs; a node is split at a variable, and every other change of bounds keeps all better solutions. `SCIP_INFEASIBLE` and branching in the enforcement
callbacks are steps that any node allows. The bound on the number of steps is for searches that keep the added rows in every relaxation (`keep`).

C156 repeats this with tolerances (`TolSearch`, `TolStep`, `TolSteps` in Spec/TolSearch). What is assumed there: LP solutions
satisfy the bounds and the rows up to feastol and have the values that the node fixes up to `fix`; the separators see the values above epsilon and zeros
elsewhere, as exact rationals; SCIP's statements that something does not exist are true in exact numbers (an infeasible relaxation, a bound up to `gap`, an
infeasible row, a fixed variable); `SCIPgetUpperbound` is the objective value of the best solution up to `gap`, not divided. The theorems need `fix` to be at most epsilon, and C156_fixed shows that they are false without. `Tolerances.Fine` lists
the bounds on the numbers.

### Not modelled

Not in the model: the parsing of command lines by typer and the texts of messages; reading and writing of instances (tspwplib, TSPLIB files); the inside of SCIP and the registration of plug-ins; src/pygraph.cpp, which is not built; colours and sizes of figures; and all code that is in no row of the table above.

## Disagreements between the code and its documentation or evident intention

Each is proved as a theorem (a witness, and the exact condition where possible), unless marked (reading): those were found while reading and
are outside of the model.

| Property | Disagreement |
|---|---|
| C02 | `ReorderTourFromRoot` with an absent root inserts it and drops a vertex |
| C07 | depth-limited depth first search misses vertices within the limit |
| C13 | `pathExtension` does not reduce `last_index`: undefined for some negative prizes, and for step 0 |
| C14 | an empty tour passes the unsigned guard and throws `length_error` |
| C16 | `pathExtensionUntilPrizeFeasible` never updates the prize: it does not stop at the quota; deeper searches miss detours |
| C26 | renaming into a non-empty lookup reuses ids |
| C29 | `getNonSingularConnectedComponentVectors` copies the first components instead of the non-singular ones |
| C31, C32 | self-loops are added to all vertices if one is missing: duplicate loops break the degree row (uninitialised slot) |
| C39 | doubling `numeric_limits<int>::max()` overflows; on two's complement machines the vertex is not separated |
| C40, C65 | the capacities of the minimum cut separation are taken by position from a longer vector, so they can belong to other edges |
| C42, C61 | a second event of the last node resets its counters; increments before the first event are out of bounds |
| C43 | the reader swaps two fields of the summary (positional aggregate) |
| C45 | `path_extension` passes depth and step in the wrong order |
| C53, C66 | unknown vertices dereference an end iterator |
| C57 | the result of a round is that of its last row: a cutoff can be overwritten |
| C59 | the same cost cover row is added again with every new solution |
| C60 | a window of length 1 never branches |
| C63 | time stamps have unpadded milliseconds |
| C67 | rows of the minimum cut separation need not cut off the LP solution |
| C69 | `remove_leaves` calls itself once per layer of leaves and exceeds the recursion limit on long paths |
| C70 | `remove_leaves` can delete the root; `remove_one_connected_components` then deletes everything |
| C72 | one improper pair of paths makes `suurballes_heuristic` raise although other tours are feasible |
| C73 | the fallback of `suurballes_tour_initialization` can return a walk that visits a vertex twice |
| C75 | `random_tour_from_disjoint_paths_map` draws another vertex after the test; a single candidate raises `IndexError` |
| C77 | a vertex that can be inserted without extra cost has infinite gain, so the average gain is infinite and `extensionUnitaryGain` extends nothing |
| C78 | `preorder` and `postorder` recurse once per vertex of a shortest path: long paths exceed the recursion limit |
| C81 | Suurballe's algorithm removes edges from a list while iterating over it and so skips every other edge, and it only goes down from the parent: it misses pairs of edge-disjoint paths and reports costs that are too high |
| C82 | the extracted walks may share an edge of the tree, and may visit a vertex twice |
| C86 | `vertex_disjoint_cost_map` has an entry for the root, and the cost cover separation loops over all vertices: once the upper bound is below that entry a row `2 y_r <= 1` is added, which excludes every tour, the incumbent among them (`C86_wrong`: four vertices, the optimal tour costs 21, an initial tour of cost 35 is enough) |
| C88 | the cost of the start solution is used as an upper bound without any check ("trust the user"): an infeasible start solution that is too cheap removes the optimum, and the status is still `optimal` |
| C92 | `run_algorithm` with cost cover by disjoint paths passes the root's own entry of the map, which is not a bound on the cost of tours: `C92_optimal_lost` |
| C93 | with cost cover by disjoint paths, a start solution that is cheaper than the entry of the root makes the problem infeasible: nothing is returned although the solver was given a feasible tour |
| C89 | `CostCoverEventHandler::scip_exec` compares path costs with `SCIPgetUpperbound`, the bound of the transformed problem; SCIP may have divided the objective by the common divisor of the costs, and the rows then remove the optimum |
| C91 | `run_heuristic` discards the result of `extension_until_prize_feasible`, so its answer can miss the quota although a feasible tour was found (`C91_discarded`); without a cycle through the root an empty tour is passed to the library; the extension variants of Suurballe's heuristic can return a walk through the root twice that passes for feasible (`C91_figure_eight`) |
| C94 | `get_nbatches` with batch size 0 raises ZeroDivisionError (checked by one of its two callers); a batch of size b that starts at -b is empty |
| C95 | `run_batch(only_missing_results=True)` recomputes the missing vials on every call, so batches that run one after the other skip every second block |
| C96 | `infeasible_vials` raises on a file that `missing_vials` tolerates; an instance that cannot be loaded loses the results returned so far; a failed run keeps the stale result of an earlier run |
| C97 | without any result the summary raises KeyError; a walk that is no tour is marked feasible; nothing found is feasible if the quota is not positive |
| C98 | the options `collapse_paths`, `path_depth_limit`, `step_size` of `product_of_model_params` have no effect; `collapse_paths` is not passed to heuristics; vials of relaxations always fail |
| C99 | with `remove_one_connected_components` and no cycle through the root an exact vial fails (undefined behaviour, or ValueError if the root was removed as a leaf) instead of reporting that it is infeasible |
| C100 | a vial with a result but without SCIP statistics is left out of the CSV file silently; one empty statistics file loses the whole file (TypeError); an experiment without results stops the ones after it (KeyError is not caught) |
| C101 | the tailing-off table counts infeasible instances (both bounds 1e20) as optimal and does not count an optimal tour of cost zero; the cost cover table ends with ZeroDivisionError if a run that is not infeasible has lower bound zero |
| C102 | the mean gap leaves out the instances that a heuristic does not solve, and is infinite with one bound of zero |
| C107 | the CSV writers print bounds with six significant digits, so integral bounds from 10^6 on can change and become equal; for a bare file name nothing is written and nothing is reported |
| C108 | the history of the bounds uses `system_clock`: an interval ends before it starts if the clock is set back |
| C109 | a number that is no level of Python means INFO: level 35 writes more messages than level 30 |
| C110 | for an experiment without vials the task range of the script is `0--1`; a batch size of zero is reported as a division by zero by `slurm` |
| C111 | `batch --only-missing-results` runs the list that `missing` last wrote, also if the results or the experiment changed since |
| C112 | `vial` ends with IndexError if the attempt raises |
| C113 | the bound of two days on the time of the script is in seconds instead of hours |
| C114 | `collapse_paths`, `path_depth_limit` and `step_size` of `tsplib` have no effect; `extension` and the relaxation are offered and always fail |
| C115 | with disjoint-path covers, the default of both commands, the status `optimal` can come with any tour below the root's entry |
| C116 | `get_graph_stats` overwrites `biggest_vertex` in its loop and then passes it as the biggest identifier, so `max_disjoint_paths_cost` misses vertices; the pair of the root counts the root twice |
| C117 | the drawings contain lines that are not edges |
| C118 | `run_algorithm` and `run_preprocessing` with their default logger write each message twice |
| C119 | a vertex with a prize and without edges, which networkx allows, makes all wrappers dereference an end iterator |
| C120 | if the input has a self-loop at every vertex, their costs stay in the objective and the reported optimum need not be the cheapest tour; if only some vertices have one the behaviour is undefined |
| C121 | both constraint handlers declare no variable locks although the subtour constraint restricts every edge in both directions; the degree rows lock every variable, so single variables are safe |
| C122 | a londonaq vial whose file lacks a demand is run with the scores of the previous tspwplib vial, or ends the whole batch if there is none |
| C123 | the prize row has the tolerance of SCIP relative to the quota, so for quotas above 10^6 a tour that misses the quota is accepted; `isVarPositive` uses epsilon and not the feasibility tolerance, so a solution that is integral for SCIP can be rejected with no row to cut it off |
| C124 | `pretty_dataframe` replaces the codes of branching strategies in the whole frame if the strategy is a column; it sets the labels of a level to the names of the first columns, which is right for sorted full products only; the heading of `preprocessed_total_cost` lacks its closing `$` |
| C125 | a gap strictly between 0.009 and 0.01 is in neither panel of the figure, and the figure of `MST` has no legend, since `show_legend` is never set again |
| C126 | extension and collapse and path extension and collapse from a breadth first cycle can return a dearer tour for a lower quota, and for a graph with more edges |
| C128 | Suurballe's heuristic only looks at cheapest tours through one vertex; its tour can cost any multiple of the optimum (the vertices whose cheapest tour misses the quota do not count) |
| C129 | the numbers of subtour elimination rows count rows that were created, also those that the solver never got because they are not efficacious; the number of cycle cover rows counts only those that it got |
| C130 | the statistics and the table of tspwplib say nothing about most instances of `simple_branch_cut` (graphs pr152 and gr229, kappa 30 or none), and the file of londonaq nothing about the instance of `dryrun` |
| C132 | `zip` of an experiment whose directory is missing replaces an archive that exists by an empty one; `unzip` replaces newer files by archived ones, also good results by files that cannot be parsed |
| C133 | if the map of costs has different entries for the two directions of an edge, the last key by name counts, so the answer of a heuristic depends on the names of the vertices |
| C134 | the losses and gains are rounded to single precision, so multiplying all costs by 5 can change the tour of a heuristic |
| C135 | ties are broken by the order of the edge list, so the same graph listed in another order can give a tour of another cost (all heuristics but collapse without shortest paths) |
| C136 | the heuristics cannot leave the block of the first cycle: the two that start from a breadth first search can miss all the feasible tours, and have no constant factor |
| C138 | extension and collapse inserts vertices of above average gain although the tour already meets the quota, and collapse only closes runs that fall short of it; so it can make the tour of Suurballe's heuristic dearer by any factor, path extension and collapse never does |
| C139 | losses and gains are compared in single precision: with numbers of four digits different ratios become equal, and the rounded average of equal gains can be below them |
| C140 | the test of `filterMarkedVertices` says that marked vertices are filtered out; they are the ones that are kept. An edge with one marked end passes the edge filter, but is not in the view |
| C141 | `knapsack` declares a variable for the solution of SCIP, never sets it and reports nothing but the return code |
| C142 | with a root between two cycles the first run of `run_preprocessing` returns the root alone, the second run nothing and the third run raises a `KeyError` |
| C143 | a second run of `extensionUnitaryGain`, `extensionUnitaryLoss`, `collapse` or `pathExtensionCollapse` can improve the result of the first; `collapse` reads the original tour in all its rounds although the best tour has changed |
| C144 | `isGraphSimpleCycle` of the solution graph of a tour is false if the tour leaves out a vertex with a smaller number than one it visits, although `isSimpleCycle` accepts the same solution |
| C146 | `joinVariableNames` constructs `VariableIsNullException` for a null pointer without throwing it and then reads the pointer |
| C137 | the enforcement callbacks of the cycle cover handler leave the result that SCIP has set (`SCIP_FEASIBLE`); this is harmless only because the prize row and the subtour handler already exclude what the check callback would reject |
| C103 | the disjoint-path setting of `cost_cover` and all settings of `tailing_off` can report `infeasible` on an instance that the other settings solve to optimality (see C92, C93); the extension variants of Suurballe's heuristic can report less than the optimum with a prize that meets the quota (`C103_below`, from the walk of `C91_figure_eight`), so a gap in the tables can be negative |
| C104 | `basic_solve_pctsp_bind` reads the best solution unless the status is infeasible, also if the search ended early and there is none; it writes the prize of an unknown vertex outside the table and takes one of two conflicting costs silently |
| C148 | an easier instance (lower quota, higher prizes, lower costs, one more edge) can make the heuristics of the experiments return a dearer tour or none; the theorems say for which heuristic and which change this cannot happen |
| C152 | an edge that is listed twice (both directions of a directed edge, say) changes the problem: its first copy counts once per copy in the degree rows and the others never, so tours along it are lost, an edge there and back counts as a tour, and the optimum can be wrong |
| C153 | collapse with shortest paths takes the second and further copies of a repeated edge to be free, because only the first copy gets the cost, and misses cheap tours; all other heuristics ignore the copies |
| C154 | the root argument of extension_unitary_loss (and of path extension with step size 1) has no effect |
| C155 | path extension with the depth limit 3 and collapse depend on the order of the edge list, also if the vertices are numbered in the same way |
| C156 | the subtour handler takes values above epsilon for positive and rejects LP solutions that are integral up to the feasibility tolerance; if all variables of the node are fixed only up to that tolerance, the node with the only feasible tour is dropped and the problem is reported infeasible; the cast of `SCIPgetUpperbound` to `int` cuts off, so a bound just below an integer loses one and the cost cover cuts off the solution that was just found |
| C157 | results.json is kept when a command fails, and then belongs to an earlier experiment; all calls of londonaq share one experiment, as do those of tsplib, so a second call hides the result of the first from every command |
| C158 | the result of a heuristic depends on the direction and starting point with which the initial tour is written: extension by gain only if gains are tied, path extension and collapse in general |
| C159 | both CSV commands write the same file, so one makes it unreadable for the tables of the other; after a new experiment has been set up the CSV file of the old one stays until a vial has a result; in `csv all` an experiment without results stops the others from being written |
| C160 | `tables all` in a directory that does not exist yet ends without writing anything, or leaves out the table of the first dataset; the table of the heuristics is never written, as the line that writes it is a comment |
| C161 | before the first solution is known a node branches after a fixed number of calls, however much its bound rises; after it, a node does not branch while the window still holds a call from before; the gap mixes a bound of the original problem with one of the transformed problem, so multiplying all costs can change where the program branches |
| C162 | the branching strategy `PSCOST` (number 3) does not exist: like every unknown number it leaves SCIP's rules alone, and `relpscost` decides; a maximal depth below -1 turns strong branching off |
| C163 | the log file is opened a second time, emptied and never closed: SCIP's messages are lost, a stream leaks per run, and a killed process loses part of the statistics of finished runs |
| C165 | the enforcement priority of the subtour handler is positive, so `scip_enfolp` is asked about fractional solutions too; when a node is tailing off and the solution is integral, `SCIPbranchLP` finds no candidate and leaves `SCIP_DIDNOTRUN`, which SCIP does not accept as an answer of this callback; `SCIPsolve`'s return code is ignored |
| C166 | the column formats of the table of the heuristics are for three measures per algorithm, but there are four |
| (reading) | `modelPrizeCollectingTSP` stores the address of a local map in the problem data (valid only with copy elision) |
| (reading) | `SCIPgetBestSol` may be null in two overloads of `solvePrizeCollectingTSP` |
| (reading) | the second overload of `getNonSingularConnectedComponentVectors` calls functions that do not exist; `addHeuristicTourToSolver` is never instantiated; the header declares `PCTSPseparateMaxflowMincut` with a parameter the definition lacks |
| (reading) | src/pygraph.cpp includes a header that does not exist and is in no list of sources: it is not built |
| (reading) | `scip_check` of the subtour handler puts an array with a slot per variable on the stack, of length zero if presolving fixes all variables; its entries only reach a debug message |
| (reading) | `PCTSPcreateConsSubtour` and `createCycleCoverCons` pass uninitialised `consdata` |
| (reading) | `CycleCoverConshdlr::scip_enfolp` and `scip_enfops` do not set the result |
| (reading) | `includeShortestPathCostCover` ignores its argument `cost_map`; `SCIPgetUpperbound` is truncated to `int` |
| (reading) | `separateCycleCover` receives the vertex distance map as prizes (same property slot) |
| (reading) | `getNShortestPathCostCoverCutsAdded` and `getNDisjointPathsCostCoverCutsAdded`, which nothing calls, dereference a handler that may be absent |
| (reading) | `CycleCoverConshdlr::scip_sepasol` does not reset the result |
| (reading) | `run_algorithm` does not pass `cycle_cover` and `simple_rules_only` |
| (reading) | `setBranchingRandomSeeds` has no effect; `timePointToString` writes local time with suffix `Z` |

## Trusted base

* Lean 4.33.0 kernel. Axioms: at most `propext`, `Classical.choice`, `Quot.sound`; none added. `AXIOMS.md` (generated by
  `tools/axioms.py`) lists the axioms of every theorem of the manifest.
* The faithfulness of the definitions in `Verif/Model` to the cited lines (manual translation), with the simplifications above.
* The specifications of boost and SCIP above.

## Conformance with the repository's tests

The code cannot be run here, but the repository's tests record what it did when its authors ran it. `Verif/Tests` evaluates the model on
the fixtures of those tests and checks the values they expect: all of test_heuristic.cpp (with `FloatOps.float`, binary32), test_walk.cpp,
test_graph.cpp and test_rename.cpp; of test_suurballe.py the complete final state on the graph of Suurballe's paper, its paths and costs;
the preprocessing, tailing-off, separation, branching, logging and knapsack tests; the optimal costs and the numbers of cost cover rows that
the tests of the solver expect. No disagreement was found. These are tests of the faithfulness of the model and count for no property.
Not replayed: tests that need a data file (tspwplib graphs, COMPLETE25) or only check that a file exists; counts that depend on the order of
SCIP's events.

## Mutation tests

`/verif/seeded/LOG.jsonl` has one line for every edited definition. The edit is made in a scratch copy; every module that depends on it is
elaborated again with error recovery, so that a theorem counts as failed exactly if its proof no longer goes through, directly or through a
lemma.
