{"id": "C01", "title": "Reordering a tour is a pure rotation", "statement": "For every closed tour (first vertex = last vertex) that visits the root, ReorderTourFromRoot returns a closed tour that starts and ends at the root, has the same length, visits every vertex the same number of times (apart from the repeated end vertex), walks over exactly the same multiset of directed consecutive pairs, and therefore has the same total cost and the same tour prize; calling it twice changes nothing more.", "quantifier": "every list of vertices, every root, every graph and cost/prize map", "why_tests_cant": "rotation offset, duplicates and tour length are unbounded; a test fixes one tour and one root", "anchors": ["include/pctsp/walk.hh:ReorderTourFromRoot"]}
{"id": "C02", "title": "Reordering with an absent root corrupts the tour silently", "statement": "If the root is not on the (non-empty) input, ReorderTourFromRoot does not report an error: it returns the input without its first vertex followed by the root, a list of the same length that claims to end at the root. Hence the claim 'the result always visits exactly the input vertices' is false; it holds exactly when the root is on the tour or the tour is empty.", "quantifier": "every list of vertices and every root", "why_tests_cant": "the failure is an absence of an error report; need to cover all inputs with absent root", "anchors": ["include/pctsp/walk.hh:ReorderTourFromRoot"]}
{"id": "C03", "title": "Edges of a walk", "statement": "getEdgesInWalk returns, for a list of m>=2 vertices, exactly m-1 edges whose i-th element joins the i-th and (i+1)-th vertex, if every consecutive pair is joined in the graph; otherwise it throws EdgeNotFoundException naming the first non-adjacent pair. It returns the empty list for fewer than two vertices.", "quantifier": "every graph (including multigraphs and self-loops) and every vertex list", "why_tests_cant": "walk length and graph are unbounded; the exception must name the first missing pair for all inputs", "anchors": ["include/pctsp/walk.hh:getEdgesInWalk"]}
{"id": "C04", "title": "Total cost and total prize are additive", "statement": "The cost of a walk is the sum of its edge costs; splitting the walk at any vertex splits the cost; the cost of the reversed walk is the same in graphs without parallel edges; totalPrizeOfTour is the sum of the prizes of all vertices but the last one and is undefined behaviour exactly on the empty list. The total prize of a graph is what every tour through all vertices collects and, if no prize is negative, the most that any tour collects. The text of a walk tells its vertices and their order: different walks have different texts.", "quantifier": "every graph, cost map, prize map, and walk", "why_tests_cant": "additivity is a relation between unboundedly many calls", "anchors": ["include/pctsp/walk.hh:totalCost", "include/pctsp/walk.hh:totalPrize", "include/pctsp/walk.hh:totalPrizeOfTour", "include/pctsp/walk.hh:totalPrizeOfGraph", "include/pctsp/walk.hh:walkToString"]}
{"id": "C05", "title": "Subpath of a cycle", "statement": "For a closed tour with k>=1 edges and positions 0<=start,end<=k, getSubpathOfCycle returns the vertices met when walking forward from position start to position end around the cycle, never repeating the duplicated end vertex; consecutive vertices of the result are consecutive on the cycle.", "quantifier": "every closed tour and every pair of positions", "why_tests_cant": "wrap-around happens for a quadratic number of index pairs per tour length", "anchors": ["include/pctsp/graph.hh:getSubpathOfCycle"]}
{"id": "C06", "title": "Depth-limited breadth first search is exact", "statement": "breadthFirstSearch(g, s, marked, parent, d) marks a previously unmarked vertex v if and only if there is a walk of at most d edges from s to v all of whose vertices after s were unmarked; following parents from any newly marked vertex leads back to s along edges of g in at most d steps. Vertices marked before stay marked.", "quantifier": "every graph, source, initial marking and depth limit", "why_tests_cant": "reachability over all graphs and depths; level counters can drift only in unusual shapes", "anchors": ["include/pctsp/graph.hh:breadthFirstSearch", "include/pctsp/graph.hh:pathInTreeFromParents"]}
{"id": "C07", "title": "Depth-limited depth first search is sound but incomplete", "statement": "Every vertex newly marked by depthFirstSearch is reachable from the source by at most depth_limit edges through previously unmarked vertices; but the converse is false: a vertex within the depth limit can be missed because an earlier, deeper branch marked an intermediate vertex at the depth limit.", "quantifier": "every graph, source, marking, depth limit (soundness); existence of a counterexample (incompleteness)", "why_tests_cant": "soundness ranges over all graphs; the incompleteness needs a specific graph shape and adjacency order", "anchors": ["include/pctsp/graph.hh:depthFirstSearch"]}
{"id": "C08", "title": "Parent-chain walk always terminates", "statement": "pathInTreeFromParents terminates for every parent table, even cyclic ones, returning a list of at most table-size+2 vertices that ends in the target, in which every vertex is preceded by its parent; if the chain reaches a self-parent vertex within the bound, the list starts with this vertex.", "quantifier": "every parent table and target", "why_tests_cant": "cyclic tables would loop forever in the unbounded version; must hold for every table", "anchors": ["include/pctsp/graph.hh:pathInTreeFromParents"]}
{"id": "C09", "title": "Common neighbours", "statement": "neighborIntersection(u,v) returns, in non-decreasing order, exactly the vertices adjacent to both u and v (as many copies as the smaller number of parallel edges).", "quantifier": "every graph and pair of vertices", "why_tests_cant": "all graphs; parallel edges and self-loops matter", "anchors": ["include/pctsp/heuristic.hh:neighborIntersection"]}
{"id": "C10", "title": "Smallest loss selection is the first argmin", "statement": "indexOfSmallestLoss returns -1 iff no extension is feasible and otherwise the first feasible index whose loss is not larger than the loss of any feasible index; chooseExtensionPathFromCandidates returns index -1 iff no candidate path has strictly more prize than the internal path, else the first such candidate of smallest unitary loss.", "quantifier": "every vector of losses (any totally ordered loss type, any rounding) and every list of candidate paths", "why_tests_cant": "ties, negative losses and all-infeasible vectors for unbounded vector lengths", "anchors": ["src/heuristic.cpp:indexOfSmallestLoss", "include/pctsp/heuristic.hh:chooseExtensionPathFromCandidates"]}
{"id": "C11", "title": "Swapping a path into a tour", "statement": "swapPathsInTour with first<last replaces exactly positions first..last by the new path and leaves the rest in place; with first>last (segment through the root) it replaces the segment that wraps around the root and yields a closed tour which starts and ends at the old root whenever the new path contains it; indices out of range, and a wrapping path without the root, are undefined behaviour.", "quantifier": "every tour, path and index pair", "why_tests_cant": "unbounded tours and index pairs; iterator invalidation is undefined behaviour invisible to tests", "anchors": ["include/pctsp/heuristic.hh:swapPathsInTour"]}
{"id": "C12", "title": "Path extension preserves tours and never loses prize", "statement": "For non-negative prizes, any graph, any simple closed tour from the root, step_size>=1 and any depth limit, pathExtension finishes without undefined behaviour or exception and leaves a simple closed tour of the graph from the same root whose prize is at least the prize of the input tour; it is the input, or it has more prize and at least three vertices.", "quantifier": "every graph, tour, cost map, non-negative prize map, step, depth and every float rounding", "why_tests_cant": "loop over unboundedly many data dependent swaps; memory safety of list splicing", "anchors": ["include/pctsp/heuristic.hh:pathExtension", "include/pctsp/heuristic.hh:findExtensionPaths"]}
{"id": "C13", "title": "Path extension is unsafe with negative prizes or zero step", "statement": "The memory safety of pathExtension does not hold without its hidden preconditions: with a negative prize there is an input on which it advances a list iterator past the end (last_index is not reduced modulo the tour length), and with step_size=0 every tour with at least one edge triggers an out-of-range iterator comparison.", "quantifier": "existence of inputs (negative prize); every tour with k>=1 (zero step)", "why_tests_cant": "undefined behaviour may appear to work in a test run", "anchors": ["include/pctsp/heuristic.hh:pathExtension", "include/pctsp/walk.hh:isInternalVertexOfWalk"]}
{"id": "C14", "title": "Path extension terminates and is the identity when nothing can be extended", "statement": "For non-negative prizes and a positive step the result of pathExtension is reached by at most num_vertices replacements, each of which replaces the interior of a segment of step_size edges, not through the root, by a path through at least one and fewer than path_depth_limit outside vertices with more prize; if path_depth_limit<2, or step_size is at least the number of edges of the tour, or there is no external path with more prize, the tour is returned unchanged.", "quantifier": "every graph, tour, prize/cost map, step, depth", "why_tests_cant": "termination and no-op behaviour quantified over all inputs", "anchors": ["include/pctsp/heuristic.hh:pathExtension"]}
{"id": "C15", "title": "Extension until feasible preserves tours for all prizes", "statement": "pathExtensionUntilPrizeFeasible with step_size>=1 on a simple closed tour from the root finishes without undefined behaviour for arbitrary (also negative) prizes, leaves a simple closed tour of the graph from the root and never decreases the prize; the result is the input or has at least three vertices.", "quantifier": "every graph, tour, cost and prize map, quota, step, depth, rounding", "why_tests_cant": "unbounded loop with wrap-around splicing", "anchors": ["include/pctsp/heuristic.hh:pathExtensionUntilPrizeFeasible"]}
{"id": "C16", "title": "Extension until feasible does not stop at the quota", "statement": "The function is documented to extend the tour until it is prize feasible, but the prize is computed once before the loop: there is an input where the tour becomes prize feasible after one swap and the function keeps extending (raising the cost); the value of a quota above the initial prize does not influence the result. What does hold: an already feasible tour is left untouched, and if the result is infeasible then the search for extensions reports nothing on it, or step_size is too large for the tour, or the prize has risen by num_vertices or more (num_vertices extensions were made). With path_depth_limit 2 the search reports nothing exactly if no single vertex detour raises the prize; with a larger limit it can miss a detour that raises the prize.", "quantifier": "existence (overshoot, missed detours); every graph, tour, prize and cost map, quota, step>=1 and depth (the rest)", "why_tests_cant": "existing tests only check the final prize; the stop condition needs all histories", "anchors": ["include/pctsp/heuristic.hh:pathExtensionUntilPrizeFeasible"]}
{"id": "C17", "title": "Unitary gain extension only inserts new vertices between neighbours", "statement": "extensionUnitaryGain and extensionUntilPrizeFeasible keep the input tour as a subsequence with the same end points, insert only vertices that were not on the tour, each at most once, and only between two consecutive tour vertices both adjacent to it, so a simple closed tour of the graph stays one.", "quantifier": "every graph, tour, cost and prize map, and every float behaviour", "why_tests_cant": "unbounded number of insertions, each dependent on the previous ones", "anchors": ["include/pctsp/heuristic.hh:extensionUnitaryGain", "include/pctsp/heuristic.hh:extensionUntilPrizeFeasible", "include/pctsp/heuristic.hh:findVertexWithBiggestGain"]}
{"id": "C18", "title": "Unitary gain extension terminates and gains prize", "statement": "extensionUnitaryGain and extensionUntilPrizeFeasible terminate after at most as many insertions as vertices outside the tour, never use the uninitialised insert position, and for non-negative prizes every inserted vertex has strictly positive prize.", "quantifier": "every graph, tour, cost map, prize map", "why_tests_cant": "the while loop has no iteration bound in extensionUnitaryGain; uninitialised reads are invisible to tests", "anchors": ["include/pctsp/heuristic.hh:extensionUnitaryGain", "include/pctsp/heuristic.hh:unitaryGainOfVertex"]}
{"id": "C19", "title": "Extension until prize feasible reaches the quota or a dead end", "statement": "When extensionUntilPrizeFeasible returns, the tour prize is at least the quota or no vertex outside the tour has positive unitary gain for any tour edge; it inserts nothing if the tour was feasible, and every insertion but the last was made while the prize was below the quota.", "quantifier": "every graph, tour, cost map, prize map, quota", "why_tests_cant": "the exit condition must be right for every history of insertions", "anchors": ["include/pctsp/heuristic.hh:extensionUntilPrizeFeasible"]}
{"id": "C20", "title": "Gain computation rejects tours that are not walks", "statement": "If the tour contains a consecutive pair that is not an edge, and some vertex is outside the tour, extensionUnitaryGain throws std::invalid_argument instead of extending; an empty tour with an outside vertex is undefined behaviour.", "quantifier": "every graph and vertex list", "why_tests_cant": "error branch for all positions of the missing edge", "anchors": ["include/pctsp/heuristic.hh:unitaryGainOfVertex"]}
{"id": "C21", "title": "Collapse never increases cost and returns a tour", "statement": "For a simple closed tour of the graph from the root and non-negative prizes, collapse returns a simple closed tour of the graph starting and ending at the root whose cost is at most the cost of the input, with and without the shortest path option, with it for non-negative costs (for negative ones the only other outcome is Boost's negative edge exception); a tour with at least three vertices is never reduced to an edge walked back and forth.", "quantifier": "every graph, tour, cost and prize map, quota, root, and every shortest path returned by Dijkstra", "why_tests_cant": "search over all subpaths and all external paths; cost bookkeeping must match the assembled tour in all cases", "anchors": ["include/pctsp/heuristic.hh:collapse", "include/pctsp/heuristic.hh:findCollapsePaths", "include/pctsp/heuristic.hh:getSubPathOverTour"]}
{"id": "C22", "title": "Collapse keeps prize feasibility", "statement": "The result of collapse is either the input tour rotated to the root or has prize at least the quota; hence a prize feasible tour stays prize feasible.", "quantifier": "every graph, tour, cost and prize map (also negative prizes), quota, root", "why_tests_cant": "relates the feasibility test made on partial sums to the prize of the final tour for all inputs", "anchors": ["include/pctsp/heuristic.hh:collapse"]}
{"id": "C23", "title": "Path extension and collapse returns nothing or a feasible tour", "statement": "pathExtensionCollapse returns the empty list or a simple closed tour of the graph from the root with prize at least the quota, which has at least three vertices unless it is the input itself.", "quantifier": "every graph, simple closed input tour from the root, non-negative prizes, costs (non-negative if shortest paths are used), quota, step_size, depth limit, rounding", "why_tests_cant": "composition of unboundedly many extension and collapse rounds", "anchors": ["include/pctsp/heuristic.hh:pathExtensionCollapse"]}
{"id": "C24", "title": "Path extension and collapse never worsens a feasible tour", "statement": "If the input tour of pathExtensionCollapse is prize feasible, the result is a feasible tour of cost at most the input's cost; it returns the empty list only if no step size made the tour prize feasible.", "quantifier": "same as above", "why_tests_cant": "monotonicity across all rounds", "anchors": ["include/pctsp/heuristic.hh:pathExtensionCollapse"]}
{"id": "C25", "title": "Renaming is a bijection with round trip", "statement": "Starting from an empty lookup, renameVertices/renameEdges assign the ids 0..n-1 in order of first appearance, equal vertices get equal ids and different vertices different ids; getOldVertices/getOldEdges of the result return the input, and getNewEdges of the input returns the same new edges.", "quantifier": "every list of vertices or edges over any vertex type", "why_tests_cant": "bijectivity is a relation over all pairs of an unbounded list", "anchors": ["include/pctsp/renaming.hh:renameVertices", "include/pctsp/renaming.hh:renameEdges", "include/pctsp/renaming.hh:getOldEdges", "include/pctsp/renaming.hh:getNewEdges"]}
{"id": "C26", "title": "Renaming into a non-empty lookup loses the bijection", "statement": "renameVertices and renameEdges restart ids at 0, so when the lookup already holds entries, a fresh vertex can be given an id that belongs to another vertex while the insertion is silently dropped: distinct vertices then share an id and the round trip fails.", "quantifier": "existence of a lookup and list; the bijection claim restricted to empty lookups is C25", "why_tests_cant": "tests always start from an empty bimap", "anchors": ["include/pctsp/renaming.hh:findOrInsertVertex", "include/pctsp/renaming.hh:renameEdges"]}
{"id": "C27", "title": "Renaming preserves costs and prizes", "statement": "After renaming a graph without repeated edges and filling the cost and prize maps, every renamed edge has the cost of its original edge and every renamed vertex the prize of its original; hence the cost and prize of any tour computed on the renamed graph equal those of the tour mapped back.", "quantifier": "every edge list with distinct undirected edges, cost map and prize map", "why_tests_cant": "needs all tours and all labelings", "anchors": ["include/pctsp/renaming.hh:fillCostMapFromRenamedMap", "include/pctsp/renaming.hh:fillRenamedVertexMap"]}
{"id": "C28", "title": "Component vectors partition the vertices", "statement": "Given a labelling of the vertices by component ids 0..m-1, getConnectedComponentsVectors returns m vectors; vector c holds exactly the vertices labelled c, in increasing order, so every vertex is in exactly one vector.", "quantifier": "every graph and labelling", "why_tests_cant": "partition property over all labellings", "anchors": ["include/pctsp/data_structures.hh:getConnectedComponentsVectors"]}
{"id": "C29", "title": "Non-singular component vectors", "statement": "getNonSingularConnectedComponentVectors is meant to return the components with at least two vertices. That is false: it returns the first m components where m is the number of non-singular ones. It is correct iff all components listed before the last returned one are non-singular.", "quantifier": "existence of a wrong labelling; every labelling for the partial claim", "why_tests_cant": "needs a labelling with a singleton component id before a larger component", "anchors": ["include/pctsp/data_structures.hh:getNonSingularConnectedComponentVectors"]}
{"id": "C30", "title": "isSimpleCycle decides simple cycles", "statement": "isSimpleCycle(edges) is true iff the given edges (as a multiset, each used once) are the edges of one closed walk v0,v1,...,vm-1,v0 with m>=2 distinct vertices; it is false for the empty list and for lists with self-loops, disjoint cycles, branches, or dangling paths.", "quantifier": "every edge list over every graph", "why_tests_cant": "equivalence with an existential over all orderings of an unbounded edge list", "anchors": ["src/separation.cpp:isSimpleCycle"]}
{"id": "C31", "title": "Self-loops for vertex variables", "statement": "After addSelfLoopsToGraph on a graph without self-loops every vertex has exactly one self-loop, all other edges are unchanged and keep their order; solving twice does not add loops again because hasSelfLoopsOnAllVertices then holds. A graph with loops on some but not all vertices ends with two loops on these vertices.", "quantifier": "every graph", "why_tests_cant": "graph shape unbounded; partially looped graphs are not in the tests", "anchors": ["src/preprocessing.cpp:addSelfLoopsToGraph", "include/pctsp/preprocessing.hh:hasSelfLoopsOnAllVertices", "include/pctsp/algorithms.hh:PCTSPmodelWithoutSECs"]}
{"id": "C32", "title": "Degree constraint", "statement": "For a simple graph with one self-loop per vertex, the degree row of every vertex has exactly one +1 entry for each incident non-loop edge and the entry -2 for its self-loop, with both sides 0; a 0/1 assignment satisfies it iff the number of chosen incident edges is twice the chosen self-loop. With a doubled self-loop the row construction reads an array slot that was never written.", "quantifier": "every simple graph and assignment; existence for the defect", "why_tests_cant": "all graphs and all 0/1 assignments", "anchors": ["include/pctsp/constraint.hh:PCTSPaddDegreeTwoConstraint"]}
{"id": "C33", "title": "The integer program accepts exactly the feasible tours", "statement": "A 0/1 assignment to edge and self-loop variables satisfies the degree, root and prize rows and is accepted by the subtour constraint check (the chosen non-loop edges form a simple cycle) iff the chosen edges are the edges of a simple cycle through the root and the chosen self-loops are exactly its vertices and their total prize is at least the quota.", "quantifier": "every simple graph with self-loops, prize map, quota, root and every 0/1 assignment", "why_tests_cant": "2^|E| assignments for every graph", "anchors": ["include/pctsp/algorithms.hh:PCTSPmodelWithoutSECs", "include/pctsp/constraint.hh", "src/subtour_elimination.cpp:scip_check"]}
{"id": "C34", "title": "Subtour elimination rows are valid", "statement": "Every row added by addSubtourEliminationConstraint for a vertex set S and target v is satisfied by the incidence vector of every simple cycle of the graph through the root, so no feasible tour is ever cut off.", "quantifier": "every graph, vertex set, target and every simple cycle through the root", "why_tests_cant": "all sets and all cycles", "anchors": ["src/subtour_elimination.cpp:addSubtourEliminationConstraint"]}
{"id": "C35", "title": "Subtour elimination rows reject malformed sets", "statement": "addSubtourEliminationConstraint throws VertexNotFoundException if neither root nor target is in S, VertexInWrongSetException if both are, and adds a row otherwise (given self-loops for every vertex of S and the target).", "quantifier": "every set, root and target", "why_tests_cant": "error branches over all sets", "anchors": ["src/subtour_elimination.cpp:addSubtourEliminationConstraint"]}
{"id": "C36", "title": "Disjoint tour separation cuts off every disconnected integral solution", "statement": "For an integral solution satisfying the degree rows whose support has a component of at least two vertices without the root, PCTSPseparateDisjointTour adds rows, at least one of which is violated by the solution; it adds exactly one row per vertex of each such component.", "quantifier": "every graph and every integral solution of the degree rows", "why_tests_cant": "all solutions; a missed component would make branch and cut loop or accept subtours", "anchors": ["include/pctsp/subtour_elimination.hh:PCTSPseparateDisjointTour", "src/subtour_elimination.cpp:PCTSPseparateSubtour"]}
{"id": "C37", "title": "Cycle cover rows are valid and separated", "statement": "If the set S contains the root and its prize is below the quota, the row x(E(S)) - y(S) <= -1 added by addCycleCover is satisfied by every prize feasible simple cycle through the root; and it is violated by every integral solution whose root component is a simple cycle on S.", "quantifier": "every graph, non-negative prizes, quota, set and cycle", "why_tests_cant": "all sets and all cycles", "anchors": ["include/pctsp/cycle_cover.hh:addCycleCover", "include/pctsp/cycle_cover.hh:separateCycleCover"]}
{"id": "C38", "title": "Cost cover rows are valid", "statement": "If twice the shortest path distance (or the vertex disjoint path cost) from the root to v exceeds the upper bound, then the row y_r + y_v <= 1 added for v is satisfied by every tour of cost at most the upper bound, for non-negative costs.", "quantifier": "every graph, costs, upper bound and every tour", "why_tests_cant": "all tours of all graphs", "anchors": ["include/pctsp/cost_cover.hh:separateCostCoverPaths", "include/pctsp/cost_cover.hh:includeShortestPathCostCover", "src/cost_cover.cpp:addCoverInequality"]}
{"id": "C39", "title": "Cost cover misses unreachable vertices", "statement": "For a vertex that cannot be reached from the root the distance is INT_MAX and doubling it overflows (undefined behaviour; wraps to -2 on two's complement), so the vertex is not separated although no tour visits it; the separation is exact when every distance is at most INT_MAX/2.", "quantifier": "existence for the overflow; every bounded distance map for the positive claim", "why_tests_cant": "signed overflow is undefined behaviour", "anchors": ["include/pctsp/cost_cover.hh:includeShortestPathCostCover"]}
{"id": "C40", "title": "Min-cut separation uses the wrong capacities", "statement": "PCTSPseparateMaxflowMincut restricts the support edges to the root component but keeps indexing the capacities of all solution edges, so an edge can get the capacity of another edge; the capacities are right if no support edge outside the root component precedes an edge inside it.", "quantifier": "existence for the mismatch; every edge list for the partial claim", "why_tests_cant": "requires a fractional solution with several components in a specific edge order", "anchors": ["src/subtour_elimination.cpp:PCTSPseparateMaxflowMincut", "src/separation.cpp:getCapacityVectorFromSol"]}
{"id": "C41", "title": "Tailing off window", "statement": "After any sequence of LP gaps is pushed with window m, the rolling list holds exactly the last min(m, number of pushes) gaps in order (none for m<1); isNodeTailingOff is true iff the window is full, has at least two entries, and the first minus the last gap is below the threshold.", "quantifier": "every history of pushes, window and threshold", "why_tests_cant": "histories are unbounded", "anchors": ["src/subtour_elimination.cpp:pushIntoRollingLpGapList", "src/subtour_elimination.cpp:isNodeTailingOff"]}
{"id": "C42", "title": "Node statistics lose counts on repeated events", "statement": "Node statistics should count all rows added at a node. That is false: a repeated node event for the most recently recorded node resets its statistics, dropping the counts recorded so far. If no event repeats for the latest node, each node's count equals the sum of the increments made while it was the focus node, and node records stay indexed by node id. In every history a record holds the bounds and the parent (1 for the root) of the last event that wrote it.", "quantifier": "every history of node events and increments", "why_tests_cant": "interleavings of solver events are unbounded", "anchors": ["src/event_handlers.cpp:NodeEventhdlr", "src/event_handlers.cpp:incrementNumSecMaxflowMincut"]}
{"id": "C43", "title": "Summary statistics YAML round trip", "statement": "Writing summary statistics and reading them back should return the same record. It does not: two fields are swapped by the reader. The round trip is the identity iff these two fields are equal, every other field is always preserved, and reading twice-written statistics (two round trips) is the identity. A file in which a counter is missing, negative or no integer is rejected with an exception.", "quantifier": "every statistics record", "why_tests_cant": "tests compare few fields with equal values", "anchors": ["src/stats.cpp:writeSummaryStatsToYaml", "src/stats.cpp:readSummaryStatsFromYaml"]}
{"id": "C44", "title": "Branching priorities", "statement": "After setStrongBranchingStrategy, for every list of branching rules that includes fullstrong and relpscost with pairwise distinct names, fullstrong has the strictly highest priority, relpscost the second highest and all others are strictly lower, whatever the initial priorities were; setRelpscostBranchingStrategy makes relpscost strictly highest; strategies 3, 4 and unknown numbers change nothing; applying a strategy twice equals applying it once. Without a depth, strong branching at the top of the tree has no depth limit.", "quantifier": "every list of branching rules and initial priorities", "why_tests_cant": "solver plug-in lists vary; must hold for all initial priorities", "anchors": ["src/branching.cpp:setStrongBranchingStrategy", "src/branching.cpp:setRelpscostBranchingStrategy", "src/branching.cpp:setBranchingStrategy"]}
{"id": "C45", "title": "Python path_extension swaps its arguments", "statement": "The Python function path_extension passes (path_depth_limit, step_size) to a binding that takes (step_size, path_depth_limit), so calling it with its defaults never changes any tour, and the result equals the intended call only when both numbers are equal.", "quantifier": "every graph and tour", "why_tests_cant": "a no-op looks like 'nothing to extend' in a test", "anchors": ["pctsp/algorithms/path_extension_collapse.py:path_extension", "pctsp/pypctsp.cpp:pathExtensionBind"]}
{"id": "C46", "title": "Vertices of edges, self-loops, and induced edges", "statement": "getVerticesOfEdges returns the sorted distinct end points of the edges; getSelfLoops returns one self-loop per vertex in order or throws NoSelfLoopFoundException for the first vertex without one; getEdgesInducedByVertices returns for every pair of positions i<j of the vertex list with an edge exactly one such edge.", "quantifier": "every graph, edge list and vertex list", "why_tests_cant": "all graphs", "anchors": ["include/pctsp/graph.hh:getVerticesOfEdges", "include/pctsp/graph.hh:getSelfLoops", "include/pctsp/graph.hh:getEdgesInducedByVertices"]}
{"id": "C47", "title": "Cut rows get the intended coefficients", "statement": "fillPositiveNegativeVars lists the positive variables with coefficient +1 followed by the negative ones with -1, so that the activity of the row is the sum over the positive minus the sum over the negative variables; addRow reports a cutoff only if the solver reported infeasibility and reports separation only for efficacious rows.", "quantifier": "every pair of variable lists, every assignment, every solver answer", "why_tests_cant": "all vectors, all assignments", "anchors": ["src/sciputils.cpp:fillPositiveNegativeVars", "src/sciputils.cpp:addRow"]}
{"id": "C48", "title": "Unitary gain extension inserts the best vertex at the best place, above the initial average", "statement": "Every insertion made by extensionUnitaryGain has the greatest unitary gain among all vertices outside the tour and all tour edges at that moment, and its gain is strictly above the average (over the vertices outside the input tour) of the best gain of each vertex, computed once for the input tour. It stops only when no insertion has positive gain or the best one is not above that average.", "quantifier": "every graph, walk, cost and prize map, every IEEE-like float behaviour including infinities and NaN", "why_tests_cant": "the greedy choice is a maximum over all vertex/edge pairs at every step of an unbounded loop, with float comparisons that include infinities", "anchors": ["include/pctsp/heuristic.hh:360", "include/pctsp/heuristic.hh:418", "include/pctsp/heuristic.hh:433", "include/pctsp/heuristic.hh:488"]}
{"id": "C49", "title": "Unitary gain extension never makes a tour cheaper", "statement": "With non-negative prizes, extensionUnitaryGain and extensionUntilPrizeFeasible never insert a vertex whose insertion reduces the tour cost: the tour cost never decreases, and an insertion that would both reach the quota and make the tour cheaper is refused even if it is the only one.", "quantifier": "every graph, walk, cost map, non-negative prize map, quota; the refusal is witnessed by a concrete instance", "why_tests_cant": "tests use metric costs, where the extra cost is never negative; the sign of the quotient only shows on graphs that violate the triangle inequality", "anchors": ["src/heuristic.cpp:9", "include/pctsp/heuristic.hh:400", "include/pctsp/heuristic.hh:536"]}
{"id": "C50", "title": "Collapse misses no shortcut", "statement": "With non-negative prizes, take any run of consecutive tour vertices that contains the root, collects less than the quota and would reach it with the next tour vertex. The tour returned by collapse costs at most as much as closing that run through any single vertex outside the run that is adjacent to both ends and collects enough prize; with the shortest path option (non-negative costs) it also costs at most as much as closing the run along a shortest path that avoids the run's inner vertices, if that path collects enough prize.", "quantifier": "every graph, simple closed tour, run, closing vertex, cost and prize map, quota, tie-breaking of Dijkstra's heap", "why_tests_cant": "optimality over all runs and closing vertices of arbitrary graphs; a heuristic that silently skips candidates still returns valid tours", "anchors": ["include/pctsp/heuristic.hh:600", "include/pctsp/heuristic.hh:664", "include/pctsp/heuristic.hh:727"]}
{"id": "C51", "title": "Shortest path with blocked vertices", "statement": "dijkstraShortestPathBlacklist from an unmarked source with non-negative costs signals the target exactly if it can be reached without entering a marked vertex; the parent map then describes a simple path of unmarked vertices and the distance map holds the least length of such a walk. It throws a negative edge error only if a negative edge can be reached.", "quantifier": "every graph, cost map, marking, source, target, heap tie-breaking", "why_tests_cant": "blocking works by painting vertices black in the middle of Boost's search; correctness for all graphs and orders of events needs an invariant", "anchors": ["include/pctsp/walk.hh:189", "include/pctsp/walk.hh:238"]}
{"id": "C52", "title": "The heuristic bindings answer in the caller's vertex names", "statement": "For a simple graph given as an edge list with symmetric costs and non-negative prizes for every vertex that has an edge, and a simple closed tour from the root in the caller's names, path_extension_bind, path_extension_until_prize_feasible_bind, extension_unitary_gain_bind and extension_until_prize_feasible_bind return normally a simple closed tour from the same root of the caller's graph with at least the same prize; collapse_bind returns such a tour with at most the same cost, prize feasible if the input was; path_extension_collapse_bind returns the empty list or a prize feasible tour. None of them turns a tour with at least three vertices into one with fewer than three.", "quantifier": "every vertex type, non-negative costs if shortest paths are used, edge list, dictionary order, tour, quota, positive step and depth", "why_tests_cant": "composition of renaming, algorithm and renaming back over all labelings", "anchors": ["pctsp/pypctsp.cpp:collapseBind", "pctsp/pypctsp.cpp:pathExtensionBind", "pctsp/pypctsp.cpp:pathExtensionCollapseBind", "pctsp/pypctsp.cpp:extensionUnitaryGainBind"]}
{"id": "C53", "title": "A vertex without edges makes the bindings undefined", "statement": "If the root, a vertex of the tour or a vertex of the prize dictionary has no incident edge, every heuristic binding dereferences the end iterator of the lookup (undefined behaviour) instead of reporting an error (the Python wrappers do pass the prizes of vertices without edges, see C119).", "quantifier": "every edge list, tour and dictionaries with such a vertex", "why_tests_cant": "undefined behaviour can pass any test", "anchors": ["pctsp/pypctsp.cpp:collapseBind", "include/pctsp/renaming.hh:getNewVertex", "include/pctsp/renaming.hh:fillRenamedVertexMap"]}
{"id": "C54", "title": "Cost entries that match no edge are rejected, missing ones cost nothing", "statement": "If the cost dictionary names two known vertices that are not joined, the bindings throw EdgeNotFoundException for their ids; an edge without a cost entry silently keeps cost zero.", "quantifier": "every simple edge list and cost dictionary", "why_tests_cant": "quantifies over all dictionaries", "anchors": ["include/pctsp/renaming.hh:fillCostMapFromRenamedMap"]}
{"id": "C55", "title": "A warm start is accepted iff it is a feasible tour", "statement": "The solution vector that is handed to the solver for a list of distinct non-loop heuristic edges (1 on the edges and on the self-loops of their end points, 0 elsewhere) satisfies all rows of the model and the subtour check iff the edges are those of a simple cycle through the root with at least three vertices whose prize meets the quota; an end point without a self-loop makes the call throw NoSelfLoopFoundException.", "quantifier": "every simple graph with self-loops, edge list, prize map, quota and root", "why_tests_cant": "all graphs and all edge lists; a rejected warm start is silent", "anchors": ["include/pctsp/algorithms.hh:addHeuristicEdgesToSolver", "src/algorithms.cpp:addHeuristicVarsToSolver"]}
{"id": "C56", "title": "Cut form of the separated rows", "statement": "For every solution of the degree rows, the subtour elimination row of a set S and target v is violated iff the total value of the edges with exactly one end in S is less than twice the value of v; the cycle cover row of S is violated iff that total is less than 2.", "quantifier": "every simple graph with self-loops, set, target and every solution of the degree rows", "why_tests_cant": "all sets and all (fractional) solutions", "anchors": ["src/subtour_elimination.cpp:addSubtourEliminationConstraint", "include/pctsp/cycle_cover.hh:addCycleCover"]}
{"id": "C57", "title": "The result of a separation round is that of its last added row", "statement": "Only efficacious rows reach the solver; the result that a separation round of the disjoint tour separator reports is decided by the last efficacious row alone (cutoff if adding it was reported infeasible, separated otherwise), and is unchanged if there is none; so a cutoff reported for an earlier row of the same round is lost when a later row is added without one.", "quantifier": "every graph with self-loops, labelling, solver answers and earlier rows", "why_tests_cant": "depends on the sequence of solver answers over all rounds", "anchors": ["src/sciputils.cpp:addRow", "include/pctsp/subtour_elimination.hh:PCTSPseparateDisjointTour"]}
{"id": "C58", "title": "A 0/1 solution is accepted iff nothing can be separated", "statement": "For every 0/1 solution of the rows of the model, the check of the subtour constraint accepts it iff the separation round of the disjoint tours finds no row: no rejected solution is left without a violated row, and no accepted one is cut off.", "quantifier": "every simple graph with self-loops, prize map, quota, root and every 0/1 solution", "why_tests_cant": "all graphs and all integer solutions", "anchors": ["src/subtour_elimination.cpp:scip_check", "include/pctsp/subtour_elimination.hh:PCTSPseparateDisjointTour"]}
{"id": "C59", "title": "Cost cover counters and duplicate rows", "statement": "After the rows for the initial solution and any sequence of new best solutions, the number of cost cover rows that the handler reports equals the number of rows it added, the presolve count is the number added for the initial solution (none if its cost is not positive), and the total is the number of pairs of a solution and a vertex whose distance exceeds the cost of the solution; as costs decrease, every row that was added before is added again, so the count is not a count of distinct rows.", "quantifier": "every graph with self-loops, distances and history of upper bounds", "why_tests_cant": "histories of solver events are unbounded", "anchors": ["src/cost_cover.cpp:scip_exec", "src/cost_cover.cpp:getNumConssAdded", "src/algorithms.cpp:solvePrizeCollectingTSP"]}
{"id": "C60", "title": "Branching instead of cutting", "statement": "After any history of enforcement calls at any nodes, a call whose LP solution is a simple cycle is feasible; any other call branches iff the LP was solved to optimality or is unbounded and the last m>=2 gaps of that node alone (gaps of other nodes and of feasible calls do not count) improved by less than the threshold, and is infeasible otherwise; in particular a window of one never branches.", "quantifier": "every history of enforcement calls, window, threshold and gap arithmetic", "why_tests_cant": "interleavings of nodes are unbounded", "anchors": ["src/subtour_elimination.cpp:scip_enfolp", "src/subtour_elimination.cpp:isNodeTailingOff"]}
{"id": "C61", "title": "Node statistics out of bounds", "statement": "Reporting rows and node events accesses the node statistics out of bounds exactly if rows are reported for node 0 or for a node whose number exceeds those of all node events so far, or if an event for node 0 comes while there is no record; nothing is thrown in any history.", "quantifier": "every history of node events and increments", "why_tests_cant": "interleavings of solver events are unbounded; out of bounds access may go unnoticed", "anchors": ["src/event_handlers.cpp:incrementNumSecDisjointTour", "src/event_handlers.cpp:addCurrentNode"]}
{"id": "C62", "title": "The Python reader of the summary", "statement": "SummaryStats.from_yaml returns exactly the record that was written, and so disagrees with readSummaryStatsFromYaml on the same file iff the number of shortest path cost cover rows differs from the number of disjoint path cost cover rows added before solving.", "quantifier": "every statistics record", "why_tests_cant": "tests compare few fields with equal values", "anchors": ["pctsp/algorithms/data_structures.py:SummaryStats", "src/stats.cpp:readSummaryStatsFromYaml"]}
{"id": "C63", "title": "Time stamps with unpadded milliseconds", "statement": "The fraction of a second in a time stamp denotes the milliseconds iff they are zero or at least 100, because leading zeros are dropped; so time stamps are not ordered like the times and two times in the same second can have stamps of equal meaning.", "quantifier": "every number of milliseconds", "why_tests_cant": "a test uses the clock or a fixed time", "anchors": ["src/event_handlers.cpp:timePointToString"]}
{"id": "C64", "title": "Minimum cut rows are valid", "statement": "Whatever values and residual capacities the maximum flow returns, every row that the minimum cut separation offers is satisfied by every tour from the root, and the number it reports is the number of rows it offered.", "quantifier": "every graph with self-loops, LP solution, edge order, flow answer and tour", "why_tests_cant": "validity quantifies over all tours and all flow answers", "anchors": ["src/subtour_elimination.cpp:PCTSPseparateMaxflowMincut", "src/subtour_elimination.cpp:addSubtourEliminationConstraint"]}
{"id": "C65", "title": "Minimum cut separation finds small cuts", "statement": "With capacities in the right order, a minimum cut round that offers no row proves that every vertex set separating the root from a vertex of its component is crossed by LP value at least 2; the converse holds if a million times every value is an integer, and fails without that, because capacities are rounded down.", "quantifier": "every graph, LP solution, correct maximum flow and correct search", "why_tests_cant": "exponentially many cuts; the failing converse needs values such as 1/3", "anchors": ["src/subtour_elimination.cpp:PCTSPseparateMaxflowMincut", "src/separation.cpp:getCapacityVectorFromSol", "include/pctsp/subtour_elimination.hh:getUnreachableVertices"]}
{"id": "C66", "title": "Minimum cut separation with an isolated root", "statement": "The minimum cut separation is undefined exactly if no edge at the root has positive LP value; this never happens for a nonnegative solution of the degree rows that visits the root.", "quantifier": "every graph, LP solution, edge order and flow answer", "why_tests_cant": "the failing input is excluded by other rows of the model, which tests always include", "anchors": ["src/subtour_elimination.cpp:PCTSPseparateMaxflowMincut", "include/pctsp/renaming.hh:getNewVertex"]}
{"id": "C67", "title": "Which minimum cut rows cut off the LP solution", "statement": "A row of the minimum cut round is violated iff its cut is below twice the LP value of its target, so all rows are violated if every vertex of the root component is visited with value 1; with fractional vertices a round can offer only satisfied rows and miss a violated one, because every vertex of a found cut is skipped as a target.", "quantifier": "every graph and LP solution for the rule, existence for the miss", "why_tests_cant": "the miss needs a fractional LP solution with nested cuts", "anchors": ["src/subtour_elimination.cpp:PCTSPseparateMaxflowMincut"]}
{"id": "C68", "title": "A separation call with both methods", "statement": "A separation call offers the rows of the disjoint tour method followed by those of the minimum cut method, each only if its flag is set, counts each and reports that nothing was found iff no row was added; with both flags set a call without rows proves that all subtour elimination rows hold, whatever the edge order, and the converse holds for exact capacities if vertices are visited with value 0 or 1.", "quantifier": "every graph, LP solution of the degree rows, edge order, flag setting, correct flow and search", "why_tests_cant": "exponentially many rows; unit tests call one method on one solution", "anchors": ["src/subtour_elimination.cpp:PCTSPseparateSubtour", "src/subtour_elimination.cpp:PCTSPconshdlrSubtour::scip_sepalp"]}
{"id": "C69", "title": "Leaf removal keeps exactly the largest subgraph with two neighbours everywhere", "statement": "Removing leaves returns the induced subgraph on the largest set of vertices each of which has two other neighbours in the set (self-loops do not count); it keeps every simple cycle and creates none, and a second application changes nothing. The function is recursive, one call per layer of leaves: on a path of m vertices it raises RecursionError iff twice the remaining recursion depth is below m + 2, so long paths fail.", "quantifier": "every undirected graph, every recursion limit", "why_tests_cant": "the result is a maximality statement over all vertex sets; the failure depends on the length of a path", "anchors": ["pctsp/preprocessing/preprocessing.py:remove_leaves", "pctsp/preprocessing/preprocessing.py:degree_without_self_loops"]}
{"id": "C70", "title": "Preprocessing never loses a tour through the root", "statement": "Whatever the flags, preprocessing returns an induced subgraph with exactly the same simple cycles through the root; with removal of one-connected components and a root on some cycle, exactly the vertices on a cycle through the root remain. A missing root raises KeyError and the two cutoff flags never succeed. If leaf removal is on and the root is peeled as a leaf, the root itself is deleted and, with the third flag, the result is empty.", "quantifier": "every undirected graph, flags, correct component and biconnected component functions", "why_tests_cant": "quantifies over all cycles of the graph", "anchors": ["pctsp/lab/run_algorithm.py:run_preprocessing", "pctsp/preprocessing/preprocessing.py:remove_one_connected_components", "pctsp/preprocessing/preprocessing.py:remove_components_disconnected_from_vertex"]}
{"id": "C71", "title": "A tour from two disjoint paths", "statement": "Two paths with the same first and the same last vertex and at least two vertices each become the closed walk along the first and back along the second, everything else raises ValueError; for symmetric costs the cost is the sum of both path costs; no vertex is visited twice iff the paths are simple and internally disjoint.", "quantifier": "every pair of paths, every symmetric cost", "why_tests_cant": "unit tests check one pair", "anchors": ["pctsp/algorithms/heuristic.py:tour_from_vertex_disjoint_paths"]}
{"id": "C72", "title": "Suurballe's heuristic returns a least-cost prize-feasible simple tour", "statement": "If every entry is a proper pair of paths with a cost, the heuristic returns a tour among those with enough prize, no repeated vertex and cost below the largest machine integer, of least cost and the first such in the order of the mapping, and the empty list iff there is none. The first improper entry raises ValueError and the first missing cost KeyError, even if a feasible tour was found before.", "quantifier": "every mapping, prize function, quota, cost map", "why_tests_cant": "optimality over all entries with ties", "anchors": ["pctsp/algorithms/heuristic.py:suurballes_heuristic"]}
{"id": "C73", "title": "The initial tour for extension", "statement": "The initialisation agrees with Suurballe's heuristic if that finds a tour; otherwise it returns the first tour of greatest positive prize and the empty list iff no tour has positive prize. In the fallback the result can visit a vertex twice although simple tours are available.", "quantifier": "every mapping, prize function, quota; existence for the last claim", "why_tests_cant": "maximality over all entries; the defect needs a root entry", "anchors": ["pctsp/algorithms/heuristic.py:suurballes_tour_initialization"]}
{"id": "C74", "title": "A random tour of a complete graph is prize feasible when possible", "statement": "For every sequence of random draws the tour starts and ends at the root, visits no vertex twice, and collects the quota unless it visits all vertices; it has at least three vertices if the graph has, and it is minimal: without its last vertex it would lack prize or have fewer than three vertices. A root without prize or outside of the graph raises.", "quantifier": "every graph, prizes, quota and random sequence", "why_tests_cant": "random draws cannot be enumerated", "anchors": ["pctsp/algorithms/heuristic.py:random_tour_complete_graph"]}
{"id": "C75", "title": "The random disjoint-path tour is not the one that was tested", "statement": "The returned tour belongs to a different vertex than the one whose paths passed the length test, so it may be a degenerate tour root-v-root; with a single candidate the function always raises IndexError, with none ValueError.", "quantifier": "every mapping and random sequence", "why_tests_cant": "depends on random draws", "anchors": ["pctsp/algorithms/heuristic.py:random_tour_from_disjoint_paths_map"]}
{"id": "C76", "title": "The cycle of the breadth first search", "statement": "For a vertex of an undirected graph the search for a cycle raises nothing, for every order of iteration over sets; it returns the empty list iff the vertex is on no simple cycle, and otherwise a simple cycle through the vertex, closed by repeating it. The cycle has at most one edge more than a shortest cycle through the vertex, and one more is possible.", "quantifier": "every undirected graph with or without self-loops, every breadth first search tree, every set order", "why_tests_cant": "quantifies over all cycles and set orders", "anchors": ["pctsp/algorithms/heuristic.py:find_cycle_from_bfs", "pctsp/algorithms/heuristic.py:path_to_vertex_in_tree"]}
{"id": "C77", "title": "A detour without extra cost stops the extension by unitary gain", "statement": "If some vertex of positive prize outside the tour can be inserted without extra cost, extension by unitary gain returns the tour unchanged, however valuable other insertions are: the gain and so the average gain are infinite and nothing exceeds it. Extension until prize feasible, below the quota, does insert, and its first insertion costs nothing.", "quantifier": "every graph, tour, cost and prize; every rounding of floats that preserves signs", "why_tests_cant": "holds for every tour with such a vertex, and depends on float division by zero", "anchors": ["include/pctsp/heuristic.hh:extensionUnitaryGain", "include/pctsp/heuristic.hh:calculateAverageGain", "include/pctsp/heuristic.hh:extensionUntilPrizeFeasible", "src/heuristic.cpp:unitaryGain"]}
{"id": "C78", "title": "Numbering a tree and testing ancestors", "statement": "preorder and postorder list every vertex of the shortest path tree exactly once, ancestors before (after) their descendants, the attribute is the position in the list, and is_ancestor(a, b) holds exactly if a is on the shortest path to b. This needs as many nested calls as the longest shortest path has vertices; with fewer both functions, and the whole algorithm, raise RecursionError.", "quantifier": "every directed graph, every answer of Dijkstra's algorithm, every recursion limit", "why_tests_cant": "quantifies over all trees and depths; tests use trees far below the recursion limit", "anchors": ["pctsp/suurballe/suurballe.py:preorder", "pctsp/suurballe/suurballe.py:postorder", "pctsp/suurballe/suurballe.py:is_ancestor"]}
{"id": "C79", "title": "Transformed costs", "statement": "The transformed cost of every edge between reached vertices is not negative and zero along the shortest paths. Along a walk the transformed costs add up to the cost of the walk plus the distance of its first and minus the distance of its last vertex, so the order of walks between two vertices is kept.", "quantifier": "every directed graph with nonnegative costs, every walk", "why_tests_cant": "quantifies over all graphs and walks", "anchors": ["pctsp/suurballe/suurballe.py:adjust_edge_cost", "pctsp/suurballe/suurballe.py:adjust_edge_cost_for_graph"]}
{"id": "C80", "title": "Suurballe's algorithm terminates and raises nothing", "statement": "On every directed graph without self-loops and with nonnegative costs the algorithm terminates and raises nothing, although it removes elements from lists while it iterates over them, provided that the recursion limit is at least the number of vertices of the longest shortest path. The source is reported at cost 0.", "quantifier": "every such graph, every answer of Dijkstra's algorithm, every recursion limit", "why_tests_cant": "termination and freedom from exceptions on all inputs; the lists shrink during iteration", "anchors": ["pctsp/suurballe/suurballe.py:suurballe_shortest_vertex_disjoint_paths", "pctsp/suurballe/suurballe.py:process", "pctsp/suurballe/suurballe.py:scan", "pctsp/suurballe/suurballe.py:scan_parent", "pctsp/suurballe/suurballe.py:traverse_subtree", "pctsp/suurballe/suurballe.py:add_edges_incident_to_endpoints"]}
{"id": "C81", "title": "The cost of two edge-disjoint paths is never too low, but may be too high", "statement": "If a finite cost is reported for a vertex then there are two paths from the source to it without a common edge that together cost at most that much; if no such pair exists sys.maxsize is reported. The converse is false: a vertex with two edge-disjoint paths may be reported to have none, and a finite reported cost may exceed the cost of a pair, even on graphs without opposite edges.", "quantifier": "every directed graph without self-loops and with nonnegative costs; two concrete graphs for the converse", "why_tests_cant": "compares with the minimum over all pairs of paths on all graphs", "anchors": ["pctsp/suurballe/suurballe.py:suurballe_shortest_vertex_disjoint_paths", "pctsp/suurballe/suurballe.py:edge_disjoint_path_cost", "pctsp/suurballe/suurballe.py:process"]}
{"id": "C82", "title": "Extracted paths are walks within the reported cost, but need not be disjoint", "statement": "Extraction terminates and raises nothing. For a vertex with a finite reported cost it returns two walks from the source to the vertex along edges of the graph that together cost at most the reported cost, and an edge that is used more than once is on the shortest path tree. The two walks may share an edge, and one walk may visit a vertex twice. For the source the answer is ([source], []), without a pair it is ([], []).", "quantifier": "every directed graph without self-loops and with nonnegative costs, every target; concrete graphs for the negative part", "why_tests_cant": "quantifies over all graphs and targets; termination", "anchors": ["pctsp/suurballe/suurballe.py:extract_suurballe_edge_disjoint_paths"]}
{"id": "C83", "title": "On graphs with split vertices the reported cost of two edge-disjoint paths is exact", "statement": "If every edge that avoids the source either leads to a vertex with no other edge into it or comes from a vertex with at most one edge into it, as in the graph made by splitting every vertex into a tail and a head, then every finite reported cost is the least cost of two paths without a common edge, and sys.maxsize is reported exactly for the vertices without two such paths of cost below sys.maxsize. The defects of C81 cannot occur there.", "quantifier": "every such directed graph without self-loops and with nonnegative costs, every target", "why_tests_cant": "optimality over all pairs of paths of all graphs; the loops skip edges, which is only harmless because of the structure of the graph", "anchors": ["pctsp/suurballe/suurballe.py:suurballe_shortest_vertex_disjoint_paths", "pctsp/suurballe/suurballe.py:edge_disjoint_path_cost"]}
{"id": "C84", "title": "On graphs with split vertices the extracted paths are disjoint, simple and of least cost", "statement": "On the graphs of C83 the two extracted walks have no common edge and visit the source only at the start and the target only at the end. If moreover every vertex has at most one edge into it or at most one edge out of it, both are simple paths that meet only at their ends, their total cost is the reported one, and no two paths without a common edge cost less.", "quantifier": "every such graph, every target with a finite reported cost", "why_tests_cant": "disjointness and optimality over all graphs", "anchors": ["pctsp/suurballe/suurballe.py:extract_suurballe_edge_disjoint_paths"]}
{"id": "C85", "title": "The disjoint paths map of a vertex is the cheapest tour through it", "statement": "For an undirected graph with nonnegative symmetric costs, a Suurballe run on its split graph that ends without an exception yields two maps with the same keys in the same order. The cost entry of a vertex other than the root is the least cost of a simple tour through the root and that vertex; a vertex has no entry only if no such tour costs less than sys.maxsize. Its pair of paths closes to a tour of that cost. Given these maps, Suurballe's heuristic raises nothing when the root has no self-loop, and what it returns is empty or a tour from the root that meets the quota and is cheapest among all tours through some vertex.", "quantifier": "every undirected graph, costs, root, quota and prizes, every shortest path tree", "why_tests_cant": "least cost over all tours of all graphs", "anchors": ["pctsp/preprocessing/preprocessing.py:vertex_disjoint_cost_map", "pctsp/preprocessing/preprocessing.py:undirected_vertex_disjoint_paths_map", "pctsp/algorithms/heuristic.py:suurballes_heuristic", "pctsp/suurballe/suurballe.py:suurballe_shortest_vertex_disjoint_paths"]}
{"id": "C86", "title": "Cost cover rows from the disjoint paths map are valid exactly until the bound drops below the entry of the root", "statement": "The disjoint paths map also has an entry for the root: in a graph without self-loops it is the least cost of two closed walks from the root that share nothing else, so at most twice the cost of any two edges at the root, and it can exceed the cost of an optimal tour. The cost cover rows for these distances hold for every tour of cost at most the upper bound as long as that bound is at least the entry of the root. Once the upper bound is smaller, a row is added that no tour at all satisfies, including the incumbent and all cheaper tours.", "quantifier": "every graph, costs, upper bound and every tour", "why_tests_cant": "validity for all tours; the wrong row only appears when the incumbent is cheaper than two detours at the root", "anchors": ["pctsp/preprocessing/preprocessing.py:vertex_disjoint_cost_map", "include/pctsp/cost_cover.hh:separateCostCoverPaths", "src/cost_cover.cpp:separateThenAddCostCoverInequalities"]}
{"id": "C87", "title": "Vertices and edges read off a tour's solution are the tour's", "statement": "For the 0/1 solution that belongs to a tour of at least three vertices, in a graph where every vertex has its self-loop: the solution's vertices are the tour's vertices in increasing order, the solution's edges are the tour's edges each once in the order of the edge map, without self-loops, and their end points are the consecutive pairs of the tour. If some vertex has no self-loop, reading the vertices raises an edge-not-found error that names the first such vertex, whatever the solution is.", "quantifier": "every graph, tour, solution and order of the edge map", "why_tests_cant": "all graphs, tours and hash orders", "anchors": ["src/solution.cpp:getSolutionVertices", "src/solution.cpp:getSolutionEdges"]}
{"id": "C88", "title": "The branch and cut solver returns a feasible tour, an optimal one when it says so, and never loses the optimum to its own rows", "statement": "Called from Python with a simple graph without self-loops, non-negative costs, prizes for all vertices and a start solution made of edges of the graph, and given that SCIP meets its specification with an unscaled objective: the call does not raise, and the edges returned are none or the edges, each once, of a tour through the root with at least three vertices that meets the quota. If the status is optimal that tour costs the least among all such tours, and if the status is infeasible there is none, provided that the start solution costs at least as much as some feasible tour (or costs nothing, or both cost cover options are off) and that every disjoint paths distance is at most the cost of every feasible tour through its vertex. Without that proviso the statements hold for the tours that have no vertex further from the root than the cost of the start solution, and the solver can report an optimum that is not one: for a start solution of two edges it returns a tour of cost 13 although there is one of cost 10. No callback is undefined on any solution of the linear relaxation, and a solver with the assumed specification exists for every input.", "quantifier": "every graph, costs, prizes, quota, root, start solution, combination of options, heap order, order of the edge map, and every behaviour of SCIP within its specification", "why_tests_cant": "optimality over all tours, for all inputs and for every sequence of callbacks; rows that cut off the optimum only show on particular instances", "anchors": ["pctsp/pypctsp.cpp:pySolvePrizeCollectingTSP", "src/algorithms.cpp:solvePrizeCollectingTSP", "src/algorithms.cpp:modelPrizeCollectingTSP"]}
{"id": "C89", "title": "Cost cover rows are compared with the bound of the scaled problem and can cut off the optimum", "statement": "SCIP may divide the objective function by a common divisor k of the costs, and the cost cover events compare path costs with the upper bound of that scaled problem. The returned edges are still those of a feasible tour or none, and infeasible is still only reported if no feasible tour is kept by the rows of the start solution. But optimal only means that the tour costs no more than the feasible tours all of whose vertices have a distance of at most its own cost divided by k: there is an instance with even costs where a tour of cost 12 is returned with the status optimal although a feasible tour costs 10.", "quantifier": "every graph, costs, prizes, quota, root, start solution, options, divisor and every behaviour of SCIP within its specification", "why_tests_cant": "needs costs with a common divisor and an incumbent found before the optimum; the guarantee quantifies over all tours", "anchors": ["src/cost_cover.cpp:scip_exec", "src/algorithms.cpp:solvePrizeCollectingTSP"]}
{"id": "C90", "title": "Extension by unitary loss inserts the vertex of least loss, below the initial average", "statement": "For a tour of at least two vertices and any prizes, also negative ones, extending by unitary loss returns normally, and the result is reached by inserting outside vertices one after the other between consecutive vertices that are both joined to them. Each inserted vertex has positive prize, and its extra cost divided by its prize is the least over all vertices with positive prize and all places of the current tour. It is smaller than the mean, over the edges of the given tour that have something to insert, of the least loss at that edge; the only exception is the first insertion when there is just one such edge. When the extension stops, no insertion with a loss below that mean is left. The mean is determined by the tour if numbers that compare equal are equal.", "quantifier": "every graph, tour, costs, prizes and every floating point arithmetic whose comparison is a strict weak order and reflects the sign of integers", "why_tests_cant": "optimality of each step over all vertices and places, for all inputs and all roundings", "anchors": ["include/pctsp/heuristic.hh:extensionUnitaryLoss", "include/pctsp/heuristic.hh:pathExtension", "src/heuristic.cpp:averageUnitaryLoss"]}
{"id": "C91", "title": "What run_heuristic returns for every heuristic name", "statement": "Let the graph have non-negative costs and prizes. If there is a cycle through the root, the heuristic that extends a breadth first cycle and collapses it (BFS-EC) returns the edges of a tour from the root with at least three vertices that costs no more than the extended cycle and meets the quota if the extended cycle does; the variant with path extension (BFS-PEC) returns nothing or a feasible tour. Without a cycle through the root both pass an empty tour to the library, which is undefined. Suurballe's heuristic returns nothing or a feasible tour that is cheapest among the tours through one of its vertices, and nothing only if no pair of disjoint paths closes to a tour that meets the quota and costs less than sys.maxsize. Its extension variants return tours if some pair of paths closes to a tour that meets the quota and costs less than sys.maxsize, or to one with a positive prize that is larger than that of the closed walk of the root's own entry; they are undefined if no pair has a positive prize; otherwise they can return a walk that visits the root twice although no feasible tour exists. BFS-EC throws away the result of its first extension and can so return a tour below the quota although a feasible one was found. The three names that are no heuristics raise NotImplementedError, and empty maps raise ValueError. For the depth limit and the step size None and 0 are the same, and the same as the number of vertices and 10; no collapse_paths is the same as False; the heuristics without path extension ignore all three.", "quantifier": "every graph, costs and prizes (non-negative), quota, root, heuristic name, depth limit and step size, order of iteration of sets, heap choices and floating point arithmetic within their specifications", "why_tests_cant": "the guarantees hold for all graphs and all tie-breaks; the failure needs a particular pair of maps", "anchors": ["pctsp/lab/run_algorithm.py:run_heuristic"]}
{"id": "C92", "title": "What run_algorithm reports", "statement": "Let the graph be simple without self-loops, with non-negative costs and prizes, and let Suurballe's algorithm end without an exception. An exact algorithm whose heuristic, if one is chosen, returns normally reports nothing (no edges, cost 0, prize 0) or the edges of a feasible tour with its true cost and prize. If the status is optimal, this is a cheapest feasible tour; if it is infeasible, there is none; if SCIP keeps start solutions, the report is never worse than the heuristic's. This needs: no cost cover inequalities or an unscaled objective (optimality only); with cost cover by shortest paths, distances below the int limit; with cost cover by disjoint paths, that no feasible tour is cheaper than the root's entry of the map of disjoint paths. If the heuristic finds a feasible tour of positive cost below that entry, then nothing is reported and the status is never optimal: on the complete graph with four vertices the optimal tour is found by Suurballe's heuristic and then declared infeasible by the exact algorithm. A heuristic algorithm reports the cost and prize of the tour it finds, or nothing with cost and prize 0. Other algorithm names raise NotImplementedError.", "quantifier": "every graph, costs, prizes, quota, root, model parameters, and every behaviour of SCIP, networkx and tspwplib within their specifications", "why_tests_cant": "it composes Suurballe's algorithm, a heuristic, the solver and the report for all inputs and all statuses; the lost optimum appears only for certain costs at the root", "anchors": ["pctsp/lab/run_algorithm.py:run_algorithm", "pctsp/algorithms/algorithms.py:solve_pctsp"]}
{"id": "C93", "title": "A feasible start solution is never lost, unless the distance of the root exceeds its cost", "statement": "Assume that SCIP keeps a start solution that passes its checks. If the heuristic edges given to the solver are those of a feasible tour, in any order and direction, and the path distances given by the caller are no more than the cost of the feasible tours through the vertex, the solver returns the edges of a feasible tour that costs no more, whatever the status, and the status is not infeasible. If instead the cost cover by disjoint paths is on and the distance given for the root is larger than the positive cost of the start solution, then nothing is returned and the status is never optimal, even if the start solution was the optimal tour.", "quantifier": "every graph, costs, prizes, quota, root, start solution, options and every behaviour of SCIP within its specification, including time limits", "why_tests_cant": "SCIP may stop at any time with any status; a test sees one run", "anchors": ["src/algorithms.cpp:modelPrizeCollectingTSP", "src/algorithms.cpp:solvePrizeCollectingTSP", "include/pctsp/algorithms.hh:addHeuristicEdgesToSolver"]}
{"id": "C94", "title": "Batches cover an experiment exactly once", "statement": "The number of batches for n vials and batch size b > 0 is n/b rounded up, for n below 2^52 and b up to 2^53. Running the batches that start at 0, b, 2b, ... runs every vial exactly once, in the order of the experiment; the result files after running all batches are those after running the whole list at once, if no attempt ends its process. Batch size 0 raises ZeroDivisionError. A start below zero counts from the end, and a batch of size b at start -b runs nothing.", "quantifier": "every list of vials, every batch size, every rounding of the division that is monotone and exact on integers up to 2^53, every outcome of the attempts", "why_tests_cant": "the number of vials, the batch size and the rounding are arbitrary; the count must agree with the slices for all of them", "anchors": ["pctsp/lab/lab.py:Lab.run_batch", "pctsp/lab/lab.py:get_nbatches", "pctsp/lab/lab.py:Lab.run_experiment_from_vial_list"]}
{"id": "C95", "title": "Batches restricted to missing results, one after the other, skip every second block", "statement": "With only_missing_results the batch is taken from the vials that have no readable result at the time of the call. If all batches compute that list before any of them writes a result, every missing vial is run exactly once. If the batches run one after the other and every attempt succeeds, the vial at position p of the list of missing vials gets a result iff p / b is even; so all missing vials get a result iff there are at most b of them. If instead every call starts at 0, all missing vials have a result after as many calls as there are blocks.", "quantifier": "every list of vials with distinct identifiers, every state of the result files, every batch size", "why_tests_cant": "the set of skipped vials depends on how many results are missing and on the batch size; with one block nothing is skipped", "anchors": ["pctsp/lab/lab.py:Lab.run_batch", "pctsp/lab/lab.py:Lab.missing_vials"]}
{"id": "C96", "title": "What running vials returns and writes", "statement": "Running a list of vials returns, if no attempt ends the run, the results of those attempts that produced one, in order. The result file of a vial is that of its last finished attempt: an attempt that fails before a result exists leaves the file as it was, so a stale result of an earlier run stays. If an instance cannot be loaded or the process dies at some vial, the files of the vials before it are written, those after it are untouched, and no results are returned. The list of missing vials contains exactly the vials whose file is absent or not parseable, and the listing fails iff a file has an invalid format; then a batch of missing vials fails too and runs nothing, while a batch of all vials does not read the files. The list of infeasible vials contains exactly the vials whose stored prize is below the quota; unlike the list of missing vials it also fails if a file is not parseable.", "quantifier": "every list of vials with distinct identifiers, every state of the files, every outcome of every attempt", "why_tests_cant": "failures can occur at any position and in any combination", "anchors": ["pctsp/lab/lab.py:Lab.run_experiment_from_vial_list", "pctsp/lab/lab.py:Lab.missing_vials", "pctsp/lab/lab.py:Lab.infeasible_vials", "pctsp/lab/lab.py:Lab.read_results_from_file"]}
{"id": "C97", "title": "The summary of an experiment", "statement": "Reading results fails iff a file has an invalid format. The summary has one row for every vial with a readable result and no other rows, in the order of the vials. A row is marked feasible iff its prize reaches the quota; then its objective and overshoot are those of the result, otherwise they are missing. The rows that are not feasible are those of the infeasible vials. The summary raises KeyError iff there is no result at all. If the algorithm reports nothing or a feasible tour and the quota is positive, a row is marked feasible iff a feasible tour is reported, and the objective is its cost; with a quota that is not positive a run that found nothing is marked feasible with objective 0. For the extension variants of Suurballe's heuristic the mark can be wrong: there is an instance without any feasible tour whose row is feasible with an objective.", "quantifier": "every experiment with distinct identifiers and every state of the result files", "why_tests_cant": "the join must be right for every combination of missing and present results, and the mark for every result the algorithms can report", "anchors": ["pctsp/apps/csv_app.py:experiment_summary_df", "pctsp/lab/lab.py:Lab.read_results_from_file"]}
{"id": "C98", "title": "The parameters of an experiment's vials, and those that have no effect", "statement": "The product of parameters makes one vial for every combination of instance, preprocessing and model parameters, with distinct identifiers if the generator never repeats one. The product of model parameters has one set of parameters per algorithm name, in order, without a first tour and without cost cover inequalities, with subtour separation exactly for the exact algorithm. An algorithm is marked exact, heuristic or neither as it is one of the exact, heuristic or relaxation names. The arguments collapse_paths, path_depth_limit and step_size of the product influence the result of no algorithm: they are stored only for the algorithm that ignores them. The collapse_paths setting of a heuristic vial never influences its result, although there is an instance where using it would give a cheaper tour. A vial of a relaxation, or of the extension algorithm alone, never gets a result.", "quantifier": "every list of names and options, every instance, every behaviour of the externals", "why_tests_cant": "that a parameter has no effect is a statement about all inputs; that vials never get a result about all runs", "anchors": ["pctsp/lab/run_algorithm.py:run_algorithm", "pctsp/compare/product_of_params.py:product_of_model_params", "pctsp/lab/run_algorithm.py:run_heuristic"]}
{"id": "C99", "title": "Preprocessing and exact solving together answer the original instance", "statement": "A vial is preprocessed and then solved. For every combination of the implemented preprocessing steps the preprocessed graph has the same feasible tours with the same costs and prizes. If some cycle goes through the root, the preprocessed graph meets what the algorithms need, and the exact algorithm reports nothing or a feasible tour of the original graph with its cost and prize there; optimal means that no feasible tour of the original graph is cheaper, infeasible that the original graph has none. If one-connected components are kept, the exact algorithm answers in the same way even without a cycle, provided that the root has an edge after the preprocessing, and it keeps one if leaves are kept too. If no cycle goes through the root and one-connected components are removed or the root has no edge after the preprocessing, no exact run has a result, although the instance is just infeasible: the run raises ValueError if the root was removed before, and is otherwise undefined (without a heuristic) because the root has no edge.", "quantifier": "every simple graph with non-negative costs and prizes, every root and quota, every combination of preprocessing steps, every correct networkx, every SCIP that meets the stated assumption", "why_tests_cant": "each instance has its own set of tours, and the claim compares the answer for a reduced graph with all tours of the original one", "anchors": ["pctsp/lab/lab.py:Lab.run_experiment_from_vial_list", "pctsp/preprocessing/preprocessing.py", "pctsp/lab/run_algorithm.py:run_algorithm", "pctsp/lab/run_algorithm.py:run_preprocessing"]}
{"id": "C100", "title": "Rows of the CSV file of a branch and cut experiment", "statement": "The CSV file of a branch and cut experiment is written iff no result file is invalid, some vial has a result, no file of SCIP statistics is empty or invalid, and some vial has statistics. It has one row per vial that has both a result and statistics, in the order of the vials, each with its own result and statistics, and marked feasible iff the prize reaches the quota; a vial with a result but without statistics is left out. When all experiments are written, those before the first that fails are written and none after it; an experiment that exists but has no result yet is such a failure.", "quantifier": "all lists of vials with distinct identifiers, all contents of the result and statistics files, all lists of experiments", "why_tests_cant": "the files may be present, absent, empty or damaged in any combination for any number of vials", "anchors": ["pctsp/apps/csv_app.py:summary_stats_df", "pctsp/apps/csv_app.py:write_branch_cut_experiment_to_csv", "pctsp/apps/csv_app.py:write_all_experiments_to_csv"]}
{"id": "C101", "title": "What the tables of branch and cut results count as optimal", "statement": "The cost cover table cannot be written (ZeroDivisionError) iff some run whose status is not infeasible has the lower bound zero. Otherwise it counts a run as solved to optimality iff its status is optimal, its bounds agree, and they are not SCIP's infinity; a run has no gap, and does not enter the mean gap, iff it is infeasible or one of its bounds is SCIP's infinity; any other gap is zero iff the bounds agree. The tailing-off table counts a run iff its bounds agree and are not zero, whatever the status is. So an infeasible instance, for which SCIP reports infinity as both bounds, counts as optimal in the tailing-off table and not in the cost cover table, and an optimal tour of cost zero does not count in the first and prevents the second. The number in a group is the number of its rows with the mark; over all groups every marked row counts once, unless its key has a missing value.", "quantifier": "all bounds up to 2^70 that are multiples of 2^-52, every status, every monotone correct rounding, all tables and groupings", "why_tests_cant": "the claim is about every pair of floating point bounds and every table", "anchors": ["pctsp/apps/tables_app.py:cost_cover_table", "pctsp/apps/tables_app.py:tailing_off_table"]}
{"id": "C102", "title": "What the table of heuristics compares with", "statement": "The heuristics table has one row for each pair of an instance and an algorithm with its parameters, that of the first run with this pair. Its lower bound is that of the first exact run of the instance with the disjoint-path cost cover, and missing if there is none. A row is marked optimal iff the heuristic has an objective and it equals the lower bound, which is not zero; if the lower bound is valid, the objective is then the least cost of a feasible tour. A row has no gap iff the heuristic has no objective, or there is no bound, or both are zero; rows without a gap do not count in the mean gap, and one bound of zero with a positive objective makes the mean infinite.", "quantifier": "all lists of heuristic and exact rows with objectives up to 2^53, every correct rounding, every instance", "why_tests_cant": "the claim compares each row with all feasible tours of its instance, and holds for all tables", "anchors": ["pctsp/apps/tables_app.py:get_heuristics_df", "pctsp/apps/tables_app.py:heuristics_table"]}
{"id": "C103", "title": "The experiments: what is offered, what they contain, and when their settings agree", "statement": "For each data set exactly the listed experiments can be set up; every other name raises ValueError, and no other exception occurs. An experiment has one vial for each pair of one of its instances and one of its settings, no pair twice, all of the requested data set, each with the root of the file of its instance, with the quota that the file gives for the requested level or (London air quality data) one of the listed quotas, and with its own identifier; the only preprocessing is the removal of one-connected components. The exact settings have a time limit of four hours, ten seconds in the dry run, and only the tailing-off experiment varies the branching strategy and the number of separation rounds, in all combinations. Two exact settings, of the same or of different experiments, agree on an instance: if both are optimal their objectives are equal; if one is optimal the other is not infeasible and reports nothing or no smaller objective; if one is infeasible the other reports nothing. A heuristic that reports a prize of at least the quota (BFS-EC, BFS-PEC, Suurballe's) never reports less than the optimal objective. The same holds for the extension variants of Suurballe's heuristic if the pair of paths of some vertex other than the root closes to a tour that meets the quota and costs less than sys.maxsize, or to one with more prize than the closed walk of the root's own entry; without that there is an instance with optimum 32 on which both report the objective 4 and a prize that meets the quota. For settings with the disjoint-path cost cover this needs that the root's entry of the cost map is no more than the cost of any feasible tour; without that the shipped experiments disagree: there is an instance with optimum 21 on which the cost cover experiment reports optimal and 21 without cover and with shortest paths, and infeasible with disjoint paths, and on which every setting of the tailing-off experiment reports infeasible.", "quantifier": "all data sets and experiment names, all contents of the instance files, all graphs with non-negative costs and prizes, all pairs of runs with externals within their specifications", "why_tests_cant": "agreement is a statement about all instances and all pairs of runs; the shipped tests run no experiment to the end", "anchors": ["pctsp/apps/main_app.py:select_root_and_lookup", "pctsp/compare/exact_experiment.py:cost_cover", "pctsp/compare/exact_experiment.py:tailing_off", "pctsp/compare/heuristic_experiment.py:get_all_heuristic_params", "pctsp/compare/product_of_params.py:product_of_vials"]}
{"id": "C104", "title": "The basic entry point of the solver", "statement": "For a simple graph with non-negative costs, given by an edge list and dictionaries over any vertex numbers (gaps allowed), `basic_solve_pctsp_bind` returns the edges of a feasible tour, or nothing if SCIP reports infeasible: with the status optimal the tour costs the least among all feasible tours, with the status infeasible there is no feasible tour. If SCIP decides the problem, the status and the cost are those of `solve_pctsp_bind` without cost covers. If the start solution is a feasible tour that SCIP keeps, there is an answer that costs no more than it, however the search ends. If the search ends early without a solution, a solution that does not exist is read, where `solve_pctsp_bind` returns an empty list. A prize for a number above every vertex is written outside the table; otherwise the first cost key (then the first pair of the start solution) that is no edge raises EdgeNotFoundException for that pair, or reads outside the graph if its first number is above every vertex. An edge without a cost costs 0 and a vertex without a prize has prize 0; if an edge has a cost in each direction, the one whose key comes later counts.", "quantifier": "all edge lists, dictionaries, quotas, roots and start solutions, every answer of SCIP that meets its specification, every order of the variables", "why_tests_cant": "optimality compares with every feasible tour of every graph, and the errors depend on which of arbitrarily many keys comes first", "anchors": ["pctsp/pypctsp.cpp:pyBasicSolvePrizeCollectingTSP", "src/algorithms.cpp:solvePrizeCollectingTSP", "src/algorithms.cpp:modelPrizeCollectingTSP"]}
{"id": "C105", "title": "solve_pctsp with any heuristic edges", "statement": "`solve_pctsp` may be given any list of edges as a heuristic solution. If the yes-instance test rejects the list, the answer is the one that `solve_pctsp` gives for an empty list; if it accepts the list, the list is passed to the solver; if the test raises an exception, `solve_pctsp` raises it and SCIP is not called. For a simple graph with non-negative costs, and a test that accepts only feasible tours, the answer is the edges of a feasible tour or an empty list: with the status optimal the tour costs the least among all feasible tours, with the status infeasible there is no feasible tour. If the list is accepted and SCIP keeps start solutions, the status is not infeasible and the answer is a feasible tour that costs no more than the list, however the search ends. If no distances are given, the cost cover by disjoint paths is switched off whatever is asked for. With the covers on, this needs that the distances given are no more than the cost of any feasible tour through the vertex.", "quantifier": "all graphs with non-negative costs (with every vertex at a distance of at most 1073741823 from the root if the shortest path cost cover is on, non-negative prizes if the cycle cover is on, and an unscaled objective if a cost cover is on), all lists of heuristic edges, all options, every answer of SCIP that meets its specification, every order of the variables", "why_tests_cant": "optimality compares with every feasible tour of every graph; tests give only tours as heuristic solutions", "anchors": ["pctsp/algorithms/algorithms.py:solve_pctsp", "src/algorithms.cpp:solvePrizeCollectingTSP"]}
{"id": "C106", "title": "Costs and prizes as 32-bit numbers: when the heuristics overflow", "statement": "Costs and prizes are signed 32-bit numbers, and a sum outside that range is undefined. The cost of a walk (the prize of a path) is the sum of its edges (vertices) if the sum of every prefix fits, and undefined otherwise; for non-negative values it is defined exactly if the total fits. If all costs and prizes are at most B in absolute value, the graph has n vertices and 2(n+3)B is at most 2147483647, then no operation of the heuristics overflows: path extension, path extension until prize feasible, unitary gain extension with and without a quota, Dijkstra's algorithm, collapse, and path extension and collapse in alternation give, for every tour, what they give with unbounded numbers; for path extension without a quota and for the alternation the prizes must not be negative. If all vertices can be reached from the root and 2nB is at most 2147483647, the doubled distances of the shortest path cost cover fit as well. Some bound is needed: on a triangle with prizes (or costs) of 10^9 each, every heuristic that asks for the prize (or cost) of the tour is undefined. The prize of a graph without negative prizes is defined exactly if it is at most 2147483647.", "quantifier": "all graphs, tours, costs, prizes, quotas, step sizes and depths within the bound, every float arithmetic and every choice of the heap", "why_tests_cant": "tests use small numbers; absence of overflow is a statement about every intermediate sum of every run", "anchors": ["include/pctsp/walk.hh:totalCost", "include/pctsp/walk.hh:totalPrize", "include/pctsp/heuristic.hh:pathExtension", "include/pctsp/heuristic.hh:extensionUntilPrizeFeasible", "include/pctsp/heuristic.hh:collapse", "include/pctsp/heuristic.hh:pathExtensionCollapse"]}
{"id": "C107", "title": "The tables of node statistics and bounds", "statement": "If the directory exists, writing node statistics (or the history of the bounds) to a CSV file replaces the file by a header and one line per record, in order; every line has as many cells as the header, and the cell below a column name is the field of that name. If the directory does not exist (a bare file name has none), nothing is written, an old file stays and nothing is reported. Bounds are printed with six significant digits: a bound that is an integer keeps its value iff it is below 10^6 or all its digits after the first six are zero; the error is at most half a unit of the sixth digit, and the order of two bounds is never reversed, but different bounds can become equal.", "quantifier": "all lists of records, all files, all printers of numbers that print no comma or line break; all integral bounds", "why_tests_cant": "the only test writes one record and does not read it back; header and row are aligned by hand in two places; the loss of digits needs bounds above a million", "anchors": ["src/stats.cpp:writeNodeStatsToCSV", "src/stats.cpp:writeBoundsToCSV", "src/stats.cpp:writeNodeStatsRow", "src/stats.cpp:writeBoundsRow", "include/pctsp/filepath.hh:writeRowCSV", "include/pctsp/stats.hh:NODE_STATS_COL_NAMES"]}
{"id": "C108", "title": "The history of the bounds", "statement": "The history has one record per solved linear relaxation, in order, with the bounds at that moment and the number of the current node reduced to 32 bits; handling an event without a current node is undefined. The interval of a record ends at the first reading of the clock at its event and starts at the second reading at the event before (for the first record: when the handler was made), in whole milliseconds. If the clock is never set back, the intervals are ordered, do not overlap, do not end before they start, and together last at most as long as the run; if the system clock is set back, an interval can end before it starts.", "quantifier": "all sequences of events and all readings of the clock", "why_tests_cant": "depends on the clock and on the sequence of events of a run of SCIP", "anchors": ["src/event_handlers.cpp:BoundsEventHandler::scip_exec", "include/pctsp/event_handlers.hh:BoundsEventHandler"]}
{"id": "C109", "title": "Which messages of the log are written for a Python level", "statement": "For the six levels of Python's logging module exactly the messages at or above the level of the same name are written (all of them for NOTSET). For every other number, such as 35 or 60, the messages of INFO and above are written; so a higher number can write more: for a <= b, b writes a message that a does not iff a is WARNING, ERROR or CRITICAL and b is none of the six, or a is none of the six and b is NOTSET or DEBUG.", "quantifier": "all integers as levels, all severities", "why_tests_cant": "the tests use one level; the statement is about all integers and all pairs of them", "anchors": ["src/logger.cpp:getBoostLevelFromPyLevel", "src/logger.cpp:PCTSPinitLogging"]}
{"id": "C110", "title": "The array job that the slurm command writes runs every vial exactly once", "statement": "The slurm command fails, changing no file, iff the experiment file (with --only-missing-results: the file of missing vials) does not exist, the batch size is zero, or a script exists and --overwrite is not given. Otherwise the script has just as many tasks as batches are needed, the number that nbatches prints, and no other file changes (an empty list gives the task range 0 to -1). Whatever the order in which the tasks run, the result file of a vial is the one its own attempt leaves, unless an earlier vial of the same task ended the process; then it is the old one; no other file changes. If no attempt ends its process, the files are those of running the whole list at once. nbatches rejects batch sizes that are not positive.", "quantifier": "all experiments with distinct identifiers and fewer than 2^52 vials, all batch sizes up to 2^53, all outcomes of attempts, all orders of the tasks, every rounding to 53 bits", "why_tests_cant": "no test runs the script; the claim is about all sizes, orders and failures", "anchors": ["pctsp/apps/main_app.py:slurm", "pctsp/apps/main_app.py:batch", "pctsp/apps/main_app.py:nbatches", "pctsp/lab/lab.py:Lab.run_batch", "pctsp/lab/lab.py:get_nbatches"]}
{"id": "C111", "title": "The commands missing, nmissing and infeasible, and batches of missing vials", "statement": "The missing command writes the list of the vials without a readable result, in order, and changes nothing else; it fails and changes nothing iff there is no experiment or a result file is JSON but no result. nmissing prints the length of that list and of the experiment. missing, then slurm --only-missing-results, then its tasks in any order leave no vial without a result if every attempt succeeds, and touch no result that was there: unlike the run_batch option of C95 nothing is skipped, because the list is fixed. For the same reason a batch with --only-missing-results does not look at the results: it runs the list that missing last wrote, also after a new setup, and then gives no result to any vial of the new experiment that is not in the old list; it fails iff missing was never run. infeasible prints the identifiers of the vials whose stored prize is below the quota, and fails iff there is no experiment or a result file is truncated or no result.", "quantifier": "all experiments, result files, outcomes of attempts, batch sizes and orders of tasks", "why_tests_cant": "a statement about sequences of commands and all states of the files", "anchors": ["pctsp/apps/main_app.py:missing", "pctsp/apps/main_app.py:nmissing", "pctsp/apps/main_app.py:infeasible", "pctsp/apps/main_app.py:batch", "pctsp/apps/main_app.py:setup", "pctsp/lab/lab.py:Lab.read_experiment_from_file"]}
{"id": "C112", "title": "Running one vial again", "statement": "The vial command runs the vial with the given identifier, changes no file but its result file, which becomes the one the attempt leaves, and prints the result of the attempt. It fails with FileNotFoundError iff there is no experiment, with ValueError iff no vial has the identifier (then nothing changes), and with IndexError iff the attempt raises an exception: the exception is caught and there is no result to print.", "quantifier": "all experiments with distinct identifiers, all identifiers, all outcomes of the attempt", "why_tests_cant": "covers every outcome of an attempt, including the ones that tests do not produce", "anchors": ["pctsp/apps/main_app.py:vial", "pctsp/lab/lab.py:Lab.run_experiment_from_vial_list"]}
{"id": "C113", "title": "The time that the slurm script asks for", "statement": "The script should ask for enough time for a batch, and for at most two days. It asks for enough: for up to 2^20 vials of up to 2^20 hours at least the batch size times the time limit, in spite of rounding, or else for 172800 hours. It does not keep to two days: the bound in hours is the number of seconds of two days. For a time limit of t whole hours and batch size b it asks for b*t + 1 hours, but for at most 172800; so it asks for at most 48 hours iff b*t <= 47, and twelve vials of the default limit ask for 49.", "quantifier": "all batch sizes and time limits in the stated ranges, every rounding to 53 bits", "why_tests_cant": "no test reads the script; the rounding claim is about all time limits", "anchors": ["pctsp/apps/main_app.py:slurm"]}
{"id": "C114", "title": "The commands that run one algorithm: which options matter, and agreement with the experiments", "statement": "The exact algorithm of londonaq and tsplib gets the requested cost covers, both kinds of subtour separation, strong branching, and with tsplib the requested heuristic, with londonaq none; every other algorithm gets none of these. The options collapse_paths, path_depth_limit and step_size of tsplib have no influence on the run, and for any algorithm but the exact one no option but remove_leaves has. These three are stored with the run just if extension and collapse is the algorithm or the heuristic of the exact one; without options tsplib stores false, 2 and 1, and the exact algorithm starts without a heuristic and has four hours and the cost cover of disjoint paths only. With the relaxation or the algorithm extension there is never a result. Exact runs of the commands and of the experiments agree whatever their options are, if the condition of C103 on the cost covers holds: two optimal ones have equal objectives, none is infeasible if another is optimal, none reports a tour if another is infeasible.", "quantifier": "all options, algorithms, graphs with non-negative costs and prizes, all pairs of runs with externals within their specifications", "why_tests_cant": "no influence and agreement are statements about all instances and pairs of runs; the tests run the commands on single instances", "anchors": ["pctsp/apps/main_app.py:londonaq", "pctsp/apps/main_app.py:tsplib", "pctsp/apps/options.py"]}
{"id": "C115", "title": "With disjoint-path covers any tour below the root's entry can be reported as optimal", "statement": "An exact run that ends with status optimal should report a cheapest feasible tour. With disjoint-path cost covers, which both one-run commands use by default, and without a start solution it need not: on every instance, for every feasible tour that costs less than the root's entry of the disjoint-path cost map there is a solver within its specification with which the run reports exactly this tour, with status optimal, however cheap the other tours are. There is an instance with a tour of cost 21 on which both commands with their defaults can report optimal and 35.", "quantifier": "all instances with non-negative costs and prizes, all feasible tours below the root's entry", "why_tests_cant": "the order in which the solver finds its solutions decides; a test sees one order", "anchors": ["src/cost_cover.cpp:scip_exec", "pctsp/apps/main_app.py:londonaq", "pctsp/apps/main_app.py:tsplib", "pctsp/preprocessing/preprocessing.py:vertex_disjoint_cost_map"]}
{"id": "C116", "title": "The statistics of an instance: what they are, and that the largest disjoint-path cost is wrong", "statement": "The command that writes the statistics of a dataset fails with ZeroDivisionError if the total prize of an instance is zero, else with TypeError if no pair of disjoint paths has a positive prize, else it succeeds (metricness aside). The biggest disjoint prize is the largest value of a pair: for a vertex other than the root the prize of the tour to which the pair closes, for the root the prize of its two loops with the root counted twice. With non-negative prizes it is at most the total prize plus the prize of the root, and the ratio to the total prize can exceed one. The largest disjoint-path cost is not the largest entry of the cost map but the largest entry of the vertices whose numbers are at most the number of the vertex with the biggest prize, so it can be too small. The prize after preprocessing is at least the prize of every tour through the root, its ratio is between zero and one, and the counts and totals after preprocessing are those of the root and the vertices on a cycle through the root.", "quantifier": "all graphs with symmetric costs, all roots without a self-loop, all prizes (non-negative ones where said)", "why_tests_cant": "the values are maxima and sums over all vertices of any graph; the error of the largest cost only shows if a vertex with a bigger number has a bigger cost", "anchors": ["pctsp/apps/dataset_app.py:get_graph_stats"]}
{"id": "C117", "title": "What the drawings of graphs and tours show", "statement": "The trace of the edges of a graph fails iff some end of an edge has no position. Otherwise it shows a line for every edge and, because the points are joined without gaps, also a line from the second end of every row to the first end of the next row; if different vertices have different positions then only edges are shown iff each row starts where the row before ends or these two vertices are joined by an edge of the table. The trace of a tour takes exactly the rows that join consecutive vertices of the tour, in the order of the table; it shows exactly the tour if the table has the edges of the tour in its order and direction, and for the tour around a square with the rows in lexicographic order it shows a diagonal.", "quantifier": "all tables of edges and vertices, all tours", "why_tests_cant": "the extra lines depend on the order of the rows of any table; the tests only check that a figure is made", "anchors": ["pctsp/plot/plot_edges.py:edge_scatter", "pctsp/plot/plot_tour.py:tour_edges_trace"]}
{"id": "C118", "title": "How often a message is logged", "statement": "After any sequence of calls of get_pctsp_logger a message to a logger is written once for every call with that name whose level is at most that of the message, provided the level of the last of these calls is, and not at all otherwise. So a command with a logger of its own writes each message once; with the default loggers the messages of run_algorithm and of run_preprocessing are written twice; level 0 hides everything below WARNING.", "quantifier": "all sequences of calls, all names and levels", "why_tests_cant": "the loggers are global state that every call changes; the tests do not count lines of the log", "anchors": ["pctsp/utils/utils.py:get_pctsp_logger", "pctsp/lab/run_algorithm.py:run_algorithm", "pctsp/lab/run_algorithm.py:run_preprocessing"]}
{"id": "C119", "title": "The Python wrappers of the heuristics on a networkx graph", "statement": "Let a networkx graph have a cost on every edge and a non-negative prize on every vertex that has an edge, and let the tour be a simple closed tour from the root. If every vertex with a prize has an edge, then each wrapper returns normally: extension_unitary_gain, extension_until_prize_feasible, extension_unitary_loss, path_extension and path_extension_until_prize_feasible return a tour from the root with at least as much prize; collapse (for all costs) and path_collapse (for non-negative costs) a tour that costs at most as much and is feasible if the input is; extension_unitary_gain_collapse a tour that costs at most as much as the extended tour and is feasible if that is; path_extension_collapse nothing, only if the input is below the quota, or a feasible tour. A single vertex with a prize, even a zero prize, and without edges makes every one of them undefined, wherever the tour is. An edge without a cost attribute is read as free and a vertex with edges and without a prize attribute as one with prize zero: all nine wrappers answer exactly as on the graph with those zeros written in.", "quantifier": "all networkx graphs, tours, quotas, positive steps and all depths, non-negative costs where shortest paths are used", "why_tests_cant": "all graphs and tours; the tests have no graph with a vertex without edges, where the behaviour is undefined", "anchors": ["pctsp/algorithms/extension_collapse.py:collapse", "pctsp/algorithms/path_extension_collapse.py:path_extension_collapse"]}
{"id": "C120", "title": "What the solver minimises if the graph has self-loops", "statement": "The solver is called from Python with a graph whose edges are distinct and include self-loops, and without cost cover options. If every vertex has a self-loop, the call does not raise, the edges returned are none or the edges of a feasible tour, and the status infeasible means that there is none; but if the status is optimal, the tour returned is the one for which its cost plus the costs of the self-loops of its vertices is least. So the reported optimum need not be the cheapest tour: two triangles that cost 13 and 10, where self-loops at two vertices of the second have a cost, give the one of cost 13 as optimal, even if the other is the start solution. If some vertices have a self-loop and others do not, the behaviour is undefined, for all options.", "quantifier": "all graphs with self-loops, costs of any sign, prizes, quotas, roots, start solutions of edges of the graph, every behaviour of SCIP within its specification", "why_tests_cant": "optimality over all tours; the tests of the solver use graphs without self-loops, and uninitialised memory can look right", "anchors": ["src/algorithms.cpp:solvePrizeCollectingTSP", "src/preprocessing.cpp:addSelfLoopsToGraph"]}
{"id": "C121", "title": "The missing variable locks of the subtour constraint do no harm to single variables", "statement": "SCIP must be told by lock callbacks which variables a constraint restricts; the constraint handlers of this project declare no locks. Yet the subtour constraint restricts the variable of every edge between different vertices in both directions: if its check accepts a solution, it rejects every solution in which just one such edge is added or removed; self-loops do not matter to it. What SCIP relies on holds because of the linear rows: for every variable the model contains a row that is violated as soon as the value of this variable alone is changed, upwards or downwards, so that no variable is free in any direction.", "quantifier": "all simple graphs with one self-loop at each vertex, prizes, quotas, roots, all integer solutions", "why_tests_cant": "which reductions SCIP applies depends on the instance; all solutions and all variables are needed", "anchors": ["src/subtour_elimination.cpp:PCTSPconshdlrSubtour::scip_lock", "include/pctsp/constraint.hh:PCTSPaddDegreeTwoConstraint"]}
{"id": "C122", "title": "The instance a vial is run on, and how it depends on the vials before it", "statement": "When the lab runs a list of vials, a londonaq vial is run on the graph of its file with the demands as prizes and the weights as costs, a tspwplib vial on the graph of its file with the scores of its own problem as prizes (unless every vertex of that problem has a demand, which then wins). A kappa other than zero removes edges first; after that the cost function replaces exactly the costs that it names, in either direction; kappa zero removes nothing. If every vertex of every londonaq file has a demand, then each vial is run on the same instance as when it is alone, whatever comes before it. If a londonaq file has a vertex without a demand, this is false: without a tspwplib vial before it the exception ends the whole list before this vial and all later ones are run; after a tspwplib vial it is run, without any error, with the scores of the previous, unrelated problem. A vial whose directory is not given, whose file cannot be read, or whose graph has an edge without a weight ends the list too, whatever came before.", "quantifier": "all lists of vials, all contents of the files, all results of the external functions", "why_tests_cant": "the order of the vials in a batch, and files with missing attributes, are not tested", "anchors": ["pctsp/lab/lab.py:Lab.run_experiment_from_vial_list"]}
{"id": "C123", "title": "What the solver accepts with SCIP's tolerances", "statement": "SCIP checks solutions with tolerances: values may be feastol away from 0 and 1, rows may be violated by feastol relative to the numbers in them, and the library takes a value for an edge if it exceeds epsilon. For a simple graph with n vertices, if epsilon is at most feastol and (n+2) feastol is less than 1, every accepted solution is a tour nevertheless: the nearest 0/1 vector is the incidence vector of a tour through the root with at least three vertices, and the edges that the library reports are exactly the edges of this tour. The tour misses the quota by at most 3 feastol B, where B bounds 1, the quota and the sum of the prizes; with the default tolerances it meets the quota if the quota and the sum of the prizes are at most 333333. Every exact vector of a feasible tour is accepted. If moreover the costs sum up to less than (1 - gap) / feastol and no accepted solution is better by more than gap, the reported tour is feasible and optimal. For large numbers this is false: with three prizes of 400000 and the quota 1200001 the default tolerances accept a tour although no tour meets the quota. And a vector that is within feastol of a feasible tour and satisfies every row that feasible tours satisfy is rejected if an edge off the tour has a value between epsilon and feastol.", "quantifier": "all simple graphs with self-loops, prizes, quotas, costs, tolerances within the bounds, all rational solution vectors, all orders of the variable map", "why_tests_cant": "the vectors that a solver returns within its tolerances cannot be enumerated; tests see a few of them and only small numbers", "anchors": ["src/solution.cpp:isVarPositive", "src/solution.cpp:getSolutionEdges", "src/subtour_elimination.cpp:isSolSimpleCycle", "src/subtour_elimination.cpp:PCTSPconshdlrSubtour::scip_check", "include/pctsp/constraint.hh:PCTSPaddDegreeTwoConstraint", "include/pctsp/constraint.hh:PCTSPaddPrizeConstraint"]}
{"id": "C124", "title": "The labels of tables and which tables are written", "statement": "pretty_dataframe keeps every number and every missing value of a table, and every text outside of the columns and index levels algorithm, cost_function and branching_strategy; there an algorithm gets its short or long name, and different algorithms, branching strategies and known columns never get the same name. Columns and index levels stay where they are; those in the table of names get the name listed there and others keep theirs. The first claim is false exactly if branching_strategy is a column and not an index level: then every 0, 1, 2 and 4 of the whole table, such as a number of optimal solutions, becomes the name of a strategy. If the columns have several levels, the headings are right if and only if for every label in use the column at the position of that label has that label. This holds for the sorted columns of the table of the covers; for columns as unstack leaves them it does not, and the second measure is headed as the first. All headings close the mathematics they open, except that of preprocessed_total_cost. The command for the table of the covers fails if and only if one row has both covers, which no experiment produces, and otherwise different settings have different names. The command for all tables skips tables whose file is missing, and any other exception keeps all later tables from being written.", "quantifier": "all data frames in which every row has a cell for every column and a label for every index level, all levels of columns, all lists of rows, all outcomes of the eight tables", "why_tests_cant": "a wrong label is still a well formed table; the test looks at one frame with one row and an index of one level", "anchors": ["pctsp/apps/tables_app.py:pretty_dataframe", "pctsp/apps/tables_app.py:make_column_name_pretty", "pctsp/apps/tables_app.py:cost_cover_table", "pctsp/apps/tables_app.py:generate_all_tables", "pctsp/vial/model_params.py:AlgorithmName"]}
{"id": "C125", "title": "Which results the figure of the heuristics shows", "statement": "The figure of a cost function has two panels, with gaps from 0.01 to 100 and from -0.001 to 0.009. If the results with its cost function and one of the four drawn algorithms have at most five values of kappa, the points to be seen are exactly these results with a gap in one of the two ranges, each once, under its kappa and its algorithm. So a heuristic whose gap is strictly between 0.009 and 0.01, above 100, or missing is in neither panel. Of more than five values of kappa only five are shown. The legend of the first figure names every drawn algorithm once; the second figure has no legend entry at all.", "quantifier": "all tables of heuristic results, both cost functions", "why_tests_cant": "the figure is a file for the eye, the missing points do not raise an error, and no test draws it", "anchors": ["pctsp/apps/plot_app.py:plot_heuristics_figure", "pctsp/apps/plot_app.py:add_traces_heuristic", "pctsp/apps/plot_app.py:update_layout_heuristic"]}
{"id": "C126", "title": "How the results change with the instance", "statement": "Take two exact runs of which the second is on an easier instance: a quota that is not higher, all the edges of the first at costs that are not higher, and prizes that are not lower. If both are optimal the second objective is not higher; if the second is optimal the first reports no tour or an objective that is not lower; if the second is infeasible the first reports no tour and is not optimal. The order in which edges are listed, their directions and the names of the vertices change neither the optimum nor whether there is a solution. Suurballe's heuristic returns with a lower quota a feasible tour whenever it did with a higher one, and no dearer one. The heuristics that start from a cycle of a breadth first search are not monotone: there is an instance on which both return a dearer tour for the quota 4 than for the quota 5, and a dearer one than after an edge has been removed.", "quantifier": "all pairs of instances with non-negative costs and prizes and no self-loops, all settings of exact runs, with and without start, in which the cost covers meet the conditions of C92; all solvers that meet their specification; all quotas", "why_tests_cant": "it relates two runs on different instances; tests look at single runs", "anchors": ["pctsp/lab/run_algorithm.py:run_algorithm", "pctsp/algorithms/algorithms.py:solve_pctsp", "pctsp/algorithms/heuristic.py:suurballes_heuristic", "include/pctsp/heuristic.hh", "src/heuristic.cpp"]}
{"id": "C127", "title": "On every instance there is a run that decides it", "statement": "For every graph without self-loops in which a cycle goes through the root, with non-negative integer costs and prizes, every quota and every choice of the preprocessing steps, what is expected of networkx, of SCIP and of the other functions outside can be met together, and the whole program then returns: the exact algorithm without cost covers, with or without a start from a breadth first search, ends with the status optimal if and only if a feasible tour exists and with infeasible if and only if none does. If neither leaves nor one-connected components are removed and there is no start, this is so even without a cycle, as soon as the root has an edge. The heuristics from a breadth first search also return, and so does Suurballe's heuristic if some tour from the root costs less than sys.maxsize; they report the edges, cost and prize of a tour from the root, or nothing.", "quantifier": "all graphs, roots, costs, prizes and quotas as stated; all flags of the preprocessing but the two cutoffs that are not implemented; all depth limits, step sizes and numbers of cuts", "why_tests_cant": "the theorems about runs assume what libraries do; only a construction for every instance shows that these assumptions are not contradictory somewhere", "anchors": ["pctsp/lab/run_algorithm.py:run_algorithm", "pctsp/lab/run_algorithm.py:run_preprocessing", "pctsp/algorithms/algorithms.py:solve_pctsp", "pctsp/suurballe/suurballe.py:suurballe_shortest_vertex_disjoint_paths"]}
{"id": "C128", "title": "How good the tours of Suurballe's heuristic are", "statement": "If all the cheapest tours through the root and some other vertex meet the quota and cost less than sys.maxsize, a run of Suurballe's heuristic, with its preprocessing, reports a feasible tour that costs no more than these. In particular it reports an optimal tour if every tour from the root meets the quota. There is no constant factor in general: for every number K there is an instance with five vertices and a feasible tour of cost 4 on which the heuristic has a run, and every run reports no tour or a feasible one that costs more than 4 K; unless 8 K + 3 reaches sys.maxsize it reports such a tour.", "quantifier": "all graphs without self-loops, all non-negative integer costs and prizes, all quotas, all steps of the preprocessing, all answers of the libraries that meet their specifications; all K", "why_tests_cant": "the guarantee quantifies over all instances, and the absence of a factor over an infinite family of them", "anchors": ["pctsp/algorithms/heuristic.py:suurballes_heuristic", "pctsp/lab/run_algorithm.py:run_heuristic", "pctsp/lab/run_algorithm.py:run_preprocessing"]}
{"id": "C129", "title": "The numbers in the summary of a run", "statement": "After any history of node events, separation callbacks and new best solutions: num_cycle_cover is the number of cycle cover rows that the solver got. num_sec_disjoint_tour and num_sec_maxflow_mincut should add up to the number of subtour elimination rows that the solver got, but they do not: they add up to the number of rows that were created, of which the solver gets only the efficacious ones, provided that no event of the latest node repeats, and to at most this number otherwise. The presolve number of a cost cover handler is the number of vertices whose distance exceeds the cost of the start solution (0 if it is not positive), and its total adds the vertices whose distance exceeds the bound, once for each new best solution; it is the number of all rows of the handler. All numbers of an option that is switched off are 0.", "quantifier": "all graphs, options, histories of callbacks, answers of the solver and of the libraries for which no callback throws or is undefined", "why_tests_cant": "the counters are changed by callbacks that the solver makes in any order and any number, and the numbers depend on answers of the solver that a test does not control", "anchors": ["src/algorithms.cpp:getSummaryStatsFromSCIP", "src/cycle_cover.cpp:getNumCycleCoverCutsAdded", "src/cycle_cover.cpp:scip_sepalp", "src/subtour_elimination.cpp:PCTSPseparateSubtour", "src/cost_cover.cpp:getNumConssAdded", "src/stats.cpp:numDisjointTourSECs"]}
{"id": "C130", "title": "The statistics of a dataset are about the instances of the experiments", "statement": "The command that writes the statistics of a dataset writes its file exactly if every instance of the dataset can be loaded and has statistics; otherwise a file that is there stays as it was. A londonaq instance can be loaded exactly if its file can be read, every vertex has a demand and every edge a weight; the demands are its prizes. A file that is written has one row per instance (4 for londonaq; 9 graphs times the generations times 2 cost functions times 5 kappas for tspwplib), no two rows have the same name, and each row holds the statistics of its own instance. Although runs load their instances with other code, the instance of a row has the vertices, edges, prizes and costs of the instance that a run loads for a trial of the same name, and loading fails for both or for none, provided a londonaq file has a demand at every vertex and an edge weight type that changes nothing, and a tspwplib problem has a score at every vertex and a demand not at every vertex. Every instance of every experiment has a row, except those of simple_branch_cut, which have one exactly if the graph is st70 or rat195 and kappa is 10 or 20, and the one of dryrun on londonaq. A number in the table of tspwplib is the mean over all nine graphs and all generations, each once.", "quantifier": "all contents of the instance files, all results of the library functions that remove edges and change costs, all functions that compute statistics of one instance, all lists of generations", "why_tests_cant": "the two ways of loading are in two modules and a test would compare them on sample files; the claim is that they agree on every content of the files", "anchors": ["pctsp/apps/dataset_app.py:stats_of_dataset", "pctsp/apps/tables_app.py:summarize_dataset", "pctsp/lab/lab.py:run_experiment_from_vial_list", "pctsp/compare/params.py"]}
{"id": "C131", "title": "Tasks of an array job at the same time, and killed tasks", "statement": "The tasks of the array job share one directory and run at the same time. At any time, whatever the order of their steps and whichever of them have been killed, the vials of each task come in three parts in their order: the result files of the first part are final, those of the last part are as they were before the job, and in between there is at most one vial, whose attempt succeeded and whose file is being written or was cut off. No other file changes. If no task is killed, the files at the end do not depend on the order of the steps: they are those that the tasks leave one after the other. A job comes to an end after at most two steps per vial, and a task that has not ended can always go on. If tasks are killed and all attempts would succeed, then running the vials that missing finds gives every vial a result: for a vial without a result before the job the one that an undisturbed job leaves, for another vial this one or its old one.", "quantifier": "all experiments with distinct identifiers, all outcomes of attempts, all interleavings of the steps of the tasks, all moments at which tasks are killed, all earlier result files (for the last claim: none of which is a valid JSON text but no result)", "why_tests_cant": "the interleavings and the moments of the kills are unbounded in number and a test cannot choose them", "anchors": ["pctsp/apps/main_app.py:slurm", "pctsp/lab/lab.py:run_experiment_from_vial_list", "pctsp/vial/result.py:write_to_json_file", "pctsp/apps/main_app.py:missing"]}
{"id": "C132", "title": "Archives of experiments", "statement": "The command zip changes no experiment. It succeeds exactly if all the experiments exist, and then the archive of each has exactly its files. After that, whatever happens to the experiments, the command unzip of them succeeds: a file that was in an experiment has its content of that time again, even if it is newer by now, a file that was not there keeps its content, and nothing else changes; an experiment that was deleted is as it was. So the results are those of the archive where it has a file and the local ones elsewhere, and an archived file that cannot be parsed takes the place of a good local result. zip stops at the first experiment that does not exist: an archive of it that existed should stay, but it is replaced by an empty one, of which unzip then restores nothing without an error. unzip stops at the first experiment without an archive, after unpacking the ones before it.", "quantifier": "all directories, all lists of experiments, all changes between the two commands that leave the archives alone", "why_tests_cant": "a test fixes the files and the changes between the commands; the loss of the archive needs a directory that is missing when the archive is there", "anchors": ["pctsp/apps/utils_app.py:zip_experiments", "pctsp/apps/utils_app.py:unzip_experiments"]}
{"id": "C133", "title": "The names of the vertices do not matter", "statement": "If the vertices get other names, in the edges, the tour, the root, and the keys of the costs, the prizes and the disjoint paths costs, each of the six heuristics called from Python returns the answer for the old names with the new names, and so do the bounds and edges of the exact solver; with one choice of names the call succeeds exactly if it does with the other. This is so even if the new names are sorted in another way, so that the entries of the maps are read in another order, provided that no edge has two entries in the map of costs. If the two directions of an edge have entries with different costs, the entry whose key is last by name counts: then other names can give another tour, also one that is not the old one with new names.", "quantifier": "all graphs, tours, costs, prizes, quotas and options, all injective changes of the names, all orders of the entries", "why_tests_cant": "a test compares a few names; that nothing depends on them is about all names and all orders, and the exception needs a map with both directions of an edge", "anchors": ["pctsp/pypctsp.cpp", "include/pctsp/renaming.hh:renameEdges", "include/pctsp/renaming.hh:fillCostMapFromRenamedMap", "include/pctsp/renaming.hh:fillRenamedVertexMap"]}
{"id": "C134", "title": "The units of costs and prizes", "statement": "In exact arithmetic the units of costs and prizes do not matter to the heuristics: if all costs are multiplied by a positive integer, and all prizes and the quota by another one, each of the six heuristics called from Python does the same, be it a tour or a failure. In the single precision arithmetic of the code, with infinities and NaN from divisions by zero, this is so for factors that are powers of two. With other factors it is false: there are positive costs below 2^24 that give another tour when they are multiplied by 5, without any overflow.", "quantifier": "all graphs, tours, costs, prizes, quotas and options, all positive factors (powers of two in single precision)", "why_tests_cant": "a test tries a few factors on a few graphs; that rounding changes the answer needs losses that differ in the last digit", "anchors": ["include/pctsp/heuristic.hh", "src/heuristic.cpp:unitaryGain", "src/heuristic.cpp:unitaryLoss", "src/heuristic.cpp:averageUnitaryLoss", "pctsp/pypctsp.cpp"]}
{"id": "C135", "title": "The cost of the tour that collapse returns, and the order of the edges", "statement": "For a tour and non-negative prizes, collapse returns the tour read from the root, or a run of consecutive vertices of the tour that contains the root, falls short of the quota and would reach it with the next vertex of the tour, closed along new vertices that make up for the missing prize. Without the shortest path option there is just one new vertex, and the cost of the result is exactly the least of the cost of the tour and the costs of all its runs closed through one new vertex. So two Python callers who list the same edges in another order or direction, or the same entries of the dictionaries in another order, get tours of equal cost. With the shortest path option this is false, and it is false of the five other heuristics: there are instances with positive costs where the order of the edge list changes the cost of the returned tour.", "quantifier": "all graphs, tours, costs, non-negative prizes, quotas, roots, descriptions of the same graph; a concrete instance for each negative part", "why_tests_cant": "a test compares with the result on a few graphs, not with the least over all short cuts; the dependence on the order shows only with ties", "anchors": ["include/pctsp/heuristic.hh:collapse", "include/pctsp/heuristic.hh:findCollapsePaths", "include/pctsp/heuristic.hh:getSubPathOverTour", "pctsp/pypctsp.cpp:collapseBind"]}
{"id": "C136", "title": "The heuristics do not leave the part of the graph where they start", "statement": "Let S be a set of vertices of which at most one has neighbours outside of S. If a tour with at least two vertices lies in S, so does the tour that any of the six heuristics called from Python makes of it (path extension with a step size of at least one). So if all cycles through the root with at most one edge more than a shortest one lie in S, no run of the two heuristics that start from a breadth first search reports a tour that leaves S. Therefore these two have no constant factor: for every number there is an instance with a feasible tour of cost 5 on which both always report a tour that costs more than that number times 5. They can also miss all feasible tours: there is an instance with a feasible tour on which path extension and collapse never reports a tour, and extension and collapse always reports one that does not meet the quota, whatever the step size, the depth limit and the preprocessing without cutoffs.", "quantifier": "all graphs, sets of vertices, tours, costs, nonnegative prizes, quotas and options, all choices of the priority queues and of the breadth first search", "why_tests_cant": "a test shows one run; that no choice of options, rounding or order of the neighbours lets a heuristic leave a block of the graph is about all of them", "anchors": ["include/pctsp/heuristic.hh", "src/heuristic.cpp:collapse", "pctsp/pypctsp.cpp", "pctsp/lab/run_algorithm.py:run_heuristic", "pctsp/algorithms/heuristic.py:find_cycle_from_bfs"]}
{"id": "C137", "title": "Branch and cut with the callbacks of the library is exact and ends", "statement": "Take a search that does what branch and cut does with the callbacks of the library: it solves LP relaxations of nodes, hands their solutions to the separators, asks the enforcement callbacks before it accepts an integral LP solution, asks the check callbacks about solutions from elsewhere, raises the event of a new best solution, branches, and drops nodes whose relaxation is infeasible or too expensive; it may also use heuristics and any facts that hold for all solutions of interest. Then: (1) an integral LP solution is let pass by the enforcement callbacks exactly if it passes all the checks, although the enforcement callbacks of the cycle cover handler do nothing; (2) whenever the search stops, what it reports is what the other properties assume of the solver, including that a start solution is kept; so the tours, the statuses optimal and infeasible returned to Python are right under the conditions of the other properties, and a search without limits decides the instance; (3) while a node is open there is a next step; (4) if no row is taken out of the relaxations, a search on a graph with n vertices and m edges (without the loops that are added) has fewer than 3 * 2^(m+n) + (n+1) * 2^n steps and can always be brought to its end; if rows may be taken out, there are searches of any length. In nodes whose LP relaxation is not solved the handlers are given a pseudo solution instead: they let it pass iff it passes every check (given the linear rows), and accepting it, or dropping a node in which all variables are fixed, is a step of the search, so all of this holds for searches with such nodes as well.", "quantifier": "all graphs without parallel edges, nonnegative costs, prizes (nonnegative with cycle cover), quotas, start solutions, options, orders of nodes and variables, LP solutions, components, cuts, and points in time at which the search stops", "why_tests_cant": "SCIP makes one of very many searches on an instance; that none of them can end with a wrong answer, get stuck or go on for ever is about all of them", "anchors": ["src/subtour_elimination.cpp:scip_enfolp", "src/subtour_elimination.cpp:scip_sepalp", "src/subtour_elimination.cpp:scip_check", "src/cycle_cover.cpp:scip_enfolp", "src/cost_cover.cpp:scip_exec", "src/algorithms.cpp:solvePrizeCollectingTSP", "pctsp/pypctsp.cpp:pySolvePrizeCollectingTSP", "src/subtour_elimination.cpp:PCTSPconshdlrSubtour::scip_enfops"]}
{"id": "C138", "title": "The two heuristics that start from the tour of Suurballe's heuristic: never worse, or arbitrarily worse", "statement": "Two heuristics improve the tour that Suurballe's heuristic finds: extension and collapse, and path extension and collapse. (1) On the same disjoint paths, whenever Suurballe's heuristic finds a tour, path extension and collapse returns a feasible tour that costs no more, and extension and collapse a feasible tour. (2) So the guarantees for Suurballe's heuristic carry over: if the cheapest tours through the root and some other vertex all meet the quota and cost less than sys.maxsize, a run of either reports a feasible tour, and that of path extension and collapse costs no more than these; if every tour meets the quota, it is optimal. (3) But extension and collapse does not inherit the bounds: for every number there is an instance on which the other two always report an optimal tour, and extension and collapse has a run that reports a feasible tour that costs more than that number times as much. (4) Neither of the two is within a constant factor of the optimum: for every number that is not astronomic (12 times it plus 3 is less than sys.maxsize) there is an instance on which both always report a feasible tour, and it always costs more than that number times the cost of another one.", "quantifier": "all instances without self-loops with nonnegative costs and prizes, quotas, roots, preprocessing flags, settings of the path extension, orders of ties, and all runs; for (3) and (4) all numbers", "why_tests_cant": "tests compare the heuristics on some instances; that one is never worse than another is about all of them, and that no factor bounds the gap about infinitely many", "anchors": ["pctsp/lab/run_algorithm.py:run_heuristic", "pctsp/algorithms/heuristic.py:suurballes_heuristic", "include/pctsp/heuristic.hh:extensionUnitaryGain", "include/pctsp/heuristic.hh:pathExtensionCollapse"]}
{"id": "C139", "title": "The heuristics in single precision: which choices are right, and how wrong the others can be", "statement": "The heuristics compare ratios of costs and prizes as numbers of type float (IEEE 754 binary32, round to nearest even, with subnormal numbers, overflow to infinity and NaN). (1) This arithmetic has all the properties that the other theorems on the heuristics ask of the numbers, for every int, and double precision those that the theorems on gaps and batches ask for. (2) The order of two ratios of numbers of at most 24 bits is never reversed; it is kept if the ratios differ by more than 2^-24 times their sum. (3) For nonnegative costs up to C and prizes up to P, extensionUntilPrizeFeasible returns the tour that it would return without rounding if 2*C*P < 2^23, and pathExtensionUntilPrizeFeasible if K*C*(K+1)*P < 2^23, where K bounds the number of edges of the paths compared. (4) For all other ints (costs below 2^30), every vertex that extension by loss or by gain inserts has a ratio within a relative error of about 2^-21 of the best one. (5) Beyond these bounds the result can be wrong: with numbers of four digits there is an instance on which the heuristic misses a quota that it reaches without rounding. (6) The heuristics that compare with an average are not exact however small the numbers: there is an instance with prizes 5 and extra costs 7 where a vertex of average gain is inserted.", "quantifier": "all graphs, tours, costs, prizes and quotas in the stated ranges; all pairs of ratios", "why_tests_cant": "rounding errors show only for particular numbers out of 2^64 pairs of ratios; tests on small instances do not meet ties and cannot bound the error", "anchors": ["include/pctsp/heuristic.hh:pathExtensionUntilPrizeFeasible", "include/pctsp/heuristic.hh:extensionUntilPrizeFeasible", "include/pctsp/heuristic.hh:extensionUnitaryGain", "include/pctsp/heuristic.hh:extensionUnitaryLoss", "src/heuristic.cpp:unitaryLoss", "src/heuristic.cpp:unitaryGain"]}
{"id": "C140", "title": "The view of a graph on its marked vertices is the induced subgraph", "statement": "filterMarkedVertices(graph, mark) gives a view of the graph. With a mark for every vertex: (1) its vertices are the marked ones (they are kept, not filtered out), in increasing order; (2) its edges are the edges with two marked ends, with their multiplicity and order, although the filter of the edges asks for one marked end; (3) the neighbours of a vertex are its marked neighbours, with multiplicity; (4) a search in the view from a marked vertex reaches exactly the vertices that can be reached in the graph through marked vertices only; (5) the view can also be asked about a vertex it does not have, and then it is not symmetric: that vertex has its marked neighbours, they do not have it. (6) With fewer marks than vertices, going through the vertices of the view is undefined behaviour, and so is asking a marked vertex for its neighbours if one of them has no mark.", "quantifier": "all graphs (with parallel edges and self-loops), all vectors of marks, all vertices", "why_tests_cant": "the test only checks that every listed vertex is marked and every listed edge has a marked end; a view that lists nothing passes it", "anchors": ["include/pctsp/graph.hh:filterMarkedVertices", "include/pctsp/graph.hh:BoolVertexFilter", "include/pctsp/graph.hh:BoolEdgeFilter"]}
{"id": "C141", "title": "The knapsack function solves the right problem, and does not tell the answer", "statement": "knapsack(costs, weights, capacity): (1) with as many weights as costs SCIP is given the problem to choose items of the greatest total cost whose total weight is at most the capacity; (2) no sum of at most 2^32 weights of type int overflows, as they are passed on as 64-bit numbers; (3) with fewer weights than costs, the items without a weight are free, and their variables are never released; (4) with more weights than costs the behaviour is undefined; (5) if SCIP does not fail, the call returns SCIP_OKAY whatever the items and the capacity are: the solution is not reported.", "quantifier": "all lists of costs and weights, all capacities, all choices of items", "why_tests_cant": "the test checks the return code, which is the same for every input; lists of different lengths read behind an array, which may pass unnoticed", "anchors": ["src/knapsack.cpp:knapsack", "include/pctsp/knapsack.hh:knapsack"]}
{"id": "C142", "title": "Preprocessing a preprocessed graph", "statement": "run_preprocessing applied to its own result, with the same flags and root: (1) the result is returned unchanged, node for node and neighbour for neighbour, whatever the flags, provided that the root is still a vertex when disconnected vertices are to be removed and, when both leaves and one-connected components are removed, that the root is on a cycle or no longer a vertex; one nested call of remove_leaves suffices for this. (2) If leaves and one-connected components are removed, the root is on no cycle of the graph but survives the first run (it is between two cycles), then the first run returns the root alone, the second run returns the empty graph, and the third run raises a KeyError if disconnected vertices are to be removed.", "quantifier": "all undirected graphs with any hashable node names, all roots, all combinations of flags, all recursion limits that suffice; all functions that meet the specifications of the two networkx calls", "why_tests_cant": "the steps interact: removing leaves could disconnect vertices, removing components could make new leaves; tests run the pipeline once on a few graphs", "anchors": ["pctsp/lab/run_algorithm.py:run_preprocessing", "pctsp/preprocessing/preprocessing.py:remove_leaves", "pctsp/preprocessing/preprocessing.py:remove_one_connected_components", "pctsp/preprocessing/preprocessing.py:remove_components_disconnected_from_vertex"]}
{"id": "C143", "title": "A heuristic on its own result", "statement": "(1) extensionUntilPrizeFeasible applied to its own result changes nothing. (2) The same holds for pathExtensionUntilPrizeFeasible with step 1, and with a greater step if the first run won less prize than the graph has vertices. (3) extensionUnitaryGain leaves a tour alone exactly if no insertion has positive gain or the greatest gain is not above the average gain of the vertices outside the tour. (4) In a sequence of runs of extensionUnitaryGain, extensionUnitaryLoss and extensionUntilPrizeFeasible, each on the result of the previous one, every run that changes the tour adds a vertex. (5) In a sequence of runs of pathExtension and pathExtensionUntilPrizeFeasible with any steps and depths and non-negative prizes, every run that changes the tour wins prize. (6) In a sequence of runs of collapse and pathExtensionCollapse that starts with a feasible tour, with non-negative costs and prizes, the tour stays feasible and every run that changes it makes it cheaper; so at most as many runs change the tour as it costs. (7) For extensionUnitaryGain, extensionUnitaryLoss, collapse, and pathExtensionCollapse (as extension-collapse and as path-extension-collapse) there are inputs for which a second run changes the tour; for the last three it finds a cheaper one.", "quantifier": "all graphs, tours, costs, prizes and quotas, all arithmetic with the laws of IEEE comparisons, all numbers of runs, all steps and depths, all orders of equal elements of the heap", "why_tests_cant": "whether a local search is at a fixed point after one run, and how often it can be repeated, are statements about all tours and all numbers of runs", "anchors": ["include/pctsp/heuristic.hh:extensionUntilPrizeFeasible", "include/pctsp/heuristic.hh:pathExtensionUntilPrizeFeasible", "include/pctsp/heuristic.hh:extensionUnitaryGain", "include/pctsp/heuristic.hh:pathExtension", "include/pctsp/heuristic.hh:collapse", "include/pctsp/heuristic.hh:pathExtensionCollapse"]}
{"id": "C144", "title": "Is a graph a simple cycle", "statement": "isGraphSimpleCycle(graph, component_vector): (1) with at least one entry per vertex in the vector, the answer is true iff the edges of the graph, each used once, form one closed walk that visits every vertex exactly once (one vertex with one self-loop and two vertices with two parallel edges count); the vector keeps its length and its entries beyond the number of vertices, and holds the component labels before them, unless the graph has no edges: then it is unchanged. (2) A shorter vector is undefined behaviour unless the graph has no edges. (3) The test agrees with isSimpleCycle on all edges of the graph, except that a vertex without edges is noticed by isGraphSimpleCycle only, and a single vertex with a single self-loop is a cycle for isGraphSimpleCycle only. (4) getSolutionGraph for the solution of a tour, into a graph without vertices, adds exactly the edges of the tour, and the vertices 0..m where m is the largest vertex of the tour; so the result is a simple cycle for isGraphSimpleCycle iff the tour visits every vertex up to m: for other tours the library's two tests disagree about the same solution.", "quantifier": "all graphs (with parallel edges and self-loops), all vectors, all tours with at least two vertices and their solutions, all orders of the edges", "why_tests_cant": "equivalence with an existential over all orders of the vertices; the tests use three graphs in which no vertex is left out", "anchors": ["src/separation.cpp:isGraphSimpleCycle", "src/solution.cpp:getSolutionGraph"]}
{"id": "C145", "title": "The columns of the CSV files", "statement": "(1) The flat dictionary of a vial holds the identifier and every field of the data configuration, the model parameters and the preprocessing with its value under its own name, so different vials have different dictionaries; for any parts the value under a name is that of the last field with the name, so this rests only on the names being different. (2) A row of the CSV file of an experiment consists of the fields of the vial, then the fields of the result, then duration, feasible and overshoot: no column is renamed or lost by the merge, and the only value that is replaced is the objective, which is masked unless the prize of the result is at least the quota of the vial. (3) A row of the file of a branch and cut experiment is that row followed by the statistics of SCIP under their own names; all names are different. (4) The files have every column that the tables read, and a column for every setting of the preprocessing; the file of the heuristics has no bounds, so joining it with the bounds of the exact algorithm renames no column.", "quantifier": "all values of all fields, all results and statistics, any type of values", "why_tests_cant": "whether a merge of three tables renames or overwrites a column for some vial is not visible in a test that reads a few columns", "anchors": ["pctsp/vial/vial.py:flat_dict_from_vial", "pctsp/apps/csv_app.py:experiment_summary_df", "pctsp/apps/csv_app.py:write_branch_cut_experiment_to_csv", "pctsp/apps/tables_app.py:get_heuristics_df"]}
{"id": "C146", "title": "The names of the rows", "statement": "(1) The name of a subtour elimination, cycle cover or cost cover row is a prefix for its kind followed by the names of its variables with one underscore between two of them. (2) With the names that SCIP gives to variables without a name (some text, the number, some text without digits) two names are equal iff the rows are of the same kind and have the same variables in the same order. (3) If one of the variables is a null pointer the behaviour is undefined: the exception for this case is constructed but not thrown.", "quantifier": "all lists of variables, all texts around the numbers", "why_tests_cant": "injectivity of a concatenation over all lists", "anchors": ["include/pctsp/sciputils.hh:joinVariableNames", "src/subtour_elimination.cpp:addSubtourEliminationConstraint", "include/pctsp/cycle_cover.hh:addCycleCover", "src/cost_cover.cpp:addCoverInequality"]}
{"id": "C147", "title": "Which heuristic is better than which", "statement": "Compare the five heuristics of run_heuristic on the same graph, quota, root, options, environment and disjoint paths. (1) One of them can find a cheaper tour than another one, both meeting the quota, for every pair of different heuristics except one: Suurballe's heuristic never finds a cheaper tour than path extension and collapse from its tour. (2) One can find a tour that meets the quota while the other one ends without one, for every pair of different heuristics except two: when Suurballe's heuristic finds a tour, so do the two heuristics that start from its tour. (3) There are inputs on which all five find a tour and a given heuristic is strictly cheaper than the four others, for every heuristic except Suurballe's. So apart from these no heuristic of the experiments is redundant.", "quantifier": "all ordered pairs of heuristics; 'never' is over all graphs, costs, prizes, quotas, options, environments and runs of Suurballe's algorithm", "why_tests_cant": "the absence of a better result is a statement about all inputs; a test can only show one direction for one pair", "anchors": ["pctsp/lab/run_algorithm.py:run_heuristic", "pctsp/vial/model_params.py:AlgorithmName"]}
{"id": "C148", "title": "What the heuristics do when the instance gets easier", "statement": "Run one of the five heuristics of run_heuristic on an instance and on an easier one: the quota is lowered, or prizes are raised, or costs are lowered, or an edge is added, and nothing else changes. (1) The tour it finds can become dearer in every case except two: with a lower quota or with higher prizes Suurballe's heuristic never finds a dearer tour. (2) It can find a tour that meets the quota before and end without one after the change in every case except four: Suurballe's heuristic never loses its tour when the quota is lowered or prizes are raised, and the two heuristics that start from a cycle of a breadth first search never lose it when the quota is lowered. (3) In the library, collapse returns a tour whose prize is below the quota unchanged, and path_extension_collapse returns a tour that meets a quota whenever it returns a tour for a higher one.", "quantifier": "all heuristics and all four kinds of change; 'never' is over all graphs, costs, prizes, quotas, options, environments and runs of Suurballe's algorithm", "why_tests_cant": "that a heuristic never gets worse is a statement about all pairs of instances; a test compares one pair", "anchors": ["pctsp/lab/run_algorithm.py:run_heuristic", "include/pctsp/heuristic.hh:collapse", "include/pctsp/heuristic.hh:pathExtensionCollapse", "pctsp/algorithms/heuristic.py:suurballes_heuristic"]}
{"id": "C149", "title": "The edges of a cut, and edges as pairs of vertices", "statement": "getEdgesFromCut(graph, sides) returns exactly the edges whose ends are on different sides, each once and in the order of the graph (so never a self-loop, and both of two parallel edges); exchanging the sides does not change it; it is undefined iff an edge has an end without a side. A walk in the graph crosses the cut an even number of times iff it ends on the side where it starts, and not at all iff it stays on one side; a tour with vertices on both sides crosses at least twice; the cut is empty iff no walk leads from one side to the other. getVertexPairVectorFromGraph returns the ends of all edges in order; looking these pairs up again with edgesFromVertexPairs returns the same edges iff no two edges join the same vertices; building a graph from the pairs gives the same edges, and the same number of vertices iff the last vertex has an edge.", "quantifier": "all graphs (with parallel edges and self-loops), all assignments of sides, all walks and tours", "why_tests_cant": "the tests compare the cost of one minimum cut of a few graphs; that the cut separates, and parity, are about all walks", "anchors": ["include/pctsp/subtour_elimination.hh:getEdgesFromCut", "include/pctsp/graph.hh:getVertexPairVectorFromGraph", "include/pctsp/graph.hh:edgesFromVertexPairs", "include/pctsp/graph.hh:addEdgesToGraph"]}
{"id": "C150", "title": "The support graph of a solution", "statement": "filterGraphByPositiveEdgeVars gives a view of the graph. If every edge has a variable: its edges are those with a positive variable, self-loops included, each once and in order, and numEdgesInFilteredGraph is their number; without the self-loops they are the edges that getSolutionEdges returns; the out-edges of a vertex are its edges with a positive variable; a search in the view reaches exactly the vertices joined by edges with a positive value, which is what the separation methods take as the components. For the solution that belongs to a tour the view has twice as many edges as the tour has vertices. If an edge has no variable, counting the edges of the view or asking one of the ends of that edge for its out-edges is undefined. isSolutionIntegral is true iff every value is within the tolerance of an integer.", "quantifier": "all graphs, all solutions, all sets of variables, all tolerances", "why_tests_cant": "the test counts the edges of one solution; the separation methods rely on the view for every solution of the LP", "anchors": ["include/pctsp/solution.hh:filterGraphByPositiveEdgeVars", "include/pctsp/solution.hh:PositiveEdgeVarFilter", "include/pctsp/graph.hh:numEdgesInFilteredGraph", "src/solution.cpp:isSolutionIntegral"]}
{"id": "C151", "title": "The row of the quota does not depend on the order of the variables", "statement": "PCTSPaddPrizeConstraint gives each of the first num_edge_variables variables of SCIP one coefficient: minus the weight of the last edge, in the order of the map from edges to variables, whose variable has its name at the same address, and 0 if there is none. So if no two names share an address (each variable owns its name), then for every order of the map and every order of SCIP's variables the self-loop of a vertex has minus the prize of the vertex as coefficient, every other edge has 0, and the row is satisfied iff the prizes of the vertices whose self-loop is chosen sum to at least the quota.", "quantifier": "all graphs with one self-loop per vertex and no parallel edges, all prizes (also negative) and quotas, all orders, all addresses", "why_tests_cant": "the order of the map is the order of addresses of edges in memory; a test sees one of them", "anchors": ["include/pctsp/constraint.hh:PCTSPaddPrizeConstraint", "include/pctsp/constraint.hh:getVariableNameToWeightMap"]}
{"id": "C152", "title": "Edges that are listed several times", "statement": "Nothing checks that an edge is listed once, and both directions of an edge of a directed graph are two edges between the same vertices. If the cost covers are off and the graph has no self-loops, whatever the solver returns is one of two things: a feasible tour all of whose edges are listed once, or a closed walk through distinct vertices (possibly there and back over one edge) along edges that are all listed several times. In the second case its edges are split into a part M and a part N, where no two edges of M have a vertex in common, every edge of M is listed exactly twice, the root is an end of an edge of M, and only the prizes of the ends of M count for the quota and only the edges of M cost anything. With status optimal and without cycle cover no answer of either kind is cheaper; with status infeasible and without cycle cover there is none; with cycle cover and nonnegative prizes this holds for the answers of the first kind. So if no edge at the root is listed exactly twice, edges that are listed several times are treated as if they were missing. The bindings give the cost of an edge to its first copy only. A feasible tour can be lost because one of its edges is listed twice (a triangle), a tour that does not exist can be optimal (one edge in both directions), and the optimal answer can be dearer than another feasible tour.", "quantifier": "all graphs without self-loops whose edges are listed any number of times (in any directions and order), all costs, prizes, quotas and roots, all orders of the map from edges to variables, every outcome that SCIP may have", "why_tests_cant": "the tests only use lists in which every edge occurs once; what the rows mean for several copies is about all solutions and all such lists", "anchors": ["include/pctsp/constraint.hh:PCTSPaddDegreeTwoConstraint", "include/pctsp/renaming.hh:fillCostMapFromRenamedMap", "include/pctsp/graph.hh:getEdgesInducedByVertices", "include/pctsp/algorithms.hh:solvePrizeCollectingTSP", "pctsp/pypctsp.cpp"]}
{"id": "C153", "title": "The heuristics do not see repeated edges, unless they use shortest paths", "statement": "The bindings of the heuristics accept lists of edges in which an edge occurs several times, in one or both directions. Path extension, path extension until the quota is reached, both extensions by unitary gain, collapse without shortest paths, and path extension and collapse without shortest paths return exactly what they return for the list with only the first copy of every edge, for all other arguments, also when they fail. With shortest paths this is false: only the first copy of an edge gets the cost, the others are free for the search, so collapse can miss the cheap way that it finds without the repetitions (a tour of cost 140 is kept instead of one of cost 53).", "quantifier": "all lists of edges with vertices of any type, all tours, costs, prizes, roots, quotas, step sizes and depth limits, all kinds of arithmetic whose comparison is a strict order (IEEE numbers with NaN and infinities included)", "why_tests_cant": "a test compares two lists; that repetitions have no influence is about all lists and all arguments, including those for which an exception or undefined behaviour occurs", "anchors": ["pctsp/pypctsp.cpp:pathExtensionBind", "pctsp/pypctsp.cpp:collapseBind", "include/pctsp/heuristic.hh:findExtensionPaths", "include/pctsp/heuristic.hh:neighborIntersection", "include/pctsp/heuristic.hh:findCollapsePaths", "include/pctsp/renaming.hh:fillCostMapFromRenamedMap"]}
{"id": "C154", "title": "What the choice of the root changes", "statement": "Two calls of the exact solver on the same instance with different roots (through the binding, without cost covers, or as runs of the experiment with preprocessing and safe settings): if the answer of the first call visits the second root, then an optimal answer of the second call costs no more and the second call does not say infeasible; if both answers are optimal and each visits the other root, they cost the same. The heuristics with step size 1 (path extension, path extension until the quota is reached, extension by unitary loss) return the same tour for every root, so the root argument of extension_unitary_loss has no effect; with larger step sizes, and in collapse, the root matters.", "quantifier": "all simple instances with non-negative costs, all pairs of roots, all start solutions and settings without cost covers, all solvers that meet the specification; for the heuristics all graphs, tours, costs, prizes, quotas and depth limits, and any arithmetic", "why_tests_cant": "it relates the answers of two calls on every instance; equality of costs and independence of an argument hold for all graphs and are not visible in samples", "anchors": ["pctsp/pypctsp.cpp:pySolvePrizeCollectingTSP", "pctsp/pypctsp.cpp:pathExtensionBind", "include/pctsp/heuristic.hh:findExtensionPaths", "include/pctsp/walk.hh:isInternalVertexOfWalk", "include/pctsp/graph.hh:getSubpathOfCycle", "pctsp/algorithms/extension_collapse.py:extension_unitary_loss"]}
{"id": "C155", "title": "When the order of the edge list matters to the heuristics", "statement": "Two edge lists with the same edges, in any order and direction and with any repetitions, in which the vertices occur first in the same order: extension by unitary gain, extension by unitary gain until the quota is reached, extension by unitary loss, and path extension (also until the quota is reached) with a depth limit of at most 2 return exactly the same on both lists, also when they fail. With the depth limit 3 this is false (the tours can have different costs and prizes), and collapse can return another tour.", "quantifier": "all pairs of such edge lists, all tours, costs, prizes, roots, quotas and step sizes; any arithmetic for unitary gain, any strict comparison of floats for the path extensions", "why_tests_cant": "it relates two calls on every pair of orders of every edge list; a sample of orders cannot show that none changes the answer", "anchors": ["pctsp/pypctsp.cpp:extensionUnitaryGainBind", "pctsp/pypctsp.cpp:extensionUntilPrizeFeasibleBind", "pctsp/pypctsp.cpp:pathExtensionBind", "pctsp/pypctsp.cpp:pathExtensionUntilPrizeFeasibleBind", "pctsp/pypctsp.cpp:collapseBind", "include/pctsp/heuristic.hh:pathExtensionCollapse", "pctsp/algorithms/extension_collapse.py:extension_unitary_loss"]}
{"id": "C156", "title": "Branch and cut with numerical tolerances", "statement": "Take the search of C137 in numbers that are not exact: LP solutions satisfy bounds and rows up to the feasibility tolerance, variables that a node fixes have their values up to a tolerance, the library takes values above epsilon for positive, solutions are accepted up to the feasibility tolerance, and the bound that the cost covers get is an objective value of such a solution, cut off to an integer. If the tolerances are small compared with the number of vertices, the costs, the prizes and the quota, fixed variables have their values up to epsilon, and the distances given by the caller are no more than the costs of the feasible tours through the vertices, then: the separators and events return without an exception on every such LP solution; whenever the search stops, the best solution rounded to the nearest integers passes every check exactly, the edges that the library reads are those of the rounded solution, `optimal` means that no feasible tour is cheaper, and `infeasible` means that there is none, among the tours that the cost covers of the start solution keep; so the call through the bindings returns nothing or a feasible tour, and its statuses are right if the start solution costs no less than some feasible tour. The cut of the bound can lose one, so that the rows of the event exclude the solution that was just found, but this does no harm. If fixed variables only have their values up to the feasibility tolerance this is false: with the default tolerances the search can report `infeasible` although there is a feasible tour.", "quantifier": "all graphs, costs, prizes, quotas, roots, warm starts, all options, all tolerances that meet the stated bounds, all orders of the steps of the search, all solutions within the tolerances", "why_tests_cant": "which numerical errors occur depends on the LP solver and the machine; a run shows one of them, and the claim is about all that the tolerances allow", "anchors": ["src/solution.cpp:isVarPositive", "src/solution.cpp:getSolutionEdges", "src/subtour_elimination.cpp:PCTSPconshdlrSubtour::scip_enfolp", "src/subtour_elimination.cpp:PCTSPconshdlrSubtour::scip_sepalp", "src/cycle_cover.cpp:CycleCoverConshdlr::scip_sepalp", "src/cost_cover.cpp:CostCoverEventHandler::scip_exec", "include/pctsp/algorithms.hh:modelPrizeCollectingTSP", "pctsp/pypctsp.cpp:solve_pctsp_bind"]}
{"id": "C157", "title": "What the commands lab, londonaq and tsplib leave on the disk", "statement": "If the directory of the labs does not exist, the command fails and changes nothing. Otherwise experiment.json is replaced by the new vials (one with londonaq and tsplib), the list of missing vials and the slurm script are kept, and the result files are those that setup and one batch of all vials leave: the file of a vial is the one its own attempt leaves, or the old one if an earlier vial ended the command, and files of other vials do not change. If no attempt ends the command, results.json has the results that the attempts returned, in order; if every file could be written and the vials are new, these are the results that are read from the files. A result whose file could not be written is in results.json only, and its vial counts as missing. If an attempt ends the command, results.json keeps its old content, which then belongs to vials none of which is in the experiment, and the missing vials are those whose attempt raised, that one, and all later ones. After any number of calls of londonaq (or of tsplib, which has a directory of its own) the experiment has the vial of the last call only, so nmissing speaks of one vial, while the result files of all earlier calls are still there.", "quantifier": "all lists of vials with distinct identifiers, all outcomes of the attempts, all files beforehand, all sequences of commands", "why_tests_cant": "what remains after a failure depends on every combination of outcomes and earlier files; the tests run one command that succeeds in an empty directory", "anchors": ["pctsp/apps/main_app.py:lab", "pctsp/apps/main_app.py:londonaq", "pctsp/apps/main_app.py:tsplib", "pctsp/lab/lab.py:Lab.write_results_to_file", "pctsp/lab/lab.py:Lab.run_experiment"]}
{"id": "C158", "title": "The direction and the starting point of the initial tour", "statement": "A closed tour and its reverse are the same cycle. Extension by unitary gain and extension by unitary gain until the prize is feasible, called with the reverse of a tour of three or more vertices, return the reverse of what they return for the tour, provided no vertex has the same positive gain at two different edges. More generally, two tours with the same edges, from whatever starting points and in whatever directions, are then extended to tours with the same edges, so with the same vertices, cost and prize. With such ties this is false: the two calls can return tours through different vertices, one with the quota and one without. For a tour of two vertices the result need not be its own reverse, though the tour is, and for path extension and for collapse the direction matters, for the latter even without ties: the two tours can have different costs.", "quantifier": "all graphs, costs, prizes and quotas, all tours, all floating point arithmetic with the order laws of IEEE comparisons; the negative parts are witnesses", "why_tests_cant": "a relation between two calls for all inputs; a test compares one call with one expected tour", "anchors": ["include/pctsp/heuristic.hh:unitaryGainOfVertex", "include/pctsp/heuristic.hh:extensionUnitaryGain", "include/pctsp/heuristic.hh:extensionUntilPrizeFeasible", "include/pctsp/heuristic.hh:collapse", "include/pctsp/heuristic.hh:pathExtension"]}
{"id": "C159", "title": "The CSV files of the experiments", "statement": "A CSV command changes nothing but the CSV file, and nothing at all if it fails. `csv heuristics` succeeds iff there is an experiment, none of its result files is invalid and some vial has a result; the file then has exactly one row for every vial with a result, in the order of the experiment. If `csv branch-cut` succeeds, so does `csv heuristics` on the same files, with the rows of the same vials and of those without statistics of SCIP. Both commands write the same file: after `csv heuristics` the tables of exact results, and a table of heuristics compared with them, raise a KeyError; after `csv branch-cut` on the experiment of the heuristics, their table raises a ValueError. Once a new experiment has been set up and until one of its vials has a result, both commands fail and the CSV file stays as it was, so the tables of exact results show rows of the old experiment, none of which is of a vial of the new one. `csv all` treats the files of three experiments of two datasets in a fixed order, each as its own command would, up to the first command that raises anything but a missing experiment; the files after it do not change. So one experiment without results stops the others from being written.", "quantifier": "all experiments, results, statistics and CSV files beforehand, all sequences of commands and runs, all states of the six experiments", "why_tests_cant": "the claim is about all sequences of commands and what a failure leaves behind; a test runs one command on one directory", "anchors": ["pctsp/apps/csv_app.py:write_heuristics_experiment_to_csv", "pctsp/apps/csv_app.py:write_branch_cut_experiment_to_csv", "pctsp/apps/csv_app.py:write_all_experiments_to_csv", "pctsp/apps/tables_app.py:get_heuristics_df", "pctsp/apps/tables_app.py:cost_cover_table", "pctsp/apps/tables_app.py:tailing_off_table"]}
{"id": "C160", "title": "Which files the commands for tables write", "statement": "If the directory for the tables exists, `tables all` writes the table of a dataset, of the covers or of tailing off iff its text can be computed and no earlier table raises anything but a FileNotFoundError; all other files stay as they are, and the command succeeds iff no table raises anything else. Repeating it with the same data changes nothing. The table of the heuristics is never written, by any of the commands and however often they are run. If the directory does not exist and its parent does, the tables of the datasets are written before anything makes the directory: if pandas raises an OSError for a missing directory, and there are data of the first dataset, the command ends at once, makes no directory and writes nothing, and repeating it does not help; if it raises a FileNotFoundError, the command succeeds, the table of the first dataset is missing though its data are there, and a second run writes it: two runs leave what one run leaves in a directory made beforehand. If the parent does not exist either, nothing is ever written, and with a FileNotFoundError the command still succeeds, unless the data of a dataset or of the heuristics raise something else. If `csv heuristics` was the last command to write the CSV file of the covers of the first dataset, `tables all` fails and changes at most one table.", "quantifier": "all states of the directory, all texts and exceptions of the eight tables, both exceptions of pandas, all sequences of runs", "why_tests_cant": "what is written depends on the state of the directory and on all eight outcomes; a test runs one command in a directory that exists", "anchors": ["pctsp/apps/tables_app.py:generate_all_tables", "pctsp/apps/tables_app.py:summarize_dataset", "pctsp/apps/tables_app.py:cost_cover_table", "pctsp/apps/tables_app.py:heuristics_table", "pctsp/apps/tables_app.py:tailing_off_table"]}
{"id": "C161", "title": "What the tailing off test measures", "statement": "Enforcing an LP solution that is no simple cycle branches iff the LP was solved and SCIP's gap between the primal bound and the node's lower bound has improved by less than the threshold since the call of the same node m - 1 such calls before, where m is the number of tailing off iterations. The gap is never negative, and zero iff the bounds agree. As long as no solution is known, the gap is SCIP's infinity, a number, and cannot improve: with a positive threshold the node branches from its m-th call on, however much its lower bound rises; with another threshold it never does. Once a solution is found, the node does not branch while its window reaches back to a call without one, however little the lower bound rises. The primal bound is one of the original problem and the lower bound one of SCIP's transformed problem: if SCIP divides the objective function by k, the gap that is used is k (1 + gap) - 1, and a node branches iff the gap improves by less than the threshold divided by k, so that multiplying all costs by k changes where the program branches.", "quantifier": "all sequences of calls at all nodes, all bounds, thresholds and window lengths", "why_tests_cant": "it is a statement about all histories of bounds at all nodes; a test of the helper functions passes gaps and does not see which bounds they come from", "anchors": ["src/subtour_elimination.cpp:PCTSPconshdlrSubtour::scip_enfolp", "src/subtour_elimination.cpp:isNodeTailingOff", "src/subtour_elimination.cpp:pushIntoRollingLpGapList"]}
{"id": "C162", "title": "Which branching rule decides at which depth", "statement": "SCIP tries branching rules by priority, skips those whose maximal depth the node exceeds, and takes the first that runs. For every list of rules with any priorities: with the strategy STRONG, full strong branching decides at every node, and relpscost where it does not run. With STRONG_AT_TREE_TOP and a maximal depth d, full strong branching decides at the nodes down to depth d, and relpscost at the nodes below; with -1 there is no limit, and below -1 strong branching is never used. With RELPSCOST, relpscost decides at every node. With every other number, also that of PSCOST, the rule that had the highest priority before decides, which in SCIP is relpscost, and the depth has no effect.", "quantifier": "all lists of rules and priorities, all orders of rules with the same priority, all depths of nodes and all answers of the rules", "why_tests_cant": "the tests look at priorities of a fixed list of plug-ins; which rule decides depends on all of them, on the depth and on the answers of the rules", "anchors": ["src/branching.cpp:setBranchingStrategy", "src/branching.cpp:setStrongAtTreeTopBranchingStrategy", "src/branching.cpp:setStrongBranchingStrategy", "src/branching.cpp:setRelpscostBranchingStrategy"]}
{"id": "C163", "title": "The log file of the solver", "statement": "A run of the solver has SCIP write its messages to the log file in the directory of the run; at the end it opens the same file again, which empties it, prints SCIP's statistics and does not close it. For a process that runs the solver in different directories: after the process has ended by itself, the log of a run consists of the statistics, followed by at most the end of the messages; what was in the file before and the messages that were on the disk are lost. If the process is killed, the part of the statistics that was in the buffer is lost too, also for runs that had finished. One stream stays open per run; once no descriptor is left, the statistics go to the message handler, and the logs of all later runs are complete: old text, messages and statistics. So with messages on the disk the log is complete iff the process has run out of descriptors. Files of other directories do not change. If a process runs twice in the same directory, the buffer of the first run can be written over the statistics of the second.", "quantifier": "all sequences of runs, all texts, all divisions of them into written and buffered parts, every number of descriptors", "why_tests_cant": "a test that reads the log in the same process sees it before the buffers are written, and no test uses up the descriptors of a process", "anchors": ["src/algorithms.cpp:solvePrizeCollectingTSP", "pctsp/lab/run_algorithm.py:run_algorithm"]}
{"id": "C164", "title": "Tailing off ends", "statement": "With a positive threshold and a window of m >= 2 calls, cutting at a node cannot go on for ever: if no call at the node has branched (and the LPs were solved), the gap has improved by at least k times the threshold over any k (m - 1) calls; so from any call with gap g on, the node has at most (m - 1) (floor(g / threshold) + 1) calls whose LP solution is no simple cycle. With m <= 1 no node ever branches; with a threshold of at most zero, no node whose gaps do not grow ever branches, however many calls it has.", "quantifier": "all histories of calls at all nodes, all bounds, thresholds and window lengths", "why_tests_cant": "termination of a loop over all possible sequences of bounds", "anchors": ["src/subtour_elimination.cpp:PCTSPconshdlrSubtour::scip_enfolp", "src/subtour_elimination.cpp:isNodeTailingOff", "src/subtour_elimination.cpp:pushIntoRollingLpGapList"]}
{"id": "C165", "title": "Answers of the enforcement that the solver does not accept", "statement": "The enforcement of the subtour constraint always gives an answer. SCIP rejects the answer (it was asked to branch, but no variable is fractional) iff every variable has the value zero or one, the edges with value one are no simple cycle, the LP was solved, and the gap has improved by less than the threshold since the call at the node m - 1 calls before. If the solution satisfies the other rows of the model, the separation of disjoint tours finds rows for it, all of them violated; so the answer can only be rejected for a solution whose rows the solver did not ask for or did not take. With a fractional variable it branches under the same conditions. With m <= 1 no answer is rejected. A rejected answer is possible: two triangles, m = 2, no improvement.", "quantifier": "all graphs, LP solutions, orders of edges, histories of calls, gaps, thresholds and window lengths", "why_tests_cant": "it depends on the whole history of gaps at a node and on all integral solutions that are no tours", "anchors": ["src/subtour_elimination.cpp:PCTSPconshdlrSubtour::scip_enfolp", "src/subtour_elimination.cpp:isNodeTailingOff", "src/subtour_elimination.cpp:PCTSPseparateDisjointTour", "src/algorithms.cpp:solvePrizeCollectingTSP"]}
{"id": "C166", "title": "The column formats of the LaTeX tables", "statement": "In the table of the covers there is a column format iff the experiment is cost_cover or cc_londonaq_alpha (else the command raises an exception); every column has a format iff there are at most three covers, and every column that has one has the format that fits its measure (gaps with three places, counts as whole numbers, else scientific notation), whatever the covers are. The table of the dataset londonaq has exactly the formats of its columns; that of the other dataset has a format for every column iff there are at most two cost functions, and those are right. In the table of the heuristics the formats are written for three measures per algorithm, but there are four: LaTeX gets too few formats iff there are more than three algorithms, and for every non-empty list of algorithms the number of optimal solutions of the first has the format of a duration, and with two or more the gap of the second has the format of a count.", "quantifier": "all lists of covers, algorithms and cost functions, both datasets, all experiments", "why_tests_cant": "the columns depend on which labels occur in the data and on the order in which pandas sorts them", "anchors": ["pctsp/apps/tables_app.py:cost_cover_table", "pctsp/apps/tables_app.py:heuristics_table", "pctsp/apps/tables_app.py:summarize_dataset"]}
