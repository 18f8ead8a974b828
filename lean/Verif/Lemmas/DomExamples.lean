import Verif.Spec.Dominance
import Verif.Lemmas.LabExamples

/-!
# Settings for comparing the heuristics
-/

namespace Pctsp

/-- A graph with costs and prizes, and the tree of shortest paths from the root's head in the split graph. -/
structure DomData (n : Nat) where
  edges : List ((Fin n × Fin n) × Int)
  prizes : List Int
  table : List (Nat × Int × List Nat)

namespace DomData

variable {n : Nat} [NeZero n] (I : DomData n)

def w (x y : Fin n) : Int := ((I.edges.find? fun p => p.1 == (x, y) || p.1 == (y, x)).map Prod.snd).getD 1
def π (x : Fin n) : Int := I.prizes.getD x.val 0
def lab : LabGraph (Fin n) := labGraph (I.edges.map Prod.fst) I.w I.π
def arcs : List ((Nat × Nat) × Int) :=
  ((List.range n).map fun v => ((v, v + n), 0)) ++ I.edges.flatMap fun p => [((p.1.1.val + n, p.1.2.val), p.2), ((p.1.2.val + n, p.1.1.val), p.2)]
def split : DiGraph Nat := .ofEdges (2 * n) I.arcs
def dij : DijkstraOut Nat := .ofTable I.table
def tree : STree Nat × SState Nat := match suurballe I.split I.dij (2 * n) (0 + n) with
  | .ok r => r
  | _ => (⟨0, fun _ => [], fun _ => [], fun _ => 0, fun _ => 0, fun _ _ => 0, fun _ => 0⟩,
    ⟨fun _ => 0, fun _ => none, fun _ => none, fun _ => false, [], fun _ => [], fun _ => [], fun _ => none⟩)
def paths : List (Fin n × (List (Fin n) × List (Fin n))) :=
  match undirectedVertexDisjointPathsMap (plainNames n) I.tree.1 I.tree.2 (treeNodes (0 + n) I.dij) with
  | .ok m => m
  | _ => []

/-- The data describe a setting. -/
structure Good : Prop where
  distinct : (I.edges.map Prod.fst).Pairwise fun p q => ¬ SameEdge p q
  symm : ∀ x y, I.w x y = I.w y x
  ends : ∀ x, x ∈ endpoints (I.edges.map Prod.fst)
  prizes : ∀ x, 0 ≤ I.π x
  costs : ∀ x y, 0 ≤ I.w x y
  loop : (0 : Fin n) ∉ I.lab.nx.adj 0
  arcs : (I.arcs.map Prod.fst).Nodup
  arcs' : ∀ e ∈ I.arcs.map Prod.fst, e.1 < 2 * n ∧ e.2 < 2 * n ∧ e.1 ≠ e.2 ∧ 0 ≤ I.split.weight e.1 e.2
  key : ∀ e ∈ I.arcs.map Prod.fst, (∃ v : Fin n, e.1 = v.val ∧ e.2 = v.val + n) ∨
    ∃ a b : Fin n, e.1 = a.val + n ∧ e.2 = b.val ∧ b ∈ I.lab.nx.adj a
  inner : ∀ v ∈ I.lab.nx.nodes, v.val + n ∈ I.split.succ v.val
  outer : ∀ a b : Fin n, b ∈ I.lab.nx.adj a → b.val ∈ I.split.succ (a.val + n)
  innerCost : ∀ v ∈ I.lab.nx.nodes, I.split.weight v.val (v.val + n) = 0
  outerCost : ∀ a b : Fin n, b ∈ I.lab.nx.adj a → I.split.weight (a.val + n) b.val = I.w a b
  d1 : (I.table.map Prod.fst).Nodup
  d2 : 0 + n ∈ I.table.map Prod.fst
  d3 : I.dij.path (0 + n) = [0 + n]
  d4 : I.dij.dist (0 + n) = 0
  d5 : ∀ v ∈ I.table.map Prod.fst, v ≠ 0 + n → ∃ u ∈ I.table.map Prod.fst, I.dij.path v = I.dij.path u ++ [v] ∧
    v ∈ I.split.succ u ∧ I.dij.dist v = I.dij.dist u + I.split.weight u v
  d6 : ∀ u ∈ I.table.map Prod.fst, ∀ v ∈ I.split.succ u, v ∈ I.table.map Prod.fst ∧ I.dij.dist v ≤ I.dij.dist u + I.split.weight u v
  run : (match suurballe I.split I.dij (2 * n) (0 + n) with | .ok _ => true | _ => false) = true
  map : (match undirectedVertexDisjointPathsMap (plainNames n) I.tree.1 I.tree.2 (treeNodes (0 + n) I.dij) with | .ok _ => true | _ => false) = true

variable {I}

theorem Good.split (h : I.Good) : SplitOf I.lab.nx I.w I.split (fun v => v.val) (fun v => v.val + n) where
  tailInj u v h := Fin.ext h
  headInj u v h := Fin.ext (by simpa using h)
  disj u v := by have := u.isLt; intro h; omega
  edges x y k := h.key (x, y) (DiGraph.mem_ofEdges.1 k)
  inner := h.inner
  outer := h.outer
  innerCost := h.innerCost
  outerCost := h.outerCost

theorem Good.ok (h : I.Good) : I.lab.Ok I.w I.π := labGraph_ok h.distinct h.symm h.ends h.prizes h.costs

theorem Good.on (h : I.Good) : SuurballeOn I.lab.nx I.w I.split (fun v => v.val) (fun v => v.val + n) (plainNames n) 0 I.dij (2 * n) I.tree.1 I.tree.2 := by
  refine ⟨h.ok.wf, fun u v _ => h.symm u v, DiGraph.ofEdges_wf h.arcs h.arcs', h.split, plainNames_ok n, ?_, ?_⟩
  · simpa [dij] using DijkstraOut.ofTable_ok h.d1 h.d2 h.d3 h.d4 h.d5 h.d6
  · have h1 := h.run
    simp only [tree, Fin.val_zero] at h1 ⊢
    revert h1
    cases suurballe I.split I.dij (2 * n) (0 + n) <;> simp

theorem Good.pathsOk (h : I.Good) :
    undirectedVertexDisjointPathsMap (plainNames n) I.tree.1 I.tree.2 (treeNodes (0 + n) I.dij) = .ok I.paths := by
  have h1 := h.map
  simp only [paths] at h1 ⊢
  revert h1
  cases undirectedVertexDisjointPathsMap (plainNames n) I.tree.1 I.tree.2 (treeNodes (0 + n) I.dij) <;> simp

/-- The setting, with root 0 and the default options. -/
def setting (h : I.Good) (quota : Int) : HeuristicSetting Ext (Fin n) Nat where
  G := I.lab
  w := I.w
  π := I.π
  quota := quota
  root := 0
  env := plainEnv I.lab I.π 0
  A := I.split
  tail := fun v => v.val
  head := fun v => v.val + n
  names := plainNames n
  dij := I.dij
  depth := 2 * n
  T := I.tree.1
  st := I.tree.2
  paths := I.paths
  collapsePaths := none
  depthLimit := none
  stepSize := none
  graphOk := h.ok
  noLoop := h.loop
  envOk := plainEnv_ok h.ok (List.mem_finRange 0)
  suurballe := h.on
  pathsOk := by simpa using h.pathsOk

/-- The result of a heuristic. -/
def result (I : DomData n) (quota : Int) (a : AlgorithmName) : Res (List (Fin n × Fin n)) :=
  runHeuristic (plainEnv I.lab I.π 0) I.lab quota 0 a (vertexDisjointCostMap (plainNames n) I.tree.1 I.tree.2 (treeNodes (0 + n) I.dij)) I.paths none none none

theorem setting_run (h : I.Good) (quota : Int) (a : AlgorithmName) : (setting h quota).run a = I.result quota a := by
  simp only [HeuristicSetting.run, setting, result, Fin.val_zero]

end DomData

/-! ## The settings -/

/-- The edges of a walk determine the walk. -/
theorem eq_of_consec_eq {α : Type} : ∀ {s t : List α}, consec s = consec t → 2 ≤ s.length → s = t
  | [], _, _, h => by simp at h
  | [_], _, _, h => by simp at h
  | [a, b], t, h, _ => by
    match t with
    | [] => simp [consec] at h
    | [_] => simp [consec] at h
    | [c, d] => simpa [consec] using h
    | c :: d :: e :: t => simp [consec] at h
  | a :: b :: c :: s, t, h, _ => by
    match t with
    | [] => simp [consec] at h
    | [_] => simp [consec] at h
    | d :: e :: t =>
      replace h : (a, b) :: consec (b :: c :: s) = (d, e) :: consec (e :: t) := by simpa only [consec_cons_cons] using h
      rw [List.cons.injEq, Prod.mk.injEq] at h
      obtain ⟨⟨rfl, rfl⟩, h⟩ := h
      rw [eq_of_consec_eq h (by simp)]

theorem DomData.finds {n : Nat} [NeZero n] {I : DomData n} (h : I.Good) {q : Int} {a : AlgorithmName} (m : List (Fin n))
    (h1 : I.result q a = .ok (consec (0 :: (m ++ [0])))) (h2 : (0 :: m).Nodup) (h3 : ∀ p ∈ consec (0 :: (m ++ [0])), AdjIn I.lab.edges p.1 p.2)
    (h4 : 2 ≤ m.length) (h5 : q ≤ namedPrize I.π (0 :: (m ++ [0]))) {c : Int} (h6 : namedCost I.w (0 :: (m ++ [0])) = c) :
    (DomData.setting h q).Finds a c :=
  ⟨_, (DomData.setting_run h q a).trans h1,
    ⟨⟨⟨m, rfl⟩, by rw [← List.cons_append, List.dropLast_concat]; exact h2, h3⟩, by simp; omega, h5⟩, h6⟩

theorem DomData.misses {n : Nat} [NeZero n] {I : DomData n} (h : I.Good) {q : Int} {a : AlgorithmName} (t : List (Fin n))
    (h1 : I.result q a = .ok (consec t)) (h2 : 4 ≤ t.length → t.dropLast.Nodup → namedPrize I.π t < q) : (DomData.setting h q).Misses a := by
  refine ⟨⟨_, (DomData.setting_run h q a).trans h1⟩, ?_⟩
  rintro c ⟨t', h3, h4, -⟩
  have h5 := h4.three
  rw [DomData.setting_run, h1, Res.ok.injEq] at h3
  obtain rfl := eq_of_consec_eq h3.symm (by omega)
  exact absurd h4.prize (not_le.2 (h2 h5 h4.tour.nodup))

/-- Extension and collapse from a cycle of the breadth first search is the cheapest. -/
def becData : DomData 5 where
  edges := [((0, 1), 6), ((0, 2), 8), ((0, 4), 6), ((1, 2), 4), ((1, 3), 5), ((1, 4), 1), ((2, 3), 4), ((2, 4), 7)]
  prizes := [2, 0, 3, 2, 1]
  table := [(5, 0, [5]), (1, 6, [5, 1]), (4, 6, [5, 4]), (6, 6, [5, 1, 6]), (9, 6, [5, 4, 9]), (2, 8, [5, 2]), (7, 8, [5, 2, 7]), (3, 11, [5, 1, 6, 3]),
    (8, 11, [5, 1, 6, 3, 8]), (0, 12, [5, 1, 6, 0])]

theorem becData_good : becData.Good := by
  constructor <;> decide +kernel

theorem becData_bec : (DomData.setting becData_good 6).Finds .bfsExtensionCollapse 19 :=
  DomData.finds _ [4, 1, 2] (by decide +kernel) (by decide) (by decide +kernel) (by decide) (by decide +kernel) (by decide +kernel)

theorem becData_bpec : (DomData.setting becData_good 6).Finds .bfsPathExtensionCollapse 21 :=
  DomData.finds _ [4, 2] (by decide +kernel) (by decide) (by decide +kernel) (by decide) (by decide +kernel) (by decide +kernel)

theorem becData_sbl : (DomData.setting becData_good 6).Finds .suurballesHeuristic 23 :=
  DomData.finds _ [2, 3, 1] (by decide +kernel) (by decide) (by decide +kernel) (by decide) (by decide +kernel) (by decide +kernel)

theorem becData_sec : (DomData.setting becData_good 6).Finds .suurballesExtensionCollapse 21 :=
  DomData.finds _ [2, 4] (by decide +kernel) (by decide) (by decide +kernel) (by decide) (by decide +kernel) (by decide +kernel)

theorem becData_spec : (DomData.setting becData_good 6).Finds .suurballesPathExtensionCollapse 21 :=
  DomData.finds _ [2, 4] (by decide +kernel) (by decide) (by decide +kernel) (by decide) (by decide +kernel) (by decide +kernel)

/-- Path extension and collapse from a cycle of the breadth first search is the cheapest. -/
def bpecData : DomData 6 where
  edges := [((0, 1), 6), ((0, 2), 3), ((0, 4), 4), ((0, 5), 7), ((1, 2), 8), ((1, 3), 6), ((1, 4), 4), ((1, 5), 6), ((2, 3), 8), ((2, 4), 1), ((2, 5),
    1), ((3, 4), 3), ((4, 5), 4)]
  prizes := [1, 3, 0, 0, 2, 3]
  table := [(6, 0, [6]), (2, 3, [6, 2]), (8, 3, [6, 2, 8]), (4, 4, [6, 4]), (5, 4, [6, 2, 8, 5]), (10, 4, [6, 4, 10]), (11, 4, [6, 2, 8, 5, 11]), (1, 6,
    [6, 1]), (0, 6, [6, 2, 8, 0]), (7, 6, [6, 1, 7]), (3, 7, [6, 4, 10, 3]), (9, 7, [6, 4, 10, 3, 9])]

theorem bpecData_good : bpecData.Good := by
  constructor <;> decide +kernel

theorem bpecData_bec : (DomData.setting bpecData_good 6).Finds .bfsExtensionCollapse 13 :=
  DomData.finds _ [4, 2, 5] (by decide +kernel) (by decide) (by decide +kernel) (by decide) (by decide +kernel) (by decide +kernel)

theorem bpecData_bpec : (DomData.setting bpecData_good 6).Finds .bfsPathExtensionCollapse 12 :=
  DomData.finds _ [4, 5, 2] (by decide +kernel) (by decide) (by decide +kernel) (by decide) (by decide +kernel) (by decide +kernel)

theorem bpecData_sbl : (DomData.setting bpecData_good 6).Finds .suurballesHeuristic 14 :=
  DomData.finds _ [4, 1] (by decide +kernel) (by decide) (by decide +kernel) (by decide) (by decide +kernel) (by decide +kernel)

theorem bpecData_sec : (DomData.setting bpecData_good 6).Finds .suurballesExtensionCollapse 14 :=
  DomData.finds _ [4, 1] (by decide +kernel) (by decide) (by decide +kernel) (by decide) (by decide +kernel) (by decide +kernel)

theorem bpecData_spec : (DomData.setting bpecData_good 6).Finds .suurballesPathExtensionCollapse 14 :=
  DomData.finds _ [4, 1] (by decide +kernel) (by decide) (by decide +kernel) (by decide) (by decide +kernel) (by decide +kernel)

/-- Suurballe's heuristic is cheaper than all but path extension and collapse from its own tour. -/
def sblData : DomData 5 where
  edges := [((0, 1), 6), ((0, 2), 5), ((0, 3), 3), ((1, 2), 4), ((1, 3), 1), ((1, 4), 1), ((2, 3), 3), ((2, 4), 4), ((3, 4), 8)]
  prizes := [3, 0, 3, 1, 0]
  table := [(5, 0, [5]), (3, 3, [5, 3]), (8, 3, [5, 3, 8]), (1, 4, [5, 3, 8, 1]), (6, 4, [5, 3, 8, 1, 6]), (2, 5, [5, 2]), (4, 5, [5, 3, 8, 1, 6, 4]),
    (7, 5, [5, 2, 7]), (9, 5, [5, 3, 8, 1, 6, 4, 9]), (0, 6, [5, 3, 8, 0])]

theorem sblData_good : sblData.Good := by
  constructor <;> decide +kernel

theorem sblData_bec : (DomData.setting sblData_good 3).Finds .bfsExtensionCollapse 15 :=
  DomData.finds _ [1, 2] (by decide +kernel) (by decide) (by decide +kernel) (by decide) (by decide +kernel) (by decide +kernel)

theorem sblData_bpec : (DomData.setting sblData_good 3).Finds .bfsPathExtensionCollapse 13 :=
  DomData.finds _ [3, 1, 2] (by decide +kernel) (by decide) (by decide +kernel) (by decide) (by decide +kernel) (by decide +kernel)

theorem sblData_sbl : (DomData.setting sblData_good 3).Finds .suurballesHeuristic 10 :=
  DomData.finds _ [1, 3] (by decide +kernel) (by decide) (by decide +kernel) (by decide) (by decide +kernel) (by decide +kernel)

theorem sblData_sec : (DomData.setting sblData_good 3).Finds .suurballesExtensionCollapse 13 :=
  DomData.finds _ [2, 1, 3] (by decide +kernel) (by decide) (by decide +kernel) (by decide) (by decide +kernel) (by decide +kernel)

theorem sblData_spec : (DomData.setting sblData_good 3).Finds .suurballesPathExtensionCollapse 10 :=
  DomData.finds _ [1, 3] (by decide +kernel) (by decide) (by decide +kernel) (by decide) (by decide +kernel) (by decide +kernel)

/-- Extension and collapse from the tour of Suurballe's heuristic is the cheapest. -/
def secData : DomData 7 where
  edges := [((0, 1), 2), ((0, 2), 2), ((0, 3), 2), ((0, 4), 7), ((0, 5), 2), ((0, 6), 5), ((1, 4), 8), ((1, 5), 1), ((2, 3), 2), ((2, 4), 2), ((2, 5),
    1), ((3, 4), 3), ((3, 6), 7), ((4, 5), 4), ((4, 6), 7)]
  prizes := [3, 1, 1, 2, 3, 2, 0]
  table := [(7, 0, [7]), (1, 2, [7, 1]), (2, 2, [7, 2]), (3, 2, [7, 3]), (5, 2, [7, 5]), (8, 2, [7, 1, 8]), (9, 2, [7, 2, 9]), (10, 2, [7, 3, 10]), (12,
    2, [7, 5, 12]), (0, 4, [7, 1, 8, 0]), (4, 4, [7, 2, 9, 4]), (11, 4, [7, 2, 9, 4, 11]), (6, 5, [7, 6]), (13, 5, [7, 6, 13])]

theorem secData_good : secData.Good := by
  constructor <;> decide +kernel

theorem secData_bec : (DomData.setting secData_good 7).Finds .bfsExtensionCollapse 7 :=
  DomData.finds _ [3, 2, 5] (by decide +kernel) (by decide) (by decide +kernel) (by decide) (by decide +kernel) (by decide +kernel)

theorem secData_bpec : (DomData.setting secData_good 7).Finds .bfsPathExtensionCollapse 9 :=
  DomData.finds _ [2, 4, 3] (by decide +kernel) (by decide) (by decide +kernel) (by decide) (by decide +kernel) (by decide +kernel)

theorem secData_sbl : (DomData.setting secData_good 7).Finds .suurballesHeuristic 9 :=
  DomData.finds _ [3, 4, 2] (by decide +kernel) (by decide) (by decide +kernel) (by decide) (by decide +kernel) (by decide +kernel)

theorem secData_sec : (DomData.setting secData_good 7).Finds .suurballesExtensionCollapse 6 :=
  DomData.finds _ [2, 5, 1] (by decide +kernel) (by decide) (by decide +kernel) (by decide) (by decide +kernel) (by decide +kernel)

theorem secData_spec : (DomData.setting secData_good 7).Finds .suurballesPathExtensionCollapse 7 :=
  DomData.finds _ [3, 2, 5] (by decide +kernel) (by decide) (by decide +kernel) (by decide) (by decide +kernel) (by decide +kernel)

/-- Path extension and collapse from the tour of Suurballe's heuristic is the cheapest. -/
def specData : DomData 5 where
  edges := [((0, 1), 2), ((0, 2), 6), ((0, 3), 2), ((1, 2), 7), ((1, 3), 8), ((2, 3), 1), ((2, 4), 6), ((3, 4), 3)]
  prizes := [3, 3, 3, 0, 3]
  table := [(5, 0, [5]), (1, 2, [5, 1]), (3, 2, [5, 3]), (6, 2, [5, 1, 6]), (8, 2, [5, 3, 8]), (2, 3, [5, 3, 8, 2]), (7, 3, [5, 3, 8, 2, 7]), (0, 4, [5,
    1, 6, 0]), (4, 5, [5, 3, 8, 4]), (9, 5, [5, 3, 8, 4, 9])]

theorem specData_good : specData.Good := by
  constructor <;> decide +kernel

theorem specData_bec : (DomData.setting specData_good 7).Finds .bfsExtensionCollapse 15 :=
  DomData.finds _ [1, 2] (by decide +kernel) (by decide) (by decide +kernel) (by decide) (by decide +kernel) (by decide +kernel)

theorem specData_bpec : (DomData.setting specData_good 7).Finds .bfsPathExtensionCollapse 15 :=
  DomData.finds _ [1, 2] (by decide +kernel) (by decide) (by decide +kernel) (by decide) (by decide +kernel) (by decide +kernel)

theorem specData_sbl : (DomData.setting specData_good 7).Finds .suurballesHeuristic 17 :=
  DomData.finds _ [2, 4, 3] (by decide +kernel) (by decide) (by decide +kernel) (by decide) (by decide +kernel) (by decide +kernel)

theorem specData_sec : (DomData.setting specData_good 7).Finds .suurballesExtensionCollapse 15 :=
  DomData.finds _ [2, 1] (by decide +kernel) (by decide) (by decide +kernel) (by decide) (by decide +kernel) (by decide +kernel)

theorem specData_spec : (DomData.setting specData_good 7).Finds .suurballesPathExtensionCollapse 12 :=
  DomData.finds _ [3, 2, 1] (by decide +kernel) (by decide) (by decide +kernel) (by decide) (by decide +kernel) (by decide +kernel)

/-- Only the heuristics that start from disjoint paths find a tour. -/
def noBfsData : DomData 5 where
  edges := [((0, 1), 6), ((0, 2), 7), ((0, 4), 1), ((1, 2), 1), ((1, 4), 2), ((2, 3), 8), ((2, 4), 7), ((3, 4), 6)]
  prizes := [2, 3, 0, 1, 1]
  table := [(5, 0, [5]), (4, 1, [5, 4]), (9, 1, [5, 4, 9]), (0, 2, [5, 4, 9, 0]), (1, 3, [5, 4, 9, 1]), (6, 3, [5, 4, 9, 1, 6]), (2, 4, [5, 4, 9, 1, 6,
    2]), (7, 4, [5, 4, 9, 1, 6, 2, 7]), (3, 7, [5, 4, 9, 3]), (8, 7, [5, 4, 9, 3, 8])]

theorem noBfsData_good : noBfsData.Good := by
  constructor <;> decide +kernel

theorem noBfsData_bec : (DomData.setting noBfsData_good 7).Misses .bfsExtensionCollapse :=
  DomData.misses _ [0, 1, 2, 4, 0] (by decide +kernel) (by decide +kernel)

theorem noBfsData_bpec : (DomData.setting noBfsData_good 7).Misses .bfsPathExtensionCollapse :=
  DomData.misses _ [] (by decide +kernel) (by decide +kernel)

theorem noBfsData_sbl : (DomData.setting noBfsData_good 7).Finds .suurballesHeuristic 22 :=
  DomData.finds _ [1, 2, 3, 4] (by decide +kernel) (by decide) (by decide +kernel) (by decide) (by decide +kernel) (by decide +kernel)

theorem noBfsData_sec : (DomData.setting noBfsData_good 7).Finds .suurballesExtensionCollapse 22 :=
  DomData.finds _ [1, 2, 3, 4] (by decide +kernel) (by decide) (by decide +kernel) (by decide) (by decide +kernel) (by decide +kernel)

theorem noBfsData_spec : (DomData.setting noBfsData_good 7).Finds .suurballesPathExtensionCollapse 22 :=
  DomData.finds _ [1, 2, 3, 4] (by decide +kernel) (by decide) (by decide +kernel) (by decide) (by decide +kernel) (by decide +kernel)

/-- Only extension and collapse from a cycle of the breadth first search finds a tour. -/
def onlyBecData : DomData 6 where
  edges := [((0, 1), 7), ((0, 2), 2), ((0, 3), 5), ((0, 4), 6), ((0, 5), 2), ((1, 2), 4), ((1, 3), 1), ((1, 4), 7), ((1, 5), 4), ((2, 5), 8), ((3, 5),
    6)]
  prizes := [3, 0, 3, 0, 2, 3]
  table := [(6, 0, [6]), (2, 2, [6, 2]), (5, 2, [6, 5]), (8, 2, [6, 2, 8]), (11, 2, [6, 5, 11]), (0, 4, [6, 2, 8, 0]), (3, 5, [6, 3]), (9, 5, [6, 3,
    9]), (4, 6, [6, 4]), (1, 6, [6, 2, 8, 1]), (10, 6, [6, 4, 10]), (7, 6, [6, 2, 8, 1, 7])]

theorem onlyBecData_good : onlyBecData.Good := by
  constructor <;> decide +kernel

theorem onlyBecData_bec : (DomData.setting onlyBecData_good 11).Finds .bfsExtensionCollapse 27 :=
  DomData.finds _ [4, 1, 5, 2] (by decide +kernel) (by decide) (by decide +kernel) (by decide) (by decide +kernel) (by decide +kernel)

theorem onlyBecData_bpec : (DomData.setting onlyBecData_good 11).Misses .bfsPathExtensionCollapse :=
  DomData.misses _ [] (by decide +kernel) (by decide +kernel)

theorem onlyBecData_sbl : (DomData.setting onlyBecData_good 11).Misses .suurballesHeuristic :=
  DomData.misses _ [] (by decide +kernel) (by decide +kernel)

theorem onlyBecData_sec : (DomData.setting onlyBecData_good 11).Misses .suurballesExtensionCollapse :=
  DomData.misses _ [0, 5, 0, 2, 0] (by decide +kernel) (by decide +kernel)

theorem onlyBecData_spec : (DomData.setting onlyBecData_good 11).Misses .suurballesPathExtensionCollapse :=
  DomData.misses _ [0, 5, 0, 2, 0] (by decide +kernel) (by decide +kernel)

/-- Only the two path extensions find a tour. -/
def onlyPecData : DomData 4 where
  edges := [((0, 1), 5), ((0, 2), 6), ((0, 3), 1), ((1, 2), 4), ((1, 3), 1), ((2, 3), 5)]
  prizes := [0, 2, 3, 2]
  table := [(4, 0, [4]), (3, 1, [4, 3]), (7, 1, [4, 3, 7]), (0, 2, [4, 3, 7, 0]), (1, 2, [4, 3, 7, 1]), (5, 2, [4, 3, 7, 1, 5]), (2, 6, [4, 2]), (6, 6,
    [4, 2, 6])]

theorem onlyPecData_good : onlyPecData.Good := by
  constructor <;> decide +kernel

theorem onlyPecData_bec : (DomData.setting onlyPecData_good 7).Misses .bfsExtensionCollapse :=
  DomData.misses _ [0, 1, 2, 0] (by decide +kernel) (by decide +kernel)

theorem onlyPecData_bpec : (DomData.setting onlyPecData_good 7).Finds .bfsPathExtensionCollapse 12 :=
  DomData.finds _ [3, 1, 2] (by decide +kernel) (by decide) (by decide +kernel) (by decide) (by decide +kernel) (by decide +kernel)

theorem onlyPecData_sbl : (DomData.setting onlyPecData_good 7).Misses .suurballesHeuristic :=
  DomData.misses _ [] (by decide +kernel) (by decide +kernel)

theorem onlyPecData_sec : (DomData.setting onlyPecData_good 7).Misses .suurballesExtensionCollapse :=
  DomData.misses _ [0, 3, 2, 0] (by decide +kernel) (by decide +kernel)

theorem onlyPecData_spec : (DomData.setting onlyPecData_good 7).Finds .suurballesPathExtensionCollapse 12 :=
  DomData.finds _ [3, 1, 2] (by decide +kernel) (by decide) (by decide +kernel) (by decide) (by decide +kernel) (by decide +kernel)

/-- Only the heuristics that start from a cycle of the breadth first search find a tour. -/
def onlyBfsData : DomData 5 where
  edges := [((0, 2), 8), ((0, 3), 1), ((0, 4), 7), ((1, 2), 4), ((1, 3), 8), ((1, 4), 8), ((2, 4), 5), ((3, 4), 3)]
  prizes := [2, 2, 2, 3, 3]
  table := [(5, 0, [5]), (3, 1, [5, 3]), (8, 1, [5, 3, 8]), (0, 2, [5, 3, 8, 0]), (4, 4, [5, 3, 8, 4]), (9, 4, [5, 3, 8, 4, 9]), (2, 8, [5, 2]), (7, 8,
    [5, 2, 7]), (1, 9, [5, 3, 8, 1]), (6, 9, [5, 3, 8, 1, 6])]

theorem onlyBfsData_good : onlyBfsData.Good := by
  constructor <;> decide +kernel

theorem onlyBfsData_bec : (DomData.setting onlyBfsData_good 12).Finds .bfsExtensionCollapse 30 :=
  DomData.finds _ [2, 1, 3, 4] (by decide +kernel) (by decide) (by decide +kernel) (by decide) (by decide +kernel) (by decide +kernel)

theorem onlyBfsData_bpec : (DomData.setting onlyBfsData_good 12).Finds .bfsPathExtensionCollapse 24 :=
  DomData.finds _ [2, 1, 4, 3] (by decide +kernel) (by decide) (by decide +kernel) (by decide) (by decide +kernel) (by decide +kernel)

theorem onlyBfsData_sbl : (DomData.setting onlyBfsData_good 12).Misses .suurballesHeuristic :=
  DomData.misses _ [] (by decide +kernel) (by decide +kernel)

theorem onlyBfsData_sec : (DomData.setting onlyBfsData_good 12).Misses .suurballesExtensionCollapse :=
  DomData.misses _ [0, 3, 0, 2, 4, 0] (by decide +kernel) (by decide +kernel)

theorem onlyBfsData_spec : (DomData.setting onlyBfsData_good 12).Misses .suurballesPathExtensionCollapse :=
  DomData.misses _ [0, 3, 0, 2, 4, 0] (by decide +kernel) (by decide +kernel)

/-- The two heuristics with paths of Suurballe's algorithm as result or with path extension from them find no tour. -/
def noSpecData : DomData 5 where
  edges := [((0, 1), 1), ((0, 2), 6), ((0, 3), 6), ((0, 4), 3), ((1, 3), 8), ((1, 4), 5), ((2, 3), 6), ((2, 4), 6), ((3, 4), 5)]
  prizes := [1, 2, 0, 1, 0]
  table := [(5, 0, [5]), (1, 1, [5, 1]), (6, 1, [5, 1, 6]), (0, 2, [5, 1, 6, 0]), (4, 3, [5, 4]), (9, 3, [5, 4, 9]), (2, 6, [5, 2]), (3, 6, [5, 3]), (7,
    6, [5, 2, 7]), (8, 6, [5, 3, 8])]

theorem noSpecData_good : noSpecData.Good := by
  constructor <;> decide +kernel

theorem noSpecData_bec : (DomData.setting noSpecData_good 4).Finds .bfsExtensionCollapse 15 :=
  DomData.finds _ [1, 3] (by decide +kernel) (by decide) (by decide +kernel) (by decide) (by decide +kernel) (by decide +kernel)

theorem noSpecData_bpec : (DomData.setting noSpecData_good 4).Finds .bfsPathExtensionCollapse 15 :=
  DomData.finds _ [1, 3] (by decide +kernel) (by decide) (by decide +kernel) (by decide) (by decide +kernel) (by decide +kernel)

theorem noSpecData_sbl : (DomData.setting noSpecData_good 4).Misses .suurballesHeuristic :=
  DomData.misses _ [] (by decide +kernel) (by decide +kernel)

theorem noSpecData_sec : (DomData.setting noSpecData_good 4).Finds .suurballesExtensionCollapse 15 :=
  DomData.finds _ [3, 1] (by decide +kernel) (by decide) (by decide +kernel) (by decide) (by decide +kernel) (by decide +kernel)

theorem noSpecData_spec : (DomData.setting noSpecData_good 4).Misses .suurballesPathExtensionCollapse :=
  DomData.misses _ [0, 4, 0, 1, 0] (by decide +kernel) (by decide +kernel)

end Pctsp
