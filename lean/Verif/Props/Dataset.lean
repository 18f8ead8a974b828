import Mathlib.Algebra.Order.BigOperators.Group.List
import Mathlib.Algebra.Order.Field.Basic
import Verif.Lemmas.Dataset
import Verif.Lemmas.SplitExamples
import Verif.Props.Preprocess

/-!
# C116: the statistics of an instance
-/

set_option linter.unusedSectionVars false

namespace Pctsp

variable {V W : Type} [DecidableEq V] [LinearOrder V] [LinearOrder W] {names : V → SplitNames V W} {U : NxGraph V} {w : V → V → Int} {A : DiGraph W}
  {tail head : V → W} {r big : V} {dij : DijkstraOut W} {depth : Nat} {T : STree W} {st : SState W} {components : NxGraph V → List (List V)}
  {edges : List (V × V)} {π : V → Int}

section general

variable (h : SuurballeOn U w A tail head (names big) r dij depth T st) (hn : IdNames names tail big) (hr : r ∉ U.adj r)
  {m : List (V × (List V × List V))} (hm : undirectedVertexDisjointPathsMap (names big) T st (treeNodes (head r) dij) = .ok m)
include h hn hr hm

theorem datasetStats_cases (components : NxGraph V → List (List V)) (edges : List (V × V)) (π : V → Int) :
    (pathPrize π U.nodes = 0 → datasetStats names A (head r) dij depth components U edges w π big r = .ok (.error .zeroDivisionError)) ∧
    (pathPrize π U.nodes ≠ 0 → (∀ e ∈ m, pairPrize π r e.1 e.2 ≤ 0) →
      datasetStats names A (head r) dij depth components U edges w π big r = .ok (.error .typeError)) ∧
    (pathPrize π U.nodes ≠ 0 → (∃ e ∈ m, 0 < pairPrize π r e.1 e.2) →
      ∃ s e c, datasetStats names A (head r) dij depth components U edges w π big r = .ok (.ok s) ∧ e ∈ m ∧
        pairPrize π r e.1 e.2 = s.biggestDisjointPrize ∧ 0 < s.biggestDisjointPrize ∧ (∀ e' ∈ m, pairPrize π r e'.1 e'.2 ≤ s.biggestDisjointPrize) ∧
        (∀ v c', v ≤ e.1 → (v, c') ∈ vertexDisjointCostMap (names big) T st (treeNodes (head r) dij) → c' ≤ s.maxDisjointPathsCost) ∧
        c ≤ e.1 ∧ (c, s.maxDisjointPathsCost) ∈ vertexDisjointCostMap (names big) T st (treeNodes (head r) dij) ∧
        s.numNodes = U.nodes.length ∧ s.totalPrize = pathPrize π U.nodes ∧ s.disjointPrizeRatio = s.biggestDisjointPrize / pathPrize π U.nodes ∧
        s.ppNumNodes = (removeOneConnected components U r).nodes.length ∧ s.ppTotalPrize = pathPrize π (removeOneConnected components U r).nodes ∧
        s.ppPrizeRatio = s.ppTotalPrize / pathPrize π U.nodes ∧ s.numEdges = edges.length ∧ s.totalCost = costSum w edges ∧
        s.ppNumEdges = (edges.filter fun e => decide (e.1 ∈ (removeOneConnected components U r).nodes ∧ e.2 ∈ (removeOneConnected components U r).nodes)).length ∧
        s.ppTotalCost =
          costSum w (edges.filter fun e => decide (e.1 ∈ (removeOneConnected components U r).nodes ∧ e.2 ∈ (removeOneConnected components U r).nodes))) := by
  obtain ⟨b1, b2⟩ := biggestPair_spec π r m
  refine ⟨fun h0 => ?_, fun h0 h1 => ?_, fun h0 h1 => ?_⟩
  · simp [datasetStats, h.run, hm, h0]
  · have hb : (biggestPair π r m).2 = none := by
      rcases b2 with b2 | ⟨e, he, -, h2, h3⟩
      · exact b2.1
      · have := h1 e he; omega
    simp [datasetStats, h.run, hm, h0, hb]
  · obtain ⟨e, he, h2, h3, h4⟩ : ∃ e ∈ m, (biggestPair π r m).2 = some e.1 ∧ pairPrize π r e.1 e.2 = (biggestPair π r m).1 ∧ 0 < (biggestPair π r m).1 := by
      rcases b2 with b2 | b2
      · obtain ⟨e, he, h1⟩ := h1
        have := b1 e he; omega
      · exact b2
    obtain ⟨m', k1, -, k3⟩ := h.pathsMap
    obtain rfl := Res.ok.inj (hm.symm.trans k1)
    obtain ⟨c, -, -, k4, -, -⟩ := k3 e.1 e.2 he fun _ => hr
    have hin : (e.1, c) ∈ vertexDisjointCostMap (names e.1) T st (treeNodes (head r) dij) :=
      (costMap_smaller h hn e.1 e.1 c).2 ⟨le_rfl, (dictGet_eq_some h.costMap_nodup).1 k4⟩
    cases hp : pyMax ((vertexDisjointCostMap (names e.1) T st (treeNodes (head r) dij)).map Prod.snd) with
    | none => rw [pyMax_eq_none, List.map_eq_nil_iff] at hp; rw [hp] at hin; cases hin
    | some x =>
      obtain ⟨p1, p2⟩ := pyMax_eq_some hp
      obtain ⟨⟨u, _⟩, hu, rfl⟩ := List.mem_map.1 p1
      obtain ⟨q1, q2⟩ := (costMap_smaller h hn e.1 u _).1 hu
      refine ⟨_, e, u, by simp only [datasetStats, h.run, hm, Res.ok_bind, h2, hp, if_neg h0, Res.pure_eq]; rfl, he, h3, h4, b1, ?_, q1, q2,
        rfl, rfl, rfl, rfl, rfl, rfl, rfl, rfl, rfl, rfl⟩
      intro v c' hv hc
      exact p2 c' (List.mem_map.2 ⟨(v, c'), (costMap_smaller h hn e.1 v c').2 ⟨hv, hc⟩, rfl⟩)

/-- **C116**: when the command succeeds and how it fails. -/
theorem C116_outcome (components : NxGraph V → List (List V)) (edges : List (V × V)) (π : V → Int) :
    ((U.nodes.map π).sum = 0 → datasetStats names A (head r) dij depth components U edges w π big r = .ok (.error .zeroDivisionError)) ∧
    ((U.nodes.map π).sum ≠ 0 → (∀ v pq x, (v, pq) ∈ m → PairValue U π r v pq x → x ≤ 0) →
      datasetStats names A (head r) dij depth components U edges w π big r = .ok (.error .typeError)) ∧
    ((U.nodes.map π).sum ≠ 0 → (∃ v pq x, (v, pq) ∈ m ∧ PairValue U π r v pq x ∧ 0 < x) →
      ∃ s, datasetStats names A (head r) dij depth components U edges w π big r = .ok (.ok s)) := by
  obtain ⟨h1, h2, h3⟩ := datasetStats_cases h hn hr hm components edges π
  refine ⟨h1, fun h0 k => h2 h0 fun e he => k e.1 e.2 _ he (pairPrize_value h hr π hm he), ?_⟩
  rintro h0 ⟨v, pq, x, k1, k2, k3⟩
  obtain ⟨s, _, _, hs, -⟩ := h3 h0 ⟨(v, pq), k1, (k2.unique (pairPrize_value h hr π hm k1)) ▸ k3⟩
  exact ⟨s, hs⟩

/-- **C116**: the biggest prize is the largest of the values of the pairs.  The largest cost is taken only over the vertices whose numbers are at most the number of
the vertex that has the biggest prize. -/
theorem C116_values {s : DatasetStats} (hs : datasetStats names A (head r) dij depth components U edges w π big r = .ok (.ok s)) :
    (∀ v pq x, (v, pq) ∈ m → PairValue U π r v pq x → x ≤ s.biggestDisjointPrize) ∧
    s.disjointPrizeRatio = s.biggestDisjointPrize / ((U.nodes.map π).sum : Int) ∧
    ∃ b pq, (b, pq) ∈ m ∧ PairValue U π r b pq s.biggestDisjointPrize ∧ 0 < s.biggestDisjointPrize ∧
      (∀ v c, v ≤ b → dictGet (vertexDisjointCostMap (names big) T st (treeNodes (head r) dij)) v = some c → c ≤ s.maxDisjointPathsCost) ∧
      ∃ v ≤ b, dictGet (vertexDisjointCostMap (names big) T st (treeNodes (head r) dij)) v = some s.maxDisjointPathsCost := by
  obtain ⟨h1, h2, h3⟩ := datasetStats_cases h hn hr hm components edges π
  by_cases h0 : pathPrize π U.nodes = 0
  · rw [h1 h0] at hs; cases hs
  by_cases hp : ∃ e ∈ m, 0 < pairPrize π r e.1 e.2
  · obtain ⟨s', e, u, k1, k2, k3, k4, k5, k6, k7, k8, -, -, k9, -⟩ := h3 h0 hp
    rw [k1] at hs
    obtain rfl : s' = s := by simpa using hs
    refine ⟨fun v pq x hv hx => ?_, k9, e.1, e.2, k2, k3 ▸ pairPrize_value h hr π hm k2, k4, fun v c hv hc => ?_, u, k7, ?_⟩
    · rw [hx.unique (pairPrize_value h hr π hm hv)]; exact k5 (v, pq) hv
    · exact k6 v c hv ((dictGet_eq_some h.costMap_nodup).1 hc)
    · exact (dictGet_eq_some h.costMap_nodup).2 k8
  · rw [h2 h0 (by simpa using hp)] at hs; cases hs

/-- **C116**: if the prizes are not negative then the prize that remains after the preprocessing is at least the prize of every tour through the root, at most the
total prize, and the ratio is between 0 and 1; the biggest prize of a pair can exceed the total prize, by at most the prize of the root. -/
theorem C116_ratios {s : DatasetStats} (hs : datasetStats names A (head r) dij depth components U edges w π big r = .ok (.ok s))
    (hc : IsBicomponents U (components U)) (hroot : r ∈ U.nodes) (hπ : ∀ v ∈ U.nodes, 0 ≤ π v) :
    (∀ vs, NxCycle U vs → r ∈ vs → (vs.map π).sum ≤ s.ppTotalPrize) ∧ π r ≤ s.ppTotalPrize ∧ s.ppTotalPrize ≤ s.totalPrize ∧ 0 < s.totalPrize ∧
    0 ≤ s.ppPrizeRatio ∧ s.ppPrizeRatio ≤ 1 ∧ s.ppPrizeRatio * s.totalPrize = s.ppTotalPrize ∧
    s.biggestDisjointPrize ≤ s.totalPrize + π r ∧ s.disjointPrizeRatio * s.totalPrize = s.biggestDisjointPrize := by
  have sub : ∀ l : List V, l.Nodup → ∀ l' : List V, l'.Nodup → (∀ x ∈ l, x ∈ l') → (∀ x ∈ l', 0 ≤ π x) → (l.map π).sum ≤ (l'.map π).sum := by
    intro l
    induction l with
    | nil =>
      intro _ l' _ _ h0
      exact List.sum_nonneg (by simpa using h0)
    | cons a l ih =>
      intro hl l' hl' hsub h0
      rw [List.nodup_cons] at hl
      have ha : a ∈ l' := hsub a (by simp)
      have hp := List.perm_cons_erase ha
      have := ih hl.2 (l'.erase a) (hl'.erase a) (fun x hx => (hl'.mem_erase_iff).2 ⟨fun e => hl.1 (e ▸ hx), hsub x (by simp [hx])⟩)
        (fun x hx => h0 x (List.mem_of_mem_erase hx))
      rw [(hp.map π).sum_eq]
      simp only [List.map_cons, List.sum_cons]
      omega
  obtain ⟨h1, h2, h3⟩ := datasetStats_cases h hn hr hm components edges π
  by_cases h0 : pathPrize π U.nodes = 0
  · rw [h1 h0] at hs; cases hs
  by_cases hp : ∃ e ∈ m, 0 < pairPrize π r e.1 e.2
  swap
  · rw [h2 h0 (by simpa using hp)] at hs; cases hs
  obtain ⟨s', e, u, k1, k2, k3, k4, -, -, -, -, -, k5, k6, -, k7, k8, -⟩ := h3 h0 hp
  rw [k1] at hs
  obtain rfl : s' = s := by simpa using hs
  have hmem := C70_one_connected components U r hc
  have hnd : (removeOneConnected components U r).nodes.Nodup := by
    simp only [removeOneConnected, NxGraph.subgraph]
    exact h.und.nodup.filter _
  have hle : s'.ppTotalPrize ≤ s'.totalPrize := by
    rw [k7, k5]
    exact sub _ hnd _ h.und.nodup (fun x hx => ((hmem x).1 hx).1) hπ
  have hppos : ∀ x ∈ (removeOneConnected components U r).nodes, 0 ≤ π x := fun x hx => hπ x ((hmem x).1 hx).1
  have hnn : 0 ≤ s'.ppTotalPrize := by
    rw [k7]; exact List.sum_nonneg (by simpa using hppos)
  have htot : 0 < s'.totalPrize := by rw [k5] at hle ⊢; omega
  have htq : (0 : Rat) < s'.totalPrize := by exact_mod_cast htot
  rw [← k5] at k6 k8
  refine ⟨fun vs hvs hrv => ?_, ?_, hle, htot, ?_, ?_, ?_, ?_, ?_⟩
  · rw [k7]
    exact sub vs hvs.nodup _ hnd (fun x hx => (hmem x).2 ⟨hvs.inside x hx, .inr ⟨vs, hvs, hrv, hx⟩⟩) hppos
  · have := sub [r] (by simp) _ hnd (fun x hx => (hmem x).2 (by rw [List.mem_singleton] at hx; subst hx; exact ⟨hroot, .inl rfl⟩)) hppos
    rw [k7]; simpa [pathPrize] using this
  · rw [k8]; exact div_nonneg (by exact_mod_cast hnn) htq.le
  · rw [k8, div_le_one htq]; exact_mod_cast hle
  · rw [k8, div_mul_cancel₀ _ htq.ne']
  · rw [k5, ← k3]
    rcases pairPrize_value h hr π hm k2 with ⟨-, vs, -, hv, -, e1⟩ | ⟨-, a, b, -, hab, hin, e1⟩
    · rw [e1]
      have := sub _ hv.nodup _ h.und.nodup hv.inside hπ
      have := hπ r hroot
      simp only [pathPrize]; omega
    · rw [e1]
      have := sub _ hab _ h.und.nodup hin hπ
      simp only [pathPrize]; omega
  · rw [k6, div_mul_cancel₀ _ htq.ne']

/-- **C116**: the counts and totals.  What remains after the preprocessing are the root and the vertices on a cycle through the root, and the edges between them. -/
theorem C116_counts {s : DatasetStats} (hs : datasetStats names A (head r) dij depth components U edges w π big r = .ok (.ok s))
    (hc : IsBicomponents U (components U)) :
    s.numNodes = U.nodes.length ∧ s.numEdges = edges.length ∧ s.totalCost = (edges.map fun e => w e.1 e.2).sum ∧ s.totalPrize = (U.nodes.map π).sum ∧
    ∃ (keptNodes : List V) (keptEdges : List (V × V)), keptNodes.Sublist U.nodes ∧ keptEdges.Sublist edges ∧
      (∀ v, v ∈ keptNodes ↔ v ∈ U.nodes ∧ (v = r ∨ ∃ vs, NxCycle U vs ∧ r ∈ vs ∧ v ∈ vs)) ∧
      (∀ e ∈ edges, e ∈ keptEdges ↔ e.1 ∈ keptNodes ∧ e.2 ∈ keptNodes) ∧
      s.ppNumNodes = keptNodes.length ∧ s.ppTotalPrize = (keptNodes.map π).sum ∧
      s.ppNumEdges = keptEdges.length ∧ s.ppTotalCost = (keptEdges.map fun e => w e.1 e.2).sum := by
  obtain ⟨h1, h2, h3⟩ := datasetStats_cases h hn hr hm components edges π
  by_cases h0 : pathPrize π U.nodes = 0
  · rw [h1 h0] at hs; cases hs
  by_cases hp : ∃ e ∈ m, 0 < pairPrize π r e.1 e.2
  swap
  · rw [h2 h0 (by simpa using hp)] at hs; cases hs
  obtain ⟨s', e, u, k1, -, -, -, -, -, -, -, k2, k3, -, k4, k5, -, k6, k7, k8, k9⟩ := h3 h0 hp
  rw [k1] at hs
  obtain rfl : s' = s := by simpa using hs
  refine ⟨k2, k6, k7, k3, (removeOneConnected components U r).nodes, _, ?_, List.filter_sublist, C70_one_connected components U r hc, ?_, k4, k5,
    k8, k9⟩
  · simp only [removeOneConnected, NxGraph.subgraph]
    exact List.filter_sublist
  · intro e he
    rw [List.mem_filter, decide_eq_true_eq, and_iff_right he]

end general

/-! ## Instances -/

/-- The names of tspwplib for the vertices 0 to n. -/
def idNames (n : Nat) (b : Fin (n + 1)) : SplitNames (Fin (n + 1)) Nat where
  isTail x := decide (x < b.val + 1)
  original := (plainNames (n + 1)).original
  path := (plainNames (n + 1)).path

theorem idNames_ok (n : Nat) : IdNames (idNames n) (fun v => v.val) (Fin.last n) where
  isTail b _ x := by
    simp only [idNames, decide_eq_true_eq]
    constructor
    · intro hx
      have := b.isLt
      exact ⟨⟨x, by omega⟩, by rw [Fin.le_def]; simp only; omega, rfl⟩
    · rintro ⟨v, hv, rfl⟩
      rw [Fin.le_def] at hv
      omega
  original b _ v _ := (plainNames_ok (n + 1)).original v
  biggest := Fin.le_last

/-- Root 1 in the graph of SplitExamples. -/
def fourDijOne : DijkstraOut Nat := .ofTable [(5, 0, [5]), (2, 1, [5, 2]), (6, 1, [5, 2, 6]), (1, 2, [5, 2, 6, 1]), (0, 10, [5, 0]), (4, 10, [5, 0, 4]),
  (3, 15, [5, 3]), (7, 15, [5, 3, 7])]

theorem fourDijOne_ok : IsDijkstra fourSplit 5 fourDijOne :=
  DijkstraOut.ofTable_ok (by decide) (by decide) (by decide) (by decide) (by decide) (by decide)

def fourOneRun : STree Nat × SState Nat := match suurballe fourSplit fourDijOne 10 5 with
  | .ok r => r
  | _ => fourRun

theorem fourOneRun_ok : suurballe fourSplit fourDijOne 10 5 = .ok (fourOneRun.1, fourOneRun.2) := by
  have h : (match suurballe fourSplit fourDijOne 10 5 with | .ok _ => true | _ => false) = true := by decide +kernel
  rw [fourOneRun]
  revert h
  cases suurballe fourSplit fourDijOne 10 5 <;> simp

theorem fourOne_on : SuurballeOn four fourCost fourSplit (fun v => v.val) (fun v => v.val + 4) (idNames 3 3) 1 fourDijOne 10 fourOneRun.1 fourOneRun.2 :=
  ⟨four_wf, by decide, fourSplit_wf, four_split, plainNames_ok 4, fourDijOne_ok, fourOneRun_ok⟩

def fourPrizes (v : Fin 4) : Int := if v = 0 then 5 else if v = 1 then 0 else 1
def fourPrizes' (v : Fin 4) : Int := if v = 0 then 3 else if v = 3 then 0 else 1
def fourEdges : List (Fin 4 × Fin 4) := [(0, 1), (0, 2), (0, 3), (1, 2), (1, 3), (2, 3)]

def fourStats (π : Fin 4 → Int) (root : Fin 4) (dij : DijkstraOut Nat) : Res (Except StatsError DatasetStats) :=
  datasetStats (idNames 3) fourSplit (root.val + 4) dij 10 (fun g => [g.nodes]) four fourEdges fourCost π 3 root

theorem fourStats_one : fourStats fourPrizes 1 fourDijOne = .ok (.ok
    { numNodes := 4, numEdges := 6, totalCost := 61, totalPrize := 7, biggestDisjointPrize := 6, disjointPrizeRatio := 6 / 7, maxDisjointPathsCost := 22,
      ppNumNodes := 4, ppNumEdges := 6, ppTotalCost := 61, ppTotalPrize := 7, ppPrizeRatio := 1 }) := by
  decide +kernel

theorem fourStats_zero : fourStats fourPrizes' 0 fourDij = .ok (.ok
    { numNodes := 4, numEdges := 6, totalCost := 61, totalPrize := 5, biggestDisjointPrize := 8, disjointPrizeRatio := 8 / 5, maxDisjointPathsCost := 40,
      ppNumNodes := 4, ppNumEdges := 6, ppTotalCost := 61, ppTotalPrize := 5, ppPrizeRatio := 1 }) := by
  decide +kernel

/-- **C116**: the largest cost that is reported can be smaller than the cost of a vertex: here 22 is reported, and the cost of vertex 3 is 31. -/
theorem C116_wrong : ∃ (names : Fin 4 → SplitNames (Fin 4) Nat) (T : STree Nat) (st : SState Nat) (s : DatasetStats) (c : Int),
    IdNames names (fun v => v.val) 3 ∧
    SuurballeOn four fourCost fourSplit (fun v => v.val) (fun v => v.val + 4) (names 3) 1 fourDijOne 10 T st ∧
    datasetStats names fourSplit 5 fourDijOne 10 (fun g => [g.nodes]) four fourEdges fourCost fourPrizes 3 1 = .ok (.ok s) ∧
    dictGet (vertexDisjointCostMap (names 3) T st (treeNodes 5 fourDijOne)) 3 = some c ∧ s.maxDisjointPathsCost < c :=
  ⟨idNames 3, _, _, _, 31, idNames_ok 3, fourOne_on, fourStats_one, by decide +kernel, by decide⟩

/-- **C116**: the ratio of the biggest prize can exceed 1: here it is 8/5. -/
theorem C116_exceeds : ∃ (names : Fin 4 → SplitNames (Fin 4) Nat) (T : STree Nat) (st : SState Nat) (s : DatasetStats),
    IdNames names (fun v => v.val) 3 ∧
    SuurballeOn four fourCost fourSplit (fun v => v.val) (fun v => v.val + 4) (names 3) 0 fourDij 10 T st ∧ (∀ v, 0 ≤ fourPrizes' v) ∧
    datasetStats names fourSplit 4 fourDij 10 (fun g => [g.nodes]) four fourEdges fourCost fourPrizes' 3 0 = .ok (.ok s) ∧ 1 < s.disjointPrizeRatio :=
  ⟨idNames 3, _, _, _, idNames_ok 3, four_on, by decide, fourStats_zero, by decide +kernel⟩

/-- A tree: the root has one neighbour only, and there is no pair of paths. -/
def twoPath : NxGraph (Fin 2) where
  nodes := [0, 1]
  adj u := [0, 1].filter (· ≠ u)

def twoSplit : DiGraph Nat := .ofEdges 4 [((0, 2), 0), ((1, 3), 0), ((2, 1), 5), ((3, 0), 5)]
def twoDij : DijkstraOut Nat := .ofTable [(2, 0, [2]), (1, 5, [2, 1]), (3, 5, [2, 1, 3]), (0, 10, [2, 1, 3, 0])]

/-- **C116**: the command fails for an instance whose root is on no pair of paths. -/
theorem C116_tree : SplitOf twoPath (fun _ _ => 5) twoSplit (fun v => v.val) (fun v => v.val + 2) ∧ IsDijkstra twoSplit 2 twoDij ∧
    datasetStats (idNames 1) twoSplit 2 twoDij 10 (fun g => [g.nodes]) twoPath [(0, 1)] (fun _ _ => 5) (fun _ => 1) 1 0 = .ok (.error .typeError) := by
  refine ⟨?_, DijkstraOut.ofTable_ok (by decide) (by decide) (by decide) (by decide) (by decide) (by decide), by decide +kernel⟩
  refine ⟨fun u v h => Fin.ext h, fun u v h => Fin.ext (by simpa using h), fun u v h => by have := u.isLt; omega, fun x y h => ?_, by decide, by decide,
    by decide, by decide⟩
  have key : ∀ e ∈ ([(0, 2), (1, 3), (2, 1), (3, 0)] : List (Nat × Nat)),
      (∃ v : Fin 2, e.1 = v.val ∧ e.2 = v.val + 2) ∨ ∃ a b : Fin 2, e.1 = a.val + 2 ∧ e.2 = b.val ∧ b ∈ twoPath.adj a := by decide
  exact key (x, y) (DiGraph.mem_ofEdges.1 h)

theorem four_bicomponents : IsBicomponents four ((fun g : NxGraph (Fin 4) => [g.nodes]) four) := by
  refine ⟨by decide, by decide, fun vs hvs => ⟨_, List.mem_singleton.2 rfl, hvs.inside⟩, fun c hc _ u _ v _ _ => ⟨[0, 1, 2, 3], ?_, ?_, ?_⟩⟩
  · exact ⟨by decide, by decide, by decide, by unfold NxWalk; decide⟩
  · exact (by decide : ∀ u : Fin 4, u ∈ [0, 1, 2, 3]) u
  · exact (by decide : ∀ u : Fin 4, u ∈ [0, 1, 2, 3]) v

-- the hypotheses of C116_values and of C116_ratios hold, and the conclusions say something: the biggest prize is that of vertex 0 or 2, and a tour has the prize 7
example : ∃ m, undirectedVertexDisjointPathsMap (idNames 3 3) fourOneRun.1 fourOneRun.2 (treeNodes 5 fourDijOne) = .ok m ∧
    (∀ v pq x, (v, pq) ∈ m → PairValue four fourPrizes 1 v pq x → x ≤ 6) ∧
    (∃ b pq, (b, pq) ∈ m ∧ PairValue four fourPrizes 1 b pq 6) ∧
    (∀ vs, NxCycle four vs → 1 ∈ vs → (vs.map fourPrizes).sum ≤ 7) := by
  obtain ⟨m, hm, -⟩ := fourOne_on.pathsMap
  have hr : (1 : Fin 4) ∉ four.adj 1 := by decide
  obtain ⟨h1, -, b, pq, h2, h3, -⟩ := C116_values fourOne_on (idNames_ok 3) hr hm fourStats_one
  exact ⟨m, hm, h1, ⟨b, pq, h2, h3⟩,
    (C116_ratios fourOne_on (idNames_ok 3) hr hm fourStats_one four_bicomponents (by decide) (by decide)).1⟩

-- the hypotheses of C116_counts hold
example : ∃ m, undirectedVertexDisjointPathsMap (idNames 3 3) fourOneRun.1 fourOneRun.2 (treeNodes 5 fourDijOne) = .ok m ∧
    ∃ keptNodes : List (Fin 4), keptNodes.Sublist four.nodes ∧ 4 = keptNodes.length := by
  obtain ⟨m, hm, -⟩ := fourOne_on.pathsMap
  obtain ⟨-, -, -, -, kn, ke, k1, -, -, -, k2, -⟩ := C116_counts fourOne_on (idNames_ok 3) (by decide) hm fourStats_one four_bicomponents
  exact ⟨m, hm, kn, k1, k2⟩

end Pctsp
