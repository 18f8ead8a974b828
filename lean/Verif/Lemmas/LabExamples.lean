import Verif.Lemmas.Lab
import Verif.Lemmas.SplitExamples
import Verif.Lemmas.BfsCycle

/-!
# Graphs for the examples about running the algorithms
-/

namespace Pctsp

theorem FloatOps.ieeeExact_signSound : FloatOps.ieeeExact.SignSound := by
  intro d h
  simpa [FloatOps.ieeeExact, FloatOps.ieee, Ext.lt] using h

/-- Functions outside that do what is expected; the test of a solution accepts everything. -/
def plainEnv {V : Type} [DecidableEq V] (G : LabGraph V) (π : V → Int) (root : V) : LabEnv Ext V where
  float := FloatOps.ieeeExact
  prizeOf := namedPrize π
  setOrder := id
  tree := nxBfsTree G.nx root
  pick := fun _ => exPick
  pick0 := fun _ => exPick
  picks := fun _ _ => exPick
  pickCover := exPick
  isYes := fun _ => .ok true

theorem plainEnv_ok {V : Type} [DecidableEq V] {G : LabGraph V} {w : V → V → Int} {π : V → Int} {root : V} (hG : G.Ok w π) (hr : root ∈ G.nx.nodes) :
    (plainEnv G π root).Ok G π root where
  strict := FloatOps.ieeeExact_strict
  divSign := FloatOps.ieeeExact_divSign
  signSound := FloatOps.ieeeExact_signSound
  prizeOf _ _ := rfl
  setOrder _ := List.Perm.refl _
  tree := nxBfsTree_isBfsTree hG.wf hr
  pick _ := exPick_heap
  pick0 _ := exPick_heap
  picks _ _ := exPick_heap
  pickCover := exPick_heap
  isYes _ := ⟨true, rfl⟩

/-- The attributes of a graph whose edges are listed. -/
def labGraph {n : Nat} (es : List (Fin n × Fin n)) (w : Fin n → Fin n → Int) (π : Fin n → Int) : LabGraph (Fin n) where
  nx := { nodes := List.finRange n, adj := fun u => (List.finRange n).filter fun v => decide (AdjIn es u v) }
  edges := es
  costs := es.map fun e => (e, w e.1 e.2)
  prizes := (List.finRange n).map fun v => (v, π v)

theorem labGraph_ok {n : Nat} {es : List (Fin n × Fin n)} {w : Fin n → Fin n → Int} {π : Fin n → Int}
    (hd : es.Pairwise fun p q => ¬ SameEdge p q) (hs : ∀ x y, w x y = w y x) (he : ∀ x, x ∈ endpoints es) (hp : ∀ x, 0 ≤ π x) (hw : ∀ x y, 0 ≤ w x y) :
    (labGraph es w π).Ok w π where
  wf := {
    nodup := List.nodup_finRange n
    adjNodup := fun u => (List.nodup_finRange n).filter _
    closed := fun u v _ => ⟨List.mem_finRange u, List.mem_finRange v⟩
    symm := fun u v h => by
      simp only [labGraph, List.mem_filter, List.mem_finRange, decide_eq_true_eq, true_and] at h ⊢
      exact h.symm }
  describes := {
    distinct := hd
    symm := hs
    costOk := fun p c h => by
      simp only [labGraph, List.mem_map, Prod.mk.injEq] at h
      obtain ⟨e, he, rfl, rfl⟩ := h
      exact ⟨rfl, .inl he⟩
    allCosts := fun e h => ⟨e, w e.1 e.2, List.mem_map.2 ⟨e, h, rfl⟩, .inl rfl⟩
    prizeOk := fun x c h => by
      simp only [labGraph, List.mem_map, Prod.mk.injEq] at h
      obtain ⟨e, -, rfl, rfl⟩ := h
      exact ⟨rfl, he _⟩
    allPrizes := fun x _ => ⟨π x, List.mem_map.2 ⟨x, List.mem_finRange x, rfl⟩⟩ }
  adj x y := by simp [labGraph]
  prizes := hp
  costs := hw

/-- Two triangles that share the vertex 0.  The edges to 1 and 2 are cheap, and these vertices have most of the prize. -/
def tieEdges : List (Fin 5 × Fin 5) := [(0, 1), (0, 2), (0, 3), (0, 4), (1, 3), (2, 4)]
def tieCost (x y : Fin 5) : Int := if x.val + y.val ≤ 2 then 1 else 10
def tiePrize (x : Fin 5) : Int := if x = 0 then 0 else if x.val ≤ 2 then 5 else 1
def tieLab : LabGraph (Fin 5) := labGraph tieEdges tieCost tiePrize

theorem tieLab_ok : tieLab.Ok tieCost tiePrize :=
  labGraph_ok (by decide) (by decide) (by decide) (by decide) (by decide)

def tieSplit : DiGraph Nat := .ofEdges 10 [((0, 5), 0), ((1, 6), 0), ((2, 7), 0), ((3, 8), 0), ((4, 9), 0), ((5, 1), 1), ((6, 0), 1), ((5, 2), 1), ((7, 0), 1),
  ((5, 3), 10), ((8, 0), 10), ((5, 4), 10), ((9, 0), 10), ((6, 3), 10), ((8, 1), 10), ((7, 4), 10), ((9, 2), 10)]

def tieDij : DijkstraOut Nat := .ofTable [(5, 0, [5]), (1, 1, [5, 1]), (2, 1, [5, 2]), (6, 1, [5, 1, 6]), (7, 1, [5, 2, 7]), (0, 2, [5, 1, 6, 0]),
  (3, 10, [5, 3]), (4, 10, [5, 4]), (8, 10, [5, 3, 8]), (9, 10, [5, 4, 9])]

theorem tieSplit_wf : tieSplit.WF := DiGraph.ofEdges_wf (by decide) (by decide)
theorem tieDij_ok : IsDijkstra tieSplit 5 tieDij :=
  DijkstraOut.ofTable_ok (by decide) (by decide) (by decide) (by decide) (by decide) (by decide)

theorem tie_split : SplitOf tieLab.nx tieCost tieSplit (fun v => v.val) (fun v => v.val + 5) where
  tailInj u v h := Fin.ext h
  headInj u v h := Fin.ext (by simpa using h)
  disj u v := by have := u.isLt; intro h; omega
  edges x y h := by
    have key : ∀ e ∈ ([(0, 5), (1, 6), (2, 7), (3, 8), (4, 9), (5, 1), (6, 0), (5, 2), (7, 0), (5, 3), (8, 0), (5, 4), (9, 0), (6, 3), (8, 1), (7, 4),
        (9, 2)] : List (Nat × Nat)),
        (∃ v : Fin 5, e.1 = v.val ∧ e.2 = v.val + 5) ∨ ∃ a b : Fin 5, e.1 = a.val + 5 ∧ e.2 = b.val ∧ b ∈ tieLab.nx.adj a := by decide
    exact key (x, y) (DiGraph.mem_ofEdges.1 h)
  inner := by decide
  outer := by decide
  innerCost := by decide
  outerCost := by decide

/-- The result of the algorithm. -/
def tieRun : STree Nat × SState Nat := match suurballe tieSplit tieDij 10 5 with
  | .ok r => r
  | _ => (⟨0, fun _ => [], fun _ => [], fun _ => 0, fun _ => 0, fun _ _ => 0, fun _ => 0⟩,
    ⟨fun _ => 0, fun _ => none, fun _ => none, fun _ => false, [], fun _ => [], fun _ => [], fun _ => none⟩)

theorem tieRun_ok : suurballe tieSplit tieDij 10 5 = .ok (tieRun.1, tieRun.2) := by
  have h : (match suurballe tieSplit tieDij 10 5 with | .ok _ => true | _ => false) = true := by decide +kernel
  rw [tieRun]
  revert h
  cases suurballe tieSplit tieDij 10 5 <;> simp

theorem tie_on : SuurballeOn tieLab.nx tieCost tieSplit (fun v => v.val) (fun v => v.val + 5) (plainNames 5) 0 tieDij 10 tieRun.1 tieRun.2 :=
  ⟨tieLab_ok.wf, by decide, tieSplit_wf, tie_split, plainNames_ok 5, tieDij_ok, tieRun_ok⟩

/-- The map of the paths. -/
def tiePaths : List (Fin 5 × (List (Fin 5) × List (Fin 5))) :=
  [(1, ([0, 3, 1], [0, 1])), (2, ([0, 4, 2], [0, 2])), (0, ([0, 2, 0], [0, 1, 0])), (3, ([0, 1, 3], [0, 3])), (4, ([0, 2, 4], [0, 4]))]

/-- A cheap triangle and a vertex that is expensive to reach. -/
def farEdges : List (Fin 4 × Fin 4) := [(0, 1), (1, 2), (0, 2), (0, 3), (1, 3)]
def farCost (x y : Fin 4) : Int := if x = 3 ∨ y = 3 then 100 else 1
def farLab : LabGraph (Fin 4) := labGraph farEdges farCost (fun _ => 1)

theorem farLab_ok : farLab.Ok farCost (fun _ => 1) :=
  labGraph_ok (by decide) (by decide) (by decide) (by decide) (by decide)

end Pctsp
