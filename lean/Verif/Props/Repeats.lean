import Verif.Lemmas.RepeatsBind
import Verif.Lemmas.Float
import Verif.Props.Collapse

/-!
# C153: the heuristics on lists in which edges occur several times

The bindings of the heuristics do not check that an edge is listed once.  All of them except those that use shortest paths behave as if only the first
copy were there.
-/

namespace Pctsp

variable {α : Type} [DecidableEq α] {F : Type}

theorem keepFrom_apart (seen es : List (α × α)) : (∀ p ∈ seen, ∀ q ∈ keepFrom seen es, ¬ SameEdge p q) ∧
    (keepFrom seen es).Pairwise fun p q => ¬ SameEdge p q := by
  induction es generalizing seen with
  | nil => exact ⟨fun p _ q hq => (by cases hq), List.Pairwise.nil⟩
  | cons e es ih =>
    rw [keepFrom]
    split
    · exact ih seen
    · rename_i hs
      obtain ⟨h1, h2⟩ := ih (e :: seen)
      refine ⟨fun p hp q hq hpq => ?_, List.pairwise_cons.2 ⟨fun q hq => h1 e (by simp) q hq, h2⟩⟩
      rcases List.mem_cons.1 hq with rfl | hq
      · exact hs ⟨p, hp, hpq⟩
      · exact h1 p (by simp [hp]) q hq hpq

theorem keepFrom_sublist (seen es : List (α × α)) : (keepFrom seen es).Sublist es := by
  induction es generalizing seen with
  | nil => exact List.Sublist.refl _
  | cons e es ih =>
    rw [keepFrom]
    split
    · exact (ih seen).cons e
    · exact (ih _).cons_cons e

/-- **C153.** What the list without repetitions is: a part of the list in the same order, in which every edge of the list occurs exactly once. -/
theorem C153_list (es : List (α × α)) : (keepFirst es).Sublist es ∧ (keepFirst es).Pairwise (fun p q => ¬ SameEdge p q) ∧
    ∀ p ∈ es, ∃ q ∈ keepFirst es, SameEdge q p :=
  ⟨keepFrom_sublist [] es, (keepFrom_apart [] es).2, fun _ hp => keepFirst_covers hp⟩

/-- **C153.** Path extension does not see repeated edges, whatever the other arguments are (also in the cases in which it fails). -/
theorem C153_path_extension {O : FloatOps F} (hO : O.Strict) (es : List (α × α)) (tour : List α) (costs : List ((α × α) × Int)) (prizes : List (α × Int))
    (root : α) (step depth : Int) :
    pathExtensionBind O (keepFirst es) tour costs prizes root step depth = pathExtensionBind O es tour costs prizes root step depth := by
  rw [pathExtensionBind, pathExtensionBind]
  refine prepareRoot_bind_keepFirst es tour costs prizes root _ fun q p r h1 h2 h3 H => ?_
  simp only [h1, h2, h3, H.pathExtension hO]

/-- **C153.** The same for path extension until the quota is reached. -/
theorem C153_path_extension_until {O : FloatOps F} (hO : O.Strict) (es : List (α × α)) (tour : List α) (costs : List ((α × α) × Int))
    (prizes : List (α × Int)) (root : α) (quota step depth : Int) :
    pathExtensionUntilPrizeFeasibleBind O (keepFirst es) tour costs prizes root quota step depth =
      pathExtensionUntilPrizeFeasibleBind O es tour costs prizes root quota step depth := by
  rw [pathExtensionUntilPrizeFeasibleBind, pathExtensionUntilPrizeFeasibleBind]
  refine prepareRoot_bind_keepFirst es tour costs prizes root _ fun q p r h1 h2 h3 H => ?_
  simp only [h1, h2, h3, H.pathExtensionUntil hO]

/-- **C153.** The same for extension by unitary gain, for any arithmetic. -/
theorem C153_unitary_gain (O : FloatOps F) (es : List (α × α)) (tour : List α) (costs : List ((α × α) × Int)) (prizes : List (α × Int)) :
    extensionUnitaryGainBind O (keepFirst es) tour costs prizes = extensionUnitaryGainBind O es tour costs prizes := by
  rw [extensionUnitaryGainBind, extensionUnitaryGainBind]
  refine prepare_bind_keepFirst es tour costs prizes _ fun q p h1 h2 h3 H => ?_
  simp only [h1, h2, h3, H.extensionUnitaryGain]

/-- **C153.** The same for extension by unitary gain until the quota is reached. -/
theorem C153_unitary_gain_until (O : FloatOps F) (es : List (α × α)) (tour : List α) (costs : List ((α × α) × Int)) (prizes : List (α × Int))
    (quota : Int) : extensionUntilPrizeFeasibleBind O (keepFirst es) tour costs prizes quota = extensionUntilPrizeFeasibleBind O es tour costs prizes quota := by
  rw [extensionUntilPrizeFeasibleBind, extensionUntilPrizeFeasibleBind]
  refine prepare_bind_keepFirst es tour costs prizes _ fun q p h1 h2 h3 H => ?_
  simp only [h1, h2, h3, H.extensionUntil]

/-- **C153.** The same for collapse without shortest paths. -/
theorem C153_collapse (es : List (α × α)) (tour : List α) (costs : List ((α × α) × Int)) (prizes : List (α × Int)) (quota : Int) (root : α)
    (pick : Nat → Pick) : collapseBind (keepFirst es) tour costs prizes quota root false pick = collapseBind es tour costs prizes quota root false pick := by
  rw [collapseBind, collapseBind]
  refine prepareRoot_bind_keepFirst es tour costs prizes root _ fun q p r h1 h2 h3 H => ?_
  simp only [h1, h2, h3, H.collapse]

/-- **C153.** The same for path extension and collapse without shortest paths. -/
theorem C153_path_extension_collapse {O : FloatOps F} (hO : O.Strict) (es : List (α × α)) (tour : List α) (costs : List ((α × α) × Int))
    (prizes : List (α × Int)) (root : α) (quota : Int) (pick0 : Nat → Pick) (pick : Nat → Nat → Pick) (depth step : Int) :
    pathExtensionCollapseBind O (keepFirst es) tour costs prizes root quota false pick0 pick depth step =
      pathExtensionCollapseBind O es tour costs prizes root quota false pick0 pick depth step := by
  rw [pathExtensionCollapseBind, pathExtensionCollapseBind]
  refine prepareRoot_bind_keepFirst es tour costs prizes root _ fun q p r h1 h2 h3 H => ?_
  simp only [h1, h2, h3, H.pathExtensionCollapse hO]

/-- A triangle, a cheap way round its first edge, and a dear one whose edges are listed twice. -/
def exDear : List (Nat × Nat) := [(0, 1), (1, 2), (2, 0), (1, 3), (3, 4), (4, 0), (1, 5), (5, 6), (6, 0), (5, 1), (6, 5), (0, 6)]

/-- The costs, one entry for every edge. -/
def exDearCosts : List ((Nat × Nat) × Int) :=
  [((0, 1), 50), ((1, 2), 50), ((2, 0), 40), ((1, 3), 1), ((3, 4), 1), ((4, 0), 1), ((1, 5), 100), ((5, 6), 100), ((6, 0), 100)]

/-- The prizes. -/
def exDearPrizes : List (Nat × Int) := [(0, 1), (1, 1), (2, 2), (3, 1), (4, 1), (5, 1), (6, 1)]

/-- **C153.** With shortest paths this is false: the search takes the second copies of edges to be free, finds the dear way, and then keeps the tour of cost
140.  Without the second copies it finds the tour of cost 53. -/
theorem C153_shortest : (∃ t, collapseBind exDear [0, 1, 2, 0] exDearCosts exDearPrizes 4 0 true (fun _ => exPick) = .ok t ∧
      namedCost (fun x y => ((exDearCosts.find? fun e => decide (SameEdge e.1 (x, y))).map (·.2)).getD 0) t = 140) ∧
    ∃ t, collapseBind (keepFirst exDear) [0, 1, 2, 0] exDearCosts exDearPrizes 4 0 true (fun _ => exPick) = .ok t ∧
      namedCost (fun x y => ((exDearCosts.find? fun e => decide (SameEdge e.1 (x, y))).map (·.2)).getD 0) t = 53 := by
  refine ⟨⟨[0, 1, 2, 0], by decide +kernel, by decide +kernel⟩, ⟨[0, 1, 3, 4, 0], by decide +kernel, by decide +kernel⟩⟩

/-- The list without repetitions is shorter, and the heuristics do something on it. -/
example : keepFirst exDear = exDear.take 9 ∧
    collapseBind exDear [0, 1, 2, 0] exDearCosts exDearPrizes 3 0 false (fun _ => exPick) = .ok [0, 1, 2, 0] ∧
    extensionUnitaryGainBind FloatOps.ieeeExact [(0, 1), (1, 2), (2, 0), (0, 3), (3, 1), (1, 3), (1, 0), (0, 4)] [0, 1, 2, 0]
      [((0, 1), 5), ((3, 0), 4), ((1, 3), 4)] [(0, 1), (1, 1), (2, 1), (3, 9), (4, 1)] = .ok [0, 3, 1, 2, 0] ∧
    pathExtensionBind FloatOps.ieeeExact [(0, 1), (1, 2), (2, 0), (0, 3), (3, 1), (1, 3), (1, 0), (3, 4), (4, 1), (4, 3)] [0, 1, 2, 0]
      [((0, 1), 5), ((3, 0), 4), ((1, 3), 4)] [(0, 1), (1, 1), (2, 1), (3, 9), (4, 9)] 2 1 3 = .ok [0, 3, 4, 1, 2, 0] := by
  decide +kernel

/-- Arithmetic with infinities and NaN is as in the theorems. -/
example : FloatOps.ieeeExact.Strict := FloatOps.ieeeExact_strict

end Pctsp
