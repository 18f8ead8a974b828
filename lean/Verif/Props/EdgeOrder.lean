import Verif.Lemmas.EdgeOrder
import Verif.Lemmas.Float
import Verif.Props.Collapse
import Verif.Model.Wrappers

/-!
# C155: what the extension heuristics see of the order of the edges

Two lists have the same edges (in any order and direction, also several times).  The numbers of the vertices in the library are given in the order in
which they occur first in the list.
-/

namespace Pctsp

variable {α : Type} [DecidableEq α] {F : Type} {es es' : List (α × α)}

/-- **C155.** If the vertices occur first in the same order, extension by unitary gain returns the same. -/
theorem C155_unitary_gain (hadj : ∀ x y, AdjIn es x y ↔ AdjIn es' x y) (hseen : (endpoints es).eraseDups = (endpoints es').eraseDups) (O : FloatOps F)
    (tour : List α) (costs : List ((α × α) × Int)) (prizes : List (α × Int)) :
    extensionUnitaryGainBind O es' tour costs prizes = extensionUnitaryGainBind O es tour costs prizes := by
  rw [extensionUnitaryGainBind, extensionUnitaryGainBind]
  refine prepare_bind_order hadj hseen tour costs prizes _ fun q p h1 h2 h3 H => ?_
  simp only [h1, h2, h3, H.extensionUnitaryGain]

/-- **C155.** The same for extension by unitary gain until the quota is reached. -/
theorem C155_unitary_gain_until (hadj : ∀ x y, AdjIn es x y ↔ AdjIn es' x y) (hseen : (endpoints es).eraseDups = (endpoints es').eraseDups)
    (O : FloatOps F) (tour : List α) (costs : List ((α × α) × Int)) (prizes : List (α × Int)) (quota : Int) :
    extensionUntilPrizeFeasibleBind O es' tour costs prizes quota = extensionUntilPrizeFeasibleBind O es tour costs prizes quota := by
  rw [extensionUntilPrizeFeasibleBind, extensionUntilPrizeFeasibleBind]
  refine prepare_bind_order hadj hseen tour costs prizes _ fun q p h1 h2 h3 H => ?_
  simp only [h1, h2, h3, H.extensionUntil]

/-- **C155.** The same for path extension with a depth limit of at most 2, with every step size. -/
theorem C155_path_extension (hadj : ∀ x y, AdjIn es x y ↔ AdjIn es' x y) (hseen : (endpoints es).eraseDups = (endpoints es').eraseDups)
    {O : FloatOps F} (hO : O.Strict) (tour : List α) (costs : List ((α × α) × Int)) (prizes : List (α × Int)) (root : α) (step : Int) {depth : Int}
    (hd : depth ≤ 2) : pathExtensionBind O es' tour costs prizes root step depth = pathExtensionBind O es tour costs prizes root step depth := by
  rw [pathExtensionBind, pathExtensionBind]
  refine prepareRoot_bind_order hadj hseen tour costs prizes root _ fun q p r h1 h2 h3 H => ?_
  simp only [h1, h2, h3, H.pathExtension_of hO (H.cands p.prize r hd)]

/-- **C155.** The same for path extension until the quota is reached. -/
theorem C155_path_extension_until (hadj : ∀ x y, AdjIn es x y ↔ AdjIn es' x y) (hseen : (endpoints es).eraseDups = (endpoints es').eraseDups)
    {O : FloatOps F} (hO : O.Strict) (tour : List α) (costs : List ((α × α) × Int)) (prizes : List (α × Int)) (root : α) (quota step : Int) {depth : Int}
    (hd : depth ≤ 2) : pathExtensionUntilPrizeFeasibleBind O es' tour costs prizes root quota step depth =
      pathExtensionUntilPrizeFeasibleBind O es tour costs prizes root quota step depth := by
  rw [pathExtensionUntilPrizeFeasibleBind, pathExtensionUntilPrizeFeasibleBind]
  refine prepareRoot_bind_order hadj hseen tour costs prizes root _ fun q p r h1 h2 h3 H => ?_
  simp only [h1, h2, h3, H.pathExtensionUntil_of hO (H.cands p.prize r hd)]

/-- **C155.** The same for extension by unitary loss. -/
theorem C155_unitary_loss (hadj : ∀ x y, AdjIn es x y ↔ AdjIn es' x y) (hseen : (endpoints es).eraseDups = (endpoints es').eraseDups)
    {O : FloatOps F} (hO : O.Strict) (tour : List α) (costs : List ((α × α) × Int)) (prizes : List (α × Int)) (root : α) :
    extensionUnitaryLossPy O es' tour costs prizes root = extensionUnitaryLossPy O es tour costs prizes root :=
  C155_path_extension hadj hseen hO tour costs prizes root 1 (Int.le_refl 2)

/-- A triangle and two ways round its first edge. -/
def exWays : List (Nat × Nat) := [(0, 1), (1, 2), (2, 0), (0, 3), (3, 4), (0, 5), (5, 6), (4, 1), (6, 1)]

/-- The same edges; the last two are exchanged. -/
def exWays' : List (Nat × Nat) := [(0, 1), (1, 2), (2, 0), (0, 3), (3, 4), (0, 5), (5, 6), (6, 1), (4, 1)]

/-- The costs. -/
def exWaysCosts : List ((Nat × Nat) × Int) :=
  [((0, 1), 1), ((1, 2), 1), ((2, 0), 1), ((0, 3), 1), ((3, 4), 1), ((4, 1), 1), ((0, 5), 2), ((5, 6), 2), ((6, 1), 1)]

/-- The prizes. -/
def exWaysPrizes : List (Nat × Int) := [(0, 1), (1, 1), (2, 1), (3, 1), (4, 1), (5, 2), (6, 2)]

/-- A square and two vertices that can replace 3. -/
def exTwins : List (Nat × Nat) := [(0, 1), (1, 2), (2, 3), (3, 0), (0, 4), (0, 5), (2, 4), (2, 5)]

/-- The same edges; the last two are exchanged. -/
def exTwins' : List (Nat × Nat) := [(0, 1), (1, 2), (2, 3), (3, 0), (0, 4), (0, 5), (2, 5), (2, 4)]

/-- The costs. -/
def exTwinsCosts : List ((Nat × Nat) × Int) :=
  [((0, 1), 1), ((1, 2), 1), ((2, 3), 9), ((3, 0), 9), ((0, 4), 1), ((0, 5), 1), ((2, 4), 1), ((2, 5), 1)]

/-- The prizes. -/
def exTwinsPrizes : List (Nat × Int) := [(0, 1), (1, 1), (2, 1), (3, 1), (4, 1), (5, 1)]

/-- **C155.** With the depth limit 3 the order of the edges matters, although the vertices occur first in the same order: the tours have different costs and
prizes.  In collapse it matters too; its tours are different (and have the same cost). -/
theorem C155_matters : ((∀ e ∈ exWays, AdjIn exWays' e.1 e.2) ∧ (∀ e ∈ exWays', AdjIn exWays e.1 e.2) ∧
      (endpoints exWays).eraseDups = (endpoints exWays').eraseDups ∧
      pathExtensionBind FloatOps.ieeeExact exWays [0, 1, 2, 0] exWaysCosts exWaysPrizes 0 1 3 = .ok [0, 3, 4, 1, 2, 0] ∧
      pathExtensionBind FloatOps.ieeeExact exWays' [0, 1, 2, 0] exWaysCosts exWaysPrizes 0 1 3 = .ok [0, 5, 6, 1, 2, 0]) ∧
    (∀ e ∈ exTwins, AdjIn exTwins' e.1 e.2) ∧ (∀ e ∈ exTwins', AdjIn exTwins e.1 e.2) ∧
      (endpoints exTwins).eraseDups = (endpoints exTwins').eraseDups ∧
      collapseBind exTwins [0, 1, 2, 3, 0] exTwinsCosts exTwinsPrizes 4 0 false (fun _ => exPick) = .ok [0, 1, 2, 4, 0] ∧
      collapseBind exTwins' [0, 1, 2, 3, 0] exTwinsCosts exTwinsPrizes 4 0 false (fun _ => exPick) = .ok [0, 1, 2, 5, 0] := by
  decide +kernel

/-- If the vertices occur first in another order, extension by unitary gain can return another tour. -/
example : extensionUnitaryGainBind FloatOps.ieeeExact [(0, 1), (1, 2), (2, 0), (0, 3), (3, 1), (0, 4), (4, 1), (0, 5)] [0, 1, 2, 0]
      [((0, 1), 5), ((0, 3), 3), ((1, 3), 3), ((0, 4), 3), ((1, 4), 3)] [(0, 1), (1, 1), (2, 1), (3, 9), (4, 9), (5, 0)] =
        .ok [0, 3, 1, 2, 0] ∧
    extensionUnitaryGainBind FloatOps.ieeeExact [(0, 1), (1, 2), (2, 0), (0, 4), (4, 1), (0, 3), (3, 1), (0, 5)] [0, 1, 2, 0]
      [((0, 1), 5), ((0, 3), 3), ((1, 3), 3), ((0, 4), 3), ((1, 4), 3)] [(0, 1), (1, 1), (2, 1), (3, 9), (4, 9), (5, 0)] =
        .ok [0, 4, 1, 2, 0] := by
  decide +kernel

/-- Two lists that meet the hypotheses, one with a repeated edge, on which the heuristic extends the tour. -/
example : (∀ x y, AdjIn [(0, 1), (1, 2), (2, 0), (0, 3), (3, 1), (0, 4)] x y ↔
      AdjIn [(0, 1), (2, 1), (3, 0), (0, 2), (1, 0), (4, 0), (3, 1)] x y) ∧
    (endpoints [(0, 1), (1, 2), (2, 0), (0, 3), (3, 1), (0, 4)]).eraseDups =
      (endpoints [(0, 1), (2, 1), (3, 0), (0, 2), (1, 0), (4, 0), (3, 1)]).eraseDups ∧
    extensionUnitaryGainBind FloatOps.ieeeExact [(0, 1), (2, 1), (3, 0), (0, 2), (1, 0), (4, 0), (3, 1)] [0, 1, 2, 0]
      [((0, 1), 5), ((3, 0), 4), ((1, 3), 4)] [(0, 1), (1, 1), (2, 1), (3, 9)] = .ok [0, 3, 1, 2, 0] := by
  exact ⟨adjIn_congr (by decide) (by decide), by decide +kernel⟩

/-- The two lists of `C155_matters` meet the hypotheses, so with the depth limit 2 the tours are the same. -/
example : pathExtensionBind FloatOps.ieeeExact exWays' [0, 1, 2, 0] exWaysCosts exWaysPrizes 0 1 2 =
    pathExtensionBind FloatOps.ieeeExact exWays [0, 1, 2, 0] exWaysCosts exWaysPrizes 0 1 2 :=
  C155_path_extension (adjIn_congr (by decide) (by decide)) (by decide +kernel)
    FloatOps.ieeeExact_strict _ _ _ _ _ (by decide)

end Pctsp
