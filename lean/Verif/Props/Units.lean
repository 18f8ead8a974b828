import Verif.Lemmas.Dijkstra
import Verif.Lemmas.UnitsFloat

/-!
# C134: the units of the costs and prizes
-/

namespace Pctsp

variable {α : Type} [DecidableEq α]

/-- **C134.** The units do not matter: costs that are `k` times as large, and prizes and a quota that are `m` times as large, do not change what the six heuristics
do, if the rounding treats the multiples alike. -/
theorem C134_units {rnd : Rat → Ext} {k m : Int} (hk : 0 < k) (hm : 0 < m) (hrk : RoundsAlike rnd k) (hrm : RoundsAlike rnd m) (es : List (α × α)) (tour : List α)
    (costs : List ((α × α) × Int)) (prizes : List (α × Int)) (root : α) (quota step depth : Int) (useShortest : Bool) {pick : Nat → Pick} {pick2 : Nat → Nat → Pick}
    (hp : ∀ i, UnitFree k (pick i)) (hp2 : ∀ i j, UnitFree k (pick2 i j)) :
    collapseBind es tour (entriesInUnit k costs) (entriesInUnit m prizes) (m * quota) root useShortest pick =
      collapseBind es tour costs prizes quota root useShortest pick ∧
    pathExtensionBind (.ieee rnd) es tour (entriesInUnit k costs) (entriesInUnit m prizes) root step depth =
      pathExtensionBind (.ieee rnd) es tour costs prizes root step depth ∧
    pathExtensionUntilPrizeFeasibleBind (.ieee rnd) es tour (entriesInUnit k costs) (entriesInUnit m prizes) root (m * quota) step depth =
      pathExtensionUntilPrizeFeasibleBind (.ieee rnd) es tour costs prizes root quota step depth ∧
    extensionUntilPrizeFeasibleBind (.ieee rnd) es tour (entriesInUnit k costs) (entriesInUnit m prizes) (m * quota) =
      extensionUntilPrizeFeasibleBind (.ieee rnd) es tour costs prizes quota ∧
    pathExtensionCollapseBind (.ieee rnd) es tour (entriesInUnit k costs) (entriesInUnit m prizes) root (m * quota) useShortest pick pick2 depth step =
      pathExtensionCollapseBind (.ieee rnd) es tour costs prizes root quota useShortest pick pick2 depth step ∧
    extensionUnitaryGainBind (.ieee rnd) es tour (entriesInUnit k costs) (entriesInUnit m prizes) = extensionUnitaryGainBind (.ieee rnd) es tour costs prizes := by
  have h := rescaled_ieee hk hm hrk hrm
  have h' := rescaled_ieee hm hk hrm hrk
  have e1 := prepareRoot_units k m es tour costs prizes root
  have e2 := prepare_units k m es tour costs prizes
  have key : ∀ {β γ : Type} {r r' : Res β} {f : β → β} {c c' : β → Res γ}, r' = f <$> r → (∀ a, c' (f a) = c a) → (r' >>= c') = (r >>= c) := by
    intro β γ r r' f c c' hr hc
    subst hr
    cases r <;> simp [hc]
  refine ⟨key e1 fun p => ?_, key e1 fun p => ?_, key e1 fun p => ?_, key e2 fun p => ?_, key e1 fun p => ?_, key e2 fun p => ?_⟩
  · simp only [Renamed.inUnits]; rw [collapse_units hk hm _ _ _ _ _ _ _ hp]
  · simp only [Renamed.inUnits]; rw [pathExtension_units h hm]
  · simp only [Renamed.inUnits]; rw [pathExtensionUntil_units h hm]
  · simp only [Renamed.inUnits]; rw [extensionUntil_units h' hm]
  · simp only [Renamed.inUnits]; rw [pathExtensionCollapse_units h hk hm _ _ _ _ _ _ _ hp hp2]
  · simp only [Renamed.inUnits]; rw [extensionUnitaryGain_units h']

/-- **C134.** In exact arithmetic all factors are alike, in single precision the powers of two. -/
theorem C134_factors : (∀ c, RoundsAlike .fin c) ∧ ∀ n : Nat, RoundsAlike single ((2 ^ n : Int) : Rat) := by
  refine ⟨fun c x => rfl, fun n => ?_⟩
  have := single_two.pow n
  push_cast
  exact this

/-- **C134.** In single precision another factor can change the answer: with costs five times as large, below `2 ^ 27`, another vertex is inserted. -/
theorem C134_rounding : ∃ (es : List (Nat × Nat)) (tour : List Nat) (costs : List ((Nat × Nat) × Int)) (prizes : List (Nat × Int)) (t t' : List Nat),
    (∀ x ∈ costs, 0 < x.2 ∧ x.2 < 2 ^ 24) ∧
    pathExtensionUntilPrizeFeasibleBind (.ieee single) es tour costs prizes 0 4 1 2 = .ok t ∧
    pathExtensionUntilPrizeFeasibleBind (.ieee single) es tour (entriesInUnit 5 costs) prizes 0 4 1 2 = .ok t' ∧ t ≠ t' := by
  refine ⟨[(0, 1), (1, 2), (2, 0), (0, 3), (3, 1), (0, 4), (4, 1)], [0, 1, 2, 0],
    [((0, 1), 1), ((1, 2), 1), ((2, 0), 1), ((0, 3), 1), ((3, 1), 16777215), ((0, 4), 1), ((4, 1), 16777214)],
    [(0, 1), (1, 1), (2, 1), (3, 1), (4, 1)], [0, 4, 1, 2, 0], [0, 3, 1, 2, 0], by decide, by decide +kernel, by decide +kernel, by decide⟩

theorem exPick_unitFree {k : Int} (hk : 0 < k) : UnitFree k exPick := by
  intro r d q
  cases q with
  | nil => rfl
  | cons x q =>
    change firstLeast _ q x = firstLeast d q x
    have hg : ∀ v, ((d v).map (k * ·)).getD 0 = k * (d v).getD 0 := by
      intro v
      cases d v <;> simp
    induction q generalizing x with
    | nil => rfl
    | cons y q ih =>
      simp only [firstLeast, hg, mul_lt_iff_of_pos hk]
      exact ih _

/-! Examples: costs in dollars and in cents, in exact arithmetic; single precision with a factor of 1024. -/

example : collapseBind [(0, 1), (1, 2), (2, 3), (3, 0), (0, 2)] [0, 1, 2, 3, 0] (entriesInUnit 100 [((0, 1), 3), ((0, 2), 5), ((0, 3), 3), ((1, 2), 3), ((2, 3), 3)])
    (entriesInUnit 7 [(0, 1), (1, 1), (2, 1), (3, 1)]) 21 0 true (fun _ => exPick) = .ok [0, 1, 2, 0] := by
  have h := (C134_units (rnd := .fin) (k := 100) (m := 7) (by norm_num) (by norm_num) (C134_factors.1 _) (C134_factors.1 _) [(0, 1), (1, 2), (2, 3), (3, 0), (0, 2)]
    [0, 1, 2, 3, 0] [((0, 1), 3), ((0, 2), 5), ((0, 3), 3), ((1, 2), 3), ((2, 3), 3)] [(0, 1), (1, 1), (2, 1), (3, 1)] 0 3 1 2 true
    (fun _ => exPick_unitFree (by norm_num)) (fun _ _ => exPick_unitFree (by norm_num))).1
  exact h.trans (by decide +kernel)

example : pathExtensionUntilPrizeFeasibleBind (.ieee single) [(0, 1), (1, 2), (2, 0), (0, 3), (3, 1), (0, 4), (4, 1)] [0, 1, 2, 0]
    (entriesInUnit 1024 [((0, 1), 1), ((1, 2), 1), ((2, 0), 1), ((0, 3), 1), ((3, 1), 16777215), ((0, 4), 1), ((4, 1), 16777214)])
    (entriesInUnit 1 [(0, 1), (1, 1), (2, 1), (3, 1), (4, 1)]) 0 4 1 2 = .ok [0, 4, 1, 2, 0] := by
  have h := (C134_units (rnd := single) (k := 1024) (m := 1) (by norm_num) (by norm_num) (C134_factors.2 10) (C134_factors.2 0)
    [(0, 1), (1, 2), (2, 0), (0, 3), (3, 1), (0, 4), (4, 1)] [0, 1, 2, 0]
    [((0, 1), 1), ((1, 2), 1), ((2, 0), 1), ((0, 3), 1), ((3, 1), 16777215), ((0, 4), 1), ((4, 1), 16777214)] [(0, 1), (1, 1), (2, 1), (3, 1), (4, 1)] 0 4 1 2 true
    (fun _ => exPick_unitFree (by norm_num)) (fun _ _ => exPick_unitFree (by norm_num))).2.2.1
  exact h.trans (by decide +kernel)

end Pctsp
