import Verif.Spec.NodeGap
import Verif.Props.Tailing
import Mathlib.Tactic.FieldSimp
import Mathlib.Tactic.Ring
import Mathlib.Tactic.Linarith
import Mathlib.Tactic.NormNum

/-!
# C161: what the tailing off test measures
-/

namespace Pctsp

theorem gapsOf_enfo (eps inf : Rat) (node : Nat) (history : List BoundCall) :
    gapsOf node (history.map (BoundCall.enfo eps inf)) = (callsAt node history).map fun c => scipGap eps inf c.primal c.lower := by
  induction history with
  | nil => rfl
  | cons c cs ih =>
    simp only [gapsOf, callsAt, List.map_cons, List.filter_cons] at ih ⊢
    by_cases h : c.node = node <;> cases hs : c.simple <;> simp [BoundCall.enfo, h, hs] at ih ⊢ <;> exact ih

/-- **C161.** In terms of the bounds: a call is feasible iff the LP solution is a simple cycle; otherwise it branches iff the LP was solved and the gap has improved by less than the threshold
since the call of the same node `m - 1` calls before. -/
theorem C161_result (eps inf threshold : Rat) (m : Int) (history : List BoundCall) (c : BoundCall) :
    (enfoResult eps inf threshold m history c = .feasible ↔ c.simple = true) ∧
    (enfoResult eps inf threshold m history c = .branch ↔ c.simple = false ∧ c.lpOk = true ∧ ∃ pre a mid,
      callsAt c.node history = pre ++ a :: mid ∧ (mid.length : Int) + 2 = m ∧ scipGap eps inf a.primal a.lower - scipGap eps inf c.primal c.lower < threshold) := by
  have h := C60_branches_iff (G := Rat) (· - ·) (fun a b => decide (a < b)) threshold m (history.map (BoundCall.enfo eps inf)) (c.enfo eps inf)
  refine ⟨h.1, h.2.trans ?_⟩
  simp only [BoundCall.enfo, gapsOf_enfo]
  refine and_congr_right fun _ => and_congr_right fun _ => ?_
  constructor
  · rintro ⟨pre, mid, a, h1, h2, h3⟩
    obtain ⟨l₁, l₂, e1, e2, e3⟩ := List.map_eq_append_iff.1 h1
    obtain ⟨x, l₃, f1, f2, f3⟩ := List.map_eq_cons_iff.1 e3
    refine ⟨l₁, x, l₃, by rw [e1, f1], ?_, by rw [f2]; exact of_decide_eq_true h3⟩
    rw [← h2, ← f3, List.length_map]
  · rintro ⟨pre, a, mid, h1, h2, h3⟩
    exact ⟨_, mid.map fun c => scipGap eps inf c.primal c.lower, _, by rw [h1, List.map_append, List.map_cons], by simpa using h2, decide_eq_true h3⟩

theorem scipGap_unbounded {eps inf : Rat} {c : BoundCall} (h : c.Unbounded eps inf) : scipGap eps inf c.primal c.lower = inf := by
  rw [scipGap, if_neg (not_le.2 h.1), if_pos h.2]

/-- **C161.** The gap is never negative, and it is zero iff the bounds agree up to SCIP's tolerance: a node whose bounds agree has nothing left to improve. -/
theorem C161_gap (eps inf : Rat) (heps : 0 ≤ eps) (hinf : 0 < inf) (c : BoundCall) :
    0 ≤ scipGap eps inf c.primal c.lower ∧ (scipGap eps inf c.primal c.lower = 0 ↔ |c.primal - c.lower| ≤ eps) := by
  rw [scipGap]
  by_cases h1 : |c.primal - c.lower| ≤ eps
  · rw [if_pos h1]
    exact ⟨le_refl _, by simp [h1]⟩
  · rw [if_neg h1]
    by_cases h2 : |c.lower| ≤ eps ∨ |c.primal| ≤ eps ∨ inf ≤ |c.primal| ∨ inf ≤ |c.lower| ∨ c.primal * c.lower < 0
    · rw [if_pos h2]
      exact ⟨hinf.le, ⟨fun h => absurd h hinf.ne', fun h => absurd h h1⟩⟩
    · rw [if_neg h2]
      push Not at h2
      refine ⟨abs_nonneg _, ⟨fun h => absurd h ?_, fun h => absurd h h1⟩⟩
      rw [abs_eq_zero, div_eq_zero_iff]
      rintro (h | h)
      · rw [h, abs_zero] at h1
        exact h1 heps
      · have := lt_min h2.1 h2.2.1
        linarith

/-- **C161.** As long as no solution is known (or the lower bound is zero), the gap is SCIP's infinity, a number, and so does not improve.  If the threshold is positive, the node branches from its
`m`-th call on, whatever its lower bounds are; if it is not, the node never does. -/
theorem C161_no_solution (eps inf threshold : Rat) (m : Int) (hm : 2 ≤ m) (history : List BoundCall) (c : BoundCall) (hs : c.simple = false) (hl : c.lpOk = true)
    (hc : c.Unbounded eps inf) (hh : ∀ a ∈ callsAt c.node history, a.Unbounded eps inf) :
    enfoResult eps inf threshold m history c = .branch ↔ 0 < threshold ∧ m ≤ (callsAt c.node history).length + 1 := by
  rw [(C161_result eps inf threshold m history c).2]
  constructor
  · rintro ⟨-, -, pre, a, mid, h1, h2, h3⟩
    rw [scipGap_unbounded hc, scipGap_unbounded (hh a (by rw [h1]; simp)), sub_self] at h3
    refine ⟨h3, ?_⟩
    rw [h1, ← h2]
    simp only [List.length_append, List.length_cons]
    push_cast
    omega
  · rintro ⟨h1, h2⟩
    have hlen : (callsAt c.node history).length - (m - 1).toNat < (callsAt c.node history).length := by omega
    refine ⟨hs, hl, (callsAt c.node history).take ((callsAt c.node history).length - (m - 1).toNat), (callsAt c.node history)[(callsAt c.node history).length - (m - 1).toNat],
      (callsAt c.node history).drop ((callsAt c.node history).length - (m - 1).toNat + 1), ?_, ?_, ?_⟩
    · rw [List.getElem_cons_drop, List.take_append_drop]
    · rw [List.length_drop]; omega
    · rw [scipGap_unbounded hc, scipGap_unbounded (hh _ (List.getElem_mem _)), sub_self]
      exact h1

/-- **C161.** When the first solution has been found the gap drops from infinity, and the node does not branch as long as its window reaches back to a call without a solution. -/
theorem C161_first_solution (eps inf threshold : Rat) (m : Int) (history : List BoundCall) (c a : BoundCall) (pre mid : List BoundCall)
    (h : callsAt c.node history = pre ++ a :: mid) (hm : (mid.length : Int) + 2 = m) (ha : a.Unbounded eps inf) (hc : scipGap eps inf c.primal c.lower ≤ inf - threshold) :
    enfoResult eps inf threshold m history c ≠ .branch := by
  rw [ne_eq, (C161_result eps inf threshold m history c).2]
  rintro ⟨-, -, pre', a', mid', h1, h2, h3⟩
  have hlen : pre.length = pre'.length := by
    have := congrArg List.length (h.symm.trans h1)
    simp only [List.length_append, List.length_cons] at this
    omega
  have he := List.append_inj (h.symm.trans h1) hlen
  have hae : a = a' := (List.cons.inj he.2).1
  rw [← hae, scipGap_unbounded ha] at h3
  linarith

/-- **C161.** The lower bound of a node is one of the problem whose costs are divided by `k`, the primal bound is not.  So the gap that is computed is `k (1 + gap) - 1`. -/
theorem C161_scaled_gap (eps inf k : Rat) (heps : 0 ≤ eps) (hk : 1 ≤ k) (c : BoundCall) (hc : c.Usual eps inf k) :
    scipGap eps inf (c.scaled k).primal (c.scaled k).lower = k * (1 + c.relGap) - 1 := by
  obtain ⟨h1, h2, h3, h4⟩ := hc
  have hk0 : 0 < k := by linarith
  have hl : 0 < c.lower / k := by linarith
  have hlow : 0 < c.lower := by
    have := mul_pos hl hk0
    rwa [div_mul_cancel₀ _ hk0.ne'] at this
  have hle : c.lower / k ≤ c.lower := by
    rw [div_le_iff₀ hk0]
    nlinarith
  have hp : 0 < c.primal := by linarith
  show scipGap eps inf c.primal (c.lower / k) = k * (1 + (c.primal - c.lower) / c.lower) - 1
  rw [scipGap]
  rw [if_neg (by rw [abs_of_pos (by linarith)]; linarith), if_neg, abs_of_pos hl, abs_of_pos hp, min_eq_left (by linarith), abs_of_pos]
  · field_simp
    ring
  · exact div_pos (by linarith) hl
  · rw [abs_of_pos hl, abs_of_pos hp]
    have hmul := mul_pos hp hl
    rintro (h | h | h | h | h) <;> linarith

/-- **C161.** So a node branches iff its gap has improved by less than the threshold divided by `k`: multiplying all costs by `k`, which SCIP undoes by this division, makes the threshold `k` times
as strict. -/
theorem C161_scaled (eps inf k threshold : Rat) (heps : 0 ≤ eps) (hk : 1 ≤ k) (m : Int) (history : List BoundCall) (c : BoundCall) (hc : c.Usual eps inf k)
    (hh : ∀ a ∈ callsAt c.node history, a.Usual eps inf k) :
    enfoResult eps inf threshold m (history.map (BoundCall.scaled k)) (c.scaled k) = .branch ↔ c.simple = false ∧ c.lpOk = true ∧ ∃ pre a mid,
      callsAt c.node history = pre ++ a :: mid ∧ (mid.length : Int) + 2 = m ∧ a.relGap - c.relGap < threshold / k := by
  have hk0 : 0 < k := by linarith
  have hcalls : callsAt c.node (history.map (BoundCall.scaled k)) = (callsAt c.node history).map (BoundCall.scaled k) := by
    simp only [callsAt, List.filter_map]
    rfl
  have key : ∀ a ∈ callsAt c.node history, (scipGap eps inf (a.scaled k).primal (a.scaled k).lower - scipGap eps inf (c.scaled k).primal (c.scaled k).lower < threshold ↔
      a.relGap - c.relGap < threshold / k) := by
    intro a ha
    rw [C161_scaled_gap eps inf k heps hk a (hh a ha), C161_scaled_gap eps inf k heps hk c hc, lt_div_iff₀ hk0]
    constructor <;> intro h <;> nlinarith
  rw [(C161_result eps inf threshold m _ _).2]
  refine and_congr_right fun _ => and_congr_right fun _ => ?_
  rw [show (c.scaled k).node = c.node from rfl, hcalls]
  constructor
  · rintro ⟨pre, a, mid, h1, h2, h3⟩
    obtain ⟨l₁, l₂, e1, e2, e3⟩ := List.map_eq_append_iff.1 h1
    obtain ⟨x, l₃, f1, f2, f3⟩ := List.map_eq_cons_iff.1 e3
    refine ⟨l₁, x, l₃, by rw [e1, f1], by rw [← h2, ← f3, List.length_map], ?_⟩
    rw [← f2] at h3
    exact (key x (by rw [e1, f1]; simp)).1 h3
  · rintro ⟨pre, a, mid, h1, h2, h3⟩
    exact ⟨_, a.scaled k, mid.map (BoundCall.scaled k), by rw [h1, List.map_append, List.map_cons], by simpa using h2, (key a (by rw [h1]; simp)).2 h3⟩

/-- No solution (primal bound `10^20`), a window of three calls: the third call branches although the lower bound has doubled each time; the second does not. -/
example : enfoResult (1 / 10 ^ 9) (10 ^ 20) (1 / 100) 3 [⟨false, 7, 10 ^ 20, 10, true⟩, ⟨false, 7, 10 ^ 20, 20, true⟩] ⟨false, 7, 10 ^ 20, 40, true⟩ = .branch ∧
    enfoResult (1 / 10 ^ 9) (10 ^ 20) (1 / 100) 3 [⟨false, 7, 10 ^ 20, 10, true⟩, ⟨false, 8, 10 ^ 20, 20, true⟩] ⟨false, 7, 10 ^ 20, 40, true⟩ ≠ .branch := by decide +kernel

example : BoundCall.Unbounded (1 / 10 ^ 9) (10 ^ 20) ⟨false, 7, 10 ^ 20, 40, true⟩ := by unfold BoundCall.Unbounded; decide +kernel

/-- The first solution is found before the third call: no branching at this call. -/
example : enfoResult (1 / 10 ^ 9) (10 ^ 20) (1 / 100) 3 [⟨false, 7, 10 ^ 20, 10, true⟩, ⟨false, 7, 100, 10, true⟩] ⟨false, 7, 100, 10, true⟩ ≠ .branch := by decide +kernel

/-- Solution of cost 100, lower bounds 50 and 51: the gap improves from 1 to about 0.96, less than the threshold 0.1, and the node branches.  With all costs multiplied by 10 it does not. -/
example : enfoResult (1 / 10 ^ 9) (10 ^ 20) (1 / 10) 2 ([⟨false, 7, 100, 50, true⟩].map (BoundCall.scaled 1)) (BoundCall.scaled 1 ⟨false, 7, 100, 51, true⟩) = .branch ∧
    enfoResult (1 / 10 ^ 9) (10 ^ 20) (1 / 10) 2 ([⟨false, 7, 1000, 500, true⟩].map (BoundCall.scaled 10)) (BoundCall.scaled 10 ⟨false, 7, 1000, 510, true⟩) ≠ .branch := by decide +kernel

example : BoundCall.Usual (1 / 10 ^ 9) (10 ^ 20) 10 ⟨false, 7, 1000, 510, true⟩ := by unfold BoundCall.Usual; decide +kernel

end Pctsp
