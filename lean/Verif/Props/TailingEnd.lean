import Verif.Props.NodeGap
import Mathlib.Data.Rat.Floor

/-!
# C164: tailing off ends
-/

namespace Pctsp

theorem callsAt_split {node : Nat} {history A B : List BoundCall} {c : BoundCall} (h : callsAt node history = A ++ c :: B) :
    ∃ pre post, history = pre ++ c :: post ∧ callsAt node pre = A ∧ c.node = node ∧ c.simple = false := by
  obtain ⟨l₁, l₂, h1, h2, h3⟩ := List.filter_eq_append_iff.1 h
  obtain ⟨l₃, l₄, h4, h5, h6, h7⟩ := List.filter_eq_cons_iff.1 h3
  refine ⟨l₁ ++ l₃, l₄, by rw [h1, h4, List.append_assoc], ?_, ?_⟩
  · rw [callsAt, List.filter_append, h2, List.filter_eq_nil_iff.2 h5, List.append_nil]
  · simpa using h6

/-- One window: without branching, the gap improves by at least the threshold over `m - 1` calls. -/
theorem window_improves {eps inf threshold : Rat} {m : Nat} (hm : 2 ≤ m) {node : Nat} {history cs : List BoundCall} (hcs : callsAt node history = cs) (hl : ∀ c ∈ cs, c.lpOk = true)
    (hb : NeverBranched eps inf threshold m node history) (i : Nat) (hi : i + (m - 1) < cs.length) :
    cs[i + (m - 1)].gap eps inf + threshold ≤ cs[i].gap eps inf := by
  have hsplit : cs = cs.take (i + (m - 1)) ++ cs[i + (m - 1)] :: cs.drop (i + (m - 1) + 1) := by rw [List.getElem_cons_drop, List.take_append_drop]
  obtain ⟨pre, post, h1, h2, h3, h4⟩ := callsAt_split (hcs.trans hsplit)
  have hnb := hb pre _ post h1 h3
  by_contra hlt
  refine hnb ((C161_result eps inf threshold m pre _).2.2 ⟨h4, hl _ (List.getElem_mem hi), cs.take i, cs[i], (cs.take (i + (m - 1))).drop (i + 1), ?_, ?_, ?_⟩)
  · rw [h3, h2]
    have hlen : i < (cs.take (i + (m - 1))).length := by rw [List.length_take]; omega
    have := List.take_append_drop i (cs.take (i + (m - 1)))
    rw [← List.getElem_cons_drop hlen, List.getElem_take, List.take_take, Nat.min_eq_left (by omega)] at this
    exact this.symm
  · rw [List.length_drop, List.length_take]
    omega
  · simp only [BoundCall.gap] at hlt
    linarith

/-- **C164.** If a node never branches, the gap improves by at least `k` times the threshold over `k (m - 1)` calls. -/
theorem C164_improves (eps inf threshold : Rat) (m : Nat) (hm : 2 ≤ m) (node : Nat) (history : List BoundCall) (hl : ∀ c ∈ callsAt node history, c.lpOk = true)
    (hb : NeverBranched eps inf threshold m node history) (i k : Nat) (hi : i + k * (m - 1) < (callsAt node history).length) :
    (callsAt node history)[i + k * (m - 1)].gap eps inf + k * threshold ≤ ((callsAt node history)[i]'(by omega)).gap eps inf := by
  induction k with
  | zero => simp
  | succ k ih =>
    have hi' : i + k * (m - 1) < (callsAt node history).length := by
      have : k * (m - 1) ≤ (k + 1) * (m - 1) := Nat.mul_le_mul_right _ (Nat.le_succ k)
      omega
    have h1 := ih hi'
    have e : i + (k + 1) * (m - 1) = i + k * (m - 1) + (m - 1) := by rw [Nat.succ_mul]; omega
    have h2 := window_improves hm rfl hl hb (i + k * (m - 1)) (by omega)
    simp only [e]
    push_cast
    linarith

/-- **C164.** With a positive threshold tailing off ends: if a node has not branched, the number of its calls from the `i`-th on is at most `m - 1` times one more than the whole number of thresholds in the gap of the
`i`-th call.  So cutting at a node cannot go on for ever. -/
theorem C164_bound (eps inf threshold : Rat) (heps : 0 ≤ eps) (hinf : 0 < inf) (ht : 0 < threshold) (m : Nat) (hm : 2 ≤ m) (node : Nat) (history : List BoundCall)
    (hl : ∀ c ∈ callsAt node history, c.lpOk = true) (hb : NeverBranched eps inf threshold m node history) (i : Nat) (hi : i < (callsAt node history).length) :
    ((callsAt node history).length : Int) - i ≤ (m - 1) * (⌊(callsAt node history)[i].gap eps inf / threshold⌋ + 1) := by
  have hm1 : 0 < m - 1 := by omega
  generalize hk : ((callsAt node history).length - 1 - i) / (m - 1) = k
  have hk1 : k * (m - 1) ≤ (callsAt node history).length - 1 - i := by rw [← hk]; exact Nat.div_mul_le_self _ _
  have hk2 : (callsAt node history).length - 1 - i < (k + 1) * (m - 1) := by
    rw [← hk, Nat.succ_mul]
    have := Nat.div_add_mod ((callsAt node history).length - 1 - i) (m - 1)
    have := Nat.mod_lt ((callsAt node history).length - 1 - i) hm1
    rw [Nat.mul_comm]
    omega
  have h1 := C164_improves eps inf threshold m hm node history hl hb i k (by omega)
  have h2 : 0 ≤ ((callsAt node history)[i + k * (m - 1)]'(by omega)).gap eps inf := (C161_gap eps inf heps hinf _).1
  have h3 : (k : Int) ≤ ⌊(callsAt node history)[i].gap eps inf / threshold⌋ := by
    rw [Int.le_floor, le_div_iff₀ ht]
    push_cast
    linarith
  have h4 : ((callsAt node history).length : Int) - i ≤ (k + 1) * ((m : Int) - 1) := by
    have : ((callsAt node history).length - 1 - i) + 1 ≤ (k + 1) * (m - 1) := hk2
    have h5 : (((callsAt node history).length - 1 - i : Nat) : Int) + 1 ≤ ((k : Int) + 1) * ((m - 1 : Nat) : Int) := by exact_mod_cast this
    rw [Nat.cast_sub (by omega : 1 ≤ m)] at h5
    push_cast at h5
    omega
  have h6 : (0 : Int) ≤ (m : Int) - 1 := by omega
  nlinarith

/-- **C164.** With a window of at most one call no node ever branches, and neither does a node whose gaps do not grow if the threshold is not positive, however many calls it has. -/
theorem C164_never (eps inf threshold : Rat) (m : Int) (node : Nat) (history : List BoundCall)
    (h : m ≤ 1 ∨ (threshold ≤ 0 ∧ (callsAt node history).Pairwise fun a b => b.gap eps inf ≤ a.gap eps inf)) : NeverBranched eps inf threshold m node history := by
  intro pre c post he hc
  rw [ne_eq, (C161_result eps inf threshold m pre c).2]
  rintro ⟨hs, -, p, a, mid, h1, h2, h3⟩
  rcases h with h | ⟨ht, hp⟩
  · omega
  · have hcs : callsAt node history = p ++ a :: mid ++ c :: callsAt node post := by
      rw [he, ← h1, ← hc]
      simp [callsAt, List.filter_append, hs]
    rw [hcs] at hp
    have := (List.pairwise_append.1 hp).2.2 a (by simp) c (by simp)
    simp only [BoundCall.gap] at this
    linarith

/-- A cost of 100, lower bounds that rise from 50 to 80, the threshold 0.1 and windows of three calls: four calls without branching; from the first on at most 2 * 11 are possible. -/
example : let h : List BoundCall := [⟨false, 7, 100, 50, true⟩, ⟨false, 7, 100, 60, true⟩, ⟨false, 7, 100, 70, true⟩, ⟨false, 7, 100, 80, true⟩]
    (∀ c ∈ callsAt 7 h, c.lpOk = true) ∧ (callsAt 7 h).length = 4 ∧ ⌊(⟨false, 7, 100, 50, true⟩ : BoundCall).gap (1 / 10 ^ 9) (10 ^ 20) / (1 / 10)⌋ = 10 := by
  decide +kernel

example : NeverBranched (1 / 10 ^ 9) (10 ^ 20) (1 / 10) (3 : Nat) 7 [⟨false, 7, 100, 50, true⟩, ⟨false, 7, 100, 60, true⟩, ⟨false, 7, 100, 70, true⟩, ⟨false, 7, 100, 80, true⟩] := by
  intro pre c post h _
  rcases pre with _ | ⟨x, _ | ⟨y, _ | ⟨z, _ | ⟨w, l⟩⟩⟩⟩ <;> simp only [List.nil_append, List.cons_append, List.cons.injEq] at h
  · obtain ⟨rfl, -⟩ := h; decide +kernel
  · obtain ⟨rfl, rfl, -⟩ := h; decide +kernel
  · obtain ⟨rfl, rfl, rfl, -⟩ := h; decide +kernel
  · obtain ⟨rfl, rfl, rfl, rfl, -⟩ := h; decide +kernel
  · simp at h

/-- A fifth call without improvement branches. -/
example : enfoResult (1 / 10 ^ 9) (10 ^ 20) (1 / 10) 3 [⟨false, 7, 100, 60, true⟩, ⟨false, 7, 100, 80, true⟩, ⟨false, 7, 100, 80, true⟩] ⟨false, 7, 100, 80, true⟩ = .branch := by decide +kernel

end Pctsp
