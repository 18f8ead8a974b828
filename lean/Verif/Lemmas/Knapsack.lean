import Verif.Model.Knapsack
import Mathlib.Algebra.Order.BigOperators.Group.List
import Mathlib.Algebra.Order.Group.Int
import Mathlib.Tactic.Linarith
import Mathlib.Tactic.Ring

/-! # Lemmas on the knapsack function -/

namespace Pctsp

theorem knapsackRow_ok (n : Nat) : ∀ (ws : List Int) (i : Nat), i + ws.length ≤ n →
    knapsackRow n i ws = .ok ((List.range ws.length).map fun k => (i + k, ws.getD k 0))
  | [], _, _ => rfl
  | w :: ws, i, h => by
    simp only [List.length_cons] at h
    unfold knapsackRow
    rw [if_pos (by omega), knapsackRow_ok n ws (i + 1) (by omega)]
    simp only [bind, Res.bind, pure, List.length_cons, List.range_succ_eq_map, List.map_cons, List.map_map]
    congr 2
    apply List.map_congr_left
    intro k _
    simp only [Function.comp, List.getD_cons_succ, Prod.mk.injEq, and_true]
    omega

theorem knapsackRow_ub (n : Nat) : ∀ (ws : List Int) (i : Nat), i ≤ n → n < i + ws.length → ∃ w, knapsackRow n i ws = .ub w
  | [], _, h1, h2 => by simp at h2; omega
  | w :: ws, i, h1, h2 => by
    simp only [List.length_cons] at h2
    unfold knapsackRow
    by_cases hi : i < n
    · rw [if_pos hi]
      obtain ⟨m, hm⟩ := knapsackRow_ub n ws (i + 1) (by omega) (by omega)
      exact ⟨m, by rw [hm]; rfl⟩
    · rw [if_neg hi]; exact ⟨_, rfl⟩

theorem sum_ite_eq_filter (x : Nat → Bool) (f : Nat → Int) : ∀ l : List Nat,
    (l.map fun i => if x i then f i else 0).sum = ((l.filter x).map f).sum
  | [] => rfl
  | a :: l => by
    cases hx : x a <;> simp [hx, sum_ite_eq_filter x f l]

theorem rowSum64_ok (x : Nat → Bool) : ∀ (r : List (Nat × Int)) (s : Int), (∀ e ∈ r, -2 ^ 31 ≤ e.2 ∧ e.2 < 2 ^ 31) →
    -2 ^ 63 ≤ s - 2 ^ 31 * r.length → s + (2 ^ 31 - 1) * r.length < 2 ^ 63 →
    rowSum64 x s r = some (s + (r.map fun e => if x e.1 then e.2 else 0).sum)
  | [], s, _, _, _ => by simp [rowSum64]
  | (i, w) :: r, s, h, h1, h2 => by
    have hw := h (i, w) (by simp)
    simp only [List.length_cons, Nat.cast_add, Nat.cast_one] at h1 h2
    have hn : (0 : Int) ≤ r.length := by positivity
    simp only at hw
    unfold rowSum64
    have ht : -2 ^ 63 ≤ (if x i then s + w else s) - 2 ^ 31 * r.length ∧
        (if x i then s + w else s) + (2 ^ 31 - 1) * r.length < 2 ^ 63 := by
      split <;> constructor <;> linarith [hw.1, hw.2]
    have := rowSum64_ok x r (if x i then s + w else s) (fun e he => h e (by simp [he])) ht.1 ht.2
    rw [if_pos ⟨by linarith [ht.1], by linarith [ht.2]⟩, this]
    cases hx : x i
    · simp [hx]
    · simp only [hx, if_true, List.map_cons, List.sum_cons]; congr 1; ring

end Pctsp
