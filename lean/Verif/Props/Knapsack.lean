import Verif.Lemmas.Knapsack

/-!
# C141: the knapsack function

src/knapsack.cpp.
-/

namespace Pctsp

/-- The sum of the entries of `l` at the chosen positions below its length. -/
def sumAt (l : List Int) (x : Nat → Bool) : Int := (((List.range l.length).filter x).map fun i => l.getD i 0).sum

/-- The left-hand side of the row for the chosen variables. -/
def KnapsackProgram.activity (p : KnapsackProgram) (x : Nat → Bool) : Int := (p.row.map fun e => if x e.1 then e.2 else 0).sum

/-- The value of the objective function for the chosen variables. -/
def KnapsackProgram.value (p : KnapsackProgram) (x : Nat → Bool) : Int :=
  ((List.range p.objective.length).map fun i => p.objective.getD i 0 * if x i then 1 else 0).sum

/-- **C141, the problem.**  With as many weights as costs SCIP is given the knapsack problem: a choice of items is admitted iff
their weight is at most the capacity, and it is worth the sum of their costs (which is maximised). -/
theorem C141_problem (costs weights : List Int) (capacity : Int) (h : costs.length = weights.length) :
    ∃ p, knapsackProgram costs weights capacity = .ok p ∧ p.capacity = capacity ∧
      (∀ x, p.activity x = sumAt weights x) ∧ ∀ x, p.value x = sumAt costs x := by
  refine ⟨_, by unfold knapsackProgram; rw [knapsackRow_ok _ _ _ (by omega)]; rfl, rfl, ?_, ?_⟩
  · intro x
    unfold KnapsackProgram.activity sumAt
    simp only [List.map_map]
    rw [← sum_ite_eq_filter]
    congr 1
    apply List.map_congr_left
    intro k _
    simp
  · intro x
    unfold KnapsackProgram.value sumAt
    simp only
    rw [← sum_ite_eq_filter]
    congr 1
    apply List.map_congr_left
    intro k _
    cases x k <;> simp

/-- **C141, no overflow.**  The weights are passed on as 64-bit numbers: for at most 2^32 weights of type `int` no sum of
weights overflows. -/
theorem C141_no_overflow (costs weights : List Int) (capacity : Int) (h : costs.length = weights.length)
    (hw : ∀ w ∈ weights, -2 ^ 31 ≤ w ∧ w < 2 ^ 31) (hn : weights.length ≤ 2 ^ 32) :
    ∃ p, knapsackProgram costs weights capacity = .ok p ∧ ∀ x, rowSum64 x 0 p.row = some (sumAt weights x) := by
  refine ⟨_, by unfold knapsackProgram; rw [knapsackRow_ok _ _ _ (by omega)]; rfl, ?_⟩
  intro x
  have hn' : (weights.length : Int) ≤ 2 ^ 32 := by exact_mod_cast hn
  simp only
  rw [rowSum64_ok]
  · congr 1
    unfold sumAt
    rw [zero_add, ← sum_ite_eq_filter, List.map_map]
    congr 1
    apply List.map_congr_left
    intro k _
    simp
  · intro e he
    obtain ⟨k, hk, rfl⟩ := List.mem_map.1 he
    have hk' := List.mem_range.1 hk
    simp only [List.getD, List.getElem?_eq_getElem hk', Option.getD_some]
    exact hw _ (List.getElem_mem hk')
  · rw [List.length_map, List.length_range]; linarith
  · rw [List.length_map, List.length_range]; linarith

/-- **C141, fewer weights than costs.**  The items without a weight are admitted in any number and are free; and their variables
are the ones that are never released. -/
theorem C141_fewer_weights (costs weights : List Int) (capacity : Int) (h : weights.length < costs.length) :
    (∃ p, knapsackProgram costs weights capacity = .ok p ∧ (∀ x, p.activity x = sumAt weights x) ∧
      ∀ x y, (∀ i < weights.length, x i = y i) → p.activity x = p.activity y) ∧
      ∀ solve, (∀ p, solve p = true) → ∃ e, knapsack solve costs weights capacity = .ok e ∧ e.okay = true ∧
        ∀ i, i ∈ e.unreleased ↔ weights.length ≤ i ∧ i < costs.length := by
  have hp : knapsackProgram costs weights capacity =
      .ok { objective := costs, row := (List.range weights.length).map fun k => (0 + k, weights.getD k 0), capacity := capacity } := by
    unfold knapsackProgram; rw [knapsackRow_ok _ _ _ (by omega)]; rfl
  constructor
  · refine ⟨_, hp, ?_, ?_⟩
    · intro x
      unfold KnapsackProgram.activity sumAt
      simp only [List.map_map]
      rw [← sum_ite_eq_filter]
      congr 1
      apply List.map_congr_left
      intro k _
      simp
    · intro x y hxy
      unfold KnapsackProgram.activity
      simp only [List.map_map]
      congr 1
      apply List.map_congr_left
      intro k hk
      simp [hxy k (List.mem_range.1 hk)]
  · intro solve hs
    refine ⟨_, by unfold knapsack; rw [hp]; simp only [bind, Res.bind, hs, if_true]; rfl, rfl, ?_⟩
    intro i
    simp only [List.mem_iff_getElem?, List.getElem?_drop]
    constructor
    · rintro ⟨k, hk⟩
      obtain ⟨h1, h2⟩ := List.getElem?_eq_some_iff.1 hk
      simp only [List.getElem_range] at h2
      simp only [List.length_range] at h1
      omega
    · rintro ⟨h1, h2⟩
      refine ⟨i - weights.length, ?_⟩
      rw [List.getElem?_eq_getElem (by simp; omega)]
      simp; omega

/-- **C141, more weights than costs.**  Undefined behaviour: variables are read that do not exist. -/
theorem C141_more_weights (solve : KnapsackProgram → Bool) (costs weights : List Int) (capacity : Int) (h : costs.length < weights.length) :
    ∃ w, knapsack solve costs weights capacity = .ub w := by
  obtain ⟨w, hw⟩ := knapsackRow_ub costs.length weights 0 (by omega) (by omega)
  exact ⟨w, by unfold knapsack knapsackProgram; rw [hw]; rfl⟩

/-- **C141, nothing is reported.**  With as many weights as costs and a solver that does not fail, the call succeeds and releases
everything, and what it returns says nothing about the items: it is the same for all items and all capacities. -/
theorem C141_silent (solve : KnapsackProgram → Bool) (hs : ∀ p, solve p = true) (costs weights costs' weights' : List Int)
    (capacity capacity' : Int) (h : costs.length = weights.length) (h' : costs'.length = weights'.length) :
    ∃ e, knapsack solve costs weights capacity = .ok e ∧ e.okay = true ∧ e.unreleased = [] ∧
      knapsack solve costs' weights' capacity' = .ok e := by
  have key : ∀ (c w : List Int) (k : Int), c.length = w.length → knapsack solve c w k = .ok { okay := true, unreleased := [] } := by
    intro c w k hcw
    unfold knapsack knapsackProgram
    rw [knapsackRow_ok _ _ _ (by omega)]
    simp only [bind, Res.bind, pure, hs, if_true, hcw]
    congr 2
    simp
  exact ⟨_, key _ _ _ h, rfl, rfl, key _ _ _ h'⟩

/-- The items of tests/test_knapsack.cpp: the second and the fourth weigh 30. -/
example : ∃ p, knapsackProgram [1, 2, 3, 4] [20, 15, 35, 15] 50 = .ok p ∧ p.activity (fun i => i == 1 || i == 3) = 30 ∧
    p.value (fun i => i == 1 || i == 3) = 6 := by
  obtain ⟨p, h1, -, h2, h3⟩ := C141_problem [1, 2, 3, 4] [20, 15, 35, 15] 50 rfl
  exact ⟨p, h1, by rw [h2]; decide, by rw [h3]; decide⟩
/-- Two weights whose sum is no `int`. -/
example : ∃ p, knapsackProgram [1, 1] [2147483647, 2147483647] 50 = .ok p ∧ rowSum64 (fun _ => true) 0 p.row = some 4294967294 := by
  obtain ⟨p, h1, h2⟩ := C141_no_overflow [1, 1] [2147483647, 2147483647] 50 rfl (by decide) (by decide)
  exact ⟨p, h1, by rw [h2]; decide⟩
example : ∃ e, knapsack (fun _ => true) [1, 2, 3] [20] 50 = .ok e ∧ 2 ∈ e.unreleased := by
  obtain ⟨e, h1, -, h2⟩ := (C141_fewer_weights [1, 2, 3] [20] 50 (by decide)).2 (fun _ => true) (fun _ => rfl)
  exact ⟨e, h1, (h2 2).2 (by decide)⟩
example : ∃ w, knapsack (fun _ => true) [1] [20, 30] 50 = .ub w := C141_more_weights _ _ _ _ (by decide)
/-- A problem with and one without an item that fits. -/
example : ∃ e, knapsack (fun _ => true) [7] [20] 50 = .ok e ∧ knapsack (fun _ => true) [7, 8] [60, 70] 50 = .ok e := by
  obtain ⟨e, h1, -, -, h2⟩ := C141_silent (fun _ => true) (fun _ => rfl) [7] [20] [7, 8] [60, 70] 50 50 rfl rfl
  exact ⟨e, h1, h2⟩

end Pctsp
