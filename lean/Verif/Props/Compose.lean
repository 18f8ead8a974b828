import Verif.Lemmas.Compose

/-!
# Properties C23, C24: path extension and collapse in alternation
-/

namespace Pctsp

variable {F : Type}

/-- **C23.** With non-negative prizes (and non-negative costs if shortest paths are used) `pathExtensionCollapse` returns the empty
list or a simple closed tour from the root with prize at least the quota, which is the input or has at least three vertices. -/
theorem C23_nothing_or_feasible (O : FloatOps F) (hO : O.SignSound) (g : Graph) (hg : g.WF) (r : Nat) (t : List Nat) (ht : IsTour g r t)
    (cost prize : Nat → Int) (hp : ∀ v, 0 ≤ prize v) (quota : Int) (useShortest : Bool)
    (hc : useShortest = true → ∀ e < g.edges.length, 0 ≤ cost e) (pick0 : Nat → Pick) (pick : Nat → Nat → Pick)
    (hpick0 : ∀ i, (pick0 i).Heap) (hpick : ∀ j i, (pick j i).Heap) (depth step : Int) :
    ∃ t', pathExtensionCollapse O g t cost prize quota r useShortest pick0 pick depth step = .ok t' ∧
      (t' = [] ∧ tourPrize prize t < quota ∨ IsTour g r t' ∧ quota ≤ tourPrize prize t' ∧ (t' = t ∨ 4 ≤ t'.length)) := by
  have hneg : ¬ (useShortest = true ∧ ∃ e < g.edges.length, cost e < 0) := by
    rintro ⟨h, e, he, hn⟩
    have := hc h e he; omega
  have main : ∀ s, IsTour g r s → quota ≤ tourPrize prize s → ∃ t', (do
      let best ← collapse g s cost prize quota r useShortest pick0
      let bestCost ← totalCost g cost best
      let best := reorderTourFromRoot best r
      let best ← pingPongLoop O g cost prize quota r useShortest pick depth step.toNat 1 (best, bestCost)
      pure (reorderTourFromRoot best r) : Res (List Nat)) = .ok t' ∧ IsTour g r t' ∧ quota ≤ tourPrize prize t' ∧ (t' = s ∨ 4 ≤ t'.length) := by
    intro s hs hq
    rcases collapse_spec' hg hs cost prize hp quota useShortest hpick0 with ⟨-, h⟩ | ⟨t1, h1, h2, h3, h4, h5⟩
    · exact absurd h hneg
    · rw [h1]
      simp only [Res.ok_bind, totalCost_of_isWalk hg cost h2.walk, reorder_tour h2]
      rcases pingPongLoop_spec O hO hg cost prize hp quota depth useShortest hpick step.toNat 1 (by omega) t1 h2 (h4 hq) with
        ⟨-, h⟩ | ⟨t2, q1, q2, q3, q4⟩
      · exact absurd h hneg
      · rw [q1]
        simp only [Res.ok_bind, reorder_tour q2]
        refine ⟨t2, rfl, q2, q3, ?_⟩
        rcases q4 with rfl | ⟨-, q4⟩
        · exact h5
        · exact Or.inr q4
  rw [pathExtensionCollapse, totalPrizeOfTour_eq prize ht.ne_nil]
  simp only [Res.ok_bind]
  by_cases hq : tourPrize prize t ≥ quota
  · rw [if_pos hq]
    obtain ⟨t', h1, h2⟩ := main t ht hq
    exact ⟨t', h1, Or.inr h2⟩
  · rw [if_neg hq]
    obtain ⟨s, b, r1, r2, r3, r4, r5⟩ := extendUntilFeasibleLoop_spec O hO hg cost prize quota depth step.toNat 1 (by omega) t ht
    rw [r1]
    simp only [Res.ok_bind]
    cases b with
    | false => exact ⟨[], rfl, Or.inl ⟨rfl, by omega⟩⟩
    | true =>
      obtain ⟨t', h1, h2, h3, h4⟩ := main s r2 (r3 rfl)
      refine ⟨t', h1, Or.inr ⟨h2, h3, ?_⟩⟩
      rcases h4 with rfl | h4
      · exact r5
      · exact Or.inr h4

/-- From an infeasible triangle: vertices 3 and 4 are inserted, then the tour is collapsed. -/
example : pathExtensionCollapse FloatOps.exact { n := 5, edges := [(0, 1), (1, 2), (2, 0), (3, 0), (3, 1), (4, 1), (4, 2)] }
    [0, 1, 2, 0] (fun _ => 1) (fun _ => 1) 4 0 true (fun _ => exPick) (fun _ _ => exPick) 2 1 = .ok [0, 3, 1, 2, 0] := by decide +kernel
/-- No step makes the tour feasible. -/
example : pathExtensionCollapse FloatOps.exact { n := 3, edges := [(0, 1), (1, 2), (2, 0)] }
    [0, 1, 2, 0] (fun _ => 1) (fun _ => 1) 4 0 true (fun _ => exPick) (fun _ _ => exPick) 2 3 = .ok [] := by decide +kernel

/-- **C24.** A prize feasible input never gets worse. -/
theorem C24_never_worse (O : FloatOps F) (hO : O.SignSound) (g : Graph) (hg : g.WF) (r : Nat) (t : List Nat) (ht : IsTour g r t)
    (cost prize : Nat → Int) (hp : ∀ v, 0 ≤ prize v) (quota : Int) (hq : quota ≤ tourPrize prize t) (useShortest : Bool)
    (hc : useShortest = true → ∀ e < g.edges.length, 0 ≤ cost e) (pick0 : Nat → Pick) (pick : Nat → Nat → Pick)
    (hpick0 : ∀ i, (pick0 i).Heap) (hpick : ∀ j i, (pick j i).Heap) (depth step : Int) :
    ∃ t', pathExtensionCollapse O g t cost prize quota r useShortest pick0 pick depth step = .ok t' ∧ IsTour g r t' ∧
      quota ≤ tourPrize prize t' ∧ walkCost g cost t' ≤ walkCost g cost t := by
  have hneg : ¬ (useShortest = true ∧ ∃ e < g.edges.length, cost e < 0) := by
    rintro ⟨h, e, he, hn⟩
    have := hc h e he; omega
  rw [pathExtensionCollapse, totalPrizeOfTour_eq prize ht.ne_nil]
  simp only [Res.ok_bind]
  rw [if_pos hq]
  rcases collapse_spec' hg ht cost prize hp quota useShortest hpick0 with ⟨-, h⟩ | ⟨t1, h1, h2, h3, h4, -⟩
  · exact absurd h hneg
  · show ∃ t', (do
      let best ← collapse g t cost prize quota r useShortest pick0
      let bestCost ← totalCost g cost best
      let best := reorderTourFromRoot best r
      let best ← pingPongLoop O g cost prize quota r useShortest pick depth step.toNat 1 (best, bestCost)
      pure (reorderTourFromRoot best r) : Res (List Nat)) = .ok t' ∧ _
    rw [h1]
    simp only [Res.ok_bind, totalCost_of_isWalk hg cost h2.walk, reorder_tour h2]
    rcases pingPongLoop_spec O hO hg cost prize hp quota depth useShortest hpick step.toNat 1 (by omega) t1 h2 (h4 hq) with
      ⟨-, h⟩ | ⟨t2, q1, q2, q3, q4⟩
    · exact absurd h hneg
    · rw [q1]
      simp only [Res.ok_bind, reorder_tour q2]
      refine ⟨t2, rfl, q2, q3, ?_⟩
      rcases q4 with rfl | ⟨q4, -⟩ <;> omega

example := C24_never_worse FloatOps.exact FloatOps.exact_lawful.signSound { n := 7, edges := [(0, 1), (1, 2), (2, 3), (3, 4), (4, 5), (5, 0), (6, 0), (6, 1)] }
  (by decide) 0 [0, 1, 2, 3, 4, 5, 0] ⟨⟨[1, 2, 3, 4, 5], rfl⟩, by decide, by decide⟩ (fun _ => 1) (fun v => if v = 6 then 9 else 2) (fun _ => by split <;> decide)
  6 (by decide) true (fun _ _ _ => by decide) (fun _ => exPick) (fun _ _ => exPick) (fun _ => exPick_heap) (fun _ _ => exPick_heap) 2 2

/-- The tour after extending with steps `1, 2, ..., k` in turn. -/
def ExtendedBy (O : FloatOps F) (g : Graph) (cost prize : Nat → Int) (quota : Int) (r : Nat) (depth : Int) (t : List Nat) : Nat → List Nat → Prop
  | 0, s => s = t
  | k + 1, s => ∃ u, ExtendedBy O g cost prize quota r depth t k u ∧
      pathExtensionUntilPrizeFeasible O g u cost prize r quota (k + 1) depth = .ok s

theorem ExtendedBy.unique {O : FloatOps F} {g : Graph} {cost prize : Nat → Int} {quota : Int} {r : Nat} {depth : Int} {t : List Nat} {k : Nat}
    {s s' : List Nat} (h : ExtendedBy O g cost prize quota r depth t k s) (h' : ExtendedBy O g cost prize quota r depth t k s') : s = s' := by
  induction k generalizing s s' with
  | zero => rw [h, h']
  | succ k ih =>
    obtain ⟨u, h1, h2⟩ := h
    obtain ⟨u', h1', h2'⟩ := h'
    rw [ih h1 h1'] at h2
    rw [h2] at h2'
    cases h2'; rfl

theorem extendUntilFeasibleLoop_iff (O : FloatOps F) (hO : O.SignSound) {g : Graph} (hg : g.WF) {r : Nat} (cost prize : Nat → Int)
    (quota depth : Int) (t0 : List Nat) (rem k : Nat) (t : List Nat) (ht : IsTour g r t) (hk : ExtendedBy O g cost prize quota r depth t0 k t)
    (hlow : tourPrize prize t < quota) :
    ∃ t' b, extendUntilFeasibleLoop O g cost prize quota r depth rem (k + 1) t = .ok (t', b) ∧ IsTour g r t' ∧
      (b = true → quota ≤ tourPrize prize t') ∧
      (b = false ↔ ∀ j s, k < j → j ≤ k + rem → ExtendedBy O g cost prize quota r depth t0 j s → tourPrize prize s < quota) := by
  induction rem generalizing k t with
  | zero => exact ⟨t, false, rfl, ht, by simp, by simp; intros; omega⟩
  | succ rem ih =>
    rw [extendUntilFeasibleLoop]
    obtain ⟨t1, h1, h2, -⟩ := C15_until_feasible_tour O hO g hg r t ht cost prize quota (k + 1) depth (by omega)
    rw [h1]
    simp only [Res.ok_bind, totalPrizeOfTour_eq prize h2.ne_nil]
    have hk1 : ExtendedBy O g cost prize quota r depth t0 (k + 1) t1 := ⟨t, hk, h1⟩
    by_cases hq : tourPrize prize t1 ≥ quota
    · rw [if_pos hq]
      refine ⟨t1, true, rfl, h2, fun _ => hq, ?_⟩
      simp
      exact ⟨k + 1, by omega, by omega, t1, hk1, hq⟩
    · rw [if_neg hq]
      obtain ⟨t2, b, r1, r2, r3, r4⟩ := ih (k + 1) t1 h2 hk1 (by omega)
      refine ⟨t2, b, by exact_mod_cast r1, r2, r3, ?_⟩
      rw [r4]
      constructor
      · intro h j s hj hj' hs
        by_cases e : j = k + 1
        · subst e; rw [hs.unique hk1]; omega
        · exact h j s (by omega) (by omega) hs
      · intro h j s hj hj' hs
        exact h j s (by omega) (by omega) hs

/-- **C24.** The empty list is returned exactly if the input and all the tours obtained by extending with steps `1, ..., step` in turn
miss the quota. -/
theorem C24_empty_iff (O : FloatOps F) (hO : O.SignSound) (g : Graph) (hg : g.WF) (r : Nat) (t : List Nat) (ht : IsTour g r t)
    (cost prize : Nat → Int) (hp : ∀ v, 0 ≤ prize v) (quota : Int) (useShortest : Bool)
    (hc : useShortest = true → ∀ e < g.edges.length, 0 ≤ cost e) (pick0 : Nat → Pick) (pick : Nat → Nat → Pick)
    (hpick0 : ∀ i, (pick0 i).Heap) (hpick : ∀ j i, (pick j i).Heap) (depth step : Int) :
    pathExtensionCollapse O g t cost prize quota r useShortest pick0 pick depth step = .ok [] ↔
      ∀ (j : Nat) (s : List Nat), (j : Int) ≤ max step 0 → ExtendedBy O g cost prize quota r depth t j s → tourPrize prize s < quota := by
  by_cases hq : quota ≤ tourPrize prize t
  · obtain ⟨t', h1, h2, -⟩ := C24_never_worse O hO g hg r t ht cost prize hp quota hq useShortest hc pick0 pick hpick0 hpick depth step
    rw [h1]
    constructor
    · intro h; cases h; exact absurd rfl h2.ne_nil
    · intro h
      have := h 0 t (by simp only [Int.natCast_zero]; omega) rfl
      omega
  · obtain ⟨s, b, r1, r2, r3, r4⟩ := extendUntilFeasibleLoop_iff O hO hg cost prize quota depth t step.toNat 0 t ht rfl (by omega)
    have key : b = false ↔ ∀ (j : Nat) (s : List Nat), (j : Int) ≤ max step 0 → ExtendedBy O g cost prize quota r depth t j s → tourPrize prize s < quota := by
      rw [r4]
      constructor
      · intro h j s hj hs
        cases j with
        | zero => have : s = t := hs; subst this; omega
        | succ j => exact h (j + 1) s (by omega) (by omega) hs
      · intro h j s hj hj' hs
        exact h j s (by omega) hs
    rw [← key]
    obtain ⟨t', h1, h2⟩ := C23_nothing_or_feasible O hO g hg r t ht cost prize hp quota useShortest hc pick0 pick hpick0 hpick depth step
    rw [h1]
    cases b with
    | false =>
      simp only [iff_true]
      rw [← h1, pathExtensionCollapse, totalPrizeOfTour_eq prize ht.ne_nil]
      simp only [Res.ok_bind]
      rw [if_neg hq]
      simp at r1
      rw [r1]; rfl
    | true =>
      simp only [Res.ok.injEq, Bool.true_eq_false, iff_false]
      rintro rfl
      rw [pathExtensionCollapse, totalPrizeOfTour_eq prize ht.ne_nil] at h1
      simp only [Res.ok_bind] at h1
      rw [if_neg hq] at h1
      simp at r1
      rw [r1] at h1
      simp only [Res.ok_bind, Bool.true_eq_false, if_false] at h1
      -- the result of the second phase is a tour
      obtain ⟨t2, q1, q2, -⟩ := C24_never_worse O hO g hg r s r2 cost prize hp quota (r3 rfl) useShortest hc pick0 pick hpick0 hpick depth step
      rw [pathExtensionCollapse, totalPrizeOfTour_eq prize r2.ne_nil] at q1
      simp only [Res.ok_bind] at q1
      rw [if_pos (r3 rfl)] at q1
      have e : Res.ok t2 = Res.ok [] := q1.symm.trans h1
      cases e
      exact q2.ne_nil rfl

/-- A feasible input is collapsed. -/
example : pathExtensionCollapse FloatOps.exact { n := 7, edges := [(0, 1), (1, 2), (2, 3), (3, 4), (4, 5), (5, 0), (6, 0), (6, 1)] }
    [0, 1, 2, 3, 4, 5, 0] (fun _ => 1) (fun v => if v = 6 then 9 else 2) 6 0 false (fun _ => exPick) (fun _ _ => exPick) 2 2
    = .ok [0, 1, 6, 0] := by decide +kernel

end Pctsp
