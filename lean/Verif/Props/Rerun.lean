import Verif.Lemmas.Rerun
import Verif.Props.UnitaryLoss
import Verif.Props.Collapse
import Verif.Lemmas.Solve

/-!
# C143: a heuristic on its own result
-/

namespace Pctsp

variable {F : Type}

/-- C143.  Inserting vertices by gain until the quota is met is finished after one run. -/
theorem C143_until_gain (O : FloatOps F) (hO : O.Strict) (g : Graph) (hg : g.WF) (r : Nat) (t : List Nat) (ht : IsTour g r t)
    (cost prize : Nat → Int) (quota : Int) :
    ∃ t', extensionUntilPrizeFeasible O g t cost prize quota = .ok t' ∧ extensionUntilPrizeFeasible O g t' cost prize quota = .ok t' := by
  have h2 : ∀ {t}, IsTour g r t → 2 ≤ t.length := by
    intro t ht; obtain ⟨m, rfl⟩ := ht.shape; simp
  obtain ⟨t', q1, q2, q3, -⟩ := C19_until_feasible_exit O hO g cost prize quota t ht.ne_nil (ht.walk.lt hg (h2 ht)) ht.walk
  refine ⟨t', q1, ?_⟩
  have ht' := gainSteps_tour q2 ht
  have hlt := ht'.walk.lt hg (h2 ht')
  rcases q3 with q3 | q3
  · obtain ⟨t'', p1, -, -, p4⟩ := C19_until_feasible_exit O hO g cost prize quota t' ht'.ne_nil hlt ht'.walk
    rw [p1, p4 q3]
  · obtain ⟨t'', p1, -, p3⟩ := C17_until_feasible_only_inserts O hO g cost prize quota t' ht'.ne_nil hlt ht'.walk
    rw [p1, gainSteps_stuck p3 fun v a b hP => by
      have := q3 v a b hP.1.insertable
      rw [hP.1.positive] at this; simp at this]

/-- C143.  Extending until the quota is met is finished after one run with step 1, and with every step if the run won less prize than
the graph has vertices (so that it did not end because of the limit on its rounds). -/
theorem C143_until_loss (O : FloatOps F) (hO : O.SignSound) (g : Graph) (hg : g.WF) (r : Nat) (t : List Nat) (ht : IsTour g r t)
    (cost prize : Nat → Int) (quota step depth : Int) (hs : 1 ≤ step) (t' : List Nat)
    (h : pathExtensionUntilPrizeFeasible O g t cost prize r quota step depth = .ok t')
    (hstep : step = 1 ∨ tourPrize prize t' < tourPrize prize t + g.n) :
    pathExtensionUntilPrizeFeasible O g t' cost prize r quota step depth = .ok t' := by
  obtain ⟨t1, q1, q2, -⟩ := C15_until_feasible_tour O hO g hg r t ht cost prize quota step depth hs
  rw [h] at q1; injection q1 with q1; subst q1
  by_cases hq : quota ≤ tourPrize prize t'
  · exact C16_feasible_untouched O g t' q2.ne_nil cost prize r quota step depth hq
  · have hstay : (t'.length : Int) ≤ step + 1 ∨
        ∃ es : List (ExtEntry F), findExtensionPaths O g t' cost prize r step.toNat depth = .ok es ∧ ∀ e ∈ es, e.feasible = false := by
      rcases hstep with rfl | hstep
      · rw [pathExtensionUntilPrizeFeasible, totalPrizeOfTour_eq prize ht.ne_nil] at h
        simp only [Res.ok_bind] at h
        have h2 : 2 ≤ t.length := by obtain ⟨m, rfl⟩ := ht.shape; simp
        split at h
        · obtain ⟨t2, p1, -, p3⟩ := untilLoop_one_exit O hO hg cost prize depth g.n t ht (by omega)
          rw [h] at p1; injection p1 with p1; subst p1
          exact p3.imp (by omega) id
        · injection h with h; subst h; omega
      · rcases C16_exit O hO g hg r t ht cost prize quota step depth hs t' h (by omega) with p | p | p
        · exact .inl p
        · omega
        · exact .inr p
    rw [pathExtensionUntilPrizeFeasible, totalPrizeOfTour_eq prize q2.ne_nil]
    simp only [Res.ok_bind]
    rw [if_pos (by omega)]
    exact untilLoop_stays O cost prize step depth hs g.n q2.ne_nil hstay

/-- C143.  A tour is left alone by the extension by gain exactly if no insertion has positive gain or the greatest gain is not above the
average. -/
theorem C143_gain_fixed (O : FloatOps F) (hO : O.Strict) (g : Graph) (hg : g.WF) (r : Nat) (t : List Nat) (ht : IsTour g r t)
    (cost prize : Nat → Int) :
    extensionUnitaryGain O g t cost prize = .ok t ↔
      (∀ v a b, Insertable g t v a b → O.lt O.zero (gainBetween O g cost prize v a b) = false) ∨
      ∃ v a b, BestInsertion O g cost prize t v a b ∧
        O.lt (averageGain O g cost prize t) (gainBetween O g cost prize v a b) = false := by
  have h2 : 2 ≤ t.length := by obtain ⟨m, rfl⟩ := ht.shape; simp
  obtain ⟨t', q1, q2, q3⟩ := C48_gain_best_insertions O hO g cost prize t ht.ne_nil (ht.walk.lt hg h2) ht.walk
  constructor
  · intro h
    rw [h] at q1; injection q1 with q1; subst q1
    exact q3
  · intro h
    rw [q1]
    congr 1
    refine gainSteps_stuck q2 fun v a b ⟨hb, hlt⟩ => ?_
    rcases h with h | ⟨v', a', b', hb', hlt'⟩
    · have := h v a b hb.insertable
      rw [hb.positive] at this; simp at this
    · rcases hO.cotrans _ _ _ hlt hb'.positive with h | h
      · rw [hlt'] at h; simp at h
      · rw [hb'.best v a b hb.insertable] at h; simp at h

/-- C143.  Of any number of repeated runs of an extension by gain or by loss, every run that changes the tour adds a vertex, so at most as many
runs change the tour as there are vertices outside the first tour. -/
theorem C143_vertices (O : FloatOps F) (hO : O.Lawful) (g : Graph) (hg : g.WF) (r : Nat) (cost prize : Nat → Int) (T : Nat → List Nat)
    (m : Nat) (h0 : IsTour g r (T 0)) (hlen : 3 ≤ (T 0).length)
    (hrun : ∀ k < m, extensionUnitaryGain O g (T k) cost prize = .ok (T (k + 1)) ∨
      extensionUnitaryLoss O g (T k) cost prize r = .ok (T (k + 1)) ∨
      ∃ quota, extensionUntilPrizeFeasible O g (T k) cost prize quota = .ok (T (k + 1))) :
    (T 0).length + changes T m ≤ (T m).length ∧ (T m).length ≤ g.n + 1 := by
  have hstep : ∀ t t', IsTour g r t → 3 ≤ t.length → (extensionUnitaryGain O g t cost prize = .ok t' ∨
      extensionUnitaryLoss O g t cost prize r = .ok t' ∨ ∃ quota, extensionUntilPrizeFeasible O g t cost prize quota = .ok t') →
      IsTour g r t' ∧ (t' = t ∨ t.length < t'.length) := by
    intro t t' ht hl h
    have hlt := ht.walk.lt hg (by omega : 2 ≤ t.length)
    rcases h with h | h | ⟨quota, h⟩
    · obtain ⟨s, q1, -, q3⟩ := C17_gain_only_inserts O hO.strict g cost prize t ht.ne_nil hlt ht.walk
      rw [h] at q1; injection q1 with q1; subst q1
      exact ⟨gainSteps_tour q3 ht, gainSteps_longer q3⟩
    · obtain ⟨s, os, q1, -, q3, -⟩ := C90_least_loss O hO g hg r t ht hl cost prize
      rw [h] at q1; injection q1 with q1; subst q1
      exact ⟨gainSteps_tour q3 ht, gainSteps_longer q3⟩
    · obtain ⟨s, q1, -, q3⟩ := C17_until_feasible_only_inserts O hO.strict g cost prize quota t ht.ne_nil hlt ht.walk
      rw [h] at q1; injection q1 with q1; subst q1
      exact ⟨gainSteps_tour q3 ht, gainSteps_longer q3⟩
  have hall : ∀ k ≤ m, IsTour g r (T k) ∧ 3 ≤ (T k).length := by
    intro k
    induction k with
    | zero => exact fun _ => ⟨h0, hlen⟩
    | succ k ih =>
      intro hk
      obtain ⟨i1, i2⟩ := ih (by omega)
      obtain ⟨j1, j2⟩ := hstep _ _ i1 i2 (hrun k (by omega))
      refine ⟨j1, ?_⟩
      rcases j2 with j2 | j2
      · rw [j2]; exact i2
      · omega
  have := changes_le (T := T) (f := fun t => (t.length : Int)) m fun k hk => by
    obtain ⟨i1, i2⟩ := hall k (by omega)
    have := (hstep _ _ i1 i2 (hrun k hk)).2
    exact this.imp id (by omega)
  exact ⟨by omega, (hall m (by omega)).1.length_le hg⟩

/-- C143.  Of any number of repeated runs of path extension, with steps and depths as they may be, every run that changes the tour wins
prize. -/
theorem C143_prize (O : FloatOps F) (hO : O.SignSound) (g : Graph) (hg : g.WF) (r : Nat) (cost prize : Nat → Int) (hp : ∀ v, 0 ≤ prize v)
    (T : Nat → List Nat) (m : Nat) (h0 : IsTour g r (T 0)) (step depth : Nat → Int) (hs : ∀ k, 1 ≤ step k)
    (hrun : ∀ k < m, pathExtension O g (T k) cost prize r (step k) (depth k) = .ok (T (k + 1)) ∨
      ∃ quota, pathExtensionUntilPrizeFeasible O g (T k) cost prize r quota (step k) (depth k) = .ok (T (k + 1))) :
    IsTour g r (T m) ∧ tourPrize prize (T 0) + changes T m ≤ tourPrize prize (T m) := by
  have hstep : ∀ k < m, IsTour g r (T k) → IsTour g r (T (k + 1)) ∧ (T (k + 1) = T k ∨ tourPrize prize (T k) < tourPrize prize (T (k + 1))) := by
    intro k hk ht
    rcases hrun k hk with h | ⟨quota, h⟩
    · obtain ⟨s, q1, q2, -, q4⟩ := C12_path_extension_tour O hO g hg r (T k) ht cost prize hp (step k) (depth k) (hs k)
      rw [h] at q1; injection q1 with q1; subst q1
      exact ⟨q2, Classical.or_iff_not_imp_left.2 fun hne => (q4 hne).1⟩
    · obtain ⟨s, q1, q2, -, q4⟩ := C15_until_feasible_tour O hO g hg r (T k) ht cost prize quota (step k) (depth k) (hs k)
      rw [h] at q1; injection q1 with q1; subst q1
      exact ⟨q2, Classical.or_iff_not_imp_left.2 fun hne => (q4 hne).1⟩
  have hall : ∀ k ≤ m, IsTour g r (T k) := by
    intro k
    induction k with
    | zero => exact fun _ => h0
    | succ k ih => exact fun hk => (hstep k (by omega) (ih (by omega))).1
  exact ⟨hall m (by omega), changes_le (T := T) (f := tourPrize prize) m fun k hk => (hstep k hk (hall k (by omega))).2⟩

/-- C143.  Of any number of repeated runs of `collapse` or of `pathExtensionCollapse` that start with a feasible tour, every run that changes
the tour makes it cheaper, and the tour stays feasible; so with non-negative costs at most as many runs change the tour as it costs. -/
theorem C143_cost (O : FloatOps F) (hO : O.SignSound) (g : Graph) (hg : g.WF) (r : Nat) (cost prize : Nat → Int) (hp : ∀ v, 0 ≤ prize v)
    (hc : ∀ e < g.edges.length, 0 ≤ cost e) (quota : Int) (T : Nat → List Nat) (m : Nat) (h0 : IsTour g r (T 0)) (hq : quota ≤ tourPrize prize (T 0))
    (hrun : ∀ k < m, ∃ (useShortest : Bool) (pick0 : Nat → Pick) (pick : Nat → Nat → Pick), (∀ i, (pick0 i).Heap) ∧ (∀ j i, (pick j i).Heap) ∧
      (collapse g (T k) cost prize quota r useShortest pick0 = .ok (T (k + 1)) ∨ ∃ depth step,
        pathExtensionCollapse O g (T k) cost prize quota r useShortest pick0 pick depth step = .ok (T (k + 1)))) :
    IsTour g r (T m) ∧ quota ≤ tourPrize prize (T m) ∧ walkCost g cost (T m) + changes T m ≤ walkCost g cost (T 0) ∧
      (changes T m : Int) ≤ walkCost g cost (T 0) := by
  have hcollapse : ∀ t t' us pick, IsTour g r t → quota ≤ tourPrize prize t → (∀ i, (pick i : Pick).Heap) →
      collapse g t cost prize quota r us pick = .ok t' → IsTour g r t' ∧ quota ≤ tourPrize prize t' ∧
        (t' = t ∨ walkCost g cost t' < walkCost g cost t) := by
    intro t t' us pick ht hqt hpick h
    have hr : r ∈ t := by obtain ⟨l, hl⟩ := ht.shape; rw [hl]; simp
    obtain ⟨s, q1, q2, -⟩ := C21_collapse_tour g hg r t ht r hr cost prize hp quota us (fun _ => hc) pick hpick
    rw [h] at q1; injection q1 with q1; subst q1
    refine ⟨q2, C22_collapse_stays_feasible g hg r t ht r hr cost prize quota us pick hpick t' h hqt, ?_⟩
    rcases C22_collapse_feasible g hg r t ht r hr cost prize quota us pick hpick t' h with e | ⟨e, -⟩
    · rw [reorder_tour ht] at e; exact .inl e
    · exact .inr e
  have hstep : ∀ k < m, IsTour g r (T k) → quota ≤ tourPrize prize (T k) → IsTour g r (T (k + 1)) ∧ quota ≤ tourPrize prize (T (k + 1)) ∧
      (T (k + 1) = T k ∨ walkCost g cost (T (k + 1)) < walkCost g cost (T k)) := by
    intro k hk ht hqt
    obtain ⟨us, pick0, pick, hpick0, hpick, h | ⟨depth, step, h⟩⟩ := hrun k hk
    · exact hcollapse _ _ us pick0 ht hqt hpick0 h
    · have hneg : ¬ (us = true ∧ ∃ e < g.edges.length, cost e < 0) := by
        rintro ⟨-, e, he, hn⟩
        have := hc e he; omega
      rw [pathExtensionCollapse, totalPrizeOfTour_eq prize ht.ne_nil] at h
      simp only [Res.ok_bind] at h
      rw [if_pos hqt] at h
      rcases collapse_spec' hg ht cost prize hp quota us hpick0 with ⟨-, hx⟩ | ⟨t1, h1, -⟩
      · exact absurd hx hneg
      · obtain ⟨e1, e2, e3⟩ := hcollapse _ _ us pick0 ht hqt hpick0 h1
        change (do
          let best ← collapse g (T k) cost prize quota r us pick0
          let bestCost ← totalCost g cost best
          let best := reorderTourFromRoot best r
          let best ← pingPongLoop O g cost prize quota r us pick depth step.toNat 1 (best, bestCost)
          pure (reorderTourFromRoot best r) : Res (List Nat)) = .ok (T (k + 1)) at h
        rw [h1] at h
        simp only [Res.ok_bind, totalCost_of_isWalk hg cost e1.walk, reorder_tour e1] at h
        rcases pingPongLoop_spec O hO hg cost prize hp quota depth us hpick step.toNat 1 (by omega) t1 e1 e2 with ⟨-, hx⟩ | ⟨t2, q1, q2, q3, q4⟩
        · exact absurd hx hneg
        · rw [q1] at h
          simp only [Res.ok_bind, reorder_tour q2] at h
          injection h with h
          rw [← h]
          refine ⟨q2, q3, ?_⟩
          rcases q4 with rfl | ⟨q4, -⟩
          · exact e3
          · right
            rcases e3 with rfl | e3 <;> omega
  have hall : ∀ k ≤ m, IsTour g r (T k) ∧ quota ≤ tourPrize prize (T k) := by
    intro k
    induction k with
    | zero => exact fun _ => ⟨h0, hq⟩
    | succ k ih =>
      intro hk
      obtain ⟨i1, i2⟩ := ih (by omega)
      obtain ⟨j1, j2, -⟩ := hstep k (by omega) i1 i2
      exact ⟨j1, j2⟩
  have hch := changes_le (T := T) (f := fun t => -walkCost g cost t) m fun k hk => by
    obtain ⟨i1, i2⟩ := hall k (by omega)
    exact (hstep k hk i1 i2).2.2.imp id (by omega)
  obtain ⟨i1, i2⟩ := hall m (by omega)
  have hpos : 0 ≤ walkCost g cost (T m) := walkCost_nonneg hc _ 
  exact ⟨i1, i2, by omega, by omega⟩

/-- The complete graph, edges in lexicographic order. -/
def completeGraph (n : Nat) : Graph :=
  { n := n, edges := (List.range n).flatMap fun i => ((List.range n).filter (i < ·)).map fun j => (i, j) }

/-- The numbers of a list, zero after its end. -/
def ofList (l : List Int) : Nat → Int := fun i => l.getD i 0

theorem ofList_nonneg {l : List Int} (h : ∀ x ∈ l, 0 ≤ x) (i : Nat) : 0 ≤ ofList l i := by
  unfold ofList
  rw [List.getD_eq_getElem?_getD]
  cases hi : l[i]? with
  | none => simp
  | some x => exact h x (List.mem_of_getElem? hi)

/-- C143.  One run is not always enough.  The average gain and the average loss are computed anew in each run, so a second run of an
extension can insert a vertex that the first one refused; `collapse` looks at the tour it was given only, so a second run can find a cheaper
tour, and so can a second run of path extension and collapse. -/
theorem C143_second_run :
    (∃ (g : Graph) (cost prize : Nat → Int) (t t1 t2 : List Nat), g.WF ∧ (∀ e, 0 ≤ cost e) ∧ (∀ v, 0 ≤ prize v) ∧ IsTour g 0 t ∧
      extensionUnitaryGain FloatOps.exact g t cost prize = .ok t1 ∧ extensionUnitaryGain FloatOps.exact g t1 cost prize = .ok t2 ∧
      t1.length < t2.length) ∧
    (∃ (g : Graph) (cost prize : Nat → Int) (t t1 t2 : List Nat), g.WF ∧ (∀ e, 0 ≤ cost e) ∧ (∀ v, 0 ≤ prize v) ∧ IsTour g 0 t ∧
      extensionUnitaryLoss FloatOps.exact g t cost prize 0 = .ok t1 ∧ extensionUnitaryLoss FloatOps.exact g t1 cost prize 0 = .ok t2 ∧
      t1.length < t2.length) ∧
    (∃ (g : Graph) (cost prize : Nat → Int) (quota : Int) (t t1 t2 : List Nat), g.WF ∧ (∀ e, 0 ≤ cost e) ∧ (∀ v, 0 ≤ prize v) ∧ IsTour g 0 t ∧
      quota ≤ tourPrize prize t ∧ (∀ us, collapse g t cost prize quota 0 us (fun _ => exPick) = .ok t1) ∧
      (∀ us, collapse g t1 cost prize quota 0 us (fun _ => exPick) = .ok t2) ∧ walkCost g cost t2 < walkCost g cost t1) ∧
    (∃ (g : Graph) (cost prize : Nat → Int) (quota : Int) (t t1 t2 : List Nat), g.WF ∧ (∀ e, 0 ≤ cost e) ∧ (∀ v, 0 ≤ prize v) ∧ IsTour g 0 t ∧
      pathExtensionCollapse FloatOps.exact g t cost prize quota 0 false (fun _ => exPick) (fun _ _ => exPick) 2 1 = .ok t1 ∧
      pathExtensionCollapse FloatOps.exact g t1 cost prize quota 0 false (fun _ => exPick) (fun _ _ => exPick) 2 1 = .ok t2 ∧
      walkCost g cost t2 < walkCost g cost t1) ∧
    (∃ (g : Graph) (cost prize : Nat → Int) (quota : Int) (t t1 t2 : List Nat), g.WF ∧ (∀ e, 0 ≤ cost e) ∧ (∀ v, 0 ≤ prize v) ∧ IsTour g 0 t ∧
      pathExtensionCollapse FloatOps.exact g t cost prize quota 0 true (fun _ => exPick) (fun _ _ => exPick) 2 4 = .ok t1 ∧
      pathExtensionCollapse FloatOps.exact g t1 cost prize quota 0 true (fun _ => exPick) (fun _ _ => exPick) 2 4 = .ok t2 ∧
      walkCost g cost t2 < walkCost g cost t1) := by
  refine ⟨⟨completeGraph 6, ofList [2, 3, 1, 1, 3, 2, 3, 1, 2, 2, 3, 2, 3, 1, 3], ofList [1, 2, 0, 2, 2, 1], [0, 1, 2, 0], [0, 1, 2, 4, 0],
      [0, 3, 1, 2, 4, 0], by decide +kernel, ofList_nonneg (by decide), ofList_nonneg (by decide), ⟨⟨[1, 2], rfl⟩, by decide, by decide⟩, by decide +kernel,
      by decide +kernel, by decide⟩,
    ⟨completeGraph 5, ofList [2, 2, 2, 2, 2, 1, 1, 2, 3, 2], ofList [2, 2, 2, 2, 1], [0, 1, 2, 0], [0, 3, 1, 2, 0], [0, 4, 3, 1, 2, 0],
      by decide +kernel, ofList_nonneg (by decide), ofList_nonneg (by decide), ⟨⟨[1, 2], rfl⟩, by decide, by decide⟩, by decide +kernel,
      by decide +kernel, by decide⟩,
    ⟨completeGraph 5, ofList [2, 1, 3, 4, 3, 4, 3, 3, 4, 4], ofList [0, 2, 1, 2, 0], 4, [0, 1, 2, 3, 4, 0], [0, 1, 2, 3, 0], [0, 1, 3, 0],
      by decide +kernel, ofList_nonneg (by decide), ofList_nonneg (by decide), ⟨⟨[1, 2, 3, 4], rfl⟩, by decide, by decide⟩, by decide,
      by decide +kernel, by decide +kernel, by decide +kernel⟩,
    ⟨completeGraph 5, ofList [3, 3, 3, 4, 1, 4, 4, 4, 1, 2], ofList [2, 1, 1, 2, 2], 5, [0, 1, 2, 0], [0, 1, 2, 4, 0], [0, 2, 4, 0],
      by decide +kernel, ofList_nonneg (by decide), ofList_nonneg (by decide), ⟨⟨[1, 2], rfl⟩, by decide, by decide⟩, by decide +kernel,
      by decide +kernel, by decide +kernel⟩,
    ⟨completeGraph 5, ofList [4, 4, 1, 1, 1, 3, 2, 4, 4, 4], ofList [0, 1, 1, 2, 1], 1, [0, 1, 2, 0], [0, 1, 3, 0], [0, 4, 1, 3, 0],
      by decide +kernel, ofList_nonneg (by decide), ofList_nonneg (by decide), ⟨⟨[1, 2], rfl⟩, by decide, by decide⟩, by decide +kernel,
      by decide +kernel, by decide +kernel⟩⟩

/-! The theorems applied to these graphs. -/

theorem completeGraph5_wf : (completeGraph 5).WF := by decide +kernel

theorem completeGraph5_tour : IsTour (completeGraph 5) 0 [0, 1, 2, 0] := ⟨⟨[1, 2], rfl⟩, by decide, by decide⟩

example := C143_until_gain FloatOps.exact FloatOps.exact_lawful.strict (completeGraph 5) completeGraph5_wf 0 _ completeGraph5_tour
  (ofList [2, 2, 2, 2, 2, 1, 1, 2, 3, 2]) (ofList [2, 2, 2, 2, 1]) 8
-- vertices 3 and 4 are inserted, and a second run of the same call has nothing to do
example : pathExtensionUntilPrizeFeasible FloatOps.exact (completeGraph 5) [0, 4, 3, 1, 2, 0] (ofList [2, 2, 2, 2, 2, 1, 1, 2, 3, 2])
    (ofList [2, 2, 2, 2, 1]) 0 100 1 2 = .ok [0, 4, 3, 1, 2, 0] :=
  C143_until_loss FloatOps.exact FloatOps.exact_lawful.signSound (completeGraph 5) completeGraph5_wf 0 _ completeGraph5_tour _ _ _ _ _ (by decide) _
    (by decide +kernel) (.inl rfl)
-- with equal costs and prizes no gain is above the average
example : extensionUnitaryGain FloatOps.exact (completeGraph 5) [0, 1, 2, 0] (ofList [1, 1, 1, 1, 1, 1, 1, 1, 1, 1]) (ofList [1, 1, 1, 1, 1]) = .ok [0, 1, 2, 0] := by
  decide +kernel
example := C143_gain_fixed FloatOps.exact FloatOps.exact_lawful.strict (completeGraph 5) completeGraph5_wf 0 _ completeGraph5_tour (fun _ => 1) (fun _ => 1)
example := C143_vertices FloatOps.exact FloatOps.exact_lawful (completeGraph 5) completeGraph5_wf 0 (ofList [2, 2, 2, 2, 2, 1, 1, 2, 3, 2])
  (ofList [2, 2, 2, 2, 1]) (fun k => [[0, 1, 2, 0], [0, 3, 1, 2, 0], [0, 4, 3, 1, 2, 0]].getD k []) 2 completeGraph5_tour (by decide) fun k hk => by
    rcases k with _ | _ | k
    · exact .inr (.inl (by decide +kernel))
    · exact .inr (.inl (by decide +kernel))
    · omega
example := C143_prize FloatOps.exact FloatOps.exact_lawful.signSound (completeGraph 5) completeGraph5_wf 0 (ofList [2, 2, 2, 2, 2, 1, 1, 2, 3, 2])
  (ofList [2, 2, 2, 2, 1]) (ofList_nonneg (by decide)) (fun k => [[0, 1, 2, 0], [0, 3, 1, 2, 0], [0, 4, 3, 1, 2, 0]].getD k []) 2 completeGraph5_tour
  (fun _ => 1) (fun _ => 2) (fun _ => by decide) fun k hk => by
    rcases k with _ | _ | k
    · exact .inl (by decide +kernel)
    · exact .inl (by decide +kernel)
    · omega
example := C143_cost FloatOps.exact FloatOps.exact_lawful.signSound (completeGraph 5) completeGraph5_wf 0 (ofList [2, 1, 3, 4, 3, 4, 3, 3, 4, 4])
  (ofList [0, 2, 1, 2, 0]) (ofList_nonneg (by decide)) (fun e _ => ofList_nonneg (by decide) e) 4
  (fun k => [[0, 1, 2, 3, 4, 0], [0, 1, 2, 3, 0], [0, 1, 3, 0]].getD k []) 2 ⟨⟨[1, 2, 3, 4], rfl⟩, by decide, by decide⟩ (by decide) fun k hk => by
    refine ⟨false, fun _ => exPick, fun _ _ => exPick, fun _ => exPick_heap, fun _ _ => exPick_heap, .inl ?_⟩
    rcases k with _ | _ | k
    · decide +kernel
    · decide +kernel
    · omega

end Pctsp
