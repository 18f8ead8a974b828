import Verif.Lemmas.Collapse
import Verif.Lemmas.ExtensionLoop
import Verif.Props.Extension

/-! Helper lemmas: path extension and collapse in alternation. -/

namespace Pctsp

theorem extendUntilFeasibleLoop_spec {F : Type} (O : FloatOps F) (hO : O.SignSound) {g : Graph} (hg : g.WF) {r : Nat} (cost prize : Nat → Int)
    (quota depth : Int) (rem : Nat) (step : Int) (hs : 1 ≤ step) (t : List Nat) (ht : IsTour g r t) :
    ∃ t' b, extendUntilFeasibleLoop O g cost prize quota r depth rem step t = .ok (t', b) ∧ IsTour g r t' ∧
      (b = true → quota ≤ tourPrize prize t') ∧ (b = false → (rem = 0 ∧ t' = t) ∨ tourPrize prize t' < quota) ∧
      (t' = t ∨ 4 ≤ t'.length) := by
  induction rem generalizing step t with
  | zero => exact ⟨t, false, rfl, ht, by simp, fun _ => Or.inl ⟨rfl, rfl⟩, Or.inl rfl⟩
  | succ rem ih =>
    rw [extendUntilFeasibleLoop]
    obtain ⟨t1, h1, h2, -, h3⟩ := C15_until_feasible_tour O hO g hg r t ht cost prize quota step depth hs
    have h4 : t1 = t ∨ 4 ≤ t1.length := by
      by_cases he : t1 = t
      · exact Or.inl he
      · exact Or.inr (h3 he).2
    rw [h1]
    simp only [Res.ok_bind, totalPrizeOfTour_eq prize h2.ne_nil]
    by_cases hq : tourPrize prize t1 ≥ quota
    · rw [if_pos hq]
      exact ⟨t1, true, rfl, h2, fun _ => hq, by simp, h4⟩
    · rw [if_neg hq]
      obtain ⟨t2, b, r1, r2, r3, r4, r5⟩ := ih (step + 1) (by omega) t1 h2
      refine ⟨t2, b, r1, r2, r3, fun hb => ?_, ?_⟩
      rotate_left
      · rcases r5 with rfl | r5
        · exact h4
        · exact Or.inr r5
      right
      rcases r4 hb with ⟨-, rfl⟩ | h
      · omega
      · exact h

/-- Outcome of `collapse` for non-negative prizes. -/
theorem collapse_spec' {g : Graph} (hg : g.WF) {r : Nat} {t : List Nat} (ht : IsTour g r t)
    (cost prize : Nat → Int) (hp : ∀ v, 0 ≤ prize v) (quota : Int) (useShortest : Bool) {pick : Nat → Pick} (hpick : ∀ i, (pick i).Heap) :
    (collapse g t cost prize quota r useShortest pick = .throw .negativeEdge ∧ useShortest = true ∧
      ∃ e < g.edges.length, cost e < 0) ∨
    ∃ t', collapse g t cost prize quota r useShortest pick = .ok t' ∧ IsTour g r t' ∧ walkCost g cost t' ≤ walkCost g cost t ∧
      (quota ≤ tourPrize prize t → quota ≤ tourPrize prize t') ∧ (t' = t ∨ 4 ≤ t'.length) := by
  have hr : r ∈ t := by
    obtain ⟨m, hm⟩ := ht.shape
    rw [hm]; simp
  rcases collapse_spec hg ht hr cost prize quota useShortest hpick with h | ⟨t', h1, h2, h3, -⟩
  · exact Or.inl h
  · refine Or.inr ⟨t', h1, ?_⟩
    rcases h2 with ⟨h4, h5⟩ | ⟨-, h4, h5, -⟩
    · refine ⟨h4, h3, fun hq => ?_, ?_⟩
      rotate_left
      · rcases h5 with rfl | h5
        · left
          obtain ⟨m, hm⟩ := ht.shape
          rw [hm]; exact reorder_head r _
        · exact Or.inr h5.2.2
      rcases h5 with rfl | h5
      · have : reorderTourFromRoot t r = t := by
          obtain ⟨m, hm⟩ := ht.shape
          rw [hm]; exact reorder_head r _
        rw [this]; exact hq
      · exact h5.2.1
    · have := hp r; omega

theorem reorder_tour {g : Graph} {r : Nat} {t : List Nat} (ht : IsTour g r t) : reorderTourFromRoot t r = t := by
  obtain ⟨m, hm⟩ := ht.shape
  rw [hm]; exact reorder_head r _

theorem pingPongLoop_spec {F : Type} (O : FloatOps F) (hO : O.SignSound) {g : Graph} (hg : g.WF) {r : Nat} (cost prize : Nat → Int)
    (hp : ∀ v, 0 ≤ prize v) (quota depth : Int) (useShortest : Bool) {pick : Nat → Nat → Pick} (hpick : ∀ j i, (pick j i).Heap)
    (rem : Nat) (step : Int) (hs : 1 ≤ step) (t : List Nat) (ht : IsTour g r t) (hq : quota ≤ tourPrize prize t) :
    (pingPongLoop O g cost prize quota r useShortest pick depth rem step (t, walkCost g cost t) = .throw .negativeEdge ∧
      useShortest = true ∧ ∃ e < g.edges.length, cost e < 0) ∨
    ∃ t', pingPongLoop O g cost prize quota r useShortest pick depth rem step (t, walkCost g cost t) = .ok t' ∧ IsTour g r t' ∧
      quota ≤ tourPrize prize t' ∧ (t' = t ∨ walkCost g cost t' < walkCost g cost t ∧ 4 ≤ t'.length) := by
  induction rem generalizing step t with
  | zero => exact Or.inr ⟨t, rfl, ht, hq, Or.inl rfl⟩
  | succ rem ih =>
    rw [pingPongLoop]
    obtain ⟨t1, h1, h2, h3, h5⟩ := C12_path_extension_tour O hO g hg r t ht cost prize hp step depth hs
    rw [h1]
    simp only [Res.ok_bind]
    rcases collapse_spec' hg h2 cost prize hp quota useShortest (hpick rem) with ⟨r1, r2⟩ | ⟨t2, r1, r2, r3, r4, r5⟩
    · rw [r1]; exact Or.inl ⟨rfl, r2⟩
    · rw [r1]
      simp only [Res.ok_bind, totalCost_of_isWalk hg cost r2.walk]
      by_cases hlt : walkCost g cost t2 < walkCost g cost t
      · rw [if_pos hlt, reorder_tour r2]
        rcases ih (step + 1) (by omega) t2 r2 (r4 (by omega)) with h | ⟨t', q1, q2, q3, q4⟩
        · exact Or.inl h
        · refine Or.inr ⟨t', q1, q2, q3, Or.inr ?_⟩
          have hlen : 4 ≤ t2.length := by
            rcases r5 with rfl | r5
            · exact (h5 (by rintro rfl; omega)).2
            · exact r5
          rcases q4 with rfl | ⟨q4, q5⟩
          · exact ⟨hlt, hlen⟩
          · exact ⟨by omega, q5⟩
      · rw [if_neg hlt]
        exact ih (step + 1) (by omega) t ht hq

end Pctsp
