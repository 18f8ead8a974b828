import Verif.Lemmas.Extension
import Verif.Spec.Replacement

/-! Helper lemmas: the loops of `pathExtension` and `pathExtensionUntilPrizeFeasible`. -/

namespace Pctsp

variable {F : Type}

theorem stepFits_iff {step : Int} {t : List Nat} (ht : t ≠ []) :
    stepFits step t = true ↔ 0 ≤ step ∧ step.toNat < t.length - 1 := by
  have : 1 ≤ t.length := List.length_pos_iff.2 ht
  simp only [stepFits, Bool.and_eq_true, decide_eq_true_eq]
  omega

/-- There is a segment of `step` edges, not through the root, and a path of at most `depth - 1` inner vertices outside the
tour that joins its ends and has more prize than the interior of the segment. -/
def HasExternalPath (g : Graph) (t : List Nat) (prize : Nat → Int) (step : Nat) (depth : Int) : Prop :=
  ∃ A u Y w B X, t = A ++ u :: (Y ++ w :: B) ∧ Y.length + 1 = step ∧ IsWalk g (u :: (X ++ [w])) ∧ X ≠ [] ∧ X.Nodup ∧
    (∀ y ∈ X, y ∉ t) ∧ (X.length : Int) ≤ depth - 1 ∧ prizeSum prize Y < prizeSum prize X

/-- Like `HasExternalPath` with a single new vertex. -/
def HasDetour (g : Graph) (t : List Nat) (prize : Nat → Int) (step : Nat) : Prop :=
  ∃ A u Y w B x, t = A ++ u :: (Y ++ w :: B) ∧ Y.length + 1 = step ∧ x ∉ t ∧ Adj g u x ∧ Adj g x w ∧
    prizeSum prize Y < prize x

theorem pathExtensionLoop_spec (O : FloatOps F) (hO : O.SignSound) {g : Graph} (hg : g.WF) {r : Nat}
    (cost prize : Nat → Int) (hp : ∀ v, 0 ≤ prize v) (step depth : Int) (hs : 1 ≤ step)
    (rem : Nat) (first : Bool) (avg : Option F) (t : List Nat) (ht : IsTour g r t) :
    ∃ t', pathExtensionLoop O g cost prize r step depth rem first avg t = .ok t' ∧ IsTour g r t' ∧
      (t' = t ∨ tourPrize prize t < tourPrize prize t' ∧ HasExternalPath g t prize step.toNat depth ∧ 4 ≤ t'.length) := by
  induction rem generalizing first avg t with
  | zero => exact ⟨t, rfl, ht, Or.inl rfl⟩
  | succ rem ih =>
    rw [pathExtensionLoop, if_neg ht.ne_nil]
    cases hf : stepFits step t with
    | false => exact ⟨t, rfl, ht, Or.inl rfl⟩
    | true =>
      rw [if_neg (by simp)]
      have hst := (stepFits_iff ht.ne_nil).1 hf
      obtain ⟨es, h1, h2, h3⟩ := findExtensionPaths_spec O hO hg ht cost prize step.toNat depth (by omega) hst.2
      rw [h1]
      simp only [Res.ok_bind]
      by_cases hn : numFeasibleExtensions (es.map (·.feasible)) > 0
      · obtain ⟨k, e, hk, hke, hfe⟩ := selected_entry O es hn
        have hk0 : ¬ ((k : Int) < 0) := by omega
        simp only [hn, if_true, hk, hk0, if_false, Int.toNat_natCast, hke]
        have hgood := ((h3 k e hke).1 hfe).2
        obtain ⟨t1, s1, s2, s3, s4⟩ := swap_nonneg ht hp hst.2 hgood
        have hext : HasExternalPath g t prize step.toNat depth := by
          rcases hgood with ⟨-, A, u, Y, w, B, X, q1, q2, q3, q4, q5, q6, q7, q8, q9, q10⟩ |
            ⟨P, v, Q, u, R, -, -, -, -, -, hpr⟩
          · exact ⟨A, u, Y, w, B, X, q1, q3, by rw [← q4]; exact q6, q5, q7, q8, q9, q10⟩
          · have h1 := prizeSum_nonneg hp P
            have h2 := prizeSum_nonneg hp R
            omega
        have hnext : ∀ avgLoss : F, ∃ t', (do
            let tour' ← swapPathsInTour t e.path k (k + step.toNat)
            pathExtensionLoop O g cost prize r step depth rem false (some avgLoss) tour') = .ok t' ∧ IsTour g r t' ∧
            (t' = t ∨ tourPrize prize t < tourPrize prize t' ∧ HasExternalPath g t prize step.toNat depth ∧ 4 ≤ t'.length) := by
          intro avgLoss
          rw [s1]
          simp only [Res.ok_bind]
          obtain ⟨t', r1, r2, r3⟩ := ih false (some avgLoss) t1 s2
          refine ⟨t', r1, r2, Or.inr ?_⟩
          rcases r3 with rfl | ⟨r3, -, r4⟩
          · exact ⟨s3, hext, s4⟩
          · exact ⟨by omega, hext, r4⟩
        cases avg with
        | none =>
          simp only
          split
          · exact hnext _
          · exact ⟨t, rfl, ht, Or.inl rfl⟩
        | some a =>
          simp only
          split
          · exact hnext _
          · exact ⟨t, rfl, ht, Or.inl rfl⟩
      · simp only [hn, if_false]
        exact ⟨t, rfl, ht, Or.inl rfl⟩

/-- The number of replacements is at most the number of remaining rounds. -/
theorem pathExtensionLoop_rounds (O : FloatOps F) (hO : O.SignSound) {g : Graph} (hg : g.WF) {r : Nat}
    (cost prize : Nat → Int) (hp : ∀ v, 0 ≤ prize v) (step depth : Int) (hs : 1 ≤ step)
    (rem : Nat) (first : Bool) (avg : Option F) (t : List Nat) (ht : IsTour g r t) :
    ∃ t' k, pathExtensionLoop O g cost prize r step depth rem first avg t = .ok t' ∧ k ≤ rem ∧
      Replacements g prize step depth k t t' := by
  induction rem generalizing first avg t with
  | zero => exact ⟨t, 0, rfl, Nat.le_refl _, .refl t⟩
  | succ rem ih =>
    rw [pathExtensionLoop, if_neg ht.ne_nil]
    cases hf : stepFits step t with
    | false => exact ⟨t, 0, rfl, Nat.zero_le _, .refl t⟩
    | true =>
      rw [if_neg (by simp)]
      have hst := (stepFits_iff ht.ne_nil).1 hf
      obtain ⟨es, h1, h2, h3⟩ := findExtensionPaths_spec O hO hg ht cost prize step.toNat depth (by omega) hst.2
      rw [h1]
      simp only [Res.ok_bind]
      by_cases hn : numFeasibleExtensions (es.map (·.feasible)) > 0
      · obtain ⟨k, e, hk, hke, hfe⟩ := selected_entry O es hn
        have hk0 : ¬ ((k : Int) < 0) := by omega
        simp only [hn, if_true, hk, hk0, if_false, Int.toNat_natCast, hke]
        have hgood := ((h3 k e hke).1 hfe).2
        have hnext : ∀ avgLoss : F, ∃ t' j, (do
            let tour' ← swapPathsInTour t e.path k (k + step.toNat)
            pathExtensionLoop O g cost prize r step depth rem false (some avgLoss) tour') = .ok t' ∧ j ≤ rem + 1 ∧
            Replacements g prize step depth j t t' := by
          intro avgLoss
          obtain ⟨t1, s1, s2, s3, s4⟩ := swap_nonneg ht hp hst.2 hgood
          rcases hgood with ⟨-, A, u, Y, w, B, X, rfl, q2, q3, q4, q5, q6, q7, q8, q9, q10⟩ |
            ⟨P, v, Q, u, R, -, -, -, -, -, hpr⟩
          · rw [q4] at s1 q6 ⊢
            have s1' := s1
            rw [swap_inner q2 q3] at s1'
            have e1 : t1 = A ++ u :: (X ++ w :: B) := by
              simp only [Res.ok.injEq] at s1'
              rw [← s1']; simp
            rw [s1]
            simp only [Res.ok_bind]
            obtain ⟨t', j, r1, r2, r3⟩ := ih false (some avgLoss) t1 s2
            subst e1
            exact ⟨t', j + 1, r1, by omega, .replace (by omega) q5 q9 q6 q7 q8 q10 r3⟩
          · have h1 := prizeSum_nonneg hp P
            have h2 := prizeSum_nonneg hp R
            omega
        cases avg with
        | none =>
          simp only
          split
          · exact hnext _
          · exact ⟨t, 0, rfl, Nat.zero_le _, .refl t⟩
        | some a =>
          simp only
          split
          · exact hnext _
          · exact ⟨t, 0, rfl, Nat.zero_le _, .refl t⟩
      · simp only [hn, if_false]
        exact ⟨t, 0, rfl, Nat.zero_le _, .refl t⟩

/-- With a depth limit below 2 nothing is found, whatever the prizes. -/
theorem pathExtensionLoop_shallow (O : FloatOps F) (hO : O.SignSound) {g : Graph} (hg : g.WF) {r : Nat}
    (cost prize : Nat → Int) (step depth : Int) (hs : 1 ≤ step) (hd : depth < 2)
    (rem : Nat) (first : Bool) (avg : Option F) (t : List Nat) (ht : IsTour g r t) :
    pathExtensionLoop O g cost prize r step depth rem first avg t = .ok t := by
  cases rem with
  | zero => rfl
  | succ rem =>
    rw [pathExtensionLoop, if_neg ht.ne_nil]
    cases hf : stepFits step t with
    | false => rfl
    | true =>
      rw [if_neg (by simp)]
      have hst := (stepFits_iff ht.ne_nil).1 hf
      obtain ⟨es, h1, h2, h3⟩ := findExtensionPaths_spec O hO hg ht cost prize step.toNat depth (by omega) hst.2
      rw [h1]
      simp only [Res.ok_bind]
      by_cases hn : numFeasibleExtensions (es.map (·.feasible)) > 0
      · obtain ⟨k, e, hk, hke, hfe⟩ := selected_entry O es hn
        have := ((h3 k e hke).1 hfe).1
        omega
      · simp only [hn, if_false]

theorem pathExtensionUntilLoop_spec (O : FloatOps F) (hO : O.SignSound) {g : Graph} (hg : g.WF) {r : Nat}
    (cost prize : Nat → Int) (step depth : Int) (hs : 1 ≤ step) (rem : Nat) (t : List Nat) (ht : IsTour g r t) :
    ∃ t', pathExtensionUntilLoop O g cost prize r step depth rem t = .ok t' ∧ IsTour g r t' ∧
      (t' = t ∨ tourPrize prize t < tourPrize prize t' ∧ 4 ≤ t'.length) ∧
      ((t'.length : Int) ≤ step + 1 ∨ tourPrize prize t + rem ≤ tourPrize prize t' ∨
        (2 ≤ depth → (∀ d : Int, 0 < d → O.lt O.zero (O.ofInt d) = true) → ¬ HasDetour g t' prize step.toNat)) := by
  induction rem generalizing t with
  | zero => exact ⟨t, rfl, ht, Or.inl rfl, Or.inr (Or.inl (by simp))⟩
  | succ rem ih =>
    rw [pathExtensionUntilLoop]
    have hlen : 1 ≤ t.length := List.length_pos_iff.2 ht.ne_nil
    cases hf : stepFits step t with
    | false =>
      refine ⟨t, rfl, ht, Or.inl rfl, Or.inl ?_⟩
      have : ¬ (0 ≤ step ∧ step.toNat < t.length - 1) := by
        rw [← stepFits_iff ht.ne_nil, hf]; simp
      omega
    | true =>
      rw [if_neg (by simp)]
      have hst := (stepFits_iff ht.ne_nil).1 hf
      obtain ⟨es, h1, h2, h3⟩ := findExtensionPaths_spec O hO hg ht cost prize step.toNat depth (by omega) hst.2
      rw [h1]
      simp only [Res.ok_bind]
      by_cases hn : numFeasibleExtensions (es.map (·.feasible)) > 0
      · obtain ⟨k, e, hk, hke, hfe⟩ := selected_entry O es hn
        have hk0 : ¬ ((k : Int) < 0) := by omega
        simp only [hn, if_true, hk, hk0, if_false, Int.toNat_natCast, hke]
        have hki : k < t.length - 1 := by
          have := (List.getElem?_eq_some_iff.1 hke).1; omega
        obtain ⟨t1, s1, s2, s3, s4⟩ := swap_mod ht hki hst.2 ((h3 k e hke).1 hfe).2
        rw [s1]
        simp only [Res.ok_bind]
        obtain ⟨t', r1, r2, r3, r4⟩ := ih t1 s2
        refine ⟨t', r1, r2, Or.inr ?_, ?_⟩
        · rcases r3 with rfl | ⟨r3, r5⟩
          · exact ⟨s3, s4⟩
          · exact ⟨by omega, r5⟩
        · rcases r4 with r4 | r4 | r4
          · exact Or.inl r4
          · right; left; push_cast; omega
          · exact Or.inr (Or.inr r4)
      · simp only [hn, if_false]
        refine ⟨t, rfl, ht, Or.inl rfl, Or.inr (Or.inr ?_)⟩
        rintro hd hO2 ⟨A, u, Y, w, B, x, q1, q2, q3, q4, q5, q6⟩
        have hA : A.length < es.length := by
          have := congrArg List.length q1
          simp only [List.length_append, List.length_cons] at this
          omega
        have hmem := List.getElem_mem hA
        have := (h3 A.length _ (List.getElem?_eq_getElem hA)).2.1 (numFeasible_zero hn _ hmem) hd hO2 A u Y w B q1 rfl q2 x q3 q4 q5
        omega

end Pctsp
