import Verif.Props.ExtensionExit
import Verif.Props.Gain
import Verif.Props.Compose
import Verif.Lemmas.MachineLoops
import Verif.Spec.Rerun

/-! Helper lemmas: running the heuristics on their own results. -/

namespace Pctsp

variable {F : Type}

theorem tourPrize_one {g : Graph} {r : Nat} {t : List Nat} (ht : IsTour g r t) : tourPrize (fun _ => 1) t + 1 = t.length := by
  have h := List.length_pos_iff.2 ht.ne_nil
  have key : ∀ l : List Nat, prizeSum (fun _ => 1) l = l.length := by
    intro l
    induction l with
    | nil => rfl
    | cons a l ih =>
      simp only [prizeSum, List.map_cons, List.sum_cons] at ih ⊢
      rw [ih]; push_cast [List.length_cons]; omega
  rw [tourPrize, key, List.length_dropLast]
  omega

/-- With step 1 the loop stops because nothing is found: every round adds a vertex. -/
theorem untilLoop_one_exit (O : FloatOps F) (hO : O.SignSound) {g : Graph} (hg : g.WF) {r : Nat} (cost prize : Nat → Int) (depth : Int)
    (rem : Nat) (t : List Nat) (ht : IsTour g r t) (hrem : g.n + 1 < rem + t.length) :
    ∃ t', pathExtensionUntilLoop O g cost prize r 1 depth rem t = .ok t' ∧ IsTour g r t' ∧
      (t'.length ≤ 2 ∨ ∃ es, findExtensionPaths O g t' cost prize r 1 depth = .ok es ∧ ∀ e ∈ es, e.feasible = false) := by
  induction rem generalizing t with
  | zero => have := ht.length_le hg; omega
  | succ rem ih =>
    rw [pathExtensionUntilLoop]
    have hlen : 1 ≤ t.length := List.length_pos_iff.2 ht.ne_nil
    cases hf : stepFits 1 t with
    | false =>
      refine ⟨t, rfl, ht, Or.inl ?_⟩
      have : ¬ (0 ≤ (1 : Int) ∧ (1 : Int).toNat < t.length - 1) := by
        rw [← stepFits_iff ht.ne_nil, hf]; simp
      simp at this; omega
    | true =>
      rw [if_neg (by simp)]
      have hst := (stepFits_iff ht.ne_nil).1 hf
      have h1' : (1 : Int).toNat = 1 := rfl
      rw [h1'] at hst ⊢
      obtain ⟨es, h1, h2, h3⟩ := findExtensionPaths_spec O hO hg ht cost prize 1 depth (by omega) hst.2
      rw [h1]
      simp only [Res.ok_bind]
      by_cases hn : numFeasibleExtensions (es.map (·.feasible)) > 0
      · obtain ⟨k, e, hk, hke, hfe⟩ := selected_entry O es hn
        have hk0 : ¬ ((k : Int) < 0) := by omega
        simp only [hn, if_true, hk, hk0, if_false, Int.toNat_natCast, hke]
        have hki : k < t.length - 1 := by
          have := (List.getElem?_eq_some_iff.1 hke).1; omega
        have hgood := ((h3 k e hke).1 hfe).2
        have hgood1 : GoodEntry g r t (fun _ => 1) 1 depth k e.path := by
          rcases hgood with ⟨q0, A, u, Y, w, B, X, q1, q2, q3, q4, q5, q6, q7, q8, q9, -⟩ | ⟨P, v, Q, u, R, -, -, q, -⟩
          · refine Or.inl ⟨q0, A, u, Y, w, B, X, q1, q2, q3, q4, q5, q6, q7, q8, q9, ?_⟩
            have : Y = [] := by rw [← List.length_eq_zero_iff]; omega
            subst this
            have := List.length_pos_iff.2 q5
            simp [prizeSum]; omega
          · omega
        obtain ⟨t1, s1, s2, s3, -⟩ := swap_mod ht hki hst.2 hgood1
        rw [s1]
        simp only [Res.ok_bind]
        have e1 := tourPrize_one ht
        have e2 := tourPrize_one s2
        exact ih t1 s2 (by omega)
      · simp only [hn, if_false]
        exact ⟨t, rfl, ht, Or.inr ⟨es, h1, numFeasible_zero hn⟩⟩

/-- The loop does nothing on a tour with too few edges or without feasible extension. -/
theorem untilLoop_stays (O : FloatOps F) {g : Graph} (cost prize : Nat → Int) {r : Nat} (step depth : Int) (hs : 1 ≤ step) (rem : Nat) {t : List Nat}
    (hne : t ≠ []) (h : (t.length : Int) ≤ step + 1 ∨
      ∃ es : List (ExtEntry F), findExtensionPaths O g t cost prize r step.toNat depth = .ok es ∧ ∀ e ∈ es, e.feasible = false) :
    pathExtensionUntilLoop O g cost prize r step depth rem t = .ok t := by
  cases rem with
  | zero => rfl
  | succ rem =>
    rw [pathExtensionUntilLoop]
    have hlen : 1 ≤ t.length := List.length_pos_iff.2 hne
    cases hf : stepFits step t with
    | false => rfl
    | true =>
      rw [if_neg (by simp)]
      have hst := (stepFits_iff hne).1 hf
      rcases h with h | ⟨es, h1, h2⟩
      · omega
      · rw [h1]
        simp only [Res.ok_bind]
        have : ¬ numFeasibleExtensions (es.map (·.feasible)) > 0 := by
          intro hn
          obtain ⟨k, e, -, hke, hfe⟩ := selected_entry O es hn
          have := h2 e (List.mem_of_getElem? hke)
          rw [this] at hfe; simp at hfe
        simp only [this, if_false]

/-- If no insertion is allowed there are no steps. -/
theorem gainSteps_stuck {g : Graph} {P : List Nat → Nat → Nat → Nat → Prop} {t t' : List Nat}
    (h : GainSteps g P t t') (hno : ∀ v a b, P t v a b → False) : t' = t := by
  cases h with
  | refl => rfl
  | step hP _ _ => exact (hno _ _ _ hP).elim

/-- Every insertion visits a further vertex. -/
theorem gainSteps_longer {g : Graph} {P : List Nat → Nat → Nat → Nat → Prop} {t t' : List Nat} (h : GainSteps g P t t') :
    t' = t ∨ t.length < t'.length := by
  induction h with
  | refl => exact .inl rfl
  | @step t t1 t' v a b hP hi hs ih =>
    obtain ⟨A, B, rfl, rfl⟩ := hi.split
    simp only [List.length_append, List.length_cons] at *
    rcases ih with rfl | ih
    · right; simp
    · right; omega

theorem changes_le {T : Nat → List Nat} {f : List Nat → Int} (m : Nat) (h : ∀ k < m, T (k + 1) = T k ∨ f (T k) < f (T (k + 1))) :
    f (T 0) + changes T m ≤ f (T m) := by
  induction m with
  | zero => simp [changes]
  | succ m ih =>
    have ih := ih fun k hk => h k (by omega)
    have hc : changes T (m + 1) = changes T m + if T (m + 1) ≠ T m then 1 else 0 := by
      unfold changes
      rw [List.range_succ, List.filter_append, List.length_append]
      congr 1
      by_cases hm : T (m + 1) = T m <;> simp [hm]
    rw [hc]
    rcases h m (by omega) with hm | hm
    · simp [hm]; exact ih
    · split <;> push_cast <;> omega

/-- Steps keep tours. -/
theorem gainSteps_tour {g : Graph} {P : List Nat → Nat → Nat → Nat → Prop} {t t' : List Nat} (h : GainSteps g P t t') {r : Nat} (ht : IsTour g r t) :
    IsTour g r t' := by
  induction h with
  | refl => exact ht
  | @step t t1 t' v a b hP hi hs ih => exact ih (GainStep.isTour ⟨a, b, hi⟩ ht)

end Pctsp
