import Verif.Lemmas.UnitaryLoss

/-!
# C90: extension by unitary loss
-/

namespace Pctsp

variable {F : Type}

theorem GainSteps.weaken {g : Graph} {P Q : List Nat → Nat → Nat → Nat → Prop} (h : ∀ s v a b, P s v a b → Q s v a b) {t t' : List Nat}
    (hs : GainSteps g P t t') : GainSteps g Q t t' := by
  induction hs with
  | refl t => exact .refl t
  | step hP hi _ ih => exact .step (h _ _ _ _ hP) hi ih

/-- **C90.** For all prizes, also negative ones, the extension by unitary loss returns normally.  `os` are the least losses at the edges of the given
tour, where there is something to insert.  Every step inserts a vertex with positive prize at a place where the loss is the least
of all; it is below the mean of `os`, except for the first step if there is only one value in `os`.  At the end nothing below the mean is left. -/
theorem C90_least_loss (O : FloatOps F) (hO : O.Lawful) (g : Graph) (hg : g.WF) (r : Nat) (t : List Nat) (ht : IsTour g r t) (hlen : 3 ≤ t.length)
    (cost prize : Nat → Int) :
    ∃ t' os, extensionUnitaryLoss O g t cost prize r = .ok t' ∧ List.Forall₂ (LeastLossAt O g cost prize t) (consec t) os ∧
      GainSteps g (fun s v a b => LeastLoss O g cost prize s v a b ∧
        (O.lt (lossBetween O g cost prize v a b) (meanOf O os) = true ∨ s = t ∧ os.reduceOption.length = 1)) t t' ∧
      (∀ v a b, Insertable g t' v a b → 0 < prize v → O.lt (lossBetween O g cost prize v a b) (meanOf O os) = false) ∧
      (t' = t → os.reduceOption.length ≠ 1) := by
  obtain ⟨es, h1, h2, h3, h4⟩ := lossRound hO hg ht cost prize hlen
  have hn : 0 < g.n := by
    obtain ⟨m, rfl⟩ := ht.shape
    have := ht.walk.lt hg (by simp) r (by simp)
    omega
  obtain ⟨n, hn'⟩ : ∃ n, g.n = n + 1 := ⟨g.n - 1, by omega⟩
  have hfit : stepFits 1 t = true := by rw [stepFits_iff ht.ne_nil]; omega
  rw [extensionUnitaryLoss, pathExtension, hn', pathExtensionLoop, if_neg ht.ne_nil, hfit, if_neg (by simp), show (1 : Int).toNat = 1 from rfl, h1]
  simp only [Res.ok_bind]
  by_cases hnum : numFeasibleExtensions (es.map (·.feasible)) > 0
  · obtain ⟨k, e, v, a, b, t1, k1, k2, k3, k4, k5, k6⟩ := h3 hnum
    have hk0 : ¬ ((k : Int) < 0) := by omega
    simp only [hnum, if_true, k1, hk0, if_false, Int.toNat_natCast, k2, averageUnitaryLoss_mean, and_true]
    by_cases hgo : numFeasibleExtensions (es.map (·.feasible)) = 1 ∨ O.lt e.loss (meanOf O (es.map ExtEntry.value)) = true
    · rw [if_pos hgo, k5]
      simp only [Res.ok_bind]
      have ht1 := GainStep.isTour ⟨a, b, k6⟩ ht
      have hl1 : t1.length = t.length + 1 := by obtain ⟨A, B, rfl, rfl⟩ := k6.split; simp; omega
      obtain ⟨t', r1, r2, r3⟩ := lossLoop hO hg cost prize (meanOf O (es.map ExtEntry.value)) n t1 ht1 (by omega) (by omega)
      refine ⟨t', _, r1, h2, .step ⟨k3, ?_⟩ k6 (r2.weaken fun s v a b h => ⟨h.1, Or.inl h.2⟩), r3, fun he => ?_⟩
      · rw [← k4]
        rcases hgo with h | h
        · exact Or.inr ⟨rfl, by rw [← numFeasible_count]; exact h⟩
        · exact Or.inl h
      · have : ∀ {s s' : List Nat} {P}, GainSteps g P s s' → s.length ≤ s'.length := by
          intro s s' P h
          induction h with
          | refl => exact Nat.le_refl _
          | step _ hi _ ih => obtain ⟨A, B, rfl, rfl⟩ := hi.split; simp at ih ⊢; omega
        have := this r2
        rw [he] at this
        omega
    · rw [if_neg hgo]
      rw [not_or] at hgo
      refine ⟨t, _, rfl, h2, .refl t, fun v' a' b' hv' hp' => hO.negTrans _ (lossBetween O g cost prize v a b) _ (hO.loss _ _ k3.positive) (k3.least v' a' b' hv' hp') ?_, fun _ => by
        rw [← numFeasible_count]; exact hgo.1⟩
      rw [← k4]
      simpa using hgo.2
  · simp only [hnum, if_false]
    refine ⟨t, _, rfl, h2, .refl t, fun v a b hv hp => by have := h4 hnum v a b hv; omega, fun _ => ?_⟩
    rw [← numFeasible_count]
    omega

/-- **C90.** The values are determined by the tour if numbers that compare equal are equal. -/
theorem C90_mean_unique (O : FloatOps F) (hO : O.Lawful) (hconn : ∀ x y, O.Comparable x → O.Comparable y → O.lt x y = false → O.lt y x = false → x = y) (g : Graph) (cost prize : Nat → Int)
    (t : List Nat) {ps : List (Nat × Nat)} {os os' : List (Option F)} (h : List.Forall₂ (LeastLossAt O g cost prize t) ps os)
    (h' : List.Forall₂ (LeastLossAt O g cost prize t) ps os') : os = os' := by
  induction h generalizing os' with
  | nil => cases h'; rfl
  | @cons p o ps os hp _ ih =>
    cases h' with
    | @cons _ o' _ os' hp' h' =>
      rw [ih h']
      congr 1
      cases o with
      | none =>
        cases o' with
        | none => rfl
        | some x => obtain ⟨v, a, b, -⟩ := hp'; have := hp v a; omega
      | some x =>
        obtain ⟨v, a, b, c, d⟩ := hp
        cases o' with
        | none => have := hp' v a; omega
        | some y =>
          obtain ⟨v', a', b', c', d'⟩ := hp'
          rw [hconn x y (by rw [c]; exact hO.loss _ _ b) (by rw [c']; exact hO.loss _ _ b') (by rw [c]; exact d' v a b) (by rw [c']; exact d v' a' b')]

/-- A triangle with three vertices outside; 3 and 5 fit between 0 and 1, 4 fits between 1 and 2. -/
def exLossGraph : Graph := { n := 6, edges := [(0, 1), (1, 2), (2, 0), (0, 3), (3, 1), (1, 4), (4, 2), (0, 5), (5, 1)] }

example : exLossGraph.WF ∧ IsTour exLossGraph 0 [0, 1, 2, 0] := ⟨by decide, ⟨[1, 2], rfl⟩, by decide, by decide⟩
/-- The least losses are 1/2 (vertex 5, not 3) and 3; the mean is 7/4, so that 4 is not inserted. -/
example : extensionUnitaryLoss FloatOps.exact exLossGraph [0, 1, 2, 0] (fun e => if e = 5 then 3 else 1) (fun v => if v = 5 then 2 else 1) 0
    = .ok [0, 5, 1, 2, 0] := by decide +kernel
/-- Only one edge has something to insert: it is used although the loss is the mean. -/
example : extensionUnitaryLoss FloatOps.exact exLossGraph [0, 1, 2, 0] (fun _ => 1) (fun v => if v = 4 then -1 else 1) 0
    = .ok [0, 3, 1, 2, 0] := by decide +kernel
example : FloatOps.exact.Lawful ∧ ∀ x y, FloatOps.exact.Comparable x → FloatOps.exact.Comparable y → FloatOps.exact.lt x y = false → FloatOps.exact.lt y x = false → x = y := by
  refine ⟨FloatOps.exact_lawful, fun x y _ _ h1 h2 => ?_⟩
  simp only [FloatOps.exact, FloatOps.rounded, decide_eq_false_iff_not, Rat.not_lt] at h1 h2
  exact Rat.le_antisymm h2 h1

example := C90_least_loss FloatOps.exact FloatOps.exact_lawful exLossGraph (by decide) 0 [0, 1, 2, 0] ⟨⟨[1, 2], rfl⟩, by decide, by decide⟩ (by decide)
  (fun e => if e = 5 then 3 else 1) (fun v => if v = 5 then 2 else 1)

end Pctsp
