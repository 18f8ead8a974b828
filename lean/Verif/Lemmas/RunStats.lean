import Verif.Lemmas.Cuts
import Verif.Model.RunStats
import Verif.Props.CostCover
import Verif.Props.Events

/-!
# Lemmas about the counters of a run
-/

namespace Pctsp

variable {D : Type}

/-- Whatever the set, a call that returns has offered one row. -/
theorem addSubtour_offers {sv : Solver} {g : Graph} {hasVar : Nat → Bool} {vs : List Nat} {root target : Nat} {st st' : SepState}
    (h : addSubtourEliminationConstraint sv g hasVar vs root target st = .ok st') : ∃ row, st' = offerRow sv row st := by
  unfold addSubtourEliminationConstraint at h
  simp only at h
  split at h
  · simp at h
  · split at h
    · simp at h
    · simp only [Res.bind_eq_ok, Res.pure_eq, Res.ok.injEq] at h
      obtain ⟨_, _, _, _, _, _, _, _, p, _, rfl⟩ := h
      exact ⟨_, rfl⟩

theorem secTargetLoop_offers {sv : Solver} {g : Graph} {hasVar : Nat → Bool} {vs : List Nat} {root : Nat} :
    ∀ (ts : List Nat) (s s' : SepState × Nat), secTargetLoop sv g hasVar vs root ts s = .ok s' →
      ∃ rows, s'.1 = offerAll sv rows s.1 ∧ s'.2 = s.2 + rows.length
  | [], s, s', h => by simp only [secTargetLoop, Res.ok.injEq] at h; subst h; exact ⟨[], rfl, rfl⟩
  | t :: ts, s, s', h => by
    simp only [secTargetLoop, Res.bind_eq_ok] at h
    obtain ⟨st, h1, h2⟩ := h
    obtain ⟨row, rfl⟩ := addSubtour_offers h1
    obtain ⟨rows, h3, h4⟩ := secTargetLoop_offers ts _ s' h2
    exact ⟨row :: rows, h3, by rw [h4, List.length_cons]; omega⟩

theorem disjointTourLoop_offers {sv : Solver} {g : Graph} {hasVar : Nat → Bool} {root rootId : Nat} :
    ∀ (cs : List (List Nat)) (i : Nat) (s s' : SepState × Nat), disjointTourLoop sv g hasVar root rootId i cs s = .ok s' →
      ∃ rows, s'.1 = offerAll sv rows s.1 ∧ s'.2 = s.2 + rows.length
  | [], i, s, s', h => by simp only [disjointTourLoop, Res.ok.injEq] at h; subst h; exact ⟨[], rfl, rfl⟩
  | c :: cs, i, s, s', h => by
    simp only [disjointTourLoop] at h
    split at h
    · obtain ⟨s1, h1, h2⟩ := Res.bind_eq_ok.1 h
      obtain ⟨r1, e1, e2⟩ := secTargetLoop_offers _ _ _ h1
      obtain ⟨r2, e3, e4⟩ := disjointTourLoop_offers cs _ _ _ h2
      exact ⟨r1 ++ r2, by rw [e3, e1, offerAll_append], by rw [e4, e2, List.length_append]; omega⟩
    · exact disjointTourLoop_offers cs _ _ _ h

theorem secUnreachableLoop_offers {sv : Solver} {g : Graph} {hasVar : Nat → Bool} {lookup : Bimap Nat} {vs : List Nat} {root : Nat} :
    ∀ (us : List Nat) (s s' : MaxflowState), secUnreachableLoop sv g hasVar lookup vs root us s = .ok s' →
      ∃ rows, s'.sep = offerAll sv rows s.sep ∧ s'.count = s.count + rows.length
  | [], s, s', h => by simp only [secUnreachableLoop, Res.ok.injEq] at h; subst h; exact ⟨[], rfl, rfl⟩
  | u :: us, s, s', h => by
    simp only [secUnreachableLoop, Res.bind_eq_ok] at h
    obtain ⟨t, -, sep, h1, u', -, h2⟩ := h
    obtain ⟨row, rfl⟩ := addSubtour_offers h1
    obtain ⟨rows, h3, h4⟩ := secUnreachableLoop_offers us _ s' h2
    exact ⟨row :: rows, h3, by rw [h4, List.length_cons]; simp only; omega⟩

theorem maxflowTargetLoop_offers {sv : Solver} {g : Graph} {hasVar : Nat → Bool} {lookup : Bimap Nat} {flow : MaxFlow} {visit : Visit}
    {des : List ((Nat × Nat) × Int)} {n supportRoot root : Nat} :
    ∀ (ts : List Nat) (s s' : MaxflowState), maxflowTargetLoop sv g hasVar lookup flow visit des n supportRoot root ts s = .ok s' →
      ∃ rows, s'.sep = offerAll sv rows s.sep ∧ s'.count = s.count + rows.length
  | [], s, s', h => by simp only [maxflowTargetLoop, Res.ok.injEq] at h; subst h; exact ⟨[], rfl, rfl⟩
  | t :: ts, s, s', h => by
    simp only [maxflowTargetLoop] at h
    split at h
    · exact maxflowTargetLoop_offers ts _ _ h
    · split at h
      · simp only [Res.bind_eq_ok] at h
        obtain ⟨vs, -, s1, h1, h2⟩ := h
        obtain ⟨r1, e1, e2⟩ := secUnreachableLoop_offers _ _ _ h1
        obtain ⟨r2, e3, e4⟩ := maxflowTargetLoop_offers ts _ _ h2
        exact ⟨r1 ++ r2, by rw [e3, e1, offerAll_append], by rw [e4, e2, List.length_append]; omega⟩
      · exact maxflowTargetLoop_offers ts _ _ h

/-- A separation of subtours that returns has offered as many rows as it reports. -/
theorem separateSubtour_offers {sv : Solver} {g : Graph} {hasVar : Nat → Bool} {flow : MaxFlow} {visit : Visit} {order : List Nat} {q : Int}
    {x : Nat → Int} {root m : Nat} {ids : List Nat} {d f : Bool} {st st' : SepState} {k l : Nat}
    (h : separateSubtour sv g hasVar flow visit order q x root m ids d f st = .ok (st', k, l)) :
    ∃ rows rows', st' = offerAll sv (rows ++ rows') st ∧ k = rows.length ∧ l = rows'.length ∧ (d = false → k = 0) ∧ (f = false → l = 0) := by
  unfold separateSubtour at h
  obtain ⟨comps, -, h⟩ := Res.bind_eq_ok.1 h
  split at h
  · simp at h
  · rename_i rootId hid
    extract_lets jp at h
    have hd : ∃ st1 k1, (∃ rows, st1 = offerAll sv rows st ∧ k1 = rows.length ∧ (d = false → k1 = 0)) ∧ jp (st1, k1) = .ok (st', k, l) := by
      cases d with
      | false =>
        simp only [Bool.false_eq_true, if_false] at h
        exact ⟨st, 0, ⟨[], rfl, rfl, fun _ => rfl⟩, h⟩
      | true =>
        simp only [if_true] at h
        obtain ⟨⟨st1, k1⟩, h1, h2⟩ := Res.bind_eq_ok.1 h
        refine ⟨st1, k1, ?_, h2⟩
        simp only [separateDisjointTour] at h1
        split at h1
        · simp only [Res.ok.injEq, Prod.mk.injEq] at h1; exact ⟨[], h1.1.symm, h1.2.symm, by simp⟩
        · obtain ⟨rows, e1, e2⟩ := disjointTourLoop_offers _ _ _ _ h1
          exact ⟨rows, e1, by simpa using e2, by simp⟩
    obtain ⟨st1, k1, hd, h2⟩ := hd
    simp only [jp] at h2
    obtain ⟨rows, rfl, hk, hd0⟩ := hd
    cases f with
    | false =>
      simp only [Bool.false_eq_true, if_false, Res.pure_eq, Res.ok.injEq, Prod.mk.injEq] at h2
      obtain ⟨rfl, rfl, rfl⟩ := h2
      exact ⟨rows, [], by simp, hk, rfl, hd0, fun _ => rfl⟩
    | true =>
      simp only [if_true] at h2
      split at h2
      · simp at h2
      · obtain ⟨⟨st2, l1⟩, h3, h4⟩ := Res.bind_eq_ok.1 h2
        simp only [Res.pure_eq, Res.ok.injEq, Prod.mk.injEq] at h4
        obtain ⟨rfl, rfl, rfl⟩ := h4
        unfold separateMaxflowMincut at h3
        simp only [Res.bind_eq_ok, Res.pure_eq, Res.ok.injEq, Prod.mk.injEq] at h3
        obtain ⟨_, -, _, -, _, -, s', h5, rfl, rfl⟩ := h3
        obtain ⟨rows', e1, e2⟩ := maxflowTargetLoop_offers _ _ _ h5
        exact ⟨rows, rows', by rw [e1, offerAll_append], hk, by simpa using e2, hd0, by simp⟩

/-- A separation of cycle covers that returns has offered at most one row, and the result tells whether it was added. -/
theorem separateCycleCover_offers {sv : Solver} {g : Graph} {hasVar : Nat → Bool} {prize : Nat → Int} {quota : Int} {root m : Nat} {ids : List Nat}
    {st' : SepState} (h : separateCycleCover sv g hasVar prize quota root m ids .fresh = .ok st') :
    ((st'.result = .cutoff ∨ st'.result = .separated) ∧ st'.added.length = 1 ∧ st'.offered = st'.added) ∨
      (¬ (st'.result = .cutoff ∨ st'.result = .separated) ∧ st'.added = [] ∧ st'.offered.length ≤ 1) := by
  unfold separateCycleCover at h
  obtain ⟨c, -, h⟩ := Res.bind_eq_ok.1 h
  have hfresh : ¬ (SepState.fresh.result = .cutoff ∨ SepState.fresh.result = .separated) ∧ SepState.fresh.added = [] ∧
      SepState.fresh.offered.length ≤ 1 := by decide
  split at h
  · unfold addCycleCover at h
    split at h
    · simp only [Res.ok.injEq] at h; subst h; exact Or.inr hfresh
    · simp only [Res.bind_eq_ok, Res.pure_eq, Res.ok.injEq] at h
      obtain ⟨_, _, _, _, _, _, _, _, p, _, rfl⟩ := h
      unfold addRow offerRow
      split
      · left
        refine ⟨?_, rfl, rfl⟩
        simp only
        split
        · exact Or.inl rfl
        · exact Or.inr rfl
      · right; exact ⟨hfresh.1, rfl, le_refl _⟩
  · simp only [Res.pure_eq, Res.ok.injEq] at h; subst h; exact Or.inr hfresh

end Pctsp
