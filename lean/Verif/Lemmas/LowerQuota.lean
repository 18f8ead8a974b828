import Verif.Props.Compose
import Mathlib.Data.List.Perm.Subperm

/-! Helper lemmas: what the heuristics do when the quota is lowered. -/

namespace Pctsp

theorem prizeSum_subperm {prize : Nat → Int} (hp : ∀ v, 0 ≤ prize v) {l m : List Nat} (h : l.Subperm m) : prizeSum prize l ≤ prizeSum prize m := by
  obtain ⟨k, h1, h2⟩ := h
  have e1 : prizeSum prize k = prizeSum prize l := by
    unfold prizeSum; exact sum_eq_of_perm (h1.map prize)
  rw [← e1]
  clear e1 h1
  induction h2 with
  | slnil => simp
  | cons a _ ih => have := hp a; simp; omega
  | cons_cons a _ ih => simp; omega

theorem subPathLoop_found {t : List Nat} {prize : Nat → Int} (hp : ∀ v, 0 ≤ prize v) {quota : Int} {root : Nat} (h2 : 2 ≤ t.length)
    (m pos : Nat) (sp sp' : SubPath) (hm' : m ≤ t.length - 1) (hff : sp.feasibleFound = false)
    (h : subPathLoop t prize quota root m pos sp = .ok sp') (hf : sp'.feasibleFound = true) :
    quota ≤ sp.prizeOfPath + prizeSum prize ((t.drop pos ++ t.tail).take m) := by
  induction m generalizing pos sp with
  | zero =>
    rw [subPathLoop] at h
    cases h
    rw [hff] at hf; cases hf
  | succ m ih =>
    rw [subPathLoop] at h
    by_cases hq : sp.prizeOfPath < quota
    · rw [if_pos hq] at h
      simp only at h
      have key : ∀ pos1, (match t[pos1]? with
            | none => Res.ub "getSubPathOverTour: iterator out of range"
            | some c =>
              if sp.prizeOfPath + prize c ≥ quota then .ok { sp with feasibleFound := true }
              else subPathLoop t prize quota root m (pos1 + 1)
                { sp with path := sp.path ++ [c], prizeOfPath := sp.prizeOfPath + prize c, rootSeen := (sp.rootSeen || decide (c = root)) }) = .ok sp' →
          quota ≤ sp.prizeOfPath + prizeSum prize ((t.drop pos1 ++ t.tail).take (m + 1)) := by
        intro pos1 h
        by_cases hlt : pos1 < t.length
        · rw [List.getElem?_eq_getElem hlt] at h
          simp only at h
          rw [List.drop_eq_getElem_cons hlt, List.cons_append, List.take_succ_cons, prizeSum_cons]
          have h0 := prizeSum_nonneg hp ((t.drop (pos1 + 1) ++ t.tail).take m)
          by_cases hc : sp.prizeOfPath + prize t[pos1] ≥ quota
          · omega
          · rw [if_neg hc] at h
            have := ih _ _ (by omega) (by exact hff) h
            simp only at this
            omega
        · rw [List.getElem?_eq_none (by omega)] at h
          cases h
      by_cases hpos : pos = t.length
      · rw [if_pos hpos] at h
        have := key 1 h
        rw [hpos, List.drop_length, List.nil_append]
        rw [List.drop_one, List.take_append_of_le_length (by simp; omega)] at this
        exact this
      · rw [if_neg hpos] at h
        exact key pos h
    · rw [if_neg hq] at h
      cases h
      rw [hff] at hf; cases hf

/-- A sub path that ends before the quota is met belongs to a tour that meets it. -/
theorem getSubPathOverTour_found {g : Graph} {a : Nat} {t : List Nat} (ht : IsTour g a t) {prize : Nat → Int} (hp : ∀ v, 0 ≤ prize v) {quota : Int}
    {root i : Nat} (hi : i < t.length) {sp : SubPath} (h : getSubPathOverTour t i prize quota root = .ok sp) (hf : sp.feasibleFound = true) :
    quota ≤ tourPrize prize t := by
  have h2 : 2 ≤ t.length := by
    obtain ⟨m, hm⟩ := ht.shape
    rw [hm]; simp
  rw [getSubPathOverTour, List.getElem?_eq_getElem hi] at h
  have h3 := subPathLoop_found hp h2 _ _ _ _ (by omega) rfl h hf
  simp only at h3
  have e : (t.drop i ++ t.tail).take (t.length - 1) = t[i] :: (t.drop (i + 1) ++ t.tail).take (t.length - 2) := by
    rw [List.drop_eq_getElem_cons hi, List.cons_append, show t.length - 1 = t.length - 2 + 1 by omega, List.take_succ_cons]
  have hn := cyclic_nodup ht hi
  have hsub : ((t.drop i ++ t.tail).take (t.length - 1)).Subperm t.dropLast := by
    refine hn.subperm fun x hx => ?_
    have hx : x ∈ t := by
      rcases List.mem_append.1 (List.mem_of_mem_take hx) with h | h
      · exact List.mem_of_mem_drop h
      · exact List.mem_of_mem_tail h
    obtain ⟨m, hm⟩ := ht.shape
    rw [hm] at hx ⊢
    rw [dropLast_tour]
    simp at hx ⊢
    tauto
  have := prizeSum_subperm hp hsub
  rw [e, prizeSum_cons] at this
  rw [tourPrize]
  omega

theorem collapseLoop_below {g : Graph} {a : Nat} {t : List Nat} (ht : IsTour g a t) {prize : Nat → Int} (hp : ∀ v, 0 ≤ prize v) {cost : Nat → Int} {quota : Int}
    {root : Nat} {useShortest : Bool} {pick : Nat → Pick} (hq : tourPrize prize t < quota) (i : Nat) (hi : i ≤ t.length) (st : List Nat × Int) :
    collapseLoop g t cost prize quota root useShortest pick i st = .ok st := by
  induction i generalizing st with
  | zero => rfl
  | succ i ih =>
    obtain ⟨sp, h1, -⟩ := getSubPathOverTour_spec ht prize quota root (i := i) (by omega)
    have hf : sp.feasibleFound = false := by
      cases h : sp.feasibleFound with
      | false => rfl
      | true => have := getSubPathOverTour_found ht hp (by omega) h1 h; omega
    rw [collapseLoop, collapseStep, h1]
    simp only [Res.ok_bind, hf, Bool.and_false, Bool.false_eq_true, if_false]
    exact ih (by omega) st

/-- A tour whose prize is below the quota is left as it is. -/
theorem collapse_below {g : Graph} (hg : g.WF) {r : Nat} {t : List Nat} (ht : IsTour g r t) {prize : Nat → Int} (hp : ∀ v, 0 ≤ prize v) {cost : Nat → Int}
    {quota : Int} {useShortest : Bool} {pick : Nat → Pick} (hq : tourPrize prize t < quota) :
    collapse g t cost prize quota r useShortest pick = .ok t := by
  rw [collapse, totalCost_of_isWalk hg cost ht.walk]
  simp only [Res.ok_bind, collapseLoop_below ht hp hq _ (le_refl _)]
  exact congrArg Res.ok (reorder_tour ht)

/-- The first loop finds a feasible tour for a lower quota if it does for a higher one. -/
theorem extendUntilFeasibleLoop_lower {F : Type} (O : FloatOps F) {g : Graph} {r : Nat} {cost prize : Nat → Int} {q q' : Int} (hq : q' ≤ q) {depth : Int}
    (rem : Nat) (step : Int) (t : List Nat) {s : List Nat} (h : extendUntilFeasibleLoop O g cost prize q r depth rem step t = .ok (s, true))
    (ht : ∀ p, totalPrizeOfTour prize t = .ok p → p < q') :
    ∃ s', extendUntilFeasibleLoop O g cost prize q' r depth rem step t = .ok (s', true) := by
  induction rem generalizing step t with
  | zero => cases h
  | succ rem ih =>
    rw [extendUntilFeasibleLoop] at h ⊢
    cases hp : totalPrizeOfTour prize t with
    | ok p =>
      have hlt := ht p hp
      have e : ∀ x, p < x → pathExtensionUntilPrizeFeasible O g t cost prize r x step depth
          = pathExtensionUntilLoop O g cost prize r step depth g.n t := by
        intro x hx
        simp only [pathExtensionUntilPrizeFeasible, hp, Res.ok_bind, if_pos hx]
      rw [e q (by omega)] at h
      rw [e q' hlt]
      cases h1 : pathExtensionUntilLoop O g cost prize r step depth g.n t with
      | ok t1 =>
        rw [h1] at h
        simp only [Res.ok_bind] at h ⊢
        cases h2 : totalPrizeOfTour prize t1 with
        | ok p1 =>
          rw [h2] at h
          simp only [Res.ok_bind] at h ⊢
          by_cases h3 : p1 ≥ q'
          · rw [if_pos h3]; exact ⟨_, rfl⟩
          · rw [if_neg h3]
            rw [if_neg (by omega)] at h
            refine ih _ _ h fun p hp => ?_
            rw [h2] at hp; cases hp
            omega
        | throw e => rw [h2] at h; cases h
        | ub e => rw [h2] at h; cases h
      | throw e => rw [h1] at h; cases h
      | ub e => rw [h1] at h; cases h
    | throw e =>
      simp only [pathExtensionUntilPrizeFeasible, hp] at h
      cases h
    | ub e =>
      simp only [pathExtensionUntilPrizeFeasible, hp] at h
      cases h

end Pctsp
