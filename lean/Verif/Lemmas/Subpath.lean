import Verif.Lemmas.Walk

/-! Helper lemmas: `getSubpathOfCycle`, `pathInTreeFromParents`. -/

namespace Pctsp

section
variable {α : Type}

theorem subpathLoop_inner (c : List α) (m pos : Nat) (h : pos + m ≤ c.length) :
    subpathLoop c m pos = .ok ((c.drop pos).take m) := by
  induction m generalizing pos with
  | zero => simp [subpathLoop]
  | succ m ih =>
    have hlt : pos < c.length := by omega
    have : pos ≠ c.length := by omega
    simp only [subpathLoop, this, if_false, List.getElem?_eq_getElem hlt]
    rw [ih (pos + 1) (by omega)]
    rw [List.drop_eq_getElem_cons hlt, List.take_succ_cons]
    rfl

theorem subpathLoop_wrap (c : List α) (m : Nat) (h : 2 ≤ c.length) :
    subpathLoop c m c.length = subpathLoop c m 1 := by
  cases m with
  | zero => rfl
  | succ m =>
    have : (1 : Nat) ≠ c.length := by omega
    simp only [subpathLoop, if_true, this, if_false]

theorem subpathLoop_outer (c : List α) (m pos m' : Nat) (h2 : 2 ≤ c.length) (hpos : pos ≤ c.length)
    (h : pos + m = c.length + m') (hm : m' + 1 ≤ c.length) :
    subpathLoop c m pos = .ok (c.drop pos ++ (c.drop 1).take m') := by
  induction m generalizing pos with
  | zero =>
    have : m' = 0 := by omega
    have : pos = c.length := by omega
    subst this; subst m'
    simp [subpathLoop]
  | succ m ih =>
    by_cases hp : pos = c.length
    · subst hp
      have : m' = m + 1 := by omega
      subst this
      rw [subpathLoop_wrap c _ h2, subpathLoop_inner c _ _ (by omega)]
      simp
    · have hlt : pos < c.length := by omega
      simp only [subpathLoop, hp, if_false, List.getElem?_eq_getElem hlt]
      rw [ih (pos + 1) (by omega) (by omega)]
      rw [List.drop_eq_getElem_cons hlt, List.cons_append]
      rfl

theorem getSubpath_inner (c : List α) (i j : Nat) (hij : i ≤ j) (hj : j < c.length) :
    getSubpathOfCycle c i j = .ok ((c.drop i).take (j + 1 - i)) := by
  unfold getSubpathOfCycle
  have h1 : ¬ ((j : Int) - i + 1 ≤ 0) := by omega
  have h2 : ¬ ((j : Int) - i + 1 < 0) := by omega
  have h3 : ¬ (i > c.length) := by omega
  have h4 : ((j : Int) - i + 1).toNat = j + 1 - i := by omega
  simp only [h1, if_false, h2, h3, h4]
  exact subpathLoop_inner c _ _ (by omega)

theorem getSubpath_outer (c : List α) (i j : Nat) (hij : j < i) (hi : i < c.length) :
    getSubpathOfCycle c i j = .ok (c.drop i ++ (c.drop 1).take j) := by
  unfold getSubpathOfCycle
  have h1 : ((j : Int) - i + 1 ≤ 0) := by omega
  have h2 : ¬ ((c.length : Int) - i + j < 0) := by omega
  have h3 : ¬ (i > c.length) := by omega
  have h4 : ((c.length : Int) - i + j).toNat = c.length - i + j := by omega
  simp only [h1, if_true, h2, if_false, h3, h4]
  exact subpathLoop_outer c _ _ _ (by omega) (by omega) (by omega) (by omega)

end

/-- Characterisation of the list built by `climb`. -/
theorem climb_spec (parent : Nat → Nat) (fuel child : Nat) (path : List Nat) :
    ∃ l, climb parent fuel child (child :: path) = l ++ child :: path ∧ l.length ≤ fuel ∧
      (∀ p ∈ consec (l ++ [child]), p.1 = parent p.2 ∧ p.1 ≠ p.2) ∧
      (∀ j ≤ fuel, parent (Nat.iterate parent j child) = Nat.iterate parent j child →
        ∃ i ≤ j, (l ++ [child]).head? = some (Nat.iterate parent i child) ∧ l.length = i ∧
          parent (Nat.iterate parent i child) = Nat.iterate parent i child) := by
  induction fuel generalizing child path with
  | zero =>
    refine ⟨[], rfl, by simp, by simp, ?_⟩
    intro j hj hfix
    obtain rfl : j = 0 := by omega
    exact ⟨0, by omega, rfl, rfl, hfix⟩
  | succ fuel ih =>
    by_cases hc : parent child = child
    · refine ⟨[], by simp [climb, hc], by simp, by simp, ?_⟩
      intro j _ _
      exact ⟨0, by omega, rfl, rfl, hc⟩
    · obtain ⟨l, h1, h2, h3, h4⟩ := ih (parent child) (child :: path)
      refine ⟨l ++ [parent child], by simp [climb, hc, h1], by simp; omega, ?_, ?_⟩
      · intro p hp
        have e : l ++ [parent child] ++ [child] = l ++ parent child :: [child] := by simp
        rw [e, consec_append] at hp
        rcases List.mem_append.1 hp with hp | hp
        · exact h3 p hp
        · simp at hp; subst hp; exact ⟨rfl, hc⟩
      · intro j hj hfix
        cases j with
        | zero => exact absurd hfix hc
        | succ j =>
          obtain ⟨i, hi, hh, hl, hf⟩ := h4 j (by omega) hfix
          refine ⟨i + 1, by omega, ?_, by simp [hl], hf⟩
          rw [show l ++ [parent child] ++ [child] = (l ++ [parent child]) ++ [child] from rfl]
          rw [List.head?_append, hh]; rfl

end Pctsp
