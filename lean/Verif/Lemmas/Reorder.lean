import Verif.Lemmas.Walk
import Mathlib.Data.List.Rotate

/-! Helper lemmas about `reorderTourFromRoot`. -/

namespace Pctsp

section
variable {α : Type} [DecidableEq α]

theorem takeWhile_ne_append_cons {l m : List α} {r : α} (h : r ∉ l) :
    (l ++ r :: m).takeWhile (· ≠ r) = l := by
  induction l with
  | nil => simp
  | cons a l ih =>
    simp only [List.mem_cons, not_or] at h
    have : a ≠ r := fun e => h.1 e.symm
    have ih := ih h.2
    simp only [ne_eq, decide_not] at ih
    simp [this, ih]

theorem dropWhile_ne_append_cons {l m : List α} {r : α} (h : r ∉ l) :
    (l ++ r :: m).dropWhile (· ≠ r) = r :: m := by
  induction l with
  | nil => simp
  | cons a l ih =>
    simp only [List.mem_cons, not_or] at h
    have : a ≠ r := fun e => h.1 e.symm
    have ih := ih h.2
    simp only [ne_eq, decide_not] at ih
    simp [this, ih]

theorem takeWhile_ne_not_mem {l : List α} {r : α} (h : r ∉ l) : l.takeWhile (· ≠ r) = l := by
  induction l with
  | nil => rfl
  | cons a l ih =>
    simp only [List.mem_cons, not_or] at h
    have : a ≠ r := fun e => h.1 e.symm
    have ih := ih h.2
    simp only [ne_eq, decide_not] at ih
    simp [this, ih]

theorem dropWhile_ne_not_mem {l : List α} {r : α} (h : r ∉ l) : l.dropWhile (· ≠ r) = [] := by
  induction l with
  | nil => rfl
  | cons a l ih =>
    simp only [List.mem_cons, not_or] at h
    have : a ≠ r := fun e => h.1 e.symm
    have ih := ih h.2
    simp only [ne_eq, decide_not] at ih
    simp [this, ih]

theorem exists_split_first {l : List α} {r : α} (h : r ∈ l) : ∃ a b, l = a ++ r :: b ∧ r ∉ a := by
  induction l with
  | nil => simp at h
  | cons x l ih =>
    by_cases hx : x = r
    · exact ⟨[], l, by simp [hx], by simp⟩
    · have : r ∈ l := by
        rcases List.mem_cons.1 h with h | h
        · exact absurd h.symm hx
        · exact h
      obtain ⟨a, b, rfl, hb⟩ := ih this
      exact ⟨x :: a, b, rfl, by simp [hb]; exact fun e => hx e.symm⟩

@[simp] theorem reorder_nil (r : α) : reorderTourFromRoot [] r = [] := rfl

theorem reorder_head (r : α) (l : List α) : reorderTourFromRoot (r :: l) r = r :: l := by
  simp [reorderTourFromRoot]

theorem reorder_not_mem {a r : α} {l : List α} (h : r ∉ a :: l) :
    reorderTourFromRoot (a :: l) r = l ++ [r] := by
  unfold reorderTourFromRoot
  rw [takeWhile_ne_not_mem h, dropWhile_ne_not_mem h]; simp

theorem reorder_mid {a r : α} {l m : List α} (h : r ∉ a :: l) :
    reorderTourFromRoot (a :: (l ++ r :: m)) r = r :: (m ++ l ++ [r]) := by
  unfold reorderTourFromRoot
  have e : a :: (l ++ r :: m) = (a :: l) ++ r :: m := rfl
  rw [e, takeWhile_ne_append_cons h, dropWhile_ne_append_cons h]; simp

/-- The two shapes of a closed tour through `r`. -/
theorem closed_cases {t : List α} {r : α} (hc : t.head? = t.getLast?) (hr : r ∈ t) :
    (∃ l, t = r :: l ∧ (r :: l).getLast? = some r) ∨
      ∃ a l m, t = a :: (l ++ r :: (m ++ [a])) ∧ r ∉ a :: l := by
  obtain ⟨x, y, rfl, hx⟩ := exists_split_first hr
  cases x with
  | nil =>
    left
    exact ⟨y, rfl, by simpa using hc.symm⟩
  | cons a l =>
    right
    have hlast : (r :: y).getLast? = some a := by
      rw [List.getLast?_append] at hc
      simp only [List.cons_append, List.head?_cons] at hc
      cases hy : (r :: y).getLast? with
      | none => simp at hy
      | some z => rw [hy] at hc; simpa using hc.symm
    rcases List.eq_nil_or_concat y with rfl | ⟨m, b, rfl⟩
    · simp at hlast; subst hlast; simp at hx
    · rw [List.concat_eq_append] at *
      have : b = a := by
        rw [← List.cons_append, List.getLast?_concat] at hlast; simpa using hlast
      subst this
      exact ⟨b, l, m, by simp, hx⟩

end

end Pctsp
