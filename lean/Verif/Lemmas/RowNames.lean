import Verif.Model.RowNames
import Mathlib.Data.List.Basic
import Std.Data.String.ToNat

/-!
# Lemmas: the names of the rows
-/

namespace Pctsp

theorem joinNamesLoop_eq (names : List (List Char)) (acc : List Char) :
    joinNamesLoop (names.map some) acc = .ok (acc ++ names.flatMap (· ++ ['_'])) := by
  induction names generalizing acc with
  | nil => simp [joinNamesLoop]
  | cons n ns ih => rw [List.map_cons, joinNamesLoop, ih]; simp

theorem digits_split {a b : Nat} {c d : Char} {r s : List Char} (hc : c.isDigit = false) (hd : d.isDigit = false)
    (h : Nat.toDigits 10 a ++ c :: r = Nat.toDigits 10 b ++ d :: s) : a = b ∧ c :: r = d :: s := by
  have key : ∀ (x y : List Char), (∀ z ∈ x, z.isDigit = true) → (∀ z ∈ y, z.isDigit = true) → x ++ c :: r = y ++ d :: s → x = y := by
    intro x
    induction x with
    | nil =>
      intro y _ hy e
      cases y with
      | nil => rfl
      | cons z y =>
        simp only [List.nil_append, List.cons_append, List.cons.injEq] at e
        have := hy z (by simp)
        rw [← e.1, hc] at this
        cases this
    | cons w x ih =>
      intro y hx hy e
      cases y with
      | nil =>
        simp only [List.nil_append, List.cons_append, List.cons.injEq] at e
        have := hx w (by simp)
        rw [e.1, hd] at this
        cases this
      | cons z y =>
        simp only [List.cons_append, List.cons.injEq] at e
        rw [e.1, ih y (fun z hz => hx z (by simp [hz])) (fun z hz => hy z (by simp [hz])) e.2]
  have hdig : ∀ n, ∀ z ∈ Nat.toDigits 10 n, z.isDigit = true := fun n z hz => Nat.isDigit_of_mem_toDigits (by omega) (by omega) hz
  have e := key _ _ (hdig a) (hdig b) h
  refine ⟨?_, ?_⟩
  · apply Nat.repr_inj.1
    apply String.toList_inj.1
    simpa [Nat.repr] using e
  · rw [e] at h
    exact List.append_cancel_left h

theorem rowKind_of_head {k k' : RowKind} (h : k.prefix.head? = k'.prefix.head?) : k = k' := by
  cases k <;> cases k' <;> first | rfl | (revert h; decide)

end Pctsp
