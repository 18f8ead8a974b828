import Verif.Model.Walk
import Std.Data.String.ToNat

/-!
# Property C04: the text of a walk
-/

namespace Pctsp

theorem walkToString_from (walk : List Nat) (s : String) :
    (walk.foldl (fun s v => s ++ toString v ++ ", ") s).toList = s.toList ++ walk.flatMap fun v => (toString v).toList ++ [',', ' '] := by
  induction walk generalizing s with
  | nil => simp
  | cons v vs ih => rw [List.foldl_cons, ih]; simp

theorem comma_notMem (v : Nat) : ',' ∉ (toString v).toList := by
  intro h
  have : (toString v).toList = Nat.toDigits 10 v := by simp [toString, Nat.repr]
  rw [this] at h
  have := Nat.isDigit_of_mem_toDigits (by omega) (by omega) h
  exact absurd this (by decide)

/-- **C04.** The text of a walk tells its vertices and their order: different walks have different texts. -/
theorem C04_text (a b : List Nat) : walkToString a = walkToString b ↔ a = b := by
  refine ⟨fun h => ?_, fun h => by rw [h]⟩
  replace h : a.flatMap (fun v => (toString v).toList ++ [',', ' ']) = b.flatMap fun v => (toString v).toList ++ [',', ' '] := by
    have := congrArg String.toList h
    rwa [walkToString, walkToString, walkToString_from, walkToString_from, String.toList_empty, List.nil_append, List.nil_append] at this
  induction a generalizing b with
  | nil =>
    cases b with
    | nil => rfl
    | cons v vs => simp at h
  | cons u us ih =>
    cases b with
    | nil => simp at h
    | cons v vs =>
      simp only [List.flatMap_cons, List.append_assoc, List.cons_append, List.nil_append] at h
      have htake : ∀ (n : Nat) (l : List Char), ((toString n).toList ++ ',' :: l).takeWhile (fun c => c != ',') = (toString n).toList := by
        intro n l
        rw [List.takeWhile_append_of_pos fun c hc => by
          have := comma_notMem n
          exact bne_iff_ne.2 fun h => this (h ▸ hc)]
        simp
      have h1 := congrArg (List.takeWhile fun c => c != ',') h
      rw [htake, htake] at h1
      have huv : u = v := Nat.repr_inj.1 (String.toList_inj.1 h1)
      subst huv
      rw [ih vs (List.cons.inj (List.cons.inj (List.append_cancel_left h)).2).2]

example : walkToString [0, 12, 3] = "0, 12, 3, " ∧ walkToString [0, 1, 23] ≠ walkToString [0, 12, 3] :=
  ⟨by decide +kernel, fun h => absurd ((C04_text _ _).1 h) (by decide)⟩

end Pctsp
