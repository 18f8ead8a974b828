import Verif.Lemmas.RowNames

/-!
# Property theorems: the names of the rows (C146)
-/

namespace Pctsp

/-- **C146.** The names are joined with one underscore between two of them. -/
theorem C146_join (names : List (List Char)) : joinVariableNames (names.map some) = .ok (List.intercalate ['_'] names) := by
  have key : ∀ ns : List (List Char), ns ≠ [] → ns.flatMap (· ++ ['_']) = List.intercalate ['_'] ns ++ ['_'] := by
    intro ns
    induction ns with
    | nil => intro h; exact absurd rfl h
    | cons a ns ih =>
      intro _
      cases ns with
      | nil => simp [List.intercalate]
      | cons b ns =>
        rw [List.flatMap_cons, ih (by simp)]
        simp [List.intercalate, List.intersperse]
  rw [joinVariableNames, joinNamesLoop_eq, Res.ok_bind]
  cases names with
  | nil => simp [Res.pure_eq, List.intercalate]
  | cons a ns =>
    rw [List.nil_append, key _ (by simp), if_pos (by simp), List.dropLast_concat]
    rfl

/-- **C146.** With a null pointer among the variables there is no name. -/
theorem C146_null (names : List (List Char)) (vars : List (Option (List Char))) (kind : RowKind) :
    ∃ s, rowName kind (names.map some ++ none :: vars) = .ub s := by
  have : ∀ acc, ∃ s, joinNamesLoop (names.map some ++ none :: vars) acc = .ub s := by
    induction names with
    | nil => intro acc; exact ⟨_, rfl⟩
    | cons n ns ih => intro acc; exact ih _
  obtain ⟨s, hs⟩ := this []
  refine ⟨s, ?_⟩
  rw [rowName, joinVariableNames, hs]; rfl

/-- **C146.** The name of a row tells its kind and its variables in order, for the names that SCIP gives, whatever text it puts before the numbers and whatever text without digits after them. -/
theorem C146_injective {before after : List Char} (ha : ∀ c ∈ after, c.isDigit = false)
    (k k' : RowKind) (is js : List Nat) :
    rowName k (is.map fun i => some (autoName before after i)) = rowName k' (js.map fun i => some (autoName before after i)) ↔ k = k' ∧ is = js := by
  constructor
  · intro h
    have e : ∀ l : List Nat, l.map (fun i => some (autoName before after i)) = (l.map (autoName before after)).map some := by intro l; simp
    rw [e, e, rowName, rowName, C146_join, C146_join] at h
    simp only [Res.ok_bind, Res.pure_eq, Res.ok.injEq] at h
    have hk : k = k' := by
      have hd : ∀ (k : RowKind) (l : List Char), (k.prefix ++ l).head? = k.prefix.head? := by
        intro k l
        have : k.prefix ≠ [] := by cases k <;> decide
        cases hp : k.prefix with
        | nil => exact absurd hp this
        | cons c r => rfl
      have := congrArg List.head? h
      rw [hd, hd] at this
      exact rowKind_of_head this
    subst hk
    refine ⟨rfl, ?_⟩
    have h := List.append_cancel_left h
    -- with the separator after the last name
    have hjoin : ∀ l : List Nat, l ≠ [] → List.intercalate ['_'] (l.map (autoName before after)) ++ ['_'] =
        l.flatMap fun i => autoName before after i ++ ['_'] := by
      intro l
      induction l with
      | nil => intro h; exact absurd rfl h
      | cons a l ih =>
        intro _
        cases l with
        | nil => simp [List.intercalate]
        | cons b l =>
          rw [List.flatMap_cons, ← ih (by simp)]
          simp [List.intercalate, List.intersperse]
    have hne : ∀ (i : Nat) (l : List Nat), List.intercalate ['_'] ((i :: l).map (autoName before after)) ≠ [] := by
      intro i l hnil
      have := hjoin (i :: l) (by simp)
      rw [hnil] at this
      have hl := congrArg List.length this
      have hpos : 0 < (Nat.toDigits 10 i).length := List.length_pos_iff.2 Nat.toDigits_ne_nil
      simp [autoName] at hl
      omega
    have hcut : ∀ x y : List Nat, (x.flatMap fun i => autoName before after i ++ ['_']) = (y.flatMap fun i => autoName before after i ++ ['_']) → x = y := by
      intro x
      induction x with
      | nil =>
        intro y hy
        cases y with
        | nil => rfl
        | cons j y => simp [autoName] at hy
      | cons i x ih =>
        intro y hy
        cases y with
        | nil => simp [autoName] at hy
        | cons j y =>
          simp only [List.flatMap_cons, autoName, List.append_assoc] at hy
          have hy := List.append_cancel_left hy
          -- what follows the digits does not start with a digit
          obtain ⟨c, r, hcr, hc⟩ : ∃ c r, after ++ ['_'] = c :: r ∧ c.isDigit = false := by
            cases after with
            | nil => exact ⟨'_', [], rfl, by decide⟩
            | cons c r => exact ⟨c, r ++ ['_'], rfl, ha c (by simp)⟩
          have e1 : ∀ l : List Char, after ++ (['_'] ++ l) = c :: (r ++ l) := by
            intro l; rw [← List.append_assoc, hcr]; rfl
          rw [e1, e1] at hy
          obtain ⟨rfl, hrest⟩ := digits_split hc hc hy
          simp only [List.cons.injEq, true_and] at hrest
          rw [ih y (by simpa [autoName] using List.append_cancel_left hrest)]
    cases is with
    | nil =>
      cases js with
      | nil => rfl
      | cons j js => exact absurd h.symm (hne j js)
    | cons i is =>
      cases js with
      | nil => exact absurd h (hne i is)
      | cons j js =>
        apply hcut
        rw [← hjoin _ (by simp), ← hjoin _ (by simp), h]
  · rintro ⟨rfl, rfl⟩; rfl

example := C146_join ["x1".toList, "x12".toList]
example : joinVariableNames [some "x1".toList, some "x12".toList] = .ok "x1_x12".toList := by decide
example : joinVariableNames [] = .ok [] := by decide
example := C146_null ["x1".toList] [some "x12".toList] .subtour
example := (C146_injective (before := "_var".toList) (after := "_".toList) (by decide) .subtour .subtour [1, 11] [11, 1]).not.2 (by decide)
/-- For names that contain the separator between digits the variables cannot be told. -/
example : joinVariableNames [some "x1_2".toList, some "3".toList] = joinVariableNames [some "x1".toList, some "2_3".toList] := by decide

end Pctsp
