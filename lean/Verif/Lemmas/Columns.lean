import Verif.Model.Columns

/-!
# Lemmas: dictionaries and rows of data frames
-/

namespace Pctsp

namespace Fields

variable {α : Type}

theorem names_append (d e : Fields α) : (d ++ e).names = d.names ++ e.names := by simp [names]

theorem set_new {d : Fields α} {k : String} (h : k ∉ d.names) (v : α) : d.set k v = d ++ [(k, v)] := by
  rw [set, if_neg (by simpa using h)]

theorem update_eq {d e : Fields α} (h : (d ++ e).names.Nodup) : d.update e = d ++ e := by
  induction e generalizing d with
  | nil => simp [update]
  | cons p e ih =>
    rw [update, List.foldl_cons, ← update]
    have hp : p.1 ∉ d.names := by
      rw [names_append] at h
      intro hp
      exact (List.nodup_append.1 h).2.2 _ hp _ (by simp [names]) rfl
    rw [set_new hp, ih (by rw [List.append_assoc]; exact h)]
    simp

theorem get_iff {d : Fields α} (h : d.names.Nodup) {k : String} {v : α} : d.get k = some v ↔ (k, v) ∈ d := by
  induction d with
  | nil => simp [get]
  | cons p d ih =>
    obtain ⟨k', v'⟩ := p
    have hn : k' ∉ names d ∧ (names d).Nodup := by simpa [names] using h
    by_cases hk : k' = k
    · subst hk
      simp only [get, List.find?_cons, decide_true, Option.map_some, Option.some.injEq, List.mem_cons, Prod.mk.injEq, true_and]
      constructor
      · rintro rfl; exact .inl rfl
      · rintro (rfl | hm)
        · rfl
        · exact absurd (List.mem_map.2 ⟨_, hm, rfl⟩) hn.1
    · have := ih hn.2
      simp only [get] at this ⊢
      rw [List.find?_cons]
      simp only [hk, decide_false, List.mem_cons, Prod.mk.injEq]
      rw [this]
      constructor
      · exact .inr
      · rintro (⟨rfl, -⟩ | hm)
        · exact absurd rfl hk
        · exact hm

/-- Setting keys that are there, or the same key twice, loses what was there. -/
theorem get_set (d : Fields α) (k k' : String) (v : α) : (d.set k v).get k' = if k' = k then some v else d.get k' := by
  rw [set]
  split
  · next h =>
    have h : k ∈ d.names := by simpa using h
    clear * - h
    induction d with
    | nil => simp [names] at h
    | cons p d ih =>
      obtain ⟨a, b⟩ := p
      by_cases ha : a = k
      · subst ha
        by_cases hk : k' = a
        · subst hk; simp [get]
        · have hk' : a ≠ k' := fun e => hk e.symm
          rw [if_neg hk]
          simp only [get, List.map_cons, if_pos, List.find?_cons, hk', decide_false]
          clear ih h
          induction d with
          | nil => rfl
          | cons q d ih =>
            obtain ⟨c, e⟩ := q
            by_cases hc : c = a
            · subst hc; simp only [List.map_cons, if_pos, List.find?_cons, hk', decide_false]; exact ih
            · simp only [List.map_cons, hc, if_false, List.find?_cons]
              by_cases hck : c = k'
              · simp [hck]
              · simp only [hck, decide_false]; exact ih
      · have hk : k ∈ Fields.names d := by
          simp only [names, List.map_cons, List.mem_cons] at h
          rcases h with h | h
          · exact absurd h.symm ha
          · exact h
        have := ih hk
        by_cases hak : a = k'
        · subst hak
          rw [if_neg ha]
          simp [get, ha]
        · simp only [get, List.map_cons, ha, if_false, List.find?_cons, hak, decide_false] at this ⊢
          exact this
  · next h =>
    have h : k ∉ d.names := by simpa using h
    by_cases hk : k' = k
    · subst hk
      rw [if_pos rfl]
      have : d.find? (fun p => decide (p.1 = k')) = none := by
        rw [List.find?_eq_none]
        intro p hp hpk
        exact h (List.mem_map.2 ⟨p, hp, by simpa using hpk⟩)
      simp [get, List.find?_append, this]
    · rw [if_neg hk]
      have : ([(k, v)] : Fields α).find? (fun p => decide (p.1 = k')) = none := by simpa using fun e : k = k' => hk e.symm
      rw [get, List.find?_append, this]
      simp [get]

end Fields

/-- Without common names a merge is the two rows one after the other. -/
theorem mergeRow_disjoint {α : Type} {leftOn rightOn : String} {l r : Fields α}
    (h : ∀ k ∈ l.names, k ∉ Fields.names (if leftOn = rightOn then r.filter fun p => p.1 ≠ rightOn else r)) :
    mergeRow leftOn rightOn l r = l ++ if leftOn = rightOn then r.filter fun p => p.1 ≠ rightOn else r := by
  rw [mergeRow]
  generalize (if leftOn = rightOn then r.filter fun p => p.1 ≠ rightOn else r) = r' at *
  have : l.names.filter (Fields.names r').contains = [] := by
    rw [List.filter_eq_nil_iff]
    intro k hk
    simpa using h k hk
  simp [this]

variable {α : Type}

/-- The result with another objective value. -/
def withObjective (r : Fields α) (x : α) : Fields α := r.map fun p => if p.1 = "objective" then ("objective", x) else p

theorem set_in_right {a b : Fields α} {x : α} (ha : "objective" ∉ a.names) (hb : "objective" ∈ b.names) :
    Fields.set (a ++ b) "objective" x = a ++ withObjective b x := by
  rw [Fields.set, if_pos (by rw [Fields.names_append]; simp [hb]), List.map_append]
  congr 1
  conv_rhs => rw [← List.map_id a]
  apply List.map_congr_left
  intro p hp
  rw [if_neg]
  · rfl
  · intro e; exact ha (e ▸ List.mem_map_of_mem hp)

end Pctsp
