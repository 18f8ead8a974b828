import Verif.Spec.DisjointPaths
import Verif.Lemmas.Preprocess

/-! # Lemmas about the Python heuristics -/

namespace Pctsp

variable {V : Type} [DecidableEq V]

theorem countDistinct_le (l : List V) : countDistinct l ≤ l.length := by
  induction l with
  | nil => simp [countDistinct]
  | cons a l ih => simp only [countDistinct, List.length_cons]; split <;> omega

theorem countDistinct_eq_length (l : List V) : countDistinct l = l.length ↔ l.Nodup := by
  induction l with
  | nil => simp [countDistinct]
  | cons a l ih =>
    have := countDistinct_le l
    simp only [countDistinct, List.length_cons, List.nodup_cons]
    split
    · rename_i h; simp only [h, not_true_eq_false, false_and, iff_false]; omega
    · rename_i h; simp only [h, not_false_eq_true, true_and, ← ih]; omega

/-- The test for repetitions: a closed walk has one vertex less than positions iff only the first one is repeated. -/
theorem countDistinct_closed (s : V) (m : List V) :
    countDistinct (s :: (m ++ [s])) = (s :: (m ++ [s])).length - 1 ↔ (s :: m).Nodup := by
  have h1 : countDistinct (s :: (m ++ [s])) = countDistinct (m ++ [s]) := by simp [countDistinct]
  have h2 : (s :: (m ++ [s])).length - 1 = (m ++ [s]).length := by simp
  rw [h1, h2, countDistinct_eq_length]
  exact (List.perm_append_singleton s m).nodup_iff

theorem tourFromPaths_pair (s x : V) (a b : List V) :
    tourFromPaths (s :: (a ++ [x]), s :: (b ++ [x])) = .ok (s :: (a ++ x :: (b.reverse ++ [s]))) := by
  have h1 : ¬ (s :: (a ++ [x])).length ≤ 1 := by simp
  have h2 : ¬ (s :: (b ++ [x])).length ≤ 1 := by simp
  have h3 : (s :: (a ++ [x])).getLast? = (s :: (b ++ [x])).getLast? := by
    rw [← List.cons_append, ← List.cons_append, List.getLast?_append, List.getLast?_append]; simp
  simp only [tourFromPaths, h1, h2, if_false, List.head?_cons, ne_eq, not_true_eq_false, h3]
  simp

omit [DecidableEq V] in
theorem two_le_split {l : List V} (h : ¬ l.length ≤ 1) : ∃ s x a, l = s :: (a ++ [x]) := by
  match l, h with
  | s :: l, h =>
    rcases List.eq_nil_or_concat l with rfl | ⟨a, x, rfl⟩
    · simp at h
    · exact ⟨s, x, a, by simp⟩
  | [], h => simp at h

theorem tourFromPaths_spec (paths : List V × List V) :
    (∃ t, ClosesTo paths t ∧ tourFromPaths paths = .ok t) ∨ ((∀ t, ¬ ClosesTo paths t) ∧ tourFromPaths paths = .throw .valueError) := by
  obtain ⟨p, q⟩ := paths
  by_cases hc : ∃ t, ClosesTo (p, q) t
  · obtain ⟨t, s, x, a, b, h1, h2, h3⟩ := hc
    simp only at h1 h2
    subst h1 h2 h3
    exact .inl ⟨_, ⟨s, x, a, b, rfl, rfl, rfl⟩, tourFromPaths_pair s x a b⟩
  · refine .inr ⟨fun t ht => hc ⟨t, ht⟩, ?_⟩
    simp only [tourFromPaths]
    split
    · rfl
    · rename_i hp
      split
      · rfl
      · rename_i hq
        split
        · rfl
        · rename_i hh
          split
          · rfl
          · rename_i hl
            exfalso
            obtain ⟨s, x, a, rfl⟩ := two_le_split hp
            obtain ⟨s', x', b, rfl⟩ := two_le_split hq
            simp only [List.head?_cons, ne_eq, Option.some.injEq, not_not] at hh
            subst hh
            simp only [ne_eq, not_not] at hl
            rw [← List.cons_append, ← List.cons_append, List.getLast?_append, List.getLast?_append] at hl
            simp at hl
            subst hl
            exact hc ⟨_, s, x, a, b, rfl, rfl, rfl⟩

theorem tourFromPaths_eq_ok {paths : List V × List V} {t : List V} : tourFromPaths paths = .ok t ↔ ClosesTo paths t := by
  constructor
  · intro h
    rcases tourFromPaths_spec paths with ⟨u, h1, h2⟩ | ⟨h1, h2⟩
    · rw [h] at h2; injection h2 with h2; rw [h2]; exact h1
    · rw [h] at h2; cases h2
  · rintro ⟨s, x, a, b, h1, h2, h3⟩
    obtain ⟨p, q⟩ := paths
    simp only at h1 h2
    subst h1 h2 h3
    exact tourFromPaths_pair s x a b

theorem closesTo_distinct {paths : List V × List V} {t : List V} (h : ClosesTo paths t) :
    countDistinct t = t.length - 1 ↔ t.dropLast.Nodup := by
  obtain ⟨s, x, a, b, -, -, rfl⟩ := h
  have : s :: (a ++ x :: (b.reverse ++ [s])) = s :: ((a ++ x :: b.reverse) ++ [s]) := by simp
  have h2 : (s :: ((a ++ x :: b.reverse) ++ [s])).dropLast = s :: (a ++ x :: b.reverse) := by
    rw [← List.cons_append, List.dropLast_concat]
  rw [this, countDistinct_closed, h2]

omit [DecidableEq V] in
theorem closesTo_unique {paths : List V × List V} {t u : List V} (h : ClosesTo paths t) (k : ClosesTo paths u) : t = u := by
  obtain ⟨s, x, a, b, h1, h2, rfl⟩ := h
  obtain ⟨s', x', a', b', k1, k2, rfl⟩ := k
  rw [h1] at k1; rw [h2] at k2
  simp only [List.cons.injEq] at k1 k2
  obtain ⟨rfl, k1⟩ := k1
  obtain ⟨rfl, hx⟩ := List.append_inj' k1 rfl
  simp only [List.cons.injEq, and_true] at hx
  subst hx
  obtain ⟨rfl, -⟩ := List.append_inj' k2.2 rfl
  rfl

omit [DecidableEq V] in
theorem closesTo_ne_nil {paths : List V × List V} {t : List V} (h : ClosesTo paths t) : t ≠ [] := by
  obtain ⟨s, x, a, b, -, -, rfl⟩ := h; simp

/-- What the loop of the heuristic returns: the tour of the first cheapest entry, if one is below the current cost. -/
theorem suurballesLoop_spec (prizeOf : List V → Int) (quota : Int) (costMap : V → Option Int) :
    ∀ (m : List (V × (List V × List V))), (∀ e ∈ m, (∃ t, ClosesTo e.2 t) ∧ ∃ c, costMap e.1 = some c) →
    ∀ (least : Int) (best : List V), ∃ r, suurballesLoop prizeOf quota costMap m least best = .ok r ∧
      ((r = best ∧ ∀ e ∈ m, ∀ t c, ClosesTo e.2 t → costMap e.1 = some c → ¬ Qualifies prizeOf quota least c t) ∨
       ∃ A e B c, m = A ++ e :: B ∧ ClosesTo e.2 r ∧ costMap e.1 = some c ∧ Qualifies prizeOf quota least c r ∧
        (∀ f ∈ A, ∀ t d, ClosesTo f.2 t → costMap f.1 = some d → Qualifies prizeOf quota least d t → c < d) ∧
        (∀ f ∈ B, ∀ t d, ClosesTo f.2 t → costMap f.1 = some d → Qualifies prizeOf quota least d t → c ≤ d)) := by
  intro m
  induction m with
  | nil => intro _ least best; exact ⟨best, rfl, .inl ⟨rfl, by simp⟩⟩
  | cons e m ih =>
    intro hm least best
    obtain ⟨⟨t, ht⟩, c, hc⟩ := hm e (by simp)
    obtain ⟨v, paths⟩ := e
    have ih := ih (fun f hf => hm f (by simp [hf]))
    simp only at ht hc
    by_cases hq : Qualifies prizeOf quota least c t
    · have hcond : c < least ∧ quota ≤ prizeOf t ∧ countDistinct t = t.length - 1 := ⟨hq.1, hq.2.1, (closesTo_distinct ht).2 hq.2.2⟩
      obtain ⟨r, hr, hcase⟩ := ih c t
      refine ⟨r, ?_, ?_⟩
      · simp only [suurballesLoop, tourFromPaths_eq_ok.2 ht, Res.ok_bind, hc, if_pos hcond, hr]
      · right
        rcases hcase with ⟨rfl, hno⟩ | ⟨A, f, B, d, rfl, h1, h2, h3, h4, h5⟩
        · refine ⟨[], (v, paths), m, c, rfl, ht, hc, hq, by simp, ?_⟩
          intro f hf u d hu hd hqf
          by_contra hlt
          exact hno f hf u d hu hd ⟨by omega, hqf.2⟩
        · refine ⟨(v, paths) :: A, f, B, d, rfl, h1, h2, ⟨Int.lt_trans h3.1 hq.1, h3.2⟩, ?_, ?_⟩
          · intro f' hf' u d' hu hd' hqf
            rcases List.mem_cons.1 hf' with rfl | hf'
            · simp only at hd'
              rw [hc] at hd'; injection hd' with hd'; have := h3.1; omega
            · by_cases hlt : d' < c
              · exact h4 f' hf' u d' hu hd' ⟨hlt, hqf.2⟩
              · have := h3.1; omega
          · intro f' hf' u d' hu hd' hqf
            by_cases hlt : d' < c
            · exact h5 f' hf' u d' hu hd' ⟨hlt, hqf.2⟩
            · have := h3.1; omega
    · have hcond : ¬ (c < least ∧ quota ≤ prizeOf t ∧ countDistinct t = t.length - 1) :=
        fun h => hq ⟨h.1, h.2.1, (closesTo_distinct ht).1 h.2.2⟩
      obtain ⟨r, hr, hcase⟩ := ih least best
      refine ⟨r, ?_, ?_⟩
      · simp only [suurballesLoop, tourFromPaths_eq_ok.2 ht, Res.ok_bind, hc, if_neg hcond, hr]
      · have hhead : ∀ u d, ClosesTo paths u → costMap v = some d → ¬ Qualifies prizeOf quota least d u := by
          intro u d hu hd
          rw [closesTo_unique hu ht]
          rw [hc] at hd; injection hd with hd; rw [← hd]; exact hq
        rcases hcase with ⟨rfl, hno⟩ | ⟨A, f, B, d, rfl, h1, h2, h3, h4, h5⟩
        · left
          refine ⟨rfl, fun f hf u d hu hd => ?_⟩
          rcases List.mem_cons.1 hf with rfl | hf
          · exact hhead u d hu hd
          · exact hno f hf u d hu hd
        · right
          refine ⟨(v, paths) :: A, f, B, d, rfl, h1, h2, h3, ?_, h5⟩
          intro f' hf' u d' hu hd' hqf
          rcases List.mem_cons.1 hf' with rfl | hf'
          · exact absurd hqf (hhead u d' hu hd')
          · exact h4 f' hf' u d' hu hd' hqf

theorem biggestTourLoop_spec (prizeOf : List V → Int) :
    ∀ (m : List (V × (List V × List V))), (∀ e ∈ m, ∃ t, ClosesTo e.2 t) →
    ∀ (big : Int) (best : List V), ∃ r, biggestTourLoop prizeOf m big best = .ok r ∧
      ((r = best ∧ ∀ e ∈ m, ∀ t, ClosesTo e.2 t → prizeOf t ≤ big) ∨
       ∃ A e B, m = A ++ e :: B ∧ ClosesTo e.2 r ∧ big < prizeOf r ∧ (∀ f ∈ A, ∀ t, ClosesTo f.2 t → prizeOf t < prizeOf r) ∧
        (∀ f ∈ B, ∀ t, ClosesTo f.2 t → prizeOf t ≤ prizeOf r)) := by
  intro m
  induction m with
  | nil => intro _ big best; exact ⟨best, rfl, .inl ⟨rfl, by simp⟩⟩
  | cons e m ih =>
    intro hm big best
    obtain ⟨t, ht⟩ := hm e (by simp)
    obtain ⟨v, paths⟩ := e
    have ih := ih (fun f hf => hm f (by simp [hf]))
    simp only at ht
    by_cases hq : big < prizeOf t
    · obtain ⟨r, hr, hcase⟩ := ih (prizeOf t) t
      refine ⟨r, ?_, .inr ?_⟩
      · simp only [biggestTourLoop, tourFromPaths_eq_ok.2 ht, Res.ok_bind, if_pos hq, hr]
      · rcases hcase with ⟨rfl, hno⟩ | ⟨A, f, B, rfl, h1, h2, h3, h4⟩
        · exact ⟨[], (v, paths), m, rfl, ht, hq, by simp, hno⟩
        · refine ⟨(v, paths) :: A, f, B, rfl, h1, by omega, ?_, h4⟩
          intro f' hf' u hu
          rcases List.mem_cons.1 hf' with rfl | hf'
          · rw [closesTo_unique hu ht]; exact h2
          · exact h3 f' hf' u hu
    · obtain ⟨r, hr, hcase⟩ := ih big best
      refine ⟨r, ?_, ?_⟩
      · simp only [biggestTourLoop, tourFromPaths_eq_ok.2 ht, Res.ok_bind, if_neg hq, hr]
      · rcases hcase with ⟨rfl, hno⟩ | ⟨A, f, B, rfl, h1, h2, h3, h4⟩
        · left
          refine ⟨rfl, fun f hf u hu => ?_⟩
          rcases List.mem_cons.1 hf with rfl | hf
          · rw [closesTo_unique hu ht]; omega
          · exact hno f hf u hu
        · right
          refine ⟨(v, paths) :: A, f, B, rfl, h1, h2, ?_, h4⟩
          intro f' hf' u hu
          rcases List.mem_cons.1 hf' with rfl | hf'
          · rw [closesTo_unique hu ht]; omega
          · exact h3 f' hf' u hu

end Pctsp
