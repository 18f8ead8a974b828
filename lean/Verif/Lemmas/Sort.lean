import Verif.Model.Extension
import Verif.Lemmas.Walk

/-! Helper lemmas: sorting, merging, adjacency lists. -/

namespace Pctsp

theorem insertSorted_perm (x : Nat) (l : List Nat) : (insertSorted x l).Perm (x :: l) := by
  induction l with
  | nil => exact List.Perm.refl _
  | cons y l ih =>
    simp only [insertSorted]
    split
    · exact List.Perm.refl _
    · exact (ih.cons y).trans (List.Perm.swap _ _ _)

theorem insertSorted_sorted (x : Nat) {l : List Nat} (h : l.Pairwise (· ≤ ·)) : (insertSorted x l).Pairwise (· ≤ ·) := by
  induction l with
  | nil => simp [insertSorted]
  | cons y l ih =>
    simp only [insertSorted]
    rw [List.pairwise_cons] at h
    split
    · rename_i hxy
      rw [List.pairwise_cons]
      refine ⟨?_, List.pairwise_cons.2 h⟩
      intro z hz
      rcases List.mem_cons.1 hz with rfl | hz
      · exact hxy
      · exact Nat.le_trans hxy (h.1 z hz)
    · rename_i hxy
      rw [List.pairwise_cons]
      refine ⟨?_, ih h.2⟩
      intro z hz
      rcases List.mem_cons.1 ((insertSorted_perm x l).mem_iff.1 hz) with rfl | hz
      · omega
      · exact h.1 z hz

theorem sortNat_perm (l : List Nat) : (sortNat l).Perm l := by
  induction l with
  | nil => exact List.Perm.refl _
  | cons a l ih => exact (insertSorted_perm a _).trans (ih.cons a)

theorem sortNat_sorted (l : List Nat) : (sortNat l).Pairwise (· ≤ ·) := by
  induction l with
  | nil => simp [sortNat]
  | cons a l ih => exact insertSorted_sorted a ih

theorem count_eq_zero_of_lt {y x : Nat} {ys : List Nat} (h : (y :: ys).Pairwise (· ≤ ·)) (hxy : x < y) :
    (y :: ys).count x = 0 := by
  rw [List.count_eq_zero]
  intro hm
  rcases List.mem_cons.1 hm with rfl | hm
  · omega
  · have := (List.pairwise_cons.1 h).1 x hm; omega

theorem setIntersection_nil (ys : List Nat) : setIntersection [] ys = [] := rfl
theorem setIntersection_cons_nil (x : Nat) (xs : List Nat) : setIntersection (x :: xs) [] = [] := rfl
theorem setIntersection_cons_cons (x : Nat) (xs : List Nat) (y : Nat) (ys : List Nat) :
    setIntersection (x :: xs) (y :: ys) =
      if x < y then setIntersection xs (y :: ys) else if y < x then setIntersection (x :: xs) ys
      else x :: setIntersection xs ys := rfl

theorem setIntersection_count (xs ys : List Nat) (hx : xs.Pairwise (· ≤ ·)) (hy : ys.Pairwise (· ≤ ·)) (z : Nat) :
    (setIntersection xs ys).count z = min (xs.count z) (ys.count z) := by
  induction xs generalizing ys with
  | nil => simp [setIntersection_nil]
  | cons x xs ihx =>
    have hxs := (List.pairwise_cons.1 hx).2
    induction ys with
    | nil => simp [setIntersection_cons_nil]
    | cons y ys ihy =>
      have hys := (List.pairwise_cons.1 hy).2
      rw [setIntersection_cons_cons]
      split
      · rename_i hlt
        rw [ihx _ hxs hy]
        by_cases hz : z = x
        · subst hz
          rw [count_eq_zero_of_lt hy hlt]; simp
        · rw [List.count_cons_of_ne (Ne.symm hz)]
      · split
        · rename_i hlt
          rw [ihy hys]
          by_cases hz : z = y
          · subst hz
            rw [count_eq_zero_of_lt hx hlt]; simp
          · rw [List.count_cons_of_ne (Ne.symm hz) (l := ys)]
        · obtain rfl : x = y := by omega
          have := ihx ys hxs hys
          by_cases hz : z = x
          · subst hz; simp [this]
          · simp [List.count_cons_of_ne (Ne.symm hz), this]

theorem setIntersection_sublist (xs ys : List Nat) : (setIntersection xs ys).Sublist xs := by
  induction xs generalizing ys with
  | nil => simp [setIntersection_nil]
  | cons x xs ihx =>
    induction ys with
    | nil => simp [setIntersection_cons_nil]
    | cons y ys ihy =>
      rw [setIntersection_cons_cons]
      split
      · exact (ihx _).cons x
      · split
        · exact ihy
        · exact (ihx _).cons_cons x

theorem mem_nbrsOf {u v : Nat} {e : Nat × Nat} : v ∈ Graph.nbrsOf u e ↔ e = (u, v) ∨ e = (v, u) := by
  obtain ⟨a, b⟩ := e
  simp only [Graph.nbrsOf, List.mem_append, Prod.mk.injEq]
  constructor
  · rintro (h | h)
    · split at h <;> simp_all
    · split at h <;> simp_all
  · rintro (⟨rfl, rfl⟩ | ⟨rfl, rfl⟩) <;> simp

theorem mem_adjacent {g : Graph} {u v : Nat} : v ∈ g.adjacent u ↔ Adj g u v := by
  simp only [Graph.adjacent, List.mem_flatMap, mem_nbrsOf, Adj]
  constructor
  · rintro ⟨e, he, rfl | rfl⟩ <;> simp [he]
  · rintro (h | h) <;> exact ⟨_, h, by simp⟩

theorem neighborIntersection_spec {g : Graph} {u v : Nat} (hu : u < g.n) (hv : v < g.n) :
    ∃ l, neighborIntersection g u v = .ok l ∧ l.Pairwise (· ≤ ·) ∧
      (∀ x, l.count x = min ((g.adjacent u).count x) ((g.adjacent v).count x)) ∧
      (∀ x, x ∈ l ↔ Adj g u x ∧ Adj g v x) := by
  refine ⟨setIntersection (sortNat (g.adjacent u)) (sortNat (g.adjacent v)), ?_, ?_, ?_⟩
  · simp [neighborIntersection, Graph.adjacentVertices, hu, hv]
  · exact (sortNat_sorted _).sublist (setIntersection_sublist _ _)
  · have hc : ∀ x, (setIntersection (sortNat (g.adjacent u)) (sortNat (g.adjacent v))).count x =
        min ((g.adjacent u).count x) ((g.adjacent v).count x) := by
      intro x
      rw [setIntersection_count _ _ (sortNat_sorted _) (sortNat_sorted _), (sortNat_perm _).count_eq,
        (sortNat_perm _).count_eq]
    refine ⟨hc, fun x => ?_⟩
    rw [← List.count_pos_iff, hc, Nat.lt_min, List.count_pos_iff, List.count_pos_iff, mem_adjacent, mem_adjacent]

end Pctsp
