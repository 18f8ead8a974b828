import Verif.Lemmas.Reorder

/-!
# Properties C01-C04: walks, costs, prizes
-/

namespace Pctsp

/-! ## C01 -/

/-- **C01.** Reordering a closed tour that visits the root is a rotation: same length, starts and ends at the root, the vertices
(without the repeated last one) are rotated, and the multiset of directed consecutive pairs is unchanged. -/
theorem C01_reorder_is_rotation {α : Type} [DecidableEq α] (t : List α) (r : α)
    (hclosed : t.head? = t.getLast?) (hr : r ∈ t) :
    let s := reorderTourFromRoot t r
    s.head? = some r ∧ s.getLast? = some r ∧ s.length = t.length ∧ s.dropLast ~r t.dropLast ∧
      (consec s).Perm (consec t) := by
  rcases closed_cases hclosed hr with ⟨l, rfl, hl⟩ | ⟨a, l, m, rfl, hx⟩
  · simp only [reorder_head]
    exact ⟨by simp, hl, by simp, List.IsRotated.refl _, List.Perm.refl _⟩
  · have e : reorderTourFromRoot (a :: (l ++ r :: (m ++ [a]))) r = r :: (m ++ [a] ++ l ++ [r]) := by
      rw [reorder_mid hx]
    simp only [e]
    refine ⟨rfl, ?_, by simp; omega, ?_, ?_⟩
    · rw [← List.cons_append, List.getLast?_concat]
    · have h1 : (r :: (m ++ [a] ++ l ++ [r])).dropLast = (r :: m) ++ (a :: l) := by
        rw [← List.cons_append, List.dropLast_concat]; simp
      have h2 : (a :: (l ++ r :: (m ++ [a]))).dropLast = (a :: l) ++ (r :: m) := by
        have : a :: (l ++ r :: (m ++ [a])) = ((a :: l) ++ (r :: m)) ++ [a] := by simp
        rw [this, List.dropLast_concat]
      rw [h1, h2]
      exact List.isRotated_append
    · have h1 : consec (r :: (m ++ [a] ++ l ++ [r])) = consec (r :: m ++ [a]) ++ consec (a :: l ++ [r]) := by
        have : r :: (m ++ [a] ++ l ++ [r]) = (r :: m) ++ a :: (l ++ [r]) := by simp
        rw [this, consec_append]; rfl
      have h2 : consec (a :: (l ++ r :: (m ++ [a]))) = consec (a :: l ++ [r]) ++ consec (r :: m ++ [a]) := by
        have : a :: (l ++ r :: (m ++ [a])) = (a :: l) ++ r :: (m ++ [a]) := by simp
        rw [this, consec_append]; rfl
      rw [h1, h2]
      exact List.perm_append_comm

example := C01_reorder_is_rotation [4, 7, 1, 9, 4] 1 (by decide) (by decide)

/-- **C01.** Consequence: a closed walk keeps its cost, its prize, and stays a walk. -/
theorem C01_reorder_cost_prize (g : Graph) (hg : g.WF) (cost prize : Nat → Int) (t : List Nat) (r : Nat) (c : Int)
    (hclosed : t.head? = t.getLast?) (hr : r ∈ t) (hc : totalCost g cost t = .ok c) :
    totalCost g cost (reorderTourFromRoot t r) = .ok c ∧
      totalPrizeOfTour prize (reorderTourFromRoot t r) = totalPrizeOfTour prize t := by
  obtain ⟨h1, h2, h3, h4, h5⟩ := C01_reorder_is_rotation t r hclosed hr
  have hw := isWalk_of_totalCost hc
  have hw' : IsWalk g (reorderTourFromRoot t r) := fun p hp => hw p (h5.mem_iff.1 hp)
  have hne : t ≠ [] := by rintro rfl; simp at hr
  have hne' : reorderTourFromRoot t r ≠ [] := by
    intro h; rw [h] at h1; simp at h1
  constructor
  · rw [totalCost_of_isWalk hg cost hw', ← hc, totalCost_of_isWalk hg cost hw]
    simp only [walkCost, Res.ok.injEq]
    exact sum_eq_of_perm (h5.map _)
  · rw [totalPrizeOfTour_eq prize hne, totalPrizeOfTour_eq prize hne']
    simp only [tourPrize, prizeSum, Res.ok.injEq]
    exact sum_eq_of_perm (h4.perm.map _)

example := C01_reorder_cost_prize { n := 3, edges := [(0, 1), (1, 2), (2, 0)] } (by decide) (fun e => e + 1) (fun v => 5 * v) [0, 1, 2, 0] 2 6
  (by decide) (by decide) (by decide)

/-- **C01.** Reordering twice is the same as reordering once. -/
theorem C01_reorder_idempotent {α : Type} [DecidableEq α] (t : List α) (r : α)
    (hclosed : t.head? = t.getLast?) (hr : r ∈ t) :
    reorderTourFromRoot (reorderTourFromRoot t r) r = reorderTourFromRoot t r := by
  obtain ⟨h1, -⟩ := C01_reorder_is_rotation t r hclosed hr
  generalize reorderTourFromRoot t r = s at h1
  cases s with
  | nil => simp at h1
  | cons a s => simp at h1; subst h1; exact reorder_head a s

example := C01_reorder_idempotent [4, 7, 1, 9, 4] 1 (by decide) (by decide)

/-- **C01.** A simple closed tour from any vertex becomes a simple closed tour from the root. -/
theorem C01_reorder_isTour (g : Graph) (t : List Nat) (a r : Nat) (ht : IsTour g a t) (hr : r ∈ t) :
    IsTour g r (reorderTourFromRoot t r) := by
  obtain ⟨m, rfl⟩ := ht.shape
  have hclosed : (a :: (m ++ [a])).head? = (a :: (m ++ [a])).getLast? := by
    rw [← List.cons_append, List.getLast?_concat]; rfl
  obtain ⟨h1, h2, h3, h4, h5⟩ := C01_reorder_is_rotation _ r hclosed hr
  generalize reorderTourFromRoot (a :: (m ++ [a])) r = s at *
  refine ⟨?_, h4.perm.nodup_iff.2 ht.nodup, fun p hp => ht.walk p (h5.mem_iff.1 hp)⟩
  cases s with
  | nil => simp at h1
  | cons b s =>
    simp at h1; subst h1
    rcases List.eq_nil_or_concat s with rfl | ⟨s', c, rfl⟩
    · simp at h3
    · rw [List.concat_eq_append] at *
      rw [← List.cons_append, List.getLast?_concat] at h2
      simp at h2; subst h2; exact ⟨s', rfl⟩

-- The hypotheses hold for a tour whose root is in the middle.
example : let t := [4, 7, 1, 9, 4]
    t.head? = t.getLast? ∧ 1 ∈ t ∧ reorderTourFromRoot t 1 = [1, 9, 4, 7, 1] := by decide

example : let g : Graph := { n := 3, edges := [(0, 1), (1, 2), (2, 0)] }
    totalCost g (fun e => e + 1) [0, 1, 2, 0] = .ok 6 ∧
    totalCost g (fun e => e + 1) (reorderTourFromRoot [0, 1, 2, 0] 2) = .ok 6 := by decide

/-! ## C02 -/

/-- **C02.** With a root that is not on a non-empty tour, the result is the tour without its first vertex, followed by the root: no
error is reported, and the first vertex of the tour has lost one occurrence. -/
theorem C02_reorder_absent_root {α : Type} [DecidableEq α] (t : List α) (r : α) (hne : t ≠ []) (hr : r ∉ t) :
    reorderTourFromRoot t r = t.tail ++ [r] ∧ ¬ (reorderTourFromRoot t r).Perm t := by
  cases t with
  | nil => exact absurd rfl hne
  | cons a l =>
    rw [reorder_not_mem hr]
    refine ⟨rfl, fun h => hr (h.mem_iff.1 (by simp))⟩

example := C02_reorder_absent_root [4, 7, 9, 4] 1 (by decide) (by decide)

/-- **C02.** For closed tours the result visits exactly the vertices of the input iff the root is on it or the tour is empty. -/
theorem C02_reorder_visits_same_iff {α : Type} [DecidableEq α] (t : List α) (r : α)
    (hclosed : t.head? = t.getLast?) :
    (∀ v, v ∈ reorderTourFromRoot t r ↔ v ∈ t) ↔ (t = [] ∨ r ∈ t) := by
  constructor
  · intro h
    by_cases hr : r ∈ t
    · exact Or.inr hr
    · cases t with
      | nil => exact Or.inl rfl
      | cons a l =>
        have := (h r).1 (by rw [reorder_not_mem hr]; simp)
        exact absurd this hr
  · rintro (rfl | hr)
    · simp
    · intro v
      rcases closed_cases hclosed hr with ⟨l, rfl, hl⟩ | ⟨a, l, m, rfl, hx⟩
      · rw [reorder_head]
      · rw [reorder_mid hx]; simp; tauto

example : reorderTourFromRoot [4, 7, 9, 4] 1 = [7, 9, 4, 1] := by decide

/-! ## C03 -/

/-- **C03.** On a walk: one edge per consecutive pair, and the `i`-th edge joins the `i`-th and `(i+1)`-th vertex. -/
theorem C03_edges_in_walk (g : Graph) (hg : g.WF) (l : List Nat) (h : IsWalk g l) :
    ∃ es, getEdgesInWalk g l = .ok es ∧ es.length = l.length - 1 ∧
      ∀ i u v e, l[i]? = some u → l[i + 1]? = some v → es[i]? = some e →
        (g.edges[e]? = some (u, v) ∨ g.edges[e]? = some (v, u)) := by
  obtain ⟨es, h1, h2⟩ := getEdgesInWalk_of_isWalk hg h
  have hlen : es.length = l.length - 1 := by
    have := congrArg List.length h2
    simpa [consec_length] using this
  refine ⟨es, h1, hlen, ?_⟩
  intro i u v e hu hv he
  have := congrArg (fun l => l[i]?) h2
  simp only [List.getElem?_map, he, Option.map_some] at this
  have hc : (consec l)[i]? = some (u, v) := by
    simp [consec, List.getElem?_zip_eq_some, hu, hv]
  rw [hc] at this
  exact edgeIdx_eq_some (by simpa using this.symm)

example := C03_edges_in_walk { n := 4, edges := [(0, 1), (2, 1), (1, 2), (3, 3)] } (by decide) [0, 1, 2, 1] (by decide)

/-- **C03.** If some consecutive pair is not joined, the first such pair is reported by the exception. -/
theorem C03_edge_not_found (g : Graph) (hg : g.WF) (l m : List Nat) (u v : Nat) (hpre : IsWalk g (l ++ [u]))
    (hu : u < g.n) (huv : ¬ Adj g u v) :
    getEdgesInWalk g (l ++ u :: v :: m) = .throw (.edgeNotFound u v) := by
  induction l with
  | nil =>
    simp [getEdgesInWalk, Graph.edge, hu, edgeIdx_eq_none_iff.2 huv]
  | cons a l ih =>
    cases l with
    | nil =>
      simp at hpre
      obtain ⟨e, he⟩ := Option.isSome_iff_exists.1 (edgeIdx_isSome_iff.2 hpre)
      simp at ih
      simp [getEdgesInWalk, Graph.edge, hpre.lt_left hg, he, hu, edgeIdx_eq_none_iff.2 huv]
    | cons b l =>
      simp only [List.cons_append, isWalk_cons_cons] at hpre ih ⊢
      obtain ⟨e, he⟩ := Option.isSome_iff_exists.1 (edgeIdx_isSome_iff.2 hpre.1)
      rw [getEdgesInWalk]
      simp only [Graph.edge, hpre.1.lt_left hg, if_true, Res.ok_bind, he]
      rw [ih hpre.2]; rfl

example := C03_edge_not_found { n := 4, edges := [(0, 1), (2, 1), (1, 2), (3, 3)] } (by decide) [0, 1] [3] 2 3 (by decide) (by decide) (by decide)

/-- **C03.** It succeeds exactly on walks. -/
theorem C03_ok_iff_walk (g : Graph) (hg : g.WF) (l : List Nat) :
    (∃ es, getEdgesInWalk g l = .ok es) ↔ IsWalk g l :=
  ⟨fun ⟨_, h⟩ => (isWalk_of_getEdgesInWalk h).1, fun h => (getEdgesInWalk_of_isWalk hg h).imp fun _ h => h.1⟩

example := C03_ok_iff_walk { n := 4, edges := [(0, 1), (2, 1), (1, 2), (3, 3)] } (by decide) [0, 1, 2, 3]

/-- **C03.** Fewer than two vertices have no edges. -/
theorem C03_short (g : Graph) (l : List Nat) (h : l.length < 2) : getEdgesInWalk g l = .ok [] := by
  match l, h with
  | [], _ => rfl
  | [_], _ => rfl

example : let g : Graph := { n := 4, edges := [(0, 1), (2, 1), (1, 2), (3, 3)] }
    g.WF ∧ getEdgesInWalk g [0, 1, 2, 1] = .ok [0, 1, 1] ∧
    getEdgesInWalk g [0, 1, 2, 3, 3] = .throw (.edgeNotFound 2 3) := by decide

/-! ## C04 -/

/-- **C04.** The cost of a walk is the sum of the costs of its edges. -/
theorem C04_cost_is_sum (g : Graph) (cost : Nat → Int) (l : List Nat) (c : Int) :
    totalCost g cost l = .ok c ↔ ∃ es, getEdgesInWalk g l = .ok es ∧ c = (es.map cost).sum := by
  simp only [totalCost, Res.bind_eq_ok, Res.pure_eq, Res.ok.injEq, totalCostEdges_eq]
  exact ⟨fun ⟨es, h1, h2⟩ => ⟨es, h1, h2.symm⟩, fun ⟨es, h1, h2⟩ => ⟨es, h1, h2.symm⟩⟩

/-- **C04.** Splitting a walk at any of its vertices splits the cost. -/
theorem C04_cost_additive (g : Graph) (hg : g.WF) (cost : Nat → Int) (l m : List Nat) (a : Nat) (c : Int) :
    totalCost g cost (l ++ a :: m) = .ok c ↔
      ∃ c1 c2, totalCost g cost (l ++ [a]) = .ok c1 ∧ totalCost g cost (a :: m) = .ok c2 ∧ c = c1 + c2 := by
  constructor
  · intro h
    have hw := isWalk_of_totalCost h
    have hw' := isWalk_append.1 hw
    refine ⟨_, _, totalCost_of_isWalk hg cost hw'.1, totalCost_of_isWalk hg cost hw'.2, ?_⟩
    rw [totalCost_of_isWalk hg cost hw] at h
    rw [← walkCost_append]; exact (Res.ok.inj h).symm
  · rintro ⟨c1, c2, h1, h2, rfl⟩
    have w1 := isWalk_of_totalCost h1
    have w2 := isWalk_of_totalCost h2
    rw [totalCost_of_isWalk hg cost w1] at h1
    rw [totalCost_of_isWalk hg cost w2] at h2
    rw [totalCost_of_isWalk hg cost (isWalk_append.2 ⟨w1, w2⟩), walkCost_append, Res.ok.inj h1, Res.ok.inj h2]

example := (C04_cost_additive { n := 4, edges := [(0, 1), (2, 1), (2, 3)] } (by decide) (fun e => 10 * e + 1) [0, 1] [3] 2 33).1 (by decide)

/-- **C04.** The reversed walk has the same cost.  (True even with parallel edges: both directions find the first edge.) -/
theorem C04_cost_reverse (g : Graph) (hg : g.WF) (cost : Nat → Int) (l : List Nat) (c : Int) :
    totalCost g cost l.reverse = .ok c ↔ totalCost g cost l = .ok c := by
  have key : ∀ l : List Nat, totalCost g cost l = .ok c → totalCost g cost l.reverse = .ok c := by
    intro l h
    have hw := isWalk_of_totalCost h
    rw [totalCost_of_isWalk hg cost hw] at h
    rw [totalCost_of_isWalk hg cost (isWalk_reverse.2 hw), ← h]
    simp only [walkCost, consec_reverse, List.map_reverse, List.map_map, Res.ok.injEq]
    rw [sum_eq_of_perm (List.reverse_perm _)]
    congr 1
    apply List.map_congr_left
    intro p _
    exact pairCost_comm g cost p.2 p.1
  exact ⟨fun h => by simpa using key _ h, key l⟩

example := (C04_cost_reverse { n := 4, edges := [(0, 1), (2, 1), (2, 3)] } (by decide) (fun e => 10 * e + 1) [0, 1, 2, 3] 33).2 (by decide)

/-- **C04.** The prize of a tour is the sum over all vertices but the last; the empty list is undefined behaviour, and nothing
else is. -/
theorem C04_tour_prize (prize : Nat → Int) (t : List Nat) :
    (t = [] → (totalPrizeOfTour prize t).isUb = true) ∧
      (t ≠ [] → totalPrizeOfTour prize t = .ok ((t.dropLast.map prize).sum)) := by
  constructor
  · rintro rfl; rfl
  · intro h; exact totalPrizeOfTour_eq prize h

/-- **C04.** Prizes add up over concatenated paths. -/
theorem C04_prize_additive (prize : Nat → Int) (l m : List Nat) :
    totalPrize prize (l ++ m) = totalPrize prize l + totalPrize prize m := by
  simp [totalPrize_eq]

example : let g : Graph := { n := 4, edges := [(0, 1), (2, 1), (2, 3)] }
    g.WF ∧ totalCost g (fun e => 10 * e + 1) [0, 1, 2, 3] = .ok 33 ∧ totalCost g (fun e => 10 * e + 1) [3, 2, 1, 0] = .ok 33 ∧
    totalPrizeOfTour (fun v => v) [1, 2, 3, 1] = .ok 6 := by decide

end Pctsp
