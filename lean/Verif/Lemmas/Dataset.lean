import Verif.Spec.Dataset
import Verif.Lemmas.DisjointMap
import Verif.Lemmas.Preprocess

/-!
# Lemmas about the statistics of an instance
-/

namespace Pctsp

variable {V W : Type}

theorem pyMax_eq_none {l : List Int} : pyMax l = none ↔ l = [] := by cases l <;> simp [pyMax]

theorem foldl_max_spec (l : List Int) (x : Int) : (l.foldl max x = x ∨ l.foldl max x ∈ l) ∧ x ≤ l.foldl max x ∧ ∀ y ∈ l, y ≤ l.foldl max x := by
  induction l generalizing x with
  | nil => simp
  | cons a l ih =>
    obtain ⟨h1, h2, h3⟩ := ih (max x a)
    simp only [List.foldl_cons, List.mem_cons]
    refine ⟨?_, by omega, ?_⟩
    · rcases h1 with h1 | h1
      · rcases max_choice x a with e | e
        · rw [h1, e]; exact .inl rfl
        · rw [h1, e]; exact .inr (.inl rfl)
      · exact .inr (.inr h1)
    · rintro y (rfl | hy)
      · omega
      · exact h3 y hy

theorem pyMax_eq_some {l : List Int} {c : Int} (h : pyMax l = some c) : c ∈ l ∧ ∀ x ∈ l, x ≤ c := by
  cases l with
  | nil => cases h
  | cons a l =>
    obtain rfl := Option.some.inj h
    obtain ⟨h1, h2, h3⟩ := foldl_max_spec l a
    refine ⟨?_, ?_⟩
    · rcases h1 with h1 | h1
      · rw [h1]; simp
      · exact List.mem_cons_of_mem _ h1
    · intro x hx
      rcases List.mem_cons.1 hx with rfl | hx
      · exact h2
      · exact h3 x hx

theorem biggestPair_spec (π : V → Int) (root : V) (m : List (V × (List V × List V))) :
    (∀ e ∈ m, pairPrize π root e.1 e.2 ≤ (biggestPair π root m).1) ∧
    (((biggestPair π root m).2 = none ∧ (biggestPair π root m).1 = 0) ∨
      ∃ e ∈ m, (biggestPair π root m).2 = some e.1 ∧ pairPrize π root e.1 e.2 = (biggestPair π root m).1 ∧ 0 < (biggestPair π root m).1) := by
  have key : ∀ (rest done : List (V × (List V × List V))) (acc : Int × Option V),
      (∀ e ∈ done, pairPrize π root e.1 e.2 ≤ acc.1) →
      ((acc.2 = none ∧ acc.1 = 0) ∨ ∃ e ∈ done, acc.2 = some e.1 ∧ pairPrize π root e.1 e.2 = acc.1 ∧ 0 < acc.1) →
      let r := rest.foldl (fun acc e => if pairPrize π root e.1 e.2 > acc.1 then (pairPrize π root e.1 e.2, some e.1) else acc) acc
      (∀ e ∈ done ++ rest, pairPrize π root e.1 e.2 ≤ r.1) ∧
      ((r.2 = none ∧ r.1 = 0) ∨ ∃ e ∈ done ++ rest, r.2 = some e.1 ∧ pairPrize π root e.1 e.2 = r.1 ∧ 0 < r.1) := by
    intro rest
    induction rest with
    | nil => intro done acc h1 h2; simp only [List.append_nil, List.foldl_nil]; exact ⟨h1, h2⟩
    | cons a rest ih =>
      intro done acc h1 h2
      have e : done ++ a :: rest = (done ++ [a]) ++ rest := by simp
      rw [e]
      simp only [List.foldl_cons]
      have hpos : 0 ≤ acc.1 := by
        rcases h2 with h2 | ⟨_, _, _, _, h2⟩ <;> omega
      by_cases h : pairPrize π root a.1 a.2 > acc.1
      · rw [if_pos h]
        refine ih _ _ ?_ (.inr ⟨a, by simp, rfl, rfl, by simp only; omega⟩)
        intro x hx
        rcases List.mem_append.1 hx with hx | hx
        · exact le_trans (h1 x hx) (by simp only; omega)
        · rw [List.mem_singleton] at hx; rw [hx]
      · rw [if_neg h]
        refine ih _ _ ?_ ?_
        · intro x hx
          rcases List.mem_append.1 hx with hx | hx
          · exact h1 x hx
          · rw [List.mem_singleton] at hx; rw [hx]; omega
        · rcases h2 with h2 | ⟨x, hx, h2⟩
          · exact .inl h2
          · exact .inr ⟨x, by simp [hx], h2⟩
  have := key m [] (0, none) (by simp) (.inl ⟨rfl, rfl⟩)
  simp only [List.nil_append] at this
  exact this

/-- A pair of paths has one value. -/
theorem PairValue.unique {U : NxGraph V} {π : V → Int} {r v : V} {pq : List V × List V} {x y : Int} (h1 : PairValue U π r v pq x)
    (h2 : PairValue U π r v pq y) : x = y := by
  rcases h1 with ⟨h1, vs, h3, -, -, rfl⟩ | ⟨h1, a, b, rfl, -, -, rfl⟩
  · rcases h2 with ⟨-, vs', h4, -, -, rfl⟩ | ⟨h2, -⟩
    · have := h3.unique h4
      rw [List.cons.injEq] at this
      rw [(List.append_singleton_inj.1 this.2).1]
    · exact absurd h2 h1
  · rcases h2 with ⟨h2, -⟩ | ⟨-, a', b', h4, -, -, rfl⟩
    · exact absurd h1 h2
    · simp only [Prod.mk.injEq, List.cons.injEq, true_and] at h4
      rw [(List.append_singleton_inj.1 h4.1).1, (List.append_singleton_inj.1 h4.2).1]

variable [DecidableEq V] [LinearOrder W] {U : NxGraph V} {cost : V → V → Int} {A : DiGraph W} {tail head : V → W}
  {r : V} {dij : DijkstraOut W} {depth : Nat} {T : STree W} {st : SState W}

/-- The value that the code computes for the pair of paths of a vertex. -/
theorem pairPrize_value {names : SplitNames V W} (h : SuurballeOn U cost A tail head names r dij depth T st) (hr : r ∉ U.adj r) (π : V → Int)
    {m : List (V × (List V × List V))} (hm : undirectedVertexDisjointPathsMap names T st (treeNodes (head r) dij) = .ok m) {v : V} {pq : List V × List V}
    (hv : (v, pq) ∈ m) : PairValue U π r v pq (pairPrize π r v pq) := by
  obtain ⟨m', h1, -, h3⟩ := h.pathsMap
  obtain rfl := Res.ok.inj (hm.symm.trans h1)
  obtain ⟨c, a, b, -, hd, rfl⟩ := h3 v pq hv fun _ => hr
  by_cases hvr : v = r
  · subst hvr
    refine .inr ⟨rfl, a, b, rfl, hd.1, ?_, ?_⟩
    · have hin : ∀ l : List V, NxWalk U (v :: (l ++ [v])) → ∀ u ∈ l, u ∈ U.nodes := by
        intro l hl u hu
        obtain ⟨x, hx⟩ : ∃ x, (x, u) ∈ consec (v :: (l ++ [v])) := by
          obtain ⟨p, q, rfl⟩ := List.append_of_mem hu
          rcases List.eq_nil_or_concat p with rfl | ⟨p', z, rfl⟩
          · exact ⟨v, by simp⟩
          · refine ⟨z, ?_⟩
            have := mem_consec_append (v :: p') (q ++ [v]) z u
            simpa [List.concat_eq_append] using this
        exact (h.und.closed _ _ (hl _ hx)).2
      intro u hu
      rcases List.mem_cons.1 hu with rfl | hu
      · obtain ⟨-, -, -, wa, -, -⟩ := hd
        cases a with
        | nil => exact (h.und.closed _ _ (wa (u, u) (by simp))).1
        | cons x a => exact (h.und.closed _ _ (wa (u, x) (by simp))).1
      · rcases List.mem_append.1 hu with hu | hu
        · exact hin a hd.2.2.2.1 u hu
        · exact hin b hd.2.2.2.2.1 u hu
    · simp only [pairPrize, pathPrize, List.map_cons, List.map_append, List.sum_cons, List.sum_append, List.map_nil, List.sum_nil]
      omega
  · obtain ⟨h1, h2, h3⟩ := disjointWalks_cycle h.und h.symm hvr hd
    refine .inl ⟨hvr, a ++ v :: b.reverse, ⟨r, v, a, b, rfl, rfl, by simp⟩, h1, h2, ?_⟩
    simp only [pairPrize, pathPrize, List.map_cons, List.map_append, List.sum_cons, List.sum_append, List.map_nil, List.sum_nil, List.map_reverse,
      List.sum_reverse]
    omega

/-- With a smaller number as the biggest one the map of the costs has the entries of the vertices up to that number. -/
theorem costMap_smaller [LinearOrder V] {names : V → SplitNames V W} {big : V} (h : SuurballeOn U cost A tail head (names big) r dij depth T st)
    (hn : IdNames names tail big) (b v : V) (c : Int) :
    (v, c) ∈ vertexDisjointCostMap (names b) T st (treeNodes (head r) dij) ↔
      v ≤ b ∧ (v, c) ∈ vertexDisjointCostMap (names big) T st (treeNodes (head r) dij) := by
  have hb := hn.biggest b
  have inj : ∀ x ∈ treeNodes (head r) dij, ∀ y ∈ treeNodes (head r) dij, (names b).isTail x = true → (names b).isTail y = true →
      (names b).original x = (names b).original y → x = y := by
    intro x _ y _ hx hy e
    obtain ⟨u, hu, rfl⟩ := (hn.isTail b hb x).1 hx
    obtain ⟨u', hu', rfl⟩ := (hn.isTail b hb y).1 hy
    rw [hn.original b hb u hu, hn.original b hb u' hu'] at e
    rw [e]
  rw [h.costMap, costMap_eq (names b) T st _ (treeNodes_spec h.dijkstra).1 inj]
  simp only [List.mem_map, mapped, List.mem_filter, Bool.and_eq_true, Prod.mk.injEq]
  constructor
  · rintro ⟨x, ⟨h1, h2, h3⟩, h4, h5⟩
    obtain ⟨u, hu, rfl⟩ := (hn.isTail b hb x).1 h2
    rw [hn.original b hb u hu] at h4
    subst h4
    exact ⟨hu, tail u, ⟨h1, (hn.isTail big le_rfl _).2 ⟨u, hn.biggest u, rfl⟩, h3⟩, hn.original big le_rfl u (hn.biggest u), h5⟩
  · rintro ⟨hvb, x, ⟨h1, h2, h3⟩, h4, h5⟩
    obtain ⟨u, hu, rfl⟩ := (hn.isTail big le_rfl x).1 h2
    rw [hn.original big le_rfl u hu] at h4
    subst h4
    exact ⟨tail u, ⟨h1, (hn.isTail b hb _).2 ⟨u, hvb, rfl⟩, h3⟩, hn.original b hb u hvb, h5⟩

end Pctsp
