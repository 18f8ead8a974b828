import Verif.Lemmas.BfsPath

/-!
# Properties C05–C09: subpaths, searches, parent chains, common neighbours
-/

namespace Pctsp

/-! ## C05 -/

/-- C05: the subpath from position `i` to position `j`: the slice `i..j` if `i ≤ j`, else the slice from `i` to the end,
followed by the positions `1..j` (position 0 repeats the last one on a closed tour). -/
theorem C05_subpath_slices {α : Type} (t : List α) (i j : Nat) (hi : i < t.length) (hj : j < t.length) :
    getSubpathOfCycle t i j =
      .ok (if i ≤ j then (t.drop i).take (j + 1 - i) else t.drop i ++ (t.drop 1).take j) := by
  by_cases h : i ≤ j
  · rw [if_pos h]; exact getSubpath_inner t i j h hj
  · rw [if_neg h]; exact getSubpath_outer t i j (by omega) hi

example := C05_subpath_slices [0, 1, 2, 3, 0] 3 1 (by decide) (by decide)

/-- C05: on a closed tour the subpath starts at position `i`, ends in the vertex of position `j`, is never empty and only
takes steps of the tour. -/
theorem C05_subpath_walks_the_cycle {α : Type} (r : α) (m : List α) (i j : Nat) (hi : i ≤ m.length + 1)
    (hj : j ≤ m.length + 1) :
    let t := r :: (m ++ [r])
    ∃ l, getSubpathOfCycle t i j = .ok l ∧ l.head? = t[i]? ∧ l.getLast? = t[j]? ∧
      (∀ q ∈ consec l, q ∈ consec t) ∧
      l.length = (if i ≤ j then j - i + 1 else m.length + 2 - i + j) := by
  intro t
  have hlen : t.length = m.length + 2 := by simp [t]
  rw [C05_subpath_slices t i j (by omega) (by omega)]
  refine ⟨_, rfl, ?_⟩
  by_cases h : i ≤ j
  · simp only [h, if_true]
    refine ⟨?_, ?_, ?_, ?_⟩
    · rw [List.head?_take, if_neg (by omega), List.head?_drop]
    · rw [List.getLast?_eq_getElem?]
      have : ((t.drop i).take (j + 1 - i)).length = j + 1 - i := by simp [hlen]; omega
      rw [this, List.getElem?_take, if_pos (by omega), List.getElem?_drop]
      congr 1; omega
    · intro q hq
      rw [consec_eq_getElem] at hq ⊢
      obtain ⟨k, hk, h1, h2⟩ := hq
      rw [List.getElem_take, List.getElem_drop] at h1 h2
      simp only [List.length_take, List.length_drop] at hk
      exact ⟨i + k, by omega, h1, by rw [← h2]; congr 1⟩
    · simp [hlen]; omega
  · simp only [h, if_false]
    have hr : t[t.length - 1]? = some r := by simp [t]
    refine ⟨?_, ?_, ?_, ?_⟩
    · rw [List.head?_append, List.head?_drop, List.getElem?_eq_getElem (by omega)]; rfl
    · by_cases hj0 : j = 0
      · subst hj0
        simp only [List.take_zero, List.append_nil]
        rw [List.getLast?_drop, if_neg (by omega)]
        simp [t]
        rw [← List.cons_append, List.getLast?_append]; rfl
      · rw [List.getLast?_append, List.getLast?_eq_getElem? (l := List.take j _)]
        have : ((t.drop 1).take j).length = j := by simp [hlen]; omega
        rw [this, List.getElem?_take, if_pos (by omega), List.getElem?_drop,
          show 1 + (j - 1) = j by omega, List.getElem?_eq_getElem (by omega)]
        rfl
    · intro q hq
      obtain ⟨a, ha⟩ : ∃ a, t.drop i = a ++ [r] := by
        refine ⟨(r :: m).drop i, ?_⟩
        show List.drop i (r :: (m ++ [r])) = _
        rw [← List.cons_append, List.drop_append_of_le_length (by simp; omega)]
      rw [ha, List.append_assoc, List.singleton_append, consec_append, ← ha] at hq
      rcases List.mem_append.1 hq with hq | hq
      · rw [consec_eq_getElem] at hq ⊢
        obtain ⟨k, hk, h1, h2⟩ := hq
        rw [List.getElem_drop] at h1 h2
        simp only [List.length_drop] at hk
        exact ⟨i + k, by omega, h1, by rw [← h2]; congr 1⟩
      · have e : r :: List.take j (List.drop 1 t) = List.take (j + 1) t := by simp [t]
        rw [e, consec_eq_getElem] at hq
        rw [consec_eq_getElem]
        obtain ⟨k, hk, h1, h2⟩ := hq
        rw [List.getElem_take] at h1 h2
        simp only [List.length_take] at hk
        exact ⟨k, by omega, h1, h2⟩
    · simp [hlen]; omega

example : getSubpathOfCycle [7, 8, 9, 5, 7] 3 1 = .ok [5, 7, 8] := by decide
example : getSubpathOfCycle [7, 8, 9, 5, 7] 1 3 = .ok [8, 9, 5] := by decide

/-! ## C06 -/

/-- `v` can be reached from `s` by a walk of at most `d` edges that, after `s`, avoids the vertices marked in `m0`. -/
def ReachAvoid (g : Graph) (m0 : Nat → Bool) (s d v : Nat) : Prop :=
  ∃ l, IsWalk g (s :: l) ∧ (s :: l).getLast? = some v ∧ l.length ≤ d ∧ ∀ x ∈ l, m0 x = false

/-- C06: the search terminates without undefined behaviour and marks exactly the vertices that were marked before and the
vertices that can be reached within the depth limit through unmarked vertices. -/
theorem C06_bfs_exact (g : Graph) (hg : g.WF) (s : Nat) (hs : s < g.n) (m0 : Nat → Bool) (p0 : Nat → Nat)
    (limit : Int) :
    ∃ m p, breadthFirstSearch g s m0 p0 limit = .ok (m, p) ∧
      ∀ v, m v = true ↔ m0 v = true ∨ ReachAvoid g m0 s limit.toNat v := by
  obtain ⟨m, p, lev, h1, h2, h3⟩ := bfs_spec hg hs m0 p0 limit
  refine ⟨m, p, h1, fun v => ⟨fun hv => ?_, ?_⟩⟩
  · by_cases h0 : m0 v = false ∨ v = s
    · obtain ⟨l, -, a2, a3, -, -, a6, a7, -⟩ := h2.path hs v hv h0
      exact Or.inr ⟨l, a3, a2, a6, fun x hx => (a7 x hx).1⟩
    · left; simpa using (not_or.1 h0).1
  · rintro (h | ⟨l, a1, a2, a3, a4⟩)
    · exact h2.old v h
    · exact (bfs_complete h2 h3 l v a1 a2 a4 a3).1

/-- C06: the parent table gives, for every newly marked vertex, a shortest such walk, and it is a simple path. -/
theorem C06_bfs_parents (g : Graph) (hg : g.WF) (s : Nat) (hs : s < g.n) (m0 : Nat → Bool) (p0 : Nat → Nat)
    (limit : Int) :
    ∃ m p, breadthFirstSearch g s m0 p0 limit = .ok (m, p) ∧
      ∀ v, m v = true → (m0 v = false ∨ v = s) →
        ∃ l, pathInTreeFromParents p g.n v = s :: l ∧ (s :: l).getLast? = some v ∧ IsWalk g (s :: l) ∧
          (s :: l).Nodup ∧ l.length ≤ limit.toNat ∧ (∀ x ∈ l, m0 x = false) ∧
          ∀ l', IsWalk g (s :: l') → (s :: l').getLast? = some v → (∀ x ∈ l', m0 x = false) → l.length ≤ l'.length := by
  obtain ⟨m, p, lev, h1, h2, h3⟩ := bfs_spec hg hs m0 p0 limit
  refine ⟨m, p, h1, fun v hv h0 => ?_⟩
  obtain ⟨l, a1, a2, a3, a4, a5, a6, a7, -⟩ := h2.path hs v hv h0
  refine ⟨l, a1, a2, a3, a4, a6, fun x hx => (a7 x hx).1, fun l' b1 b2 b3 => ?_⟩
  by_cases hl : l'.length ≤ limit.toNat
  · have := (bfs_complete h2 h3 l' v b1 b2 b3 hl).2; omega
  · omega

/-- A small graph with a cycle and a chord. -/
def exGraph : Graph := { n := 6, edges := [(0, 1), (1, 2), (2, 3), (3, 0), (1, 3), (3, 4)] }

example : exGraph.WF := by decide
example : ReachAvoid exGraph (fun v => v == 1) 0 2 4 := ⟨[3, 4], by decide, by decide, by decide, by decide⟩
example : ((fun r => ((List.range 6).map r.1, pathInTreeFromParents r.2 6 4)) <$>
    breadthFirstSearch exGraph 0 (fun v => v == 1) id 2) =
    Res.ok ([true, true, true, true, true, false], [0, 3, 4]) := by decide

/-! ## C07 -/

/-- C07: every vertex marked by the depth first search was marked before or can be reached within the depth limit through
unmarked vertices; vertices marked before stay marked; and if the source is its own parent, then the parent table leads from
each newly marked vertex back to the source, along a simple path of at most `d` edges. -/
theorem C07_dfs_sound (g : Graph) (hg : g.WF) (s : Nat) (hs : s < g.n) (m0 : Nat → Bool) (p0 : Nat → Nat)
    (hp : p0 s = s) (d : Nat) :
    (∀ v, m0 v = true → (dfs g s d (m0, p0)).1 v = true) ∧
    ∀ v, (dfs g s d (m0, p0)).1 v = true → m0 v = true ∨
      ∃ l, pathInTreeFromParents (dfs g s d (m0, p0)).2 g.n v = s :: l ∧ (s :: l).getLast? = some v ∧
        IsWalk g (s :: l) ∧ (s :: l).Nodup ∧ l.length ≤ d ∧ ∀ x ∈ l, m0 x = false := by
  obtain ⟨lev, h, -⟩ := dfs_spec hg d s m0 p0 (fun _ => 0) (BfsRes.init m0 s d p0 hp) (Or.inr rfl) (by simp)
  refine ⟨h.old, fun v hv => ?_⟩
  by_cases h0 : m0 v = true
  · exact Or.inl h0
  · obtain ⟨l, a1, a2, a3, a4, a5, a6, a7, -⟩ := h.path hs v hv (Or.inl (by simpa using h0))
    exact Or.inr ⟨l, a1, a2, a3, a4, a6, fun x hx => (a7 x hx).1⟩

/-- The converse claim: the depth first search marks everything within the depth limit. -/
def DfsComplete : Prop :=
  ∀ (g : Graph) (s : Nat) (m0 : Nat → Bool) (p0 : Nat → Nat) (d v : Nat), g.WF → s < g.n →
    ReachAvoid g m0 s d v → (dfs g s d (m0, p0)).1 v = true

/-- C07: the converse is false.  With the edges 0-1, 1-2, 0-2, 2-3 and depth limit 2 the search goes 0, 1, 2 and stops, so 3
is not found through 2 although it is two edges away from 0. -/
theorem C07_dfs_incomplete : ¬ DfsComplete := by
  intro h
  have := h { n := 4, edges := [(0, 1), (1, 2), (0, 2), (2, 3)] } 0 (fun _ => false) id 2 3 (by decide) (by decide)
    ⟨[2, 3], by decide, by decide, by decide, by decide⟩
  simp [dfs, dfsList, Graph.adjacent, Graph.nbrsOf, upd] at this

/-- C07: what is complete: with a positive depth limit every neighbour of the source is marked. -/
theorem C07_dfs_marks_neighbours (g : Graph) (hg : g.WF) (s : Nat) (m0 : Nat → Bool) (p0 : Nat → Nat)
    (hp : p0 s = s) (d : Nat) (v : Nat) (hv : Adj g s v) : (dfs g s (d + 1) (m0, p0)).1 v = true := by
  have e : dfs g s (d + 1) (m0, p0) = dfsList g s d (g.adjacent s) (upd m0 s true, p0) := by rw [dfs]
  rw [e]
  obtain ⟨_, -, -, c⟩ := dfsList_spec hg (D := d + 1) (s := s) (m0 := m0)
    (fun u m p lev h1 h2 h3 => dfs_spec hg d u m p lev h1 h2 h3) s (g.adjacent s)
      (fun v hv => mem_adjacent.1 hv) (upd m0 s true) p0 (fun _ => 0) (BfsRes.init m0 s (d + 1) p0 hp) (upd_self _ _ _)
      (Or.inr rfl) (by simp)
  exact c v (mem_adjacent.2 hv)

example : exGraph.WF ∧ (0 : Nat) < exGraph.n ∧ id 0 = 0 ∧ Adj exGraph 0 3 := by decide

/-! ## C08 -/

/-- C08: for every parent table the list has between 1 and `size + 2` vertices, ends in the target, and every vertex is
preceded by its parent. -/
theorem C08_parent_chain (parent : Nat → Nat) (size target : Nat) :
    let l := pathInTreeFromParents parent size target
    l ≠ [] ∧ l.length ≤ size + 2 ∧ l.getLast? = some target ∧ ∀ q ∈ consec l, q.1 = parent q.2 ∧ q.1 ≠ q.2 := by
  obtain ⟨l, h1, h2, h3, -⟩ := climb_spec parent (size + 1) target []
  simp only [pathInTreeFromParents, h1]
  refine ⟨by simp, by simp; omega, by simp, h3⟩

/-- C08: if the chain of parents reaches a vertex that is its own parent within the bound, the list starts with the first
such vertex. -/
theorem C08_parent_chain_root (parent : Nat → Nat) (size target j : Nat) (hj : j ≤ size + 1)
    (hfix : parent (Nat.iterate parent j target) = Nat.iterate parent j target) :
    ∃ i ≤ j, (pathInTreeFromParents parent size target).head? = some (Nat.iterate parent i target) ∧
      parent (Nat.iterate parent i target) = Nat.iterate parent i target ∧
      (pathInTreeFromParents parent size target).length = i + 1 := by
  obtain ⟨l, h1, h2, h3, h4⟩ := climb_spec parent (size + 1) target []
  obtain ⟨i, hi, ha, hb, hc⟩ := h4 j hj hfix
  refine ⟨i, hi, ?_, hc, ?_⟩
  · rw [pathInTreeFromParents, h1]; exact ha
  · rw [pathInTreeFromParents, h1]; simp [hb]

/-- A cyclic table: the walk stops after `size + 2` vertices. -/
example : pathInTreeFromParents (fun v => (v + 1) % 3) 3 0 = [1, 0, 2, 1, 0] := by decide
example : pathInTreeFromParents (fun v => v - 1) 4 3 = [0, 1, 2, 3] := by decide

/-! ## C09 -/

/-- C09: common neighbours, sorted, with the smaller multiplicity. -/
theorem C09_neighbor_intersection (g : Graph) (u v : Nat) (hu : u < g.n) (hv : v < g.n) :
    ∃ l, neighborIntersection g u v = .ok l ∧ l.Pairwise (· ≤ ·) ∧
      (∀ x, x ∈ l ↔ Adj g u x ∧ Adj g v x) ∧
      (∀ x, l.count x = min ((g.adjacent u).count x) ((g.adjacent v).count x)) := by
  obtain ⟨l, h1, h2, h3, h4⟩ := neighborIntersection_spec hu hv
  exact ⟨l, h1, h2, h4, h3⟩

example : neighborIntersection exGraph 0 2 = .ok [1, 3] := by decide

example := C06_bfs_exact exGraph (by decide) 0 (by decide) (fun v => v == 1) (fun _ => 0) 2
example := C07_dfs_sound exGraph (by decide) 0 (by decide) (fun v => v == 1) (fun v => v) rfl 2

end Pctsp
