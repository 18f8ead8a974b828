import Verif.Lemmas.Collapse

/-!
# Properties C21, C22, C50, C51: collapsing tours and the shortest paths used for it
-/

namespace Pctsp

/-! ## C21 -/

/-- **C21.** With non-negative prizes, and non-negative costs if shortest paths are used, `collapse` returns a simple closed tour
from the root that costs at most as much as the input; it is the input, rotated, or it has at least three vertices. -/
theorem C21_collapse_tour (g : Graph) (hg : g.WF) (a : Nat) (t : List Nat) (ht : IsTour g a t) (root : Nat) (hroot : root ∈ t)
    (cost prize : Nat → Int) (hp : ∀ v, 0 ≤ prize v) (quota : Int) (useShortest : Bool)
    (hc : useShortest = true → ∀ e < g.edges.length, 0 ≤ cost e) (pick : Nat → Pick) (hpick : ∀ i, (pick i).Heap) :
    ∃ t', collapse g t cost prize quota root useShortest pick = .ok t' ∧ IsTour g root t' ∧
      walkCost g cost t' ≤ walkCost g cost t ∧ (t' = reorderTourFromRoot t root ∨ 4 ≤ t'.length) ∧ (4 ≤ t.length → 4 ≤ t'.length) := by
  rcases collapse_spec hg ht hroot cost prize quota useShortest hpick with ⟨-, h2, e, he, hneg⟩ | ⟨t', h1, h2, h3, -⟩
  · have := hc h2 e he; omega
  · refine ⟨t', h1, ?_⟩
    rcases h2 with ⟨h, h6⟩ | ⟨-, h4, h5, -⟩
    · refine ⟨h, h3, h6.imp_right fun h => h.2.2, fun hl => ?_⟩
      rcases h6 with rfl | h6
      · rw [reorder_length]; exact hl
      · exact h6.2.2
    · have := hp root; omega

/-- **C21.** Without the assumption on the costs the only other outcome is Boost's negative edge exception, and only if shortest
paths are used and some edge has a negative cost. -/
theorem C21_collapse_outcomes (g : Graph) (hg : g.WF) (a : Nat) (t : List Nat) (ht : IsTour g a t) (root : Nat) (hroot : root ∈ t)
    (cost prize : Nat → Int) (hp : ∀ v, 0 ≤ prize v) (quota : Int) (useShortest : Bool) (pick : Nat → Pick)
    (hpick : ∀ i, (pick i).Heap) :
    (collapse g t cost prize quota root useShortest pick = .throw .negativeEdge ∧ useShortest = true ∧ ∃ e < g.edges.length, cost e < 0) ∨
    ∃ t', collapse g t cost prize quota root useShortest pick = .ok t' ∧ IsTour g root t' ∧ walkCost g cost t' ≤ walkCost g cost t := by
  rcases collapse_spec hg ht hroot cost prize quota useShortest hpick with h | ⟨t', h1, h2, h3, -⟩
  · exact Or.inl h
  · refine Or.inr ⟨t', h1, ?_, h3⟩
    rcases h2 with ⟨h, -⟩ | ⟨-, h4, h5, -⟩
    · exact h
    · have := hp root; omega

/-- A hexagon with a chord vertex: vertex 6 is adjacent to 0 and 3 and to 1. -/
def collapseGraph : Graph :=
  { n := 8, edges := [(0, 1), (1, 2), (2, 3), (3, 4), (4, 5), (5, 0), (6, 0), (6, 1), (6, 7), (7, 2)] }

/-- Costs: the edges at vertex 6 are cheap. -/
def collapseCost : Nat → Int := fun e => if e = 6 ∨ e = 7 ∨ e = 8 then 1 else 3

theorem collapseGraph_tour : IsTour collapseGraph 0 [0, 1, 2, 3, 4, 5, 0] := ⟨⟨[1, 2, 3, 4, 5], rfl⟩, by decide, by decide⟩

example : collapse collapseGraph [0, 1, 2, 3, 4, 5, 0] collapseCost (fun v => if v = 6 then 9 else 2) 6 0 true (fun _ => exPick)
    = .ok [0, 1, 6, 0] := by decide +kernel
example : walkCost collapseGraph collapseCost [0, 1, 6, 0] = 5 := by decide +kernel
example : walkCost collapseGraph collapseCost [0, 1, 2, 3, 4, 5, 0] = 18 := by decide +kernel
/-- A collapse along a shortest path with two inner vertices. -/
example : collapse collapseGraph [0, 1, 2, 3, 4, 5, 0] collapseCost (fun v => if v = 6 then 1 else 2) 7 0 true (fun _ => exPick)
    = .ok [0, 1, 2, 7, 6, 0] := by decide +kernel
example : collapse collapseGraph [0, 1, 2, 3, 4, 5, 0] collapseCost (fun v => if v = 6 then 1 else 2) 7 0 false (fun _ => exPick)
    = .ok [0, 1, 2, 3, 4, 5, 0] := by decide +kernel

/-- The claim of C21 without the assumption on the prizes. -/
def CollapseKeepsTour : Prop :=
  ∀ (g : Graph) (a : Nat) (t : List Nat) (root : Nat) (cost prize : Nat → Int) (quota : Int) (pick : Nat → Pick), g.WF →
    IsTour g a t → root ∈ t → (∀ e < g.edges.length, 0 ≤ cost e) → (∀ i, (pick i).Heap) →
    ∃ t', collapse g t cost prize quota root true pick = .ok t' ∧ IsTour g root t'

/-- **C21.** With a negative prize at the root and a quota that is not positive, `collapse` can return the root alone. -/
theorem C21_negative_prize_single_vertex : ¬ CollapseKeepsTour := by
  intro h
  obtain ⟨t', h1, h2⟩ := h { n := 4, edges := [(0, 1), (1, 2), (2, 3), (3, 0)] } 0 [0, 1, 2, 3, 0] 0 (fun _ => 1)
    (fun v => if v = 0 then -5 else 5) 0 (fun _ => exPick) (by decide) ⟨⟨[1, 2, 3], rfl⟩, by decide, by decide⟩ (by decide)
    (by intro e _; decide) (fun _ => exPick_heap)
  have e : collapse { n := 4, edges := [(0, 1), (1, 2), (2, 3), (3, 0)] } [0, 1, 2, 3, 0] (fun _ => 1)
    (fun v => if v = 0 then -5 else 5) 0 0 true (fun _ => exPick) = .ok [0] := by decide +kernel
  rw [e] at h1
  cases h1
  obtain ⟨m, hm⟩ := h2.shape
  have := congrArg List.length hm
  simp at this

/-- A negative cost makes the shortest path search throw. -/
example : collapse collapseGraph [0, 1, 2, 3, 4, 5, 0] (fun e => if e = 6 then -1 else 3) (fun _ => 2) 9 0 true (fun _ => exPick)
    = .throw .negativeEdge := by decide +kernel

/-! ## C22 -/

/-- **C22.** For all prizes, also negative ones: the result of `collapse` is the input rotated to the root or its prize is at least
the quota. -/
theorem C22_collapse_feasible (g : Graph) (hg : g.WF) (a : Nat) (t : List Nat) (ht : IsTour g a t) (root : Nat) (hroot : root ∈ t)
    (cost prize : Nat → Int) (quota : Int) (useShortest : Bool) (pick : Nat → Pick) (hpick : ∀ i, (pick i).Heap) (t' : List Nat)
    (h : collapse g t cost prize quota root useShortest pick = .ok t') :
    t' = reorderTourFromRoot t root ∨ walkCost g cost t' < walkCost g cost t ∧ quota ≤ tourPrize prize t' := by
  rcases collapse_spec hg ht hroot cost prize quota useShortest hpick with ⟨h1, -⟩ | ⟨t2, h1, h2, h3, -⟩
  · rw [h1] at h; cases h
  · rw [h1] at h; cases h
    rcases h2 with ⟨-, h⟩ | ⟨rfl, h4, h5, h6⟩
    · exact h.imp_right fun h => ⟨h.1, h.2.1⟩
    · right; exact ⟨by simpa using h6, by simpa [tourPrize] using h4⟩

/-- **C22.** Hence a prize feasible tour stays prize feasible. -/
theorem C22_collapse_stays_feasible (g : Graph) (hg : g.WF) (a : Nat) (t : List Nat) (ht : IsTour g a t) (root : Nat) (hroot : root ∈ t)
    (cost prize : Nat → Int) (quota : Int) (useShortest : Bool) (pick : Nat → Pick) (hpick : ∀ i, (pick i).Heap) (t' : List Nat)
    (h : collapse g t cost prize quota root useShortest pick = .ok t') (hq : quota ≤ tourPrize prize t) : quota ≤ tourPrize prize t' := by
  rcases C22_collapse_feasible g hg a t ht root hroot cost prize quota useShortest pick hpick t' h with rfl | ⟨-, h⟩
  · have h1 := C01_reorder_isTour g t a root ht hroot
    have hcl : t.head? = t.getLast? := by
      obtain ⟨m, hm⟩ := ht.shape
      rw [hm, ← List.cons_append, List.getLast?_concat]; rfl
    obtain ⟨-, h3⟩ := C01_reorder_cost_prize g hg cost prize t root _ hcl hroot (totalCost_of_isWalk hg cost ht.walk)
    rw [totalPrizeOfTour_eq prize ht.ne_nil, totalPrizeOfTour_eq prize h1.ne_nil] at h3
    simp only [Res.ok.injEq] at h3
    omega
  · exact h

example : quota ≤ tourPrize (fun v => if v = 6 then 1 else 2) [0, 1, 2, 7, 6, 0] ↔ quota ≤ 9 := by
  rw [show tourPrize (fun v => if v = 6 then 1 else 2) [0, 1, 2, 7, 6, 0] = 9 by decide]

/-! ## C50 -/

/-- **C50.** `collapse` misses no shortcut over a single vertex: take any run of consecutive vertices of the tour that contains
the root, collects less than the quota and would reach it with the next vertex.  Closing that run through one vertex outside the
run that is adjacent to both ends and collects enough prize costs at least as much as the result. -/
theorem C50_collapse_no_missed_shortcut (g : Graph) (hg : g.WF) (a : Nat) (t : List Nat) (ht : IsTour g a t) (root : Nat)
    (cost prize : Nat → Int) (hp : ∀ v, 0 ≤ prize v) (quota : Int) (useShortest : Bool) (pick : Nat → Pick) (hpick : ∀ i, (pick i).Heap)
    (t' : List Nat) (h : collapse g t cost prize quota root useShortest pick = .ok t')
    (P : List Nat) (w : Nat) (hr : CyclicRun t P w) (hroot : root ∈ P) (h1 : prizeSum prize P < quota)
    (h2 : quota ≤ prizeSum prize P + prize w) (x y c : Nat) (hx : P.head? = some x) (hy : P.getLast? = some y) (hxy : x ≠ y)
    (hyc : Adj g y c) (hcx : Adj g c x) (hcP : c ∉ P) (hq : quota ≤ prizeSum prize P + prize c) :
    walkCost g cost t' ≤ walkCost g cost P + (pairCost g cost y c + pairCost g cost c x) := by
  obtain ⟨i, hi, sp, e1, e2, e3, e4⟩ := getSubPathOverTour_complete ht hp hr hroot h1 h2
  obtain ⟨sp', e1', -, -, -, hnd, hw, hmem⟩ := getSubPathOverTour_spec ht prize quota root hi
  rw [e1] at e1'; cases e1'
  have hrt : root ∈ t := hmem root (by rw [e2]; exact hroot)
  have hyn : y < g.n := hyc.lt_left hg
  rcases collapse_spec hg ht hrt cost prize quota useShortest hpick with ⟨h3, -⟩ | ⟨t2, h3, -, -, h4⟩
  · rw [h3] at h; cases h
  · rw [h3] at h; cases h
    obtain ⟨via, v1, v2⟩ := collapseVia_spec hg prize quota hy hx (g.adjacent y) (fun c hc => mem_adjacent.1 hc)
    have hmemv : [y, c, x] ∈ via :=
      collapseVia_complete (g.adjacent y) via v1 (mem_adjacent.2 hyc) hcx hcP hq (Ne.symm hxy) (hcx.lt_left hg)
    have hcost : walkCost g cost [y, c, x] = pairCost g cost y c + pairCost g cost c x := by simp
    obtain ⟨l, l1, l2⟩ := h4 i hi sp e1 e3 e4
    have hmem : [y, c, x] ∈ l := by
      rw [e2, findCollapsePaths, hx, hy] at l1
      simp only [Graph.adjacentVertices, if_pos hyn, Res.ok_bind, v1] at l1
      cases useShortest with
      | false => cases l1; exact hmemv
      | true =>
        simp only [if_true] at l1
        rcases collapseShortest_spec hg cost prize quota (by rw [← e2]; exact hnd) hy hx hyn (hpick i) with ⟨r1, r2⟩ | ⟨l3, r1, r2⟩
        · rw [r1] at l1; cases l1
        · rw [r1] at l1; cases l1; simp [hmemv]
    have := l2 _ hmem
    rw [hcost, e2] at this
    omega

/-- The hypotheses are met by the run `0, 1` of the hexagon, its next vertex 2 and the vertex 6. -/
example : CyclicRun [0, 1, 2, 3, 4, 5, 0] [0, 1] 2 := ⟨by decide, by decide, 0, by decide, [3, 4, 5, 0, 1, 2, 3, 4, 5, 0], by decide⟩
example : Adj collapseGraph 1 6 ∧ Adj collapseGraph 6 0 := by decide
/-- A run that wraps around the end of the tour. -/
example : CyclicRun [0, 1, 2, 3, 4, 5, 0] [5, 0, 1] 2 := ⟨by decide, by decide, 5, by decide, [3, 4, 5, 0], by decide⟩

/-- **C50.** With the shortest path option and non-negative costs: for every such run there is a shortest path from its last to its
first vertex among the walks that enter no inner vertex of the run, and closing the run with it costs at least as much as the result
if it collects enough prize; or no such walk exists. -/
theorem C50_collapse_shortest_path_tried (g : Graph) (hg : g.WF) (a : Nat) (t : List Nat) (ht : IsTour g a t) (root : Nat)
    (cost prize : Nat → Int) (hc : ∀ e < g.edges.length, 0 ≤ cost e) (hp : ∀ v, 0 ≤ prize v) (quota : Int) (pick : Nat → Pick)
    (hpick : ∀ i, (pick i).Heap) (t' : List Nat) (h : collapse g t cost prize quota root true pick = .ok t')
    (P : List Nat) (w : Nat) (hr : CyclicRun t P w) (hroot : root ∈ P) (h1 : prizeSum prize P < quota)
    (h2 : quota ≤ prizeSum prize P + prize w) (x y : Nat) (hx : P.head? = some x) (hy : P.getLast? = some y) :
    let inner := fun v => decide (v ∈ P) && decide (v ≠ y) && decide (v ≠ x)
    (∀ d, ¬ Reaches g cost inner y x d) ∨
    ∃ p d, p.Nodup ∧ p.head? = some y ∧ p.getLast? = some x ∧ IsWalk g p ∧ (∀ v ∈ p, inner v = false) ∧
      Reaches g cost inner y x d ∧ (∀ d', Reaches g cost inner y x d' → d ≤ d') ∧
      (quota ≤ prizeSum prize P + prizeSum prize p - prize y - prize x → walkCost g cost t' ≤ walkCost g cost P + walkCost g cost p) := by
  intro inner
  obtain ⟨i, hi, sp, e1, e2, e3, e4⟩ := getSubPathOverTour_complete ht hp hr hroot h1 h2
  obtain ⟨sp', e1', -, -, -, hnd, hw, hmem⟩ := getSubPathOverTour_spec ht prize quota root hi
  rw [e1] at e1'; cases e1'
  have hrt : root ∈ t := hmem root (by rw [e2]; exact hroot)
  have hyn : y < g.n := by
    have : y ∈ t := hmem y (by rw [e2]; exact List.mem_of_getLast? hy)
    obtain ⟨m, hm⟩ := ht.shape
    exact ht.walk.lt hg (by rw [hm]; simp) y this
  rcases collapse_spec hg ht hrt cost prize quota true hpick with ⟨h3, -⟩ | ⟨t2, h3, -, -, h4⟩
  · rw [h3] at h; cases h
  · rw [h3] at h; cases h
    obtain ⟨via, v1, -⟩ := collapseVia_spec hg prize quota hy hx (g.adjacent y) (fun c hc => mem_adjacent.1 hc)
    obtain ⟨l, l1, l2⟩ := h4 i hi sp e1 e3 e4
    rw [e2, findCollapsePaths, hx, hy] at l1
    simp only [Graph.adjacentVertices, if_pos hyn, Res.ok_bind, v1, if_true] at l1
    rcases dijkstra_spec hg (cost := cost) (mark := inner) (hpick i) hyn (by simp [inner]) x with
      ⟨-, e, u, v, he, hneg, -⟩ | ⟨st, p, r1, r2, p1, p2, p3, p4, p5, d, -, p6, p7⟩ | ⟨st, -, r2⟩
    · have : e < g.edges.length := by
        rcases he with he | he <;> exact (List.getElem?_eq_some_iff.1 he).1
      have := hc e this; omega
    · right
      refine ⟨p, d, p1, p2, p3, p4, fun v hv => (p5 v hv).2, p6, p7 hc, fun hq => ?_⟩
      have hsh : collapseShortest g cost prize quota P y x (pick i) = .ok [p] := by
        unfold collapseShortest
        simp only
        rw [show dijkstra g cost (fun v => decide (v ∈ P) && decide (v ≠ y) && decide (v ≠ x)) (some x) (pick i) y = .ok (true, st) from r1]
        simp only [Res.ok_bind, if_true, r2]
        rw [totalPrize_eq, totalPrize_eq, if_pos hq]; rfl
      rw [hsh] at l1
      cases l1
      have := l2 p (by simp)
      rw [e2] at this
      omega
    · exact Or.inl r2

/-! ## C51 -/

/-- **C51.** `dijkstraShortestPathBlacklist` with non-negative costs from an unmarked vertex: either it reports the target, and the
parents describe a simple path of unmarked vertices from the source to the target and the distance of the target is the least length of
a walk that enters no marked vertex; or it ends normally and no such walk exists. -/
theorem C51_dijkstra_blacklist (g : Graph) (hg : g.WF) (cost : Nat → Int) (hc : ∀ e < g.edges.length, 0 ≤ cost e) (mark : Nat → Bool)
    (pick : Pick) (hpick : pick.Heap) (source target : Nat) (hs : source < g.n) (hm : mark source = false) :
    (∃ st p, dijkstra g cost mark (some target) pick source = .ok (true, st) ∧ pathInTreeFromParents st.pred g.n target = p ∧
      p.Nodup ∧ p.head? = some source ∧ p.getLast? = some target ∧ IsWalk g p ∧ (∀ v ∈ p, mark v = false) ∧
      ∃ d, st.dist target = some d ∧ Reaches g cost mark source target d ∧ ∀ d', Reaches g cost mark source target d' → d ≤ d') ∨
    (∃ st, dijkstra g cost mark (some target) pick source = .ok (false, st) ∧ ∀ d, ¬ Reaches g cost mark source target d) := by
  rcases dijkstra_spec hg (cost := cost) hpick hs hm target with
    ⟨-, e, u, v, he, hneg, -⟩ | ⟨st, p, r1, r2, p1, p2, p3, p4, p5, d, p6, p7, p8⟩ | h
  · have : e < g.edges.length := by
      rcases he with he | he <;> exact (List.getElem?_eq_some_iff.1 he).1
    have := hc e this; omega
  · exact Or.inl ⟨st, p, r1, r2, p1, p2, p3, p4, fun v hv => (p5 v hv).2, d, p6, p7, p8 hc⟩
  · exact Or.inr h

/-- **C51.** The search throws only if an edge of negative cost can be reached. -/
theorem C51_dijkstra_throws_only_negative (g : Graph) (hg : g.WF) (cost : Nat → Int) (mark : Nat → Bool)
    (pick : Pick) (hpick : pick.Heap) (source target : Nat) (hs : source < g.n) (hm : mark source = false) (x : Exn)
    (h : dijkstra g cost mark (some target) pick source = .throw x) :
    x = .negativeEdge ∧ ∃ e u v, EdgeBetween g e u v ∧ cost e < 0 ∧ ∃ d, Reaches g cost mark source u d := by
  rcases dijkstra_spec hg (cost := cost) hpick hs hm target with ⟨h1, h2⟩ | ⟨st, p, h1, -⟩ | ⟨st, h1, -⟩
  · rw [h1] at h; cases h; exact ⟨rfl, h2⟩
  · rw [h1] at h; cases h
  · rw [h1] at h; cases h

/-- The direct edge of the triangle is longer than the way round. -/
example : (match dijkstra { n := 3, edges := [(0, 2), (0, 1), (1, 2)] } (fun e => if e = 0 then 5 else 1) (fun _ => false) (some 2) exPick 0 with
      | .ok (b, st) => b && decide (pathInTreeFromParents st.pred 3 2 = [0, 1, 2]) && decide (st.dist 2 = some 2)
      | _ => false) = true := by decide +kernel
/-- The way round is blocked. -/
example : (match dijkstra { n := 3, edges := [(0, 2), (0, 1), (1, 2)] } (fun e => if e = 0 then 5 else 1) (fun v => v == 1) (some 2) exPick 0 with
      | .ok (b, st) => b && decide (pathInTreeFromParents st.pred 3 2 = [0, 2]) && decide (st.dist 2 = some 5)
      | _ => false) = true := by decide +kernel

/-! The theorems applied to this graph. -/

theorem collapseCost_nonneg (e : Nat) : 0 ≤ collapseCost e := by unfold collapseCost; split <;> decide

example := C21_collapse_tour collapseGraph (by decide) 0 _ collapseGraph_tour 0 (by decide) collapseCost (fun v => if v = 6 then 1 else 2)
  (fun _ => by split <;> decide) 7 true (fun _ e _ => collapseCost_nonneg e) (fun _ => exPick) (fun _ => exPick_heap)
example := C21_collapse_outcomes collapseGraph (by decide) 0 _ collapseGraph_tour 3 (by decide) collapseCost (fun v => if v = 6 then 1 else 2)
  (fun _ => by split <;> decide) 7 true (fun _ => exPick) (fun _ => exPick_heap)
example := C22_collapse_feasible collapseGraph (by decide) 0 _ collapseGraph_tour 0 (by decide) collapseCost (fun v => if v = 6 then 1 else 2) 7 true
  (fun _ => exPick) (fun _ => exPick_heap) [0, 1, 2, 7, 6, 0] (by decide +kernel)
example := C50_collapse_shortest_path_tried collapseGraph (by decide) 0 _ collapseGraph_tour 0 collapseCost (fun v => if v = 6 then 1 else 2)
  (fun e _ => collapseCost_nonneg e) (fun _ => by split <;> decide) 7 (fun _ => exPick) (fun _ => exPick_heap) [0, 1, 2, 7, 6, 0] (by decide +kernel)
  [5, 0, 1] 2 ⟨by decide, by decide, 5, by decide, [3, 4, 5, 0], by decide⟩ (by decide) (by decide) (by decide) 5 1 rfl rfl
example := C51_dijkstra_blacklist { n := 3, edges := [(0, 2), (0, 1), (1, 2)] } (by decide) (fun e => if e = 0 then 5 else 1)
  (fun _ _ => by split <;> decide) (fun v => v == 1) exPick exPick_heap 0 2 (by decide) rfl

end Pctsp
