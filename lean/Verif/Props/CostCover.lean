import Verif.Lemmas.CostCover
import Verif.Model.CostCover
import Verif.Props.Program

/-!
# Properties C38, C39, C59: cost cover rows
-/

namespace Pctsp

/-- One row for each vertex whose distance exceeds the bound. -/
theorem costCover_rows {g : Graph} (hl : ∀ v < g.n, (v, v) ∈ g.edges) {root : Nat} (hroot : root < g.n) (dist : Nat → Int) (ub : Int) :
    ∃ rows, separateThenAddCostCover g g.hasVar root dist ub = .ok rows ∧
      List.Forall₂ (fun v row => (v < g.n ∧ ub < dist v) ∧ row.lhs = none ∧ row.rhs = some 1 ∧
        ∀ x, row.activity x = loopVal g x root + loopVal g x v) (separateCostCoverPaths g dist ub) rows := by
  have hm : ∀ v ∈ separateCostCoverPaths g dist ub, v < g.n ∧ ub < dist v := by
    intro v hv
    simpa [separateCostCoverPaths] using hv
  rw [separateThenAddCostCover]
  generalize separateCostCoverPaths g dist ub = vs at hm
  induction vs with
  | nil => exact ⟨[], rfl, .nil⟩
  | cons v vs ih =>
    obtain ⟨rows, h1, h2⟩ := ih fun v hv => hm v (by simp [hv])
    obtain ⟨row, h3, h4⟩ := coverRow_two hl hroot (hm v (by simp)).1
    refine ⟨row :: rows, ?_, .cons ⟨hm v (by simp), h4⟩ h2⟩
    rw [mapRes_eq_ok] at h1 ⊢
    exact .cons h3 h1

/-- **C38.** For distances that are no more than the cost of any pair of vertex disjoint paths: one row is added for each vertex whose
distance exceeds the upper bound, and every row holds for every tour from the root whose objective is at most the upper bound.  The distance of
the root must not exceed the upper bound; `C86_excludes` is about the other case. -/
theorem C38_disjoint_paths {g : Graph} (hl : ∀ v < g.n, (v, v) ∈ g.edges) {cost : Nat → Int} (hc : ∀ e < g.edges.length, 0 ≤ cost e) {root : Nat}
    (hroot : root < g.n) {dist : Nat → Int} {ub : Int} (hd0 : dist root ≤ 0 ∨ dist root ≤ ub)
    (hd : ∀ v < g.n, v ≠ root → ∀ d, DisjointPaths g cost root v d → dist v ≤ d) :
    ∃ rows, separateThenAddCostCover g g.hasVar root dist ub = .ok rows ∧
      rows.length = ((List.range g.n).filter fun v => decide (ub < dist v)).length ∧
      ∀ row ∈ rows, ∀ t es x, IsTour g root t → IncidenceOf g t es x → objective g cost x ≤ ub → row.Sat x := by
  obtain ⟨rows, h1, h2⟩ := costCover_rows hl hroot dist ub
  refine ⟨rows, h1, h2.length_eq.symm, ?_⟩
  intro row hrow t es x ht hinc hub
  obtain ⟨i, hi, rfl⟩ := List.getElem_of_mem hrow
  have h3 := h2.get (i := i) (by rw [h2.length_eq]; exact hi) hi
  simp only [List.get_eq_getElem] at h3
  generalize (separateCostCoverPaths g dist ub)[i]'(by rw [h2.length_eq]; exact hi) = v at h3
  obtain ⟨⟨hv, hdv⟩, hlhs, hrhs, hact⟩ := h3
  have hvt : v ∉ t := by
    intro hvt
    by_cases hne : v = root
    · have := objective_nonneg hc hinc
      rw [hne] at hdv
      omega
    · have hlen : 3 ≤ t.length := by
        obtain ⟨m, rfl⟩ := ht.shape
        cases m with
        | nil => simp [hne] at hvt
        | cons => simp
      have := objective_ge hc ht hlen hinc
      have := hd v hv hne _ (tour_disjointPaths (cost := cost) ht hinc hvt hne)
      omega
  have hr : loopVal g x root ≤ 1 := by
    rw [loopVal_incidence hinc (hl root hroot)]
    split <;> omega
  have hv0 : loopVal g x v = 0 := by rw [loopVal_incidence hinc (hl v hv), if_neg hvt]
  rw [Row.Sat, hlhs, hrhs, hact]
  simp only [reduceCtorEq, Option.some.injEq, forall_eq', false_imp_iff, implies_true, true_and]
  omega

/-- The cost of the edges of `exTwo`: the bridge costs 5. -/
def exTwoCost : Nat → Int := fun e => if e = 6 then 5 else if e < 7 then 1 else 0

/-- In `exTwo` there are no disjoint paths to the other triangle, so any distance is a bound there. -/
theorem exTwo_no_disjointPaths {v : Nat} (hv : 3 ≤ v) (d : Int) : ¬ DisjointPaths exTwo exTwoCost 0 v d := by
  rintro ⟨a, b, es, fs, -, hnd, h1, h2, -⟩
  -- each of the two paths uses the bridge
  have key : ∀ (l : List Nat) (u : Nat) (es : List Nat), u < 3 → WalkEdges exTwo es (u :: (l ++ [v])) → 6 ∈ es := by
    intro l
    have hall : ∀ e u w, EdgeBetween exTwo e u w → u < 3 → ¬ w < 3 → e = 6 := by
      have hb : ∀ e < exTwo.edges.length, ∀ p ∈ exTwo.edges[e]?, e ≠ 6 → (p.1 < 3 ↔ p.2 < 3) := by decide
      intro e u w he hu hw
      by_contra h6
      rcases he with he | he
      · exact hw ((hb e (List.getElem?_eq_some_iff.1 he).1 _ he h6).1 hu)
      · exact hw ((hb e (List.getElem?_eq_some_iff.1 he).1 _ he h6).2 hu)
    induction l with
    | nil =>
      intro u es hu h
      unfold WalkEdges at h
      simp only [List.nil_append, consec_cons_cons] at h
      cases h with
      | @cons e _ es' _ he _ => rw [hall e _ _ he hu (by omega)]; simp
    | cons w l ih =>
      intro u es hu h
      unfold WalkEdges at h
      simp only [List.cons_append, consec_cons_cons] at h
      cases h with
      | @cons e _ es' _ he h2 =>
        by_cases hw : w < 3
        · exact List.mem_cons_of_mem _ (ih w es' hw h2)
        · rw [hall e _ _ he hu hw]; simp
  have h3 := key a 0 es (by omega) h1
  have h4 := key b 0 fs (by omega) h2
  exact (List.nodup_append.1 hnd).2.2 6 h3 6 h4 rfl

example : (∀ v < exTwo.n, (v, v) ∈ exTwo.edges) ∧ (∀ e < exTwo.edges.length, 0 ≤ exTwoCost e) ∧ 0 < exTwo.n ∧
    (fun v => if v < 3 then (0 : Int) else 9) 0 ≤ 0 := by decide

example : ∀ v < exTwo.n, v ≠ 0 → ∀ d, DisjointPaths exTwo exTwoCost 0 v d → (fun v => if v < 3 then (0 : Int) else 9) v ≤ d := by
  intro v _ _ d hd
  by_cases h : v < 3
  · simp only [if_pos h]
    obtain ⟨a, b, es, fs, -, -, -, -, rfl⟩ := hd
    have h0 : ∀ e, 0 ≤ exTwoCost e := by intro e; unfold exTwoCost; split <;> [omega; (split <;> omega)]
    generalize es ++ fs = l
    induction l with
    | nil => simp
    | cons e l ih => have := h0 e; simp only [List.map_cons, List.sum_cons]; omega
  · exact absurd hd (exTwo_no_disjointPaths (by omega) d)

example : ∃ rows, separateThenAddCostCover exTwo exTwo.hasVar 0 (fun v => if v < 3 then 0 else 9) 5 = .ok rows ∧ rows.length = 3 :=
  ⟨_, rfl, by decide⟩

/-- The stored distances of the shortest path handler. -/
theorem shortestPathCover_ok {g : Graph} (hg : g.WF) {cost : Nat → Int} {root : Nat} {pick : Pick} (hpick : pick.Heap)
    (hroot : root < g.n) {dists : List Int} (h : shortestPathCoverDistances g cost pick root = .ok dists) :
    dists.length = g.n ∧ ∀ v < g.n, ∃ d, dists[v]? = some (2 * d) ∧ Reaches g cost (fun _ => false) root v d ∧
      ∀ d', Reaches g cost (fun _ => false) root v d' → d ≤ d' := by
  rcases dijkstra_all hg (cost := cost) (mark := fun _ => false) hpick hroot rfl with ⟨h1, -⟩ | ⟨st, h1, h2⟩
  · rw [shortestPathCoverDistances, h1] at h
    simp [Res.throw_bind] at h
  · rw [shortestPathCoverDistances, h1, Res.ok_bind] at h
    simp only [doubleDistances] at h
    rw [mapRes_eq_ok] at h
    refine ⟨by rw [← h.length_eq, List.length_range], ?_⟩
    intro v hv
    have hv1 : v < (List.range g.n).length := by simpa using hv
    have hv2 : v < dists.length := by rw [← h.length_eq]; exact hv1
    have h3 := h.get hv1 hv2
    simp only [List.get_eq_getElem, List.getElem_range] at h3
    cases hd : st.dist v with
    | none =>
      rw [hd] at h3
      simp at h3
    | some d =>
      rw [hd] at h3
      obtain ⟨h4, h5⟩ := (h2 v).1 d hd
      refine ⟨d, ?_, h4, h5⟩
      rw [List.getElem?_eq_getElem hv2]
      split at h3
      · simp only [Option.getD_some, Res.ok.injEq] at h3
        rw [← h3, Int.mul_comm]
      · simp at h3

/-- **C38.** With the distances that the shortest path handler computes, every row holds for every tour from the root whose objective is
at most the upper bound. -/
theorem C38_shortest_paths {g : Graph} (hg : g.WF) (hl : ∀ v < g.n, (v, v) ∈ g.edges) {cost : Nat → Int} (hc : ∀ e < g.edges.length, 0 ≤ cost e)
    {root : Nat} {pick : Pick} (hpick : pick.Heap) (hroot : root < g.n) {dists : List Int}
    (h : shortestPathCoverDistances g cost pick root = .ok dists) (ub : Int) :
    ∃ rows, separateThenAddCostCover g g.hasVar root (fun v => dists.getD v 0) ub = .ok rows ∧
      ∀ row ∈ rows, ∀ t es x, IsTour g root t → IncidenceOf g t es x → objective g cost x ≤ ub → row.Sat x := by
  obtain ⟨-, h1⟩ := shortestPathCover_ok hg hpick hroot h
  obtain ⟨rows, h2, -, h3⟩ := C38_disjoint_paths hl hc hroot (dist := fun v => dists.getD v 0) (by
    left
    obtain ⟨d, hd, hr, hmin⟩ := h1 root hroot
    have := hmin 0 .start
    simp only [List.getD_eq_getElem?_getD, hd, Option.getD_some]
    omega) (by
    intro v hv _ d hdis
    obtain ⟨d0, hd, -, hmin⟩ := h1 v hv
    simp only [List.getD_eq_getElem?_getD, hd, Option.getD_some]
    exact disjointPaths_ge hdis hmin)
  exact ⟨rows, h2, h3⟩

example : shortestPathCoverDistances exTwo exTwoCost exPick 0 = .ok [0, 2, 2, 12, 14, 14] := by decide +kernel
example : exTwo.WF ∧ (∀ v < exTwo.n, (v, v) ∈ exTwo.edges) ∧ (∀ e < exTwo.edges.length, 0 ≤ exTwoCost e) ∧ 0 < exTwo.n := by decide
example : exPick.Heap := exPick_heap

/-! ### C39 -/

/-- **C39.** If a vertex cannot be reached from the root, computing the distances overflows. -/
theorem C39_overflow {g : Graph} (hg : g.WF) {cost : Nat → Int} (hc : ∀ e < g.edges.length, 0 ≤ cost e) {root : Nat} {pick : Pick}
    (hpick : pick.Heap) (hroot : root < g.n) {v : Nat} (hv : v < g.n) (hun : ∀ d, ¬ Reaches g cost (fun _ => false) root v d) :
    (shortestPathCoverDistances g cost pick root).isUb = true := by
  rcases dijkstra_all hg (cost := cost) (mark := fun _ => false) hpick hroot rfl with ⟨-, e, a, b, he, hneg, -⟩ | ⟨st, h1, h2⟩
  · have : e < g.edges.length := by rcases he with he | he <;> exact (List.getElem?_eq_some_iff.1 he).1
    have := hc e this
    omega
  · rw [shortestPathCoverDistances, h1, Res.ok_bind]
    simp only
    have hnone : st.dist v = none := by
      cases hd : st.dist v with
      | none => rfl
      | some d => exact absurd ((h2 v).1 d hd).1 (hun d)
    rw [doubleDistances]
    have hmem : v ∈ List.range g.n := List.mem_range.2 hv
    have key : ∀ l : List Nat, v ∈ l → (mapRes (fun v => let d := (st.dist v).getD 2147483647
        if -2147483648 ≤ d * 2 ∧ d * 2 ≤ 2147483647 then (.ok (d * 2) : Res Int) else .ub "distances: signed overflow") l).isUb = true := by
      intro l hl
      induction l with
      | nil => simp at hl
      | cons a l ih =>
        rw [mapRes]
        by_cases ha : a = v
        · subst ha
          rw [hnone]
          rfl
        · have hvl : v ∈ l := by simpa [Ne.symm ha] using hl
          simp only
          split
          · rw [Res.ok_bind]
            have := ih hvl
            generalize mapRes _ l = r at this ⊢
            cases r <;> simp_all [Res.isUb, Res.ub_bind]
          · rfl
    exact key _ hmem

/-- Two triangles without a bridge. -/
def exApart : Graph :=
  { n := 6, edges := [(0, 1), (1, 2), (2, 0), (3, 4), (4, 5), (5, 3), (0, 0), (1, 1), (2, 2), (3, 3), (4, 4), (5, 5)] }

theorem exApart_unreached : ∀ d, ¬ Reaches exApart (fun _ => 1) (fun _ => false) 0 3 d := by
  intro d h
  have key : ∀ v d, Reaches exApart (fun _ => 1) (fun _ => false) 0 v d → v < 3 := by
    intro v d h
    induction h with
    | start => omega
    | @step u w e _ _ he _ ih =>
      have hall : ∀ p ∈ exApart.edges, (p.1 < 3 ↔ p.2 < 3) := by decide
      rcases he with he | he
      · exact (hall _ (List.mem_of_getElem? he)).1 ih
      · exact (hall _ (List.mem_of_getElem? he)).2 ih
  have := key 3 d h
  omega

example : exApart.WF ∧ (∀ e < exApart.edges.length, (0 : Int) ≤ 1) ∧ 0 < exApart.n ∧ 3 < exApart.n := by decide
example : ∀ d, ¬ Reaches exApart (fun _ => 1) (fun _ => false) 0 3 d := exApart_unreached

/-- **C39.** No tour from the root visits a vertex that cannot be reached, so its row would be valid for every upper bound. -/
theorem C39_no_tour_visits {g : Graph} {cost : Nat → Int} {root v : Nat} (hun : ∀ d, ¬ Reaches g cost (fun _ => false) root v d) {t : List Nat}
    (ht : IsTour g root t) : v ∉ t := by
  obtain ⟨m, rfl⟩ := ht.shape
  intro hv
  obtain ⟨d, hd⟩ := consec_closed (P := fun v => ∃ d, Reaches g cost (fun _ => false) root v d) root (m ++ [root]) (by
    rintro ⟨a, b⟩ hab ⟨d, hd⟩
    rcases ht.walk _ hab with h | h
    · obtain ⟨e, he⟩ := List.getElem?_of_mem h
      exact ⟨_, hd.step (Or.inl he) rfl⟩
    · obtain ⟨e, he⟩ := List.getElem?_of_mem h
      exact ⟨_, hd.step (Or.inr he) rfl⟩) ⟨0, .start⟩ v hv
  exact hun d hd

example := C39_overflow (g := exApart) (by decide) (by decide) exPick_heap (by decide) (by decide) exApart_unreached
example := C39_no_tour_visits exApart_unreached (t := [0, 1, 2, 0]) ⟨⟨[1, 2], rfl⟩, by decide, by decide⟩

example : IsTour exApart 0 [0, 1, 2, 0] := ⟨⟨[1, 2], rfl⟩, by decide, by decide⟩

/-- **C39.** On a machine that wraps, the distance `INT_MAX` becomes -2 and the vertex is not separated for any upper bound from -2 on. -/
theorem C39_wraps {g : Graph} {dist : Nat → Int} {v : Nat} (hd : dist v = wrapInt (2147483647 * 2)) {ub : Int} (hub : -2 ≤ ub) :
    dist v = -2 ∧ v ∉ separateCostCoverPaths g dist ub := by
  have h2 : dist v = -2 := by rw [hd]; decide
  refine ⟨h2, ?_⟩
  intro hm
  simp only [separateCostCoverPaths, List.mem_filter, decide_eq_true_eq] at hm
  omega

example : (fun _ => wrapInt (2147483647 * 2)) 3 = wrapInt (2147483647 * 2) ∧ (-2 : Int) ≤ 100 := by decide

/-- **C39.** If every vertex can be reached by a walk of cost at most `INT_MAX / 2`, a vertex is separated iff twice the cost of every walk from
the root to it exceeds the upper bound. -/
theorem C39_exact {g : Graph} (hg : g.WF) {cost : Nat → Int} (hc : ∀ e < g.edges.length, 0 ≤ cost e) {root : Nat} {pick : Pick}
    (hpick : pick.Heap) (hroot : root < g.n) (hd : ∀ v < g.n, ∃ d, Reaches g cost (fun _ => false) root v d ∧ d ≤ 1073741823) (ub : Int) :
    ∃ dists, shortestPathCoverDistances g cost pick root = .ok dists ∧
      ∀ v, v ∈ separateCostCoverPaths g (fun v => dists.getD v 0) ub ↔ v < g.n ∧ ∀ d, Reaches g cost (fun _ => false) root v d → ub < 2 * d := by
  have hok : ∃ dists, shortestPathCoverDistances g cost pick root = .ok dists := by
    rcases dijkstra_all hg (cost := cost) (mark := fun _ => false) hpick hroot rfl with ⟨-, e, a, b, he, hneg, -⟩ | ⟨st, h1, h2⟩
    · have : e < g.edges.length := by rcases he with he | he <;> exact (List.getElem?_eq_some_iff.1 he).1
      have := hc e this
      omega
    · rw [shortestPathCoverDistances, h1, Res.ok_bind]
      simp only
      rw [doubleDistances]
      refine ⟨(List.range g.n).map fun v => (st.dist v).getD 0 * 2, ?_⟩
      rw [mapRes_eq_ok, List.forall₂_map_right_iff, List.forall₂_same]
      intro v hv
      obtain ⟨d, hr, hle⟩ := hd v (List.mem_range.1 hv)
      cases hdv : st.dist v with
      | none => exact absurd hr ((h2 v).2 hdv d)
      | some d0 =>
        obtain ⟨h3, h4⟩ := (h2 v).1 d0 hdv
        have h5 := h4 d hr
        have hge : ∀ w d, Reaches g cost (fun _ => false) root w d → 0 ≤ d := by
          intro w d h
          induction h with
          | start => omega
          | @step u w e d _ he _ ih =>
            have : e < g.edges.length := by rcases he with he | he <;> exact (List.getElem?_eq_some_iff.1 he).1
            have := hc e this
            omega
        have h6 := hge v d0 h3
        simp only [Option.getD_some]
        rw [if_pos (by omega)]
  obtain ⟨dists, h⟩ := hok
  refine ⟨dists, h, fun v => ?_⟩
  obtain ⟨-, h1⟩ := shortestPathCover_ok hg hpick hroot h
  simp only [separateCostCoverPaths, List.mem_filter, List.mem_range, decide_eq_true_eq]
  refine and_congr_right fun hv => ?_
  obtain ⟨d0, h2, h3, h4⟩ := h1 v hv
  simp only [List.getD_eq_getElem?_getD, h2, Option.getD_some]
  refine ⟨fun hlt d hr => ?_, fun hall => hall d0 h3⟩
  have := h4 d hr
  omega

theorem exTwo_reached : ∀ v < exTwo.n, ∃ d, Reaches exTwo exTwoCost (fun _ => false) 0 v d ∧ d ≤ 1073741823 := by
  intro v hv
  obtain ⟨-, h1⟩ := shortestPathCover_ok (g := exTwo) (cost := exTwoCost) (root := 0) (by decide) exPick_heap (by decide)
    (dists := [0, 2, 2, 12, 14, 14]) (by decide +kernel)
  obtain ⟨d, hd, hr, -⟩ := h1 v hv
  have hv' : v < 6 := hv
  have hall : ∀ v < 6, ∀ y ∈ ([0, 2, 2, 12, 14, 14] : List Int)[v]?, y ≤ 14 := by decide
  have := hall v hv' _ hd
  exact ⟨d, hr, by omega⟩

example := C39_exact (g := exTwo) (by decide) (by decide) exPick_heap (by decide) exTwo_reached

example : exTwo.WF ∧ (∀ e < exTwo.edges.length, 0 ≤ exTwoCost e) ∧ 0 < exTwo.n := by decide
example : ∀ v < exTwo.n, ∃ d, Reaches exTwo exTwoCost (fun _ => false) 0 v d ∧ d ≤ 1073741823 := exTwo_reached

/-! ### C59 -/

theorem costCover_separate {g : Graph} (hl : ∀ v < g.n, (v, v) ∈ g.edges) {root : Nat} (hroot : root < g.n) (ub : Int) (h : CostCover) :
    ∃ rows, separateThenAddCostCover g g.hasVar root h.dist ub = .ok rows ∧ rows.length = (separateCostCoverPaths g h.dist ub).length ∧
      h.separate g g.hasVar root ub = .ok ({ h with rows := h.rows ++ rows }, rows.length) := by
  obtain ⟨rows, h1, h2⟩ := costCover_rows hl hroot h.dist ub
  exact ⟨rows, h1, h2.length_eq.symm, by simp [CostCover.separate, h1, Res.pure_eq]⟩

/-- **C59.** After the initial solution and any sequence of new best solutions, the reported number of cost cover rows is the number of rows that
were added, and this is the number of pairs of a solution and a vertex whose distance exceeds the cost of the solution. -/
theorem C59_count {g : Graph} (hl : ∀ v < g.n, (v, v) ∈ g.edges) {root : Nat} (hroot : root < g.n) (dist : Nat → Int) (ub0 : Int) (ubs : List Int) :
    ∃ h0 h1, (CostCover.new dist).initial g g.hasVar root ub0 = .ok h0 ∧ h0.run g g.hasVar root ubs = .ok h1 ∧ h1.count = h1.rows.length ∧
      h1.numInit = h0.rows.length ∧ h0.rows.length = (if 0 < ub0 then ((List.range g.n).filter fun v => decide (ub0 < dist v)).length else 0) ∧
      h1.rows.length = h0.rows.length + (ubs.map fun ub => ((List.range g.n).filter fun v => decide (ub < dist v)).length).sum := by
  have hinit : ∃ h0, (CostCover.new dist).initial g g.hasVar root ub0 = .ok h0 ∧ h0.dist = dist ∧ h0.numAdded = 0 ∧ h0.numInit = h0.rows.length ∧
      h0.rows.length = (if 0 < ub0 then ((List.range g.n).filter fun v => decide (ub0 < dist v)).length else 0) := by
    by_cases hub : ub0 > 0
    · obtain ⟨rows, -, h2, h3⟩ := costCover_separate hl hroot ub0 (CostCover.new dist)
      refine ⟨_, by rw [CostCover.initial, if_pos hub, h3]; rfl, rfl, rfl, by simp [CostCover.new], ?_⟩
      rw [if_pos hub]
      exact (congrArg List.length (List.nil_append rows)).trans h2
    · exact ⟨_, by rw [CostCover.initial, if_neg hub], rfl, rfl, rfl, by rw [if_neg hub]; rfl⟩
  obtain ⟨h0, i1, i2, i3, i4, i5⟩ := hinit
  have hrun : ∀ (ubs : List Int) (h : CostCover), h.dist = dist → h.numAdded + h.numInit = h.rows.length → ∃ h1, h.run g g.hasVar root ubs = .ok h1 ∧
      h1.numInit = h.numInit ∧ h1.count = h1.rows.length ∧
      h1.rows.length = h.rows.length + (ubs.map fun ub => ((List.range g.n).filter fun v => decide (ub < dist v)).length).sum := by
    intro ubs
    induction ubs with
    | nil => intro h _ hc; exact ⟨h, rfl, rfl, hc, by simp⟩
    | cons ub ubs ih =>
      intro h hd hc
      obtain ⟨rows, -, h2, h3⟩ := costCover_separate hl hroot ub h
      rw [hd] at h2
      obtain ⟨h1, j1, j2, j3, j4⟩ := ih { h with rows := h.rows ++ rows, numAdded := h.numAdded + rows.length } hd (by simp; omega)
      refine ⟨h1, ?_, j2, j3, ?_⟩
      · rw [CostCover.run, CostCover.exec, h3]
        exact j1
      · rw [j4]
        simp only [List.length_append, List.map_cons, List.sum_cons, h2, separateCostCoverPaths]
        omega
  obtain ⟨h1, j1, j2, j3, j4⟩ := hrun ubs h0 i2 (by omega)
  exact ⟨h0, h1, i1, j1, j3, by omega, i5, j4⟩

example := C59_count (g := exTwo) (by decide) (root := 0) (by decide) (fun v => [0, 2, 2, 12, 14, 14].getD v 0) 13 [13, 11]

/-- **C59.** Solutions of decreasing cost add the rows of all earlier ones again: the same row is added once for every solution. -/
theorem C59_duplicates {g : Graph} (hl : ∀ v < g.n, (v, v) ∈ g.edges) {root : Nat} (hroot : root < g.n) (dist : Nat → Int) {ub ub' : Int}
    (hub : ub' ≤ ub) : ∃ rows rows', separateThenAddCostCover g g.hasVar root dist ub = .ok rows ∧
      separateThenAddCostCover g g.hasVar root dist ub' = .ok rows' ∧ ∀ row ∈ rows, row ∈ rows' := by
  obtain ⟨rows, h1, -⟩ := costCover_rows hl hroot dist ub
  obtain ⟨rows', h2, -⟩ := costCover_rows hl hroot dist ub'
  refine ⟨rows, rows', h1, h2, ?_⟩
  rw [separateThenAddCostCover, mapRes_eq_ok] at h1 h2
  intro row hrow
  obtain ⟨i, hi, rfl⟩ := List.getElem_of_mem hrow
  have hi' : i < (separateCostCoverPaths g dist ub).length := by rw [h1.length_eq]; exact hi
  have h3 := h1.get hi' hi
  simp only [List.get_eq_getElem] at h3
  have hm : (separateCostCoverPaths g dist ub)[i] ∈ separateCostCoverPaths g dist ub' := by
    have := List.getElem_mem hi'
    simp only [separateCostCoverPaths, List.mem_filter, decide_eq_true_eq] at this ⊢
    exact ⟨this.1, by omega⟩
  obtain ⟨j, hj, hjeq⟩ := List.getElem_of_mem hm
  have h4 := h2.get hj (by rw [← h2.length_eq]; exact hj)
  simp only [List.get_eq_getElem] at h4
  rw [hjeq, h3] at h4
  simp only [Res.ok.injEq] at h4
  rw [h4]
  exact List.getElem_mem _

example : ∃ h0 h1, (CostCover.new fun v => [0, 2, 2, 12, 14, 14].getD v 0).initial exTwo exTwo.hasVar 0 13 = .ok h0 ∧
    h0.run exTwo exTwo.hasVar 0 [13, 11] = .ok h1 ∧ h0.count = 2 ∧ h1.count = 7 ∧ h1.rows.dedup.length = 3 :=
  ⟨_, _, rfl, rfl, by decide, by decide, by decide +kernel⟩

end Pctsp
