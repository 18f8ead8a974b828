import Verif.Props.Solve

/-!
# C93: what becomes of the start solution
-/

namespace Pctsp

variable {α : Type} [DecidableEq α]

/-- **C93.** Suppose that SCIP keeps a start solution that passes its checks.  If the heuristic edges are those of a feasible tour, in any order and
direction, and the distances of the caller are no more than the cost of the feasible tours through the vertex, then the solver returns the edges of a
feasible tour that costs no more, whatever the status: a time limit cannot lose it, and the answer is never `infeasible`. -/
theorem C93_kept {es heur : List (α × α)} {costs : List ((α × α) × Int)} {prizes : List (α × Int)} {w : α → α → Int} {π δ : α → Int}
    (h : Describes es costs prizes w π) (hno : ∀ e ∈ es, e.1 ≠ e.2) (hw : ∀ x y, 0 ≤ w x y) {quota : Int} {root : α} (hroot : root ∈ endpoints es)
    (o : SolveOptions) {disjoint : List (α × Int)} (hkeys : ∀ x c, (x, c) ∈ disjoint → c = δ x ∧ x ∈ endpoints es)
    {pick : Pick} (hpick : pick.Heap) {scip : Problem → ScipOutcome} {order : Nat → List Nat} (ho : ∀ n, (order n).Perm (List.range n))
    {k : Int} (hscip : ∀ P, ScipSpec k P (order P.graph.edges.length) (scip P)) (hkeep : ∀ P, KeepsStart P (order P.graph.edges.length) (scip P))
    (hreach : o.coverShortest = true → ∀ x ∈ endpoints es, ∃ l, (root :: l).getLast? = some x ∧ (∀ p ∈ consec (root :: l), AdjIn es p.1 p.2) ∧
      namedCost w (root :: l) ≤ 1073741823)
    (hprize : o.cycleCover = true → ∀ x, 0 ≤ π x)
    (hdis : o.coverDisjoint = true → ∀ x c, (x, c) ∈ disjoint → ∀ t, FeasibleIn es π quota root t → x ∈ t → c ≤ namedCost w t)
    {t : List α} (ht : FeasibleIn es π quota root t) (hheur : EdgesOfTour t heur) :
    ∃ st ps t', solveBind scip order es heur costs prizes quota root o disjoint pick = .ok (st, ps) ∧ st ≠ .infeasible ∧
      FeasibleIn es π quota root t' ∧ EdgesOfTour t' ps ∧ namedCost w t' ≤ namedCost w t := by
  have hadj : ∀ p ∈ heur, AdjIn es p.1 p.2 := by
    intro p hp
    obtain ⟨qs, h1, h2⟩ := hheur
    obtain ⟨q, hq, hpq⟩ := forall₂_left_mem h2 hp
    have := ht.tour.walk q (h1.mem_iff.1 hq)
    rcases hpq with rfl | rfl
    · exact this
    · exact this.symm
  obtain ⟨st, ps, h1, -, -, h4, h5, h6⟩ := solve_named h hno hw (quota := quota) hroot hadj o hkeys hpick ho hscip hreach hprize rfl
  have hub : (heur.map fun p => w p.1 p.2).sum = namedCost w t := hheur.sum h.symm
  have hT := h5 hdis t ht (Int.le_of_eq hub.symm)
  obtain ⟨t', a, -, b, c⟩ := h6 hkeep t ht hT hheur
  exact ⟨st, ps, t', h1, fun hst => (h4 hst).2 t ht hT, a, b, c⟩

/-- **C93.** Without that bound on the distances a good start solution can prevent every answer.  If the distance of the root is larger than the
positive cost of the start solution, nothing is returned, the status is never `optimal`, and `infeasible` is what a solver that runs to the end reports. -/
theorem C93_lost {es heur : List (α × α)} {costs : List ((α × α) × Int)} {prizes : List (α × Int)} {w : α → α → Int} {π δ : α → Int}
    (h : Describes es costs prizes w π) (hno : ∀ e ∈ es, e.1 ≠ e.2) (hw : ∀ x y, 0 ≤ w x y) {quota : Int} {root : α} (hroot : root ∈ endpoints es)
    (hheur : ∀ p ∈ heur, AdjIn es p.1 p.2) (o : SolveOptions) {disjoint : List (α × Int)} (hkeys : ∀ x c, (x, c) ∈ disjoint → c = δ x ∧ x ∈ endpoints es)
    {pick : Pick} (hpick : pick.Heap) {scip : Problem → ScipOutcome} {order : Nat → List Nat} (ho : ∀ n, (order n).Perm (List.range n))
    {k : Int} (hscip : ∀ P, ScipSpec k P (order P.graph.edges.length) (scip P))
    (hreach : o.coverShortest = true → ∀ x ∈ endpoints es, ∃ l, (root :: l).getLast? = some x ∧ (∀ p ∈ consec (root :: l), AdjIn es p.1 p.2) ∧
      namedCost w (root :: l) ≤ 1073741823)
    (hprize : o.cycleCover = true → ∀ x, 0 ≤ π x) (hon : o.coverDisjoint = true) {c : Int} (hc : (root, c) ∈ disjoint)
    (hpos : 0 < (heur.map fun p => w p.1 p.2).sum) (hlt : (heur.map fun p => w p.1 p.2).sum < c) :
    ∃ st, solveBind scip order es heur costs prizes quota root o disjoint pick = .ok (st, []) ∧ st ≠ .optimal := by
  obtain ⟨st, ps, h1, h2, h3, -⟩ := solve_named h hno hw (quota := quota) hroot hheur o hkeys hpick ho hscip hreach hprize rfl
  have hno : ∀ t, FeasibleIn es π quota root t → ¬ TrustedIn es w root o disjoint (heur.map fun p => w p.1 p.2).sum t := by
    intro t ht hT
    obtain ⟨m, rfl⟩ := ht.tour.shape
    have := (hT hpos root (by simp)).1 hon c hc
    omega
  have hps : ps = [] := by
    rcases h2 with h2 | ⟨t, ht, hT, -⟩
    · exact h2
    · exact absurd hT (hno t ht)
  subst hps
  refine ⟨st, h1, fun hst => ?_⟩
  obtain ⟨t, ht, hT, -⟩ := h3 hst
  exact hno t ht hT

/-- A solver that meets the specification, decides every problem and keeps start solutions. -/
theorem exists_scip_keeps (scale : Int) (order : Nat → List Nat) : ∃ scip : Problem → ScipOutcome, ∀ P,
    ScipSpec scale P (order P.graph.edges.length) (scip P) ∧ KeepsStart P (order P.graph.edges.length) (scip P) ∧
      ((scip P).status = .optimal ∨ (scip P).status = .infeasible) := by
  have key : ∀ P : Problem, ∃ a, ScipSpec scale P (order P.graph.edges.length) a ∧ KeepsStart P (order P.graph.edges.length) a ∧
      (a.status = .optimal ∨ a.status = .infeasible) := by
    intro P
    by_cases hex : ∃ y, Accepted P (order P.graph.edges.length) y
    · have hbdd : ∃ b, ∀ z, (∃ y, Accepted P (order P.graph.edges.length) y ∧ objective P.graph P.cost y = z) → b ≤ z := by
        refine ⟨((List.range P.graph.edges.length).map fun e => min 0 (P.cost e)).sum, ?_⟩
        rintro _ ⟨y, hy, rfl⟩
        rw [objective]
        refine List.sum_le_sum fun e he => ?_
        rcases hy.binary e (List.mem_range.1 he) with h | h <;> rw [h] <;> omega
      obtain ⟨y₀, hy₀⟩ := hex
      obtain ⟨_, ⟨y, hy, rfl⟩, hmin⟩ := Int.exists_least_of_bdd hbdd ⟨_, y₀, hy₀, rfl⟩
      exact ⟨⟨.optimal, some y⟩, ⟨fun z hz => by cases hz; exact hy, [], [], by simp, by simp, fun _ => ⟨y, rfl, fun z hz _ => hmin _ ⟨z, hz, rfl⟩⟩, by simp⟩,
        fun vars _ ha => ⟨y, rfl, hmin _ ⟨_, ha, rfl⟩⟩, Or.inl rfl⟩
    · exact ⟨⟨.infeasible, none⟩, ⟨by simp, [], [], by simp, by simp, by simp, fun _ => ⟨rfl, fun z hz => absurd ⟨z, hz⟩ hex⟩⟩,
        fun vars _ ha => absurd ⟨_, ha⟩ hex, Or.inr rfl⟩
  choose f hf using key
  exact ⟨f, hf⟩

/-- The hypotheses of C93_kept: the triangle of cost 13 is given, its edges in another order and direction. -/
example : ∃ scip : Problem → ScipOutcome, (∀ P, ScipSpec 1 P (List.range P.graph.edges.length) (scip P)) ∧
    (∀ P, KeepsStart P (List.range P.graph.edges.length) (scip P)) ∧ FeasibleIn exBow (fun _ => 1) 3 0 [0, 1, 2, 0] ∧
    EdgesOfTour [0, 1, 2, 0] [(2, 1), (0, 1), (0, 2)] ∧
    ∃ st ps t', solveBind scip List.range exBow [(2, 1), (0, 1), (0, 2)] (exBow.map fun p => (p, exBowCost p.1 p.2))
      ((List.range 5).map fun v => (v, 1)) 3 0 ⟨false, true, true, true, true⟩ [] exPick = .ok (st, ps) ∧ st ≠ .infeasible ∧
      FeasibleIn exBow (fun _ => 1) 3 0 t' ∧ EdgesOfTour t' ps ∧ namedCost exBowCost t' ≤ 13 := by
  obtain ⟨scip, hscip⟩ := exists_scip_keeps 1 List.range
  have hf : FeasibleIn exBow (fun _ => 1) 3 0 [0, 1, 2, 0] := ⟨⟨⟨[1, 2], rfl⟩, by decide, by decide⟩, by decide, by decide⟩
  have he : EdgesOfTour [0, 1, 2, 0] [(2, 1), (0, 1), (0, 2)] :=
    ⟨[(1, 2), (0, 1), (2, 0)], by decide, .cons (Or.inr rfl) (.cons (Or.inl rfl) (.cons (Or.inr rfl) .nil))⟩
  exact ⟨scip, fun P => (hscip P).1, fun P => (hscip P).2.1, hf, he, C93_kept (δ := fun _ => 0) exBow_describes (by decide) exBowCost_nonneg (by decide)
    ⟨false, true, true, true, true⟩ (disjoint := []) (by simp) exPick_heap (fun n => List.Perm.refl _) (fun P => (hscip P).1) (fun P => (hscip P).2.1)
    (fun _ => exBow_reach) (by simp) (by simp) hf he⟩

/-- The hypotheses of C93_lost: the optimal tour of cost 10 is given, and the distance 11 of the root. -/
example : ∃ scip : Problem → ScipOutcome, FeasibleIn exBow (fun _ => 1) 3 0 [0, 3, 4, 0] ∧ EdgesOfTour [0, 3, 4, 0] [(0, 3), (3, 4), (4, 0)] ∧
    solveBind scip List.range exBow [(0, 3), (3, 4), (4, 0)] (exBow.map fun p => (p, exBowCost p.1 p.2))
      ((List.range 5).map fun v => (v, 1)) 3 0 ⟨true, false, false, true, true⟩ [(0, 11)] exPick = .ok (.infeasible, []) := by
  obtain ⟨scip, hscip⟩ := exists_scip_keeps 1 List.range
  obtain ⟨st, h1, h2⟩ := C93_lost (δ := fun _ => 11) exBow_describes (by decide) exBowCost_nonneg (quota := 3) (root := 0) (by decide)
    (heur := [(0, 3), (3, 4), (4, 0)]) (by decide) ⟨true, false, false, true, true⟩ (disjoint := [(0, 11)]) (by
      intro x c hx
      simp only [List.mem_singleton, Prod.mk.injEq] at hx
      obtain ⟨rfl, rfl⟩ := hx
      decide) exPick_heap (fun n => List.Perm.refl _)
    (fun P => (hscip P).1) (by simp) (by simp) rfl (c := 11) (by simp) (by decide) (by decide)
  obtain ⟨P, hP⟩ := solveBind_status h1
  refine ⟨scip, ⟨⟨⟨[3, 4], rfl⟩, by decide, by decide⟩, by decide, by decide⟩, ⟨_, List.Perm.refl _, by
    exact .cons (Or.inl rfl) (.cons (Or.inl rfl) (.cons (Or.inl rfl) .nil))⟩, ?_⟩
  rw [h1, hP]
  rcases (hscip P).2.2 with h | h
  · exact absurd (hP.trans h) h2
  · rw [h]

end Pctsp
