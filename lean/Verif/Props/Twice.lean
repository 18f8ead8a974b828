import Verif.Lemmas.Preprocess
import Verif.Lemmas.TwiceSolve
import Verif.Props.Solve

/-!
# C152: the solver on graphs in which edges are listed several times

Nothing checks that an edge is listed once; both directions of an edge of a directed graph, for instance, are two edges between the same vertices.
If every edge is listed once then the answers are the feasible tours (C88).
-/

namespace Pctsp

/-- **C152.** Edges may be listed several times and no cost cover is on.  Whatever is returned is a feasible tour along edges that are listed once, or a
closed walk along edges that are listed several times.  In the second case its edges are split into `M` and `N`: no two edges of `M` have a vertex in
common, they are listed exactly twice, only the prizes of their ends count for the quota, and only they cost something.  With status `optimal` no such
answer is cheaper, and with status `infeasible` there is none.  With cycle cover this holds for the answers of the first kind, if no prize is negative. -/
theorem C152_answer {g : Graph} {cost : Nat → Int} (hwf : g.WF) (hno : ∀ p ∈ g.edges, p.1 ≠ p.2) {heur : List Nat}
    (hheur : ∀ e ∈ heur, e < g.edges.length) {prize : Nat → Int} {quota : Int} {root : Nat} (hroot : root < g.n) {o : SolveOptions}
    (hd : o.coverDisjoint = false) (hs : o.coverShortest = false) {disjoint : Nat → Int} {pick : Pick} {scip : Problem → ScipOutcome}
    {order : Nat → List Nat} (ho : ∀ n, (order n).Perm (List.range n)) {k : Int} (hscip : ∀ P, ScipSpec k P (order P.graph.edges.length) (scip P))
    (hc : FirstCosts g cost) :
    ∃ st ps, solvePCTSP scip order g heur cost prize quota root o disjoint pick = .ok (st, ps) ∧
      (ps = [] ∨ ∃ c, AnswerOf g cost prize quota root ps c) ∧
      (st = .optimal → ∃ c, AnswerOf g cost prize quota root ps c ∧ (o.cycleCover = false → ∀ ps' c', AnswerOf g cost prize quota root ps' c' → c ≤ c') ∧
        ((∀ v < g.n, 0 ≤ prize v) → ∀ t, OnceTour g prize quota root t → c ≤ walkCost g cost t)) ∧
      (st = .infeasible → ps = [] ∧ (o.cycleCover = false → ∀ ps' c', ¬ AnswerOf g cost prize quota root ps' c') ∧
        ((∀ v < g.n, 0 ≤ prize v) → ∀ t, ¬ OnceTour g prize quota root t)) :=
  solve_listed hwf hno hheur hroot hd hs ho hscip hc

/-- **C152.** If no edge at the root is listed exactly twice, the edges that are listed several times are treated as if they were missing. -/
theorem C152_missing {g : Graph} {cost : Nat → Int} (hwf : g.WF) (hno : ∀ p ∈ g.edges, p.1 ≠ p.2) {heur : List Nat}
    (hheur : ∀ e ∈ heur, e < g.edges.length) {prize : Nat → Int} {quota : Int} {root : Nat} (hroot : root < g.n)
    (h2 : ∀ p ∈ g.edges, p.1 = root ∨ p.2 = root → timesListed g p ≠ 2) {o : SolveOptions}
    (hd : o.coverDisjoint = false) (hs : o.coverShortest = false) (hcc : o.cycleCover = true → ∀ v < g.n, 0 ≤ prize v) {disjoint : Nat → Int} {pick : Pick}
    {scip : Problem → ScipOutcome} {order : Nat → List Nat} (ho : ∀ n, (order n).Perm (List.range n)) {k : Int}
    (hscip : ∀ P, ScipSpec k P (order P.graph.edges.length) (scip P)) (hc : FirstCosts g cost) :
    ∃ st ps, solvePCTSP scip order g heur cost prize quota root o disjoint pick = .ok (st, ps) ∧
      (ps = [] ∨ ∃ t, OnceTour g prize quota root t ∧ EdgesOfTour t ps) ∧
      (st = .optimal → ∃ t, OnceTour g prize quota root t ∧ EdgesOfTour t ps ∧ ∀ t', OnceTour g prize quota root t' → walkCost g cost t ≤ walkCost g cost t') ∧
      (st = .infeasible → ps = [] ∧ ∀ t, ¬ OnceTour g prize quota root t) := by
  have honly : ∀ {ps c}, AnswerOf g cost prize quota root ps c → ∃ t, OnceTour g prize quota root t ∧ EdgesOfTour t ps ∧ c = walkCost g cost t := by
    intro ps c h
    cases h with
    | once a b => exact ⟨_, a, b, rfl⟩
    | @half t M N _ a _ =>
      exfalso
      obtain ⟨p, hp, hr⟩ := List.mem_flatMap.1 a.root
      have hr' : p.1 = root ∨ p.2 = root := by
        simp only [List.mem_cons, List.not_mem_nil, or_false] at hr
        rcases hr with h | h
        · exact Or.inl h.symm
        · exact Or.inr h.symm
      rcases (a.parts.2.2 p (List.mem_append_left _ hp)).2 with h | h
      · exact h2 _ h hr' (a.twice p hp)
      · refine h2 _ h hr'.symm ?_
        rw [← a.twice p hp]
        exact timesListed_und (und_eq_iff.2 (Or.inr ⟨rfl, rfl⟩))
  obtain ⟨st, ps, a, b, c, d⟩ := C152_answer (cost := cost) hwf hno hheur (prize := prize) (quota := quota) hroot hd hs (disjoint := disjoint)
    (pick := pick) ho hscip hc
  refine ⟨st, ps, a, ?_, fun hst => ?_, fun hst => ?_⟩
  · rcases b with h | ⟨c, h⟩
    · exact Or.inl h
    · obtain ⟨t, h1, h2, -⟩ := honly h
      exact Or.inr ⟨t, h1, h2⟩
  · obtain ⟨c, e1, e2, e3⟩ := c hst
    obtain ⟨t, h1, h2, rfl⟩ := honly e1
    refine ⟨t, h1, h2, fun t' ht' => ?_⟩
    cases hon : o.cycleCover with
    | false => exact e2 hon _ _ (.once ht' (edgesOfTour_of_und (ps := consec t') (List.Perm.refl _)))
    | true => exact e3 (hcc hon) t' ht'
  · obtain ⟨e1, e2, e3⟩ := d hst
    refine ⟨e1, fun t ht => ?_⟩
    cases hon : o.cycleCover with
    | false => exact e2 hon _ _ (.once ht (edgesOfTour_of_und (ps := consec t) (List.Perm.refl _)))
    | true => exact e3 (hcc hon) t ht

/-- **C152.** The bindings put the costs on the first copies only. -/
theorem C152_costs {α : Type} [DecidableEq α] {g : Graph} {b : Bimap α} {costs : List ((α × α) × Int)} {cost : Nat → Int}
    (h : fillCostMap g b costs (fun _ => 0) = .ok cost) : FirstCosts g cost := by
  have key : ∀ (costs : List ((α × α) × Int)) (f : Nat → Int), FirstCosts g f → fillCostMap g b costs f = .ok cost → FirstCosts g cost := by
    intro costs
    induction costs with
    | nil => intro f hf h; rw [fillCostMap] at h; cases h; exact hf
    | cons a costs ih =>
      obtain ⟨p, c⟩ := a
      intro f hf h
      rw [fillCostMap] at h
      obtain ⟨s, -, h⟩ := Res.bind_eq_ok.1 h
      obtain ⟨t, -, h⟩ := Res.bind_eq_ok.1 h
      obtain ⟨e, he, h⟩ := Res.bind_eq_ok.1 h
      cases e with
      | none => simp at h
      | some i =>
        refine ih _ ?_ h
        have hi : g.edgeIdx s t = some i := by
          rw [Graph.edge] at he
          split at he
          · exact Res.ok.inj he
          · simp at he
        intro e q hq hne
        rw [upd]
        split
        · rename_i heq
          subst heq
          exfalso
          apply hne
          rcases edgeIdx_eq_some hi with h1 | h1 <;> rw [hq] at h1 <;> cases h1
          · exact hi
          · rw [edgeIdx_comm]; exact hi
        · exact hf e q hq hne
  exact key costs _ (fun _ _ _ _ => rfl) h

/-- The binding on vertices that are numbered in the order in which they are listed. -/
theorem solveBind_listed {es : List (Nat × Nat)} (hren : renameEdges [] es = (es, (List.range (graphOf es).n).map fun v => (v, v)))
    (hwf : (graphOf es).WF) (hno : ∀ p ∈ (graphOf es).edges, p.1 ≠ p.2) {costs : List ((Nat × Nat) × Int)} {cost : Nat → Int}
    (hcost : fillCostMap (graphOf es) ((List.range (graphOf es).n).map fun v => (v, v)) costs (fun _ => 0) = .ok cost) {prizes : List (Nat × Int)}
    {prize : Nat → Int} (hprize : fillVertexMap ((List.range (graphOf es).n).map fun v => (v, v)) prizes (fun _ => 0) = .ok prize) {quota : Int}
    {root : Nat} (hroot : root < (graphOf es).n) {o : SolveOptions} (hd : o.coverDisjoint = false) (hs : o.coverShortest = false) {pick : Pick}
    {scip : Problem → ScipOutcome} {order : Nat → List Nat} (ho : ∀ n, (order n).Perm (List.range n)) {k : Int}
    (hscip : ∀ P, ScipSpec k P (order P.graph.edges.length) (scip P)) :
    ∃ st ps, solveBind scip order es [] costs prizes quota root o [] pick = .ok (st, ps) ∧
      (ps = [] ∨ ∃ c, AnswerOf (graphOf es) cost prize quota root ps c) ∧
      (st = .optimal → ∃ c, AnswerOf (graphOf es) cost prize quota root ps c ∧ (o.cycleCover = false →
        ∀ ps' c', AnswerOf (graphOf es) cost prize quota root ps' c' → c ≤ c')) ∧
      (st = .infeasible → ps = [] ∧ (o.cycleCover = false → ∀ ps' c', ¬ AnswerOf (graphOf es) cost prize quota root ps' c')) := by
  set b : Bimap Nat := (List.range (graphOf es).n).map fun v => (v, v) with hb
  obtain ⟨st, ps, h1, h2, h3, h4⟩ := C152_answer (g := graphOf es) (cost := cost) hwf hno (heur := []) (by simp) (prize := prize) (quota := quota) hroot hd hs
    (disjoint := fun _ => 0) (pick := pick) ho hscip (C152_costs hcost)
  have hfind : ∀ v < (graphOf es).n, b.find? (fun p => decide (p.1 = v)) = some (v, v) ∧ b.find? (fun p => decide (p.2 = v)) = some (v, v) := by
    intro v hv
    rw [hb]
    generalize (graphOf es).n = n at hv
    clear * - hv
    induction n with
    | zero => omega
    | succ n ih =>
      rw [List.range_succ, List.map_append, List.find?_append, List.find?_append]
      by_cases h : v < n
      · rw [(ih h).1, (ih h).2]; exact ⟨rfl, rfl⟩
      · obtain rfl : v = n := by omega
        constructor <;> rw [List.find?_eq_none.2]
        · simp
        · simp only [List.mem_map, List.mem_range, decide_eq_true_eq, forall_exists_index, and_imp]
          rintro x a ha rfl; simp only; omega
        · simp
        · simp only [List.mem_map, List.mem_range, decide_eq_true_eq, forall_exists_index, and_imp]
          rintro x a ha rfl; simp only; omega
  have hold : ∀ l : List (Nat × Nat), (∀ p ∈ l, p.1 < (graphOf es).n ∧ p.2 < (graphOf es).n) → getOldEdges b l = .ok l := by
    intro l hl
    rw [getOldEdges, mapRes_eq_ok]
    refine List.forall₂_same.2 fun p hp => ?_
    rw [getOldEdge, getOldVertex, getOldVertex, (hfind _ (hl p hp).1).1, (hfind _ (hl p hp).2).1]
    rfl
  have hps : getOldEdges b ps = .ok ps := by
    rcases h2 with rfl | ⟨c, hc⟩
    · rfl
    · refine hold ps fun p hp => ?_
      have hadj : Adj (graphOf es) p.1 p.2 := by
        cases hc with
        | once ht he =>
          obtain ⟨qs, k1, k2⟩ := he
          obtain ⟨q, hq, hpq⟩ := forall₂_left_mem k2 hp
          have h := ht.tour.walk q (k1.mem_iff.1 hq)
          rcases hpq with rfl | rfl
          · exact h
          · exact h.symm
        | half ht hperm => exact (ht.parts.2.2 p (hperm.mem_iff.1 hp)).2
      rcases hadj with h | h
      · exact hwf _ h
      · exact (hwf _ h).symm
  refine ⟨st, ps, ?_, h2, fun hst => ?_, fun hst => ⟨(h4 hst).1, (h4 hst).2.1⟩⟩
  swap
  · obtain ⟨c, e1, e2, -⟩ := h3 hst
    exact ⟨c, e1, e2⟩
  rw [solveBind, hren]
  have h5 : getNewVertex b root = .ok root := by rw [getNewVertex, (hfind root hroot).2]
  have h6 : fillVertexMap b ([] : List (Nat × Int)) (fun _ => 0) = .ok fun _ => 0 := rfl
  have h7 : getNewEdges b ([] : List (Nat × Nat)) = .ok [] := rfl
  have h8 : edgesFromVertexPairs (graphOf es) [] = .ok [] := rfl
  simp only [h7, h8, h5, hcost, hprize, h6, Res.ok_bind, h1, hps]
  rfl

/-- If every edge is listed twice there is no tour along edges that are listed once. -/
theorem ListedTwice.no_once {g : Graph} (hg : ListedTwice g) {prize : Nat → Int} {quota : Int} {root : Nat} {t : List Nat} :
    ¬ OnceTour g prize quota root t := by
  intro h
  have hlen := h.three
  obtain ⟨m, rfl⟩ := h.tour.shape
  obtain ⟨a, l, hl⟩ : ∃ a l, m ++ [root] = a :: l := by
    cases m with
    | nil => exact ⟨root, [], rfl⟩
    | cons a m => exact ⟨a, m ++ [root], rfl⟩
  have hq : (root, a) ∈ consec (root :: (m ++ [root])) := by rw [hl, consec_cons_cons]; simp
  have h1 := h.once _ hq
  rcases h.tour.walk _ hq with h2 | h2
  · have := hg.twice (root, a) h2
    omega
  · have := hg.twice (a, root) h2
    rw [timesListed_und (p := (a, root)) (q := (root, a)) (und_eq_iff.2 (Or.inr ⟨rfl, rfl⟩))] at this
    omega

theorem endpoints_length (M : List (Nat × Nat)) : (endpoints M).length = 2 * M.length := by
  induction M with
  | nil => rfl
  | cons p M ih => rw [endpoints] at ih ⊢; rw [List.flatMap_cons, List.length_append, ih]; simp; omega

theorem sum_ones {l : List Nat} {f : Nat → Int} (h : ∀ v ∈ l, f v = 1) : (l.map f).sum = l.length := by
  induction l with
  | nil => rfl
  | cons v l ih => rw [List.map_cons, List.sum_cons, ih fun v hv => h v (by simp [hv]), h v (by simp), List.length_cons]; push_cast; omega

/-- The triangle in both directions. -/
def exTwoWays : List (Nat × Nat) := [(0, 1), (1, 2), (2, 0), (1, 0), (2, 1), (0, 2)]

/-- **C152.** A feasible tour is lost: the triangle in both directions with a quota that needs all three vertices.  The solver never returns a tour and
never reports `optimal`; the triangle listed once is solved (C88). -/
theorem C152_lost : FeasibleIn exTwoWays (fun _ => 1) 3 0 [0, 1, 2, 0] ∧
    ∀ (o : SolveOptions) (scip : Problem → ScipOutcome) (order : Nat → List Nat) (pick : Pick), o.coverShortest = false → o.coverDisjoint = false →
      (∀ n, (order n).Perm (List.range n)) → (∀ P, ScipSpec 1 P (order P.graph.edges.length) (scip P)) →
      ∃ st, solveBind scip order exTwoWays [] (exTwoWays.map fun p => (p, 1)) ((List.range 3).map fun v => (v, 1)) 3 0 o [] pick = .ok (st, []) ∧
        st ≠ .optimal := by
  refine ⟨⟨⟨⟨[1, 2], rfl⟩, by decide, by decide⟩, by decide, by decide⟩, fun o scip order pick hs hd ho hscip => ?_⟩
  obtain ⟨cost, hcost⟩ : ∃ cost, fillCostMap (graphOf exTwoWays) ((List.range (graphOf exTwoWays).n).map fun v => (v, v)) (exTwoWays.map fun p => (p, 1)) (fun _ => 0)
    = .ok cost := ⟨_, rfl⟩
  obtain ⟨prize, hprize, h1⟩ : ∃ prize, fillVertexMap ((List.range (graphOf exTwoWays).n).map fun v => (v, v)) ((List.range 3).map fun v => (v, (1 : Int)))
    (fun _ => 0) = .ok prize ∧ ∀ v < 3, prize v = 1 := ⟨_, rfl, by decide⟩
  obtain ⟨st, ps, a, b, c, d⟩ := solveBind_listed (es := exTwoWays) (by decide) (by decide) (by decide) hcost hprize (quota := 3) (root := 0) (by decide) hd hs
    (pick := pick) ho hscip
  have hno : ∀ t M N, ¬ HalfTour (graphOf exTwoWays) prize 3 0 t M N := by
    intro t M N h
    have hr : ∀ v ∈ endpoints M, v < 3 := tour_range (g := graphOf exTwoWays) (by decide) h.tour h.edges
    have h2 := h.prize
    rw [sum_ones fun v hv => h1 v (hr v hv), endpoints_length] at h2
    have h3 := (h.apart.subperm fun v hv => List.mem_range.2 (hr v hv) : (endpoints M).Subperm (List.range 3)).length_le
    rw [endpoints_length, List.length_range] at h3
    omega
  have hans : ∀ ps c, ¬ AnswerOf (graphOf exTwoWays) cost prize 3 0 ps c := by
    intro ps c h
    cases h with
    | once h _ => exact ListedTwice.no_once (g := graphOf exTwoWays) (by decide) h
    | half h _ => exact hno _ _ _ h
  have hps : ps = [] := by
    rcases b with h | ⟨c, h⟩
    · exact h
    · exact absurd h (hans _ _)
  subst hps
  refine ⟨st, a, fun hst => ?_⟩
  obtain ⟨c, h, -⟩ := c hst
  exact hans _ _ h

/-- The triangle with its first edge listed once more. -/
def exTriple : List (Nat × Nat) := [(0, 1), (1, 2), (2, 0), (0, 1)]

/-- **C152.** One edge that is listed twice is enough: the only tour of the triangle uses it and is lost. -/
theorem C152_one_edge : FeasibleIn exTriple (fun _ => 1) 3 0 [0, 1, 2, 0] ∧
    ∀ (o : SolveOptions) (scip : Problem → ScipOutcome) (order : Nat → List Nat) (pick : Pick), o.coverShortest = false → o.coverDisjoint = false →
      (∀ n, (order n).Perm (List.range n)) → (∀ P, ScipSpec 1 P (order P.graph.edges.length) (scip P)) →
      ∃ st, solveBind scip order exTriple [] (exTriple.map fun p => (p, 1)) ((List.range 3).map fun v => (v, 1)) 3 0 o [] pick = .ok (st, []) ∧
        st ≠ .optimal := by
  refine ⟨⟨⟨⟨[1, 2], rfl⟩, by decide, by decide⟩, by decide, by decide⟩, fun o scip order pick hs hd ho hscip => ?_⟩
  obtain ⟨cost, hcost⟩ : ∃ cost, fillCostMap (graphOf exTriple) ((List.range (graphOf exTriple).n).map fun v => (v, v)) (exTriple.map fun p => (p, 1)) (fun _ => 0)
    = .ok cost := ⟨_, rfl⟩
  obtain ⟨prize, hprize, h1⟩ : ∃ prize, fillVertexMap ((List.range (graphOf exTriple).n).map fun v => (v, v)) ((List.range 3).map fun v => (v, (1 : Int)))
    (fun _ => 0) = .ok prize ∧ ∀ v < 3, prize v = 1 := ⟨_, rfl, by decide⟩
  obtain ⟨st, ps, a, b, c, d⟩ := solveBind_listed (es := exTriple) (by decide) (by decide) (by decide) hcost hprize (quota := 3) (root := 0) (by decide) hd hs
    (pick := pick) ho hscip
  have hno : ∀ t M N, ¬ HalfTour (graphOf exTriple) prize 3 0 t M N := by
    intro t M N h
    have hr : ∀ v ∈ endpoints M, v < 3 := tour_range (g := graphOf exTriple) (by decide) h.tour h.edges
    have h2 := h.prize
    rw [sum_ones fun v hv => h1 v (hr v hv), endpoints_length] at h2
    have h3 := (h.apart.subperm fun v hv => List.mem_range.2 (hr v hv) : (endpoints M).Subperm (List.range 3)).length_le
    rw [endpoints_length, List.length_range] at h3
    omega
  have hans : ∀ ps c, ¬ AnswerOf (graphOf exTriple) cost prize 3 0 ps c := by
    intro ps c h
    cases h with
    | once h _ =>
      have hlen := h.three
      obtain ⟨m, rfl⟩ := h.tour.shape
      have hnd := h.tour.nodup
      have hwalk := h.tour.walk
      have honce := h.once
      rw [dropLast_tour] at hnd
      have hends : ∀ v, Adj (graphOf exTriple) 0 v → v = 1 ∨ v = 2 := by
        intro v hv
        have hall : ∀ p ∈ (graphOf exTriple).edges, (p.1 = 0 → p.2 = 1 ∨ p.2 = 2) ∧ (p.2 = 0 → p.1 = 1 ∨ p.1 = 2) := by decide
        rcases hv with hv | hv
        · exact (hall _ hv).1 rfl
        · exact (hall _ hv).2 rfl
      cases m with
      | nil => simp at hlen
      | cons a m =>
        rcases List.eq_nil_or_concat m with rfl | ⟨m', b, rfl⟩
        · simp at hlen
        · rw [List.concat_eq_append] at hnd hwalk honce
          have hq1 : (0, a) ∈ consec (0 :: ((a :: (m' ++ [b])) ++ [0])) := by simp [consec_cons_cons]
          have hq2 : (b, 0) ∈ consec (0 :: ((a :: (m' ++ [b])) ++ [0])) := by
            have : 0 :: ((a :: (m' ++ [b])) ++ [0]) = (0 :: a :: m') ++ b :: 0 :: [] := by simp
            rw [this]
            exact mem_consec_append _ _ _ _
          have hab : a ≠ b := by
            rintro rfl
            simp at hnd
          rcases hends a (hwalk (0, a) hq1) with rfl | rfl
          · exact absurd (honce _ hq1) (by decide)
          · rcases hends b (hwalk (b, 0) hq2).symm with rfl | rfl
            · exact absurd (honce _ hq2) (by decide)
            · exact hab rfl
    | half h _ => exact hno _ _ _ h
  have hps : ps = [] := by
    rcases b with h | ⟨c, h⟩
    · exact h
    · exact absurd h (hans _ _)
  subst hps
  refine ⟨st, a, fun hst => ?_⟩
  obtain ⟨c, h, -⟩ := c hst
  exact hans _ _ h

/-- **C152.** A tour that does not exist is returned: one edge in both directions, no tour with three vertices.  With status `optimal` the answer is the
edge there and back, and without the cycle cover plug-in the status is not `infeasible`. -/
theorem C152_back_and_forth : (∀ t, ¬ FeasibleIn [(0, 1), (1, 0)] (fun _ : Nat => 1) 2 0 t) ∧
    ∀ (o : SolveOptions) (scip : Problem → ScipOutcome) (order : Nat → List Nat) (pick : Pick), o.coverShortest = false → o.coverDisjoint = false →
      (∀ n, (order n).Perm (List.range n)) → (∀ P, ScipSpec 1 P (order P.graph.edges.length) (scip P)) →
      ∃ st ps, solveBind scip order [(0, 1), (1, 0)] [] [((0, 1), 7), ((1, 0), 7)] [(0, 1), (1, 1)] 2 0 o [] pick = .ok (st, ps) ∧
        (st = .optimal → EdgesOfTour [0, 1, 0] ps) ∧ (o.cycleCover = false → st ≠ .infeasible) := by
  constructor
  · intro t ht
    obtain ⟨m, hm⟩ := ht.tour.shape
    have hnd := ht.tour.nodup
    have hlen := ht.three
    have hmem : ∀ v ∈ t.dropLast, v < 2 := by
      intro v hv
      have h1 : ∀ w ∈ endpoints [((0 : Nat), (1 : Nat)), (1, 0)], w < 2 := by decide
      exact h1 v (ht.tour.mem_endpoints v (List.mem_of_mem_dropLast hv))
    have h3 := (hnd.subperm fun v hv => List.mem_range.2 (hmem v hv) : t.dropLast.Subperm (List.range 2)).length_le
    rw [List.length_dropLast, List.length_range] at h3
    omega
  · intro o scip order pick hs hd ho hscip
    obtain ⟨cost, hcost⟩ : ∃ cost, fillCostMap (graphOf [(0, 1), (1, 0)]) ((List.range (graphOf [(0, 1), (1, 0)]).n).map fun v => (v, v))
      [((0, 1), 7), ((1, 0), 7)] (fun _ => 0) = .ok cost := ⟨_, rfl⟩
    obtain ⟨prize, hprize, h1⟩ : ∃ prize, fillVertexMap ((List.range (graphOf [(0, 1), (1, 0)]).n).map fun v => (v, v)) [(0, 1), (1, 1)]
      (fun _ => 0) = .ok prize ∧ ∀ v < 2, prize v = 1 := ⟨_, rfl, by decide⟩
    obtain ⟨st, ps, a, b, c, d⟩ := solveBind_listed (es := [(0, 1), (1, 0)]) (by decide) (by decide) (by decide) hcost hprize (quota := 2) (root := 0) (by decide) hd hs
      (pick := pick) ho hscip
    refine ⟨st, ps, a, fun hst => ?_, fun hcc hst => ?_⟩
    · obtain ⟨c, hans, -⟩ := c hst
      obtain ⟨t, M, N, h, hperm⟩ : ∃ t M N, HalfTour (graphOf [(0, 1), (1, 0)]) prize 2 0 t M N ∧ ps.Perm (M ++ N) := by
        cases hans with
        | once h _ => exact absurd h (ListedTwice.no_once (g := graphOf [(0, 1), (1, 0)]) (by decide))
        | half h hp => exact ⟨_, _, _, h, hp⟩
      have ht : t = [0, 1, 0] := by
        obtain ⟨m, rfl⟩ := h.tour.shape
        have hnd := h.tour.nodup
        have htwo := h.two
        have hwalk := h.tour.walk
        have hlt : ∀ v ∈ 0 :: m, v < 2 := fun v hv =>
          tour_lt (g := graphOf [(0, 1), (1, 0)]) (by decide) h.tour v (by rw [List.mem_cons] at hv ⊢; rw [List.mem_append]; tauto)
        rw [dropLast_tour] at hnd
        have h3 := (hnd.subperm fun v hv => List.mem_range.2 (hlt v hv) : (0 :: m).Subperm (List.range 2)).length_le
        rw [List.length_cons, List.length_range] at h3
        match m, htwo, h3 with
        | [], htwo, _ => simp at htwo
        | [v], _, _ =>
          have h4 := hlt v (by simp)
          simp only [List.nodup_cons, List.mem_cons, List.not_mem_nil, or_false] at hnd
          obtain rfl : v = 1 := by omega
          rfl
      rw [← ht]
      exact edgesOfTour_of_und ((hperm.map und).trans h.edges.und)
    · refine (d hst).2 hcc _ _ (.half (t := [0, 1, 0]) (M := [(0, 1)]) (N := [(1, 0)])
        ⟨⟨⟨[1], rfl⟩, by decide, by decide⟩, by decide, ?_, by decide, by decide, ?_, by decide, by decide⟩ (List.Perm.refl _))
      · exact edgesOfTour_of_und (by decide)
      · rw [sum_ones fun v hv => h1 v ?_]
        · decide
        · revert v; decide

/-- Two rectangles with the vertex 0 in common, in both directions. -/
def exRings : List (Nat × Nat) := [(0, 1), (1, 2), (2, 3), (3, 0), (0, 4), (4, 5), (5, 6), (6, 0), (1, 0), (2, 1), (3, 2), (0, 3), (4, 0), (5, 4), (6, 5), (0, 6)]

/-- The rectangle 0, 1, 2, 3 costs 22 and the rectangle 0, 4, 5, 6 costs 8. -/
def exRingCost (x y : Nat) : Int := match min x y, max x y with
  | 0, 1 => 1 | 1, 2 => 10 | 2, 3 => 1 | 0, 3 => 10 | _, _ => 2

theorem exRingCost_pos (x y : Nat) : 1 ≤ exRingCost x y := by unfold exRingCost; split <;> decide

/-- **C152.** The wrong tour is returned: with status `optimal` the answer has an edge of cost 10 although there is a feasible tour of cost 8. -/
theorem C152_wrong : FeasibleIn exRings (fun _ => 1) 4 0 [0, 4, 5, 6, 0] ∧ namedCost exRingCost [0, 4, 5, 6, 0] = 8 ∧
    ∀ (o : SolveOptions) (scip : Problem → ScipOutcome) (order : Nat → List Nat) (pick : Pick), o.coverShortest = false → o.coverDisjoint = false →
      o.cycleCover = false → (∀ n, (order n).Perm (List.range n)) → (∀ P, ScipSpec 1 P (order P.graph.edges.length) (scip P)) →
      ∃ st ps, solveBind scip order exRings [] (exRings.map fun p => (p, exRingCost p.1 p.2)) ((List.range 7).map fun v => (v, 1)) 4 0 o [] pick
          = .ok (st, ps) ∧ st ≠ .infeasible ∧ (st = .optimal → ∃ t, EdgesOfTour t ps ∧ 10 ≤ namedCost exRingCost t) := by
  refine ⟨⟨⟨⟨[4, 5, 6], rfl⟩, by decide, by decide⟩, by decide, by decide⟩, by decide, fun o scip order pick hs hd hcc ho hscip => ?_⟩
  obtain ⟨cost, hcost, hpair⟩ : ∃ cost, fillCostMap (graphOf exRings) ((List.range (graphOf exRings).n).map fun v => (v, v))
    (exRings.map fun p => (p, exRingCost p.1 p.2)) (fun _ => 0) = .ok cost ∧
    ∀ p ∈ exRings, pairCost (graphOf exRings) cost p.1 p.2 = exRingCost p.1 p.2 := ⟨_, rfl, by decide +kernel⟩
  obtain ⟨prize, hprize, h1⟩ : ∃ prize, fillVertexMap ((List.range (graphOf exRings).n).map fun v => (v, v)) ((List.range 7).map fun v => (v, (1 : Int)))
    (fun _ => 0) = .ok prize ∧ ∀ v < 7, prize v = 1 := ⟨_, rfl, by decide⟩
  obtain ⟨st, ps, a, b, c, d⟩ := solveBind_listed (es := exRings) (by decide +kernel) (by decide +kernel) (by decide +kernel) hcost hprize (quota := 4) (root := 0)
    (by decide +kernel) hd hs (pick := pick) ho hscip
  have hedges : (graphOf exRings).edges = exRings := by decide +kernel
  have hhalf : HalfTour (graphOf exRings) prize 4 0 [0, 1, 2, 3, 0] [(0, 1), (2, 3)] [(1, 2), (3, 0)] := by
    refine ⟨⟨⟨[1, 2, 3], rfl⟩, by decide, by decide +kernel⟩, by decide, edgesOfTour_of_und (by decide), by decide, by decide, ?_, by decide +kernel, by decide +kernel⟩
    rw [sum_ones fun v hv => h1 v ?_]
    · decide
    · revert v; decide
  have hcost2 : halfCost (graphOf exRings) cost [(0, 1), (2, 3)] = 2 := by
    rw [halfCost, List.map_cons, List.map_cons, hpair (0, 1) (by decide), hpair (2, 3) (by decide), List.map_nil]
    decide
  refine ⟨st, ps, a, fun hst => (d hst).2 hcc _ _ (.half hhalf (List.Perm.refl _)), fun hst => ?_⟩
  obtain ⟨c, hans, hmin⟩ := c hst
  have hle := hmin hcc _ _ (.half hhalf (List.Perm.refl _))
  rw [hcost2] at hle
  obtain ⟨t, M, N, h, hperm, rfl⟩ : ∃ t M N, HalfTour (graphOf exRings) prize 4 0 t M N ∧ ps.Perm (M ++ N) ∧ halfCost (graphOf exRings) cost M = c := by
    cases hans with
    | once h _ => exact absurd h (ListedTwice.no_once (g := graphOf exRings) (by decide +kernel))
    | half h hp => exact ⟨_, _, _, h, hp, rfl⟩
  refine ⟨t, edgesOfTour_of_und ((hperm.map und).trans h.edges.und), ?_⟩
  have hadj : ∀ p : Nat × Nat, Adj (graphOf exRings) p.1 p.2 → (p.1, p.2) ∈ exRings := by
    intro p hp
    have h2 : ∀ q ∈ exRings, (q.2, q.1) ∈ exRings := by decide +kernel
    rw [Adj, hedges] at hp
    rcases hp with hp | hp
    · exact hp
    · exact h2 _ hp
  have hr : ∀ v ∈ endpoints M, v < 7 := tour_range (g := graphOf exRings) (by decide +kernel) h.tour h.edges
  have h2 := h.prize
  rw [sum_ones fun v hv => h1 v (hr v hv), endpoints_length] at h2
  have hMe : ∀ p ∈ M, (p.1, p.2) ∈ exRings := fun p hp => hadj p (h.parts.2.2 p (List.mem_append_left _ hp)).2
  have hM : ∀ p ∈ M, pairCost (graphOf exRings) cost p.1 p.2 = exRingCost p.1 p.2 := fun p hp => hpair (p.1, p.2) (hMe p hp)
  have hsum : halfCost (graphOf exRings) cost M = (M.map fun p => exRingCost p.1 p.2).sum := by
    rw [halfCost]; congr 1; exact List.map_congr_left hM
  rw [hsum] at hle
  have hcheap : ∀ q ∈ exRings, exRingCost q.1 q.2 ≤ 1 → q ∈ [(0, 1), (1, 0), (2, 3), (3, 2)] := by decide +kernel
  -- the vertices 1 and 2 are ends of `M`
  have hends : 1 ∈ endpoints M ∧ 2 ∈ endpoints M := by
    have hroot := h.root
    have hap := h.apart
    match M, h2, hle, hMe, hroot, hap with
    | [], h2, _, _, _, _ => simp at h2
    | [_], h2, _, _, _, _ => simp at h2
    | [p, q], _, hle, hMe, hroot, hap =>
      simp only [List.map_cons, List.map_nil, List.sum_cons, List.sum_nil] at hle
      have e1 := exRingCost_pos p.1 p.2
      have e2 := exRingCost_pos q.1 q.2
      have f1 := hcheap _ (hMe p (by simp)) (by simp only; omega)
      have f2 := hcheap _ (hMe q (by simp)) (by simp only; omega)
      obtain ⟨a, b⟩ := p
      obtain ⟨c, d⟩ := q
      simp only [List.mem_cons, Prod.mk.injEq, List.not_mem_nil, or_false] at f1 f2
      simp only [endpoints, List.flatMap_cons, List.flatMap_nil, List.append_nil, List.cons_append, List.nil_append, List.nodup_cons, List.mem_cons,
        List.not_mem_nil, or_false] at hap hroot ⊢
      omega
    | p :: q :: r :: M, _, hle, _, _, _ =>
      have e1 := exRingCost_pos p.1 p.2
      have e2 := exRingCost_pos q.1 q.2
      have e3 := exRingCost_pos r.1 r.2
      have e4 : 0 ≤ (M.map fun p => exRingCost p.1 p.2).sum := List.sum_nonneg fun y hy => by
        obtain ⟨p, -, rfl⟩ := List.mem_map.1 hy
        have := exRingCost_pos p.1 p.2
        omega
      simp only [List.map_cons, List.sum_cons] at hle
      omega
  have hin : ∀ v ∈ endpoints M, v ∈ t := by
    intro v hv
    obtain ⟨p, hp, hv⟩ := List.mem_flatMap.1 hv
    obtain ⟨qs, g1, g2⟩ := h.edges
    obtain ⟨q, hq, hpq⟩ := forall₂_left_mem g2 (List.mem_append_left N hp)
    have hq' := consec_mem (g1.mem_iff.1 hq)
    simp only [List.mem_cons, List.not_mem_nil, or_false] at hv
    rcases hpq with rfl | rfl <;> rcases hv with rfl | rfl
    exacts [hq'.1, hq'.2, hq'.2, hq'.1]
  -- so the edge between 1 and 2 is on the tour
  have h12 : (1, 2) ∈ consec t ∨ (2, 1) ∈ consec t := by
    have hone := hin 1 hends.1
    have htwo := hin 2 hends.2
    obtain ⟨m, rfl⟩ := h.tour.shape
    have hnd := h.tour.nodup
    have hwalk := h.tour.walk
    rw [dropLast_tour] at hnd
    have hone' : 1 ∈ m := by simpa using hone
    have htwo' : 2 ∈ m := by simpa using htwo
    obtain ⟨l, r, rfl⟩ := List.append_of_mem hone'
    have hn1 : ∀ q ∈ exRings, (q.1 = 1 → q.2 = 0 ∨ q.2 = 2) ∧ (q.2 = 1 → q.1 = 0 ∨ q.1 = 2) := by decide +kernel
    rw [List.nodup_cons] at hnd
    cases r with
    | cons c r =>
      have hc : (1, c) ∈ consec (0 :: ((l ++ 1 :: c :: r) ++ [0])) := by
        have : 0 :: ((l ++ 1 :: c :: r) ++ [0]) = (0 :: l) ++ 1 :: c :: (r ++ [0]) := by simp
        rw [this]
        exact mem_consec_append _ _ _ _
      have := (hn1 _ (hadj _ (hwalk _ hc))).1 rfl
      simp only at this
      have hc0 : c ≠ 0 := by rintro rfl; exact hnd.1 (by simp)
      obtain rfl : c = 2 := by omega
      exact Or.inl hc
    | nil =>
      rcases List.eq_nil_or_concat l with rfl | ⟨l', c, rfl⟩
      · simp at htwo'
      · have hc : (c, 1) ∈ consec (0 :: (((l' ++ [c]) ++ [1]) ++ [0])) := by
          have : 0 :: (((l' ++ [c]) ++ [1]) ++ [0]) = (0 :: l') ++ c :: 1 :: [0] := by simp
          rw [this]
          exact mem_consec_append _ _ _ _
        have hwalk' := hwalk (c, 1) (by simpa using hc)
        have := (hn1 _ (hadj _ hwalk')).2 rfl
        simp only at this
        have hc0 : c ≠ 0 := by rintro rfl; exact hnd.1 (by simp)
        obtain rfl : c = 2 := by omega
        exact Or.inr (by simpa using hc)
  have hpos : ∀ y ∈ (consec t).map fun p => exRingCost p.1 p.2, 0 ≤ y := by
    intro y hy
    obtain ⟨p, -, rfl⟩ := List.mem_map.1 hy
    have := exRingCost_pos p.1 p.2
    omega
  rw [namedCost]
  rcases h12 with h12 | h12
  · exact List.single_le_sum hpos 10 (List.mem_map.2 ⟨_, h12, rfl⟩)
  · exact List.single_le_sum hpos 10 (List.mem_map.2 ⟨_, h12, rfl⟩)

/-- A graph as in C152_answer: the triangle in both directions, costs on the first copies. -/
example : ListedTwice ⟨3, exTwoWays⟩ ∧ FirstCosts ⟨3, exTwoWays⟩ (fun e => if e < 3 then 5 else 0) ∧
    HalfTour ⟨3, exTwoWays⟩ (fun _ => 1) 2 0 [0, 1, 2, 0] [(1, 0)] [(1, 2), (2, 0)] := by
  refine ⟨by decide, ?_, ⟨⟨⟨[1, 2], rfl⟩, by decide, by decide⟩, by decide, edgesOfTour_of_und (by decide), by decide, by decide, by decide, by decide, by decide⟩⟩
  have h : ∀ e < 6, ∀ p, exTwoWays[e]? = some p → (⟨3, exTwoWays⟩ : Graph).edgeIdx p.1 p.2 ≠ some e → (if e < 3 then (5 : Int) else 0) = 0 := by
    intro e he
    rcases (by omega : e = 0 ∨ e = 1 ∨ e = 2 ∨ 3 ≤ e) with rfl | rfl | rfl | h3
    · intro p hp; cases hp; intro h; exact absurd (by decide) h
    · intro p hp; cases hp; intro h; exact absurd (by decide) h
    · intro p hp; cases hp; intro h; exact absurd (by decide) h
    · intro _ _ _; rw [if_neg (by omega)]
  exact fun e p hp => h e (List.getElem?_eq_some_iff.1 hp).1 p hp

/-- A graph as in C152_missing: the square 0, 1, 2, 3 with the edge between 1 and 2 listed three times and a way round it. -/
example : (⟨5, [(0, 1), (1, 2), (2, 3), (3, 0), (2, 1), (1, 2), (1, 4), (4, 2)]⟩ : Graph).WF ∧
    OnceTour ⟨5, [(0, 1), (1, 2), (2, 3), (3, 0), (2, 1), (1, 2), (1, 4), (4, 2)]⟩ (fun _ => 1) 4 0 [0, 1, 4, 2, 3, 0] ∧
    (∀ p ∈ [((0 : Nat), (1 : Nat)), (1, 2), (2, 3), (3, 0), (2, 1), (1, 2), (1, 4), (4, 2)], p.1 = 0 ∨ p.2 = 0 →
      timesListed ⟨5, [(0, 1), (1, 2), (2, 3), (3, 0), (2, 1), (1, 2), (1, 4), (4, 2)]⟩ p ≠ 2) ∧
    ¬ OnceTour ⟨5, [(0, 1), (1, 2), (2, 3), (3, 0), (2, 1), (1, 2), (1, 4), (4, 2)]⟩ (fun _ => 1) 4 0 [0, 1, 2, 3, 0] :=
  ⟨by decide, ⟨⟨⟨⟨[1, 4, 2, 3], rfl⟩, by decide, by decide⟩, by decide, by decide⟩, by decide⟩, by decide, fun h => absurd (h.once (1, 2) (by decide)) (by decide)⟩

/-- There is a solver as in C152_wrong, and its status is `optimal`. -/
example : ∃ scip : Problem → ScipOutcome, ∃ ps t, solveBind scip List.range exRings [] (exRings.map fun p => (p, exRingCost p.1 p.2))
    ((List.range 7).map fun v => (v, 1)) 4 0 ⟨false, false, false, true, true⟩ [] exPick = .ok (.optimal, ps) ∧ EdgesOfTour t ps ∧
      10 ≤ namedCost exRingCost t := by
  obtain ⟨scip, hscip⟩ := exists_scip 1 List.range
  obtain ⟨st, ps, h1, h2, h3⟩ := C152_wrong.2.2 ⟨false, false, false, true, true⟩ scip List.range exPick rfl rfl rfl (fun n => List.Perm.refl _)
    (fun P => (hscip P).1)
  obtain ⟨P, hP⟩ := solveBind_status h1
  have hst : st = .optimal := by
    rcases (hscip P).2 with h | h
    · rw [hP, h]
    · exact absurd (hP.trans h) h2
  subst hst
  obtain ⟨t, ht, hc⟩ := h3 rfl
  exact ⟨scip, ps, t, h1, ht, hc⟩

/-- The same for C152_back_and_forth. -/
example : ∃ scip : Problem → ScipOutcome, ∃ ps, solveBind scip List.range [(0, 1), (1, 0)] [] [((0, 1), 7), ((1, 0), 7)] [(0, 1), (1, 1)] 2 0
    ⟨false, false, false, true, true⟩ [] exPick = .ok (.optimal, ps) ∧ EdgesOfTour [0, 1, 0] ps := by
  obtain ⟨scip, hscip⟩ := exists_scip 1 List.range
  obtain ⟨st, ps, h1, h2, h3⟩ := C152_back_and_forth.2 ⟨false, false, false, true, true⟩ scip List.range exPick rfl rfl (fun n => List.Perm.refl _)
    (fun P => (hscip P).1)
  obtain ⟨P, hP⟩ := solveBind_status h1
  have hst : st = .optimal := by
    rcases (hscip P).2 with h | h
    · rw [hP, h]
    · exact absurd (hP.trans h) (h3 rfl)
  subst hst
  exact ⟨scip, ps, h1, h2 rfl⟩

end Pctsp
