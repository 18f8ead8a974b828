import Verif.Lemmas.TolSearch
import Verif.Props.BranchAndCut

/-!
# C156: branch and cut with SCIP's tolerances
-/

namespace Pctsp

variable {α : Type} [DecidableEq α]

/-- The tolerances are fine enough for the problem: the library's zero tolerance and the values of fixed variables are within the feasibility tolerance, which
is small compared with the number of vertices, the costs, the prizes and the quota. -/
structure Tolerances.Fine (T : Tolerances) (n : Nat) (costs prizes quota : Int) : Prop where
  small : T.Small n
  fix : T.fix ≤ T.eps
  costs : T.tol * costs + T.gap < 1
  prizes : 3 * T.tol * (max 1 (max |quota| prizes) : Int) < 1

/-- The row that the cost cover makes for a vertex. -/
theorem coverRow_pair {g : Graph} (hl : ∀ v < g.n, (v, v) ∈ g.edges) {u v : Nat} (hu : u < g.n) (hv : v < g.n) {row : Row}
    (h : coverRowFromVertices g g.hasVar [u, v] = .ok row) : ∃ i j, i < g.edges.length ∧ j < g.edges.length ∧ row = coverRow [i, j] := by
  obtain ⟨i, hi⟩ := Option.isSome_iff_exists.1 (edgeIdx_isSome_iff.2 (Or.inl (hl u hu) : Adj g u u))
  obtain ⟨j, hj⟩ := Option.isSome_iff_exists.1 (edgeIdx_isSome_iff.2 (Or.inl (hl v hv) : Adj g v v))
  have hloops : getSelfLoops g [u, v] = .ok [i, j] := getSelfLoops_ok.2 (.cons ⟨hu, hi⟩ (.cons ⟨hv, hj⟩ .nil))
  have hlt : ∀ a k, g.edgeIdx a a = some k → k < g.edges.length := fun a k hk => by
    rcases edgeIdx_eq_some hk with h | h <;> exact (List.getElem?_eq_some_iff.1 h).1
  have hvars : getEdgeVariables g.hasVar [i, j] = .ok [i, j] := getEdgeVariables_ok _ _ (by simp [Graph.hasVar, hlt u i hi, hlt v j hj])
  have h1 : coverRowFromVertices g g.hasVar [u, v] = .ok (coverRow [i, j]) := by simp [coverRowFromVertices, hloops, hvars, Res.pure_eq]
  rw [h] at h1
  exact ⟨i, j, hlt u i hi, hlt v j hj, Res.ok.inj h1⟩

/-- A row with two variables of which one has to be zero, rounded. -/
theorem coverRow_round {i j : Nat} {b : Nat → Rat} {tol : Rat} (htol : 0 ≤ tol) (ht5 : 5 * tol < 1) (hi : |b i - (roundBin b i : Rat)| ≤ tol)
    (hj : |b j - (roundBin b j : Rat)| ≤ tol) (h : (coverRow [i, j]).SatTol tol b) : (coverRow [i, j]).Sat (roundBin b) := by
  have h1 := h.2 1 rfl
  have h2 : (coverRow [i, j]).activityQ b = b i + b j := by simp [coverRow, Row.activityQ]
  have h3 : (coverRow [i, j]).activity (roundBin b) = roundBin b i + roundBin b j := by simp [coverRow, Row.activity]
  refine ⟨fun l hl => by simp [coverRow] at hl, fun u hu => ?_⟩
  obtain rfl : 1 = u := by simpa [coverRow] using hu
  rw [h3]
  rw [h2] at h1
  have hi' := abs_le.1 hi
  have hj' := abs_le.1 hj
  by_contra hlt
  have e1 : roundBin b i = 1 := by rcases roundBin_binary b i with h | h <;> rcases roundBin_binary b j with h' | h' <;> omega
  have e2 : roundBin b j = 1 := by rcases roundBin_binary b j with h | h <;> omega
  rw [e1] at hi'
  rw [e2] at hj'
  simp only [Int.cast_one] at hi' hj' h1
  have h4 := relDiff_le (B := 2 + 2 * tol) h1 htol (by linarith) (abs_le.2 ⟨by linarith, by linarith⟩) (by simp; linarith)
  nlinarith

/-- An accepted solution, rounded, passes every check, and the library reads the same edges from both. -/
theorem Sound.rounded {P : Problem} {ub : Int} (h : Sound P ub) {order : List Nat} (ho : order.Perm (List.range P.graph.edges.length))
    {T : Tolerances} (hT : T.Fine P.graph.n (absCost P.graph P.cost) (absPrize P.graph P.prize) P.quota) {b : Nat → Rat}
    (hb : AcceptedTol T.eps T.tol P.graph order P.rows b) : Accepted P order (roundBin b) ∧
      getSolutionEdges P.graph order (isVarPositive T.eps b) = getSolutionEdges P.graph order (fun e => decide (0 < roundBin b e)) ∧
      |objectiveQ P.graph P.cost b - (objective P.graph P.cost (roundBin b) : Int)| ≤ T.tol * (absCost P.graph P.cost : Int) := by
  obtain ⟨base, crows, hplain, hrows, hcrows⟩ := h.rows
  have hbase : base ⊆ P.rows := fun row hr => by rw [hrows]; simp [hr]
  obtain ⟨⟨he, hle, ht⟩, -, -, hB⟩ := hT
  have htol := he.trans hle
  obtain ⟨t, es, h1, h2, h3, -, h5, h6⟩ := C123_tour h.simple h.root ho hplain he hle ht ⟨hb.binary, fun row hr => hb.rows row (hbase hr), hb.subtour⟩
  have hq : P.quota ≤ tourPrize P.prize t := by
    have h7 := h6 _ (le_max_left _ _) ((le_max_left _ _).trans (le_max_right _ _)) ((le_max_right _ _).trans (le_max_right _ _))
    have h8 : ((P.quota - tourPrize P.prize t : Int) : Rat) < (1 : Int) := by push_cast at h7 hB ⊢; linarith
    have h9 : P.quota - tourPrize P.prize t < 1 := by exact_mod_cast h8
    omega
  have hn3 : (3 : Rat) ≤ P.graph.n := by
    obtain ⟨m, rfl⟩ := h1.shape
    have hnd : (P.root :: m).Nodup := by
      have := h1.nodup
      rwa [← List.cons_append, List.dropLast_concat] at this
    have hlen : (P.root :: m).length ≤ P.graph.n := by
      have hsub : (P.root :: m) ⊆ List.range P.graph.n := fun v hv => List.mem_range.2 (tour_lt h.simple.wf h1 v (by
        rcases List.mem_cons.1 hv with rfl | hv
        · simp
        · simp [hv]))
      simpa using (hnd.subperm hsub).length_le
    simp only [List.length_cons, List.length_append, List.length_nil] at h2 hlen
    have : 3 ≤ P.graph.n := by omega
    exact_mod_cast this
  have hkept : KeptBy P ub t := by
    intro hpos dist hd
    obtain ⟨rs, hrs, -⟩ := costCover_rows h.simple.loops h.root dist ub
    refine (coverRows_sat h.simple h.root hrs h1 h3).1 fun row hr => ?_
    have hsat := hb.rows row (by rw [hrows, List.mem_append]; exact Or.inr ((hcrows row).2 ⟨hpos, dist, hd, rs, hrs, hr⟩))
    obtain ⟨v, hv, hrow⟩ := forall₂_mem_right (mapRes_eq_ok.1 hrs) hr
    have hvn : v < P.graph.n := (by simpa [separateCostCoverPaths] using hv : v < P.graph.n ∧ ub < dist v).1
    obtain ⟨i, j, hi, hj, rfl⟩ := coverRow_pair h.simple.loops h.root hvn hrow
    exact coverRow_round htol (by nlinarith) (h5 i hi) (h5 j hj) hsat
  refine ⟨h.accepted_of_tour ho ⟨h1, h2, hq⟩ hkept h3 (roundBin_binary b), ?_, ?_⟩
  · have ht3 : T.tol < 1 / 3 := by nlinarith
    obtain ⟨loop, hl, hmem⟩ := modelRows_mem h.simple h.root hplain
    have hlt : loop < P.graph.edges.length := by rcases edgeIdx_eq_some hl with h | h <;> exact (List.getElem?_eq_some_iff.1 h).1
    refine support_round h.simple h.root ho he (by linarith) (root_round hl htol ht3 (hb.binary loop hlt) (hb.rows _ (hbase ((hmem _).2 (Or.inr (Or.inl rfl))))))
      (fun v hv => ?_) hb.subtour
    obtain ⟨row, hrow, -⟩ := degreeRow_sat h.simple hv (roundBin b)
    exact degree_round h.simple htol ht h5 hv hrow (hb.rows _ (hbase ((hmem _).2 (Or.inr (Or.inr ⟨v, hv, hrow⟩)))))
  · exact sum_near (List.range P.graph.edges.length) P.cost b (roundBin b) T.tol fun e hm => h5 e (List.mem_range.1 hm)

/-- Whenever the search stops, its rounded outcome is right in exact numbers. -/
theorem TolSteps.spec {P : Problem} {ub : Int} (h : Sound P ub) (hcov : CoversValid P) {order : List Nat} (ho : order.Perm (List.range P.graph.edges.length))
    {T : Tolerances} (hT : T.Fine P.graph.n (absCost P.graph P.cost) (absPrize P.graph P.prize) P.quota) {t : TolSearch}
    (hst : TolSteps T P order TolSearch.init t) (scale : Int) : ScipSpec scale P order t.outcome := by
  have hinv := hst.inv h hcov ho hT.small hT.fix TolSearch.init_inv
  refine ⟨fun y hy => ?_, [], [], by simp, by simp, fun hopt => ?_, fun hinf => ?_⟩
  · simp only [TolSearch.outcome, Option.map_eq_some_iff] at hy
    obtain ⟨b, hb, rfl⟩ := hy
    exact (h.rounded ho hT (hinv.found b (List.mem_of_mem_head? hb))).1
  · simp only [TolSearch.outcome, TolSearch.status] at hopt
    split at hopt
    · rename_i hn
      cases hf : t.found with
      | nil => rw [hf] at hopt; simp at hopt
      | cons b l =>
        refine ⟨roundBin b, by simp [TolSearch.outcome, hf], fun z hz _ => ?_⟩
        have h1 := abs_le.1 (h.rounded ho hT (hinv.found b (by rw [hf]; simp))).2.2
        have h2 : ¬ (objective P.graph P.cost z : Rat) + T.gap < objectiveQ P.graph P.cost b := fun hlt => by
          obtain ⟨n, hn', -⟩ := hinv.cover z ⟨hz, fun b' hb' => by rw [hf] at hb'; cases hb'; exact hlt⟩
          rw [hn] at hn'
          simp at hn'
        have h3 := hT.costs
        have h4 : ((objective P.graph P.cost (roundBin b) - objective P.graph P.cost z : Int) : Rat) < (1 : Int) := by push_cast; linarith
        have : objective P.graph P.cost (roundBin b) - objective P.graph P.cost z < 1 := by exact_mod_cast h4
        omega
    · simp at hopt
  · simp only [TolSearch.outcome, TolSearch.status] at hinf
    split at hinf
    · rename_i hn
      split at hinf
      · rename_i hf
        refine ⟨by simp [TolSearch.outcome, hf], fun z hz => ?_⟩
        obtain ⟨n, hn', -⟩ := hinv.cover z ⟨hz, fun b' hb' => by rw [hf] at hb'; cases hb'⟩
        rw [hn] at hn'
        simp at hn'
      · simp at hinf
    · simp at hinf

theorem absCost_loops {g g' : Graph} {cost cost' : Nat → Int} (h : LoopsAdded g cost g' cost') : absCost g' cost' = absCost g cost := by
  have hlen : g'.edges.length = g.edges.length + g.n := by simp [h.edges]
  have h1 : ∀ k ≤ g.n, ((List.range (g.edges.length + k)).map fun e => |cost' e|).sum = absCost g cost := by
    intro k
    induction k with
    | zero =>
      intro _
      rw [absCost, Nat.add_zero]
      exact congrArg List.sum (List.map_congr_left fun e he => by rw [h.old e (List.mem_range.1 he)])
    | succ k ih =>
      intro hk
      have hget : g'.edges[g.edges.length + k]? = some (k, k) := by
        rw [h.edges, List.getElem?_append_right (by omega), List.getElem?_map, List.getElem?_range (by omega)]
        simp
      rw [← Nat.add_assoc, List.range_succ, List.map_append, List.sum_append, ih (by omega)]
      simp [h.loop _ _ hget]
  rw [absCost, hlen]
  exact h1 g.n (le_refl _)

/-- **C156.** The callbacks are defined on whatever SCIP takes for a solution of an LP relaxation, and whenever the search with tolerances stops, its answer is
what the solver is assumed to answer in exact numbers (C88): the best solution, rounded, passes every check exactly, the library reads the edges of the
rounded solution, and the statuses `optimal` and `infeasible` are right. -/
theorem C156_answer {g : Graph} {cost : Nat → Int} (hg : g.WF) (hno : ∀ e ∈ g.edges, e.1 ≠ e.2) (hs : (g.edges.map und).Nodup)
    (hc : ∀ e < g.edges.length, 0 ≤ cost e) {heur : List Nat} (hheur : ∀ e ∈ heur, e < g.edges.length) (prize : Nat → Int) (quota : Int) {root : Nat}
    (hroot : root < g.n) (o : SolveOptions) (disjoint : Nat → Int) {pick : Pick} (hpick : pick.Heap)
    (hreach : o.coverShortest = true → ∀ v < g.n, ∃ d, Reaches g cost (fun _ => false) root v d ∧ d ≤ 1073741823)
    (hdis : o.coverDisjoint = true → ∀ t, Feas g prize quota root t → ∀ v ∈ t, disjoint v ≤ walkCost g cost t)
    (hprize : o.cycleCover = true → ∀ v < g.n, 0 ≤ prize v) {T : Tolerances} (hT : T.Fine g.n (absCost g cost) (absPrize g prize) quota) :
    ∃ P, buildProblem g heur cost prize quota root o disjoint pick = .ok P ∧
      (∀ u, ∃ rows, tolEventRows P u = .ok rows) ∧ ∀ {order : List Nat}, order.Perm (List.range P.graph.edges.length) →
        (∀ {t : TolSearch} (scale : Int), TolSteps T P order TolSearch.init t → ScipSpec scale P order t.outcome ∧
          ∀ b ∈ t.found, getSolutionEdges P.graph order (isVarPositive T.eps b) = getSolutionEdges P.graph order (fun e => decide (0 < roundBin b e))) ∧
        ∀ {kept : List Row} {n : List (Nat × Bool)} {z : Nat → Rat} {q : Int} {x : Nat → Int} {sv : Solver} {flow : MaxFlow} {visit : Visit} {m : Nat}
          {ids : List Nat} (st : SepState), NodeTol T P kept n z → Shown T.eps P z q x → (∀ es s, visit es s s = true) → IsComponents P.graph x m ids →
          (∃ r, sepalp sv P.graph P.graph.hasVar flow visit order q x P.root m ids P.secDisjoint P.secMaxflow st = .ok r) ∧
          (P.cycleCover = true → ∃ r, separateCycleCover sv P.graph P.graph.hasVar P.prize P.quota P.root m ids st = .ok r) := by
  obtain ⟨P, h1, hB⟩ := buildProblem_ok hg hno hs hc hheur prize quota hroot o disjoint hpick hreach
  obtain ⟨hsnd, -, -, -, hvalid⟩ := hB.sound hpick hg hno hs hc hroot hreach hprize
  have hcov := (hvalid hdis).1
  have hT' : T.Fine P.graph.n (absCost P.graph P.cost) (absPrize P.graph P.prize) P.quota := by
    have hp : absPrize P.graph P.prize = absPrize g prize := by rw [absPrize, absPrize, hB.loops.n, hB.prize]
    rw [hB.loops.n, absCost_loops hB.loops, hp, hB.quota]
    exact hT
  refine ⟨P, h1, fun u => hsnd.eventRows_ok _, fun {order} ho => ⟨fun {t} scale hst => ⟨hst.spec hsnd hcov ho hT' scale, fun b hb => ?_⟩, ?_⟩⟩
  · exact (hsnd.rounded ho hT' ((hst.inv hsnd hcov ho hT'.small hT'.fix TolSearch.init_inv).found b hb)).2.1
  · intro kept n z q x sv flow visit m ids st hz hx hv hcomp
    obtain ⟨base, hplain, hbase⟩ := hsnd.rows_base
    constructor
    · obtain ⟨st', rows, rows', h2, -⟩ := C68_round sv hsnd.simple flow hv ho q hsnd.root hcomp
        (hz.connected hsnd.simple hsnd.root hplain hbase hT'.small hx) P.secDisjoint P.secMaxflow st
      exact ⟨_, h2⟩
    · intro hon
      obtain ⟨vs, -, -, a, b⟩ := C37_valid sv hsnd.simple.loops (hsnd.prizes hon) P.quota hsnd.root (isComponents_labels hcomp) st
      by_cases hq : P.quota ≤ prizeSum P.prize vs
      · exact ⟨_, a hq⟩
      · obtain ⟨st', row', c, -⟩ := b (by omega)
        exact ⟨_, c⟩

/-- **C156.** Through the bindings: what is returned is nothing or a feasible tour, and the statuses `optimal` and `infeasible` are right. -/
theorem C156_solve {es heur : List (α × α)} {costs : List ((α × α) × Int)} {prizes : List (α × Int)} {w : α → α → Int} {π δ : α → Int}
    (h : Describes es costs prizes w π) (hno : ∀ e ∈ es, e.1 ≠ e.2) (hw : ∀ x y, 0 ≤ w x y) {quota : Int} {root : α} (hroot : root ∈ endpoints es)
    (hheur : ∀ p ∈ heur, AdjIn es p.1 p.2) (o : SolveOptions) {disjoint : List (α × Int)}
    (hkeys : ∀ x c, (x, c) ∈ disjoint → c = δ x ∧ x ∈ endpoints es) {pick : Pick} (hpick : pick.Heap) {scip : Problem → ScipOutcome}
    {order : Nat → List Nat} (ho : ∀ n, (order n).Perm (List.range n)) (hprize : o.cycleCover = true → ∀ x, 0 ≤ π x)
    (hscip : ∀ P ub, Sound P ub → ∃ (T : Tolerances) (t : TolSearch), T.Fine P.graph.n (absCost P.graph P.cost) (absPrize P.graph P.prize) P.quota ∧
      TolSteps T P (order P.graph.edges.length) TolSearch.init t ∧ scip P = t.outcome)
    (hreach : o.coverShortest = true → ∀ x ∈ endpoints es, ∃ l, (root :: l).getLast? = some x ∧ (∀ p ∈ consec (root :: l), AdjIn es p.1 p.2) ∧
      namedCost w (root :: l) ≤ 1073741823)
    (hdis : o.coverDisjoint = true → ∀ x c, (x, c) ∈ disjoint → ∀ t, FeasibleIn es π quota root t → x ∈ t → c ≤ namedCost w t)
    (hub : o.coverDisjoint = true ∨ o.coverShortest = true → 0 < (heur.map fun p => w p.1 p.2).sum → (∃ t, FeasibleIn es π quota root t) →
      ∃ t, FeasibleIn es π quota root t ∧ namedCost w t ≤ (heur.map fun p => w p.1 p.2).sum) :
    ∃ st ps, solveBind scip order es heur costs prizes quota root o disjoint pick = .ok (st, ps) ∧
      (ps = [] ∨ ∃ t, FeasibleIn es π quota root t ∧ EdgesOfTour t ps) ∧
      (st = .optimal → ∃ t, FeasibleIn es π quota root t ∧ EdgesOfTour t ps ∧ ∀ t', FeasibleIn es π quota root t' → namedCost w t ≤ namedCost w t') ∧
      (st = .infeasible → ps = [] ∧ ∀ t, ¬ FeasibleIn es π quota root t) := by
  classical
  obtain ⟨P, ⟨hP, hcov⟩, hcongr, -⟩ := solveBind_posed_covers h hno hw quota hroot hheur o hkeys hpick hreach hprize order
  obtain ⟨f, hf⟩ := exists_scip 1 order
  obtain ⟨st, ps, h1, h2, h3, h4⟩ := C88_solve (scip := fun P => if (∃ ub, Sound P ub) ∧ CoversValid P then scip P else f P) h hno hw (quota := quota) hroot
    hheur o hkeys hpick ho (k := 1) (Or.inl rfl) (fun P => by
      split
      · rename_i hp
        obtain ⟨⟨ub, hsnd⟩, hc⟩ := hp
        obtain ⟨T, t, hT, hst, heq⟩ := hscip P ub hsnd
        rw [heq]
        exact hst.spec hsnd hc (ho _) hT 1
      · exact (hf P).1) hreach hprize hdis hub
  rw [hcongr _ scip (by simp [hP.sound, hcov hdis])] at h1
  exact ⟨st, ps, h1, h2, h3, h4⟩

/-- A triangle with a pendant edge. -/
def exTail : Graph := ⟨4, [(0, 1), (1, 2), (2, 0), (2, 3)]⟩

/-- The problem for `exTail` with unit prizes, unit costs and the quota three. -/
def exTailProblem : Problem :=
  { graph := (ensureSelfLoops exTail fun _ => 1).1, cost := (ensureSelfLoops exTail fun _ => 1).2, prize := fun _ => 1, quota := 3, root := 0,
    rows := match modelWithoutSECs (ensureSelfLoops exTail fun _ => 1).1 (fun _ => 1) 3 0 with
      | .ok rows => rows
      | _ => [],
    warm := none, covers := [], cycleCover := false, secDisjoint := true, secMaxflow := false }

/-- The values of the only tour. -/
def exTailValue (e : Nat) : Bool := e != 3 && e != 7

/-- The vector of the tour, and a value at the pendant edge. -/
def exTailVec (d : Rat) (e : Nat) : Rat := if e = 3 then d else if e = 7 then 0 else 1

theorem exTail_rows : exTailProblem.rows = [⟨[(0, 0), (1, 0), (2, 0), (3, 0), (4, -1), (5, -1), (6, -1), (7, -1)], none, some (-3)⟩, ⟨[(4, 1)], some 1, some 1⟩,
    ⟨[(4, -2), (0, 1), (2, 1)], some 0, some 0⟩, ⟨[(5, -2), (0, 1), (1, 1)], some 0, some 0⟩, ⟨[(6, -2), (1, 1), (2, 1), (3, 1)], some 0, some 0⟩,
    ⟨[(7, -2), (3, 1)], some 0, some 0⟩] := by decide +kernel

theorem exTail_accepted {order : List Nat} {z : Nat → Int} (h : Accepted exTailProblem order z) : ∀ e < 8, z e = bit (exTailValue e) := by
  have hb : ∀ e < 8, z e = 0 ∨ z e = 1 := h.binary
  have hr := h.rows
  rw [exTail_rows] at hr
  simp [Row.Sat, Row.activity] at hr
  have := hb 0 (by omega)
  have := hb 1 (by omega)
  have := hb 2 (by omega)
  have := hb 3 (by omega)
  have := hb 5 (by omega)
  have := hb 6 (by omega)
  have := hb 7 (by omega)
  intro e he
  interval_cases e <;> simp [bit, exTailValue] <;> omega

/-- The tolerances of SCIP: `numerics/epsilon` and `numerics/feastol`. -/
def scipTol (fix : Rat) : Tolerances := ⟨1 / 10 ^ 9, 1 / 10 ^ 6, fix, 0⟩

/-- The variables are fixed one after the other. -/
theorem exTail_fixed (T : Tolerances) (order : List Nat) : ∀ k ≤ 8, TolSteps T exTailProblem order TolSearch.init
    ⟨[(List.range k).reverse.map fun e => (e, exTailValue e)], [], []⟩ := by
  intro k
  induction k with
  | zero => intro _; exact .refl
  | succ k ih =>
    intro hk
    refine .next (ih (by omega)) ?_
    have := TolStep.tighten (T := T) (P := exTailProblem) (order := order) (s := ⟨[(List.range k).reverse.map fun e => (e, exTailValue e)], [], []⟩)
      (l := []) (r := []) (e := k) (b := exTailValue k) rfl (show k < 8 by omega) fun z hz _ => exTail_accepted hz.accepted k (by omega)
    simpa [List.range_succ] using this

/-- **C156.** That the values of fixed variables are within the library's zero tolerance is needed: with SCIP's default tolerances, if fixed variables only
have their values up to the feasibility tolerance, the search can report that a problem is infeasible although there is a feasible tour. -/
theorem C156_fixed : ∃ P, buildProblem exTail [] (fun _ => 1) (fun _ => 1) 3 0 ⟨false, false, false, true, false⟩ (fun _ => 0) exPick = .ok P ∧
    (scipTol (1 / 10 ^ 6)).Small exTail.n ∧ (1 / 10 ^ 6 : Rat) * absCost exTail (fun _ => 1) < 1 ∧
    3 * (1 / 10 ^ 6 : Rat) * (max 1 (max |3| (absPrize exTail fun _ => 1)) : Int) < 1 ∧
    (∃ t, TolSteps (scipTol (1 / 10 ^ 6)) P (List.range P.graph.edges.length) TolSearch.init t ∧ t.outcome = ⟨.infeasible, none⟩) ∧
    IsTour exTail 0 [0, 1, 2, 0] ∧ 3 ≤ tourPrize (fun _ => 1) [0, 1, 2, 0] := by
  refine ⟨exTailProblem, rfl, ⟨by decide +kernel, by decide +kernel, by decide +kernel⟩, by decide +kernel, by decide +kernel,
    ⟨⟨[], [], []⟩, .next (exTail_fixed _ _ 8 (le_refl _)) ?_, rfl⟩, ⟨⟨[1, 2], rfl⟩, by decide, by decide⟩, by decide⟩
  have hz : NodeTol (scipTol (1 / 10 ^ 6)) exTailProblem [] ((List.range 8).reverse.map fun e => (e, exTailValue e)) (exTailVec (1 / 10 ^ 7)) :=
    ⟨by decide +kernel, by decide +kernel, by simp, by decide +kernel⟩
  have hs : isSimpleCycle exTailProblem.graph (getSolutionEdges exTailProblem.graph (List.range exTailProblem.graph.edges.length)
      (isVarPositive (1 / 10 ^ 9) (exTailVec (1 / 10 ^ 7)))) = .ok false := by decide +kernel
  exact TolStep.rejected (l := []) (r := []) (kept := []) (a := enfolp (fun _ _ => ()) (fun _ _ => false) () 0 [] false 0 () true) (sub := fun _ _ => ()) (lt := fun _ _ => false) (threshold := ()) (gap := ()) (m := 0)
    (windows := []) (node := 0) (lpOk := true) rfl (by simp) hz (by decide +kernel) (congrArg (fun r => r >>= _) hs) (by decide +kernel)

/-- With exact values of fixed variables the tolerances of SCIP are fine for the problem.  A search accepts a vector that is not quite binary and drops the
root node by its bound; the answer is the exact tour. -/
theorem exTail_search : (scipTol 0).Fine exTail.n (absCost exTail fun _ => 1) (absPrize exTail fun _ => 1) 3 ∧
    ∃ t y, TolSteps (scipTol 0) exTailProblem (List.range 8) TolSearch.init t ∧ t.outcome = ⟨.optimal, some y⟩ ∧ t.found = [fun e => 9999999 / 10 ^ 7 * exTailVec 0 e] ∧
      ∀ e < 8, y e = bit (exTailValue e) := by
  refine ⟨⟨⟨by decide +kernel, by decide +kernel, by decide +kernel⟩, by decide +kernel, by decide +kernel, by decide +kernel⟩,
    ⟨[], [], [fun e => 9999999 / 10 ^ 7 * exTailVec 0 e]⟩, _, .next (.next .refl (.checked (y := fun e => 9999999 / 10 ^ 7 * exTailVec 0 e)
      ⟨by decide +kernel, by decide +kernel, by decide +kernel⟩ (fun b hb => by cases hb) (new := []) ⟨objectiveQ exTailProblem.graph exTailProblem.cost fun e => 9999999 / 10 ^ 7 * exTailVec 0 e, [], by simp [scipTol], rfl, by simp⟩))
      (.bound (l := []) (r := []) (n := []) (kept := []) (own := []) rfl (by simp) (fun _ _ _ row h => by cases h) rfl fun q x v hx ho => ?_), rfl, rfl, by decide +kernel⟩
  have hr := hx.lp.rows
  have hq := hx.lp.pos
  rw [exTail_rows] at hr
  simp [Row.SatScaled, Row.activity] at hr
  have ho' : x 0 + (x 1 + (x 2 + x 3)) ≤ q * v := by
    have : objective exTailProblem.graph exTailProblem.cost x = 1 * x 0 + (1 * x 1 + (1 * x 2 + (1 * x 3 + (0 * x 4 + (0 * x 5 + (0 * x 6 + (0 * x 7 + 0))))))) := rfl
    rw [this] at ho
    linarith
  have h3 : q * 3 ≤ q * v := by linarith
  have h4 : 3 ≤ v := le_of_mul_le_mul_left h3 hq
  have h5 : objectiveQ exTailProblem.graph exTailProblem.cost (fun e => 9999999 / 10 ^ 7 * exTailVec 0 e) ≤ 3 := by decide +kernel
  have h6 : (3 : Rat) ≤ v := by exact_mod_cast h4
  change _ ≤ (v : Rat) + 0
  linarith

example : (scipTol 0).Fine exTail.n (absCost exTail fun _ => 1) (absPrize exTail fun _ => 1) 3 ∧
    ∃ t, TolSteps (scipTol 0) exTailProblem (List.range 8) TolSearch.init t ∧ ScipSpec 1 exTailProblem (List.range 8) t.outcome ∧ t.status = .optimal := by
  obtain ⟨hT, t, y, h1, h2, -⟩ := exTail_search
  obtain ⟨P, hP, h⟩ := C156_answer (g := exTail) (cost := fun _ => 1) (heur := []) (by decide) (by decide) (by decide) (by simp) (by simp) (fun _ => 1) 3
    (root := 0) (by decide) ⟨false, false, false, true, false⟩ (fun _ => 0) exPick_heap (by simp) (by simp) (by simp) hT
  have hE : P = exTailProblem := by
    have : Res.ok P = Res.ok exTailProblem := hP.symm.trans rfl
    injection this
  subst hE
  exact ⟨hT, t, h1, ((h.2 (List.Perm.refl _)).1 1 h1).1, congrArg ScipOutcome.status h2⟩

theorem exTail_describes : Describes exTail.edges (exTail.edges.map fun p => (p, 1)) ((List.range 4).map fun v => (v, 1)) (fun _ _ => 1) (fun _ => 1) where
  distinct := by decide
  symm _ _ := rfl
  costOk p c h := by
    have : ∀ q ∈ exTail.edges.map fun p => (p, (1 : Int)), q.2 = 1 ∧ AdjIn exTail.edges q.1.1 q.1.2 := by decide
    exact this _ h
  allCosts e he := ⟨e, _, List.mem_map.2 ⟨e, he, rfl⟩, Or.inl rfl⟩
  prizeOk x c h := by
    have : ∀ q ∈ (List.range 4).map fun v => (v, (1 : Int)), q.2 = 1 ∧ q.1 ∈ endpoints exTail.edges := by decide
    exact this _ h
  allPrizes x h := by
    have : ∀ x ∈ endpoints exTail.edges, (x, (1 : Int)) ∈ (List.range 4).map fun v => (v, 1) := by decide
    exact ⟨1, this x h⟩

/-- The hypotheses of C156_solve hold for a solver that stops at once, except on one problem, which it solves. -/
example : ∃ scip : Problem → ScipOutcome, (∃ y, scip exTailProblem = ⟨.optimal, some y⟩) ∧
    ∃ st ps, solveBind scip List.range exTail.edges [] (exTail.edges.map fun p => (p, 1)) ((List.range 4).map fun v => (v, 1)) 3 0
        ⟨false, false, true, true, true⟩ [] exPick = .ok (st, ps) ∧ (ps = [] ∨ ∃ t, FeasibleIn exTail.edges (fun _ => 1) 3 0 t ∧ EdgesOfTour t ps) := by
  classical
  obtain ⟨hT, t, y, h1, h2, -⟩ := exTail_search
  refine ⟨fun P => if P = exTailProblem then t.outcome else TolSearch.init.outcome, ⟨y, by simp [h2]⟩, ?_⟩
  obtain ⟨st, ps, h3, h4, -⟩ := C156_solve (es := exTail.edges) (heur := []) (costs := exTail.edges.map fun p => (p, 1)) (prizes := (List.range 4).map fun v => (v, 1))
    (w := fun _ _ => 1) (π := fun _ => 1) (δ := fun _ => 0) (quota := 3) (root := 0) (o := ⟨false, false, true, true, true⟩) (disjoint := []) (pick := exPick)
    (order := List.range) (scip := fun P => if P = exTailProblem then t.outcome else TolSearch.init.outcome)
    exTail_describes (by decide) (by simp) (by decide) (by simp) (by simp) exPick_heap (fun _ => List.Perm.refl _) (by simp)
    (fun P ub _ => by
      by_cases hE : P = exTailProblem
      · subst hE
        exact ⟨scipTol 0, t, hT, h1, by simp⟩
      · exact ⟨⟨0, 0, 0, 0⟩, TolSearch.init, ⟨⟨le_refl _, le_refl _, by simp⟩, le_refl _, by simp, by simp⟩, .refl, by simp [hE]⟩) (by simp) (by simp) (by simp)
  exact ⟨st, ps, h3, h4⟩

/-- A cycle of four vertices. -/
def exTolRing : Graph := ⟨4, [(0, 1), (1, 2), (2, 3), (3, 0)]⟩

/-- **C156.** The cast of the bound to an integer can lose one: the rows of the event then cut off the solution that has just been found, here the only
feasible tour, with SCIP's default tolerances.  In exact numbers the event adds no row.  By C156_answer this does no harm. -/
theorem C156_cast : ∃ P, buildProblem exTolRing [] (fun _ => 1) (fun _ => 1) 4 0 ⟨false, true, false, true, false⟩ (fun _ => 0) exPick = .ok P ∧
    ∃ y rows, AcceptedTol (1 / 10 ^ 9) (1 / 10 ^ 6) P.graph (List.range P.graph.edges.length) P.rows y ∧
      tolEventRows P (objectiveQ P.graph P.cost y) = .ok rows ∧ (∃ row ∈ rows, ¬ row.Sat (roundBin y)) ∧
      eventRows P (objective P.graph P.cost (roundBin y)) = .ok [] ∧ (∀ e, roundBin y e = 1) ∧ Feas exTolRing (fun _ => 1) 4 0 [0, 1, 2, 3, 0] := by
  refine ⟨_, rfl, fun _ => 9999999 / 10 ^ 7, [coverRow [4, 6]], ⟨fun _ _ => ?_, by decide +kernel, by decide +kernel⟩, by decide +kernel,
    ⟨_, List.mem_singleton.2 rfl, by decide +kernel⟩, by decide +kernel, fun e => ?_,
    ⟨⟨⟨[1, 2, 3], rfl⟩, by decide, by decide⟩, by decide, by decide⟩⟩
  · right; decide +kernel
  · rw [roundBin, if_pos (by norm_num)]

end Pctsp
