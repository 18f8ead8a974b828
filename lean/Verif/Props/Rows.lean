import Verif.Lemmas.RowsTour

/-!
# Properties C32-C35, C47, C56: rows of the integer program and subtour elimination rows
-/

namespace Pctsp

/-- The complete graph on four vertices with self-loops. -/
def exK4 : Graph := { n := 4, edges := [(0, 0), (1, 1), (2, 2), (3, 3), (0, 1), (2, 1), (0, 2), (3, 0), (1, 3), (2, 3)] }

/-- Two disjoint triangles joined by one edge, with self-loops. -/
def exTwo : Graph :=
  { n := 6, edges := [(0, 1), (1, 2), (2, 0), (3, 4), (4, 5), (5, 3), (2, 3), (0, 0), (1, 1), (2, 2), (3, 3), (4, 4), (5, 5)] }

/-- A solver that takes every row. -/
def exSolver : Solver := { efficacious := fun _ => true, infeasible := fun _ _ => false }

def exState : SepState := { offered := [], added := [], result := .didNotFind }

example : SimpleWithLoops exK4 := by decide +kernel
example : SimpleWithLoops exTwo := by decide +kernel

/-! ### C47 -/

/-- **C47.** The variables of a cut are the positive ones followed by the negative ones, with coefficients +1 and -1. -/
theorem C47_coefficients (pos neg all : List Nat) (coefs : List Int) (h1 : all.length = pos.length + neg.length) (h2 : coefs.length = all.length) :
    ∃ vars cs, fillPositiveNegativeVars pos neg all coefs = .ok (vars, cs) ∧ vars = pos ++ neg ∧ cs.length = vars.length ∧
      (∀ i < pos.length, cs[i]? = some 1) ∧ (∀ i : Nat, pos.length ≤ i → i < vars.length → cs[i]? = some (-1)) := by
  refine ⟨_, _, fill_eq pos neg all coefs h1.symm h2.symm, rfl, by simp, ?_, ?_⟩
  · intro i hi
    rw [List.getElem?_append_left (by simpa using hi)]
    simp [hi]
  · intro i h3 h4
    rw [List.getElem?_append_right (by simpa using h3)]
    simp only [List.length_append] at h4
    simp only [List.length_replicate, List.getElem?_replicate]
    rw [if_pos (by omega)]

example : fillPositiveNegativeVars [7, 8] [3] [0, 0, 0] [0, 0, 0] = .ok ([7, 8, 3], [1, 1, -1]) := by decide +kernel

/-- **C47.** Arrays of another length are not accepted. -/
theorem C47_bad_length (pos neg all : List Nat) (coefs : List Int) (h : ¬ (all.length = pos.length + neg.length ∧ coefs.length = all.length)) :
    (fillPositiveNegativeVars pos neg all coefs).isUb = true := by
  rw [fillPositiveNegativeVars, if_neg (by omega)]
  rfl

example : ¬ ([0, 0].length = [7, 8].length + [3].length ∧ [0, 0].length = [0, 0].length) := by decide

/-- **C47.** The activity of the cut is the sum over the positive variables minus the sum over the negative ones. -/
theorem C47_activity (pos neg all : List Nat) (coefs : List Int) (h1 : all.length = pos.length + neg.length) (h2 : coefs.length = all.length)
    (sv : Solver) (lhs rhs : Option Int) (st : SepState) (x : Nat → Int) :
    ∃ vars cs row, fillPositiveNegativeVars pos neg all coefs = .ok (vars, cs) ∧
      (addRow sv vars cs lhs rhs st).offered = st.offered ++ [row] ∧ row.lhs = lhs ∧ row.rhs = rhs ∧
      row.activity x = (pos.map x).sum - (neg.map x).sum :=
  ⟨_, _, _, fill_eq pos neg all coefs h1.symm h2.symm, by rw [addRow, offerRow_offered], rfl, rfl, activity_pos_neg x pos neg lhs rhs⟩

example : [0, 0, 0].length = [7, 8].length + [3].length ∧ [0, 0, 0].length = [0, 0, 0].length := by decide

/-- **C47.** A row is handed to the solver iff it is efficacious; then the result is a cutoff if the solver reports infeasibility and
a separation otherwise.  A row that is not efficacious changes nothing. -/
theorem C47_result (sv : Solver) (vars : List Nat) (coefs : List Int) (lhs rhs : Option Int) (st : SepState) :
    ∃ row, row.coeffs = vars.zip coefs ∧ row.lhs = lhs ∧ row.rhs = rhs ∧
      (sv.efficacious row = false → (addRow sv vars coefs lhs rhs st).added = st.added ∧ (addRow sv vars coefs lhs rhs st).result = st.result) ∧
      (sv.efficacious row = true → (addRow sv vars coefs lhs rhs st).added = st.added ++ [row] ∧
        (addRow sv vars coefs lhs rhs st).result = if sv.infeasible st.added row then .cutoff else .separated) := by
  refine ⟨{ coeffs := vars.zip coefs, lhs, rhs }, rfl, rfl, rfl, ?_, ?_⟩
  · intro h; simp [addRow, offerRow, h]
  · intro h; simp [addRow, offerRow, h]

example : (addRow exSolver [7, 8, 3] [1, 1, -1] none (some 0) exState).result = .separated := by decide +kernel

/-! ### C32 -/

/-- **C32.** The degree row of a vertex: -2 for its self-loop, +1 for each incident edge, no other entry, no variable twice. -/
theorem C32_degree_row {g : Graph} (hg : SimpleWithLoops g) {v : Nat} (hv : v < g.n) {loop : Nat} (hl : g.edges[loop]? = some (v, v)) :
    ∃ row, degreeRow g v = .ok row ∧ row.lhs = some 0 ∧ row.rhs = some 0 ∧ (row.coeffs.map Prod.fst).Nodup ∧
      ∀ e c, (e, c) ∈ row.coeffs ↔ (e = loop ∧ c = -2) ∨
        (c = 1 ∧ ∃ a b, g.edges[e]? = some (a, b) ∧ a ≠ b ∧ (a = v ∨ b = v)) := by
  obtain ⟨loop', hl', h⟩ := degreeRow_simple hg hv
  have : loop' = loop := by
    have := hg.edgeIdx (Or.inl hl : EdgeBetween g loop v v)
    rw [hl'] at this
    simpa using this
  subst this
  have hinc : ∀ e, e ∈ (List.range g.edges.length).filter (incident g v) ↔ ∃ a b, g.edges[e]? = some (a, b) ∧ a ≠ b ∧ (a = v ∨ b = v) := by
    intro e
    rw [List.mem_filter, List.mem_range]
    constructor
    · rintro ⟨hlt, hi⟩
      have hp : g.edges[e]? = some g.edges[e] := List.getElem?_eq_getElem hlt
      simp only [incident, hp, Bool.and_eq_true, decide_eq_true_eq, Bool.or_eq_true, beq_iff_eq] at hi
      exact ⟨_, _, hp, hi⟩
    · rintro ⟨a, b, hp, hab, hv⟩
      refine ⟨(List.getElem?_eq_some_iff.1 hp).1, ?_⟩
      simp only [incident, hp, Bool.and_eq_true, decide_eq_true_eq, Bool.or_eq_true, beq_iff_eq]
      exact ⟨hab, hv⟩
  refine ⟨_, h, rfl, rfl, ?_, ?_⟩
  · rw [List.map_cons, List.map_map, List.nodup_cons]
    have : (Prod.fst ∘ fun e : Nat => (e, (1 : Int))) = id := rfl
    rw [this, List.map_id]
    refine ⟨?_, List.nodup_range.filter _⟩
    intro hmem
    obtain ⟨a, b, hp, hab, -⟩ := (hinc _).1 hmem
    rw [hl] at hp
    simp at hp
    omega
  · intro e c
    simp only [List.mem_cons, Prod.mk.injEq, List.mem_map]
    refine or_congr Iff.rfl ?_
    constructor
    · rintro ⟨e', he, rfl, rfl⟩; exact ⟨rfl, (hinc _).1 he⟩
    · rintro ⟨rfl, he⟩; exact ⟨e, (hinc _).2 he, rfl, rfl⟩

example : 2 < exK4.n ∧ exK4.edges[2]? = some (2, 2) := by decide
example : degreeRow exK4 2 = .ok { coeffs := [(2, -2), (5, 1), (6, 1), (9, 1)], lhs := some 0, rhs := some 0 } := by decide +kernel

/-- **C32.** The row holds iff the value of the incident edges is twice the value of the self-loop; one row is built for each vertex. -/
theorem C32_satisfied_iff {g : Graph} (hg : SimpleWithLoops g) (x : Nat → Int) :
    ∃ rows, degreeRows g = .ok rows ∧ rows.length = g.n ∧ ∀ v loop, g.edges[loop]? = some (v, v) →
      ∃ row, rows[v]? = some row ∧ (row.Sat x ↔ edgeSum g x (incident g v) = 2 * x loop) := by
  obtain ⟨rows, h1, -⟩ := degreeRows_sat hg x
  have h2 := mapRes_eq_ok.1 h1
  refine ⟨rows, h1, by simpa using h2.length_eq.symm, ?_⟩
  intro v loop hl
  have hv : v < g.n := (hg.wf _ (List.mem_of_getElem? hl)).1
  obtain ⟨row, h3, h4⟩ := degreeRow_sat hg hv x
  have h5 : loopVal g x v = x loop := by
    rw [loopVal, hg.edgeIdx (Or.inl hl : EdgeBetween g loop v v)]; rfl
  rw [h5] at h4
  refine ⟨row, ?_, h4⟩
  have hvr : v < rows.length := by have := h2.length_eq; simp at this; omega
  have := h2.get (by simpa using hv) hvr
  simp only [List.get_eq_getElem, List.getElem_range, h3, Res.ok.injEq] at this
  rw [List.getElem?_eq_getElem hvr, this]

example : exK4.edges[2]? = some (2, 2) := by decide

/-- **C32.** A 0/1 assignment satisfies the row iff no incident edge is chosen and the self-loop is not, or two are chosen and it is. -/
theorem C32_zero_one {g : Graph} (hg : SimpleWithLoops g) {v loop : Nat} (hl : g.edges[loop]? = some (v, v)) (chosen : Nat → Bool) :
    ∃ row, degreeRow g v = .ok row ∧ (row.Sat (fun e => if chosen e then 1 else 0) ↔
      ((List.range g.edges.length).countP fun e => incident g v e && chosen e) = if chosen loop then 2 else 0) := by
  have hv : v < g.n := (hg.wf _ (List.mem_of_getElem? hl)).1
  obtain ⟨row, h1, h2⟩ := degreeRow_sat hg hv (fun e => if chosen e then 1 else 0)
  refine ⟨row, h1, h2.trans ?_⟩
  have h5 : loopVal g (fun e => if chosen e then 1 else 0) v = if chosen loop then 1 else 0 := by
    rw [loopVal, hg.edgeIdx (Or.inl hl : EdgeBetween g loop v v)]; rfl
  rw [h5, edgeSum, sum_indicator _ _ (fun e => chosen e = true) (fun e _ => rfl), List.countP_filter]
  have : (fun e => decide (chosen e = true) && incident g v e) = fun e => incident g v e && chosen e := by
    funext e; simp [Bool.and_comm]
  rw [this]
  split <;> omega

example : exK4.edges[2]? = some (2, 2) := by decide

/-- **C32.** For any graph: without a self-loop the construction throws, with one it succeeds, with two or more it reads an array slot
that was never written. -/
theorem C32_self_loops (g : Graph) (v : Nat) :
    (degreeRow g v = .throw (.edgeNotFound v v) ↔ g.edges.count (v, v) = 0) ∧
    ((∃ row, degreeRow g v = .ok row) ↔ g.edges.count (v, v) = 1) ∧
    ((degreeRow g v).isUb = true ↔ 2 ≤ g.edges.count (v, v)) := by
  rcases degreeRow_cases g v with ⟨h1, h2⟩ | ⟨h1, _, _, h2⟩ | ⟨h1, h2⟩ <;> rw [h2] <;> simp [h1, Res.isUb] <;> omega

example : ∃ g : Graph, g.WF ∧ (degreeRow g 0).isUb = true := ⟨{ n := 2, edges := [(0, 0), (0, 1), (0, 0)] }, by decide, by decide +kernel⟩

/-! ### C34, C35, C56 -/

/-- **C35.** The three outcomes: neither root nor target in the set, both, exactly one. -/
theorem C35_outcomes (sv : Solver) {g : Graph} {vs : List Nat} {root target : Nat} (hr : ∀ v ∈ vs, v < g.n) (hnd : vs.Nodup)
    (hl : ∀ v ∈ vs, (v, v) ∈ g.edges) (ht : target < g.n) (htl : (target, target) ∈ g.edges) (st : SepState) :
    (root ∉ vs → target ∉ vs → addSubtourEliminationConstraint sv g g.hasVar vs root target st = .throw (.vertexNotFound target)) ∧
    (root ∈ vs → target ∈ vs → addSubtourEliminationConstraint sv g g.hasVar vs root target st = .throw (.vertexInWrongSet target)) ∧
    (¬ (root ∈ vs ↔ target ∈ vs) → ∃ st' row, addSubtourEliminationConstraint sv g g.hasVar vs root target st = .ok st' ∧
      st'.offered = st.offered ++ [row]) := by
  refine ⟨?_, ?_, ?_⟩
  · intro h1 h2; simp [addSubtourEliminationConstraint, h1, h2]
  · intro h1 h2; simp [addSubtourEliminationConstraint, h1, h2]
  · intro hx
    obtain ⟨row, es, h1, -⟩ := addSEC_eq sv hr hnd hl ht htl hx st
    exact ⟨_, row, h1, offerRow_offered _ _ _⟩

example : (∀ v ∈ [3, 4, 5], v < exTwo.n) ∧ [3, 4, 5].Nodup ∧ (∀ v ∈ [3, 4, 5], (v, v) ∈ exTwo.edges) ∧ ¬ (0 ∈ [3, 4, 5] ↔ 4 ∈ [3, 4, 5]) := by decide

/-- **C35.** A vertex of the set, or the target, without a self-loop makes the call fail. -/
theorem C35_missing_self_loop (sv : Solver) {g : Graph} {vs : List Nat} {root target : Nat} (hr : ∀ v ∈ vs, v < g.n) (hnd : vs.Nodup)
    (ht : target < g.n) (hx : ¬ (root ∈ vs ↔ target ∈ vs)) (st : SepState)
    (h : (∃ v ∈ vs, v ≠ target ∧ (v, v) ∉ g.edges) ∨ (root ∈ vs ∧ (target, target) ∉ g.edges)) :
    ∃ v, (v ∈ vs ∨ v = target) ∧ (v, v) ∉ g.edges ∧
      addSubtourEliminationConstraint sv g g.hasVar vs root target st = .throw (.noSelfLoopFound v) := by
  obtain ⟨es, hes⟩ : ∃ es, getEdgesInducedByVertices g vs = .ok es := ⟨_, getEdgesInduced_ok vs hr⟩
  have hev := getEdgeVariables_ok g.hasVar es (fun e he => by simpa [Graph.hasVar] using induced_lt hr hnd hes e he)
  by_cases hroot : root ∈ vs
  · have htv : target ∉ vs := fun hh => hx ⟨fun _ => hh, fun _ => hroot⟩
    obtain ⟨v, hv, hvl, hthrow⟩ := getSelfLoops_missing (g := g) (vs ++ [target]) (by
      intro v hv
      rcases List.mem_append.1 hv with hv | hv
      · exact hr v hv
      · simp at hv; omega) (by
      rcases h with ⟨v, hv, -, hv'⟩ | ⟨-, hv'⟩
      · exact ⟨v, by simp [hv], hv'⟩
      · exact ⟨target, by simp, hv'⟩)
    refine ⟨v, by simpa using hv, hvl, ?_⟩
    have hf : vs.filter (fun _ => true) = vs := List.filter_eq_self.2 (by simp)
    simp [addSubtourEliminationConstraint, hroot, htv, hes, hev, hthrow, hf]
  · have htv : target ∈ vs := by
      by_contra hh
      exact hx ⟨fun h => absurd h hroot, fun h => absurd h hh⟩
    rcases h with ⟨v, hv, hvt, hv'⟩ | ⟨h, -⟩
    · obtain ⟨w, hw, hwl, hthrow⟩ := getSelfLoops_missing (g := g) (vs.filter fun v => decide (v ≠ target))
        (fun v hv => hr v (List.mem_filter.1 hv).1) ⟨v, by simp [hv, hvt], hv'⟩
      refine ⟨w, Or.inl (List.mem_filter.1 hw).1, hwl, ?_⟩
      simp only [ne_eq, decide_not] at hthrow
      simp [addSubtourEliminationConstraint, hroot, htv, hes, hev, hthrow]
    · exact absurd h hroot

example : addSubtourEliminationConstraint exSolver { n := 3, edges := [(0, 0), (1, 1), (1, 2)] } (fun _ => true) [1, 2] 0 1 exState =
    .throw (.noSelfLoopFound 2) := by decide +kernel

/-- A variable that is missing for an edge inside the set is reported, whatever the map holds otherwise; here and for the cycle cover row. -/
theorem C35_missing_variable (sv : Solver) {g : Graph} (hasVar : Nat → Bool) {vs : List Nat} {root target u v e : Nat} (hr : ∀ v ∈ vs, v < g.n)
    (hnd : vs.Nodup) (hu : u ∈ vs) (hv : v ∈ vs) (huv : u ≠ v) (he : g.edgeIdx u v = some e) (hm : hasVar e = false) (st : SepState) :
    (¬ (root ∈ vs ↔ target ∈ vs) → addSubtourEliminationConstraint sv g hasVar vs root target st = .throw .variableIsNull) ∧
    addCycleCover sv g hasVar vs st = .throw .variableIsNull := by
  obtain ⟨es, hes⟩ : ∃ es, getEdgesInducedByVertices g vs = .ok es := ⟨_, getEdgesInduced_ok vs hr⟩
  have hnull := getEdgeVariables_null hasVar es ⟨e, (induced_spec hr hnd hes).2.2 u hu v hv huv e he, hm⟩
  constructor
  · intro hx
    by_cases hroot : root ∈ vs
    · have htv : target ∉ vs := fun hh => hx ⟨fun _ => hh, fun _ => hroot⟩
      simp [addSubtourEliminationConstraint, hroot, htv, hes, hnull]
    · have htv : target ∈ vs := by
        by_contra hh
        exact hx ⟨fun h => absurd h hroot, fun h => absurd h hh⟩
      simp [addSubtourEliminationConstraint, hroot, htv, hes, hnull]
  · have hne : vs ≠ [] := by rintro rfl; simp at hu
    simp [addCycleCover, hne, hes, hnull]

example : addSubtourEliminationConstraint exSolver { n := 3, edges := [(0, 0), (1, 1), (1, 2), (2, 2)] } (fun e => decide (e ≠ 2)) [1, 2] 0 1 exState =
    .throw .variableIsNull := by decide +kernel

/-- **C34.** The row of a set and a target holds for the incidence vector of every tour from the root. -/
theorem C34_valid (sv : Solver) {g : Graph} {vs : List Nat} {root target : Nat} (hr : ∀ v ∈ vs, v < g.n) (hnd : vs.Nodup)
    (hl : ∀ v ∈ vs, (v, v) ∈ g.edges) (ht : target < g.n) (htl : (target, target) ∈ g.edges) (hx : ¬ (root ∈ vs ↔ target ∈ vs)) (st : SepState) :
    ∃ st' row, addSubtourEliminationConstraint sv g g.hasVar vs root target st = .ok st' ∧ st'.offered = st.offered ++ [row] ∧
      (st'.added = st.added ∨ st'.added = st.added ++ [row]) ∧
      ∀ t es x, IsTour g root t → IncidenceOf g t es x → row.Sat x := by
  obtain ⟨row, es, h1, hes, hlhs, hrhs, hact⟩ := addSEC_eq sv hr hnd hl ht htl hx st
  refine ⟨_, row, h1, offerRow_offered _ _ _, ?_, ?_⟩
  · unfold offerRow
    split
    · exact Or.inr rfl
    · exact Or.inl rfl
  · intro t es' x htour hinc
    obtain ⟨h2, h3⟩ := incidence_inside htour hinc hr hnd hl hes
    have hy := loopVal_incidence hinc htl
    have hroot : root ∈ t := by obtain ⟨m, rfl⟩ := htour.shape; simp
    rw [Row.Sat, hlhs, hrhs, hact]
    simp only [reduceCtorEq, Option.some.injEq, forall_eq', false_imp_iff, implies_true, true_and]
    by_cases htt : target ∈ t
    · rw [if_pos htt] at hy
      by_cases hrv : root ∈ vs
      · have htv : target ∉ vs := fun hh => hx ⟨fun _ => hh, fun _ => hrv⟩
        have := h3 ⟨root, hroot, hrv⟩ ⟨target, htt, htv⟩
        omega
      · have htv : target ∈ vs := by
          by_contra hh
          exact hx ⟨fun h => absurd h hrv, fun h => absurd h hh⟩
        have := h3 ⟨target, htt, htv⟩ ⟨root, hroot, hrv⟩
        omega
    · rw [if_neg htt] at hy
      omega

example : (∀ v ∈ [3, 4, 5], v < exTwo.n) ∧ [3, 4, 5].Nodup ∧ (∀ v ∈ [3, 4, 5], (v, v) ∈ exTwo.edges) ∧ ¬ (0 ∈ [3, 4, 5] ↔ 4 ∈ [3, 4, 5]) := by decide
example : IsTour exTwo 0 [0, 1, 2, 0] := ⟨⟨[1, 2], rfl⟩, by decide, by decide⟩
example : IncidenceOf exTwo [0, 1, 2, 0] [2, 0, 1] (fun e => if e ∈ [0, 1, 2, 7, 8, 9] then 1 else 0) :=
  incidence_check (by decide) (by decide) (by decide) (by decide)

/-- **C56.** For a solution of the degree rows, the row of a set and a target is violated iff the edges that leave the set have less than
twice the value of the target. -/
theorem C56_violated_iff (sv : Solver) {g : Graph} (hg : SimpleWithLoops g) {vs : List Nat} {root target loop : Nat} (hr : ∀ v ∈ vs, v < g.n)
    (hnd : vs.Nodup) (hloop : g.edges[loop]? = some (target, target)) (hx : ¬ (root ∈ vs ↔ target ∈ vs)) (st : SepState) :
    ∃ st' row, addSubtourEliminationConstraint sv g g.hasVar vs root target st = .ok st' ∧ st'.offered = st.offered ++ [row] ∧
      ∀ rows x, degreeRows g = .ok rows → (∀ row ∈ rows, row.Sat x) →
        (¬ row.Sat x ↔ edgeSum g x (crosses g fun v => decide (v ∈ vs)) < 2 * x loop) := by
  have htl := List.mem_of_getElem? hloop
  have ht : target < g.n := (hg.wf _ htl).1
  obtain ⟨row, es, h1, hes, hlhs, hrhs, hact⟩ := addSEC_eq sv hr hnd (fun v hv => hg.loops v (hr v hv)) ht htl hx st
  refine ⟨_, row, h1, offerRow_offered _ _ _, ?_⟩
  intro rows x hrows hsat
  obtain ⟨rows', h2, h3⟩ := degreeRows_sat hg x
  rw [hrows] at h2
  cases h2
  have hcut := cut_form hg hr hnd hes (fun v hv => h3.1 hsat v (hr v hv))
  have h5 : loopVal g x target = x loop := by
    rw [loopVal, hg.edgeIdx (Or.inl hloop : EdgeBetween g loop target target)]; rfl
  rw [Row.Sat, hlhs, hrhs, hact, h5]
  simp only [reduceCtorEq, Option.some.injEq, forall_eq', false_imp_iff, implies_true, true_and]
  omega

example : exTwo.edges[11]? = some (4, 4) ∧ ¬ (0 ∈ [3, 4, 5] ↔ 4 ∈ [3, 4, 5]) := by decide

/-- **C56.** The same for a cycle cover row: it is violated iff the edges that leave the set have a value of less than 2. -/
theorem C56_cycle_cover (sv : Solver) {g : Graph} (hg : SimpleWithLoops g) {vs : List Nat} (hr : ∀ v ∈ vs, v < g.n)
    (hnd : vs.Nodup) (hne : vs ≠ []) (st : SepState) :
    ∃ st' row, addCycleCover sv g g.hasVar vs st = .ok st' ∧ st'.offered = st.offered ++ [row] ∧
      ∀ rows x, degreeRows g = .ok rows → (∀ row ∈ rows, row.Sat x) →
        (¬ row.Sat x ↔ edgeSum g x (crosses g fun v => decide (v ∈ vs)) < 2) := by
  obtain ⟨row, es, h1, hes, hlhs, hrhs, hact⟩ := addCycleCover_eq sv hr hnd hne (fun v hv => hg.loops v (hr v hv)) st
  refine ⟨_, row, h1, offerRow_offered _ _ _, ?_⟩
  intro rows x hrows hsat
  obtain ⟨rows', h2, h3⟩ := degreeRows_sat hg x
  rw [hrows] at h2
  cases h2
  have hcut := cut_form hg hr hnd hes (fun v hv => h3.1 hsat v (hr v hv))
  rw [Row.Sat, hlhs, hrhs, hact]
  simp only [reduceCtorEq, Option.some.injEq, forall_eq', false_imp_iff, implies_true, true_and]
  omega

example : (∀ v ∈ [0, 1, 2], v < exTwo.n) ∧ [0, 1, 2].Nodup ∧ [0, 1, 2] ≠ [] := by decide

end Pctsp
