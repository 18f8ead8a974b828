import Verif.Props.Maxflow

/-!
# Property C68: a separation round with both methods
-/

namespace Pctsp

theorem edgeSum_nonneg {g : Graph} {x : Nat → Int} (hx : ∀ e < g.edges.length, 0 ≤ x e) (P : Nat → Bool) : 0 ≤ edgeSum g x P := by
  have := edgeSum_le (g := g) (x := fun _ => 0) (y := x) (P := P) fun e he _ => hx e he
  rwa [edgeSum_zero fun _ _ _ => rfl] at this

/-- The parts of a round. -/
theorem separateSubtour_eq (sv : Solver) {g : Graph} (flow : MaxFlow) (visit : Visit) (order : List Nat) (q : Int)
    (x : Nat → Int) {root m : Nat} (hroot : root < g.n) {ids : List Nat} (hc : IsComponents g x m ids) :
    ∃ rc, IsRootComponent g x root rc ∧ ∀ (d f : Bool) (st : SepState), separateSubtour sv g g.hasVar flow visit order q x root m ids d f st =
      ((if d then separateSubtourDisjoint sv g g.hasVar root m ids st else .ok (st, 0)) >>= fun a =>
        if f then separateMaxflowMincut sv g g.hasVar flow visit order q x root rc a.1 >>= fun b => .ok (b.1, a.2, b.2) else .ok (a.1, a.2, 0)) := by
  have h := isComponents_labels hc
  obtain ⟨comps, h1, hlen, h2, -, -⟩ := C28_component_vectors g.n m ids h
  obtain ⟨rootId, hrid, hrm⟩ := h root hroot
  have hcc : comps[rootId]? = some (comps[rootId]'(by omega)) := List.getElem?_eq_getElem (by omega)
  obtain ⟨-, hm⟩ := h2 _ _ hcc
  refine ⟨comps[rootId]'(by omega), ?_, ?_⟩
  · intro v
    rw [hm v]
    constructor
    · rintro ⟨hv, hid⟩
      exact ⟨hv, (hc.same _ _ hroot hv).1 (by rw [hrid, hid])⟩
    · rintro ⟨hv, hcon⟩
      exact ⟨hv, by rw [← hrid]; exact ((hc.same _ _ hroot hv).2 hcon).symm⟩
  · intro d f st
    rw [separateSubtour, separateSubtourDisjoint, h1]
    simp only [Res.ok_bind, hrid, hcc]
    cases d <;> cases f <;> simp [Res.pure_eq, Res.ok_bind]

/-- The result of a sequence of rows is changed iff one of them is efficacious. -/
theorem offerAll_result_eq (sv : Solver) (rows : List Row) (st : SepState) (hst : st.result = .didNotFind) :
    (offerAll sv rows st).result = .didNotFind ↔ ∀ row ∈ rows, sv.efficacious row = false := by
  constructor
  · intro h
    by_contra hc
    have hne : rows.filter sv.efficacious ≠ [] := by
      intro hf
      rw [List.filter_eq_nil_iff] at hf
      exact hc fun row hrow => by simpa using hf row hrow
    clear hc hst
    induction rows using List.reverseRecOn with
    | nil => simp at hne
    | append_singleton rows row ih =>
      by_cases he : sv.efficacious row = true
      · rw [offerAll_result sv rows row st he] at h
        split at h <;> simp at h
      · rw [offerAll_append] at h
        simp only [offerAll, offerRow, he] at h
        refine ih h ?_
        rw [List.filter_append] at hne
        simpa [he] using hne
  · intro h
    induction rows generalizing st with
    | nil => exact hst
    | cons row rows ih =>
      rw [offerAll]
      refine ih _ ?_ fun r hr => h r (by simp [hr])
      simp [offerRow, h row (by simp), hst]

/-- **C68.** A separation call with either method switched on or off: the rows are those of the first method followed by those of the second,
all are valid, the two counts are the numbers of rows, a method that is switched off offers nothing, and the result of `scip_sepalp` is
`SCIP_DIDNOTFIND` iff no row was added. -/
theorem C68_round (sv : Solver) {g : Graph} (hg : SimpleWithLoops g) (flow : MaxFlow) {visit : Visit}
    (hself : ∀ es s, visit es s s = true) {order : List Nat} (ho : order.Perm (List.range g.edges.length)) (q : Int) {x : Nat → Int} {root m : Nat}
    (hroot : root < g.n) {ids : List Nat} (hc : IsComponents g x m ids) (hcon : ∃ v, v ≠ root ∧ SupportConnected g x root v) (d f : Bool) (st : SepState) :
    ∃ (st' : SepState) (rows rows' : List Row), sepalp sv g g.hasVar flow visit order q x root m ids d f st = .ok (st', rows.length, rows'.length) ∧
      st'.offered = st.offered ++ rows ++ rows' ∧ st'.added = st.added ++ (rows ++ rows').filter sv.efficacious ∧
      (d = false → rows = []) ∧ (f = false → rows' = []) ∧
      (st'.result = .didNotFind ↔ st'.added = st.added) ∧
      ∀ row ∈ rows ++ rows', ∀ t es x, IsTour g root t → IncidenceOf g t es x → row.Sat x := by
  obtain ⟨rc, hrc, heq⟩ := separateSubtour_eq sv flow visit order q x hroot hc
  obtain ⟨rows, hr1, hr2, hr3⟩ : ∃ rows, (if d then separateSubtourDisjoint sv g g.hasVar root m ids { st with result := .didNotFind }
      else .ok ({ st with result := .didNotFind }, 0)) = .ok (offerAll sv rows { st with result := .didNotFind }, rows.length) ∧ (d = false → rows = []) ∧
      ∀ row ∈ rows, ∀ t es x, IsTour g root t → IncidenceOf g t es x → row.Sat x := by
    cases d with
    | false => exact ⟨[], rfl, fun _ => rfl, by simp⟩
    | true =>
      obtain ⟨pairs, rows, h1, -⟩ := separateSubtourDisjoint_eq sv hg.loops hroot (isComponents_labels hc) { st with result := .didNotFind }
      obtain ⟨st'', k, rows'', h2, h3, -, h5⟩ := C34_round_valid sv hg.loops hroot (isComponents_labels hc) { st with result := .didNotFind }
      rw [h1] at h2
      have : rows = rows'' := by
        cases h2
        rw [offerAll_offered] at h3
        exact List.append_cancel_left h3
      subst this
      exact ⟨rows, h1, by simp, h5⟩
  obtain ⟨rows', hr1', hr2', hr3'⟩ : ∃ rows', (if f then separateMaxflowMincut sv g g.hasVar flow visit order q x root rc
        (offerAll sv rows { st with result := .didNotFind }) >>= fun b => .ok (b.1, rows.length, b.2)
        else .ok (offerAll sv rows { st with result := .didNotFind }, rows.length, 0)) =
        Res.ok (offerAll sv rows' (offerAll sv rows { st with result := .didNotFind }), rows.length, rows'.length) ∧ (f = false → rows' = []) ∧
      ∀ row ∈ rows', ∀ t es x, IsTour g root t → IncidenceOf g t es x → row.Sat x := by
    cases f with
    | false => exact ⟨[], rfl, fun _ => rfl, by simp⟩
    | true =>
      obtain ⟨ne, des, sr, pairs, rows', -, -, -, h1, h2, h3, -⟩ :=
        maxflow_round sv hg.wf hg.loops flow hself order q x ((root_kept hg.wf ho hrc).2 hcon) (offerAll sv rows { st with result := .didNotFind })
      refine ⟨rows', by simp only [if_true, h1, Res.ok_bind], by simp, ?_⟩
      intro row hrow t es x ht hinc
      obtain ⟨i, hi, rfl⟩ := List.getElem_of_mem hrow
      have hip : i < pairs.length := by rw [h2.length_eq]; exact hi
      have hs := h2.get hip hi
      simp only [List.get_eq_getElem] at hs
      exact secRow_valid_sep hg.loops (h3 _ (List.getElem_mem hip)) hs ht hinc
  have hadd : (offerAll sv rows' (offerAll sv rows { st with result := .didNotFind })).added = st.added ++ (rows ++ rows').filter sv.efficacious := by
    rw [offerAll_added, offerAll_added, List.filter_append, List.append_assoc]
  refine ⟨_, rows, rows', by rw [sepalp, heq, hr1, Res.ok_bind, hr1'], ?_, hadd, hr2, hr2', ?_, ?_⟩
  · rw [offerAll_offered, offerAll_offered]
  · rw [hadd, ← offerAll_append, offerAll_result_eq _ _ _ rfl]
    simp only [List.mem_append, List.append_right_eq_self, List.filter_append, List.append_eq_nil_iff, List.filter_eq_nil_iff, Bool.not_eq_true]
    exact ⟨fun h => ⟨fun a ha => h a (Or.inl ha), fun a ha => h a (Or.inr ha)⟩, fun h r hr => hr.elim (h.1 r) (h.2 r)⟩
  · intro row hrow
    rcases List.mem_append.1 hrow with h | h
    · exact hr3 row h
    · exact hr3' row h

/-- The rows that a subtour elimination round should find: for every set without the root and every vertex in it. -/
def SubtourRowsHold (g : Graph) (x : Nat → Int) (root : Nat) : Prop :=
  ∀ (T : Nat → Bool) (v : Nat), v < g.n → T root = false → T v = true → 2 * loopVal g x v ≤ edgeSum g x (crosses g T)

theorem aligned_of_one_component {g : Graph} (hg : g.WF) {order : List Nat} {x : Nat → Int} {root : Nat} {rc : List Nat} (hrc : IsRootComponent g x root rc)
    (h : ∀ v < g.n, ¬ SupportConnected g x root v → ∀ u < g.n, u ≠ v → ¬ SupportConnected g x v u) : Aligned g order x rc := by
  have hall : ∀ e ∈ getSolutionEdges g order fun e => decide (0 < x e), edgeIn g rc e = true := by
    intro e he
    obtain ⟨-, hlt, hne, hpos⟩ := mem_solutionEdges.1 he
    have hend : g.edges[e]? = some (endsOf g e) := by simp [endsOf, hlt]
    have hwf := hg _ (List.mem_of_getElem? hend)
    have hadj : SupportAdj g x (endsOf g e).1 (endsOf g e).2 := ⟨e, Or.inl hend, by simpa using hpos⟩
    have h1 : SupportConnected g x root (endsOf g e).1 := by
      by_contra hc
      exact h _ hwf.1 hc _ hwf.2 (Ne.symm hne) (.single hadj)
    rw [edgeIn]
    simp only [Bool.and_eq_true, List.contains_eq_mem, decide_eq_true_eq]
    exact ⟨(hrc _).2 ⟨hwf.1, h1⟩, (hrc _).2 ⟨hwf.2, h1.tail hadj⟩⟩
  exact List.Pairwise.imp_of_mem (fun he _ _ _ => hall _ he) (List.pairwise_of_forall (R := fun _ _ => True) fun _ _ => trivial)

section Complete

variable (sv : Solver) {g : Graph} (hg : SimpleWithLoops g) {flow : MaxFlow} (hflow : FlowSpec flow) {visit : Visit} (hvisit : VisitSpec visit)
    {order : List Nat} (ho : order.Perm (List.range g.edges.length)) {q : Int} (hq : 0 < q) {x : Nat → Int} (hx : ∀ e < g.edges.length, 0 ≤ x e)
    {root m : Nat} (hroot : root < g.n) {ids : List Nat} (hc : IsComponents g x m ids) {drows : List Row}
    (hd : degreeRows g = .ok drows) (hsat : ∀ row ∈ drows, row.Sat x) (hvis : loopVal g x root = q)

include hg hflow hvisit ho hq hx hroot hc hd hsat hvis

/-- **C68.** With both methods switched on, a call that offers no row proves that the solution satisfies every subtour elimination row:
neither the order of the edges nor the rounding of the capacities nor the skipped targets matter then. -/
theorem C68_complete (hle : ∀ v < g.n, loopVal g x v ≤ q) (st : SepState) :
    ∃ st' k l, separateSubtour sv g g.hasVar flow visit order q x root m ids true true st = .ok (st', k, l) ∧ (k = 0 ∧ l = 0 → SubtourRowsHold g x root) := by
  obtain ⟨rc, hrc, heq⟩ := separateSubtour_eq sv flow visit order q x hroot hc
  obtain ⟨st1, rows, targets, h1, -, -, h2, -, h3, -⟩ := C36_separates sv hg hroot hx hd hsat hc st
  obtain ⟨loop, hloop⟩ := List.mem_iff_getElem?.1 (hg.loops root hroot)
  have hlv : loopVal g x root = x loop := by rw [loopVal, hg.edgeIdx (Or.inl hloop : EdgeBetween g loop root root)]; rfl
  obtain ⟨drows', d1, d2⟩ := degreeRows_sat hg x
  have hd' := hd
  rw [hd'] at d1
  cases d1
  have hdeg := d2.1 hsat
  have hself : ∀ es s, visit es s s = true := fun es s => (hvisit es s s).2 .refl
  obtain ⟨⟨st2, l⟩, h4⟩ := C66_defined sv hg flow hself ho q x hroot hrc hx hd hsat hloop (by omega) st1
  have hcon := (C66_undefined_iff sv hg.wf hg.loops flow hself ho q x hrc st1).2.1 ⟨_, h4⟩
  refine ⟨st2, rows.length, l, ?_, ?_⟩
  · rw [heq, if_pos rfl, h1, Res.ok_bind, if_pos rfl, h4, Res.ok_bind]
  · rintro ⟨hk, rfl⟩ T v hv hTr hTv
    have hnone : ∀ v < g.n, ¬ SupportConnected g x root v → ∀ u < g.n, u ≠ v → ¬ SupportConnected g x v u := by
      intro v hv hnc u hu huv hcvu
      have : v ∈ targets := (h3 v).2 ⟨hv, hnc, u, hu, huv, hcvu⟩
      have : targets = [] := List.length_eq_zero_iff.1 (by omega)
      simp_all
    by_cases hcv : SupportConnected g x root v
    · obtain ⟨st', k, h5, h6⟩ := C65_no_row sv hg hflow hvisit ho hq hx hrc hcon (aligned_of_one_component hg.wf hrc hnone) st1
      rw [h4] at h5
      cases h5
      have := h6 rfl T hTr ⟨v, hTv, hcv⟩
      have := hle v hv
      omega
    · have hz : edgeSum g x (incident g v) = 0 := by
        apply edgeSum_zero
        intro e he hi
        have hend : g.edges[e]? = some (endsOf g e) := by simp [endsOf, he]
        simp only [incident, hend] at hi
        simp only [ne_eq, decide_not, Bool.and_eq_true, Bool.not_eq_true', decide_eq_false_iff_not, Bool.or_eq_true, beq_iff_eq] at hi
        by_contra hne
        have hpos : 0 < x e := by have := hx e he; omega
        have hwf := hg.wf _ (List.mem_of_getElem? hend)
        rcases hi.2 with h | h
        · exact hnone v hv hcv _ hwf.2 (fun hcc => hi.1 (by rw [h, hcc])) (.single ⟨e, Or.inl (by rw [← h]; exact hend), hpos⟩)
        · exact hnone v hv hcv _ hwf.1 (fun hcc => hi.1 (by rw [h, hcc])) (.single ⟨e, Or.inr (by rw [← h]; exact hend), hpos⟩)
      have := hdeg v hv
      have := edgeSum_nonneg hx (crosses g T)
      omega

/-- **C68.** If every vertex is visited with value 0 or 1 and the capacities are exact, a call with both methods offers no row iff the solution
satisfies every subtour elimination row. -/
theorem C68_exact (hbin : ∀ v < g.n, loopVal g x v = 0 ∨ loopVal g x v = q) (hex : ∀ e < g.edges.length, q ∣ flowMultiplier * x e) (st : SepState) :
    ∃ st' k l, separateSubtour sv g g.hasVar flow visit order q x root m ids true true st = .ok (st', k, l) ∧ (k = 0 ∧ l = 0 ↔ SubtourRowsHold g x root) := by
  obtain ⟨st', k, l, h1, h2⟩ := C68_complete sv hg hflow hvisit ho hq hx hroot hc hd hsat hvis
    (fun v hv => by rcases hbin v hv with h | h <;> omega) st
  refine ⟨st', k, l, h1, h2, fun hS => ?_⟩
  obtain ⟨rc, hrc, heq⟩ := separateSubtour_eq sv flow visit order q x hroot hc
  obtain ⟨st1, rows, targets, h3, -, -, h4, -, h5, -⟩ := C36_separates sv hg hroot hx hd hsat hc st
  obtain ⟨drows', d1, d2⟩ := degreeRows_sat hg x
  have hd' := hd
  rw [hd'] at d1
  cases d1
  have hdeg := d2.1 hsat
  -- a vertex with a positive edge has a positive value
  have hpos : ∀ v < g.n, (∃ u, u ≠ v ∧ SupportConnected g x v u) → loopVal g x v = q := by
    rintro v hv ⟨u, huv, hcu⟩
    obtain ⟨z, e, he, hz, hp⟩ := support_edge hcu (Ne.symm huv)
    have hlt : e < g.edges.length := by rcases he with he | he <;> exact (List.getElem?_eq_some_iff.1 he).1
    have := edgeSum_nonneg_ge hx (P := incident g v) hlt (by rcases he with he | he <;> simp [incident, he, hz, Ne.symm hz])
    have := hdeg v hv
    rcases hbin v hv with h | h <;> omega
  have hnone : ∀ v < g.n, ¬ SupportConnected g x root v → ∀ u < g.n, u ≠ v → ¬ SupportConnected g x v u := by
    intro v hv hnc u hu huv hcvu
    have hvq := hpos v hv ⟨u, huv, hcvu⟩
    classical
    have := hS (fun w => decide (SupportConnected g x v w)) v hv (by simpa using fun h => hnc (supportConnected_symm h))
      (decide_eq_true (Relation.ReflTransGen.refl : SupportConnected g x v v))
    rw [edgeSum_zero] at this
    · omega
    · intro e he hcr
      by_contra hne
      have hp : 0 < x e := by have := hx e he; omega
      have hend : g.edges[e]? = some (endsOf g e) := by simp [endsOf, he]
      have hadj : SupportAdj g x (endsOf g e).1 (endsOf g e).2 := ⟨e, Or.inl hend, hp⟩
      rw [crosses_eq he] at hcr
      have : SupportConnected g x v (endsOf g e).1 ↔ SupportConnected g x v (endsOf g e).2 :=
        ⟨fun h => h.tail hadj, fun h => h.tail (supportAdj_symm hadj)⟩
      simp [this] at hcr
  have hrows : rows.length = 0 := by
    rw [h4, List.length_eq_zero_iff, List.eq_nil_iff_forall_not_mem]
    intro v hv
    obtain ⟨hv1, hv2, u, hu, huv, hcvu⟩ := (h5 v).1 hv
    exact hnone v hv1 hv2 u hu huv hcvu
  have hself : ∀ es s, visit es s s = true := fun es s => (hvisit es s s).2 .refl
  obtain ⟨loop, hloop⟩ := List.mem_iff_getElem?.1 (hg.loops root hroot)
  have hlv : loopVal g x root = x loop := by rw [loopVal, hg.edgeIdx (Or.inl hloop : EdgeBetween g loop root root)]; rfl
  obtain ⟨r, h6⟩ := C66_defined sv hg flow hself ho q x hroot hrc hx hd hsat hloop (by omega) st1
  have hcon := (C66_undefined_iff sv hg.wf hg.loops flow hself ho q x hrc st1).2.1 ⟨_, h6⟩
  obtain ⟨st2, l', h7, h8⟩ := C65_no_row_iff sv hg hflow hvisit ho hq hx hrc hcon (aligned_of_one_component hg.wf hrc hnone) hex st1
  rw [heq, if_pos rfl, h3, Res.ok_bind, if_pos rfl, h7, Res.ok_bind] at h1
  have hl : l' = 0 := by
    rw [h8]
    rintro T hTr ⟨v, hTv, hcv⟩
    have hvr : root ≠ v := by rintro rfl; rw [hTr] at hTv; simp at hTv
    have hvn : v < g.n := by
      obtain ⟨z, e, he, -⟩ := support_edge (supportConnected_symm hcv) (Ne.symm hvr)
      rcases he with he | he
      · exact (hg.wf _ (List.mem_of_getElem? he)).1
      · exact (hg.wf _ (List.mem_of_getElem? he)).2
    have := hS T v hvn hTr hTv
    rwa [hpos v hvn ⟨root, hvr, supportConnected_symm hcv⟩] at this
  simp only [Res.ok.injEq, Prod.mk.injEq] at h1
  omega

end Complete

/-- The prism and the cycle are the components. -/
theorem exPrism_components : IsComponents exPrism exPrismSol 2 [0, 0, 0, 0, 0, 0, 1, 1, 1, 1, 1, 1, 1, 1] := by
  refine isComponents_check rfl (by decide) (by decide) (by decide +kernel) (fun v => if v < 6 then 0 else 6) (by decide +kernel) ?_
  have h2 : IsRootComponent exPrism exPrismSol 6 [6, 7, 8, 9, 10, 11, 12, 13] :=
    isRootComponent_check (by decide +kernel) (by decide +kernel) (by decide +kernel)
  intro v hv
  by_cases h : v < 6
  · rw [if_pos h]
    exact supportConnected_symm ((exPrism_component v).1 ((by decide : ∀ v < 6, v ∈ [0, 1, 2, 3, 5, 4]) v h)).2
  · rw [if_neg h]
    exact supportConnected_symm ((h2 v).1 ((by decide : ∀ v < 14, ¬ v < 6 → v ∈ [6, 7, 8, 9, 10, 11, 12, 13]) v hv h)).2

/-- The hypotheses of `C68_exact` hold for the prism; the call offers rows. -/
example : ∃ (flow : MaxFlow) (visit : Visit) (st' : SepState) (k l : Nat), FlowSpec flow ∧ VisitSpec visit ∧
    separateSubtour exSolver exPrism exPrism.hasVar flow visit exPrismOrder 2 exPrismSol 0 2 [0, 0, 0, 0, 0, 0, 1, 1, 1, 1, 1, 1, 1, 1] true true exState =
      .ok (st', k, l) ∧ ¬ (k = 0 ∧ l = 0) := by
  have hg : SimpleWithLoops exPrism := by decide +kernel
  obtain ⟨flow, hflow⟩ := exists_flowSpec
  obtain ⟨visit, hvisit⟩ := exists_visitSpec
  obtain ⟨drows, hd1, hd2⟩ := degreeRows_sat hg exPrismSol
  have hdeg : ∀ v < exPrism.n, edgeSum exPrism exPrismSol (incident exPrism v) = 2 * loopVal exPrism exPrismSol v := by decide +kernel
  obtain ⟨st', k, l, h1, h2⟩ := C68_exact exSolver hg hflow hvisit (order := exPrismOrder) (by decide +kernel) (q := 2) (by decide)
    (by decide +kernel) (root := 0) (by decide) exPrism_components hd1 (hd2.2 hdeg) (by decide +kernel) (by decide +kernel) (by decide +kernel) exState
  refine ⟨flow, visit, st', k, l, hflow, hvisit, h1, fun h => ?_⟩
  have := h2.1 h (fun v => decide (v ∈ [3, 4, 5])) 3 (by decide) (by decide) (by decide)
  revert this
  decide +kernel

/-- The same for a round and for `C68_complete`. -/
example : ∃ (flow : MaxFlow) (visit : Visit) (st' : SepState) (k l : Nat), FlowSpec flow ∧ VisitSpec visit ∧
    sepalp exSolver exPrism exPrism.hasVar flow visit exPrismOrder 2 exPrismSol 0 2 [0, 0, 0, 0, 0, 0, 1, 1, 1, 1, 1, 1, 1, 1] true true exState =
      .ok (st', k, l) := by
  have hg : SimpleWithLoops exPrism := by decide +kernel
  obtain ⟨flow, hflow⟩ := exists_flowSpec
  obtain ⟨visit, hvisit⟩ := exists_visitSpec
  obtain ⟨drows, hd1, hd2⟩ := degreeRows_sat hg exPrismSol
  have h := C68_complete exSolver hg hflow hvisit (order := exPrismOrder) (by decide +kernel) (q := 2) (by decide)
    (by decide +kernel) (root := 0) (by decide) exPrism_components hd1 (hd2.2 (by decide +kernel)) (by decide +kernel) (by decide +kernel) exState
  obtain ⟨st', rows, rows', h1, -⟩ := C68_round exSolver hg flow (fun es s => (hvisit es s s).2 .refl) (order := exPrismOrder) (by decide +kernel) 2
    (root := 0) (by decide) exPrism_components ⟨1, by decide, ((exPrism_component 1).1 (by decide)).2⟩ true true exState
  exact ⟨flow, visit, st', _, _, hflow, hvisit, h1⟩

end Pctsp
