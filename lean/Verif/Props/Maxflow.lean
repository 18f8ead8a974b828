import Verif.Lemmas.MaxflowBits
import Verif.Lemmas.FlowExists
import Verif.Props.Cuts

/-!
# Properties C40, C64-C68: separation by minimum cuts
-/

namespace Pctsp

/-- A round for any answers of the flow function. -/
theorem maxflow_round (sv : Solver) {g : Graph} (hg : g.WF) (hl : ∀ v < g.n, (v, v) ∈ g.edges) (flow : MaxFlow) {visit : Visit}
    (hself : ∀ es s, visit es s s = true) (order : List Nat) (q : Int) (x : Nat → Int) {root : Nat} {rc : List Nat}
    (hroot : root ∈ keptVertices g order x rc) (st : SepState) :
    ∃ (ne : List (Nat × Nat)) (des : List ((Nat × Nat) × Int)) (sr : Nat) (pairs : List (List Nat × Nat)) (rows : List Row),
      List.Forall₂ (Names (keptVertices g order x rc)) ((keptEdges g order x rc).map (endsOf g)) ne ∧
      capacityEdges ne (getCapacityVectorFromSol g order q x) = .ok des ∧ (keptVertices g order x rc)[sr]? = some root ∧
      separateMaxflowMincut sv g g.hasVar flow visit order q x root rc st = .ok (offerAll sv rows st, rows.length) ∧
      List.Forall₂ (fun p row => SecRow g p.1 p.2 row) pairs rows ∧ (∀ p ∈ pairs, GoodPair g root p) ∧
      (∀ p ∈ pairs, ∃ t < (keptVertices g order x rc).length, t ≠ sr ∧
        FoundAt flow visit des (keptVertices g order x rc).length sr (keptVertices g order x rc) t p) ∧
      ((∀ t < (keptVertices g order x rc).length, t ≠ sr → 2 * flowMultiplier ≤ (flow des sr t).value) → rows = []) ∧
      ((∀ t < (keptVertices g order x rc).length, t ≠ sr →
          getUnreachableVertices visit (keptVertices g order x rc).length des sr (flow des sr t).residual ≠ []) → rows = [] →
        ∀ t < (keptVertices g order x rc).length, t ≠ sr → 2 * flowMultiplier ≤ (flow des sr t).value) := by
  obtain ⟨ne, des, -, h1, h2, -, -, h3⟩ := separateMaxflow_unfold sv (g := g) flow visit order q x root rc st
  obtain ⟨sr, hsr⟩ := List.mem_iff_getElem?.1 hroot
  have hD : (keptVertices g order x rc).Nodup := firstSeen_nodup _
  obtain ⟨pairs, rows, s', g1, g2, g3, g4, g5, g6, g7, g8⟩ := maxflowTargetLoop_eq sv flow visit des (keptVertices g order x rc).length sr hl hD
    (keptVertices_lt hg) rfl hsr (fun es => hself es sr) (List.range (keptVertices g order x rc).length)
    { sep := st, count := 0, done := upd (fun _ => false) sr true }
  have hdone : ∀ t, upd (fun _ => false) sr true t = false ↔ t ≠ sr := by intro t; unfold upd; split <;> simp_all
  refine ⟨ne, des, sr, pairs, rows, h1, h2, hsr, ?_, g4, g5, ?_, ?_, ?_⟩
  · rw [h3 sr hsr, g1, Res.ok_bind, g2, g3]; simp [Res.pure_eq]
  · intro p hp
    obtain ⟨t, k1, k2, k3⟩ := g6 p hp
    exact ⟨t, List.mem_range.1 k1, (hdone t).1 k2, k3⟩
  · intro h
    exact g7 fun t ht hd => h t (List.mem_range.1 ht) ((hdone t).1 hd)
  · intro h hr t ht htr
    exact g8 (fun t ht hd _ => h t (List.mem_range.1 ht) ((hdone t).1 hd)) hr t (List.mem_range.2 ht) ((hdone t).2 htr)

/-- The root has a positive edge into its component. -/
theorem root_kept {g : Graph} (hg : g.WF) {order : List Nat} (ho : order.Perm (List.range g.edges.length)) {x : Nat → Int} {root : Nat}
    {rc : List Nat} (hrc : IsRootComponent g x root rc) : root ∈ keptVertices g order x rc ↔ ∃ v, v ≠ root ∧ SupportConnected g x root v := by
  constructor
  · intro h
    obtain ⟨e, he, hr⟩ := mem_keptVertices.1 h
    obtain ⟨-, hlt, hne, hpos, -, -⟩ := mem_keptEdges.1 he
    have hend : g.edges[e]? = some (endsOf g e) := by simp [endsOf, hlt]
    rcases hr with hr | hr
    · exact ⟨(endsOf g e).2, by rw [hr]; exact Ne.symm hne, .single ⟨e, Or.inl (by rw [hr]; exact hend), hpos⟩⟩
    · exact ⟨(endsOf g e).1, by rw [hr]; exact hne, .single ⟨e, Or.inr (by rw [hr]; exact hend), hpos⟩⟩
  · rintro ⟨v, hv, hc⟩
    exact mem_keptVertices_of_connected hg ho hrc .refl hc (Ne.symm hv)

/-! ### C64 -/

/-- **C64.** Whatever the flow function answers, every row that the round offers holds for every tour from the root, and the number that is
reported is the number of rows. -/
theorem C64_rows_valid (sv : Solver) {g : Graph} (hg : g.WF) (hl : ∀ v < g.n, (v, v) ∈ g.edges) (flow : MaxFlow) {visit : Visit}
    (hself : ∀ es s, visit es s s = true) {order : List Nat} (ho : order.Perm (List.range g.edges.length)) (q : Int) (x : Nat → Int) {root : Nat}
    {rc : List Nat} (hrc : IsRootComponent g x root rc) (hroot : ∃ v, v ≠ root ∧ SupportConnected g x root v) (st : SepState) :
    ∃ st' k rows, separateMaxflowMincut sv g g.hasVar flow visit order q x root rc st = .ok (st', k) ∧ st'.offered = st.offered ++ rows ∧
      st'.added = st.added ++ rows.filter sv.efficacious ∧ k = rows.length ∧
      ∀ row ∈ rows, ∀ t es x, IsTour g root t → IncidenceOf g t es x → row.Sat x := by
  obtain ⟨ne, des, sr, pairs, rows, -, -, -, h1, h2, h3, -⟩ :=
    maxflow_round sv hg hl flow hself order q x ((root_kept hg ho hrc).2 hroot) st
  refine ⟨_, _, rows, h1, offerAll_offered _ _ _, offerAll_added _ _ _, rfl, ?_⟩
  intro row hrow t es x ht hinc
  obtain ⟨i, hi, rfl⟩ := List.getElem_of_mem hrow
  have hip : i < pairs.length := by rw [h2.length_eq]; exact hi
  have hs := h2.get hip hi
  simp only [List.get_eq_getElem] at hs
  exact secRow_valid_sep hl (h3 _ (List.getElem_mem hip)) hs ht hinc

/-! ### C66 -/

/-- **C66.** The round is undefined iff the root is isolated in the support (a lookup of an unknown vertex). -/
theorem C66_undefined_iff (sv : Solver) {g : Graph} (hg : g.WF) (hl : ∀ v < g.n, (v, v) ∈ g.edges) (flow : MaxFlow) {visit : Visit}
    (hself : ∀ es s, visit es s s = true) {order : List Nat} (ho : order.Perm (List.range g.edges.length)) (q : Int) (x : Nat → Int) {root : Nat}
    {rc : List Nat} (hrc : IsRootComponent g x root rc) (st : SepState) :
    ((separateMaxflowMincut sv g g.hasVar flow visit order q x root rc st).isUb = true ↔ ∀ v, SupportConnected g x root v → v = root) ∧
    ((∃ r, separateMaxflowMincut sv g g.hasVar flow visit order q x root rc st = .ok r) ↔ ∃ v, v ≠ root ∧ SupportConnected g x root v) := by
  by_cases h : root ∈ keptVertices g order x rc
  · obtain ⟨ne, des, sr, pairs, rows, -, -, -, h1, -⟩ := maxflow_round sv hg hl flow hself order q x h st
    have h' := (root_kept hg ho hrc).1 h
    rw [h1]
    refine ⟨⟨fun hc => by simp [Res.isUb] at hc, fun hc => ?_⟩, fun _ => h', fun _ => ⟨_, rfl⟩⟩
    obtain ⟨v, hv, hcv⟩ := h'
    exact absurd (hc v hcv) hv
  · obtain ⟨ne, des, -, -, -, -, h3, -⟩ := separateMaxflow_unfold sv (g := g) flow visit order q x root rc st
    have h1 := h3 h
    have h' : ¬ ∃ v, v ≠ root ∧ SupportConnected g x root v := fun hc => h ((root_kept hg ho hrc).2 hc)
    refine ⟨⟨fun _ v hv => ?_, fun _ => h1⟩, ⟨?_, fun hc => absurd hc h'⟩⟩
    · by_contra hne; exact h' ⟨v, hne, hv⟩
    · rintro ⟨r, hr⟩; rw [hr] at h1; simp [Res.isUb] at h1

/-- **C66.** It is never undefined for a solution of the degree rows that visits the root. -/
theorem C66_defined (sv : Solver) {g : Graph} (hg : SimpleWithLoops g) (flow : MaxFlow) {visit : Visit}
    (hself : ∀ es s, visit es s s = true) {order : List Nat} (ho : order.Perm (List.range g.edges.length)) (q : Int) (x : Nat → Int) {root : Nat}
    (hr : root < g.n) {rc : List Nat} (hrc : IsRootComponent g x root rc) (hx : ∀ e < g.edges.length, 0 ≤ x e) {drows : List Row}
    (hd : degreeRows g = .ok drows) (hsat : ∀ row ∈ drows, row.Sat x) {loop : Nat} (hloop : g.edges[loop]? = some (root, root)) (hvis : 0 < x loop)
    (st : SepState) : ∃ r, separateMaxflowMincut sv g g.hasVar flow visit order q x root rc st = .ok r := by
  rw [(C66_undefined_iff sv hg.wf hg.loops flow hself ho q x hrc st).2]
  obtain ⟨drows', k1, k2⟩ := degreeRows_sat hg x
  rw [hd] at k1
  cases k1
  have hdeg := k2.1 hsat root hr
  have hlv : loopVal g x root = x loop := by rw [loopVal, hg.edgeIdx (Or.inl hloop : EdgeBetween g loop root root)]; rfl
  rw [hlv] at hdeg
  by_contra hcon
  have : edgeSum g x (incident g root) = 0 := by
    apply edgeSum_zero
    intro e he hi
    have hend : g.edges[e]? = some (endsOf g e) := by simp [endsOf, he]
    simp only [incident, hend] at hi
    simp only [ne_eq, decide_not, Bool.and_eq_true, Bool.not_eq_true', decide_eq_false_iff_not, Bool.or_eq_true, beq_iff_eq] at hi
    by_contra hne
    have hpos : 0 < x e := by have := hx e he; omega
    apply hcon
    rcases hi.2 with h | h
    · exact ⟨(endsOf g e).2, fun hc => hi.1 (by rw [h, hc]), .single ⟨e, Or.inl (by rw [← h]; exact hend), hpos⟩⟩
    · exact ⟨(endsOf g e).1, fun hc => hi.1 (by rw [h, hc]), .single ⟨e, Or.inr (by rw [← h]; exact hend), hpos⟩⟩
  omega

/-! ### C40, C65 -/

/-- **C40.** If no support edge outside of the root component comes before one inside, every edge of the network has the capacity of its own
value. -/
theorem C40_aligned {g : Graph} {order : List Nat} (q : Int) {x : Nat → Int} {rc : List Nat} (hal : Aligned g order x rc)
    (ne : List (Nat × Nat)) (hlen : ne.length = (keptEdges g order x rc).length) :
    ∃ des, capacityEdges ne (getCapacityVectorFromSol g order q x) = .ok des ∧ des.length = 4 * ne.length ∧
      ∀ (i e : Nat) (p : Nat × Nat), ne[i]? = some p → (keptEdges g order x rc)[i]? = some e →
        des[4 * i]? = some (p, capacityOf q (x e)) ∧ des[4 * i + 1]? = some ((p.2, p.1), capacityOf q (x e)) := by
  obtain ⟨rest, hr⟩ := pairwise_filter_prefix (edgeIn g rc) _ hal
  have hcv : getCapacityVectorFromSol g order q x = ((keptEdges g order x rc).map fun e => capacityOf q (x e)) ++ rest.map fun e => capacityOf q (x e) := by
    rw [getCapacityVectorFromSol, hr, List.map_append]; rfl
  rw [hcv]
  generalize keptEdges g order x rc = kept at *
  generalize (rest.map fun e => capacityOf q (x e)) = cs
  clear hr hcv hal
  induction ne generalizing kept with
  | nil => exact ⟨[], rfl, rfl, by simp⟩
  | cons p ne ih =>
    match kept, hlen with
    | e :: kept, hlen =>
      obtain ⟨des, h1, h2, h3⟩ := ih kept (by simpa using hlen)
      refine ⟨_, by rw [List.map_cons, List.cons_append, capacityEdges, h1, Res.ok_bind]; rfl, by simp [h2]; omega, ?_⟩
      intro i e' p' hi he
      cases i with
      | zero => simp at hi he; subst hi he; simp
      | succ i =>
        have := h3 i e' p' (by simpa using hi) (by simpa using he)
        rw [show 4 * (i + 1) = 4 * i + 4 by omega, show 4 * i + 4 + 1 = 4 * i + 1 + 4 by omega]
        simpa using this

/-- **C65.** With aligned capacities: if the round offers no row, then every set that separates the root from a vertex of its component is crossed
by a value of at least 2. -/
theorem C65_no_row (sv : Solver) {g : Graph} (hg : SimpleWithLoops g) {flow : MaxFlow} (hflow : FlowSpec flow) {visit : Visit} (hvisit : VisitSpec visit)
    {order : List Nat} (ho : order.Perm (List.range g.edges.length)) {q : Int} (hq : 0 < q) {x : Nat → Int} (hx : ∀ e < g.edges.length, 0 ≤ x e)
    {root : Nat} {rc : List Nat} (hrc : IsRootComponent g x root rc) (hroot : ∃ v, v ≠ root ∧ SupportConnected g x root v)
    (hal : Aligned g order x rc) (st : SepState) :
    ∃ st' k, separateMaxflowMincut sv g g.hasVar flow visit order q x root rc st = .ok (st', k) ∧ (k = 0 →
      ∀ T : Nat → Bool, T root = false → (∃ v, T v = true ∧ SupportConnected g x root v) → 2 * q ≤ edgeSum g x (crosses g T)) := by
  obtain ⟨ne, des, sr, pairs, rows, h1, h2, h3, h4, h5, h6, h7, h8, h9⟩ := maxflow_round sv hg.wf hg.loops flow
    (fun es s => (hvisit es s s).2 .refl) order q x ((root_kept hg.wf ho hrc).2 hroot) st
  refine ⟨_, _, h4, ?_⟩
  intro hk T hT ⟨v, hTv, hcv⟩
  have hrows : rows = [] := List.length_eq_zero_iff.1 hk
  have hvr : v ≠ root := by rintro rfl; rw [hT] at hTv; simp at hTv
  obtain ⟨t, ht⟩ := List.mem_iff_getElem?.1 (mem_keptVertices_of_connected hg.wf ho hrc hcv (supportConnected_symm hcv) hvr)
  have htl := (List.getElem?_eq_some_iff.1 ht).1
  have htr : t ≠ sr := by rintro rfl; rw [h3] at ht; simp at ht; exact hvr ht.symm
  have hall := h9 (by
    intro t ht htr hempty
    have hmf := hflow _ _ _ h2 (by
      intro c hc
      rw [getCapacityVectorFromSol, List.mem_map] at hc
      obtain ⟨e, he, rfl⟩ := hc
      rw [capacityOf_eq hq]
      have := hx e (mem_solutionEdges.1 he).2.1
      exact Int.ediv_nonneg (Int.mul_nonneg (by decide) this) (by omega)) sr t (Ne.symm htr)
    have hin : t ∈ getUnreachableVertices visit (keptVertices g order x rc).length des sr (flow des sr t).residual := by
      rw [getUnreachableVertices, List.mem_filter, List.mem_range]
      refine ⟨ht, ?_⟩
      have : visit (positiveEdges des (flow des sr t).residual) sr t = false := by
        rw [Bool.eq_false_iff]; intro hc; exact hmf.noPath ((hvisit _ _ _).1 hc)
      simp [this]
    rw [hempty] at hin; simp at hin) hrows t htl htr
  obtain ⟨-, -, -, hle⟩ := flow_value hq hx hal hflow hvisit h1 h2 h3 ht hvr
  have hcut := hle T hT hTv
  have hcap : keptCut g (keptEdges g order x rc) (fun e => q * capacityOf q (x e)) T ≤ keptCut g (keptEdges g order x rc) (fun e => flowMultiplier * x e) T := by
    refine keptCut_le fun e he => ?_
    rw [capacityOf_eq hq]
    exact Int.mul_ediv_self_le (by omega)
  rw [keptCut_mul, keptCut_mul] at hcap
  have hsum := keptCut_le_edgeSum (rc := rc) ho hx T
  have e1 : q * (2 * flowMultiplier) ≤ q * keptCut g (keptEdges g order x rc) (fun e => capacityOf q (x e)) T :=
    Int.mul_le_mul_of_nonneg_left (by omega) (by omega)
  have e2 : flowMultiplier = 1000000 := rfl
  rw [e2] at e1 hcap
  omega

/-- **C65.** If moreover the capacities are exact, the round offers no row iff every such set is crossed by a value of at least 2. -/
theorem C65_no_row_iff (sv : Solver) {g : Graph} (hg : SimpleWithLoops g) {flow : MaxFlow} (hflow : FlowSpec flow) {visit : Visit} (hvisit : VisitSpec visit)
    {order : List Nat} (ho : order.Perm (List.range g.edges.length)) {q : Int} (hq : 0 < q) {x : Nat → Int} (hx : ∀ e < g.edges.length, 0 ≤ x e)
    {root : Nat} {rc : List Nat} (hrc : IsRootComponent g x root rc) (hroot : ∃ v, v ≠ root ∧ SupportConnected g x root v)
    (hal : Aligned g order x rc) (hex : ∀ e < g.edges.length, q ∣ flowMultiplier * x e) (st : SepState) :
    ∃ st' k, separateMaxflowMincut sv g g.hasVar flow visit order q x root rc st = .ok (st', k) ∧ (k = 0 ↔
      ∀ T : Nat → Bool, T root = false → (∃ v, T v = true ∧ SupportConnected g x root v) → 2 * q ≤ edgeSum g x (crosses g T)) := by
  obtain ⟨st', k, h4, h5⟩ := C65_no_row sv hg hflow hvisit ho hq hx hrc hroot hal st
  refine ⟨st', k, h4, h5, fun hT => ?_⟩
  obtain ⟨ne, des, sr, pairs, rows, h1, h2, h3, h4', -, -, -, h8, -⟩ := maxflow_round sv hg.wf hg.loops flow
    (fun es s => (hvisit es s s).2 .refl) order q x ((root_kept hg.wf ho hrc).2 hroot) st
  rw [h4] at h4'
  have hk : k = rows.length := by cases h4'; rfl
  rw [hk, h8 ?_]; rfl
  intro t ht htr
  obtain ⟨v, hv⟩ : ∃ v, (keptVertices g order x rc)[t]? = some v := ⟨_, List.getElem?_eq_getElem ht⟩
  have hvr : v ≠ root := by rintro rfl; exact htr (nodup_getElem?_inj (firstSeen_nodup _) hv h3)
  obtain ⟨k1, k2, k3, -⟩ := flow_value hq hx hal hflow hvisit h1 h2 h3 hv hvr
  have hvm : v ∈ keptVertices g order x rc := List.mem_of_getElem? hv
  have hcv := ((hrc v).1 (keptVertices_subset v hvm)).2
  have hcut := hT _ k2 ⟨v, k3, hcv⟩
  rw [← keptCut_eq_of_subset hg.wf ho hx hrc] at hcut
  · have hcap : keptCut g (keptEdges g order x rc) (fun e => flowMultiplier * x e) (cutSet flow visit des sr (keptVertices g order x rc) t) ≤
        keptCut g (keptEdges g order x rc) (fun e => q * capacityOf q (x e)) (cutSet flow visit des sr (keptVertices g order x rc) t) := by
      refine keptCut_le fun e he => ?_
      rw [capacityOf_eq hq, Int.mul_ediv_cancel' (hex e (mem_keptEdges.1 he).2.1)]
    rw [keptCut_mul, keptCut_mul, ← k1] at hcap
    have e1 : flowMultiplier * (2 * q) ≤ q * (flow des sr t).value := by
      refine Int.le_trans ?_ hcap
      exact Int.mul_le_mul_of_nonneg_left hcut (by decide)
    rw [show flowMultiplier * (2 * q) = q * (2 * flowMultiplier) by rw [Int.mul_comm 2 q, Int.mul_comm, Int.mul_assoc]] at e1
    exact Int.le_of_mul_le_mul_left e1 hq
  · intro w hw
    rw [cutSet, decide_eq_true_eq, List.mem_map] at hw
    obtain ⟨u, hu, rfl⟩ := hw
    rw [getUnreachableVertices, List.mem_filter, List.mem_range] at hu
    apply keptVertices_subset (order := order) (x := x) (g := g)
    rw [List.getD_eq_getElem?_getD, List.getElem?_eq_getElem hu.1]; exact List.getElem_mem hu.1

/-! ### C40: the witness -/

/-- No row is offered if every cut of the network that the code builds is at least 2. -/
theorem no_row_of_cuts (sv : Solver) {g : Graph} (hg : SimpleWithLoops g) {flow : MaxFlow} (hflow : FlowSpec flow) {visit : Visit} (hvisit : VisitSpec visit)
    {order : List Nat} {q : Int} (hq : 0 < q) {x : Nat → Int} (hx : ∀ e < g.edges.length, 0 ≤ x e) {root : Nat} {rc : List Nat}
    (hroot : root ∈ keptVertices g order x rc) (st : SepState)
    (hcut : ∀ T : Nat → Bool, T root = false → (∃ v ∈ keptVertices g order x rc, T v = true) →
      2 * flowMultiplier ≤ crossSum (((keptEdges g order x rc).map (endsOf g)).zip (getCapacityVectorFromSol g order q x)) T) :
    separateMaxflowMincut sv g g.hasVar flow visit order q x root rc st = .ok (st, 0) := by
  obtain ⟨ne, des, sr, pairs, rows, h1, h2, h3, h4, -, -, -, h8, -⟩ := maxflow_round sv hg.wf hg.loops flow
    (fun es s => (hvisit es s s).2 .refl) order q x hroot st
  rw [h4, h8 ?_]
  · rfl
  intro t ht htr
  have hv : (keptVertices g order x rc)[t]? = some ((keptVertices g order x rc)[t]) := List.getElem?_eq_getElem ht
  have hvr : (keptVertices g order x rc)[t] ≠ root := by intro h; rw [h] at hv; exact htr (nodup_getElem?_inj (firstSeen_nodup _) hv h3)
  obtain ⟨k1, k2, k3, -⟩ := flow_value_zip hq hx hflow hvisit h1 h2 h3 hv hvr
  rw [k1]
  exact hcut _ k2 ⟨_, List.getElem_mem ht, k3⟩

/-- A triangular prism on the vertices 0 to 5 and a cycle on the vertices 6 to 13. -/
def exPrism : Graph :=
  { n := 14
    edges := (List.range 14).map (fun v => (v, v)) ++ [(0, 1), (0, 2), (1, 2), (3, 4), (4, 5), (3, 5), (1, 3), (2, 5)] ++
      [(6, 7), (7, 8), (8, 9), (9, 10), (10, 11), (11, 12), (12, 13), (13, 6)] }

/-- Twice the LP value: the two triangles of the prism are joined by two edges of value 1/2 only. -/
def exPrismSol (e : Nat) : Int := if e ∈ [16, 19, 20, 21] then 1 else 2

/-- The order of the edge map: the cycle comes first. -/
def exPrismOrder : List Nat := (List.range 8).map (· + 22) ++ List.range 22

theorem exPrism_component : IsRootComponent exPrism exPrismSol 0 [0, 1, 2, 3, 5, 4] :=
  isRootComponent_check (by decide +kernel) (by decide +kernel) (by decide +kernel)

/-- **C40.** Out of order, the capacities belong to other edges: a solution of the degree rows violates a subtour elimination row of its root
component by half, and the round offers rows in one order of the edges but none in another, for every correct flow function. -/
theorem C40_misaligned : ∃ (g : Graph) (q : Int) (x : Nat → Int) (root : Nat) (rc order order' : List Nat) (S : List Nat) (v : Nat) (row : Row),
    SimpleWithLoops g ∧ 0 < q ∧ (∀ e < g.edges.length, 0 ≤ x e) ∧ order.Perm (List.range g.edges.length) ∧ order'.Perm (List.range g.edges.length) ∧
    IsRootComponent g x root rc ∧ (∃ drows, degreeRows g = .ok drows ∧ ∀ row ∈ drows, row.Sat x) ∧
    root ∉ S ∧ v ∈ S ∧ SecRow g S v row ∧ ¬ row.Sat x ∧
    ∀ (sv : Solver) (flow : MaxFlow) (visit : Visit) (st : SepState), FlowSpec flow → VisitSpec visit →
      separateMaxflowMincut sv g g.hasVar flow visit order q x root rc st = .ok (st, 0) ∧
      ∃ st' k, separateMaxflowMincut sv g g.hasVar flow visit order' q x root rc st = .ok (st', k) ∧ k ≠ 0 := by
  have hg : SimpleWithLoops exPrism := by decide +kernel
  have hx : ∀ e < exPrism.edges.length, 0 ≤ exPrismSol e := by decide +kernel
  have ho : exPrismOrder.Perm (List.range exPrism.edges.length) := by decide +kernel
  obtain ⟨drows, hd1, hd2⟩ := degreeRows_sat hg exPrismSol
  have hdeg : ∀ v < exPrism.n, edgeSum exPrism exPrismSol (incident exPrism v) = 2 * loopVal exPrism exPrismSol v := by decide +kernel
  have hgood : GoodPair exPrism 0 ([3, 4, 5], 3) := ⟨by decide, by decide, by decide, by decide⟩
  obtain ⟨row, es, -, r2, r3, r4, r5⟩ := addSEC_eq exSolver hgood.lt hgood.nodup (fun v hv => hg.loops v (hgood.lt v hv)) hgood.target
    (hg.loops _ hgood.target) (root := 0) hgood.sep exState
  have hrow : SecRow exPrism [3, 4, 5] 3 row := ⟨r3, r4, es, r2, r5⟩
  refine ⟨exPrism, 2, exPrismSol, 0, _, exPrismOrder, List.range 30, [3, 4, 5], 3, row, hg, by decide, hx, ho, .refl _, exPrism_component,
    ⟨drows, hd1, hd2.2 hdeg⟩, by decide, by decide, hrow, ?_, ?_⟩
  · rw [secRow_violated_iff hg hgood hrow hdeg]; decide +kernel
  · intro sv flow visit st hflow hvisit
    constructor
    · refine no_row_of_cuts sv hg hflow hvisit (by decide) hx (by decide +kernel) st ?_
      have e1 : ((keptEdges exPrism exPrismOrder exPrismSol [0, 1, 2, 3, 5, 4]).map (endsOf exPrism)).zip (getCapacityVectorFromSol exPrism exPrismOrder 2 exPrismSol) =
          [((0, 1), 1000000), ((0, 2), 1000000), ((1, 2), 1000000), ((3, 4), 1000000), ((4, 5), 1000000), ((3, 5), 1000000), ((1, 3), 1000000), ((2, 5), 1000000)] := by
        decide +kernel
      have e2 : keptVertices exPrism exPrismOrder exPrismSol [0, 1, 2, 3, 5, 4] = [0, 1, 2, 3, 4, 5] := by decide +kernel
      rw [e1, e2]
      refine forall_bits (n := 6) ?_ (by decide +kernel)
      intro T T' hTT h h0 ⟨v, hv, hTv⟩
      have hlt : v < 6 := (by decide : ∀ v ∈ [0, 1, 2, 3, 4, 5], v < 6) v hv
      rw [← crossSum_congr (n := 6) (T := T) (by decide) hTT]
      exact h (by rw [hTT 0 (by decide)]; exact h0) ⟨v, hv, by rw [hTT v hlt]; exact hTv⟩
    · obtain ⟨st', k, h1, h2⟩ := C65_no_row sv hg hflow hvisit (.refl _) (q := 2) (by decide) hx exPrism_component
        ⟨1, by decide, ((exPrism_component 1).1 (by decide)).2⟩ (by rw [Aligned]; decide +kernel) st
      refine ⟨st', k, h1, fun hk => ?_⟩
      have := h2 hk (fun v => decide (v ∈ [3, 4, 5])) (by decide) ⟨3, by decide, ((exPrism_component 3).1 (by decide)).2⟩
      revert this; decide +kernel

/-! ### C65: the witness -/

/-- Four pairs of vertices; two vertices are adjacent unless they are a pair. -/
def exParty : Graph :=
  { n := 8
    edges := (List.range 8).map (fun v => (v, v)) ++
      ((List.range 8).flatMap fun u => (List.range 8).map fun v => (u, v)).filter fun p => p.1 < p.2 && p.1 / 2 != p.2 / 2 }

/-- Three times the LP value: 1/3 on every edge, and every vertex is visited. -/
def exPartySol (e : Nat) : Int := if e < 8 then 3 else 1

theorem exParty_component : IsRootComponent exParty exPartySol 0 [0, 2, 3, 4, 5, 6, 7, 1] :=
  isRootComponent_check (by decide +kernel) (by decide +kernel) (by decide +kernel)

/-- **C65.** Rounding the capacities down produces rows although no cut is below 2. -/
theorem C65_rounding : ∃ (g : Graph) (q : Int) (x : Nat → Int) (root : Nat) (rc order : List Nat),
    SimpleWithLoops g ∧ 0 < q ∧ (∀ e < g.edges.length, 0 ≤ x e) ∧ order.Perm (List.range g.edges.length) ∧ Aligned g order x rc ∧
    IsRootComponent g x root rc ∧ (∃ drows, degreeRows g = .ok drows ∧ ∀ row ∈ drows, row.Sat x) ∧
    (∀ T : Nat → Bool, T root = false → (∃ v, T v = true ∧ SupportConnected g x root v) → 2 * q ≤ edgeSum g x (crosses g T)) ∧
    ∀ (sv : Solver) (flow : MaxFlow) (visit : Visit) (st : SepState), FlowSpec flow → VisitSpec visit →
      ∃ st' k, separateMaxflowMincut sv g g.hasVar flow visit order q x root rc st = .ok (st', k) ∧ k ≠ 0 := by
  have hg : SimpleWithLoops exParty := by decide +kernel
  have hx : ∀ e < exParty.edges.length, 0 ≤ exPartySol e := by decide +kernel
  obtain ⟨drows, hd1, hd2⟩ := degreeRows_sat hg exPartySol
  have hdeg : ∀ v < exParty.n, edgeSum exParty exPartySol (incident exParty v) = 2 * loopVal exParty exPartySol v := by decide +kernel
  have hal : Aligned exParty (List.range exParty.edges.length) exPartySol [0, 2, 3, 4, 5, 6, 7, 1] := by rw [Aligned]; decide +kernel
  refine ⟨exParty, 3, exPartySol, 0, _, _, hg, by decide, hx, .refl _, hal, exParty_component, ⟨drows, hd1, hd2.2 hdeg⟩, ?_, ?_⟩
  · have : ∀ T : Nat → Bool, T 0 = false → (∃ v < 8, T v = true) → 2 * 3 ≤ edgeSum exParty exPartySol (crosses exParty T) := by
      refine forall_bits (n := 8) ?_ (by decide +kernel)
      intro T T' hTT h h0 ⟨v, hv, hTv⟩
      rw [← edgeSum_crosses_congr hg.wf _ (T := T) hTT]
      exact h (by rw [hTT 0 (by decide)]; exact h0) ⟨v, hv, by rw [hTT v hv]; exact hTv⟩
    intro T h0 ⟨v, hv, hc⟩
    refine this T h0 ⟨v, ?_, hv⟩
    by_cases hv0 : 0 = v
    · omega
    · obtain ⟨z, e, he, -⟩ := support_edge (supportConnected_symm hc) (Ne.symm hv0)
      rcases he with he | he
      · exact (hg.wf _ (List.mem_of_getElem? he)).1
      · exact (hg.wf _ (List.mem_of_getElem? he)).2
  · intro sv flow visit st hflow hvisit
    have hself : ∀ es s, visit es s s = true := fun es s => (hvisit es s s).2 .refl
    obtain ⟨ne, des, sr, pairs, rows, h1, h2, h3, h4, h5, h6, h7, h8, h9⟩ := maxflow_round sv hg.wf hg.loops flow
      hself (List.range exParty.edges.length) 3 exPartySol (root := 0) (rc := [0, 2, 3, 4, 5, 6, 7, 1]) (by decide +kernel) st
    refine ⟨_, _, h4, fun hk => ?_⟩
    have e2 : keptVertices exParty (List.range exParty.edges.length) exPartySol [0, 2, 3, 4, 5, 6, 7, 1] = [0, 2, 3, 4, 5, 6, 7, 1] := by decide +kernel
    have hsr : sr = 0 := nodup_getElem?_inj (firstSeen_nodup _) h3 (by rw [← keptVertices, e2]; rfl)
    subst hsr
    have hall : ∀ t < (keptVertices exParty (List.range exParty.edges.length) exPartySol [0, 2, 3, 4, 5, 6, 7, 1]).length, t ≠ 0 →
        2 * flowMultiplier ≤ (flow des 0 t).value := by
      refine h9 ?_ (List.length_eq_zero_iff.1 hk)
      intro t ht htr hempty
      have hv := List.getElem?_eq_getElem ht
      obtain ⟨-, -, k3, -⟩ := flow_value_zip (by decide) hx hflow hvisit h1 h2 h3 hv
        (by intro h; rw [h] at hv; exact htr (nodup_getElem?_inj (firstSeen_nodup _) hv h3))
      rw [cutSet, hempty] at k3; simp at k3
    have h21 := hall 1 (by rw [e2]; decide) (by decide)
    obtain ⟨-, -, -, -, k5⟩ := flow_value_zip (by decide) hx hflow hvisit h1 h2 h3 (t := 1) (v := 2) (by rw [e2]; rfl) (by decide)
    have := (k5 (fun v => v == 2) (by decide) (by decide)).1
    have e3 : crossSum (((keptEdges exParty (List.range exParty.edges.length) exPartySol [0, 2, 3, 4, 5, 6, 7, 1]).map (endsOf exParty)).zip
        (getCapacityVectorFromSol exParty (List.range exParty.edges.length) 3 exPartySol)) (fun v => v == 2) = 1999998 := by decide +kernel
    have e4 : flowMultiplier = 1000000 := rfl
    rw [e3] at this
    rw [e4] at h21
    omega

/-! ### C67 -/

/-- **C67.** Every row of a round belongs to a set of vertices that contains exactly one of the root and its target, its cut is below 2 (exact
capacities), and it is violated iff its cut is below twice the value of its target. -/
theorem C67_violated_iff (sv : Solver) {g : Graph} (hg : SimpleWithLoops g) {flow : MaxFlow} (hflow : FlowSpec flow) {visit : Visit} (hvisit : VisitSpec visit)
    {order : List Nat} (ho : order.Perm (List.range g.edges.length)) {q : Int} (hq : 0 < q) {x : Nat → Int} (hx : ∀ e < g.edges.length, 0 ≤ x e)
    {root : Nat} {rc : List Nat} (hrc : IsRootComponent g x root rc) (hroot : ∃ v, v ≠ root ∧ SupportConnected g x root v)
    (hal : Aligned g order x rc) (hex : ∀ e < g.edges.length, q ∣ flowMultiplier * x e) {drows : List Row}
    (hd : degreeRows g = .ok drows) (hsat : ∀ row ∈ drows, row.Sat x) (st : SepState) :
    ∃ st' k rows, separateMaxflowMincut sv g g.hasVar flow visit order q x root rc st = .ok (st', k) ∧ st'.offered = st.offered ++ rows ∧
      ∀ row ∈ rows, ∃ (S : Nat → Bool) (v : Nat), S root = false ∧ S v = true ∧ SupportConnected g x root v ∧
        edgeSum g x (crosses g S) < 2 * q ∧ (¬ row.Sat x ↔ edgeSum g x (crosses g S) < 2 * loopVal g x v) := by
  obtain ⟨ne, des, sr, pairs, rows, h1, h2, h3, h4, h5, h6, h7, -⟩ := maxflow_round sv hg.wf hg.loops flow
    (fun es s => (hvisit es s s).2 .refl) order q x ((root_kept hg.wf ho hrc).2 hroot) st
  obtain ⟨drows', d1, d2⟩ := degreeRows_sat hg x
  rw [hd] at d1
  cases d1
  have hdeg := d2.1 hsat
  refine ⟨_, _, rows, h4, offerAll_offered _ _ _, ?_⟩
  intro row hrow
  obtain ⟨i, hi, rfl⟩ := List.getElem_of_mem hrow
  have hip : i < pairs.length := by rw [h5.length_eq]; exact hi
  have hs := h5.get hip hi
  simp only [List.get_eq_getElem] at hs
  have hgood := h6 _ (List.getElem_mem hip)
  obtain ⟨t, ht, htr, hval, hp1, u, hu, hp2⟩ := h7 _ (List.getElem_mem hip)
  have hv := List.getElem?_eq_getElem ht
  have hvr : (keptVertices g order x rc)[t] ≠ root := by intro h; rw [h] at hv; exact htr (nodup_getElem?_inj (firstSeen_nodup _) hv h3)
  obtain ⟨k1, k2, k3, -⟩ := flow_value hq hx hal hflow hvisit h1 h2 h3 hv hvr
  obtain ⟨T, hT⟩ : ∃ T, T = cutSet flow visit des sr (keptVertices g order x rc) t := ⟨_, rfl⟩
  rw [← hT] at k1 k2 k3
  have hu' := hu
  rw [getUnreachableVertices, List.mem_filter, List.mem_range] at hu'
  have hmem : (pairs[i]).2 ∈ keptVertices g order x rc := by
    rw [hp2, List.getD_eq_getElem?_getD, List.getElem?_eq_getElem hu'.1]; exact List.getElem_mem hu'.1
  have hTsub : ∀ v, T v = true → v ∈ rc := by
    intro w hw
    rw [hT, cutSet, decide_eq_true_eq, List.mem_map] at hw
    obtain ⟨u, hu, rfl⟩ := hw
    rw [getUnreachableVertices, List.mem_filter, List.mem_range] at hu
    apply keptVertices_subset (order := order) (x := x) (g := g)
    rw [List.getD_eq_getElem?_getD, List.getElem?_eq_getElem hu.1]; exact List.getElem_mem hu.1
  have hsum := keptCut_eq_of_subset hg.wf ho hx hrc T hTsub
  refine ⟨T, (pairs[i]).2, k2, ?_, ((hrc _).1 (keptVertices_subset _ hmem)).2, ?_, ?_⟩
  · rw [hT, cutSet, decide_eq_true_eq, hp2]; exact List.mem_map.2 ⟨u, hu, rfl⟩
  · have hcap : keptCut g (keptEdges g order x rc) (fun e => flowMultiplier * x e) T = keptCut g (keptEdges g order x rc) (fun e => q * capacityOf q (x e)) T := by
      apply Int.le_antisymm <;> refine keptCut_le fun e he => ?_ <;>
        rw [capacityOf_eq hq, Int.mul_ediv_cancel' (hex e (mem_keptEdges.1 he).2.1)]
    rw [keptCut_mul, keptCut_mul, ← k1, hsum] at hcap
    have e1 : q * (flow des sr t).value < q * (2 * flowMultiplier) := Int.mul_lt_mul_of_pos_left hval hq
    have e2 : flowMultiplier = 1000000 := rfl
    rw [e2] at e1 hcap
    omega
  · rw [secRow_violated_iff hg hgood hs hdeg, hp1, cutSide_edgeSum hg ho hx hrc, ← hT]

/-- **C67.** So every row of a round is violated if all vertices of the root component are visited with value 1. -/
theorem C67_all_violated (sv : Solver) {g : Graph} (hg : SimpleWithLoops g) {flow : MaxFlow} (hflow : FlowSpec flow) {visit : Visit} (hvisit : VisitSpec visit)
    {order : List Nat} (ho : order.Perm (List.range g.edges.length)) {q : Int} (hq : 0 < q) {x : Nat → Int} (hx : ∀ e < g.edges.length, 0 ≤ x e)
    {root : Nat} {rc : List Nat} (hrc : IsRootComponent g x root rc) (hroot : ∃ v, v ≠ root ∧ SupportConnected g x root v)
    (hal : Aligned g order x rc) (hex : ∀ e < g.edges.length, q ∣ flowMultiplier * x e) {drows : List Row}
    (hd : degreeRows g = .ok drows) (hsat : ∀ row ∈ drows, row.Sat x) (hone : ∀ v ∈ rc, loopVal g x v = q) (st : SepState) :
    ∃ st' k rows, separateMaxflowMincut sv g g.hasVar flow visit order q x root rc st = .ok (st', k) ∧ st'.offered = st.offered ++ rows ∧
      ∀ row ∈ rows, ¬ row.Sat x := by
  obtain ⟨st', k, rows, h1, h2, h3⟩ := C67_violated_iff sv hg hflow hvisit ho hq hx hrc hroot hal hex hd hsat st
  refine ⟨st', k, rows, h1, h2, fun row hrow => ?_⟩
  obtain ⟨S, v, -, -, hc, hlt, hiff⟩ := h3 row hrow
  rw [hiff, hone v ?_]
  · exact hlt
  · rw [hrc]
    refine ⟨?_, hc⟩
    obtain ⟨w, hw, hcw⟩ := hroot
    have : ∃ z, z ≠ v ∧ SupportConnected g x v z := by
      by_cases hvr : v = root
      · exact ⟨w, by rw [hvr]; exact hw, by rw [hvr]; exact hcw⟩
      · exact ⟨root, Ne.symm hvr, supportConnected_symm hc⟩
    obtain ⟨z, hz, hcz⟩ := this
    obtain ⟨z', e, he, -⟩ := support_edge hcz (Ne.symm hz)
    rcases he with he | he
    · exact (hg.wf _ (List.mem_of_getElem? he)).1
    · exact (hg.wf _ (List.mem_of_getElem? he)).2

/-- Seven vertices; the vertices 3 to 6 are visited with value 1/2. -/
def exMiss : Graph :=
  { n := 7
    edges := [(0, 0), (1, 1), (2, 2), (3, 3), (4, 4), (5, 5), (6, 6),
      (0, 1), (0, 2), (1, 2), (1, 3), (2, 3), (4, 5), (4, 6), (1, 6), (3, 5), (5, 6)] }

/-- Four times the LP value. -/
def exMissSol (e : Nat) : Int := [4, 4, 4, 2, 2, 2, 2, 4, 4, 2, 1, 2, 2, 2, 1, 1, 1].getD e 0

theorem exMiss_component : IsRootComponent exMiss exMissSol 0 [0, 1, 2, 3, 5, 4, 6] :=
  isRootComponent_check (by decide +kernel) (by decide +kernel) (by decide +kernel)

/-- **C67.** A round can offer rows none of which is violated and miss a violated row, because the vertices of a cut are not targets any more. -/
theorem C67_missed : ∃ (g : Graph) (q : Int) (x : Nat → Int) (root : Nat) (rc order : List Nat) (S : List Nat) (v : Nat) (missed : Row),
    SimpleWithLoops g ∧ 0 < q ∧ (∀ e < g.edges.length, 0 ≤ x e) ∧ order.Perm (List.range g.edges.length) ∧ Aligned g order x rc ∧
    (∀ e < g.edges.length, q ∣ flowMultiplier * x e) ∧
    IsRootComponent g x root rc ∧ (∃ drows, degreeRows g = .ok drows ∧ ∀ row ∈ drows, row.Sat x) ∧
    root ∉ S ∧ v ∈ S ∧ SecRow g S v missed ∧ ¬ missed.Sat x ∧
    ∀ (sv : Solver) (flow : MaxFlow) (visit : Visit) (st : SepState), FlowSpec flow → VisitSpec visit →
      ∃ st' rows, separateMaxflowMincut sv g g.hasVar flow visit order q x root rc st = .ok (st', rows.length) ∧ st'.offered = st.offered ++ rows ∧
        rows ≠ [] ∧ ∀ row ∈ rows, row.Sat x := by
  have hg : SimpleWithLoops exMiss := by decide +kernel
  have hx : ∀ e < exMiss.edges.length, 0 ≤ exMissSol e := by decide +kernel
  obtain ⟨drows, hd1, hd2⟩ := degreeRows_sat hg exMissSol
  have hdeg : ∀ v < exMiss.n, edgeSum exMiss exMissSol (incident exMiss v) = 2 * loopVal exMiss exMissSol v := by decide +kernel
  have hal : Aligned exMiss (List.range exMiss.edges.length) exMissSol [0, 1, 2, 3, 5, 4, 6] := by rw [Aligned]; decide +kernel
  have hgood : GoodPair exMiss 0 ([4, 5, 6], 4) := ⟨by decide, by decide, by decide, by decide⟩
  obtain ⟨row, es, -, r2, r3, r4, r5⟩ := addSEC_eq exSolver hgood.lt hgood.nodup (fun v hv => hg.loops v (hgood.lt v hv)) hgood.target
    (hg.loops _ hgood.target) (root := 0) hgood.sep exState
  have hrow : SecRow exMiss [4, 5, 6] 4 row := ⟨r3, r4, es, r2, r5⟩
  refine ⟨exMiss, 4, exMissSol, 0, _, _, [4, 5, 6], 4, row, hg, by decide, hx, .refl _, hal, by decide +kernel, exMiss_component,
    ⟨drows, hd1, hd2.2 hdeg⟩, by decide, by decide, hrow, ?_, ?_⟩
  · rw [secRow_violated_iff hg hgood hrow hdeg]; decide +kernel
  · intro sv flow visit st hflow hvisit
    obtain ⟨ne, des, -, h1, h2, -, -, h3⟩ := separateMaxflow_unfold sv (g := exMiss) flow visit (List.range exMiss.edges.length) 4 exMissSol 0
      [0, 1, 2, 3, 5, 4, 6] st
    have eD : keptVertices exMiss (List.range exMiss.edges.length) exMissSol [0, 1, 2, 3, 5, 4, 6] = [0, 1, 2, 3, 4, 5, 6] := by decide +kernel
    have eC : ((keptEdges exMiss (List.range exMiss.edges.length) exMissSol [0, 1, 2, 3, 5, 4, 6]).map (endsOf exMiss)).zip
        (getCapacityVectorFromSol exMiss (List.range exMiss.edges.length) 4 exMissSol) =
        [((0, 1), 1000000), ((0, 2), 1000000), ((1, 2), 500000), ((1, 3), 250000), ((2, 3), 500000), ((4, 5), 500000), ((4, 6), 500000),
          ((1, 6), 250000), ((3, 5), 250000), ((5, 6), 250000)] := by decide +kernel
    have hfv := fun (t v : Nat) ht hv => flow_value_zip (by decide) hx hflow hvisit h1 h2 (root := 0) (sr := 0) (t := t) (v := v) (by rw [eD]; rfl) ht hv
    rw [eC, eD] at hfv
    have h4 := h3 0 (by rw [eD]; rfl)
    rw [eD] at h4
    clear h3 h1 h2
    have hbits : ∀ T : Nat → Bool, T 0 = false → (T 1 = true ∨ T 2 = true → 2000000 ≤ crossSum [((0, 1), 1000000), ((0, 2), 1000000), ((1, 2), 500000), ((1, 3), 250000), ((2, 3), 500000), ((4, 5), 500000), ((4, 6), 500000),
          ((1, 6), 250000), ((3, 5), 250000), ((5, 6), 250000)] T) ∧
        (T 3 = true → 1000000 ≤ crossSum [((0, 1), 1000000), ((0, 2), 1000000), ((1, 2), 500000), ((1, 3), 250000), ((2, 3), 500000), ((4, 5), 500000), ((4, 6), 500000),
          ((1, 6), 250000), ((3, 5), 250000), ((5, 6), 250000)] T) := by
      refine forall_bits (n := 7) ?_ (by decide +kernel)
      intro T T' hTT h h0
      rw [← crossSum_congr (n := 7) (T := T) (by decide) hTT, ← hTT 1 (by decide), ← hTT 2 (by decide), ← hTT 3 (by decide)]
      exact h (by rw [hTT 0 (by decide)]; exact h0)
    have e4 : flowMultiplier = 1000000 := rfl
    have hv1 : ¬ (flow des 0 1).value < 2 * flowMultiplier := by
      obtain ⟨a, b, c, -⟩ := hfv 1 1 rfl (by decide)
      have := (hbits _ b).1 (Or.inl c)
      rw [e4]; omega
    have hv2 : ¬ (flow des 0 2).value < 2 * flowMultiplier := by
      obtain ⟨a, b, c, -⟩ := hfv 2 2 rfl (by decide)
      have := (hbits _ b).1 (Or.inr c)
      rw [e4]; omega
    obtain ⟨a, b, c, d, f⟩ := hfv 3 3 rfl (by decide)
    obtain ⟨f1, f2⟩ := f (fun v => decide (3 ≤ v)) (by decide) (by decide)
    have e5 : crossSum [((0, 1), 1000000), ((0, 2), 1000000), ((1, 2), 500000), ((1, 3), 250000), ((2, 3), 500000), ((4, 5), 500000), ((4, 6), 500000),
          ((1, 6), 250000), ((3, 5), 250000), ((5, 6), 250000)] (fun v => decide (3 ≤ v)) = 1000000 := by decide +kernel
    have hv3 : (flow des 0 3).value = 1000000 := by
      have := (hbits _ b).2 c
      rw [e5] at f1; omega
    rw [e5] at f2
    have hin := f2 (by omega)
    have hv3' : (flow des 0 3).value < 2 * flowMultiplier := by rw [hv3, e4]; decide
    have hnot : ∀ w, w = 1 ∨ w = 2 → cutSet flow visit des 0 [0, 1, 2, 3, 4, 5, 6] 3 w = false := by
      intro w hw
      rw [Bool.eq_false_iff]
      intro hc
      have := (hbits _ b).1 (by rcases hw with rfl | rfl; exacts [Or.inl hc, Or.inr hc])
      omega
    have hun : getUnreachableVertices visit 7 des 0 (flow des 0 3).residual = [3, 4, 5, 6] := by
      have key : ∀ w < 7, cutSet flow visit des 0 [0, 1, 2, 3, 4, 5, 6] 3 w = !visit (positiveEdges des (flow des 0 3).residual) 0 w := by
        intro w hw
        have hk : [0, 1, 2, 3, 4, 5, 6][w]? = some w := (by decide : ∀ w < 7, [0, 1, 2, 3, 4, 5, 6][w]? = some w) w hw
        rw [cutSet, Bool.eq_iff_iff, decide_eq_true_eq, mem_map_getD (by decide) ?_ hk, getUnreachableVertices, List.mem_filter]
        · simp [hw]
        · intro u hu; rw [getUnreachableVertices, List.mem_filter, List.mem_range] at hu; exact hu.1
      have hr : List.range 7 = [0, 1, 2, 3, 4, 5, 6] := rfl
      rw [getUnreachableVertices, hr]
      simp only [List.filter_cons, List.filter_nil, ← key 0 (by decide), ← key 1 (by decide), ← key 2 (by decide), ← key 3 (by decide), ← key 4 (by decide),
        ← key 5 (by decide), ← key 6 (by decide), b, hnot 1 (Or.inl rfl), hnot 2 (Or.inr rfl), c, hin 4 (by decide) (by decide), hin 5 (by decide) (by decide),
        hin 6 (by decide) (by decide)]
      rfl
    have hDn : ∀ v ∈ [0, 1, 2, 3, 4, 5, 6], v < exMiss.n := by decide
    obtain ⟨rows, g1, g2⟩ := secUnreachableLoop_eq sv (root := 0) (D := [0, 1, 2, 3, 4, 5, 6]) hg.loops (by decide) hDn (vs := [3, 4, 5, 6])
      (by decide) (by decide) [3, 4, 5, 6] (by decide) (by decide) { sep := st, count := 0, done := upd (fun _ => false) 0 true }
    have hold : getOldVertices (number 0 [0, 1, 2, 3, 4, 5, 6]) [3, 4, 5, 6] = .ok [3, 4, 5, 6] := by decide +kernel
    refine ⟨offerAll sv rows st, rows, ?_, offerAll_offered _ _ _, ?_, ?_⟩
    · rw [h4]
      have hr : List.range ([0, 1, 2, 3, 4, 5, 6] : List Nat).length = [0, 1, 2, 3, 4, 5, 6] := rfl
      rw [hr]
      have hun' : getUnreachableVertices visit ([0, 1, 2, 3, 4, 5, 6] : List Nat).length des 0 (flow des 0 3).residual = [3, 4, 5, 6] := hun
      rw [targetLoop_done rfl, targetLoop_high hv1, targetLoop_high hv2,
        targetLoop_low rfl hv3' (by rw [hun']; decide) (by rw [hun']; exact hold) (by rw [hun']; exact g1), targetLoop_done rfl, targetLoop_done rfl,
        targetLoop_done rfl, maxflowTargetLoop, Res.ok_bind, ← g2.length_eq]
      rfl
    · intro h; rw [h] at g2; cases g2
    · have hok : ∀ u ∈ [3, 4, 5, 6], ∀ r, SecRow exMiss [3, 4, 5, 6] ([0, 1, 2, 3, 4, 5, 6].getD u 0) r → r.Sat exMissSol := by
        intro u hu r hr
        have hgp : GoodPair exMiss 0 ([3, 4, 5, 6], [0, 1, 2, 3, 4, 5, 6].getD u 0) :=
          ⟨by simp [exMiss], by simp, (by decide : ∀ u ∈ [3, 4, 5, 6], [0, 1, 2, 3, 4, 5, 6].getD u 0 < 7) u hu,
            (by decide : ∀ u ∈ [3, 4, 5, 6], ¬ (0 ∈ [3, 4, 5, 6] ↔ [0, 1, 2, 3, 4, 5, 6].getD u 0 ∈ [3, 4, 5, 6])) u hu⟩
        by_contra hc
        rw [secRow_violated_iff hg hgp hr hdeg] at hc
        revert hc
        clear hgp hr
        revert u
        decide +kernel
      intro r hr
      obtain ⟨i, hi⟩ := List.mem_iff_getElem?.1 hr
      obtain ⟨u, hu, hs⟩ := (forall₂_getElem? g2).2 _ hi
      exact hok u (List.mem_of_getElem? hu) r hs

/-! ### Examples for the hypotheses -/

/-- A correct flow function and a correct search exist, and the root of the prism has a positive edge, so the round is defined there. -/
example : ∃ (flow : MaxFlow) (visit : Visit), FlowSpec flow ∧ VisitSpec visit ∧
    ∃ r, separateMaxflowMincut exSolver exPrism exPrism.hasVar flow visit exPrismOrder 2 exPrismSol 0 [0, 1, 2, 3, 5, 4] exState = .ok r := by
  have hg : SimpleWithLoops exPrism := by decide +kernel
  obtain ⟨flow, hflow⟩ := exists_flowSpec
  obtain ⟨visit, hvisit⟩ := exists_visitSpec
  refine ⟨flow, visit, hflow, hvisit, ?_⟩
  rw [(C66_undefined_iff exSolver hg.wf hg.loops flow (fun es s => (hvisit es s s).2 .refl) (by decide +kernel) 2 exPrismSol exPrism_component exState).2]
  exact ⟨1, by decide, ((exPrism_component 1).1 (by decide)).2⟩

/-- The order of the positions is aligned for the prism, the other one is not. -/
example : Aligned exPrism (List.range 30) exPrismSol [0, 1, 2, 3, 5, 4] ∧ ¬ Aligned exPrism exPrismOrder exPrismSol [0, 1, 2, 3, 5, 4] := by
  unfold Aligned; decide +kernel

/-- The capacities of the prism are exact and all its vertices are visited. -/
example : (∀ e < exPrism.edges.length, (2 : Int) ∣ flowMultiplier * exPrismSol e) ∧ ∀ v ∈ [0, 1, 2, 3, 5, 4], loopVal exPrism exPrismSol v = 2 := by
  decide +kernel

/-- The hypotheses of the theorems on a round, in the aligned order, together. -/
example : ∃ (flow : MaxFlow) (visit : Visit) (drows : List Row), FlowSpec flow ∧ VisitSpec visit ∧ degreeRows exPrism = .ok drows ∧
    ∀ st, (∃ r, separateMaxflowMincut exSolver exPrism exPrism.hasVar flow visit (List.range 30) 2 exPrismSol 0 [0, 1, 2, 3, 5, 4] st = .ok r) ∧
      ∃ st' k rows, separateMaxflowMincut exSolver exPrism exPrism.hasVar flow visit (List.range 30) 2 exPrismSol 0 [0, 1, 2, 3, 5, 4] st = .ok (st', k) ∧
        st'.offered = st.offered ++ rows ∧ (∀ row ∈ rows, ¬ row.Sat exPrismSol) ∧
        ∀ row ∈ rows, ∀ t es x, IsTour exPrism 0 t → IncidenceOf exPrism t es x → row.Sat x := by
  have hg : SimpleWithLoops exPrism := by decide +kernel
  obtain ⟨flow, hflow⟩ := exists_flowSpec
  obtain ⟨visit, hvisit⟩ := exists_visitSpec
  obtain ⟨drows, hd1, hd2⟩ := degreeRows_sat hg exPrismSol
  have hsat := hd2.2 (by decide +kernel)
  have hself : ∀ es s, visit es s s = true := fun es s => (hvisit es s s).2 .refl
  have ho : (List.range 30).Perm (List.range exPrism.edges.length) := .refl _
  have hcon : ∃ v, v ≠ 0 ∧ SupportConnected exPrism exPrismSol 0 v := ⟨1, by decide, ((exPrism_component 1).1 (by decide)).2⟩
  have hal : Aligned exPrism (List.range 30) exPrismSol [0, 1, 2, 3, 5, 4] := by unfold Aligned; decide +kernel
  have h40 := C40_aligned 2 hal ((keptEdges exPrism (List.range 30) exPrismSol [0, 1, 2, 3, 5, 4]).map fun _ => (0, 1)) (by simp)
  refine ⟨flow, visit, drows, hflow, hvisit, hd1, fun st => ?_⟩
  have h65 := C65_no_row exSolver hg hflow hvisit ho (q := 2) (by decide) (by decide +kernel) exPrism_component hcon hal st
  have h65' := C65_no_row_iff exSolver hg hflow hvisit ho (q := 2) (by decide) (by decide +kernel) exPrism_component hcon hal (by decide +kernel) st
  have h67 := C67_violated_iff exSolver hg hflow hvisit ho (q := 2) (by decide) (by decide +kernel) exPrism_component hcon hal (by decide +kernel) hd1 hsat st
  obtain ⟨st1, k, rows, h1, h2, h3⟩ := C67_all_violated exSolver hg hflow hvisit ho (q := 2) (by decide) (by decide +kernel) exPrism_component hcon hal
    (by decide +kernel) hd1 hsat (by decide +kernel) st
  obtain ⟨st2, k', rows', h4, h5, -, -, h6⟩ := C64_rows_valid exSolver hg.wf hg.loops flow hself ho 2 exPrismSol exPrism_component hcon st
  rw [h1] at h4
  cases h4
  have : rows = rows' := List.append_cancel_left (h2.symm.trans h5)
  subst this
  exact ⟨C66_defined exSolver hg flow hself ho 2 exPrismSol (by decide) exPrism_component (by decide +kernel) hd1 hsat (loop := 0) rfl (by decide) st,
    st1, k, rows, h1, h2, h3, h6⟩

end Pctsp
