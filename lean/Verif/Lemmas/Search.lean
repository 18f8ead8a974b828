import Verif.Spec.Search
import Verif.Lemmas.Solve

/-! # Lemmas about the search -/

namespace Pctsp

variable {P : Problem} {order : List Nat} {scale : Int} {s t : Search}

theorem activity_scaled {q : Int} {x y : Nat → Int} {row : Row} (h : ∀ p ∈ row.coeffs, x p.1 = q * y p.1) : row.activity x = q * row.activity y := by
  unfold Row.activity
  generalize row.coeffs = cs at h
  induction cs with
  | nil => simp
  | cons p cs ih =>
    simp only [List.map_cons, List.sum_cons, Int.mul_add]
    rw [ih fun p hp => h p (by simp [hp]), h p (by simp)]
    ring

theorem satScaled_one {x : Nat → Int} {row : Row} : row.SatScaled 1 x ↔ row.Sat x := by simp [Row.SatScaled, Row.Sat]

theorem objective_scaled {g : Graph} {cost : Nat → Int} {q : Int} {x y : Nat → Int} (h : ∀ e < g.edges.length, x e = q * y e) :
    objective g cost x = q * objective g cost y := by
  unfold objective
  rw [← List.sum_map_mul_left]
  congr 1
  refine List.map_congr_left fun e he => ?_
  rw [h e (List.mem_range.1 he)]
  ring

theorem objective_dvd {g : Graph} {cost : Nat → Int} {k : Int} (h : ∀ e < g.edges.length, k ∣ cost e) (x : Nat → Int) : k ∣ objective g cost x := by
  unfold objective
  refine List.dvd_sum fun a ha => ?_
  obtain ⟨e, he, rfl⟩ := List.mem_map.1 ha
  exact Dvd.dvd.mul_right (h e (List.mem_range.1 he)) _

/-! ### The rows of the plug-ins -/

/-- The row only depends on the values of the variables of the problem. -/
def LocalRow (g : Graph) (row : Row) : Prop := ∀ x y : Nat → Int, (∀ e < g.edges.length, x e = y e) → row.activity x = row.activity y

theorem LocalRow.scaled {g : Graph} {row : Row} (h : LocalRow g row) {q : Int} {x y : Nat → Int} (hx : ∀ e < g.edges.length, x e = q * y e) :
    row.activity x = q * row.activity y := by
  rw [h x (fun e => q * y e) hx]
  exact activity_scaled fun _ _ => rfl

theorem LocalRow.sat {g : Graph} {row : Row} (h : LocalRow g row) {q : Int} (hq : 0 < q) {x y : Nat → Int} (hx : ∀ e < g.edges.length, x e = q * y e) :
    row.SatScaled q x ↔ row.Sat y := by
  unfold Row.SatScaled Row.Sat
  rw [h.scaled hx]
  simp only [Int.mul_le_mul_left hq]

theorem localRow_of_coeffs {g : Graph} {row : Row} (h : ∀ p ∈ row.coeffs, p.1 < g.edges.length) : LocalRow g row := by
  intro x y hxy
  unfold Row.activity
  congr 1
  exact List.map_congr_left fun p hp => by rw [hxy p.1 (h p hp)]

theorem loopVal_local {g : Graph} {v : Nat} (hv : (v, v) ∈ g.edges) {x y : Nat → Int} (hxy : ∀ e < g.edges.length, x e = y e) :
    loopVal g x v = loopVal g y v := by
  obtain ⟨e, he⟩ := Option.isSome_iff_exists.1 (edgeIdx_isSome_iff.2 (Or.inl hv : Adj g v v))
  rw [loopVal, loopVal, he, Option.getD_some]
  refine hxy e ?_
  rcases edgeIdx_eq_some he with h | h <;> exact (List.getElem?_eq_some_iff.1 h).1

/-- The form of a cycle cover row. -/
structure CycRow (g : Graph) (vs : List Nat) (row : Row) : Prop where
  lt : ∀ v ∈ vs, v < g.n
  nodup : vs.Nodup
  lhs : row.lhs = none
  rhs : row.rhs = some (-1)
  act : ∃ es, getEdgesInducedByVertices g vs = .ok es ∧ ∀ x, row.activity x = (es.map x).sum - (vs.map (loopVal g x)).sum

theorem local_parts {g : Graph} (hl : ∀ v < g.n, (v, v) ∈ g.edges) {vs es : List Nat} (hr : ∀ v ∈ vs, v < g.n) (hnd : vs.Nodup)
    (hes : getEdgesInducedByVertices g vs = .ok es) {x y : Nat → Int} (hxy : ∀ e < g.edges.length, x e = y e) :
    (es.map x).sum - (vs.map (loopVal g x)).sum = (es.map y).sum - (vs.map (loopVal g y)).sum := by
  rw [List.map_congr_left fun e he => hxy e (induced_lt hr hnd hes e he), List.map_congr_left fun v hv => loopVal_local (hl v (hr v hv)) hxy]

theorem SecRow.isLocal {g : Graph} (hl : ∀ v < g.n, (v, v) ∈ g.edges) {root : Nat} {p : List Nat × Nat} {row : Row} (hp : GoodPair g root p)
    (h : SecRow g p.1 p.2 row) : LocalRow g row := by
  obtain ⟨es, hes, hact⟩ := h.act
  intro x y hxy
  rw [hact, hact, local_parts hl hp.lt hp.nodup hes hxy, loopVal_local (hl _ hp.target) hxy]

theorem CycRow.isLocal {g : Graph} (hl : ∀ v < g.n, (v, v) ∈ g.edges) {vs : List Nat} {row : Row} (h : CycRow g vs row) : LocalRow g row := by
  obtain ⟨es, hes, hact⟩ := h.act
  intro x y hxy
  rw [hact, hact, local_parts hl h.lt h.nodup hes hxy]

theorem coverRows_local {g : Graph} (hl : ∀ v < g.n, (v, v) ∈ g.edges) {root : Nat} (hroot : root < g.n) {dist : Nat → Int} {ub : Int} {rows : List Row}
    (h : separateThenAddCostCover g g.hasVar root dist ub = .ok rows) : ∀ row ∈ rows, LocalRow g row := by
  obtain ⟨rows', h1, h2⟩ := costCover_rows hl hroot dist ub
  rw [h] at h1
  cases h1
  intro row hr x y hxy
  obtain ⟨v, -, ⟨hv, -⟩, -, -, hact⟩ := forall₂_mem_right h2 hr
  rw [hact, hact, loopVal_local (hl _ hroot) hxy, loopVal_local (hl _ hv) hxy]

theorem Sound.rows_local {ub : Int} (h : Sound P ub) : ∀ row ∈ P.rows, LocalRow P.graph row := by
  obtain ⟨rows, crows, h1, h2, h3⟩ := h.rows
  intro row hr
  rw [h2] at hr
  rcases List.mem_append.1 hr with hr | hr
  · obtain ⟨loop, hl⟩ := Option.isSome_iff_exists.1 (edgeIdx_isSome_iff.2 (Or.inl (h.simple.loops P.root h.root) : Adj P.graph P.root P.root))
    have hlt : loop < P.graph.edges.length := by rcases edgeIdx_eq_some hl with h | h <;> exact (List.getElem?_eq_some_iff.1 h).1
    obtain ⟨drows, hd, -⟩ := degreeRows_sat h.simple fun _ => 0
    simp only [modelWithoutSECs, Graph.edge, if_pos h.root, hl, Res.ok_bind, hd, Res.pure_eq, Res.ok.injEq] at h1
    subst h1
    rcases List.mem_cons.1 hr with rfl | hr
    · refine localRow_of_coeffs fun p hp => ?_
      simp only [prizeRow, List.mem_map, List.mem_range] at hp
      obtain ⟨e, he, rfl⟩ := hp
      exact he
    rcases List.mem_cons.1 hr with rfl | hr
    · refine localRow_of_coeffs fun p hp => ?_
      simp only [rootRow, List.mem_singleton] at hp
      subst hp
      exact hlt
    · obtain ⟨v, hv, h'⟩ := forall₂_mem_right (mapRes_eq_ok.1 hd) hr
      obtain ⟨l, hl', h''⟩ := degreeRow_simple h.simple (List.mem_range.1 hv)
      rw [h''] at h'
      injection h' with h'
      subst h'
      refine localRow_of_coeffs fun p hp => ?_
      simp only [List.mem_cons, List.mem_map, List.mem_filter, List.mem_range] at hp
      rcases hp with rfl | ⟨e, ⟨he, -⟩, rfl⟩
      · rcases edgeIdx_eq_some hl' with h | h <;> exact (List.getElem?_eq_some_iff.1 h).1
      · exact he
  · obtain ⟨-, dist, -, rs, hrs, hm⟩ := (h3 row).1 hr
    exact coverRows_local h.simple.loops h.root hrs row hm

theorem offerAll_cutoff {sv : Solver} {rows : List Row} {st : SepState} (h : (offerAll sv rows st).result = .cutoff) (h0 : st.result ≠ .cutoff) :
    ∃ row ∈ rows, sv.efficacious row = true ∧ ∃ added, sv.infeasible added row = true := by
  induction rows generalizing st with
  | nil => exact absurd h h0
  | cons row rows ih =>
    rw [offerAll] at h
    by_cases hc : (offerRow sv row st).result = .cutoff
    · unfold offerRow at hc
      by_cases he : sv.efficacious row = true
      · simp only [he, if_true] at hc
        by_cases hi : sv.infeasible st.added row = true
        · exact ⟨row, by simp, he, _, hi⟩
        · simp [hi] at hc
      · simp only [he] at hc
        exact absurd hc h0
    · obtain ⟨r, hr, h1⟩ := ih h hc
      exact ⟨r, by simp [hr], h1⟩

/-- The rows of a separation call of the subtour handler, if the root is not alone in the support graph. -/
theorem Sound.sepalp_rows_of {ub : Int} (h : Sound P ub) (ho : order.Perm (List.range P.graph.edges.length)) {sv : Solver} {flow : MaxFlow} {visit : Visit}
    (hvisit : ∀ es v, visit es v v = true) {q : Int} {x : Nat → Int} (hcon : ∃ v, v ≠ P.root ∧ SupportConnected P.graph x P.root v) {m k i : Nat}
    {ids : List Nat} (hc : IsComponents P.graph x m ids) {d f : Bool} {st : SepState}
    (hs : sepalp sv P.graph P.graph.hasVar flow visit order q x P.root m ids d f ⟨[], [], .didNotRun⟩ = .ok (st, k, i)) :
    ∃ rows, st = offerAll sv rows ⟨[], [], .didNotFind⟩ ∧ ∀ row ∈ rows, ∃ p, GoodPair P.graph P.root p ∧ SecRow P.graph p.1 p.2 row := by
  have hg := h.simple
  obtain ⟨rc, hrc, heq⟩ := separateSubtour_eq sv flow visit order q x h.root hc
  obtain ⟨rows, hr1, hr2⟩ : ∃ rows, (if d then separateSubtourDisjoint sv P.graph P.graph.hasVar P.root m ids ⟨[], [], .didNotFind⟩
      else .ok (⟨[], [], .didNotFind⟩, 0)) = .ok (offerAll sv rows ⟨[], [], .didNotFind⟩, rows.length) ∧
      ∀ row ∈ rows, ∃ p, GoodPair P.graph P.root p ∧ SecRow P.graph p.1 p.2 row := by
    cases d with
    | false => exact ⟨[], rfl, by simp⟩
    | true =>
      obtain ⟨pairs, rows, h1, h2, -, h3, h4⟩ := separateSubtourDisjoint_eq sv hg.loops h.root (isComponents_labels hc) ⟨[], [], .didNotFind⟩
      refine ⟨rows, h1, fun row hrow => ?_⟩
      obtain ⟨p, hp, hs⟩ := forall₂_mem_right h2 hrow
      obtain ⟨k1, k2, k3, k4⟩ := h3 p hp
      exact ⟨p, ⟨fun v hv => ((k4 v).1 hv).1, k1, ((k4 _).1 k2).1, fun hiff => k3 (hiff.2 k2)⟩, hs⟩
  obtain ⟨rows', hr1', hr2'⟩ : ∃ rows', (if f then separateMaxflowMincut sv P.graph P.graph.hasVar flow visit order q x P.root rc
        (offerAll sv rows ⟨[], [], .didNotFind⟩) >>= fun b => .ok (b.1, rows.length, b.2)
        else .ok (offerAll sv rows ⟨[], [], .didNotFind⟩, rows.length, 0)) =
        Res.ok (offerAll sv rows' (offerAll sv rows ⟨[], [], .didNotFind⟩), rows.length, rows'.length) ∧
      ∀ row ∈ rows', ∃ p, GoodPair P.graph P.root p ∧ SecRow P.graph p.1 p.2 row := by
    cases f with
    | false => exact ⟨[], rfl, by simp⟩
    | true =>
      obtain ⟨ne, des, sr, pairs, rows', -, -, -, h1, h2, h3, -⟩ :=
        maxflow_round sv hg.wf hg.loops flow hvisit order q x ((root_kept hg.wf ho hrc).2 hcon) (offerAll sv rows ⟨[], [], .didNotFind⟩)
      refine ⟨rows', by simp only [if_true, h1, Res.ok_bind], fun row hrow => ?_⟩
      obtain ⟨p, hp, hs⟩ := forall₂_mem_right h2 hrow
      exact ⟨p, h3 p hp, hs⟩
  rw [sepalp, heq] at hs
  simp only [hr1, Res.ok_bind, hr1'] at hs
  injection hs with hs
  simp only [Prod.mk.injEq] at hs
  refine ⟨rows ++ rows', by rw [offerAll_append]; exact hs.1.symm, fun row hrow => ?_⟩
  rcases List.mem_append.1 hrow with hrow | hrow
  · exact hr2 row hrow
  · exact hr2' row hrow

/-- The rows of a separation call of the subtour handler. -/
theorem Sound.sepalp_rows {ub : Int} (h : Sound P ub) (ho : order.Perm (List.range P.graph.edges.length)) {sv : Solver} {flow : MaxFlow} {visit : Visit}
    (hvisit : ∀ es v, visit es v v = true) {q : Int} {x : Nat → Int} (hx : LpSolution P q x) {m k i : Nat} {ids : List Nat}
    (hc : IsComponents P.graph x m ids) {d f : Bool} {st : SepState}
    (hs : sepalp sv P.graph P.graph.hasVar flow visit order q x P.root m ids d f ⟨[], [], .didNotRun⟩ = .ok (st, k, i)) :
    ∃ rows, st = offerAll sv rows ⟨[], [], .didNotFind⟩ ∧ ∀ row ∈ rows, ∃ p, GoodPair P.graph P.root p ∧ SecRow P.graph p.1 p.2 row := by
  obtain ⟨mrows, crows, h1, h2, -⟩ := h.rows
  exact h.sepalp_rows_of ho hvisit (lp_connected h.simple h.root h1 h2 hx) hc hs

/-- The row of a separation call of the cycle cover handler. -/
theorem Sound.cycle_rows {ub : Int} (h : Sound P ub) {sv : Solver} {x : Nat → Int} {m : Nat} {ids : List Nat} (hc : IsComponents P.graph x m ids)
    {st : SepState} (hs : separateCycleCover sv P.graph P.graph.hasVar P.prize P.quota P.root m ids ⟨[], [], .didNotRun⟩ = .ok st) :
    ∃ rows, st = offerAll sv rows ⟨[], [], .didNotRun⟩ ∧ ∀ row ∈ rows, ∃ vs, CycRow P.graph vs row := by
  obtain ⟨vs, h1, hnd, hmem⟩ := getRootComponent_ok h.root (isComponents_labels hc)
  have hr : ∀ v ∈ vs, v < P.graph.n := fun v hv => ((hmem v).1 hv).1
  have hrv : P.root ∈ vs := (hmem P.root).2 ⟨h.root, rfl⟩
  obtain ⟨row, es, h2, hes, hlhs, hrhs, hact⟩ := addCycleCover_eq sv hr hnd (List.ne_nil_of_mem hrv) (fun v hv => h.simple.loops v (hr v hv))
    ⟨[], [], .didNotRun⟩
  simp only [separateCycleCover, h1, Res.ok_bind] at hs
  split at hs
  · rw [h2] at hs
    injection hs with hs
    exact ⟨[row], hs.symm, fun r hr' => by
      rw [List.mem_singleton] at hr'
      subst hr'
      exact ⟨vs, hr, hnd, hlhs, hrhs, es, hes, hact⟩⟩
  · injection hs with hs
    exact ⟨[], hs.symm, by simp⟩

end Pctsp
