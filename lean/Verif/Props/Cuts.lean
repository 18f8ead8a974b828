import Verif.Lemmas.Cuts
import Verif.Lemmas.Regular
import Verif.Props.Program

/-!
# Properties C34, C36, C37, C57, C58: separation rounds
-/

namespace Pctsp

/-- The vector of both triangles in `exTwo`: it satisfies the degree rows. -/
def exBoth : Nat → Int := fun e => if e = 6 then 0 else 1

/-- Connectivity is decided by labels that agree along positive edges, if every vertex is connected to one of its label. -/
theorem isComponents_check {g : Graph} {x : Nat → Int} {m : Nat} {ids : List Nat} (h1 : ids.length = g.n) (h2 : ∀ c ∈ ids, c < m)
    (h3 : ∀ c < m, c ∈ ids) (h4 : ∀ e ∈ List.range g.edges.length, 0 < x e → ids[(endsOf g e).1]? = ids[(endsOf g e).2]?)
    (rep : Nat → Nat) (h5 : ∀ u < g.n, ∀ v < g.n, ids[u]? = ids[v]? → rep u = rep v) (h6 : ∀ v < g.n, SupportConnected g x v (rep v)) :
    IsComponents g x m ids := by
  refine ⟨h1, h2, h3, fun u v hu hv => ⟨fun h => ?_, fun h => ?_⟩⟩
  · have := h6 v hv
    rw [← h5 u hu v hv h] at this
    exact (h6 u hu).trans (supportConnected_symm this)
  · clear hu
    induction h using Relation.ReflTransGen.head_induction_on with
    | refl => rfl
    | @head a c hac _ ih =>
      obtain ⟨e, he, hx⟩ := hac
      rw [← ih]
      have hlt : e < g.edges.length := by rcases he with he | he <;> exact (List.getElem?_eq_some_iff.1 he).1
      have := h4 e (List.mem_range.2 hlt) hx
      rcases he with he | he <;> rw [endsOf, he] at this
      · exact this
      · exact this.symm

theorem exTwo_components : IsComponents exTwo exBoth 2 [0, 0, 0, 1, 1, 1] := by
  refine isComponents_check rfl (by decide) (by decide) (by decide +kernel) (fun v => if v < 3 then 0 else 3) (by decide +kernel) ?_
  intro v hv
  have hs : ∀ e u v, EdgeBetween exTwo e u v → e ≠ 6 → SupportConnected exTwo exBoth u v := fun e u v he h6 =>
    .single ⟨e, he, by simp [exBoth, h6]⟩
  have : v = 0 ∨ v = 1 ∨ v = 2 ∨ v = 3 ∨ v = 4 ∨ v = 5 := by simp [exTwo] at hv; omega
  rcases this with rfl | rfl | rfl | rfl | rfl | rfl
  · exact .refl
  · exact hs 0 1 0 (Or.inr rfl) (by decide)
  · exact hs 2 2 0 (Or.inl rfl) (by decide)
  · exact .refl
  · exact hs 3 4 3 (Or.inr rfl) (by decide)
  · exact hs 5 5 3 (Or.inl rfl) (by decide)

/-- **C34.** Every row of a separation round holds for every tour from the root, for every labelling of the vertices. -/
theorem C34_round_valid (sv : Solver) {g : Graph} (hl : ∀ v < g.n, (v, v) ∈ g.edges) {root m : Nat} (hroot : root < g.n) {ids : List Nat}
    (h : ∀ v < g.n, ∃ c, ids[v]? = some c ∧ c < m) (st : SepState) :
    ∃ st' k rows, separateSubtourDisjoint sv g g.hasVar root m ids st = .ok (st', k) ∧ st'.offered = st.offered ++ rows ∧ k = rows.length ∧
      ∀ row ∈ rows, ∀ t es x, IsTour g root t → IncidenceOf g t es x → row.Sat x := by
  obtain ⟨pairs, rows, h1, h2, -, h3, -⟩ := separateSubtourDisjoint_eq sv hl hroot h st
  refine ⟨_, _, rows, h1, offerAll_offered _ _ _, rfl, ?_⟩
  intro row hrow t es x ht hinc
  obtain ⟨i, hi, rfl⟩ := List.getElem_of_mem hrow
  have hip : i < pairs.length := by rw [h2.length_eq]; exact hi
  have hs := h2.get hip hi
  simp only [List.get_eq_getElem] at hs
  obtain ⟨hnd, hmem, hr, hv⟩ := h3 _ (List.getElem_mem hip)
  exact secRow_valid hs (fun v hv' => ((hv v).1 hv').1) hnd (fun v hv' => hl v ((hv v).1 hv').1) hmem hr ht hinc

example : (∀ v < exTwo.n, (v, v) ∈ exTwo.edges) ∧ 0 < exTwo.n := by decide
example : ∀ v < exTwo.n, ∃ c, [0, 0, 0, 1, 1, 1][v]? = some c ∧ c < 2 := isComponents_labels exTwo_components

/-- **C36.** For a solution of the degree rows, a round offers exactly one row for each vertex that is connected to another vertex but not to
the root; every row is violated by the solution; the efficacious ones are handed to the solver. -/
theorem C36_separates (sv : Solver) {g : Graph} (hg : SimpleWithLoops g) {root m : Nat} (hroot : root < g.n) {ids : List Nat} {x : Nat → Int}
    (hx : ∀ e < g.edges.length, 0 ≤ x e) {drows : List Row} (hd : degreeRows g = .ok drows) (hsat : ∀ row ∈ drows, row.Sat x)
    (hc : IsComponents g x m ids) (st : SepState) :
    ∃ (st' : SepState) (rows : List Row) (targets : List Nat), separateSubtourDisjoint sv g g.hasVar root m ids st = .ok (st', rows.length) ∧
      st'.offered = st.offered ++ rows ∧ st'.added = st.added ++ rows.filter sv.efficacious ∧
      rows.length = targets.length ∧ targets.Nodup ∧
      (∀ v, v ∈ targets ↔ v < g.n ∧ ¬ SupportConnected g x root v ∧ ∃ u < g.n, u ≠ v ∧ SupportConnected g x v u) ∧
      ∀ row ∈ rows, ¬ row.Sat x := by
  obtain ⟨pairs, rows, h1, h2, h3, h4, h5⟩ := separateSubtourDisjoint_eq sv (fun v hv => hg.loops v hv) hroot (isComponents_labels hc) st
  obtain ⟨drows', k1, k2⟩ := degreeRows_sat hg x
  rw [hd] at k1
  cases k1
  have hdeg := k2.1 hsat
  have hmem : ∀ v, v ∈ pairs.map Prod.snd ↔ v < g.n ∧ ¬ SupportConnected g x root v ∧ ∃ u < g.n, u ≠ v ∧ SupportConnected g x v u := by
    intro v
    have : v ∈ pairs.map Prod.snd ↔ ∃ vs, (vs, v) ∈ pairs := by simp
    rw [this, h5]
    refine and_congr_right fun hv => and_congr ?_ ?_
    · rw [← hc.same root v hroot hv]
      exact not_congr eq_comm
    · refine exists_congr fun u => and_congr_right fun hu => and_congr_right fun _ => ?_
      rw [← hc.same v u hv hu]
      exact eq_comm
  refine ⟨_, rows, pairs.map Prod.snd, h1, offerAll_offered _ _ _, offerAll_added _ _ _, by rw [List.length_map, h2.length_eq], h3, hmem, ?_⟩
  intro row hrow
  obtain ⟨i, hi, rfl⟩ := List.getElem_of_mem hrow
  have hip : i < pairs.length := by rw [h2.length_eq]; exact hi
  have hs := h2.get hip hi
  simp only [List.get_eq_getElem] at hs
  have hpm := List.getElem_mem hip
  obtain ⟨hnd, hm, -, hv⟩ := h4 _ hpm
  obtain ⟨-, -, u, hu, hut, hcu⟩ := (hmem pairs[i].2).1 (List.mem_map_of_mem hpm)
  refine secRow_violated hg hs (fun v hv' => ((hv v).1 hv').1) hnd hm hx hdeg ?_ hut hcu
  intro a b hab ha hb hav
  exact (hv b).2 ⟨hb, by rw [← (hc.same a b ha hb).2 hab]; exact ((hv a).1 hav).2⟩

example : ∀ e < exTwo.edges.length, 0 ≤ exBoth e := by decide +kernel
example : ∃ drows, degreeRows exTwo = .ok drows ∧ ∀ row ∈ drows, row.Sat exBoth := ⟨_, rfl, by decide +kernel⟩
example : (separateSubtourDisjoint exSolver exTwo exTwo.hasVar 0 2 [0, 0, 0, 1, 1, 1] exState).isOk = true ∧
    ∀ st k, separateSubtourDisjoint exSolver exTwo exTwo.hasVar 0 2 [0, 0, 0, 1, 1, 1] exState = .ok (st, k) → k = 3 := by
  refine ⟨by decide +kernel, ?_⟩
  intro st k h
  have : (separateSubtourDisjoint exSolver exTwo exTwo.hasVar 0 2 [0, 0, 0, 1, 1, 1] exState) = .ok (st, 3) ∨ k = 3 := by
    right
    have h' := congrArg (fun r => match r with | Res.ok (_, k) => k | _ => 0) h
    simp only at h'
    rw [← h']
    decide +kernel
  rcases this with h2 | h2
  · rw [h] at h2; simpa using h2
  · exact h2

/-- **C58.** A 0/1 solution of the rows of the model is accepted by the check of the subtour constraint iff a separation round finds no row. -/
theorem C58_accepted_iff_nothing_separated (sv : Solver) {g : Graph} (hg : SimpleWithLoops g) {prize : Nat → Int} {quota : Int} {root m : Nat}
    (hroot : root < g.n) {ids order : List Nat} (ho : order.Perm (List.range g.edges.length)) {x : Nat → Int}
    (hx : ∀ e < g.edges.length, x e = 0 ∨ x e = 1) {rows : List Row} (hrows : modelWithoutSECs g prize quota root = .ok rows)
    (hsat : ∀ row ∈ rows, row.Sat x) (hc : IsComponents g x m ids) (st : SepState) :
    ∃ st' k, separateSubtourDisjoint sv g g.hasVar root m ids st = .ok (st', k) ∧
      (secCheck g order (fun e => decide (0 < x e)) = .ok .feasible ↔ k = 0) := by
  obtain ⟨rows', h1, h2⟩ := modelRows_sat hg prize quota hroot x
  rw [hrows] at h1
  cases h1
  obtain ⟨hq, hrt, hdeg⟩ := h2.1 hsat
  obtain ⟨drows, d1, d2⟩ := degreeRows_sat hg x
  have hx0 : ∀ e < g.edges.length, 0 ≤ x e := fun e he => by rcases hx e he with h | h <;> omega
  obtain ⟨st', srows, targets, s1, -, -, s2, -, s3, -⟩ := C36_separates sv hg hroot hx0 d1 (d2.2 hdeg) hc st
  refine ⟨st', _, s1, ?_⟩
  rw [s2, List.length_eq_zero_iff]
  constructor
  · intro hfeas
    obtain ⟨rows', h3, h4⟩ := C33_accepts_exactly_feasible_tours hg prize quota hroot ho hx
    rw [hrows] at h3
    cases h3
    obtain ⟨t, es, ht, hlen, hinc, -⟩ := h4.1 ⟨hsat, hfeas⟩
    obtain ⟨hp, hlt, hne⟩ := incidence_nonloop ht (by omega) hinc
    rw [List.eq_nil_iff_forall_not_mem]
    intro v hv
    obtain ⟨hvn, hnc, u, hu, huv, hcu⟩ := (s3 v).1 hv
    -- `v` is on the tour
    obtain ⟨z, e, he, hz, hxe⟩ := support_edge hcu (Ne.symm huv)
    have hes : e ∈ es := by
      by_contra hes
      rcases he with he | he
      · rw [hinc.edge e _ _ he hz, if_neg hes] at hxe; omega
      · rw [hinc.edge e _ _ he (Ne.symm hz), if_neg hes] at hxe; omega
    have hvt : v ∈ t := by
      obtain ⟨⟨a, b⟩, hab, hu⟩ := List.mem_map.1 (hp.mem_iff.1 (List.mem_map_of_mem (List.mem_map_of_mem hes)))
      have hm := mem_of_mem_consec hab
      rcases he with he | he
      · rw [show endsOf g e = (v, z) by simp [endsOf, he], und_eq_iff] at hu
        rcases hu with ⟨rfl, -⟩ | ⟨-, rfl⟩
        · exact hm.1
        · exact hm.2
      · rw [show endsOf g e = (z, v) by simp [endsOf, he], und_eq_iff] at hu
        rcases hu with ⟨-, rfl⟩ | ⟨rfl, -⟩
        · exact hm.2
        · exact hm.1
    -- the tour is connected
    obtain ⟨l, rfl⟩ := ht.shape
    refine hnc (consec_closed (P := SupportConnected g x root) root (l ++ [root]) ?_ .refl v hvt)
    rintro ⟨a, b⟩ hab hra
    refine hra.tail ?_
    obtain ⟨q, hq, hu⟩ := List.mem_map.1 (hp.symm.mem_iff.1 (List.mem_map_of_mem hab))
    obtain ⟨f, hf, rfl⟩ := List.mem_map.1 hq
    have hfe : g.edges[f]? = some (endsOf g f) := by simp [endsOf, hlt f hf]
    have hxf := hinc.edge f _ _ hfe (hne f hf)
    rw [if_pos hf] at hxf
    refine ⟨f, ?_, by omega⟩
    rcases hend : endsOf g f with ⟨c, d⟩
    rw [hend] at hfe hu
    rw [und_eq_iff] at hu
    rcases hu with ⟨rfl, rfl⟩ | ⟨rfl, rfl⟩
    · exact Or.inl hfe
    · exact Or.inr hfe
  · intro hnil
    generalize hes : getSolutionEdges g order (fun e => decide (0 < x e)) = es
    have hsol : ∀ e, e ∈ es ↔ ∃ u v, g.edges[e]? = some (u, v) ∧ u ≠ v ∧ 0 < x e := by
      intro e
      rw [← hes, mem_getSolutionEdges ho]
      simp only [decide_eq_true_eq]
    have hlt : ∀ e ∈ es, e < g.edges.length := by
      intro e he
      obtain ⟨u, v, hp, -⟩ := (hsol e).1 he
      exact (List.getElem?_eq_some_iff.1 hp).1
    have hnd : es.Nodup := by rw [← hes]; exact getSolutionEdges_nodup ho _
    have hne : ∀ e ∈ es, (endsOf g e).1 ≠ (endsOf g e).2 := by
      intro e he
      obtain ⟨u, v, hp, huv, -⟩ := (hsol e).1 he
      simpa [endsOf, hp] using huv
    have hedge : ∀ e u v, g.edges[e]? = some (u, v) → u ≠ v → x e = if e ∈ es then 1 else 0 := by
      intro e u v hp huv
      have h01 := hx e (List.getElem?_eq_some_iff.1 hp).1
      by_cases he : e ∈ es
      · rw [if_pos he]; obtain ⟨_, _, _, _, h⟩ := (hsol e).1 he; omega
      · rw [if_neg he]
        have : ¬ 0 < x e := fun h => he ((hsol e).2 ⟨u, v, hp, huv, h⟩)
        omega
    have hd := edgeSum_incident hnd hlt hne hedge
    have hlt2 : ∀ v, degreeIn (es.map (endsOf g)) v ≠ 0 → v < g.n := by
      intro v hv
      obtain ⟨e, he, p, hp, h⟩ := incident_endsOf hlt (v := v) (by omega)
      have := hg.wf _ (List.mem_of_getElem? hp)
      rcases h with rfl | rfl
      · exact this.1
      · exact this.2
    have hval : ∀ v < g.n, loopVal g x v = 0 ∨ loopVal g x v = 1 := by
      intro v hv
      obtain ⟨i, hi⟩ := Option.isSome_iff_exists.1 (edgeIdx_isSome_iff.2 (Or.inl (hg.loops v hv) : Adj g v v))
      have : i < g.edges.length := by rcases edgeIdx_eq_some hi with h | h <;> exact (List.getElem?_eq_some_iff.1 h).1
      have := hx i this
      simpa [loopVal, hi] using this
    have hdeg2 : ∀ v, degreeIn (es.map (endsOf g)) v = 0 ∨ degreeIn (es.map (endsOf g)) v = 2 := by
      intro v
      by_cases hv : degreeIn (es.map (endsOf g)) v = 0
      · exact Or.inl hv
      · have h3 := hlt2 v hv
        have h4 := hdeg v h3
        rw [hd] at h4
        have := hval v h3
        omega
    have hconn0 : ∀ v, degreeIn (es.map (endsOf g)) v ≠ 0 → SupportConnected g x root v := by
      intro v hv
      by_contra hcon
      obtain ⟨e, he, ⟨a, b⟩, hp, h⟩ := incident_endsOf hlt (v := v) (by omega)
      obtain ⟨a', b', hp', hab, hxe⟩ := (hsol e).1 he
      rw [hp] at hp'
      simp only [Option.some.injEq, Prod.mk.injEq] at hp'
      obtain ⟨rfl, rfl⟩ := hp'
      have hwf := hg.wf _ (List.mem_of_getElem? hp)
      have : v ∈ targets := by
        rw [s3]
        rcases h with rfl | rfl
        · exact ⟨hwf.1, hcon, b, hwf.2, Ne.symm hab, .single ⟨e, Or.inl hp, hxe⟩⟩
        · exact ⟨hwf.2, hcon, a, hwf.1, hab, .single ⟨e, Or.inr hp, hxe⟩⟩
      rw [hnil] at this
      simp at this
    have hstep : ∀ a b, SupportConnected g x a b → Relation.ReflTransGen (fun a b => b ∈ adjOf (es.map (endsOf g)) a) a b := by
      intro a b hab
      induction hab with
      | refl => exact .refl
      | @tail b c _ hbc ih =>
        by_cases hbc' : b = c
        · rw [← hbc']; exact ih
        · refine ih.tail ?_
          obtain ⟨e, he, hxe⟩ := hbc
          have hee : e ∈ es := by
            rw [hsol]
            rcases he with he | he
            · exact ⟨b, c, he, hbc', hxe⟩
            · exact ⟨c, b, he, Ne.symm hbc', hxe⟩
          simp only [adjOf, List.mem_flatMap]
          refine ⟨endsOf g e, List.mem_map_of_mem hee, ?_⟩
          rcases he with he | he
          · rw [show endsOf g e = (b, c) by simp [endsOf, he]]; simp [Graph.nbrsOf]
          · rw [show endsOf g e = (c, b) by simp [endsOf, he]]; simp [Graph.nbrsOf]
    have hne0 : es.map (endsOf g) ≠ [] := by
      intro h0
      have := hdeg root hroot
      rw [hd, h0, hrt] at this
      simp [degreeIn] at this
    obtain ⟨vs, hvs⟩ := regular_connected_cycle hne0 (by
      intro q hq
      obtain ⟨e, he, rfl⟩ := List.mem_map.1 hq
      exact hne e he) hdeg2 (fun u v hu hv => hstep u v ((supportConnected_symm (hconn0 u hu)).trans (hconn0 v hv)))
    have hb := isSimpleCyclePairs_complete hvs
    have hm : mapRes g.ends es = .ok (es.map (endsOf g)) := by
      rw [mapRes_eq_ok]
      exact (ends_forall₂ hlt).imp fun _ _ h => ends_ok.2 h
    simp [secCheck, hes, isSimpleCycle, hm, hb, Res.pure_eq]

example : ∀ e < exTwo.edges.length, exBoth e = 0 ∨ exBoth e = 1 := by decide +kernel
example : ∃ rows, modelWithoutSECs exTwo (fun _ => 1) 3 0 = .ok rows ∧ ∀ row ∈ rows, row.Sat exBoth := ⟨_, rfl, by decide +kernel⟩

/-! ### C37 -/

theorem prizeSum_mono {prize : Nat → Int} {n : Nat} (hp : ∀ v < n, 0 ≤ prize v) {as bs : List Nat} (ha : as.Nodup) (hsub : ∀ v ∈ as, v ∈ bs)
    (hb : ∀ v ∈ bs, v < n) : prizeSum prize as ≤ prizeSum prize bs := by
  have hsp : as.Subperm bs := ha.subperm hsub
  obtain ⟨l, hl, hs⟩ := hsp
  have h1 : prizeSum prize l = prizeSum prize as := sum_eq_of_perm (hl.map prize)
  rw [← h1]
  clear h1 hl hsub ha
  induction hs with
  | slnil => exact Int.le_refl _
  | @cons l bs b _ ih =>
    have := ih (fun v hv => hb v (by simp [hv]))
    have := hp b (hb b (by simp))
    simp only [prizeSum, List.map_cons, List.sum_cons] at *
    omega
  | @cons_cons l bs b _ ih =>
    have := ih (fun v hv => hb v (by simp [hv]))
    simp only [prizeSum, List.map_cons, List.sum_cons] at *
    omega

theorem tour_lt {g : Graph} (hg : g.WF) {root : Nat} {t : List Nat} (ht : IsTour g root t) : ∀ v ∈ t, v < g.n := by
  obtain ⟨m, rfl⟩ := ht.shape
  intro v hv
  have hv' : v ∈ (root :: (m ++ [root])).dropLast := by rw [dropLast_tour]; simp at hv ⊢; tauto
  rw [← consec_fst] at hv'
  obtain ⟨⟨a, b⟩, hw, rfl⟩ := List.mem_map.1 hv'
  rcases ht.walk _ hw with h | h
  · exact (hg _ h).1
  · exact (hg _ h).2

theorem tour_prize_le {g : Graph} {prize : Nat → Int} (hp : ∀ v < g.n, 0 ≤ prize v) {root : Nat} {t vs : List Nat} (ht : IsTour g root t)
    (hsub : ∀ v ∈ t, v ∈ vs) (hvs : ∀ v ∈ vs, v < g.n) : tourPrize prize t ≤ prizeSum prize vs :=
  prizeSum_mono hp ht.nodup (fun v hv => hsub v (List.mem_of_mem_dropLast hv)) hvs

theorem isPrizeFeasible_iff (prize : Nat → Int) (quota : Int) (vs : List Nat) : isPrizeFeasible prize quota vs = true ↔ quota ≤ prizeSum prize vs := by
  rw [isPrizeFeasible, decide_eq_true_eq, foldl_add_eq_sum, prizeSum, Int.zero_add]

theorem getRootComponent_ok {g : Graph} {root m : Nat} (hroot : root < g.n) {ids : List Nat} (h : ∀ v < g.n, ∃ c, ids[v]? = some c ∧ c < m) :
    ∃ vs, getRootComponent g root m ids = .ok vs ∧ vs.Nodup ∧ ∀ v, v ∈ vs ↔ v < g.n ∧ ids[v]? = ids[root]? := by
  obtain ⟨comps, h1, hlen, h2, -, -⟩ := C28_component_vectors g.n m ids h
  obtain ⟨rootId, hrid, hrm⟩ := h root hroot
  have hcc : comps[rootId]? = some (comps[rootId]'(by omega)) := List.getElem?_eq_getElem (by omega)
  obtain ⟨hs, hm⟩ := h2 _ _ hcc
  refine ⟨_, by simp only [getRootComponent, h1, Res.ok_bind, hrid, hcc, Res.pure_eq], hs.imp fun h => Nat.ne_of_lt h, fun v => ?_⟩
  rw [hm v, hrid]

/-- **C37.** A round of the cycle cover separation offers a row iff the prize of the root's component is below the quota; the row holds for
every tour from the root whose prize meets the quota. -/
theorem C37_valid (sv : Solver) {g : Graph} (hl : ∀ v < g.n, (v, v) ∈ g.edges) {prize : Nat → Int} (hp : ∀ v < g.n, 0 ≤ prize v)
    (quota : Int) {root m : Nat} (hroot : root < g.n) {ids : List Nat} (h : ∀ v < g.n, ∃ c, ids[v]? = some c ∧ c < m) (st : SepState) :
    ∃ vs, vs.Nodup ∧ (∀ v, v ∈ vs ↔ v < g.n ∧ ids[v]? = ids[root]?) ∧
      (quota ≤ prizeSum prize vs → separateCycleCover sv g g.hasVar prize quota root m ids st = .ok st) ∧
      (prizeSum prize vs < quota → ∃ st' row, separateCycleCover sv g g.hasVar prize quota root m ids st = .ok st' ∧
        st'.offered = st.offered ++ [row] ∧ ∀ t es x, IsTour g root t → IncidenceOf g t es x → quota ≤ tourPrize prize t → row.Sat x) := by
  obtain ⟨vs, h1, hnd, hmem⟩ := getRootComponent_ok hroot h
  have hr : ∀ v ∈ vs, v < g.n := fun v hv => ((hmem v).1 hv).1
  have hrv : root ∈ vs := (hmem root).2 ⟨hroot, rfl⟩
  refine ⟨vs, hnd, hmem, ?_, ?_⟩
  · intro hq
    rw [← isPrizeFeasible_iff] at hq
    simp [separateCycleCover, h1, hq, Res.pure_eq]
  · intro hq
    have hq' : isPrizeFeasible prize quota vs = false := by
      rw [Bool.eq_false_iff]
      intro hcon
      rw [isPrizeFeasible_iff] at hcon
      omega
    obtain ⟨row, es, h2, hes, hlhs, hrhs, hact⟩ := addCycleCover_eq sv hr hnd (List.ne_nil_of_mem hrv) (fun v hv => hl v (hr v hv)) st
    refine ⟨offerRow sv row st, row, by simp [separateCycleCover, h1, hq', h2], offerRow_offered _ _ _, ?_⟩
    intro t es' x ht hinc hqt
    obtain ⟨-, h3⟩ := incidence_inside ht hinc hr hnd (fun v hv => hl v (hr v hv)) hes
    have hroot' : root ∈ t := by obtain ⟨m, rfl⟩ := ht.shape; simp
    have hout : ∃ b ∈ t, b ∉ vs := by
      by_contra hcon
      have hsub : ∀ v ∈ t, v ∈ vs := by
        intro v hv
        by_contra h
        exact hcon ⟨v, hv, h⟩
      have := tour_prize_le hp ht hsub hr
      omega
    have := h3 ⟨root, hroot', hrv⟩ hout
    rw [Row.Sat, hlhs, hrhs, hact]
    simp only [reduceCtorEq, Option.some.injEq, forall_eq', false_imp_iff, implies_true, true_and]
    omega

example : (∀ v < exTwo.n, (v, v) ∈ exTwo.edges) ∧ prizeSum (fun _ => 1) [0, 1, 2] < 4 := by decide

/-- **C37.** The row is violated by every solution of the degree rows whose component of the root it was built for. -/
theorem C37_separates (sv : Solver) {g : Graph} (hg : SimpleWithLoops g) {prize : Nat → Int} {quota : Int} {root m : Nat} (hroot : root < g.n)
    {ids : List Nat} {x : Nat → Int} (hx : ∀ e < g.edges.length, 0 ≤ x e) {drows : List Row} (hd : degreeRows g = .ok drows)
    (hsat : ∀ row ∈ drows, row.Sat x) (hc : IsComponents g x m ids) (st : SepState)
    (hq : ∀ vs : List Nat, vs.Nodup → (∀ v, v ∈ vs ↔ v < g.n ∧ SupportConnected g x root v) → prizeSum prize vs < quota) :
    ∃ st' row, separateCycleCover sv g g.hasVar prize quota root m ids st = .ok st' ∧ st'.offered = st.offered ++ [row] ∧ ¬ row.Sat x := by
  obtain ⟨vs, h1, hnd, hmem⟩ := getRootComponent_ok hroot (isComponents_labels hc)
  have hr : ∀ v ∈ vs, v < g.n := fun v hv => ((hmem v).1 hv).1
  have hrv : root ∈ vs := (hmem root).2 ⟨hroot, rfl⟩
  have hq1 := hq vs hnd (fun v => by
    rw [hmem]
    refine and_congr_right fun hv => ?_
    rw [← hc.same root v hroot hv]
    exact eq_comm)
  have hq' : isPrizeFeasible prize quota vs = false := by
    rw [Bool.eq_false_iff]
    intro hcon
    rw [isPrizeFeasible_iff] at hcon
    omega
  obtain ⟨row, es, h2, hes, hlhs, hrhs, hact⟩ := addCycleCover_eq sv hr hnd (List.ne_nil_of_mem hrv) (fun v hv => hg.loops v (hr v hv)) st
  refine ⟨offerRow sv row st, row, by simp [separateCycleCover, h1, hq', h2], offerRow_offered _ _ _, ?_⟩
  obtain ⟨drows', k1, k2⟩ := degreeRows_sat hg x
  rw [hd] at k1
  cases k1
  have hcut := cut_form hg hr hnd hes (fun v hv => k2.1 hsat v (hr v hv))
  rw [component_cut hg.wf hx (fun a b hab ha hb hav => (hmem b).2 ⟨hb, by rw [← (hc.same a b ha hb).2 hab]; exact ((hmem a).1 hav).2⟩)] at hcut
  rw [Row.Sat, hlhs, hrhs, hact]
  simp only [reduceCtorEq, Option.some.injEq, forall_eq', false_imp_iff, implies_true, true_and]
  omega

example : ∃ st, separateCycleCover exSolver exTwo exTwo.hasVar (fun _ => 1) 4 0 2 [0, 0, 0, 1, 1, 1] exState = .ok st ∧ st.result = .separated :=
  ⟨_, rfl, by decide +kernel⟩

/-- **C37.** The check of the cycle cover constraint accepts the vector of every tour from the root whose prize meets the quota. -/
theorem C37_check_accepts {g : Graph} (hg : g.WF) {prize : Nat → Int} (hp : ∀ v < g.n, 0 ≤ prize v) {quota : Int} {root m : Nat} (hroot : root < g.n)
    {ids t es : List Nat} {x : Nat → Int} (hc : IsComponents g x m ids) (ht : IsTour g root t) (hlen : 3 ≤ t.length) (hinc : IncidenceOf g t es x)
    (hq : quota ≤ tourPrize prize t) : cycleCoverCheck g prize quota root m ids = .ok .feasible := by
  obtain ⟨vs, h1, hnd, hmem⟩ := getRootComponent_ok hroot (isComponents_labels hc)
  obtain ⟨hperm, hlt, hne⟩ := incidence_nonloop ht hlen hinc
  have hsub : ∀ v ∈ t, v ∈ vs := by
    intro v hv
    rw [hmem]
    have hvn := tour_lt hg ht v hv
    refine ⟨hvn, ?_⟩
    rw [eq_comm, hc.same root v hroot hvn]
    obtain ⟨l, rfl⟩ := ht.shape
    refine consec_closed (P := SupportConnected g x root) root (l ++ [root]) ?_ .refl v hv
    rintro ⟨a, b⟩ hab hra
    refine hra.tail ?_
    obtain ⟨q, hq, hu⟩ := List.mem_map.1 (hperm.symm.mem_iff.1 (List.mem_map_of_mem hab))
    obtain ⟨f, hf, rfl⟩ := List.mem_map.1 hq
    have hfe : g.edges[f]? = some (endsOf g f) := by simp [endsOf, hlt f hf]
    have hxf := hinc.edge f _ _ hfe (hne f hf)
    rw [if_pos hf] at hxf
    refine ⟨f, ?_, by omega⟩
    rcases hend : endsOf g f with ⟨c, d⟩
    rw [hend] at hfe hu
    rw [und_eq_iff] at hu
    rcases hu with ⟨rfl, rfl⟩ | ⟨rfl, rfl⟩
    · exact Or.inl hfe
    · exact Or.inr hfe
  have hle := tour_prize_le hp ht hsub (fun v hv => ((hmem v).1 hv).1)
  have hq' : isPrizeFeasible prize quota vs = true := by rw [isPrizeFeasible_iff]; omega
  simp [cycleCoverCheck, h1, hq', Res.pure_eq]

example : cycleCoverCheck exTwo (fun _ => 1) 3 0 2 [0, 0, 0, 1, 1, 1] = .ok .feasible := by decide +kernel
example : cycleCoverCheck exTwo (fun _ => 1) 4 0 2 [0, 0, 0, 1, 1, 1] = .ok .infeasible := by decide +kernel

/-! ### C57 -/

/-- The result of offering rows one after the other: the last efficacious row decides. -/
theorem offerAll_result (sv : Solver) (rows : List Row) (row : Row) (st : SepState) (h : sv.efficacious row = true) :
    (offerAll sv (rows ++ [row]) st).result =
      if sv.infeasible (st.added ++ rows.filter sv.efficacious) row then .cutoff else .separated := by
  rw [offerAll_append, offerAll, offerAll, offerRow, if_pos h, offerAll_added]

/-- **C57.** A cutoff reported for an earlier row of a round is lost when a later row is added without one. -/
theorem C57_cutoff_lost : ∃ (sv : Solver) (g : Graph) (ids : List Nat) (st st' : SepState) (k : Nat) (row : Row), SimpleWithLoops g ∧
    separateSubtourDisjoint sv g g.hasVar 0 2 ids st = .ok (st', k) ∧ st'.added.head? = some row ∧ sv.infeasible [] row = true ∧
    st.added = [] ∧ st'.result = .separated := by
  refine ⟨{ efficacious := fun _ => true, infeasible := fun added _ => added.isEmpty }, exTwo, [0, 0, 0, 1, 1, 1], exState, _, _, _,
    by decide +kernel, rfl, rfl, rfl, rfl, by decide +kernel⟩

/-- **C57.** The exact rule: the last efficacious row alone decides the result of a round. -/
theorem C57_result (sv : Solver) {g : Graph} (hl : ∀ v < g.n, (v, v) ∈ g.edges) {root m : Nat} (hroot : root < g.n) {ids : List Nat}
    (h : ∀ v < g.n, ∃ c, ids[v]? = some c ∧ c < m) (st : SepState) :
    ∃ st' k rows, separateSubtourDisjoint sv g g.hasVar root m ids st = .ok (st', k) ∧ st'.added = st.added ++ rows ∧
      (rows = [] → st'.result = st.result) ∧
      (∀ init last, rows = init ++ [last] → st'.result = if sv.infeasible (st.added ++ init) last then .cutoff else .separated) := by
  obtain ⟨pairs, rows, h1, -⟩ := separateSubtourDisjoint_eq sv hl hroot h st
  refine ⟨_, _, rows.filter sv.efficacious, h1, offerAll_added _ _ _, ?_⟩
  clear h1
  induction rows using List.reverseRecOn with
  | nil => simp [offerAll]
  | append_singleton rows row ih =>
    by_cases he : sv.efficacious row = true
    · refine ⟨?_, ?_⟩
      · intro h0; simp [he] at h0
      · intro init last heq
        rw [List.filter_append, List.filter_cons, if_pos he, List.filter_nil] at heq
        obtain ⟨rfl, h2⟩ := List.append_inj' heq rfl
        simp at h2
        subst h2
        exact offerAll_result sv rows row st he
    · have h2 : (offerAll sv (rows ++ [row]) st).result = (offerAll sv rows st).result := by
        rw [offerAll_append, offerAll, offerAll, offerRow, if_neg he]
      rw [h2, List.filter_append, List.filter_cons, if_neg he, List.filter_nil, List.append_nil]
      exact ih

example : (∀ v < exTwo.n, (v, v) ∈ exTwo.edges) ∧ 0 < exTwo.n := by decide

end Pctsp
