import Verif.Lemmas.Flow
import Verif.Lemmas.Cuts
import Verif.Lemmas.Binding

/-! # Lemmas about the separation by minimum cuts -/

namespace Pctsp

theorem graphOf_n {D : List Nat} {es : List (Nat × Nat)} {ne : List (Nat × Nat)} (hD : D.Nodup) (h : List.Forall₂ (Names D) es ne)
    (hmem : ∀ x, x ∈ D → x ∈ endpoints es) : (graphOf ne).n = D.length := by
  apply Nat.le_antisymm
  · have key : ∀ (l : List (Nat × Nat)) (g : Graph), g.n ≤ D.length → (∀ e ∈ l, e.1 < D.length ∧ e.2 < D.length) → (g.addEdges l).n ≤ D.length := by
      intro l
      induction l with
      | nil => intro g hg _; exact hg
      | cons e l ih =>
        intro g hg hl
        have he := hl e (by simp)
        exact ih (g.addEdge e.1 e.2) (by simp only [Graph.addEdge]; omega) (fun e he => hl e (by simp [he]))
    refine key ne _ (Nat.zero_le _) ?_
    intro e he
    obtain ⟨i, hi⟩ := List.mem_iff_getElem?.1 he
    obtain ⟨e', -, hn⟩ := (forall₂_getElem? h).2 e hi
    exact ⟨(List.getElem?_eq_some_iff.1 hn.1).1, (List.getElem?_eq_some_iff.1 hn.2).1⟩
  · by_contra hc
    have hlt : (graphOf ne).n < D.length := by omega
    have := lt_graphOf hD h hmem (List.getElem?_eq_getElem hlt)
    omega

theorem getOldVertices_number {D : List Nat} (us : List Nat) (h : ∀ u ∈ us, u < D.length) :
    getOldVertices (number 0 D) us = .ok (us.map fun u => D.getD u 0) := by
  refine mapRes_forall₂ ?_
  rw [List.forall₂_map_right_iff]
  refine List.forall₂_same.2 fun u hu => ?_
  rw [getOldVertex_number]
  simp [h u hu]

theorem map_getD_nodup {D : List Nat} (hD : D.Nodup) {us : List Nat} (hus : us.Nodup) (h : ∀ u ∈ us, u < D.length) :
    (us.map fun u => D.getD u 0).Nodup := by
  refine List.Nodup.map_on ?_ hus
  intro a ha b hb hab
  have ha' := h a ha
  have hb' := h b hb
  simp only [List.getD_eq_getElem?_getD, List.getElem?_eq_getElem ha', List.getElem?_eq_getElem hb', Option.getD_some] at hab
  exact (List.Nodup.getElem_inj_iff hD).1 hab

theorem mem_map_getD {D : List Nat} (hD : D.Nodup) {us : List Nat} (h : ∀ u ∈ us, u < D.length) {k : Nat} {x : Nat} (hk : D[k]? = some x) :
    x ∈ us.map (fun u => D.getD u 0) ↔ k ∈ us := by
  rw [List.mem_map]
  constructor
  · rintro ⟨u, hu, rfl⟩
    have := h u hu
    rw [List.getD_eq_getElem?_getD, List.getElem?_eq_getElem this, Option.getD_some] at hk
    rw [nodup_getElem?_inj hD hk (List.getElem?_eq_getElem this)]; exact hu
  · intro hm
    exact ⟨k, hm, by simp [hk]⟩

/-- A set and a target for which a row is valid. -/
structure GoodPair (g : Graph) (root : Nat) (p : List Nat × Nat) : Prop where
  lt : ∀ v ∈ p.1, v < g.n
  nodup : p.1.Nodup
  target : p.2 < g.n
  sep : ¬ (root ∈ p.1 ↔ p.2 ∈ p.1)

theorem secRow_valid_sep {g : Graph} (hl : ∀ v < g.n, (v, v) ∈ g.edges) {root : Nat} {p : List Nat × Nat} (hp : GoodPair g root p) {row : Row}
    (h : SecRow g p.1 p.2 row) {t es : List Nat} {x : Nat → Int} (htour : IsTour g root t) (hinc : IncidenceOf g t es x) : row.Sat x := by
  obtain ⟨es', hes, hact⟩ := h.act
  obtain ⟨h2, h3⟩ := incidence_inside htour hinc hp.lt hp.nodup (fun v hv => hl v (hp.lt v hv)) hes
  have hy := loopVal_incidence hinc (hl p.2 hp.target)
  have hroot' : root ∈ t := by obtain ⟨m, rfl⟩ := htour.shape; simp
  rw [Row.Sat, h.lhs, h.rhs, hact]
  simp only [reduceCtorEq, Option.some.injEq, forall_eq', false_imp_iff, implies_true, true_and]
  by_cases htt : p.2 ∈ t
  · rw [if_pos htt] at hy
    have hs := hp.sep
    by_cases hr : root ∈ p.1
    · have := h3 ⟨root, hroot', hr⟩ ⟨p.2, htt, fun hc => hs ⟨fun _ => hc, fun _ => hr⟩⟩
      omega
    · have := h3 ⟨p.2, htt, by by_contra hc; exact hs ⟨fun h => absurd h hr, fun h => absurd h hc⟩⟩ ⟨root, hroot', hr⟩
      omega
  · rw [if_neg htt] at hy
    omega

/-- The row of a good pair is violated iff the cut is below twice the value of the target. -/
theorem secRow_violated_iff {g : Graph} (hg : SimpleWithLoops g) {root : Nat} {p : List Nat × Nat} (hp : GoodPair g root p) {row : Row}
    (h : SecRow g p.1 p.2 row) {x : Nat → Int} (hdeg : ∀ v < g.n, edgeSum g x (incident g v) = 2 * loopVal g x v) :
    ¬ row.Sat x ↔ edgeSum g x (crosses g fun v => decide (v ∈ p.1)) < 2 * loopVal g x p.2 := by
  obtain ⟨es', hes, hact⟩ := h.act
  have hcut := cut_form hg hp.lt hp.nodup hes (fun v hv => hdeg v (hp.lt v hv))
  rw [Row.Sat, h.lhs, h.rhs, hact]
  simp only [reduceCtorEq, Option.some.injEq, forall_eq', false_imp_iff, implies_true, true_and]
  omega

section Loops

variable (sv : Solver) {g : Graph} {D : List Nat} {root : Nat}

theorem secUnreachableLoop_eq (hl : ∀ v < g.n, (v, v) ∈ g.edges) (hD : D.Nodup) (hDn : ∀ v ∈ D, v < g.n) {vs : List Nat}
    (hvs : ∀ v ∈ vs, v < g.n) (hnd : vs.Nodup) (us : List Nat) (hus : ∀ u ∈ us, u < D.length)
    (hsep : ∀ u ∈ us, ¬ (root ∈ vs ↔ D.getD u 0 ∈ vs)) (s : MaxflowState) :
    ∃ rows, secUnreachableLoop sv g g.hasVar (number 0 D) vs root us s =
        .ok { sep := offerAll sv rows s.sep, count := s.count + us.length, done := us.foldl (fun d u => upd d u true) s.done } ∧
      List.Forall₂ (fun u row => SecRow g vs (D.getD u 0) row) us rows := by
  induction us generalizing s with
  | nil => exact ⟨[], rfl, .nil⟩
  | cons u us ih =>
    have hu := hus u (by simp)
    have hget : D[u]? = some (D.getD u 0) := by simp [hu]
    have hm : D.getD u 0 ∈ D := List.mem_of_getElem? hget
    obtain ⟨row, es, h1, h2, h3, h4, h5⟩ := addSEC_eq sv hvs hnd (fun v hv => hl v (hvs v hv)) (hDn _ hm) (hl _ (hDn _ hm)) (root := root)
      (hsep u (by simp)) s.sep
    obtain ⟨rows, h6, h7⟩ := ih (fun v hv => hus v (by simp [hv])) (fun v hv => hsep v (by simp [hv]))
      { sep := offerRow sv row s.sep, count := s.count + 1, done := upd s.done u true }
    refine ⟨row :: rows, ?_, .cons ⟨h3, h4, es, h2, h5⟩ h7⟩
    rw [secUnreachableLoop, (getOldVertex_number _ _ _).2 hget, Res.ok_bind, h1, Res.ok_bind, (getNewVertex_number hD _ _).2 hget, Res.ok_bind, h6,
      offerAll, List.length_cons]
    simp only [Res.ok.injEq, MaxflowState.mk.injEq, true_and]
    exact ⟨by omega, rfl⟩

variable (flow : MaxFlow) (visit : Visit) (des : List ((Nat × Nat) × Int)) (n sr : Nat)

/-- The set for which rows are added when the flow to `t` is too small. -/
def cutSide (D : List Nat) (t : Nat) : List Nat :=
  (if (getUnreachableVertices visit n des sr (flow des sr t).residual).length ≥ 3 then
    getUnreachableVertices visit n des sr (flow des sr t).residual
  else getReachableVertices visit n des sr (flow des sr t).residual).map fun u => D.getD u 0

/-- `(vs, v)` is a set and a target of the round, found with the flow to `t`. -/
def FoundAt (D : List Nat) (t : Nat) (p : List Nat × Nat) : Prop :=
  (flow des sr t).value < 2 * flowMultiplier ∧ p.1 = cutSide flow visit des n sr D t ∧
    ∃ u ∈ getUnreachableVertices visit n des sr (flow des sr t).residual, p.2 = D.getD u 0

theorem maxflowTargetLoop_eq (hl : ∀ v < g.n, (v, v) ∈ g.edges) (hD : D.Nodup) (hDn : ∀ v ∈ D, v < g.n) (hn : n = D.length)
    (hsr : D[sr]? = some root) (hself : ∀ es, visit es sr sr = true) (ts : List Nat) (s : MaxflowState) :
    ∃ (pairs : List (List Nat × Nat)) (rows : List Row) (s' : MaxflowState),
      maxflowTargetLoop sv g g.hasVar (number 0 D) flow visit des n sr root ts s = .ok s' ∧
      s'.sep = offerAll sv rows s.sep ∧ s'.count = s.count + rows.length ∧
      List.Forall₂ (fun p row => SecRow g p.1 p.2 row) pairs rows ∧ (∀ p ∈ pairs, GoodPair g root p) ∧
      (∀ p ∈ pairs, ∃ t ∈ ts, s.done t = false ∧ FoundAt flow visit des n sr D t p) ∧
      ((∀ t ∈ ts, s.done t = false → 2 * flowMultiplier ≤ (flow des sr t).value) → rows = []) ∧
      ((∀ t ∈ ts, s.done t = false → (flow des sr t).value < 2 * flowMultiplier →
          getUnreachableVertices visit n des sr (flow des sr t).residual ≠ []) → rows = [] →
        ∀ t ∈ ts, s.done t = false → 2 * flowMultiplier ≤ (flow des sr t).value) := by
  induction ts generalizing s with
  | nil => exact ⟨[], [], s, rfl, rfl, rfl, .nil, by simp, by simp, by simp, by simp⟩
  | cons t ts ih =>
    rw [maxflowTargetLoop]
    by_cases hdone : s.done t = true
    · rw [if_pos hdone]
      obtain ⟨pairs, rows, s', h1, h2, h3, h4, h5, h6, h7, h8⟩ := ih s
      refine ⟨pairs, rows, s', h1, h2, h3, h4, h5, ?_, ?_, ?_⟩
      · intro p hp
        obtain ⟨t', a, b, c⟩ := h6 p hp
        exact ⟨t', by simp [a], b, c⟩
      · intro h; exact h7 fun t' ht' => h t' (by simp [ht'])
      · intro h hr t' ht' hd
        rcases List.mem_cons.1 ht' with rfl | ht'
        · rw [hdone] at hd; simp at hd
        · exact h8 (fun t' ht' => h t' (by simp [ht'])) hr t' ht' hd
    · rw [if_neg hdone]
      have hdone' : s.done t = false := by simpa using hdone
      simp only
      by_cases hval : (flow des sr t).value < 2 * flowMultiplier
      · rw [if_pos hval]
        set un := getUnreachableVertices visit n des sr (flow des sr t).residual with hun
        set re := getReachableVertices visit n des sr (flow des sr t).residual with hre
        have hunlt : ∀ u ∈ un, u < D.length := by
          intro u hu; rw [hun, getUnreachableVertices, List.mem_filter, List.mem_range] at hu; omega
        have hrelt : ∀ u ∈ re, u < D.length := by
          intro u hu; rw [hre, getReachableVertices, List.mem_filter, List.mem_range] at hu; omega
        have hunre : ∀ u < n, (u ∈ un ↔ u ∉ re) := by
          intro u hu
          rw [hun, hre, getUnreachableVertices, getReachableVertices, List.mem_filter, List.mem_filter]
          simp [hu]
        have hsrn : sr < n := by rw [hn]; exact (List.getElem?_eq_some_iff.1 hsr).1
        have hsrre : sr ∈ re := by
          rw [hre, getReachableVertices, List.mem_filter]; exact ⟨by simpa using hsrn, hself _⟩
        set side := (if un.length ≥ 3 then un else re) with hside
        have hsidelt : ∀ u ∈ side, u < D.length := by rw [hside]; split <;> assumption
        have hsidend : side.Nodup := by
          rw [hside, hun, hre, getUnreachableVertices, getReachableVertices]
          split <;> exact List.Nodup.filter _ List.nodup_range
        have hvs : ∀ v ∈ side.map (fun u => D.getD u 0), v < g.n := by
          intro v hv
          obtain ⟨u, hu, rfl⟩ := List.mem_map.1 hv
          apply hDn
          have := hsidelt u hu
          rw [List.getD_eq_getElem?_getD, List.getElem?_eq_getElem this]; exact List.getElem_mem this
        have hnd := map_getD_nodup hD hsidend hsidelt
        have hsep : ∀ u ∈ un, ¬ (root ∈ side.map (fun u => D.getD u 0) ↔ D.getD u 0 ∈ side.map (fun u => D.getD u 0)) := by
          intro u hu
          have hu' := hunlt u hu
          rw [mem_map_getD hD hsidelt hsr, mem_map_getD hD hsidelt (k := u) (by simp [hu'])]
          have h1 : sr ∉ un := fun hc => ((hunre sr hsrn).1 hc) hsrre
          have h2 : u ∉ re := (hunre u (by omega)).1 hu
          rw [hside]
          split
          · tauto
          · tauto
        obtain ⟨rows1, g1, g2⟩ := secUnreachableLoop_eq sv hl hD hDn hvs hnd un hunlt hsep s
        obtain ⟨pairs, rows, s', h1, h2, h3, h4, h5, h6, h7, h8⟩ := ih
          { sep := offerAll sv rows1 s.sep, count := s.count + un.length, done := un.foldl (fun d u => upd d u true) s.done }
        have hmono : ∀ (l : List Nat) (d : Nat → Bool) (w : Nat), (l.foldl (fun d u => upd d u true) d) w = false → d w = false := by
          intro l
          induction l with
          | nil => intro d w h; exact h
          | cons a l ih =>
            intro d w h
            have : upd d a true w = false := ih _ w h
            rw [upd] at this
            split at this <;> simp_all
        refine ⟨un.map (fun u => (side.map (fun u => D.getD u 0), D.getD u 0)) ++ pairs, rows1 ++ rows, s', ?_, ?_, ?_, ?_, ?_, ?_, ?_, ?_⟩
        · rw [getOldVertices_number _ hsidelt, Res.ok_bind, g1, Res.ok_bind, h1]
        · rw [h2, offerAll_append]
        · rw [h3, List.length_append, ← g2.length_eq]; simp only; omega
        · refine List.rel_append ?_ h4
          rw [List.forall₂_map_left_iff]
          exact g2
        · intro p hp
          rcases List.mem_append.1 hp with hp | hp
          · obtain ⟨u, hu, rfl⟩ := List.mem_map.1 hp
            refine ⟨hvs, hnd, ?_, hsep u hu⟩
            apply hDn
            have := hunlt u hu
            simp only
            rw [List.getD_eq_getElem?_getD, List.getElem?_eq_getElem this]; exact List.getElem_mem this
          · exact h5 p hp
        · intro p hp
          rcases List.mem_append.1 hp with hp | hp
          · obtain ⟨u, hu, rfl⟩ := List.mem_map.1 hp
            exact ⟨t, by simp, hdone', hval, rfl, u, hu, rfl⟩
          · obtain ⟨t', a, b, c⟩ := h6 p hp
            exact ⟨t', by simp [a], hmono un _ _ b, c⟩
        · intro h
          have := h t (by simp) hdone'
          omega
        · intro h hr
          have hr1 : rows1 = [] := (List.append_eq_nil_iff.1 hr).1
          subst hr1
          have := h t (by simp) hdone' hval
          have h0 := g2.length_eq
          exact absurd (List.length_eq_zero_iff.1 h0) this
      · rw [if_neg hval]
        obtain ⟨pairs, rows, s', h1, h2, h3, h4, h5, h6, h7, h8⟩ := ih s
        refine ⟨pairs, rows, s', h1, h2, h3, h4, h5, ?_, ?_, ?_⟩
        · intro p hp
          obtain ⟨t', a, b, c⟩ := h6 p hp
          exact ⟨t', by simp [a], b, c⟩
        · intro h; exact h7 fun t' ht' => h t' (by simp [ht'])
        · intro h hr t' ht' hd
          rcases List.mem_cons.1 ht' with rfl | ht'
          · omega
          · exact h8 (fun t' ht' => h t' (by simp [ht'])) hr t' ht' hd

end Loops

/-! ### The whole round -/

theorem capacityOf_eq {q : Int} (hq : 0 < q) (v : Int) : capacityOf q v = flowMultiplier * v / q := by
  unfold capacityOf
  split
  · next h => rw [h]; simp
  · split
    · next h => rw [h, Int.mul_ediv_cancel _ (by omega)]
    · split
      · next h => rw [h, ← Int.mul_assoc, Int.mul_ediv_cancel _ (by omega)]
      · rfl

theorem capacityEdges_ok (ps : List (Nat × Nat)) (cs : List Int) (h : ps.length ≤ cs.length) : ∃ des, capacityEdges ps cs = .ok des := by
  induction ps generalizing cs with
  | nil => exact ⟨[], rfl⟩
  | cons p ps ih =>
    match cs, h with
    | c :: cs, h =>
      obtain ⟨des, hd⟩ := ih cs (by simpa using h)
      exact ⟨_, by rw [capacityEdges, hd, Res.ok_bind]; rfl⟩

/-- Both ends of an edge are in the list. -/
def edgeIn (g : Graph) (rc : List Nat) (e : Nat) : Bool := rc.contains (endsOf g e).1 && rc.contains (endsOf g e).2

theorem rootPairs_map (g : Graph) (rc es : List Nat) : rootPairs rc (es.map (endsOf g)) = (es.filter (edgeIn g rc)).map (endsOf g) := by
  rw [rootPairs, List.filter_map]; rfl

theorem mem_solutionEdges {g : Graph} {order : List Nat} {pos : Nat → Bool} {e : Nat} :
    e ∈ getSolutionEdges g order pos ↔ e ∈ order ∧ e < g.edges.length ∧ (endsOf g e).1 ≠ (endsOf g e).2 ∧ pos e = true := by
  rw [getSolutionEdges, List.mem_filter]
  refine and_congr_right fun _ => ?_
  by_cases h : e < g.edges.length
  · simp [h, endsOf]
  · simp [h]

theorem pairVector_ok {g : Graph} (es : List Nat) (h : ∀ e ∈ es, e < g.edges.length) :
    getVertexPairVectorFromEdgeSubset g es = .ok (es.map (endsOf g)) := by
  refine mapRes_forall₂ ?_
  rw [List.forall₂_map_right_iff]
  refine List.forall₂_same.2 fun e he => ?_
  simp [Graph.ends, endsOf, h e he]

/-- The edges of the support that are kept. -/
def keptEdges (g : Graph) (order : List Nat) (x : Nat → Int) (rc : List Nat) : List Nat :=
  (getSolutionEdges g order fun e => decide (0 < x e)).filter (edgeIn g rc)

theorem mem_keptEdges {g : Graph} {order : List Nat} {x : Nat → Int} {rc : List Nat} {e : Nat} :
    e ∈ keptEdges g order x rc ↔ e ∈ order ∧ e < g.edges.length ∧ (endsOf g e).1 ≠ (endsOf g e).2 ∧ 0 < x e ∧
      (endsOf g e).1 ∈ rc ∧ (endsOf g e).2 ∈ rc := by
  rw [keptEdges, List.mem_filter, mem_solutionEdges, edgeIn]
  simp only [Bool.and_eq_true, List.contains_eq_mem, decide_eq_true_eq]
  tauto

/-- The vertices of the kept edges, in order of first appearance. -/
def keptVertices (g : Graph) (order : List Nat) (x : Nat → Int) (rc : List Nat) : List Nat :=
  firstSeen ((keptEdges g order x rc).map (endsOf g))

theorem mem_keptVertices {g : Graph} {order : List Nat} {x : Nat → Int} {rc : List Nat} {v : Nat} :
    v ∈ keptVertices g order x rc ↔ ∃ e ∈ keptEdges g order x rc, v = (endsOf g e).1 ∨ v = (endsOf g e).2 := by
  rw [keptVertices, mem_firstSeen, endpoints, List.mem_flatMap]
  constructor
  · rintro ⟨p, hp, hv⟩
    obtain ⟨e, he, rfl⟩ := List.mem_map.1 hp
    exact ⟨e, he, by simpa using hv⟩
  · rintro ⟨e, he, hv⟩
    exact ⟨_, List.mem_map_of_mem he, by simpa using hv⟩

theorem keptVertices_lt {g : Graph} (hg : g.WF) {order : List Nat} {x : Nat → Int} {rc : List Nat} :
    ∀ v ∈ keptVertices g order x rc, v < g.n := by
  intro v hv
  obtain ⟨e, he, h⟩ := mem_keptVertices.1 hv
  have hlt := (mem_keptEdges.1 he).2.1
  have := hg (endsOf g e) (by simp [endsOf, hlt])
  rcases h with rfl | rfl
  · exact this.1
  · exact this.2

/-- The parts of a round. -/
theorem separateMaxflow_unfold (sv : Solver) {g : Graph} (flow : MaxFlow) (visit : Visit) (order : List Nat) (q : Int)
    (x : Nat → Int) (root : Nat) (rc : List Nat) (st : SepState) :
    ∃ (ne : List (Nat × Nat)) (des : List ((Nat × Nat) × Int)),
      ne = (renameEdges [] ((keptEdges g order x rc).map (endsOf g))).1 ∧
      List.Forall₂ (Names (keptVertices g order x rc)) ((keptEdges g order x rc).map (endsOf g)) ne ∧
      capacityEdges ne (getCapacityVectorFromSol g order q x) = .ok des ∧
      (graphOf ne).n = (keptVertices g order x rc).length ∧
      (root ∉ keptVertices g order x rc → (separateMaxflowMincut sv g g.hasVar flow visit order q x root rc st).isUb = true) ∧
      ∀ sr : Nat, (keptVertices g order x rc)[sr]? = some root →
        separateMaxflowMincut sv g g.hasVar flow visit order q x root rc st =
          (maxflowTargetLoop sv g g.hasVar (number 0 (keptVertices g order x rc)) flow visit des (keptVertices g order x rc).length sr root
            (List.range (keptVertices g order x rc).length) { sep := st, count := 0, done := upd (fun _ => false) sr true } >>= fun s =>
            pure (s.sep, s.count)) := by
  set sol := getSolutionEdges g order fun e => decide (0 < x e) with hsol
  have hpairs : rootPairs rc (sol.map (endsOf g)) = (keptEdges g order x rc).map (endsOf g) := rootPairs_map g rc sol
  have hsollt : ∀ e ∈ sol, e < g.edges.length := fun e he => (mem_solutionEdges.1 he).2.1
  obtain ⟨ne, h1, h2⟩ := renameEdges_nil ((keptEdges g order x rc).map (endsOf g))
  have hlen : ne.length ≤ (getCapacityVectorFromSol g order q x).length := by
    rw [← h2.length_eq, List.length_map, getCapacityVectorFromSol, List.length_map, keptEdges]
    exact List.length_filter_le _ _
  obtain ⟨des, hdes⟩ := capacityEdges_ok ne _ hlen
  have hn : (graphOf ne).n = (keptVertices g order x rc).length :=
    graphOf_n (firstSeen_nodup _) h2 (fun v hv => (mem_firstSeen _ _).1 hv)
  refine ⟨ne, des, by rw [h1], h2, hdes, hn, ?_, ?_⟩
  · intro hroot
    rw [separateMaxflowMincut]
    simp only [← hsol, pairVector_ok sol hsollt, Res.ok_bind, hpairs, h1, hdes]
    have := getNewVertex_number_isUb (firstSeen_nodup ((keptEdges g order x rc).map (endsOf g))) (x := root) hroot
    exact Res.isUb_bind this _
  · intro sr hsr
    have hsrlt := (List.getElem?_eq_some_iff.1 hsr).1
    rw [separateMaxflowMincut]
    simp only [← hsol, pairVector_ok sol hsollt, Res.ok_bind, hpairs, h1, hdes, hn]
    rw [(getNewVertex_number (firstSeen_nodup ((keptEdges g order x rc).map (endsOf g))) root sr).2 hsr, Res.ok_bind, if_pos hsrlt]
    rfl

end Pctsp
