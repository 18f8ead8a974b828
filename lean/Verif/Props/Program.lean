import Verif.Props.Rows
import Verif.Props.GraphUtil
import Verif.Lemmas.Extension

/-!
# Properties C33 and C55: the integer program and its warm start
-/

namespace Pctsp

theorem forall₂_left_mem {α β : Type} {R : α → β → Prop} {l : List α} {m : List β} (h : List.Forall₂ R l m) {x : α} (hx : x ∈ l) :
    ∃ y ∈ m, R x y := by
  induction h with
  | nil => simp at hx
  | cons h _ ih =>
    rcases List.mem_cons.1 hx with rfl | hx
    · exact ⟨_, by simp, h⟩
    · obtain ⟨y, hy, hr⟩ := ih hx
      exact ⟨y, by simp [hy], hr⟩

theorem incident_endsOf {g : Graph} {es : List Nat} (hlt : ∀ e ∈ es, e < g.edges.length) {v : Nat} (h : 1 ≤ degreeIn (es.map (endsOf g)) v) :
    ∃ e ∈ es, ∃ p, g.edges[e]? = some p ∧ (v = p.1 ∨ v = p.2) := by
  by_contra hcon
  have : ∀ p ∈ es.map (endsOf g), p.1 ≠ v ∧ p.2 ≠ v := by
    intro p hp
    obtain ⟨e, he, rfl⟩ := List.mem_map.1 hp
    have hp : g.edges[e]? = some (endsOf g e) := by simp [endsOf, hlt e he]
    exact ⟨fun h => hcon ⟨e, he, _, hp, Or.inl h.symm⟩, fun h => hcon ⟨e, he, _, hp, Or.inr h.symm⟩⟩
  rw [← adjOf_length, adjOf_of_not_mem this] at h
  simp at h

theorem degreeIn_pos {g : Graph} {es : List Nat} {v e : Nat} {p : Nat × Nat} (he : e ∈ es) (hp : g.edges[e]? = some p) (hv : v = p.1 ∨ v = p.2) :
    1 ≤ degreeIn (es.map (endsOf g)) v := by
  have hmem : p ∈ es.map (endsOf g) := List.mem_map.2 ⟨e, he, by simp [endsOf, hp]⟩
  have hle : ∀ l : List Nat, (∀ a ∈ l, a ≤ l.sum) := fun l => by
    induction l with
    | nil => simp
    | cons b l ih =>
      intro a ha
      rw [List.sum_cons]
      rcases List.mem_cons.1 ha with rfl | ha
      · omega
      · have := ih a ha; omega
  have := hle _ _ (List.mem_map_of_mem (f := fun p : Nat × Nat => (if p.1 = v then 1 else 0) + (if p.2 = v then 1 else 0)) hmem)
  unfold degreeIn
  refine Nat.le_trans ?_ this
  rcases hv with rfl | rfl <;> simp

/-- Without a self-loop at the root the model is not built: `EdgeNotFoundException`; with one and a missing or doubled self-loop elsewhere it
is not built either (C32). -/
theorem C33_missing_root_loop (g : Graph) (prize : Nat → Int) (quota : Int) {root : Nat} (hroot : root < g.n) :
    (modelWithoutSECs g prize quota root = .throw (.edgeNotFound root root) ∧ (root, root) ∉ g.edges) ∨
    ((root, root) ∈ g.edges ∧ ((∃ rows, modelWithoutSECs g prize quota root = .ok rows) ↔ ∀ v < g.n, g.edges.count (v, v) = 1)) := by
  have hadj : Adj g root root ↔ (root, root) ∈ g.edges := by simp [Adj]
  by_cases hl : (root, root) ∈ g.edges
  · right
    refine ⟨hl, ?_⟩
    obtain ⟨loop, hloop⟩ : ∃ loop, g.edgeIdx root root = some loop := by
      cases h : g.edgeIdx root root with
      | none => exact absurd (hadj.2 hl) (edgeIdx_eq_none_iff.1 h)
      | some l => exact ⟨l, rfl⟩
    simp only [modelWithoutSECs, Graph.edge, hroot, if_true, Res.ok_bind, hloop]
    constructor
    · rintro ⟨rows, h⟩ v hv
      obtain ⟨deg, hdeg, -⟩ := Res.bind_eq_ok.1 h
      obtain ⟨row, -, hrow⟩ := forall₂_left_mem (mapRes_eq_ok.1 hdeg) (List.mem_range.2 hv)
      exact (C32_self_loops g v).2.1.1 ⟨row, hrow⟩
    · intro h
      obtain ⟨deg, hdeg, -⟩ := mapRes_spec (degreeRow g) (List.range g.n) fun v hv =>
        (C32_self_loops g v).2.1.2 (h v (List.mem_range.1 hv))
      exact ⟨_, by rw [degreeRows, hdeg]; rfl⟩
  · left
    refine ⟨?_, hl⟩
    simp [modelWithoutSECs, Graph.edge, hroot, edgeIdx_eq_none_iff.2 fun h => hl (hadj.1 h)]

example : modelWithoutSECs { n := 2, edges := [(0, 1), (1, 1)] } (fun _ => 1) 1 0 = .throw (.edgeNotFound 0 0) := by decide

/-- **C33.** A 0/1 assignment satisfies all rows of the model and passes the check of the subtour constraint iff it is the incidence vector of
a tour through the root with at least three vertices whose prize meets the quota. -/
theorem C33_accepts_exactly_feasible_tours {g : Graph} (hg : SimpleWithLoops g) (prize : Nat → Int) (quota : Int) {root : Nat} (hroot : root < g.n)
    {order : List Nat} (ho : order.Perm (List.range g.edges.length)) {x : Nat → Int} (hx : ∀ e < g.edges.length, x e = 0 ∨ x e = 1) :
    ∃ rows, modelWithoutSECs g prize quota root = .ok rows ∧
      (((∀ row ∈ rows, row.Sat x) ∧ secCheck g order (fun e => decide (0 < x e)) = .ok .feasible) ↔
        ∃ t es, IsTour g root t ∧ 4 ≤ t.length ∧ IncidenceOf g t es x ∧ quota ≤ tourPrize prize t) := by
  obtain ⟨rows, h1, h2⟩ := modelRows_sat hg prize quota hroot x
  refine ⟨rows, h1, ?_⟩
  rw [h2]
  have hprize : ∀ t es, IsTour g root t → IncidenceOf g t es x →
      ((List.range g.n).map fun v => prize v * loopVal g x v).sum = tourPrize prize t := by
    intro t es ht hinc
    obtain ⟨m, rfl⟩ := ht.shape
    have hnd := ht.nodup
    have hr : ∀ v ∈ (root :: (m ++ [root])).dropLast, v < g.n := by
      intro v hv
      rw [dropLast_tour] at hv
      obtain ⟨w, hw⟩ : ∃ w, (v, w) ∈ consec (root :: (m ++ [root])) := by
        have : v ∈ (consec (root :: (m ++ [root]))).map Prod.fst := by rw [consec_fst, dropLast_tour]; exact hv
        obtain ⟨⟨a, b⟩, h, rfl⟩ := List.mem_map.1 this
        exact ⟨b, h⟩
      rcases ht.walk _ hw with h | h
      · exact (hg.wf _ h).1
      · exact (hg.wf _ h).2
    rw [tourPrize, ← sum_prize_mem hnd hr]
    congr 1
    refine List.map_congr_left fun v hv => ?_
    rw [loopVal_incidence hinc (hg.loops v (List.mem_range.1 hv))]
    have : v ∈ root :: (m ++ [root]) ↔ v ∈ (root :: (m ++ [root])).dropLast := by rw [dropLast_tour]; simp; tauto
    simp only [this]
  have hsol : ∀ e, e ∈ getSolutionEdges g order (fun e => decide (0 < x e)) ↔ ∃ u v, g.edges[e]? = some (u, v) ∧ u ≠ v ∧ x e = 1 := by
    intro e
    rw [mem_getSolutionEdges ho]
    constructor
    · rintro ⟨u, v, hp, huv, h⟩
      refine ⟨u, v, hp, huv, ?_⟩
      rcases hx e (List.getElem?_eq_some_iff.1 hp).1 with h0 | h1
      · simp [h0] at h
      · exact h1
    · rintro ⟨u, v, hp, huv, h⟩
      exact ⟨u, v, hp, huv, by simp [h]⟩
  have hlt : ∀ e ∈ getSolutionEdges g order (fun e => decide (0 < x e)), e < g.edges.length := by
    intro e he
    obtain ⟨u, v, hp, -⟩ := (hsol e).1 he
    exact (List.getElem?_eq_some_iff.1 hp).1
  have hnd := getSolutionEdges_nodup ho (fun e => decide (0 < x e))
  constructor
  · rintro ⟨⟨hq, hrt, hdeg⟩, hsec⟩
    have hacc : isSimpleCycle g (getSolutionEdges g order fun e => decide (0 < x e)) = .ok true := by
      rw [secCheck, Res.bind_eq_ok] at hsec
      obtain ⟨b, hb, h⟩ := hsec
      cases b with
      | true => exact hb
      | false => simp [Res.pure_eq] at h
    generalize hes : getSolutionEdges g order (fun e => decide (0 < x e)) = es at *
    have hedge : ∀ e u v, g.edges[e]? = some (u, v) → u ≠ v → x e = if e ∈ es then 1 else 0 := by
      intro e u v hp huv
      by_cases he : e ∈ es
      · rw [if_pos he]; obtain ⟨_, _, _, _, h⟩ := (hsol e).1 he; exact h
      · rw [if_neg he]
        rcases hx e (List.getElem?_eq_some_iff.1 hp).1 with h0 | h1
        · exact h0
        · exact absurd ((hsol e).2 ⟨u, v, hp, huv, h1⟩) he
    have hne : ∀ e ∈ es, (endsOf g e).1 ≠ (endsOf g e).2 := by
      intro e he
      obtain ⟨u, v, hp, huv, -⟩ := (hsol e).1 he
      simpa [endsOf, hp] using huv
    have hd := edgeSum_incident hnd hlt hne hedge
    have hroot2 : 1 ≤ degreeIn (es.map (endsOf g)) root := by
      have := hdeg root hroot
      rw [hd, hrt] at this
      omega
    obtain ⟨t, ps, ht, hlen, hps, hperm, hmem⟩ := C30_accepted_is_tour g es hlt hacc root (incident_endsOf hlt hroot2)
    have hinc : IncidenceOf g t es x := by
      refine ⟨⟨ps, hps, hperm⟩, hnd, hedge, ?_⟩
      intro e v hp
      have hv : v < g.n := (hg.wf _ (List.mem_of_getElem? hp)).1
      have h5 : loopVal g x v = x e := by
        rw [loopVal, hg.edgeIdx (Or.inl hp : EdgeBetween g e v v)]; rfl
      have h6 := hdeg v hv
      rw [hd, h5] at h6
      have h7 := hx e (List.getElem?_eq_some_iff.1 hp).1
      by_cases hvt : v ∈ t
      · rw [if_pos hvt]
        obtain ⟨f, hf, p, hfp, hfv⟩ := (hmem v).1 hvt
        have := degreeIn_pos (g := g) hf hfp hfv
        omega
      · rw [if_neg hvt]
        have : ¬ 1 ≤ degreeIn (es.map (endsOf g)) v := fun h => hvt ((hmem v).2 (incident_endsOf hlt h))
        omega
    refine ⟨t, es, ht, incidence_length hg ht hlen hinc, hinc, ?_⟩
    rw [← hprize t es ht hinc]
    exact hq
  · rintro ⟨t, es, ht, hlen, hinc, hq⟩
    have hrt : root ∈ t := by obtain ⟨m, rfl⟩ := ht.shape; simp
    refine ⟨⟨by rw [hprize t es ht hinc]; exact hq, ?_, ?_⟩, ?_⟩
    · rw [loopVal_incidence hinc (hg.loops root hroot), if_pos hrt]
    · intro v hv
      rw [incidence_degree ht (by omega) hinc, loopVal_incidence hinc (hg.loops v hv)]
      split <;> rfl
    · obtain ⟨h3, h4, h5⟩ := incidence_nonloop ht (by omega) hinc
      have hperm : (getSolutionEdges g order fun e => decide (0 < x e)).Perm es := by
        rw [List.perm_ext_iff_of_nodup hnd hinc.nodup]
        intro e
        rw [hsol]
        constructor
        · rintro ⟨u, v, hp, huv, h⟩
          by_contra he
          rw [hinc.edge e u v hp huv, if_neg he] at h
          omega
        · intro he
          have hp : g.edges[e]? = some (endsOf g e) := by simp [endsOf, h4 e he]
          exact ⟨_, _, hp, h5 e he, by rw [hinc.edge e _ _ hp (h5 e he), if_pos he]⟩
      rw [secCheck, C30_tour_accepted g root t ht (by omega) _ _ (ends_forall₂ hlt) (((hperm.map _).map _).trans h3)]
      rfl

/-- The vector of the tour 0, 1, 2, 0 in `exTwo`. -/
def exTriangle : Nat → Int := fun e => if e ∈ [0, 1, 2, 7, 8, 9] then 1 else 0

example : ∀ e < exTwo.edges.length, exTriangle e = 0 ∨ exTriangle e = 1 := by decide +kernel
example : ∃ rows, modelWithoutSECs exTwo (fun v => v) 3 0 = .ok rows ∧ (∀ row ∈ rows, row.Sat exTriangle) ∧
    secCheck exTwo (List.range 13).reverse (fun e => decide (0 < exTriangle e)) = .ok .feasible := ⟨_, rfl, by decide +kernel⟩
/-- Two triangles: the rows hold, the check fails. -/
example : ∃ rows, modelWithoutSECs exTwo (fun v => v) 3 0 = .ok rows ∧ (∀ row ∈ rows, row.Sat fun e => if e = 6 then 0 else 1) ∧
    secCheck exTwo (List.range 13) (fun e => e ≠ 6) = .ok .infeasible := ⟨_, rfl, by decide +kernel⟩

/-! ### C55 -/

/-- The values of the warm start vector. -/
theorem heuristic_values {g : Graph} (hg : SimpleWithLoops g) {es : List Nat} (hne : ∀ e ∈ es, ∃ u v, g.edges[e]? = some (u, v) ∧ u ≠ v) :
    ∃ vars, ∃ vs : List Nat, heuristicVars g g.hasVar es = .ok vars ∧ (∀ v, v ∈ vs ↔ ∃ e ∈ es, ∃ p, g.edges[e]? = some p ∧ (v = p.1 ∨ v = p.2)) ∧
      (∀ e u v, g.edges[e]? = some (u, v) → u ≠ v → heuristicSol vars e = if e ∈ es then 1 else 0) ∧
      ∀ e v, g.edges[e]? = some (v, v) → heuristicSol vars e = if v ∈ vs then 1 else 0 := by
  have hlt : ∀ e ∈ es, e < g.edges.length := fun e he => by
    obtain ⟨u, v, hp, -⟩ := hne e he; exact (List.getElem?_eq_some_iff.1 hp).1
  obtain ⟨vs, hvs, hsorted, hmem⟩ := C46_vertices_of_edges g es hlt
  have hvr : ∀ v ∈ vs, v < g.n := by
    intro v hv
    obtain ⟨e, he, p, hp, h⟩ := (hmem v).1 hv
    have := hg.wf _ (List.mem_of_getElem? hp)
    rcases h with rfl | rfl
    · exact this.1
    · exact this.2
  obtain ⟨ls, hls, -, hlsr⟩ := getSelfLoops_exists vs hvr (fun v hv => hg.loops v (hvr v hv))
  have hvar : ∀ l : List Nat, (∀ e ∈ l, e < g.edges.length) → getEdgeVariables g.hasVar l = .ok l := fun l hl =>
    getEdgeVariables_ok _ _ fun e he => by simpa [Graph.hasVar] using hl e he
  have hvars : heuristicVars g g.hasVar es = .ok (es ++ ls) := by
    simp [heuristicVars, hvs, hls, hvar ls hlsr, hvar es hlt, Res.pure_eq]
  have hloops : ∀ e v, g.edges[e]? = some (v, v) → (e ∈ ls ↔ v ∈ vs) := by
    intro e v hp
    rw [getSelfLoops_ok] at hls
    have hidx := hg.edgeIdx (Or.inl hp : EdgeBetween g e v v)
    constructor
    · intro he
      obtain ⟨i, hi, hei⟩ := List.getElem_of_mem he
      have h1 := hls.get (by rw [hls.length_eq]; exact hi) hi
      simp only [List.get_eq_getElem, hei] at h1
      have : g.edges[e]? = some (vs[i]'(by rw [hls.length_eq]; exact hi), vs[i]'(by rw [hls.length_eq]; exact hi)) := by
        rcases edgeIdx_eq_some h1.2 with h | h <;> exact h
      rw [hp] at this
      simp only [Option.some.injEq, Prod.mk.injEq, and_self] at this
      rw [this]
      exact List.getElem_mem _
    · intro hv
      obtain ⟨i, hi, hvi⟩ := List.getElem_of_mem hv
      have h1 := hls.get hi (by rw [← hls.length_eq]; exact hi)
      simp only [List.get_eq_getElem, hvi, hidx, Option.some.injEq] at h1
      rw [h1.2]
      exact List.getElem_mem _
  have hlsloop : ∀ e ∈ ls, ∃ v, g.edges[e]? = some (v, v) := by
    intro e he
    rw [getSelfLoops_ok] at hls
    obtain ⟨i, hi, hei⟩ := List.getElem_of_mem he
    have h1 := hls.get (by rw [hls.length_eq]; exact hi) hi
    simp only [List.get_eq_getElem, hei] at h1
    refine ⟨vs[i]'(by rw [hls.length_eq]; exact hi), ?_⟩
    rcases edgeIdx_eq_some h1.2 with h | h <;> exact h
  have hx1 : ∀ e u v, g.edges[e]? = some (u, v) → u ≠ v → heuristicSol (es ++ ls) e = if e ∈ es then 1 else 0 := by
    intro e u v hp huv
    have : e ∉ ls := by
      intro he
      obtain ⟨w, hw⟩ := hlsloop e he
      rw [hp] at hw; simp at hw; omega
    simp [heuristicSol, this]
  have hx2 : ∀ e v, g.edges[e]? = some (v, v) → heuristicSol (es ++ ls) e = if v ∈ vs then 1 else 0 := by
    intro e v hp
    have : e ∉ es := by
      intro he
      obtain ⟨a, b, hab, h⟩ := hne e he
      rw [hp] at hab; simp at hab; omega
    simp [heuristicSol, this, hloops e v hp]
  exact ⟨_, vs, hvars, hmem, hx1, hx2⟩

/-- The warm start vector of the edges of a tour is its incidence vector. -/
theorem heuristic_incidence {g : Graph} (hg : SimpleWithLoops g) {es : List Nat} (hes : es.Nodup)
    (hne : ∀ e ∈ es, ∃ u v, g.edges[e]? = some (u, v) ∧ u ≠ v) {root : Nat} {t : List Nat} {ps : List (Nat × Nat)} (ht : IsTour g root t)
    (hlen : 4 ≤ t.length) (hps : List.Forall₂ (fun e p => g.edges[e]? = some p) es ps) (hperm : (ps.map und).Perm ((consec t).map und)) :
    ∃ vars, heuristicVars g g.hasVar es = .ok vars ∧ IncidenceOf g t es (heuristicSol vars) := by
  have hlt : ∀ e ∈ es, e < g.edges.length := fun e he => by
    obtain ⟨u, v, hp, -⟩ := hne e he; exact (List.getElem?_eq_some_iff.1 hp).1
  obtain ⟨vars, vs, hvars, hmem, hx1, hx2⟩ := heuristic_values hg hne
  refine ⟨vars, hvars, ⟨ps, hps, hperm⟩, hes, hx1, ?_⟩
  intro e v hp
  rw [hx2 e v hp]
  have : v ∈ vs ↔ v ∈ t := by
    rw [hmem]
    obtain ⟨rfl, -⟩ := forall₂_ends hps
    obtain ⟨m, rfl⟩ := ht.shape
    have hnd := ht.nodup
    rw [dropLast_tour] at hnd
    have hm : m ≠ [] := by rintro rfl; simp at hlen
    have hdeg := adjOf_cycle_length hnd hm v
    rw [← (adjOf_perm hperm v).length_eq, adjOf_length] at hdeg
    have hvt : v ∈ root :: (m ++ [root]) ↔ v ∈ root :: m := by simp; tauto
    rw [hvt]
    constructor
    · rintro ⟨f, hf, p, hfp, hfv⟩
      have := degreeIn_pos (g := g) hf hfp hfv
      by_contra hcon
      rw [if_neg hcon] at hdeg
      omega
    · intro hv
      rw [if_pos hv] at hdeg
      exact incident_endsOf hlt (by omega)
  simp only [this]

/-- **C55.** The warm start vector of a list of edges satisfies the rows of the model and passes the check iff the edges are those of a tour
through the root with at least three vertices whose prize meets the quota. -/
theorem C55_warm_start {g : Graph} (hg : SimpleWithLoops g) (prize : Nat → Int) (quota : Int) {root : Nat} (hroot : root < g.n)
    {order : List Nat} (ho : order.Perm (List.range g.edges.length)) {es : List Nat} (hes : es.Nodup)
    (hne : ∀ e ∈ es, ∃ u v, g.edges[e]? = some (u, v) ∧ u ≠ v) :
    ∃ rows vars, modelWithoutSECs g prize quota root = .ok rows ∧ heuristicVars g g.hasVar es = .ok vars ∧
      (((∀ row ∈ rows, row.Sat (heuristicSol vars)) ∧ secCheck g order (fun e => decide (0 < heuristicSol vars e)) = .ok .feasible) ↔
        ∃ t ps, IsTour g root t ∧ 4 ≤ t.length ∧ List.Forall₂ (fun e p => g.edges[e]? = some p) es ps ∧
          (ps.map und).Perm ((consec t).map und) ∧ quota ≤ tourPrize prize t) := by
  have hlt : ∀ e ∈ es, e < g.edges.length := fun e he => by
    obtain ⟨u, v, hp, -⟩ := hne e he; exact (List.getElem?_eq_some_iff.1 hp).1
  obtain ⟨vars, vs, hvars, hmem, hx1, hx2⟩ := heuristic_values hg hne
  obtain ⟨rows, h1, h2⟩ := C33_accepts_exactly_feasible_tours hg prize quota hroot ho (x := heuristicSol vars) (fun e _ => by
    unfold heuristicSol; split <;> simp)
  refine ⟨rows, _, h1, hvars, h2.trans ?_⟩
  constructor
  · rintro ⟨t, es', ht, hlen, hinc, hq⟩
    obtain ⟨h3, h4, h5⟩ := incidence_nonloop ht (by omega) hinc
    have hperm : es.Perm es' := by
      rw [List.perm_ext_iff_of_nodup hes hinc.nodup]
      intro e
      constructor
      · intro he
        obtain ⟨u, v, hp, huv⟩ := hne e he
        have := hinc.edge e u v hp huv
        rw [hx1 e u v hp huv, if_pos he] at this
        by_contra hcon
        rw [if_neg hcon] at this
        omega
      · intro he
        have hp : g.edges[e]? = some (endsOf g e) := by simp [endsOf, h4 e he]
        have := hinc.edge e _ _ hp (h5 e he)
        rw [hx1 e _ _ hp (h5 e he), if_pos he] at this
        by_contra hcon
        rw [if_neg hcon] at this
        omega
    exact ⟨t, _, ht, hlen, ends_forall₂ hlt, ((hperm.map _).map _).trans h3, hq⟩
  · rintro ⟨t, ps, ht, hlen, hps, hperm, hq⟩
    obtain ⟨vars', hv', hinc⟩ := heuristic_incidence hg hes hne ht hlen hps hperm
    obtain rfl : vars = vars' := by rw [hvars] at hv'; exact Res.ok.inj hv'
    exact ⟨t, es, ht, hlen, hinc, hq⟩

example : ([2, 0, 1] : List Nat).Nodup ∧ heuristicVars exTwo exTwo.hasVar [2, 0, 1] = .ok [2, 0, 1, 7, 8, 9] := by decide +kernel
example : ∀ e ∈ [2, 0, 1], ∃ u v, exTwo.edges[e]? = some (u, v) ∧ u ≠ v := by
  intro e he
  simp at he
  rcases he with rfl | rfl | rfl <;> exact ⟨_, _, rfl, by decide⟩

/-- **C55.** An end point without a self-loop makes the warm start throw. -/
theorem C55_missing_self_loop {g : Graph} (hg : g.WF) {es : List Nat} (hlt : ∀ e ∈ es, e < g.edges.length)
    (h : ∃ e ∈ es, ∃ p, g.edges[e]? = some p ∧ ∃ v, (v = p.1 ∨ v = p.2) ∧ (v, v) ∉ g.edges) :
    ∃ v, (v, v) ∉ g.edges ∧ heuristicVars g g.hasVar es = .throw (.noSelfLoopFound v) := by
  obtain ⟨vs, hvs, hsorted, hmem⟩ := C46_vertices_of_edges g es hlt
  have hvr : ∀ v ∈ vs, v < g.n := by
    intro v hv
    obtain ⟨e, he, p, hp, h⟩ := (hmem v).1 hv
    have := hg _ (List.mem_of_getElem? hp)
    rcases h with rfl | rfl
    · exact this.1
    · exact this.2
  obtain ⟨e, he, p, hp, v, hv, hvl⟩ := h
  obtain ⟨w, -, hw, hthrow⟩ := getSelfLoops_missing vs hvr ⟨v, (hmem v).2 ⟨e, he, p, hp, hv⟩, hvl⟩
  exact ⟨w, hw, by simp [heuristicVars, hvs, hthrow]⟩

example : heuristicVars { n := 3, edges := [(0, 0), (1, 1), (1, 2)] } (fun _ => true) [2] = .throw (.noSelfLoopFound 2) := by decide +kernel

end Pctsp
