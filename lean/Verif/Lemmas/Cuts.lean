import Verif.Lemmas.RowsTour
import Verif.Props.GraphUtil

/-! # Lemmas about separation rounds -/

namespace Pctsp

/-- The form of a subtour elimination row. -/
structure SecRow (g : Graph) (vs : List Nat) (target : Nat) (row : Row) : Prop where
  lhs : row.lhs = none
  rhs : row.rhs = some 0
  act : ∃ es, getEdgesInducedByVertices g vs = .ok es ∧
    ∀ x, row.activity x = (es.map x).sum - (vs.map (loopVal g x)).sum + loopVal g x target

/-- `st'` is the state after the rows were offered to the solver in `st`. -/
def offerAll (sv : Solver) : List Row → SepState → SepState
  | [], st => st
  | row :: rows, st => offerAll sv rows (offerRow sv row st)

theorem offerAll_append (sv : Solver) (as bs : List Row) (st : SepState) : offerAll sv (as ++ bs) st = offerAll sv bs (offerAll sv as st) := by
  induction as generalizing st with
  | nil => rfl
  | cons a as ih => exact ih _

theorem offerAll_offered (sv : Solver) (rows : List Row) (st : SepState) : (offerAll sv rows st).offered = st.offered ++ rows := by
  induction rows generalizing st with
  | nil => simp [offerAll]
  | cons row rows ih => rw [offerAll, ih, offerRow_offered]; simp

theorem offerAll_added (sv : Solver) (rows : List Row) (st : SepState) : (offerAll sv rows st).added = st.added ++ rows.filter sv.efficacious := by
  induction rows generalizing st with
  | nil => simp [offerAll]
  | cons row rows ih =>
    rw [offerAll, ih, List.filter_cons]
    unfold offerRow
    split <;> simp

theorem secTargetLoop_eq (sv : Solver) {g : Graph} {vs : List Nat} {root : Nat} (hr : ∀ v ∈ vs, v < g.n) (hnd : vs.Nodup)
    (hl : ∀ v ∈ vs, (v, v) ∈ g.edges) (hroot : root ∉ vs) (ts : List Nat) (hts : ∀ t ∈ ts, t ∈ vs) (s : SepState × Nat) :
    ∃ rows, secTargetLoop sv g g.hasVar vs root ts s = .ok (offerAll sv rows s.1, s.2 + ts.length) ∧ List.Forall₂ (SecRow g vs) ts rows := by
  induction ts generalizing s with
  | nil => exact ⟨[], rfl, .nil⟩
  | cons t ts ih =>
    have htv := hts t (by simp)
    obtain ⟨row, es, h1, h2, h3, h4, h5⟩ := addSEC_eq sv hr hnd hl (hr t htv) (hl t htv) (root := root) (target := t) (by tauto) s.1
    obtain ⟨rows, h6, h7⟩ := ih (fun u hu => hts u (by simp [hu])) (offerRow sv row s.1, s.2 + 1)
    refine ⟨row :: rows, ?_, .cons ⟨h3, h4, es, h2, h5⟩ h7⟩
    rw [secTargetLoop, h1, Res.ok_bind, h6, offerAll, List.length_cons]
    simp only [Res.ok.injEq, Prod.mk.injEq, true_and]
    omega

/-- The sets and targets of a round of `disjointTourLoop`. -/
def sepPairs (rootId : Nat) : Nat → List (List Nat) → List (List Nat × Nat)
  | _, [] => []
  | i, c :: cs => (if i ≠ rootId ∧ 2 ≤ c.length then c.map fun t => (c, t) else []) ++ sepPairs rootId (i + 1) cs

theorem disjointTourLoop_eq (sv : Solver) {g : Graph} {root rootId : Nat} (comps : List (List Nat)) (i : Nat)
    (h : ∀ (j : Nat) c, comps[j]? = some c → (∀ v ∈ c, v < g.n) ∧ c.Nodup ∧ (∀ v ∈ c, (v, v) ∈ g.edges) ∧ (i + j ≠ rootId → root ∉ c))
    (s : SepState × Nat) :
    ∃ rows, disjointTourLoop sv g g.hasVar root rootId i comps s = .ok (offerAll sv rows s.1, s.2 + rows.length) ∧
      List.Forall₂ (fun p row => SecRow g p.1 p.2 row) (sepPairs rootId i comps) rows := by
  induction comps generalizing i s with
  | nil => exact ⟨[], rfl, .nil⟩
  | cons c cs ih =>
    have ih' := ih (i + 1) (fun j c hc => by
      have := h (j + 1) c (by simpa using hc)
      refine ⟨this.1, this.2.1, this.2.2.1, fun hne => this.2.2.2 (by omega)⟩)
    rw [disjointTourLoop]
    by_cases hc : i ≠ rootId ∧ c.length ≥ 2
    · obtain ⟨h1, h2, h3, h4⟩ := h 0 c rfl
      obtain ⟨rows, h5, h6⟩ := secTargetLoop_eq sv h1 h2 h3 (h4 hc.1) c (fun _ h => h) s
      obtain ⟨rows', h7, h8⟩ := ih' (offerAll sv rows s.1, s.2 + c.length)
      refine ⟨rows ++ rows', ?_, ?_⟩
      · rw [if_pos hc, h5, Res.ok_bind, h7, offerAll_append, List.length_append, h6.length_eq]
        simp only [Res.ok.injEq, Prod.mk.injEq, true_and]
        omega
      · rw [sepPairs, if_pos hc]
        refine List.rel_append ?_ h8
        rw [List.forall₂_map_left_iff]
        exact h6
    · obtain ⟨rows', h7, h8⟩ := ih' s
      refine ⟨rows', by rw [if_neg hc, h7], ?_⟩
      rw [sepPairs, if_neg hc, List.nil_append]
      exact h8

theorem mem_sepPairs {rootId : Nat} (comps : List (List Nat)) (i : Nat) (p : List Nat × Nat) :
    p ∈ sepPairs rootId i comps ↔ ∃ j : Nat, comps[j]? = some p.1 ∧ i + j ≠ rootId ∧ 2 ≤ p.1.length ∧ p.2 ∈ p.1 := by
  induction comps generalizing i with
  | nil => simp [sepPairs]
  | cons c cs ih =>
    rw [sepPairs, List.mem_append, ih]
    constructor
    · rintro (h | ⟨j, h1, h2, h3⟩)
      · split at h
        · obtain ⟨t, ht, rfl⟩ := List.mem_map.1 h
          exact ⟨0, by simp, by simp; omega, by simp_all, ht⟩
        · simp at h
      · exact ⟨j + 1, by simpa using h1, by omega, h3⟩
    · rintro ⟨j, h1, h2, h3, h4⟩
      cases j with
      | zero =>
        left
        simp only [List.getElem?_cons_zero, Option.some.injEq] at h1
        rw [if_pos ⟨by omega, by rw [h1]; exact h3⟩, List.mem_map]
        exact ⟨p.2, by rw [h1]; exact h4, by rw [h1]⟩
      | succ j => exact Or.inr ⟨j, by simpa using h1, by omega, h3, h4⟩

theorem sepPairs_nodup {rootId : Nat} (comps : List (List Nat)) (i : Nat) (h : comps.flatten.Nodup) : ((sepPairs rootId i comps).map Prod.snd).Nodup := by
  have : ∀ i, ((sepPairs rootId i comps).map Prod.snd).Sublist comps.flatten := by
    clear h i
    induction comps with
    | nil => intro i; simp [sepPairs]
    | cons c cs ih =>
      intro i
      rw [sepPairs, List.map_append, List.flatten_cons]
      refine List.Sublist.append ?_ (ih _)
      split
      · rw [List.map_map]
        have : (Prod.snd ∘ fun t : Nat => (c, t)) = id := rfl
        rw [this, List.map_id]
      · simp
  exact (this i).nodup h

/-! ### Components of the support -/

theorem supportAdj_symm {g : Graph} {x : Nat → Int} {u v : Nat} (h : SupportAdj g x u v) : SupportAdj g x v u := by
  obtain ⟨e, he, hx⟩ := h
  exact ⟨e, he.symm, hx⟩

theorem supportConnected_symm {g : Graph} {x : Nat → Int} {u v : Nat} (h : SupportConnected g x u v) : SupportConnected g x v u := by
  unfold SupportConnected at *
  induction h with
  | refl => exact .refl
  | tail _ h ih => exact .head (supportAdj_symm h) ih

/-- A vertex that is connected to another one has a positive edge. -/
theorem support_edge {g : Graph} {x : Nat → Int} {u w : Nat} (h : SupportConnected g x u w) (huw : u ≠ w) :
    ∃ z e, EdgeBetween g e u z ∧ u ≠ z ∧ 0 < x e := by
  induction h using Relation.ReflTransGen.head_induction_on with
  | refl => exact absurd rfl huw
  | @head a c hac hcw ih =>
    by_cases hc : a = c
    · subst hc; exact ih huw
    · obtain ⟨e, he, hx⟩ := hac
      exact ⟨c, e, he, hc, hx⟩

theorem edgeSum_nonneg_ge {g : Graph} {x : Nat → Int} (hx : ∀ e < g.edges.length, 0 ≤ x e) {P : Nat → Bool} {e : Nat} (he : e < g.edges.length)
    (hP : P e = true) : x e ≤ edgeSum g x P := by
  have key : ∀ l : List Nat, (∀ a ∈ l, 0 ≤ x a) → 0 ≤ (l.map x).sum ∧ ∀ a ∈ l, x a ≤ (l.map x).sum := by
    intro l hl
    induction l with
    | nil => simp
    | cons b l ih =>
      obtain ⟨h1, h2⟩ := ih (fun a ha => hl a (by simp [ha]))
      have hb := hl b (by simp)
      rw [List.map_cons, List.sum_cons]
      refine ⟨by omega, ?_⟩
      intro a ha
      rcases List.mem_cons.1 ha with rfl | ha
      · omega
      · have := h2 a ha; omega
  refine (key _ ?_).2 e (List.mem_filter.2 ⟨List.mem_range.2 he, hP⟩)
  intro a ha
  exact hx a (List.mem_range.1 (List.mem_filter.1 ha).1)

theorem edgeSum_zero {g : Graph} {x : Nat → Int} {P : Nat → Bool} (h : ∀ e < g.edges.length, P e = true → x e = 0) : edgeSum g x P = 0 := by
  have key : ∀ l : List Nat, (∀ a ∈ l, x a = 0) → (l.map x).sum = 0 := by
    intro l hl
    induction l with
    | nil => rfl
    | cons b l ih => rw [List.map_cons, List.sum_cons, hl b (by simp), ih fun a ha => hl a (by simp [ha])]; rfl
  refine key _ ?_
  intro e he
  obtain ⟨h1, h2⟩ := List.mem_filter.1 he
  exact h e (List.mem_range.1 h1) h2

/-- No positive edge leaves a component. -/
theorem component_cut {g : Graph} (hg : g.WF) {x : Nat → Int} (hx : ∀ e < g.edges.length, 0 ≤ x e) {vs : List Nat}
    (h : ∀ u v, SupportConnected g x u v → u < g.n → v < g.n → u ∈ vs → v ∈ vs) : edgeSum g x (crosses g fun v => decide (v ∈ vs)) = 0 := by
  apply edgeSum_zero
  intro e he hc
  have hp : g.edges[e]? = some g.edges[e] := List.getElem?_eq_getElem he
  have hwf := hg _ (List.mem_of_getElem? hp)
  by_contra hne
  have hpos : 0 < x e := by have := hx e he; omega
  have hc1 : SupportConnected g x g.edges[e].1 g.edges[e].2 := .single ⟨e, Or.inl hp, hpos⟩
  have h1 := h _ _ hc1 hwf.1 hwf.2
  have h2 := h _ _ (supportConnected_symm hc1) hwf.2 hwf.1
  simp only [crosses, hp] at hc
  have : g.edges[e].1 ∈ vs ↔ g.edges[e].2 ∈ vs := ⟨h1, h2⟩
  simp [this] at hc

theorem isComponents_labels {g : Graph} {x : Nat → Int} {m : Nat} {ids : List Nat} (h : IsComponents g x m ids) :
    ∀ v < g.n, ∃ c, ids[v]? = some c ∧ c < m := by
  intro v hv
  have hlt : v < ids.length := by rw [h.length]; exact hv
  exact ⟨ids[v], List.getElem?_eq_getElem hlt, h.range _ (List.getElem_mem hlt)⟩

/-- A round of `separateSubtourDisjoint` for any labelling of the vertices. -/
theorem separateSubtourDisjoint_eq (sv : Solver) {g : Graph} (hl : ∀ v < g.n, (v, v) ∈ g.edges) {root m : Nat} (hroot : root < g.n) {ids : List Nat}
    (h : ∀ v < g.n, ∃ c, ids[v]? = some c ∧ c < m) (st : SepState) :
    ∃ (pairs : List (List Nat × Nat)) (rows : List Row),
      separateSubtourDisjoint sv g g.hasVar root m ids st = .ok (offerAll sv rows st, rows.length) ∧
      List.Forall₂ (fun p row => SecRow g p.1 p.2 row) pairs rows ∧ (pairs.map Prod.snd).Nodup ∧
      (∀ p ∈ pairs, p.1.Nodup ∧ p.2 ∈ p.1 ∧ root ∉ p.1 ∧ ∀ v, v ∈ p.1 ↔ v < g.n ∧ ids[v]? = ids[p.2]?) ∧
      ∀ t, (∃ vs, (vs, t) ∈ pairs) ↔ t < g.n ∧ ids[t]? ≠ ids[root]? ∧ ∃ u < g.n, u ≠ t ∧ ids[u]? = ids[t]? := by
  obtain ⟨comps, h1, hlen, h2, -, h3⟩ := C28_component_vectors g.n m ids h
  obtain ⟨rootId, hrid, hrm⟩ := h root hroot
  have hroots : ∀ (j : Nat) c, comps[j]? = some c → j ≠ rootId → root ∉ c := by
    intro j c hc hj hr
    have := ((h2 j c hc).2 root).1 hr
    rw [hrid] at this
    simp at this
    omega
  have hcase : ∃ rows, separateDisjointTour sv g g.hasVar root rootId comps st = .ok (offerAll sv rows st, rows.length) ∧
      List.Forall₂ (fun p row => SecRow g p.1 p.2 row) (sepPairs rootId 0 comps) rows := by
    rw [separateDisjointTour]
    by_cases h1 : comps.length = 1
    · rw [if_pos h1]
      match comps, h1 with
      | [c], _ =>
        have : rootId = 0 := by simp at hlen; omega
        exact ⟨[], rfl, by simp [sepPairs, this]⟩
    · rw [if_neg h1]
      obtain ⟨rows, h4, h5⟩ := disjointTourLoop_eq sv (g := g) (root := root) (rootId := rootId) comps 0 (by
        intro j c hc
        obtain ⟨hs, hm⟩ := h2 j c hc
        exact ⟨fun v hv => ((hm v).1 hv).1, hs.imp (fun h => Nat.ne_of_lt h), fun v hv => hl v ((hm v).1 hv).1,
          fun hne => hroots j c hc (by omega)⟩) (st, 0)
      exact ⟨rows, by rw [h4, Nat.zero_add], h5⟩
  obtain ⟨rows, h4, h5⟩ := hcase
  have hchar : ∀ p ∈ sepPairs rootId 0 comps, ∃ c : Nat, comps[c]? = some p.1 ∧ c ≠ rootId ∧ 2 ≤ p.1.length ∧ p.2 ∈ p.1 := by
    intro p hp
    obtain ⟨j, h1, h2, h3⟩ := (mem_sepPairs comps 0 p).1 hp
    exact ⟨j, h1, by omega, h3⟩
  refine ⟨sepPairs rootId 0 comps, rows, ?_, h5, sepPairs_nodup comps 0 (h3.nodup_iff.2 List.nodup_range), ?_, ?_⟩
  · simp only [separateSubtourDisjoint, h1, Res.ok_bind, hrid]; exact h4
  · intro p hp
    obtain ⟨c, hc, hne, hlen2, hmem⟩ := hchar p hp
    obtain ⟨hs, hm⟩ := h2 c p.1 hc
    refine ⟨hs.imp fun h => Nat.ne_of_lt h, hmem, hroots c _ hc hne, fun v => ?_⟩
    rw [hm v, ((hm p.2).1 hmem).2]
  · intro t
    constructor
    · rintro ⟨vs, hp⟩
      obtain ⟨c, hc, hne, hlen2, hmem⟩ := hchar _ hp
      obtain ⟨hs, hm⟩ := h2 c vs hc
      obtain ⟨ht, hid⟩ := (hm t).1 hmem
      refine ⟨ht, ?_, ?_⟩
      · rw [hid, hrid]; simp; exact hne
      · simp only at hlen2 hmem
        obtain ⟨u, hu, hut⟩ : ∃ u ∈ vs, u ≠ t := by
          by_contra hcon
          have hall : ∀ u ∈ vs, u = t := by
            intro u hu
            by_contra h
            exact hcon ⟨u, hu, h⟩
          match vs, hlen2, hs, hall with
          | a :: b :: vs, _, hs, hall =>
            have ha := hall a (by simp)
            have hb := hall b (by simp)
            have := (List.pairwise_cons.1 hs).1 b (by simp)
            omega
        exact ⟨u, ((hm u).1 hu).1, hut, by rw [((hm u).1 hu).2, hid]⟩
    · rintro ⟨ht, hne, u, hu, hut, hid⟩
      obtain ⟨c, hc, hcm⟩ := h t ht
      have hcl : c < comps.length := by rw [hlen]; exact hcm
      have hcc : comps[c]? = some comps[c] := List.getElem?_eq_getElem hcl
      obtain ⟨hs, hm⟩ := h2 c _ hcc
      have h6 : t ∈ comps[c] := (hm t).2 ⟨ht, hc⟩
      have h7 : u ∈ comps[c] := (hm u).2 ⟨hu, by rw [hid, hc]⟩
      refine ⟨comps[c], (mem_sepPairs comps 0 _).2 ⟨c, hcc, ?_, ?_, h6⟩⟩
      · rintro h8
        apply hne
        rw [hc, hrid]
        congr 1; omega
      · by_contra h8
        clear hm hs hcc
        generalize comps[c] = l at h6 h7 h8
        match l, h6, h7, h8 with
        | [a], h6, h7, _ => simp at h6 h7; omega
        | a :: b :: l, _, _, h8 => simp at h8

theorem secRow_valid {g : Graph} {vs : List Nat} {root target : Nat} {row : Row} (h : SecRow g vs target row) (hr : ∀ v ∈ vs, v < g.n)
    (hnd : vs.Nodup) (hl : ∀ v ∈ vs, (v, v) ∈ g.edges) (htv : target ∈ vs) (hroot : root ∉ vs) {t es : List Nat} {x : Nat → Int}
    (htour : IsTour g root t) (hinc : IncidenceOf g t es x) : row.Sat x := by
  obtain ⟨es', hes, hact⟩ := h.act
  obtain ⟨h2, h3⟩ := incidence_inside htour hinc hr hnd hl hes
  have hy := loopVal_incidence hinc (hl target htv)
  have hroot' : root ∈ t := by obtain ⟨m, rfl⟩ := htour.shape; simp
  rw [Row.Sat, h.lhs, h.rhs, hact]
  simp only [reduceCtorEq, Option.some.injEq, forall_eq', false_imp_iff, implies_true, true_and]
  by_cases htt : target ∈ t
  · rw [if_pos htt] at hy
    have := h3 ⟨target, htt, htv⟩ ⟨root, hroot', hroot⟩
    omega
  · rw [if_neg htt] at hy
    omega

theorem secRow_violated {g : Graph} (hg : SimpleWithLoops g) {vs : List Nat} {target u : Nat} {row : Row} (h : SecRow g vs target row)
    (hr : ∀ v ∈ vs, v < g.n) (hnd : vs.Nodup) (htv : target ∈ vs) {x : Nat → Int} (hx : ∀ e < g.edges.length, 0 ≤ x e)
    (hdeg : ∀ v < g.n, edgeSum g x (incident g v) = 2 * loopVal g x v)
    (hclosed : ∀ u v, SupportConnected g x u v → u < g.n → v < g.n → u ∈ vs → v ∈ vs) (hut : u ≠ target) (hc : SupportConnected g x target u) :
    ¬ row.Sat x := by
  obtain ⟨es', hes, hact⟩ := h.act
  have hcut := cut_form hg hr hnd hes (fun v hv => hdeg v (hr v hv))
  rw [component_cut hg.wf hx hclosed] at hcut
  obtain ⟨z, e, he, hz, hxe⟩ := support_edge hc (Ne.symm hut)
  have hlt : e < g.edges.length := by rcases he with he | he <;> exact (List.getElem?_eq_some_iff.1 he).1
  have hge := edgeSum_nonneg_ge hx (P := incident g target) hlt (by
    rcases he with he | he
    · simp [incident, he, hz]
    · simp [incident, he, Ne.symm hz])
  rw [hdeg target (hr target htv)] at hge
  rw [Row.Sat, h.lhs, h.rhs, hact]
  simp only [reduceCtorEq, Option.some.injEq, forall_eq', false_imp_iff, implies_true, true_and]
  omega

end Pctsp
