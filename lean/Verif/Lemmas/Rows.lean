import Verif.Model.Rows
import Verif.Spec.Incidence
import Verif.Lemmas.GraphUtil
import Verif.Lemmas.SimpleCycle
import Mathlib.Tactic.Linarith

/-! # Lemmas about rows -/

namespace Pctsp

theorem copyInto_eq {α : Type} (pre as mid post : List α) (h : mid.length = as.length) :
    copyInto (pre ++ mid ++ post) pre.length as = .ok (pre ++ as ++ post) := by
  induction as generalizing pre mid with
  | nil => simp at h; subst h; simp [copyInto]
  | cons a as ih =>
    match mid, h with
    | b :: mid, h =>
      rw [copyInto, if_pos (by simp)]
      have h1 : (pre ++ b :: mid ++ post).set pre.length a = (pre ++ [a]) ++ mid ++ post := by simp
      have := ih (pre ++ [a]) mid (by simpa using h)
      rw [h1]
      simpa using this

theorem fill_eq (pos neg all : List Nat) (coefs : List Int) (h1 : pos.length + neg.length = all.length) (h2 : all.length = coefs.length) :
    fillPositiveNegativeVars pos neg all coefs =
      .ok (pos ++ neg, List.replicate pos.length 1 ++ List.replicate neg.length (-1)) := by
  rw [fillPositiveNegativeVars, if_pos ⟨h1, h2⟩]
  have e1 := copyInto_eq [] pos (all.take pos.length) (all.drop pos.length) (by simp; omega)
  have e2 := copyInto_eq pos neg (all.drop pos.length) [] (by simp; omega)
  have e3 := copyInto_eq [] (List.replicate pos.length (1 : Int)) (coefs.take pos.length) (coefs.drop pos.length) (by simp; omega)
  have e4 := copyInto_eq (List.replicate pos.length (1 : Int)) (List.replicate neg.length (-1)) (coefs.drop pos.length) [] (by simp; omega)
  simp only [List.nil_append, List.take_append_drop, List.length_nil, List.append_nil, List.length_replicate] at e1 e2 e3 e4
  have e5 : (List.replicate pos.length (1 : Int) ++ coefs.drop pos.length).length - pos.length = neg.length := by simp; omega
  simp only [e1, e2, e3, Res.ok_bind, e5, e4, Res.pure_eq]

theorem getEdgeVariables_ok (hasVar : Nat → Bool) (es : List Nat) (h : ∀ e ∈ es, hasVar e = true) :
    getEdgeVariables hasVar es = .ok es := by
  induction es with
  | nil => rfl
  | cons e es ih => rw [getEdgeVariables, if_pos (h e (by simp)), ih fun e he => h e (by simp [he])]; rfl

theorem getEdgeVariables_null (hasVar : Nat → Bool) (es : List Nat) (h : ∃ e ∈ es, hasVar e = false) :
    getEdgeVariables hasVar es = .throw .variableIsNull := by
  induction es with
  | nil => simp at h
  | cons e es ih =>
    rw [getEdgeVariables]
    by_cases he : hasVar e = true
    · rw [if_pos he, ih]
      · rfl
      · obtain ⟨a, ha, hf⟩ := h
        rcases List.mem_cons.1 ha with rfl | ha
        · rw [he] at hf; cases hf
        · exact ⟨a, ha, hf⟩
    · rw [if_neg he]

theorem sum_zip_replicate (c : Int) (es : List Nat) (x : Nat → Int) :
    ((es.zip (List.replicate es.length c)).map fun p => p.2 * x p.1).sum = c * (es.map x).sum := by
  induction es with
  | nil => simp
  | cons e es ih => simp [List.replicate_succ, ih, Int.mul_add]

theorem activity_pos_neg (x : Nat → Int) (pos neg : List Nat) (l r : Option Int) :
    Row.activity x { coeffs := (pos ++ neg).zip (List.replicate pos.length 1 ++ List.replicate neg.length (-1)), lhs := l, rhs := r } =
      (pos.map x).sum - (neg.map x).sum := by
  rw [Row.activity]
  simp only
  rw [List.zip_append (by simp), List.map_append, List.sum_append, sum_zip_replicate, sum_zip_replicate]
  omega

/-! ### Tours and vertex sets -/

theorem consec_fst {α : Type} (l : List α) : (consec l).map Prod.fst = l.dropLast := by
  induction l with
  | nil => rfl
  | cons a l ih =>
    cases l with
    | nil => rfl
    | cons b l => simp [consec] at ih ⊢; exact ih

theorem countP_split {α : Type} (p q : α → Bool) (l : List α) :
    l.countP (fun a => p a && q a) + l.countP (fun a => p a && !q a) = l.countP p := by
  induction l with
  | nil => rfl
  | cons a l ih =>
    simp only [List.countP_cons]
    cases p a <;> cases q a <;> simp <;> omega

/-- The edges of a closed walk with both ends in a set, and those that leave it, are as many as its vertices in the set. -/
theorem tour_count (S : Nat → Bool) (t : List Nat) :
    (consec t).countP (fun e => S e.1 && S e.2) + (consec t).countP (fun e => S e.1 && !S e.2) = t.dropLast.countP S := by
  rw [countP_split (fun e : Nat × Nat => S e.1) (fun e => S e.2), ← consec_fst, List.countP_map]
  rfl

/-- A property that is passed on along the pairs and holds at the head holds everywhere. -/
theorem consec_closed {P : Nat → Prop} (a : Nat) (l : List Nat) (h : ∀ e ∈ consec (a :: l), P e.1 → P e.2) (ha : P a) :
    ∀ x ∈ a :: l, P x := by
  induction l generalizing a with
  | nil => intro x hx; simp at hx; subst hx; exact ha
  | cons b l ih =>
    intro x hx
    rcases List.mem_cons.1 hx with rfl | hx
    · exact ha
    · exact ih b (fun e he => h e (by rw [consec_cons_cons]; simp [he])) (h (a, b) (by rw [consec_cons_cons]; simp) ha) x hx

/-- A closed walk with vertices on both sides of a cut leaves the set. -/
theorem tour_leaves (S : Nat → Bool) (r : Nat) (m : List Nat) {a b : Nat} (ha : a ∈ r :: m) (hSa : S a = true) (hb : b ∈ r :: m)
    (hSb : S b = false) : 1 ≤ (consec (r :: (m ++ [r]))).countP (fun e => S e.1 && !S e.2) := by
  rw [Nat.one_le_iff_ne_zero, ← Nat.pos_iff_ne_zero, List.countP_pos_iff]
  by_contra hcon
  have hstep : ∀ e ∈ consec (r :: (m ++ [r])), S e.1 = true → S e.2 = true := by
    intro e he h1
    by_contra h2
    exact hcon ⟨e, he, by simp [h1, h2]⟩
  have hr : S r = true := by
    obtain ⟨A, B, hAB⟩ := List.append_of_mem ha
    have ht : r :: (m ++ [r]) = A ++ a :: (B ++ [r]) := by
      rw [← List.cons_append, hAB]; simp
    rw [ht, consec_append] at hstep
    exact consec_closed (P := fun v => S v = true) a (B ++ [r]) (fun e he => hstep e (by simp [he])) hSa r (by simp)
  have := consec_closed (P := fun v => S v = true) r (m ++ [r]) hstep hr b (by
    rw [← List.cons_append]; exact List.mem_append_left _ hb)
  rw [hSb] at this; cases this

/-! ### Edges induced by a vertex set -/

theorem mem_orderedPairs {l : List Nat} {p : Nat × Nat} (h : p ∈ orderedPairs l) : p.1 ∈ l ∧ p.2 ∈ l := by
  induction l with
  | nil => simp [orderedPairs] at h
  | cons a l ih =>
    simp only [orderedPairs, List.mem_append, List.mem_map] at h
    rcases h with ⟨b, hb, rfl⟩ | h
    · exact ⟨by simp, by simp [hb]⟩
    · exact ⟨by simp [(ih h).1], by simp [(ih h).2]⟩

theorem orderedPairs_ne {l : List Nat} (hnd : l.Nodup) {p : Nat × Nat} (h : p ∈ orderedPairs l) : p.1 ≠ p.2 := by
  induction l with
  | nil => simp [orderedPairs] at h
  | cons a l ih =>
    rw [List.nodup_cons] at hnd
    simp only [orderedPairs, List.mem_append, List.mem_map] at h
    rcases h with ⟨b, hb, rfl⟩ | h
    · intro e; simp only at e; exact hnd.1 (e ▸ hb)
    · exact ih hnd.2 h

theorem orderedPairs_total {l : List Nat} {u v : Nat} (hu : u ∈ l) (hv : v ∈ l) (huv : u ≠ v) :
    (u, v) ∈ orderedPairs l ∨ (v, u) ∈ orderedPairs l := by
  induction l with
  | nil => simp at hu
  | cons a l ih =>
    simp only [orderedPairs, List.mem_append, List.mem_map, Prod.mk.injEq]
    rcases List.mem_cons.1 hu with hu | hu <;> rcases List.mem_cons.1 hv with hv | hv
    · omega
    · exact Or.inl (Or.inl ⟨v, hv, hu.symm, rfl⟩)
    · exact Or.inr (Or.inl ⟨u, hu, hv.symm, rfl⟩)
    · rcases ih hu hv with h | h
      · exact Or.inl (Or.inr h)
      · exact Or.inr (Or.inr h)

theorem orderedPairs_und_nodup {l : List Nat} (hnd : l.Nodup) : ((orderedPairs l).map und).Nodup := by
  induction l with
  | nil => simp [orderedPairs]
  | cons a l ih =>
    rw [List.nodup_cons] at hnd
    rw [orderedPairs, List.map_append, List.nodup_append]
    refine ⟨?_, ih hnd.2, ?_⟩
    · rw [List.map_map]
      refine hnd.2.map ?_
      intro u v huv
      simp only [Function.comp_apply, und_eq_iff] at huv
      omega
    · intro p hp q hq heq
      subst heq
      simp only [List.mem_map] at hp hq
      obtain ⟨_, ⟨b, hb, rfl⟩, rfl⟩ := hp
      obtain ⟨⟨c, d⟩, hc, he⟩ := hq
      rw [und_eq_iff] at he
      have := mem_orderedPairs hc
      simp only at this
      rcases he with ⟨rfl, rfl⟩ | ⟨rfl, rfl⟩
      · exact hnd.1 this.1
      · exact hnd.1 this.2

/-- The induced edges of distinct vertices. -/
theorem induced_spec {g : Graph} {vs es : List Nat} (hr : ∀ v ∈ vs, v < g.n) (hnd : vs.Nodup)
    (h : getEdgesInducedByVertices g vs = .ok es) :
    es.Nodup ∧ (∀ e ∈ es, ∃ p, g.edges[e]? = some p ∧ p.1 ≠ p.2 ∧ p.1 ∈ vs ∧ p.2 ∈ vs) ∧
      ∀ u ∈ vs, ∀ v ∈ vs, u ≠ v → ∀ e, g.edgeIdx u v = some e → e ∈ es := by
  rw [getEdgesInduced_ok vs hr] at h
  simp only [Res.ok.injEq] at h
  subst h
  refine ⟨?_, ?_, ?_⟩
  · have h1 := orderedPairs_und_nodup hnd
    revert h1
    generalize orderedPairs vs = l
    intro h1
    induction l with
    | nil => simp
    | cons p l ih =>
      rw [List.map_cons, List.nodup_cons] at h1
      cases he : g.edgeIdx p.1 p.2 with
      | none => simp only [List.filterMap_cons, he]; exact ih h1.2
      | some e =>
        simp only [List.filterMap_cons, he, List.nodup_cons]
        refine ⟨?_, ih h1.2⟩
        intro hmem
        obtain ⟨q, hq, hqe⟩ := List.mem_filterMap.1 hmem
        apply h1.1
        refine List.mem_map.2 ⟨q, hq, ?_⟩
        obtain ⟨a, b⟩ := p
        obtain ⟨c, d⟩ := q
        rw [und_eq_iff]
        have e1 := edgeIdx_eq_some he
        have e2 := edgeIdx_eq_some hqe
        simp only at e1 e2
        rcases e1 with e1 | e1 <;> rcases e2 with e2 | e2 <;> rw [e1] at e2 <;> simp at e2 <;> omega
  · intro e he
    obtain ⟨⟨a, b⟩, hp, he⟩ := List.mem_filterMap.1 he
    have h1 := mem_orderedPairs hp
    have h2 := orderedPairs_ne hnd hp
    simp only at h1 h2 he
    rcases edgeIdx_eq_some he with h | h
    · exact ⟨_, h, h2, h1⟩
    · exact ⟨_, h, h2.symm, h1.2, h1.1⟩
  · intro u hu v hv huv e he
    rw [List.mem_filterMap]
    rcases orderedPairs_total hu hv huv with h | h
    · exact ⟨_, h, he⟩
    · exact ⟨_, h, by simp only; rw [edgeIdx_comm]; exact he⟩

theorem induced_lt {g : Graph} {vs es : List Nat} (hr : ∀ v ∈ vs, v < g.n) (hnd : vs.Nodup)
    (h : getEdgesInducedByVertices g vs = .ok es) : ∀ e ∈ es, e < g.edges.length := by
  intro e he
  obtain ⟨p, hp, -⟩ := (induced_spec hr hnd h).2.1 e he
  exact (List.getElem?_eq_some_iff.1 hp).1

/-! ### The value of a vertex -/

/-- The value of the first self-loop at a vertex. -/
def loopVal (g : Graph) (x : Nat → Int) (v : Nat) : Int := x ((g.edgeIdx v v).getD 0)

theorem loopVal_incidence {g : Graph} {t es : List Nat} {x : Nat → Int} (h : IncidenceOf g t es x) {v : Nat} (hv : (v, v) ∈ g.edges) :
    loopVal g x v = if v ∈ t then 1 else 0 := by
  obtain ⟨e, he⟩ := Option.isSome_iff_exists.1 (edgeIdx_isSome_iff.2 (Or.inl hv : Adj g v v))
  rw [loopVal, he, Option.getD_some]
  refine h.loop e v ?_
  rcases edgeIdx_eq_some he with h | h <;> exact h

theorem getSelfLoops_sum {g : Graph} {vs ls : List Nat} (h : getSelfLoops g vs = .ok ls) (x : Nat → Int) :
    (ls.map x).sum = (vs.map (loopVal g x)).sum := by
  rw [getSelfLoops_ok] at h
  induction h with
  | nil => rfl
  | cons h1 _ ih => simp [ih, loopVal, h1.2]

theorem getSelfLoops_exists {g : Graph} (vs : List Nat) (hr : ∀ v ∈ vs, v < g.n) (hl : ∀ v ∈ vs, (v, v) ∈ g.edges) :
    ∃ ls, getSelfLoops g vs = .ok ls ∧ ls.length = vs.length ∧ ∀ e ∈ ls, e < g.edges.length := by
  have : ∃ ls, List.Forall₂ (fun v e => v < g.n ∧ g.edgeIdx v v = some e) vs ls := by
    induction vs with
    | nil => exact ⟨[], .nil⟩
    | cons v vs ih =>
      obtain ⟨ls, h⟩ := ih (fun v h => hr v (by simp [h])) (fun v h => hl v (by simp [h]))
      obtain ⟨e, he⟩ := Option.isSome_iff_exists.1 (edgeIdx_isSome_iff.2 (Or.inl (hl v (by simp)) : Adj g v v))
      exact ⟨e :: ls, .cons ⟨hr v (by simp), he⟩ h⟩
  obtain ⟨ls, h⟩ := this
  refine ⟨ls, getSelfLoops_ok.2 h, h.length_eq.symm, ?_⟩
  intro e he
  obtain ⟨i, hi, rfl⟩ := List.mem_iff_getElem.1 he
  have := (List.forall₂_iff_get.1 h).2 i (by rw [h.length_eq]; exact hi) hi
  simp only [List.get_eq_getElem] at this
  rcases edgeIdx_eq_some this.2 with h | h <;> exact (List.getElem?_eq_some_iff.1 h).1

theorem offerRow_offered (sv : Solver) (row : Row) (st : SepState) : (offerRow sv row st).offered = st.offered ++ [row] := by
  unfold offerRow
  split <;> rfl

/-- The row that a call of `addSubtourEliminationConstraint` offers. -/
theorem addSEC_eq (sv : Solver) {g : Graph} {vs : List Nat} {root target : Nat} (hr : ∀ v ∈ vs, v < g.n) (hnd : vs.Nodup)
    (hl : ∀ v ∈ vs, (v, v) ∈ g.edges) (ht : target < g.n) (htl : (target, target) ∈ g.edges) (hx : ¬ (root ∈ vs ↔ target ∈ vs)) (st : SepState) :
    ∃ row es, addSubtourEliminationConstraint sv g g.hasVar vs root target st = .ok (offerRow sv row st) ∧
      getEdgesInducedByVertices g vs = .ok es ∧ row.lhs = none ∧ row.rhs = some 0 ∧
      ∀ x, row.activity x = (es.map x).sum - (vs.map (loopVal g x)).sum + loopVal g x target := by
  obtain ⟨es, hes⟩ : ∃ es, getEdgesInducedByVertices g vs = .ok es := ⟨_, getEdgesInduced_ok vs hr⟩
  have hev := getEdgeVariables_ok g.hasVar es (fun e he => by simpa [Graph.hasVar] using induced_lt hr hnd hes e he)
  by_cases hroot : root ∈ vs
  · have htar : target ∉ vs := fun h => hx ⟨fun _ => h, fun _ => hroot⟩
    obtain ⟨ls, h1, h2, h3⟩ := getSelfLoops_exists (g := g) (vs ++ [target])
      (by intro v hv; rcases List.mem_append.1 hv with h | h
          · exact hr v h
          · simp at h; subst h; exact ht)
      (by intro v hv; rcases List.mem_append.1 hv with h | h
          · exact hl v h
          · simp at h; subst h; exact htl)
    have hlv := getEdgeVariables_ok g.hasVar ls (fun e he => by simpa [Graph.hasVar] using h3 e he)
    obtain ⟨l, ls', rfl⟩ : ∃ l ls', ls = ls' ++ [l] := by
      rcases List.eq_nil_or_concat ls with rfl | ⟨a, b, rfl⟩
      · simp at h2
      · exact ⟨b, a, by simp⟩
    refine ⟨{ coeffs := (es ++ (ls' ++ [l])).zip (List.replicate es.length 1 ++ (List.replicate ls'.length (-1) ++ [1])), lhs := none, rhs := some 0 },
      es, ?_, hes, rfl, rfl, ?_⟩
    · have hc1 : vs.contains root = true := by simpa using hroot
      have hc2 : vs.contains target = false := by simpa using htar
      have e1 : (vs.filter fun _ => true) = vs := by simp
      have e2 : (List.replicate es.length (1 : Int) ++ List.replicate (ls' ++ [l]).length (-1)).set
          ((List.replicate es.length (1 : Int) ++ List.replicate (ls' ++ [l]).length (-1)).length - 1) 1 =
          List.replicate es.length 1 ++ (List.replicate ls'.length (-1) ++ [1]) := by
        have : List.replicate (ls' ++ [l]).length (-1 : Int) = List.replicate ls'.length (-1) ++ [-1] := by
          rw [List.length_append, List.length_singleton, List.replicate_succ']
        rw [this, ← List.append_assoc, List.length_append, List.length_singleton, Nat.add_sub_cancel, List.set_append_right _ _ (Nat.le_refl _)]
        simp
      simp only [addSubtourEliminationConstraint, hc1, hc2, Bool.true_or, Bool.not_true, Bool.and_false, Bool.false_eq_true, if_false, if_true, hes,
        Res.ok_bind, hev]
      rw [e1, h1]
      simp only [Res.ok_bind, hlv]
      rw [fill_eq _ _ _ _ (by simp) (by simp)]
      simp only [Res.ok_bind, Res.pure_eq, e2, addRow]
    · intro x
      have hs := getSelfLoops_sum h1 x
      rw [Row.activity]
      simp only
      rw [List.zip_append (by simp), List.zip_append (by simp), List.map_append, List.map_append, List.sum_append, List.sum_append,
        sum_zip_replicate, sum_zip_replicate]
      simp only [List.map_append, List.sum_append, List.map_cons, List.map_nil, List.sum_cons, List.sum_nil, List.zip_cons_cons, List.zip_nil_left] at hs ⊢
      -- the last entry is the target
      have hl' : loopVal g x target = x l := by
        rw [getSelfLoops_ok] at h1
        have hlen := h1.length_eq
        simp only [List.length_append, List.length_singleton, Nat.add_right_cancel_iff] at hlen
        have := (List.forall₂_iff_get.1 h1).2 vs.length (by simp) (by simp [hlen])
        simp only [List.get_eq_getElem, List.getElem_concat_length] at this
        have h5 : (ls' ++ [l])[vs.length]'(by simp [hlen]) = l := by simp [hlen]
        rw [h5] at this
        rw [loopVal, this.2, Option.getD_some]
      rw [hl'] at hs ⊢
      omega
  · have htar : target ∈ vs := by
      by_contra h
      exact hx ⟨fun h' => absurd h' hroot, fun h' => absurd h' h⟩
    obtain ⟨ls, h1, h2, h3⟩ := getSelfLoops_exists (g := g) (vs.filter fun v => v ≠ target)
      (fun v hv => hr v (List.mem_filter.1 hv).1) (fun v hv => hl v (List.mem_filter.1 hv).1)
    have hlv := getEdgeVariables_ok g.hasVar ls (fun e he => by simpa [Graph.hasVar] using h3 e he)
    refine ⟨{ coeffs := (es ++ ls).zip (List.replicate es.length 1 ++ List.replicate ls.length (-1)), lhs := none, rhs := some 0 },
      es, ?_, hes, rfl, rfl, ?_⟩
    · have hc1 : vs.contains root = false := by simpa using hroot
      have hc2 : vs.contains target = true := by simpa using htar
      simp only [addSubtourEliminationConstraint, hc1, hc2, Bool.false_or, Bool.true_and, Bool.not_true, Bool.false_and, Bool.false_eq_true, if_false, hes,
        Res.ok_bind, hev]
      rw [h1]
      simp only [Res.ok_bind, hlv]
      rw [fill_eq _ _ _ _ (by simp) (by simp)]
      simp only [Res.ok_bind, Res.pure_eq, addRow]
    · intro x
      rw [activity_pos_neg, getSelfLoops_sum h1 x]
      have : (vs.map (loopVal g x)).sum = ((vs.filter fun v => v ≠ target).map (loopVal g x)).sum + loopVal g x target := by
        have hp : vs.Perm (target :: vs.filter fun v => v ≠ target) := by
          have := List.perm_cons_erase htar
          rw [hnd.erase_eq_filter] at this
          refine this.trans (List.Perm.of_eq ?_)
          congr 1
          refine List.filter_congr fun v _ => ?_
          by_cases h : v = target <;> simp [h]
        rw [sum_eq_of_perm (hp.map _)]
        simp only [List.map_cons, List.sum_cons]
        omega
      omega

/-- The row that `addCycleCover` offers. -/
theorem addCycleCover_eq (sv : Solver) {g : Graph} {vs : List Nat} (hr : ∀ v ∈ vs, v < g.n) (hnd : vs.Nodup) (hne : vs ≠ [])
    (hl : ∀ v ∈ vs, (v, v) ∈ g.edges) (st : SepState) :
    ∃ row es, addCycleCover sv g g.hasVar vs st = .ok (offerRow sv row st) ∧
      getEdgesInducedByVertices g vs = .ok es ∧ row.lhs = none ∧ row.rhs = some (-1) ∧
      ∀ x, row.activity x = (es.map x).sum - (vs.map (loopVal g x)).sum := by
  obtain ⟨es, hes⟩ : ∃ es, getEdgesInducedByVertices g vs = .ok es := ⟨_, getEdgesInduced_ok vs hr⟩
  have hev := getEdgeVariables_ok g.hasVar es (fun e he => by simpa [Graph.hasVar] using induced_lt hr hnd hes e he)
  obtain ⟨ls, h1, h2, h3⟩ := getSelfLoops_exists (g := g) vs hr hl
  have hlv := getEdgeVariables_ok g.hasVar ls (fun e he => by simpa [Graph.hasVar] using h3 e he)
  refine ⟨{ coeffs := (es ++ ls).zip (List.replicate es.length 1 ++ List.replicate ls.length (-1)), lhs := none, rhs := some (-1) },
      es, ?_, hes, rfl, rfl, ?_⟩
  · rw [addCycleCover, if_neg (by simpa using hne), hes, Res.ok_bind, hev, Res.ok_bind, h1, Res.ok_bind, hlv, Res.ok_bind]
    simp only
    rw [fill_eq _ _ _ _ (by simp) (by simp)]
    rfl
  · intro x
    rw [activity_pos_neg, getSelfLoops_sum h1 x]

/-! ### Incidence vectors of tours -/

theorem sum_indicator (l : List Nat) (x : Nat → Int) (P : Nat → Prop) [DecidablePred P] (h : ∀ e ∈ l, x e = if P e then 1 else 0) :
    (l.map x).sum = (l.countP fun e => decide (P e) : Nat) := by
  induction l with
  | nil => rfl
  | cons e l ih =>
    rw [List.map_cons, List.sum_cons, ih fun a ha => h a (by simp [ha]), h e (by simp), List.countP_cons]
    by_cases he : P e <;> simp [he]; omega

theorem countP_mem_swap {l m : List Nat} (hl : l.Nodup) (hm : m.Nodup) : l.countP (fun v => decide (v ∈ m)) = m.countP (fun v => decide (v ∈ l)) := by
  rw [List.countP_eq_length_filter, List.countP_eq_length_filter]
  refine List.Perm.length_eq ?_
  rw [List.perm_ext_iff_of_nodup (hl.filter _) (hm.filter _)]
  intro a
  simp [and_comm]

theorem forall₂_countP {α β : Type} {R : α → β → Prop} {as : List α} {bs : List β} (h : List.Forall₂ R as bs) (P : α → Bool) (Q : β → Bool)
    (hPQ : ∀ a b, R a b → P a = Q b) : as.countP P = bs.countP Q := by
  induction h with
  | nil => rfl
  | cons h _ ih => rw [List.countP_cons, List.countP_cons, ih, hPQ _ _ h]

/-- The edges of a tour inside a vertex set are at most its vertices in the set, less one if the tour also has vertices outside. -/
theorem incidence_inside {g : Graph} {r : Nat} {t es E vs : List Nat} {x : Nat → Int} (ht : IsTour g r t) (hinc : IncidenceOf g t es x)
    (hr : ∀ v ∈ vs, v < g.n) (hnd : vs.Nodup) (hl : ∀ v ∈ vs, (v, v) ∈ g.edges) (hE : getEdgesInducedByVertices g vs = .ok E) :
    (E.map x).sum ≤ (vs.map (loopVal g x)).sum ∧
    ((∃ a ∈ t, a ∈ vs) → (∃ b ∈ t, b ∉ vs) → (E.map x).sum + 1 ≤ (vs.map (loopVal g x)).sum) := by
  obtain ⟨m, rfl⟩ := ht.shape
  have hnd' := ht.nodup
  rw [dropLast_tour] at hnd'
  obtain ⟨k1, k2, -⟩ := induced_spec hr hnd hE
  obtain ⟨ps, hps, hperm⟩ := hinc.used
  have hmem : ∀ v, v ∈ r :: (m ++ [r]) ↔ v ∈ r :: m := by intro v; simp; tauto
  -- vertices
  have hv : (vs.map (loopVal g x)).sum = ((r :: m).countP fun v => decide (v ∈ vs) : Nat) := by
    rw [sum_indicator vs (loopVal g x) (fun v => v ∈ r :: m), countP_mem_swap hnd hnd']
    intro v hv
    rw [loopVal_incidence hinc (hl v hv)]
    simp only [hmem]
  -- edges
  have he : (E.map x).sum ≤ ((consec (r :: (m ++ [r]))).countP fun e => decide (e.1 ∈ vs) && decide (e.2 ∈ vs) : Nat) := by
    rw [sum_indicator E x (fun e => e ∈ es)]
    · -- compare with the used edges
      have h1 : ps.countP (fun e => decide (e.1 ∈ vs) && decide (e.2 ∈ vs)) =
          (consec (r :: (m ++ [r]))).countP (fun e => decide (e.1 ∈ vs) && decide (e.2 ∈ vs)) := by
        have h2 : ∀ l : List (Nat × Nat), l.countP (fun e => decide (e.1 ∈ vs) && decide (e.2 ∈ vs)) =
            (l.map und).countP (fun e => decide (e.1 ∈ vs) && decide (e.2 ∈ vs)) := by
          intro l
          rw [List.countP_map]
          refine List.countP_congr fun e _ => ?_
          obtain ⟨a, b⟩ := e
          rcases Nat.le_total a b with h | h
          · simp [und, h]
          · simp [und, h, and_comm]
        rw [h2 ps, h2 (consec _), hperm.countP_eq]
      rw [← h1]
      rw [← forall₂_countP hps (fun e => match g.edges[e]? with
            | some p => decide (p.1 ∈ vs) && decide (p.2 ∈ vs)
            | none => false) _ (fun e p h => by simp [h])]
      rw [List.countP_eq_length_filter, List.countP_eq_length_filter]
      refine Int.ofNat_le.2 (List.Subperm.length_le ((List.subperm_of_subset (k1.filter _)) ?_))
      intro e he
      rw [List.mem_filter] at he ⊢
      obtain ⟨p, hp, hne, h1, h2⟩ := k2 e he.1
      refine ⟨by simpa using he.2, ?_⟩
      simp [hp, h1, h2]
    · intro e he
      obtain ⟨⟨u, v⟩, hp, hne, -⟩ := k2 e he
      exact hinc.edge e u v hp hne
  have hc := tour_count (fun v => decide (v ∈ vs)) (r :: (m ++ [r]))
  rw [dropLast_tour] at hc
  refine ⟨by omega, ?_⟩
  rintro ⟨a, ha, hav⟩ ⟨b, hb, hbv⟩
  have := tour_leaves (fun v => decide (v ∈ vs)) r m ((hmem a).1 ha) (by simpa using hav) ((hmem b).1 hb) (by simpa using hbv)
  omega

end Pctsp
