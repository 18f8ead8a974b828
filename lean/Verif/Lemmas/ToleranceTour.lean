import Verif.Lemmas.Tolerance

/-! # The support of an accepted solution is its rounding -/

namespace Pctsp

theorem secCheck_feasible {g : Graph} {order : List Nat} {pos : Nat → Bool} :
    secCheck g order pos = .ok .feasible ↔ isSimpleCycle g (getSolutionEdges g order pos) = .ok true := by
  rw [secCheck, Res.bind_eq_ok]
  constructor
  · rintro ⟨b, hb, h⟩
    cases b with
    | true => exact hb
    | false => simp [Res.pure_eq] at h
  · intro h
    exact ⟨true, h, rfl⟩

theorem isSimpleCycle_perm {g : Graph} {es fs : List Nat} (hp : es.Perm fs) (hlt : ∀ e ∈ es, e < g.edges.length) (h : isSimpleCycle g es = .ok true) :
    isSimpleCycle g fs = .ok true := by
  obtain ⟨ps, b, h1, h2, h3⟩ := C30_isSimpleCycle_iff g es hlt
  obtain ⟨qs, c, k1, k2, k3⟩ := C30_isSimpleCycle_iff g fs fun e he => hlt e (hp.mem_iff.2 he)
  rw [h] at h2
  injection h2 with h2
  obtain ⟨vs, hvs⟩ := h3.1 h2.symm
  rw [k2, k3.2 ⟨vs, hvs.1, hvs.2.1, ?_⟩]
  rw [(forall₂_ends k1).1]
  rw [(forall₂_ends h1).1] at hvs
  exact ((hp.symm.map _).map _).trans hvs.2.2

theorem isVarPositive_iff {eps : Rat} (he : 0 ≤ eps) {x : Nat → Rat} {e : Nat} : isVarPositive eps x e = true ↔ eps < x e := by
  simp only [isVarPositive, scipIsZero, Bool.and_eq_true, Bool.not_eq_true', decide_eq_false_iff_not, decide_eq_true_eq, not_le]
  constructor
  · rintro ⟨h1, h2⟩; rwa [abs_of_pos h2] at h1
  · intro h
    have h2 : 0 < x e := lt_of_le_of_lt he h
    exact ⟨by rwa [abs_of_pos h2], h2⟩

/-- A set of edges that forms a simple cycle has no proper part with degrees 0 and 2 that is not empty. -/
theorem cycle_part {g : Graph} {es : List Nat} {P : Nat → Bool} (hlt : ∀ e ∈ es, e < g.edges.length) (h : isSimpleCycle g es = .ok true)
    (hdeg : ∀ v, degreeIn ((es.filter P).map (endsOf g)) v ≠ 1) (hne : es.filter P ≠ []) : ∀ e ∈ es, P e = true := by
  by_contra hcon
  push Not at hcon
  obtain ⟨e0, he0, hP0⟩ := hcon
  have hperm : es.Perm (es.filter P ++ es.filter fun e => !P e) := (List.filter_append_perm P es).symm
  have hq : es.filter (fun e => !P e) ≠ [] := by
    apply List.ne_nil_of_mem (a := e0)
    simp [he0, hP0]
  have hacc := isSimpleCycle_perm hperm hlt h
  have hlt' : ∀ e ∈ es.filter P ++ es.filter fun e => !P e, e < g.edges.length := fun e he => hlt e (hperm.mem_iff.2 he)
  have hdis := C30_disjoint_rejected g _ ((es.filter P).map (endsOf g)) ((es.filter fun e => !P e).map (endsOf g)) (by simpa using hne) (by simpa using hq)
    (by rw [← List.map_append]; exact ends_forall₂ hlt') ?_
  · rw [hacc] at hdis
    simp at hdis
  -- a vertex of both parts would have degree at least three
  obtain ⟨r, hr⟩ : ∃ r, ∃ e ∈ es, ∃ p, g.edges[e]? = some p ∧ (r = p.1 ∨ r = p.2) :=
    ⟨(endsOf g e0).1, e0, he0, endsOf g e0, by simp [endsOf, hlt e0 he0], Or.inl rfl⟩
  obtain ⟨t, ps, ht, hlen, hps, hpp, -⟩ := C30_accepted_is_tour g es hlt h r hr
  have hle : ∀ v, degreeIn (es.map (endsOf g)) v ≤ 2 := by
    intro v
    rw [(forall₂_ends hps).1] at hpp
    rw [← adjOf_length, (adjOf_perm hpp v).length_eq]
    obtain ⟨m, rfl⟩ := ht.shape
    have hnd := ht.nodup
    rw [dropLast_tour] at hnd
    have hm : m ≠ [] := by rintro rfl; simp at hlen
    rw [adjOf_cycle_length hnd hm]
    split <;> omega
  have hsum : ∀ v, degreeIn (es.map (endsOf g)) v = degreeIn ((es.filter P).map (endsOf g)) v + degreeIn ((es.filter fun e => !P e).map (endsOf g)) v := by
    intro v
    have := ((hperm.map (endsOf g)).map fun e : Nat × Nat => (if e.1 = v then 1 else 0) + (if e.2 = v then 1 else 0)).sum_nat
    rw [degreeIn, this]
    simp [degreeIn]
  have key : ∀ v, ∀ e ∈ es.filter P, ∀ f ∈ es.filter (fun e => !P e), (v = (endsOf g e).1 ∨ v = (endsOf g e).2) →
      (v = (endsOf g f).1 ∨ v = (endsOf g f).2) → False := by
    intro v e he f hf h1 h2
    have k1 := degreeIn_pos (g := g) he (p := endsOf g e) (by simp [endsOf, hlt e (List.mem_filter.1 he).1]) h1
    have k2 := degreeIn_pos (g := g) hf (p := endsOf g f) (by simp [endsOf, hlt f (List.mem_filter.1 hf).1]) h2
    have := hle v
    have := hsum v
    have := hdeg v
    omega
  intro p hp q hq
  obtain ⟨e, he, rfl⟩ := List.mem_map.1 hp
  obtain ⟨f, hf, rfl⟩ := List.mem_map.1 hq
  exact ⟨fun h => key _ e he f hf (Or.inl rfl) (Or.inl h), fun h => key _ e he f hf (Or.inl rfl) (Or.inr h),
    fun h => key _ e he f hf (Or.inr rfl) (Or.inl h), fun h => key _ e he f hf (Or.inr rfl) (Or.inr h)⟩

/-- The edges with a value that SCIP does not take for zero are those that are rounded up. -/
theorem support_round {g : Graph} (hg : SimpleWithLoops g) {root : Nat} (hroot : root < g.n) {order : List Nat} (ho : order.Perm (List.range g.edges.length))
    {eps : Rat} (he : 0 ≤ eps) (he2 : eps < 1 / 2) {x : Nat → Rat} (hrt : loopVal g (roundBin x) root = 1)
    (hdeg : ∀ v < g.n, edgeSum g (roundBin x) (incident g v) = 2 * loopVal g (roundBin x) v)
    (hsec : secCheck g order (isVarPositive eps x) = .ok .feasible) :
    getSolutionEdges g order (isVarPositive eps x) = getSolutionEdges g order (fun e => decide (0 < roundBin x e)) := by
  rw [secCheck_feasible] at hsec
  have hmem := fun e => mem_getSolutionEdges ho (pos := isVarPositive eps x) (e := e)
  have hmem' := fun e => mem_getSolutionEdges ho (pos := fun e => decide (0 < roundBin x e)) (e := e)
  have hup : ∀ e, decide (0 < roundBin x e) = true ↔ 1 / 2 < x e := by
    intro e; simp only [roundBin, decide_eq_true_eq]; split <;> rename_i h <;> simp at h ⊢ <;> linarith
  have hfil : (getSolutionEdges g order (isVarPositive eps x)).filter (fun e => decide (0 < roundBin x e)) =
      getSolutionEdges g order (fun e => decide (0 < roundBin x e)) := by
    rw [getSolutionEdges, getSolutionEdges, List.filter_filter]
    refine List.filter_congr fun e _ => ?_
    cases g.edges[e]? with
    | none => simp
    | some p =>
      by_cases h : 1 / 2 < x e
      · have h1 := (hup e).2 h
        have h2 := (isVarPositive_iff he (x := x) (e := e)).2 (by linarith)
        simp [h1, h2]
      · have h1 : decide (0 < roundBin x e) = false := by rw [Bool.eq_false_iff]; exact fun hh => h ((hup e).1 hh)
        simp [h1]
  have hlt : ∀ e ∈ getSolutionEdges g order (isVarPositive eps x), e < g.edges.length := by
    intro e h
    obtain ⟨u, v, hp, -⟩ := (hmem e).1 h
    exact (List.getElem?_eq_some_iff.1 hp).1
  have hlt' : ∀ e ∈ getSolutionEdges g order (fun e => decide (0 < roundBin x e)), e < g.edges.length := by
    intro e h
    obtain ⟨u, v, hp, -⟩ := (hmem' e).1 h
    exact (List.getElem?_eq_some_iff.1 hp).1
  have hne : ∀ e ∈ getSolutionEdges g order (fun e => decide (0 < roundBin x e)), (endsOf g e).1 ≠ (endsOf g e).2 := by
    intro e h
    obtain ⟨u, v, hp, huv, -⟩ := (hmem' e).1 h
    simpa [endsOf, hp] using huv
  have hd := edgeSum_incident (x := roundBin x) (getSolutionEdges_nodup ho _) hlt' hne (by
    intro e u v hp huv
    by_cases h : e ∈ getSolutionEdges g order (fun e => decide (0 < roundBin x e))
    · rw [if_pos h]
      obtain ⟨_, _, _, _, h⟩ := (hmem' e).1 h
      rcases roundBin_binary x e with h0 | h1
      · simp [h0] at h
      · exact h1
    · rw [if_neg h]
      rcases roundBin_binary x e with h0 | h1
      · exact h0
      · exact absurd ((hmem' e).2 ⟨u, v, hp, huv, by simp [h1]⟩) h)
  have hall := cycle_part (P := fun e => decide (0 < roundBin x e)) hlt hsec (by
      intro v
      rw [hfil]
      by_cases hv : v < g.n
      · have := hdeg v hv
        rw [hd] at this
        omega
      · intro h1
        obtain ⟨e, -, p, hp, h⟩ := incident_endsOf hlt' (v := v) (by omega)
        have := hg.wf _ (List.mem_of_getElem? hp)
        omega) (by
      rw [hfil]
      intro h0
      have := hdeg root hroot
      rw [hd, hrt, h0] at this
      simp [degreeIn] at this)
  rw [← hfil]
  exact (List.filter_eq_self.2 hall).symm

end Pctsp
