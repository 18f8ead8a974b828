import Verif.Lemmas.SimpleCycle

/-!
# Property C30: the simple cycle test
-/

namespace Pctsp

theorem mapRes_ends (g : Graph) (es : List Nat) (h : ∀ e ∈ es, e < g.edges.length) :
    ∃ ps, mapRes g.ends es = .ok ps ∧ List.Forall₂ (fun e p => g.edges[e]? = some p) es ps := by
  induction es with
  | nil => exact ⟨[], rfl, .nil⟩
  | cons e es ih =>
    obtain ⟨ps, h1, h2⟩ := ih (fun f hf => h f (by simp [hf]))
    have he := List.getElem?_eq_getElem (h e (by simp))
    refine ⟨g.edges[e]'(h e (by simp)) :: ps, ?_, .cons he h2⟩
    rw [mapRes, ends_ok.2 he, Res.ok_bind, h1]; rfl

/-- **C30.** `isSimpleCycle` is true iff the edges, each used once, are those of a closed walk through at least two distinct vertices. -/
theorem C30_isSimpleCycle_iff (g : Graph) (es : List Nat) (h : ∀ e ∈ es, e < g.edges.length) :
    ∃ ps b, List.Forall₂ (fun e p => g.edges[e]? = some p) es ps ∧ isSimpleCycle g es = .ok b ∧
      (b = true ↔ ∃ vs, FormCycle ps vs) := by
  obtain ⟨ps, h1, h2⟩ := mapRes_ends g es h
  refine ⟨ps, isSimpleCyclePairs ps, h2, ?_, isSimpleCyclePairs_iff ps⟩
  rw [isSimpleCycle, h1]; rfl

/-- **C30.** Accepted edges are the edges of a tour of the graph from any of its vertices: the tour uses each edge once
and visits exactly the end points of the edges. -/
theorem C30_accepted_is_tour (g : Graph) (es : List Nat) (h : ∀ e ∈ es, e < g.edges.length) (hacc : isSimpleCycle g es = .ok true)
    (r : Nat) (hr : ∃ e ∈ es, ∃ p, g.edges[e]? = some p ∧ (r = p.1 ∨ r = p.2)) :
    ∃ t ps, IsTour g r t ∧ 3 ≤ t.length ∧ List.Forall₂ (fun e p => g.edges[e]? = some p) es ps ∧
      (ps.map und).Perm ((consec t).map und) ∧
      ∀ v, v ∈ t ↔ ∃ e ∈ es, ∃ p, g.edges[e]? = some p ∧ (v = p.1 ∨ v = p.2) := by
  obtain ⟨ps, b, h1, h2, h3⟩ := C30_isSimpleCycle_iff g es h
  rw [hacc] at h2
  cases h2
  obtain ⟨vs, hvs⟩ := h3.1 rfl
  -- the edges as pairs
  have hmem : ∀ p, p ∈ ps ↔ ∃ e ∈ es, g.edges[e]? = some p := by
    intro p
    clear hacc hr hvs h3 h
    induction h1 with
    | nil => simp
    | cons he _ ih =>
      simp only [List.mem_cons, ih, exists_eq_or_imp, he, Option.some.injEq]
      exact or_congr eq_comm Iff.rfl
  have hend : ∀ v, (∃ e ∈ es, ∃ p, g.edges[e]? = some p ∧ (v = p.1 ∨ v = p.2)) ↔ ∃ p ∈ ps, v = p.1 ∨ v = p.2 := by
    intro v
    constructor
    · rintro ⟨e, he, p, hp, hv⟩; exact ⟨p, (hmem p).2 ⟨e, he, hp⟩, hv⟩
    · rintro ⟨p, hp, hv⟩
      obtain ⟨e, he, hp⟩ := (hmem p).1 hp
      exact ⟨e, he, p, hp, hv⟩
  -- a cycle that starts at `r`
  obtain ⟨a, m, hc⟩ : ∃ a m, FormCycle ps (r :: a :: m) := by
    obtain ⟨⟨s, t⟩, hp, hv⟩ := (hend r).1 hr
    rcases hv with hv | hv
    · simp only at hv; subst hv; obtain ⟨m, hm⟩ := hvs.start hp; exact ⟨t, m, hm⟩
    · simp only at hv; subst hv
      obtain ⟨m, k1, k2, k3⟩ := hvs.start hp
      -- rotate by one
      have hrot := cycleEdges_rotate [s] (r :: m)
      have hnd : (r :: m ++ [s]).Nodup := by
        have : (s :: r :: m).Perm (r :: m ++ [s]) := by
          have := List.perm_append_comm (l₁ := [s]) (l₂ := r :: m)
          simpa using this
        exact this.nodup_iff.1 k2
      cases m with
      | nil => exact ⟨s, [], by simp, hnd, k3.trans (hrot.map und)⟩
      | cons b m => exact ⟨b, m ++ [s], by simp, by simpa using hnd, by
          have := k3.trans (hrot.map und)
          simpa using this⟩
  obtain ⟨-, hnd, hperm⟩ := hc
  rw [cycleEdges_cons] at hperm
  refine ⟨r :: (a :: m ++ [r]), ps, ?_, by simp, h1, hperm, ?_⟩
  · rw [isTour_iff]
    refine ⟨hnd, ?_⟩
    rintro ⟨x, y⟩ hxy
    obtain ⟨⟨x', y'⟩, hp, hu⟩ := List.mem_map.1 (hperm.symm.mem_iff.1 (List.mem_map_of_mem hxy))
    obtain ⟨e, _, he⟩ := (hmem _).1 hp
    have hme := List.mem_of_getElem? he
    rw [und_eq_iff] at hu
    rcases hu with ⟨rfl, rfl⟩ | ⟨rfl, rfl⟩
    · exact Or.inl hme
    · exact Or.inr hme
  · intro v
    rw [hend]
    constructor
    · intro hv
      have hv' : v ∈ r :: a :: m := by
        simp only [List.cons_append, List.mem_cons, List.mem_append, List.not_mem_nil, or_false] at hv ⊢
        rcases hv with h | h | h | h <;> simp [h]
      have hlen := adjOf_cycle_length hnd (by simp) v
      rw [if_pos hv', ← (adjOf_perm hperm v).length_eq] at hlen
      obtain ⟨w, hw⟩ := List.exists_mem_of_length_pos (l := adjOf ps v) (by omega)
      simp only [adjOf, List.mem_flatMap] at hw
      obtain ⟨p, hp, hw⟩ := hw
      refine ⟨p, hp, ?_⟩
      simp only [Graph.nbrsOf, List.mem_append] at hw
      rcases hw with hw | hw <;> split at hw
      · exact Or.inl (by omega)
      · simp at hw
      · exact Or.inr (by omega)
      · simp at hw
    · rintro ⟨⟨x, y⟩, hp, hv⟩
      obtain ⟨⟨x', y'⟩, hxy, hu⟩ := List.mem_map.1 (hperm.mem_iff.1 (List.mem_map_of_mem hp))
      have hm := mem_of_mem_consec hxy
      rw [und_eq_iff] at hu
      simp only at hv hm
      rcases hu with ⟨rfl, rfl⟩ | ⟨rfl, rfl⟩ <;> rcases hv with rfl | rfl
      · exact hm.1
      · exact hm.2
      · exact hm.2
      · exact hm.1

/-- **C30.** The edges of every tour through at least two vertices are accepted. -/
theorem C30_tour_accepted (g : Graph) (r : Nat) (t : List Nat) (ht : IsTour g r t) (hlen : 3 ≤ t.length) (es : List Nat) (ps : List (Nat × Nat))
    (hes : List.Forall₂ (fun e p => g.edges[e]? = some p) es ps) (hps : (ps.map und).Perm ((consec t).map und)) :
    isSimpleCycle g es = .ok true := by
  have h1 : mapRes g.ends es = .ok ps := mapRes_eq_ok.2 (hes.imp fun _ _ h => ends_ok.2 h)
  rw [isSimpleCycle, h1]
  obtain ⟨m, rfl⟩ := ht.shape
  have hnd := ht.nodup
  rw [dropLast_tour] at hnd
  have : isSimpleCyclePairs ps = true := isSimpleCyclePairs_complete (vs := r :: m) ⟨by simp at hlen ⊢; omega, hnd, by rw [cycleEdges_cons]; exact hps⟩
  rw [Res.ok_bind, this]; rfl

/-- **C30.** Rejected: no edge, a self-loop, a vertex of degree one (dangling path) or three (branch). -/
theorem C30_rejected (g : Graph) (es : List Nat) (ps : List (Nat × Nat)) (hes : List.Forall₂ (fun e p => g.edges[e]? = some p) es ps)
    (h : es = [] ∨ (∃ p ∈ ps, p.1 = p.2) ∨ ∃ v, degreeIn ps v ≠ 0 ∧ degreeIn ps v ≠ 2) :
    isSimpleCycle g es = .ok false := by
  have h1 : mapRes g.ends es = .ok ps := mapRes_eq_ok.2 (hes.imp fun _ _ h => ends_ok.2 h)
  rw [isSimpleCycle, h1, Res.ok_bind]
  have : isSimpleCyclePairs ps ≠ true := by
    intro hacc
    obtain ⟨vs, k1, k2, k3⟩ := (isSimpleCyclePairs_iff ps).1 hacc
    match vs, k1, k2, k3 with
    | s :: a :: m, k1, k2, k3 =>
      rw [cycleEdges_cons] at k3
      rcases h with rfl | ⟨p, hp, heq⟩ | ⟨v, h0, h2⟩
      · cases hes; simp at k3
      · have hl := (adjOf_self_iff _).2 (cycle_no_loop k2 (by simp))
        refine (adjOf_self_iff ps).1 (fun u hu => hl u ((adjOf_perm k3 u).mem_iff.1 hu)) p hp heq
      · rw [← adjOf_length] at h0 h2
        rw [(adjOf_perm k3 v).length_eq, adjOf_cycle_length k2 (by simp)] at h0 h2
        split at h2
        · exact h2 rfl
        · rename_i hv; rw [if_neg hv] at h0; exact h0 rfl
  rw [Bool.eq_false_iff.2 this]; rfl

/-- **C30.** Rejected: two disjoint groups of edges. -/
theorem C30_disjoint_rejected (g : Graph) (es : List Nat) (ps qs : List (Nat × Nat)) (hp : ps ≠ []) (hq : qs ≠ [])
    (hes : List.Forall₂ (fun e p => g.edges[e]? = some p) es (ps ++ qs))
    (h : ∀ p ∈ ps, ∀ q ∈ qs, p.1 ≠ q.1 ∧ p.1 ≠ q.2 ∧ p.2 ≠ q.1 ∧ p.2 ≠ q.2) :
    isSimpleCycle g es = .ok false := by
  have h1 : mapRes g.ends es = .ok (ps ++ qs) := mapRes_eq_ok.2 (hes.imp fun _ _ h => ends_ok.2 h)
  rw [isSimpleCycle, h1, Res.ok_bind]
  have : isSimpleCyclePairs (ps ++ qs) ≠ true := by
    intro hacc
    obtain ⟨vs, hvs⟩ := (isSimpleCyclePairs_iff _).1 hacc
    obtain ⟨⟨s, t⟩, ps', rfl⟩ := List.exists_cons_of_ne_nil hp
    obtain ⟨m, k1, k2, k3⟩ := hvs.start (s := s) (t := t) (by simp)
    rw [cycleEdges_cons] at k3
    -- all vertices of the cycle are end points of the first group
    have hstep : ∀ e ∈ consec (s :: (t :: m ++ [s])), (∃ p ∈ (s, t) :: ps', e.1 = p.1 ∨ e.1 = p.2) → ∃ p ∈ (s, t) :: ps', e.2 = p.1 ∨ e.2 = p.2 := by
      rintro ⟨x, y⟩ he ⟨p, hp, hx⟩
      obtain ⟨⟨x', y'⟩, hm, hu⟩ := List.mem_map.1 (k3.symm.mem_iff.1 (List.mem_map_of_mem he))
      rw [und_eq_iff] at hu
      rcases List.mem_append.1 hm with hm | hm
      · refine ⟨_, hm, ?_⟩
        simp only; omega
      · exfalso
        have := h p hp _ hm
        simp only at this hx
        omega
    have hall : ∀ (l : List Nat) (a : Nat), (∀ e ∈ consec (a :: l), (∃ p ∈ (s, t) :: ps', e.1 = p.1 ∨ e.1 = p.2) → ∃ p ∈ (s, t) :: ps', e.2 = p.1 ∨ e.2 = p.2) →
        (∃ p ∈ (s, t) :: ps', a = p.1 ∨ a = p.2) → ∀ x ∈ a :: l, ∃ p ∈ (s, t) :: ps', x = p.1 ∨ x = p.2 := by
      intro l
      induction l with
      | nil => intro a _ ha x hx; simp at hx; subst hx; exact ha
      | cons b l ih =>
        intro a hs ha x hx
        rcases List.mem_cons.1 hx with rfl | hx
        · exact ha
        · exact ih b (fun e he => hs e (by rw [consec_cons_cons]; simp [he])) (hs (a, b) (by rw [consec_cons_cons]; simp) ha) x hx
    have hall' := hall _ s hstep ⟨(s, t), by simp, Or.inl rfl⟩
    -- but an edge of the second group is in the cycle
    obtain ⟨⟨u, v⟩, qs', rfl⟩ := List.exists_cons_of_ne_nil hq
    obtain ⟨⟨x, y⟩, hxy, hu⟩ := List.mem_map.1 (k3.mem_iff.1 (List.mem_map_of_mem (a := (u, v)) (by simp)))
    obtain ⟨p, hp, hpx⟩ := hall' x (mem_of_mem_consec hxy).1
    have := h p hp (u, v) (by simp)
    rw [und_eq_iff] at hu
    simp only at this
    omega
  rw [Bool.eq_false_iff.2 this]; rfl

example : isSimpleCycle ⟨5, [(0, 1), (3, 4), (2, 1), (2, 0), (4, 1)]⟩ [3, 0, 2] = .ok true := by decide +kernel
example : FormCycle [(2, 0), (0, 1), (2, 1)] [0, 1, 2] := by decide +kernel
/-- A branch (vertex 1) and a dangling path. -/
example : isSimpleCycle ⟨5, [(0, 1), (3, 4), (2, 1), (2, 0), (4, 1)]⟩ [0, 2, 3, 4] = .ok false := by decide +kernel
/-- Two disjoint triangles. -/
example : isSimpleCycle ⟨6, [(0, 1), (1, 2), (2, 0), (3, 4), (4, 5), (5, 3)]⟩ [0, 1, 2, 3, 4, 5] = .ok false := by decide +kernel
/-- Two parallel edges are a cycle through two vertices. -/
example : isSimpleCycle ⟨2, [(0, 1), (1, 0)]⟩ [0, 1] = .ok true := by decide +kernel
example : IsTour ⟨3, [(0, 1), (2, 1), (2, 0)]⟩ 1 [1, 0, 2, 1] := ⟨⟨[0, 2], rfl⟩, by decide, by decide⟩

/-! The theorems applied to these graphs. -/

example := C30_isSimpleCycle_iff ⟨5, [(0, 1), (3, 4), (2, 1), (2, 0), (4, 1)]⟩ [3, 0, 2] (by decide)
example := C30_accepted_is_tour ⟨5, [(0, 1), (3, 4), (2, 1), (2, 0), (4, 1)]⟩ [3, 0, 2] (by decide) (by decide +kernel) 1 ⟨0, by decide, (0, 1), rfl, .inr rfl⟩
example := C30_tour_accepted ⟨3, [(0, 1), (2, 1), (2, 0)]⟩ 1 [1, 0, 2, 1] ⟨⟨[0, 2], rfl⟩, by decide, by decide⟩ (by decide) [2, 0, 1] [(2, 0), (0, 1), (2, 1)]
  (by simp) (by decide)
example := C30_rejected ⟨5, [(0, 1), (3, 4), (2, 1), (2, 0), (4, 1)]⟩ [0, 2, 3, 4] [(0, 1), (2, 1), (2, 0), (4, 1)] (by simp) (.inr (.inr ⟨1, by decide, by decide⟩))

end Pctsp
