import Verif.Props.Program
import Verif.Lemmas.Solve

/-!
# C121: the subtour constraint declares no locks

`PCTSPconshdlrSubtour::scip_lock` and `CycleCoverConshdlr::scip_lock` (src/subtour_elimination.cpp 248-250, src/cycle_cover.cpp 140-142) add no
locks.  A lock tells SCIP that the value of a variable must not be changed in one direction without looking at the constraint.
-/

namespace Pctsp

theorem secCheck_degrees {g : Graph} {order : List Nat} (ho : order.Perm (List.range g.edges.length)) {pos : Nat → Bool}
    (h : secCheck g order pos = .ok .feasible) (v : Nat) :
    degreeIn ((getSolutionEdges g order pos).map (endsOf g)) v = 0 ∨ degreeIn ((getSolutionEdges g order pos).map (endsOf g)) v = 2 := by
  have hlt : ∀ e ∈ getSolutionEdges g order pos, e < g.edges.length := fun e he => by
    obtain ⟨u, w, hp, -⟩ := (mem_getSolutionEdges ho).1 he
    exact (List.getElem?_eq_some_iff.1 hp).1
  by_contra hc
  rw [secCheck, C30_rejected g _ _ (ends_forall₂ hlt) (Or.inr (Or.inr ⟨v, by omega, by omega⟩))] at h
  simp [Res.pure_eq] at h

theorem secCheck_cases {g : Graph} {order : List Nat} (ho : order.Perm (List.range g.edges.length)) (pos : Nat → Bool) :
    secCheck g order pos = .ok .feasible ∨ secCheck g order pos = .ok .infeasible := by
  have hlt : ∀ e ∈ getSolutionEdges g order pos, e < g.edges.length := fun e he => by
    obtain ⟨u, w, hp, -⟩ := (mem_getSolutionEdges ho).1 he
    exact (List.getElem?_eq_some_iff.1 hp).1
  obtain ⟨ps, b, -, h, -⟩ := C30_isSimpleCycle_iff g _ hlt
  rw [secCheck, h]
  cases b
  · exact Or.inr rfl
  · exact Or.inl rfl

theorem solutionEdges_insert {g : Graph} {order : List Nat} (ho : order.Perm (List.range g.edges.length)) {pos pos' : Nat → Bool} {e u v : Nat}
    (he : g.edges[e]? = some (u, v)) (huv : u ≠ v) (h0 : pos e = false) (h1 : pos' e = true) (hsame : ∀ f, f ≠ e → pos' f = pos f) :
    (getSolutionEdges g order pos').Perm (e :: getSolutionEdges g order pos) := by
  rw [List.perm_ext_iff_of_nodup (getSolutionEdges_nodup ho _)]
  · intro f
    rw [List.mem_cons, mem_getSolutionEdges ho, mem_getSolutionEdges ho]
    by_cases hf : f = e
    · subst hf
      exact ⟨fun _ => Or.inl rfl, fun _ => ⟨u, v, he, huv, h1⟩⟩
    · rw [hsame f hf]
      simp [hf]
  · rw [List.nodup_cons]
    refine ⟨fun h => ?_, getSolutionEdges_nodup ho _⟩
    obtain ⟨_, _, _, _, h⟩ := (mem_getSolutionEdges ho).1 h
    rw [h0] at h
    cases h

theorem insert_rejected {g : Graph} {order : List Nat} (ho : order.Perm (List.range g.edges.length)) {pos pos' : Nat → Bool} {e u v : Nat}
    (he : g.edges[e]? = some (u, v)) (huv : u ≠ v) (h0 : pos e = false) (h1 : pos' e = true) (hsame : ∀ f, f ≠ e → pos' f = pos f) :
    ¬ (secCheck g order pos = .ok .feasible ∧ secCheck g order pos' = .ok .feasible) := by
  rintro ⟨ha, hb⟩
  have hd : degreeIn ((getSolutionEdges g order pos').map (endsOf g)) u = degreeIn ((getSolutionEdges g order pos).map (endsOf g)) u + 1 := by
    have hp := ((solutionEdges_insert ho he huv h0 h1 hsame).map (endsOf g))
    have : degreeIn ((getSolutionEdges g order pos').map (endsOf g)) u = degreeIn ((e :: getSolutionEdges g order pos).map (endsOf g)) u := by
      unfold degreeIn
      exact (hp.map _).sum_eq
    rw [this, List.map_cons, degreeIn_cons]
    have : endsOf g e = (u, v) := by simp [endsOf, he]
    rw [this]
    simp [Ne.symm huv]
    omega
  have h2 := secCheck_degrees ho ha u
  have h3 := secCheck_degrees ho hb u
  omega

/-- **C121.** The subtour constraint does restrict each edge in both directions: if the check accepts a solution, then it rejects the solution in which one
edge is added or removed.  The self-loops do not matter to it. -/
theorem C121_both_directions {g : Graph} {order : List Nat} (ho : order.Perm (List.range g.edges.length)) {pos pos' : Nat → Bool} {e u v : Nat}
    (he : g.edges[e]? = some (u, v)) (hother : ∀ f, f ≠ e → pos' f = pos f) (hflip : pos' e ≠ pos e) :
    (u ≠ v → secCheck g order pos = .ok .feasible → secCheck g order pos' = .ok .infeasible) ∧
    (u = v → secCheck g order pos' = secCheck g order pos) := by
  constructor
  · intro huv hacc
    rcases secCheck_cases ho pos' with h | h
    · exfalso
      cases h0 : pos e with
      | false => exact insert_rejected ho he huv h0 (by simpa [h0] using hflip) hother ⟨hacc, h⟩
      | true => exact insert_rejected ho he huv (by simpa [h0] using hflip) h0 (fun f hf => (hother f hf).symm) ⟨h, hacc⟩
    · exact h
  · rintro rfl
    have : getSolutionEdges g order pos' = getSolutionEdges g order pos := by
      refine List.filter_congr fun f _ => ?_
      by_cases hf : f = e
      · subst hf; simp [he]
      · rw [hother f hf]
    rw [secCheck, secCheck, this]

/-- **C121.** For each variable the model has a row that is violated whenever the value of that variable alone is changed, up or down.  So SCIP knows from
the rows that no variable can be moved on its own. -/
theorem C121_rows {g : Graph} (hg : SimpleWithLoops g) (prize : Nat → Int) (quota : Int) {root : Nat} {rows : List Row}
    (hrows : modelWithoutSECs g prize quota root = .ok rows) {e : Nat} (he : e < g.edges.length) :
    ∃ row ∈ rows, ∀ x y : Nat → Int, (∀ f, f ≠ e → y f = x f) → y e ≠ x e → row.Sat x → ¬ row.Sat y := by
  rw [modelWithoutSECs] at hrows
  obtain ⟨o, ho, hrows⟩ := Res.bind_eq_ok.1 hrows
  cases o with
  | none => cases hrows
  | some l =>
    simp only at hrows
    obtain ⟨deg, hdeg, hrows⟩ := Res.bind_eq_ok.1 hrows
    injection hrows with hrows
    subst hrows
    obtain ⟨⟨u, v⟩, hp⟩ : ∃ p, g.edges[e]? = some p := ⟨_, List.getElem?_eq_getElem he⟩
    have hu : u < g.n := (hg.wf _ (List.mem_of_getElem? hp)).1
    obtain ⟨loop, hloop⟩ := List.mem_iff_getElem?.1 (hg.loops u hu)
    obtain ⟨row, h1, h2, h3, h4, h5⟩ := C32_degree_row hg hu hloop
    obtain ⟨row', h6, h7⟩ := forall₂_left_mem (mapRes_eq_ok.1 hdeg) (List.mem_range.2 hu)
    rw [h1] at h7
    injection h7 with h7
    subst h7
    refine ⟨row, by simp [h6], fun x y hxy hne hx hy => ?_⟩
    have hax : row.activity x = 0 := Int.le_antisymm (hx.2 0 h3) (hx.1 0 h2)
    have hay : row.activity y = 0 := Int.le_antisymm (hy.2 0 h3) (hy.1 0 h2)
    obtain ⟨c, hc, hmem⟩ : ∃ c : Int, c ≠ 0 ∧ (e, c) ∈ row.coeffs := by
      by_cases huv : u = v
      · subst huv
        refine ⟨-2, by decide, (h5 e _).2 (Or.inl ⟨?_, rfl⟩)⟩
        have a1 := hg.edgeIdx (Or.inl hloop : EdgeBetween g loop u u)
        have a2 := hg.edgeIdx (Or.inl hp : EdgeBetween g e u u)
        rw [a1] at a2
        exact (Option.some.inj a2).symm
      · exact ⟨1, by decide, (h5 e _).2 (Or.inr ⟨rfl, u, v, hp, huv, Or.inl rfl⟩)⟩
    have key : ∀ (cs : List (Nat × Int)), (cs.map Prod.fst).Nodup → (e, c) ∈ cs →
        (cs.map fun p => p.2 * y p.1).sum = (cs.map fun p => p.2 * x p.1).sum + c * (y e - x e) := by
      intro cs
      induction cs with
      | nil => simp
      | cons q cs ih =>
        obtain ⟨f, d⟩ := q
        intro hnd hm
        rw [List.map_cons, List.nodup_cons] at hnd
        simp only [List.map_cons, List.sum_cons]
        rcases List.mem_cons.1 hm with hm | hm
        · obtain ⟨rfl, rfl⟩ := Prod.mk.inj hm
          have : (cs.map fun p => p.2 * y p.1) = cs.map fun p => p.2 * x p.1 := by
            refine List.map_congr_left fun p hp => ?_
            rw [hxy p.1 fun hpe => hnd.1 (List.mem_map.2 ⟨p, hp, hpe⟩)]
          rw [this, Int.mul_sub]
          omega
        · have hf : f ≠ e := fun hf => hnd.1 (List.mem_map.2 ⟨_, hm, hf.symm⟩)
          rw [ih hnd.2 hm, hxy f hf]
          omega
    rw [Row.activity, key _ h4 hmem] at hay
    rw [Row.activity] at hax
    rw [hax, Int.zero_add] at hay
    rcases Int.mul_eq_zero.1 hay with h | h
    · exact hc h
    · omega

/-- In the graph with five vertices of `exBow` and self-loops: the triangle 0, 1, 2 is accepted; with one edge more or less it is not. -/
example : secCheck ⟨5, [(0, 1), (1, 2), (2, 0), (0, 3), (3, 4), (4, 0), (0, 0)]⟩ [3, 1, 0, 2, 6, 5, 4] (fun e => decide (e < 3)) = .ok .feasible := by
  decide +kernel
example : [3, 1, 0, 2, 6, 5, 4].Perm (List.range 7) := by decide
example : secCheck ⟨5, [(0, 1), (1, 2), (2, 0), (0, 3), (3, 4), (4, 0), (0, 0)]⟩ [3, 1, 0, 2, 6, 5, 4] (fun e => decide (e < 2)) = .ok .infeasible :=
  (C121_both_directions (e := 2) (u := 2) (v := 0) (pos := fun e => decide (e < 3)) (by decide) rfl (fun f hf => by simp; omega) (by decide)).1
    (by decide) (by decide +kernel)
example : ∃ rows, modelWithoutSECs exK4 (fun _ => 1) 3 0 = .ok rows ∧ rows.length = 6 := ⟨_, rfl, rfl⟩

end Pctsp
