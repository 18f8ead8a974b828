import Verif.Props.RunAlgorithm

/-!
# C105: `solve_pctsp` of the Python package
-/

namespace Pctsp

variable {F V : Type} [DecidableEq V] {env : LabEnv F V} {G : LabGraph V} {w : V → V → Int} {π δ : V → Int} {quota : Int} {root : V}
  {heur : List (V × V)} {disjoint : List (V × Int)} {scip : Problem → ScipOutcome} {order : Nat → List Nat} {k : Int}

/-- **C105.** Edges that the test rejects are not used: the answer is that without heuristic edges.  If the test raises an exception, so does `solve_pctsp`,
and SCIP is not called. -/
theorem C105_rejected (scip : Problem → ScipOutcome) (order : Nat → List Nat) (o : SolveOptions) (disjoint : List (V × Int)) :
    (env.isYes heur = .ok false → solvePctspPy env scip order G heur quota root o disjoint = solvePctspPy env scip order G [] quota root o disjoint) ∧
    (env.isYes heur = .ok true →
      solvePctspPy env scip order G heur quota root o disjoint = solveBind scip order G.edges heur G.costs G.prizes quota root
        { o with coverDisjoint := o.coverDisjoint && !disjoint.isEmpty } disjoint env.pickCover) ∧
    ∀ e, heur ≠ [] → env.isYes heur = .throw e → ∀ scip, solvePctspPy env scip order G heur quota root o disjoint = .throw e := by
  have ho : (if disjoint.isEmpty = true then { o with coverDisjoint := false } else o) = { o with coverDisjoint := o.coverDisjoint && !disjoint.isEmpty } := by
    cases disjoint <;> simp
  refine ⟨fun h => ?_, fun h => ?_, fun e hne h scip => ?_⟩
  · simp only [solvePctspPy, initialYesInstance, h, Res.ok_bind]
    cases heur <;> simp
  · simp only [solvePctspPy, initialYesInstance, h, Res.ok_bind, ho]
    cases heur <;> simp
  · simp only [solvePctspPy, initialYesInstance, h, List.isEmpty_iff, hne, if_false]
    rfl

/-- **C105.** Whatever edges are given as a heuristic solution, `solve_pctsp` returns the edges of a feasible tour or nothing.  With the status `optimal` the
tour costs the least among all feasible tours, and with the status `infeasible` there is none.  If the test accepts the edges and SCIP keeps start solutions,
there is an answer that costs no more than them, however the search ends. -/
theorem C105_solve (h : Describes G.edges G.costs G.prizes w π) (hno : ∀ e ∈ G.edges, e.1 ≠ e.2) (hw : ∀ x y, 0 ≤ w x y) (hroot : root ∈ endpoints G.edges)
    (hpick : env.pickCover.Heap) (hyes : env.YesSound G π quota root) {b : Bool} (hb : env.isYes heur = .ok b) (o : SolveOptions)
    (hkeys : ∀ x c, (x, c) ∈ disjoint → c = δ x ∧ x ∈ endpoints G.edges) (ho : ∀ n, (order n).Perm (List.range n))
    (hk : k = 1 ∨ ((o.coverDisjoint = false ∨ disjoint = []) ∧ o.coverShortest = false)) (hscip : ∀ P, ScipSpec k P (order P.graph.edges.length) (scip P))
    (hreach : o.coverShortest = true → ∀ x ∈ endpoints G.edges, ∃ l, (root :: l).getLast? = some x ∧ (∀ p ∈ consec (root :: l), AdjIn G.edges p.1 p.2) ∧
      namedCost w (root :: l) ≤ 1073741823)
    (hprize : o.cycleCover = true → ∀ x, 0 ≤ π x)
    (hdis : o.coverDisjoint = true → ∀ x c, (x, c) ∈ disjoint → ∀ t, FeasibleIn G.edges π quota root t → x ∈ t → c ≤ namedCost w t) :
    ∃ st ps, solvePctspPy env scip order G heur quota root o disjoint = .ok (st, ps) ∧
      (ps = [] ∨ ∃ t, FeasibleIn G.edges π quota root t ∧ EdgesOfTour t ps) ∧
      (st = .optimal → ∃ t, FeasibleIn G.edges π quota root t ∧ EdgesOfTour t ps ∧ ∀ t', FeasibleIn G.edges π quota root t' → namedCost w t ≤ namedCost w t') ∧
      (st = .infeasible → ps = [] ∧ ∀ t, ¬ FeasibleIn G.edges π quota root t) ∧
      ((∀ P, KeepsStart P (order P.graph.edges.length) (scip P)) → b = true →
        st ≠ .infeasible ∧ ∃ t, FeasibleIn G.edges π quota root t ∧ EdgesOfTour t ps ∧ namedCost w t ≤ (heur.map fun p => w p.1 p.2).sum) := by
  obtain ⟨h1, h2, -⟩ := C105_rejected (env := env) (G := G) (quota := quota) (root := root) (heur := heur) scip order o disjoint
  set o' : SolveOptions := { o with coverDisjoint := o.coverDisjoint && !disjoint.isEmpty } with ho'
  have hk' : k = 1 ∨ (o'.coverDisjoint = false ∧ o'.coverShortest = false) := by
    refine hk.imp_right fun hk => ⟨?_, hk.2⟩
    rcases hk.1 with h | h <;> simp [ho', h]
  have hon : o'.coverDisjoint = true → o.coverDisjoint = true := fun a => ((Bool.and_eq_true _ _).mp a).1
  cases b with
  | false =>
    have hnil : solvePctspPy env scip order G [] quota root o disjoint = solveBind scip order G.edges [] G.costs G.prizes quota root o' disjoint env.pickCover := by
      have : (if disjoint.isEmpty = true then { o with coverDisjoint := false } else o) = o' := by
        cases disjoint <;> simp [ho']
      simp only [solvePctspPy, initialYesInstance, List.isEmpty_nil, if_true, Res.ok_bind, this]
    obtain ⟨st, ps, k1, k2, k3, k4⟩ := C88_solve h hno hw (quota := quota) hroot (heur := []) (by simp) o' hkeys hpick ho hk' hscip hreach hprize
      (fun a => hdis (hon a)) (by simp)
    exact ⟨st, ps, by rw [h1 hb, hnil, k1], k2, k3, k4, by simp⟩
  | true =>
    obtain ⟨t₀, ht₀, he₀⟩ := hyes heur hb
    have hsum : (heur.map fun p => w p.1 p.2).sum = namedCost w t₀ := he₀.sum h.symm
    obtain ⟨st, ps, k1, k2, k3, k4⟩ := C88_solve h hno hw (quota := quota) hroot (he₀.adj ht₀.tour) o' hkeys hpick ho hk' hscip hreach hprize
      (fun a => hdis (hon a)) (fun _ _ _ => ⟨t₀, ht₀, Int.le_of_eq hsum.symm⟩)
    refine ⟨st, ps, by rw [h2 hb, k1], k2, k3, k4, fun hkeep _ => ?_⟩
    obtain ⟨st', ps', t', m1, m2, m3, m4, m5⟩ := C93_kept h hno hw hroot o' hkeys hpick ho hscip hkeep hreach hprize (fun a => hdis (hon a)) ht₀ he₀
    rw [k1] at m1
    cases m1
    exact ⟨m2, t', m3, m4, by rw [hsum]; exact m5⟩

/-- **C105.** Without distances the cost cover by disjoint paths is switched off, whatever is asked for. -/
theorem C105_no_distances (scip : Problem → ScipOutcome) (order : Nat → List Nat) (o : SolveOptions) :
    solvePctspPy env scip order G heur quota root { o with coverDisjoint := true } [] =
      solvePctspPy env scip order G heur quota root { o with coverDisjoint := false } [] := by
  simp [solvePctspPy]

/-- The hypotheses of C105_solve, for edges that are rejected and for edges that are accepted, on the complete graph with four vertices with all cost covers
and distances that are no more than the cost of any tour. -/
example : Describes fourLab.edges fourLab.costs fourLab.prizes fourCost (fun _ => 1) ∧ (∀ e ∈ fourLab.edges, e.1 ≠ e.2) ∧ (∀ x y, 0 ≤ fourCost x y) ∧
    (0 : Fin 4) ∈ endpoints fourLab.edges ∧ (oneEnv fourLab (fun _ => 1) 0 [0, 2, 1, 0]).pickCover.Heap ∧
    (oneEnv fourLab (fun _ => 1) 0 [0, 2, 1, 0]).YesSound fourLab (fun _ => 1) 3 0 ∧
    (oneEnv fourLab (fun _ => 1) 0 [0, 2, 1, 0]).isYes (consec [0, 2, 1, 0]) = .ok true ∧
    (oneEnv fourLab (fun _ => 1) 0 [0, 2, 1, 0]).isYes [(0, 0), (3, 3)] = .ok false ∧
    (∀ x c, (x, c) ∈ [((0 : Fin 4), (0 : Int)), (1, 5)] → c = (if x = 1 then 5 else 0) ∧ x ∈ endpoints fourLab.edges) ∧
    (∀ x ∈ endpoints fourLab.edges, ∃ l, (0 :: l).getLast? = some x ∧ (∀ p ∈ consec (0 :: l), AdjIn fourLab.edges p.1 p.2) ∧
      namedCost fourCost (0 :: l) ≤ 1073741823) ∧
    (∀ x c, (x, c) ∈ [((0 : Fin 4), (0 : Int)), (1, 5)] → ∀ t, FeasibleIn fourLab.edges (fun _ => 1) 3 0 t → x ∈ t → c ≤ namedCost fourCost t) ∧
    ∃ scip : Problem → ScipOutcome, (∀ P, ScipSpec 1 P (List.range P.graph.edges.length) (scip P)) ∧
      (∀ P, KeepsStart P (List.range P.graph.edges.length) (scip P)) := by
  have hf : FeasibleIn fourLab.edges (fun _ => 1) 3 0 [0, 2, 1, 0] := ⟨⟨⟨[2, 1], rfl⟩, by decide, by decide⟩, by decide, by decide⟩
  obtain ⟨scip, hscip⟩ := exists_scip_keeps 1 List.range
  refine ⟨fourLab_ok.describes, by decide, by decide, by decide, (oneEnv_ok fourLab_ok (by decide) _).pickCover, oneEnv_sound hf, by decide, by decide,
    ?_, fun x _ => ⟨if x = 0 then [] else [x], by revert x; decide⟩, ?_, scip, fun P => (hscip P).1, fun P => (hscip P).2.1⟩
  · intro x c hc
    simp only [List.mem_cons, Prod.mk.injEq, List.not_mem_nil, or_false] at hc
    rcases hc with ⟨rfl, rfl⟩ | ⟨rfl, rfl⟩ <;> decide
  rintro x c hc t ⟨⟨⟨m, rfl⟩, hn, hw⟩, h3, -⟩ -
  have hc : c ≤ 5 := by
    simp only [List.mem_cons, Prod.mk.injEq, List.not_mem_nil, or_false] at hc
    rcases hc with ⟨-, rfl⟩ | ⟨-, rfl⟩ <;> decide
  refine Int.le_trans hc ?_
  have hlen : m.length ≤ 3 := by
    rw [← List.cons_append, List.dropLast_concat] at hn
    have := hn.length_le_card
    simp at this
    omega
  clear hc
  match m, hlen with
  | [], _ => simp at h3
  | [a], _ => simp at h3
  | [a, b], _ => clear h3; revert a b; decide +kernel
  | [a, b, c], _ => clear h3; revert a b c; decide +kernel

/-- Without the test, edges that are not in the graph would make the solver fail. -/
example : solveBind (fun _ => ⟨.other, none⟩) List.range fourLab.edges [(0, 0)] fourLab.costs fourLab.prizes 3 0 ⟨false, false, false, true, true⟩ [] exPick
    ≠ .ok (.other, []) := by decide +kernel

end Pctsp
