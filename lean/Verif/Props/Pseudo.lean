import Verif.Model.Pseudo
import Verif.Props.BranchAndCut

/-!
# C137: pseudo solutions

The steps that SCIP makes in a node whose LP relaxation it does not solve are steps of the search of C137.
-/

namespace Pctsp

/-- **C137, pseudo solutions.**  A pseudo solution that satisfies the linear rows is let pass by the enforcement callbacks iff it passes every check.
If it is let pass and is the best so far, accepting it is a step of the search (of every search but one that uses neither heuristics nor
incomplete LP relaxations).  If it is not let pass, or violates a row, and the node fixes every variable, dropping the node is a step of the
search.  So the answers of a search with such nodes are the ones of `C137_answer`. -/
theorem C137_pseudo {g : Graph} {cost : Nat → Int} (hg : g.WF) (hno : ∀ e ∈ g.edges, e.1 ≠ e.2) (hs : (g.edges.map und).Nodup)
    (hc : ∀ e < g.edges.length, 0 ≤ cost e) {heur : List Nat} (hheur : ∀ e ∈ heur, e < g.edges.length) (prize : Nat → Int) (quota : Int) {root : Nat}
    (hroot : root < g.n) (o : SolveOptions) (disjoint : Nat → Int) {pick : Pick} (hpick : pick.Heap)
    (hreach : o.coverShortest = true → ∀ v < g.n, ∃ d, Reaches g cost (fun _ => false) root v d ∧ d ≤ 1073741823)
    (hprize : o.cycleCover = true → ∀ v < g.n, 0 ≤ prize v) :
    ∃ P, buildProblem g heur cost prize quota root o disjoint pick = .ok P ∧
      ∀ {order : List Nat} {y : Nat → Int}, order.Perm (List.range P.graph.edges.length) → (∀ e < P.graph.edges.length, y e = 0 ∨ y e = 1) →
        ∃ a, enforcePseudo P.graph order (fun e => decide (0 < y e)) = .ok a ∧
          ((∀ row ∈ P.rows, row.Sat y) ∧ enforced P.cycleCover a = true ↔ Accepted P order y) ∧
          ∀ {mode : SearchMode} {scale : Int} {s : Search} {l r : List (List (Nat × Bool))} {n : List (Nat × Bool)}, s.nodes = l ++ n :: r → InNode n 1 y →
            ((∀ row ∈ P.rows, row.Sat y) → enforced P.cycleCover a = true → s.Better P y → (mode.extra = true ∨ mode.keep = false) →
              ∀ {all rows : List Row}, eventRows P (objective P.graph P.cost y / scale) = .ok all → rows ⊆ all →
                Step mode scale P order s (s.improved y rows)) ∧
            (¬ ((∀ row ∈ P.rows, row.Sat y) ∧ enforced P.cycleCover a = true) → (∀ e < P.graph.edges.length, e ∈ n.map Prod.fst) →
              Step mode scale P order s { s with nodes := l ++ r }) := by
  obtain ⟨P, h1, ⟨ub, hsnd⟩, -⟩ := search_built hg hno hs hc hheur prize quota hroot o disjoint hpick hreach hprize
  refine ⟨P, h1, fun {order y} ho hy => ?_⟩
  obtain ⟨ps, b, -, hb, -⟩ := C30_isSimpleCycle_iff P.graph (getSolutionEdges P.graph order fun e => decide (0 < y e)) (by
    intro e he
    simp only [getSolutionEdges, List.mem_filter] at he
    obtain ⟨-, he⟩ := he
    split at he
    · rename_i p hp
      exact (List.getElem?_eq_some_iff.1 hp).1
    · simp at he)
  have ha : enforcePseudo P.graph order (fun e => decide (0 < y e)) = .ok (if b then .feasible else .infeasible) := by
    unfold enforcePseudo
    rw [hb]
    cases b <;> rfl
  have henf : enforced P.cycleCover (if b then .feasible else .infeasible) = b := by
    cases b
    · simp [enforced]
    · exact enforced_iff.2 rfl
  have hLP : (∀ row ∈ P.rows, row.Sat y) → LpSolution P 1 y := fun hr =>
    ⟨by omega, fun e he => by rcases hy e he with h | h <;> omega, fun row hrow => satScaled_one.2 (hr row hrow)⟩
  have hsub : ∀ (lpOk : Bool), enforceSubtour (fun _ _ => ()) (fun _ _ => false) () 0 [] P.graph order (fun e => decide (0 < y e)) 0 () lpOk =
      .ok (enfolp (fun _ _ => ()) (fun _ _ => false) () 0 [] b 0 () lpOk) := fun lpOk => by
    rw [enforceSubtour, hb]; rfl
  refine ⟨_, ha, ⟨fun h => ?_, fun h => ⟨h.rows, ?_⟩⟩, fun {mode scale s l r n} hn hin => ⟨fun hr he hbt hmode {all rows} hev hrs => ?_, fun hnot hfix => ?_⟩⟩
  · have hbt : b = true := by rw [← henf]; exact h.2
    rw [hbt] at hb
    exact hsnd.enforced_accepted ho (hLP h.1) (fun e _ => (one_mul _).symm) hb
  · have h2 := secCheck_feasible.1 h.subtour
    rw [hb] at h2
    injection h2 with h2
    rw [henf, h2]
  · have hbt' : b = true := by rw [← henf]; exact he
    rw [hbt'] at hb
    rcases hmode with hm | hm
    · exact .checked hm (hsnd.enforced_accepted ho (hLP hr) (fun e _ => (one_mul _).symm) hb) hbt hev hrs
    · refine .enforced (q := 1) (x := y) (kept := []) hn (by simp) (by simp [hm]) ⟨hLP hr, by simp, hin⟩ (fun e _ => (one_mul _).symm) (hsub true) ?_ hbt hev hrs
      rw [hbt']; exact enforced_iff.2 rfl
  · by_cases hr : ∀ row ∈ P.rows, row.Sat y
    · have hbf : b = false := by
        cases b
        · rfl
        · exact absurd ⟨hr, henf⟩ hnot
      refine .rejected (q := 1) (x := y) (kept := []) hn (by simp) ⟨hLP hr, by simp, hin⟩ hfix (hsub true) ?_
      rw [hbf]
      rfl
    · refine .infeasible (kept := []) (own := []) hn (by simp) (by simp) (fun _ _ _ => by simp) (fun q x hx => hr fun row hrow => ?_)
      have hxy : ∀ e < P.graph.edges.length, x e = q * y e := by
        intro e he
        obtain ⟨p, hp, rfl⟩ := List.mem_map.1 (hfix e he)
        rw [hx.node p hp, hin p hp, one_mul]
      exact ((hsnd.rows_local row hrow).sat hx.lp.pos hxy).1 (hx.lp.rows row hrow)

/-- On `exTwo` the pseudo solution of one triangle passes, the one of both triangles, which satisfies every row, does not. -/
example : enforcePseudo exTwo (List.range exTwo.edges.length) (fun e => decide (e < 3)) = .ok .feasible ∧
    enforcePseudo exTwo (List.range exTwo.edges.length) (fun e => decide (0 < exBoth e)) = .ok .infeasible := by decide +kernel

/-- The hypotheses of `C137_pseudo` hold for `exTwoBare`; the node that fixes all variables to the values of both triangles is dropped. -/
example : ∃ P, buildProblem exTwoBare [] (fun _ => 1) (fun _ => 1) 3 0 ⟨false, false, true, true, true⟩ (fun _ => 0) exPick = .ok P ∧
    Step ⟨true, false⟩ 1 P (List.range P.graph.edges.length)
      { Search.init with nodes := [(List.range P.graph.edges.length).map fun e => (e, decide (e = 9))] } { Search.init with nodes := [] } := by
  obtain ⟨P, h1, h2⟩ := C137_pseudo (g := exTwoBare) (cost := fun _ => 1) (by decide) (by decide) (by decide) (by simp) (heur := []) (by simp) (fun _ => 1) 3
    (root := 0) (by decide) ⟨false, false, true, true, true⟩ (fun _ => 0) exPick_heap (by simp) (by simp)
  refine ⟨P, h1, ?_⟩
  obtain ⟨a, ha, hiff, hstep⟩ := h2 (order := List.range P.graph.edges.length) (y := fun e => if e = 9 then 1 else 0) (.refl _)
    (fun e _ => by split <;> simp)
  have hP : buildProblem exTwoBare [] (fun _ => 1) (fun _ => 1) 3 0 ⟨false, false, true, true, true⟩ (fun _ => 0) exPick = .ok P := h1
  refine (hstep (l := []) (r := []) rfl ?_).2 ?_ ?_
  · intro p hp
    obtain ⟨e, he, rfl⟩ := List.mem_map.1 hp
    by_cases h9 : e = 9 <;> simp [h9, bit]
  · rintro ⟨-, hp⟩
    have hf := enforced_iff.1 hp
    rw [hf] at ha
    injection hP with hP
    subst hP
    revert ha
    decide +kernel
  · intro e he
    simp only [List.map_map, List.mem_map, List.mem_range]
    exact ⟨e, he, rfl⟩

end Pctsp
