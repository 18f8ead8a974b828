import Verif.Model.EnforceAnswer
import Verif.Props.Tailing
import Verif.Props.Cuts
import Verif.Props.Locks

/-!
# C165: answers of the enforcement that SCIP does not accept
-/

namespace Pctsp

variable {G : Type}

theorem hasCandidate_false {g : Graph} {q : Int} {x : Nat → Int} : hasCandidate g q x = false ↔ ∀ e < g.edges.length, x e = 0 ∨ x e = q := by
  rw [hasCandidate, List.any_eq_false]
  constructor
  · intro h e he
    have := h e (List.mem_range.2 he)
    simp only [ne_eq, decide_eq_true_eq, not_and, not_not] at this
    by_cases h0 : x e = 0
    · exact .inl h0
    · exact .inr (this h0)
  · intro h e he
    have := h e (List.mem_range.1 he)
    simp only [ne_eq, decide_eq_true_eq, not_and, not_not]
    exact fun h0 => this.resolve_left h0

/-- **C165.** The enforcement always gives an answer.  SCIP does not accept it iff every variable has the value zero or one in the LP solution, the edges with value one are no simple cycle, the LP was
solved, and the gap has improved by less than the threshold since the call of the node `m - 1` calls before.  With a fractional variable it branches under the same conditions; it accepts iff the check does. -/
theorem C165_rejected_iff (sub : G → G → G) (lt : G → G → Bool) (threshold : G) (m : Int) (history : List (EnfoCall G)) {g : Graph} {order : List Nat}
    (ho : order.Perm (List.range g.edges.length)) (q : Int) (x : Nat → Int) (node : Nat) (gap : G) (lpOk : Bool) :
    ∃ a, enforceAnswer sub lt threshold m (enfoRun sub lt threshold m history []).2 g order q x node gap lpOk = .ok a ∧
      (a.accepted = false ↔ (∀ e < g.edges.length, x e = 0 ∨ x e = q) ∧ secCheck g order (fun e => decide (0 < x e)) = .ok .infeasible ∧ lpOk = true ∧
        ∃ (pre mid : List G) (b : G), gapsOf node history = pre ++ b :: mid ∧ (mid.length : Int) + 2 = m ∧ lt (sub b gap) threshold = true) ∧
      (a = .branched ↔ (∃ e < g.edges.length, x e ≠ 0 ∧ x e ≠ q) ∧ secCheck g order (fun e => decide (0 < x e)) = .ok .infeasible ∧ lpOk = true ∧
        ∃ (pre mid : List G) (b : G), gapsOf node history = pre ++ b :: mid ∧ (mid.length : Int) + 2 = m ∧ lt (sub b gap) threshold = true) ∧
      (a = .feasible ↔ secCheck g order (fun e => decide (0 < x e)) = .ok .feasible) := by
  have hcand : (∃ e < g.edges.length, x e ≠ 0 ∧ x e ≠ q) ↔ hasCandidate g q x = true := by
    rw [hasCandidate, List.any_eq_true]
    simp only [List.mem_range, decide_eq_true_eq]
  have hlt : ∀ e ∈ getSolutionEdges g order (fun e => decide (0 < x e)), e < g.edges.length := fun e he => by
    obtain ⟨u, w, hp, -⟩ := (mem_getSolutionEdges ho).1 he
    exact (List.getElem?_eq_some_iff.1 hp).1
  obtain ⟨ps, s, -, h, -⟩ := C30_isSimpleCycle_iff g _ hlt
  have hcheck : secCheck g order (fun e => decide (0 < x e)) = .ok (if s then .feasible else .infeasible) := by rw [secCheck, h]; rfl
  have h60 := C60_branches_iff sub lt threshold m history ⟨s, node, gap, lpOk⟩
  simp only at h60
  rw [enforceAnswer, enforceSubtour, h]
  refine ⟨_, rfl, ?_⟩
  rw [hcheck, ← hasCandidate_false, hcand]
  generalize (enfolp sub lt threshold m (enfoRun sub lt threshold m history []).2 s node gap lpOk).1 = r at h60
  obtain ⟨h1, h2⟩ := h60
  cases r with
  | feasible =>
    have hs : s = true := h1.1 rfl
    subst hs
    simp [EnfoAnswer.accepted]
  | infeasible =>
    have hs : s = false := by cases s <;> simp_all
    subst hs
    simp only [reduceCtorEq, true_and, false_iff, not_and] at h2
    simp only [EnfoAnswer.accepted, reduceCtorEq, false_iff, Bool.false_eq_true, if_false, Res.ok.injEq, true_and, and_true, not_and, iff_self]
    exact ⟨fun _ hl => h2 hl, fun _ hl => h2 hl⟩
  | branch =>
    obtain ⟨hs, hl, hw⟩ := h2.1 rfl
    subst hs
    cases hc : hasCandidate g q x with
    | true => simpa [EnfoAnswer.accepted, hl] using hw
    | false => simpa [EnfoAnswer.accepted, hl] using hw

/-- **C165.** For such a solution the separation of disjoint tours finds rows, all of them violated: the answer is only given if SCIP enforces a solution that was not separated, or whose rows it did not take. -/
theorem C165_separable (sub : G → G → G) (lt : G → G → Bool) (threshold : G) (m : Int) (history : List (EnfoCall G)) (sv : Solver) {g : Graph} (hg : SimpleWithLoops g)
    {prize : Nat → Int} {quota : Int} {root k : Nat} (hroot : root < g.n) {ids order : List Nat} (ho : order.Perm (List.range g.edges.length)) {x : Nat → Int} {rows : List Row}
    (hrows : modelWithoutSECs g prize quota root = .ok rows) (hsat : ∀ row ∈ rows, row.Sat x) (hc : IsComponents g x k ids) (st : SepState) (node : Nat) (gap : G) (lpOk : Bool)
    {a : EnfoAnswer} (h : enforceAnswer sub lt threshold m (enfoRun sub lt threshold m history []).2 g order 1 x node gap lpOk = .ok a) (ha : a.accepted = false) :
    ∃ st' cuts, separateSubtourDisjoint sv g g.hasVar root k ids st = .ok (st', cuts.length) ∧ st'.offered = st.offered ++ cuts ∧ cuts ≠ [] ∧ ∀ row ∈ cuts, ¬ row.Sat x := by
  obtain ⟨a', h1, h2, -⟩ := C165_rejected_iff sub lt threshold m history ho 1 x node gap lpOk
  rw [h] at h1
  cases h1
  obtain ⟨hx, hinf, -⟩ := h2.1 ha
  obtain ⟨rows', r1, r2⟩ := modelRows_sat hg prize quota hroot x
  rw [hrows] at r1
  cases r1
  obtain ⟨-, -, hdeg⟩ := r2.1 hsat
  obtain ⟨drows, d1, d2⟩ := degreeRows_sat hg x
  have hx0 : ∀ e < g.edges.length, 0 ≤ x e := fun e he => by rcases hx e he with h | h <;> omega
  obtain ⟨st', cuts, targets, s1, s2, -, -, -, -, s3⟩ := C36_separates sv hg hroot hx0 d1 (d2.2 hdeg) hc st
  refine ⟨st', cuts, s1, s2, ?_, s3⟩
  rintro rfl
  obtain ⟨st'', n, t1, t2⟩ := C58_accepted_iff_nothing_separated sv hg hroot ho hx hrows hsat hc st
  rw [s1] at t1
  cases t1
  rw [t2.2 rfl] at hinf
  cases hinf

/-- **C165.** With a window of at most one call SCIP accepts every answer. -/
theorem C165_disabled (sub : G → G → G) (lt : G → G → Bool) (threshold : G) (m : Int) (hm : m ≤ 1) (history : List (EnfoCall G)) {g : Graph} {order : List Nat}
    (ho : order.Perm (List.range g.edges.length)) (q : Int) (x : Nat → Int) (node : Nat) (gap : G) (lpOk : Bool) :
    ∃ a, enforceAnswer sub lt threshold m (enfoRun sub lt threshold m history []).2 g order q x node gap lpOk = .ok a ∧ a.accepted = true := by
  obtain ⟨a, h1, h2, -⟩ := C165_rejected_iff sub lt threshold m history ho q x node gap lpOk
  refine ⟨a, h1, ?_⟩
  by_contra hb
  obtain ⟨-, -, -, pre, mid, b, -, hlen, -⟩ := h2.1 (by simpa using hb)
  omega

/-- Two triangles, all of whose edges have value one, a window of two calls and no improvement: the answer is not accepted; at the first call it is. -/
example : enforceAnswer (· - ·) (fun a b : Int => decide (a < b)) 1 2 (enfoRun (· - ·) (fun a b : Int => decide (a < b)) 1 2 [⟨false, 0, 5, true⟩] []).2 exTwo
      (List.range exTwo.edges.length) 1 exBoth 0 5 true = .ok .didNotRun ∧
    enforceAnswer (· - ·) (fun a b : Int => decide (a < b)) 1 2 (enfoRun (· - ·) (fun a b : Int => decide (a < b)) 1 2 [] []).2 exTwo
      (List.range exTwo.edges.length) 1 exBoth 0 5 true = .ok .infeasible := by decide +kernel

/-- The same solution meets the hypotheses of `C165_separable`. -/
example : ∃ rows, modelWithoutSECs exTwo (fun _ => 1) 3 0 = .ok rows ∧ ∀ row ∈ rows, row.Sat exBoth := ⟨_, rfl, by decide +kernel⟩
example : ∀ v < exTwo.n, ∃ c, [0, 0, 0, 1, 1, 1][v]? = some c ∧ c < 2 := isComponents_labels exTwo_components

end Pctsp
