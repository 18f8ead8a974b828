import Verif.Lemmas.Summary
import Verif.Props.Batch
import Verif.Props.RunAlgorithm

/-!
# C97: the summary of an experiment
-/

namespace Pctsp

variable {U V P : Type} [DecidableEq U] {vials : List (LabVial U P)}

omit [DecidableEq U] in
/-- **C97.** Reading the results fails iff one of the files does not hold a result. -/
theorem C97_read (s : Store U V) : (∃ rs, readResults s vials = .ok rs) ↔ ∀ v ∈ vials, s v.uuid ≠ .invalid := by
  refine ⟨fun ⟨rs, h⟩ => ?_, readResults_ok⟩
  induction vials generalizing rs with
  | nil => simp
  | cons v vs ih =>
    simp only [readResults] at h
    have key : ∀ {r : StoredResult U V}, (readResults s vs).map (r :: ·) = .ok rs → ∃ rs', readResults s vs = .ok rs' := by
      intro r; cases readResults s vs <;> simp [Except.map]
    cases hs : s v.uuid with
    | absent => rw [hs] at h; simpa [hs] using ih ⟨_, h⟩ _ h
    | corrupt => rw [hs] at h; simpa [hs] using ih ⟨_, h⟩ _ h
    | invalid => rw [hs] at h; cases h
    | good r => rw [hs] at h; obtain ⟨rs', h'⟩ := key h; simpa [hs] using ih ⟨_, h'⟩ _ h'

/-- **C97.** The summary has one row for every vial with a readable result, in the order of the vials; a row is marked as feasible iff the prize reaches the
quota, and otherwise has no objective and no overshoot. -/
theorem C97_rows {s : Store U V} (hd : Distinct vials) (ho : OwnResults s vials) {rs : List (StoredResult U V)} (hr : readResults s vials = .ok rs)
    (hne : ∃ v ∈ vials, HasResult s v) :
    ∃ rows, experimentSummary vials rs = .ok rows ∧ (∀ v, v ∈ rows.map (·.vial) ↔ v ∈ vials ∧ HasResult s v) ∧ (rows.map (·.vial)).Sublist vials ∧
      ∀ row ∈ rows, s row.vial.uuid = .good row.result ∧
        (row.vial.quota ≤ row.result.result.prize → row.feasible = true ∧ row.objective = some row.result.result.objective ∧
          row.overshoot = some (row.result.result.prize - row.vial.quota)) ∧
        (row.result.result.prize < row.vial.quota → row.feasible = false ∧ row.objective = none ∧ row.overshoot = none) := by
  obtain rfl := readResults_eq hr
  have hrows : ∀ (l : List (LabVial U P)), (∀ v ∈ l, v ∈ vials) →
      (l.flatMap fun v => ((vials.filterMap fun v => (s v.uuid).result?).filter
        fun r => decide (r.uuid = v.uuid)).map (summaryRow v)) =
      l.filterMap fun v => (s v.uuid).result?.map (summaryRow v) := by
    intro l hl
    induction l with
    | nil => rfl
    | cons v l ih =>
      rw [List.flatMap_cons, filter_results hd ho (hl v (by simp)), ih fun w hw => hl w (by simp [hw]), List.filterMap_cons]
      cases hs : s v.uuid <;> simp
  have hn : ¬ (vials.isEmpty || (vials.filterMap fun v => (s v.uuid).result?).isEmpty) = true := by
    obtain ⟨v, hv, r, hvr⟩ := hne
    have h1 : vials ≠ [] := List.ne_nil_of_mem hv
    have h2 : (vials.filterMap fun v => (s v.uuid).result?) ≠ [] :=
      List.ne_nil_of_mem (List.mem_filterMap.2 ⟨v, hv, by rw [hvr]; rfl⟩)
    rw [Bool.or_eq_true, List.isEmpty_iff, List.isEmpty_iff]
    rintro (h | h)
    · exact h1 h
    · exact h2 h
  refine ⟨vials.filterMap fun v => (s v.uuid).result?.map (summaryRow v), ?_, fun v => ?_, ?_, fun row hrow => ?_⟩
  · unfold experimentSummary
    rw [if_neg hn, hrows vials fun _ h => h]
  · simp only [List.mem_map, List.mem_filterMap]
    constructor
    · rintro ⟨row, ⟨x, hx, he⟩, rfl⟩
      cases hs : s x.uuid <;> rw [hs] at he <;> simp at he
      subst he
      exact ⟨hx, _, hs⟩
    · rintro ⟨hv, r, hvr⟩
      exact ⟨summaryRow v r, ⟨v, hv, by rw [hvr]; rfl⟩, rfl⟩
  · have : ∀ l : List (LabVial U P), ((l.filterMap fun v => (s v.uuid).result?.map (summaryRow v)).map (·.vial)).Sublist l := by
      intro l
      induction l with
      | nil => exact List.Sublist.slnil
      | cons v l ih =>
        rw [List.filterMap_cons]
        cases hs : s v.uuid with
        | absent => exact ih.cons v
        | corrupt => exact ih.cons v
        | invalid => exact ih.cons v
        | good r => exact ih.cons_cons v
    exact this vials
  · obtain ⟨x, hx, he⟩ := List.mem_filterMap.1 hrow
    cases hs : s x.uuid <;> rw [hs] at he <;> simp at he
    subst he
    refine ⟨hs, fun h => ?_, fun h => ?_⟩
    · simp only [summaryRow] at h ⊢; simp [h]
    · simp only [summaryRow] at h ⊢; simp [h]

/-- **C97.** The summary raises iff there is no result at all. -/
theorem C97_raises {s : Store U V} {rs : List (StoredResult U V)} (hr : readResults s vials = .ok rs) :
    experimentSummary vials rs = .error .keyError ↔ ∀ v ∈ vials, ¬ HasResult s v := by
  obtain rfl := readResults_eq hr
  unfold experimentSummary
  constructor
  · intro h v hv ⟨r, hvr⟩
    split at h
    · rename_i hc
      have h2 : r ∈ (vials.filterMap fun v => (s v.uuid).result?) := List.mem_filterMap.2 ⟨v, hv, by rw [hvr]; rfl⟩
      rw [Bool.or_eq_true, List.isEmpty_iff, List.isEmpty_iff] at hc
      rcases hc with hc | hc
      · rw [hc] at hv; cases hv
      · rw [hc] at h2; cases h2
    · cases h
  · intro h
    rw [if_pos]
    have : (vials.filterMap fun v => (s v.uuid).result?) = [] := by
      refine List.filterMap_eq_nil_iff.2 fun v hv => ?_
      cases hs : s v.uuid with
      | good r => exact absurd ⟨r, hs⟩ (h v hv)
      | _ => rfl
    simp [this]

/-- **C97.** The rows that are not feasible are those of the vials that `infeasible_vials` lists. -/
theorem C97_agree {s : Store U V} (hd : Distinct vials) (ho : OwnResults s vials) {rs : List (StoredResult U V)} (hr : readResults s vials = .ok rs)
    {rows : List (SummaryRow U V P)} (hrows : experimentSummary vials rs = .ok rows) {m : List (LabVial U P)} (hm : infeasibleVials s vials = .ok m)
    (v : LabVial U P) : v ∈ m ↔ ∃ row ∈ rows, row.vial = v ∧ row.feasible = false := by
  have hne : ∃ v ∈ vials, HasResult s v := by
    by_contra hc
    push Not at hc
    rw [(C97_raises hr).2 hc] at hrows
    cases hrows
  obtain ⟨rows', h1, h2, -, h3⟩ := C97_rows hd ho hr hne
  obtain rfl : rows = rows' := by rw [h1] at hrows; exact (Except.ok.inj hrows).symm
  rw [(C96_infeasible s).1 m hm v]
  constructor
  · rintro ⟨hv, r, hs, hlt⟩
    obtain ⟨row, hrow, rfl⟩ := List.mem_map.1 ((h2 v).2 ⟨hv, r, hs⟩)
    obtain ⟨h4, -, h6⟩ := h3 row hrow
    rw [hs] at h4
    obtain rfl := ResultFile.good.inj h4
    exact ⟨row, hrow, rfl, (h6 hlt).1⟩
  · rintro ⟨row, hrow, rfl, hf⟩
    obtain ⟨h4, h5, -⟩ := h3 row hrow
    refine ⟨((h2 _).1 (List.mem_map.2 ⟨row, hrow, rfl⟩)).1, row.result, h4, ?_⟩
    by_contra hc
    rw [(h5 (by omega)).1] at hf
    cases hf

omit [DecidableEq U] in
/-- **C97.** For an algorithm that reports nothing or a feasible tour, and a positive quota, the mark is right and the objective is the cost of the tour. -/
theorem C97_right [DecidableEq V] {es : List (V × V)} {w : V → V → Int} {π : V → Int} {root : V} {v : LabVial U P} (hq : 0 < v.quota) {r : StoredResult U V}
    (h : ReportsNothing r.result ∨ ∃ t, FeasibleIn es π v.quota root t ∧ Reports w π t r.result) :
    (summaryRow v r).feasible = true ↔ ∃ t, FeasibleIn es π v.quota root t ∧ Reports w π t r.result ∧ (summaryRow v r).objective = some (namedCost w t) := by
  constructor
  · intro hf
    have hp : v.quota ≤ r.result.prize := by simpa [summaryRow] using hf
    rcases h with h | ⟨t, h1, h2⟩
    · rw [h.prize] at hp; omega
    · exact ⟨t, h1, h2, by simp [summaryRow, hp, h2.objective]⟩
  · rintro ⟨t, h1, h2, -⟩
    have hp : v.quota ≤ r.result.prize := by rw [h2.prize]; exact h1.prize
    simpa [summaryRow] using hp

omit [DecidableEq U] in
/-- **C97.** A run that found nothing counts as feasible with objective zero if the quota is not positive. -/
theorem C97_nothing {v : LabVial U P} (hq : v.quota ≤ 0) {r : StoredResult U V} (h : ReportsNothing r.result) :
    (summaryRow v r).feasible = true ∧ (summaryRow v r).objective = some 0 := by
  have hp : v.quota ≤ r.result.prize := by rw [h.prize]; exact hq
  simp [summaryRow, hp, h.objective]

deriving instance DecidableEq for LabResult

/-- The parameters of a heuristic. -/
def heurParams (alg : AlgorithmName) : ModelParams := ⟨alg, false, true, none, none, none, none, false, false, false, false⟩

theorem tie_infeasible (t : List (Fin 5)) : ¬ FeasibleIn tieLab.edges tiePrize 10 0 t := by
  rintro ⟨⟨⟨m, rfl⟩, hn, hw⟩, -, hp⟩
  have hlen : m.length ≤ 4 := by
    rw [← List.cons_append, List.dropLast_concat] at hn
    have := hn.length_le_card
    simp at this
    omega
  have hw : ∀ p ∈ consec (0 :: (m ++ [0])), AdjIn tieEdges p.1 p.2 := hw
  match m, hlen with
  | [], _ => revert hp; decide
  | [a], _ => revert a; decide +kernel
  | [a, b], _ => revert a b; decide +kernel
  | [a, b, c], _ => revert a b c; decide +kernel
  | [a, b, c, d], _ => revert a b c d; decide +kernel

/-- **C97.** But a heuristic can report a closed walk that visits the root twice, and its row is marked as feasible although there is no feasible tour. -/
theorem C97_wrong : ∃ (G : LabGraph (Fin 5)) (w : Fin 5 → Fin 5 → Int) (π : Fin 5 → Int) (env : LabEnv Ext (Fin 5)) (A : DiGraph Nat)
    (dij : DijkstraOut Nat) (T : STree Nat) (st : SState Nat),
    G.Ok w π ∧ env.Ok G π 0 ∧ SuurballeOn G.nx w A (fun v => v.val) (fun v => v.val + 5) (plainNames 5) 0 dij 10 T st ∧
    (∀ t, ¬ FeasibleIn G.edges π 10 0 t) ∧
    ∀ (scip : Problem → ScipOutcome) (order : Nat → List Nat) (alg : AlgorithmName),
      alg ∈ [AlgorithmName.suurballesExtensionCollapse, .suurballesPathExtensionCollapse] →
      ∃ r, runAlgorithm env scip order (fun _ => none) (plainNames 5) A 5 dij 10 G 10 0 (heurParams alg) = .ok (none, r) ∧
        ∀ v : LabVial Nat Unit, v.quota = 10 → (summaryRow v ⟨v.uuid, r⟩).feasible = true ∧ (summaryRow v ⟨v.uuid, r⟩).objective = some 4 := by
  have hno : ∀ t, ¬ FeasibleIn tieLab.edges tiePrize 10 0 t := tie_infeasible
  refine ⟨tieLab, tieCost, tiePrize, plainEnv tieLab tiePrize 0, tieSplit, tieDij, tieRun.1, tieRun.2, tieLab_ok, plainEnv_ok tieLab_ok (by decide), tie_on,
    hno, fun scip order alg ha => ⟨⟨4, 10, [(0, 2), (2, 0), (0, 1), (1, 0)]⟩, ?_, fun v hv => by simp [summaryRow, hv]⟩⟩
  have hm : undirectedVertexDisjointPathsMap (plainNames 5) tieRun.1 tieRun.2 (treeNodes (0 + 5) tieDij) = .ok tiePaths := by decide +kernel
  have hes : runHeuristic (plainEnv tieLab tiePrize 0) tieLab 10 0 (heurParams alg).algorithm
      (vertexDisjointCostMap (plainNames 5) tieRun.1 tieRun.2 (treeNodes (0 + 5) tieDij)) tiePaths none none none
      = .ok [(0, 2), (2, 0), (0, 1), (1, 0)] := by
    simp only [List.mem_cons, List.not_mem_nil, or_false] at ha
    rcases ha with rfl | rfl <;> decide +kernel
  exact runAlgorithm_heuristic (mp := heurParams alg) tie_on rfl hm hes (by decide +kernel)

/-! ## Examples -/

/-- One feasible and one infeasible result, one vial without result. -/
def exStore : Store Nat Nat := fun u => if u = 0 then .good ⟨0, 7, 12, []⟩ else if u = 1 then .good ⟨1, 5, 8, []⟩ else .absent
def exThree : List (LabVial Nat Unit) := [⟨0, 10, ()⟩, ⟨1, 10, ()⟩, ⟨2, 10, ()⟩]

example : Distinct exThree ∧ OwnResults exStore exThree ∧ ∃ v ∈ exThree, HasResult exStore v := by
  refine ⟨by unfold Distinct; decide, ?_, ⟨0, 10, ()⟩, by decide, _, rfl⟩
  intro v hv r hr
  simp only [exThree, List.mem_cons, List.not_mem_nil, or_false] at hv
  rcases hv with rfl | rfl | rfl <;> cases hr <;> rfl

example : ((readResults exStore exThree).bind (experimentSummary exThree)).map (·.map fun r => (r.vial.uuid, r.feasible, r.objective, r.overshoot)) =
    .ok [(0, true, some 7, some 2), (1, false, none, none)] := by rfl

theorem exThree_own : OwnResults exStore exThree := by
  intro v hv r hr
  simp only [exThree, List.mem_cons, List.not_mem_nil, or_false] at hv
  rcases hv with rfl | rfl | rfl <;> cases hr <;> rfl

example := C97_rows (s := exStore) (vials := exThree) (by unfold Distinct; decide) exThree_own rfl ⟨⟨0, 10, ()⟩, by decide, _, rfl⟩
example := C97_agree (s := exStore) (vials := exThree) (by unfold Distinct; decide) exThree_own rfl rfl rfl ⟨1, 10, ()⟩

/-- A triangle with prize 4 at every vertex. -/
example : (summaryRow (⟨0, 10, ()⟩ : LabVial Nat Unit) ⟨0, ⟨3, 12, [(0, 1), (1, 2), (2, 0)]⟩⟩).feasible = true := by
  have hf : FeasibleIn [(0, 1), (1, 2), (2, 0)] (fun _ => 4) 10 0 [0, 1, 2, 0] := ⟨⟨⟨[1, 2], rfl⟩, by decide, by decide⟩, by decide, by decide⟩
  have hr : Reports (fun _ _ => 1) (fun _ => 4) [0, 1, 2, 0] ⟨3, 12, [(0, 1), (1, 2), (2, 0)]⟩ :=
    ⟨⟨[(0, 1), (1, 2), (2, 0)], by decide, .cons (.inl rfl) (.cons (.inl rfl) (.cons (.inl rfl) .nil))⟩, by decide, by decide⟩
  exact (C97_right (v := (⟨0, 10, ()⟩ : LabVial Nat Unit)) (by decide) (.inr ⟨_, hf, hr⟩)).2 ⟨_, hf, hr, by decide⟩

end Pctsp
