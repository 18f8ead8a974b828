import Verif.Lemmas.CsvHome
import Verif.Props.Tables

/-!
# C159: which results the CSV files are about, and whether the tables can read them
-/

namespace Pctsp

variable {U V P : Type} [DecidableEq U]

/-- **C159.** The commands change no file but the CSV file, and that only if they succeed. -/
theorem C159_only_csv (b : Bool) (h : CsvHome U V P) :
    (csvCmd b h).1.dir = h.dir ∧ (csvCmd b h).1.stats = h.stats ∧ ((csvCmd b h).2 ≠ .ok () → (csvCmd b h).1 = h) := by
  cases b
  · simp only [csvCmd, csvHeuristicsCmd, Bool.false_eq_true, if_false]
    cases readExperiment h.dir false with
    | error e => simp
    | ok vials =>
      simp only
      cases heuristicsCsvTable h.dir.results vials <;> simp
  · simp only [csvCmd, csvBranchCutCmd, if_true]
    cases readExperiment h.dir false with
    | error e => simp
    | ok vials =>
      simp only
      cases branchCutTable h.dir.results h.stats vials <;> simp

/-- **C159.** `csv heuristics` succeeds iff there is an experiment, none of its result files is invalid, and one of its vials has a result.  Then the file has a row
for every vial with a result, and no other row. -/
theorem C159_heuristics (h : CsvHome U V P) :
    ((csvCmd false h).2 = .ok () ↔ ∃ vials, h.dir.experiment = some vials ∧ (∀ v ∈ vials, h.dir.results v.uuid ≠ .invalid) ∧
      ∃ v ∈ vials, HasResult h.dir.results v) ∧
    ((csvCmd false h).2 = .error .fileNotFound ↔ h.dir.experiment = none) ∧
    ∀ vials, h.dir.experiment = some vials → Distinct vials → OwnResults h.dir.results vials → (csvCmd false h).2 = .ok () →
      ∃ rows, (csvCmd false h).1.csv = some (.heuristics rows) ∧
        (∀ v, v ∈ rows.map (·.vial) ↔ v ∈ vials ∧ HasResult h.dir.results v) ∧ (rows.map (·.vial)).Sublist vials ∧
        ∀ row ∈ rows, h.dir.results row.vial.uuid = .good row.result := by
  cases he : h.dir.experiment with
  | none => simp [csvCmd, csvHeuristicsCmd, readExperiment, he]
  | some vials =>
    have hr : readExperiment h.dir false = .ok vials := by simp [readExperiment, he]
    by_cases hv : ∀ v ∈ vials, h.dir.results v.uuid ≠ .invalid
    · obtain ⟨rs, hrs⟩ := (C97_read h.dir.results).2 hv
      by_cases hne : ∃ v ∈ vials, HasResult h.dir.results v
      · have hok : ∃ rows, experimentSummary vials rs = .ok rows := by
          cases hx : experimentSummary vials rs with
          | ok rows => exact ⟨rows, rfl⟩
          | error e =>
            exfalso
            have : e = .keyError := by
              simp only [experimentSummary] at hx
              split at hx
              · cases hx; rfl
              · cases hx
            subst this
            obtain ⟨v, h1, h2⟩ := hne
            exact (C97_raises hrs).1 hx v h1 h2
        obtain ⟨rows, hrows⟩ := hok
        have ht : heuristicsCsvTable h.dir.results vials = .ok rows := by simp [heuristicsCsvTable, hrs, bind, Except.bind, hrows]
        have hc : csvCmd false h = ({ h with csv := some (.heuristics rows) }, .ok ()) := by simp [csvCmd, csvHeuristicsCmd, hr, ht]
        refine ⟨?_, ?_, ?_⟩
        · rw [hc]; exact ⟨fun _ => ⟨vials, rfl, hv, hne⟩, fun _ => rfl⟩
        · rw [hc]; simp
        · intro vials' h1 hd ho _
          cases h1
          obtain ⟨rows', e1, e2, e3, e4⟩ := C97_rows hd ho hrs hne
          rw [hrows] at e1; cases e1
          exact ⟨rows, by rw [hc], e2, e3, fun row hrow => (e4 row hrow).1⟩
      · have hx : experimentSummary vials rs = .error .keyError := (C97_raises hrs).2 fun v h1 h2 => hne ⟨v, h1, h2⟩
        have ht : heuristicsCsvTable h.dir.results vials = .error .keyError := by simp [heuristicsCsvTable, hrs, bind, Except.bind, hx]
        have hc : csvCmd false h = (h, .error (.lab .keyError)) := by simp [csvCmd, csvHeuristicsCmd, hr, ht]
        refine ⟨?_, ?_, ?_⟩
        · rw [hc]; simp only [reduceCtorEq, false_iff]; rintro ⟨w, h1, -, h2⟩; cases h1; exact hne h2
        · rw [hc]; simp
        · intro _ _ _ _ h1; rw [hc] at h1; cases h1
    · have hrs : ∀ rs, readResults h.dir.results vials ≠ .ok rs := fun rs h1 => hv ((C97_read h.dir.results).1 ⟨rs, h1⟩)
      cases hx : readResults h.dir.results vials with
      | ok rs => exact absurd hx (hrs rs)
      | error e =>
        have ht : heuristicsCsvTable h.dir.results vials = .error e := by simp [heuristicsCsvTable, hx, bind, Except.bind]
        have hc : csvCmd false h = (h, .error (.lab e)) := by simp [csvCmd, csvHeuristicsCmd, hr, ht]
        refine ⟨?_, ?_, ?_⟩
        · rw [hc]; simp only [reduceCtorEq, false_iff]; rintro ⟨w, h1, h2, -⟩; cases h1; exact hv h2
        · rw [hc]; simp
        · intro _ _ _ _ h1; rw [hc] at h1; cases h1

/-- **C159.** If `csv branch-cut` succeeds, `csv heuristics` on the same files succeeds too.  Its rows are of the same vials and also of those that have a result but no
statistics of SCIP. -/
theorem C159_both (h : CsvHome U V P) (vials : List (LabVial U P)) (he : h.dir.experiment = some vials) (hd : Distinct vials)
    (ho : OwnResults h.dir.results vials) (hok : (csvCmd true h).2 = .ok ()) :
    ∃ rows srows, (csvCmd true h).1.csv = some (.branchCut rows) ∧ (csvCmd false h).1.csv = some (.heuristics srows) ∧ (csvCmd false h).2 = .ok () ∧
      ∀ v, v ∈ rows.map (·.row.vial) ↔ v ∈ srows.map (·.vial) ∧ ∃ st, h.stats v.uuid = .good st := by
  have hr : readExperiment h.dir false = .ok vials := by simp [readExperiment, he]
  cases hx : branchCutTable h.dir.results h.stats vials with
  | error e => simp [csvCmd, csvBranchCutCmd, hr, hx] at hok
  | ok rows =>
    obtain ⟨h1, h2, -, -⟩ := (C100_written h.dir.results h.stats).1 ⟨rows, hx⟩
    have hs : (csvCmd false h).2 = .ok () := (C159_heuristics h).1.2 ⟨vials, he, h1, h2⟩
    obtain ⟨srows, e1, e2, -⟩ := (C159_heuristics h).2.2 vials he hd ho hs
    refine ⟨rows, srows, by simp [csvCmd, csvBranchCutCmd, hr, hx], e1, hs, ?_⟩
    intro v
    rw [(C100_rows hd ho hx).1 v, e2]
    tauto

/-- **C159.** Both commands write the same file, and each makes it unreadable for the tables of the other: after `csv heuristics` the tables of exact results raise a
`KeyError`, and so does a table of heuristics that is compared with it; after `csv branch-cut` a table of heuristics made from the file raises a `ValueError`. -/
theorem C159_overwrite (h : CsvHome U V P) :
    ((csvCmd false h).2 = .ok () → exactTableRows (csvCmd false h).1 = .error (.lab .keyError) ∧
      ∀ g : CsvHome U V P, g.csv.isSome → heuristicTableRows g (csvCmd false h).1 = .error (.lab .keyError)) ∧
    ((csvCmd true h).2 = .ok () → (∃ rows, exactTableRows (csvCmd true h).1 = .ok rows) ∧
      ∀ g : CsvHome U V P, ∀ rows, exactTableRows g = .ok rows → heuristicTableRows (csvCmd true h).1 g = .error .valueError) := by
  constructor
  · intro hok
    have hc : ∃ rows, (csvCmd false h).1.csv = some (.heuristics rows) := by
      simp only [csvCmd, csvHeuristicsCmd, Bool.false_eq_true, if_false] at hok ⊢
      cases hx : readExperiment h.dir false with
      | error e => simp [hx] at hok
      | ok vials =>
        rw [hx] at hok
        simp only at hok ⊢
        cases hy : heuristicsCsvTable h.dir.results vials with
        | error e => simp [hy] at hok
        | ok rows => exact ⟨rows, rfl⟩
    obtain ⟨rows, hc⟩ := hc
    have he : exactTableRows (csvCmd false h).1 = .error (.lab .keyError) := by simp [exactTableRows, hc]
    refine ⟨he, ?_⟩
    intro g hg
    obtain ⟨f, hf⟩ := Option.isSome_iff_exists.1 hg
    simp [heuristicTableRows, hf, he]
  · intro hok
    have hc : ∃ rows, (csvCmd true h).1.csv = some (.branchCut rows) := by
      simp only [csvCmd, csvBranchCutCmd, if_true] at hok ⊢
      cases hx : readExperiment h.dir false with
      | error e => simp [hx] at hok
      | ok vials =>
        rw [hx] at hok
        simp only at hok ⊢
        cases hy : branchCutTable h.dir.results h.stats vials with
        | error e => simp [hy] at hok
        | ok rows => exact ⟨rows, rfl⟩
    obtain ⟨rows, hc⟩ := hc
    refine ⟨⟨rows, by simp [exactTableRows, hc]⟩, ?_⟩
    intro g rows' hg
    simp [heuristicTableRows, hc, hg]

/-- **C159.** Once a new experiment has been written, and until one of its vials has a result, every CSV command fails, whatever else happens, and the file keeps the
rows of the old experiment. -/
theorem C159_stale (h : CsvHome U V P) (vials : List (LabVial U P)) (hnew : ∀ v ∈ vials, ¬ HasResult h.dir.results v) (es : List (CsvEvent U V P))
    (hq : ∀ e ∈ es, e.Quiet vials) (b : Bool) :
    let h' := es.foldl csvEvent (csvEvent h (.setup vials))
    h'.csv = h.csv ∧ h'.dir.experiment = some vials ∧ (csvCmd b h').1 = h' ∧ ∃ e, (csvCmd b h').2 = .error (.lab e) := by
  have fails : ∀ (k : CsvHome U V P) (b : Bool), k.dir.experiment = some vials → (∀ v ∈ vials, ¬ HasResult k.dir.results v) →
      (csvCmd b k).1 = k ∧ ∃ e, (csvCmd b k).2 = .error (.lab e) := by
    intro k b hk hn
    have hr : readExperiment k.dir false = .ok vials := by simp [readExperiment, hk]
    cases b with
    | false =>
      cases hx : heuristicsCsvTable k.dir.results vials with
      | error e => simp [csvCmd, csvHeuristicsCmd, hr, hx]
      | ok rows =>
        exfalso
        have : (csvCmd false k).2 = .ok () := by simp [csvCmd, csvHeuristicsCmd, hr, hx]
        obtain ⟨w, h1, -, v, h2, h3⟩ := (C159_heuristics k).1.1 this
        rw [hk] at h1; cases h1
        exact hn v h2 h3
    | true =>
      cases hx : branchCutTable k.dir.results k.stats vials with
      | error e => simp [csvCmd, csvBranchCutCmd, hr, hx]
      | ok rows =>
        exfalso
        obtain ⟨-, ⟨v, h2, h3⟩, -⟩ := (C100_written k.dir.results k.stats).1 ⟨rows, hx⟩
        exact hn v h2 h3
  have key : ∀ (es : List (CsvEvent U V P)) (k : CsvHome U V P), (∀ e ∈ es, e.Quiet vials) → k.dir.experiment = some vials →
      (∀ v ∈ vials, ¬ HasResult k.dir.results v) →
      (es.foldl csvEvent k).csv = k.csv ∧ (es.foldl csvEvent k).dir.experiment = some vials ∧
        ∀ v ∈ vials, ¬ HasResult (es.foldl csvEvent k).dir.results v := by
    intro es
    induction es with
    | nil => intro k _ h1 h2; exact ⟨rfl, h1, h2⟩
    | cons e es ih =>
      intro k hq h1 h2
      have hes : ∀ e ∈ es, e.Quiet vials := fun x hx => hq x (by simp [hx])
      have he := hq e (by simp)
      rw [List.foldl_cons]
      cases e with
      | setup w => exact he.elim
      | results s => exact ih _ hes h1 he
      | stats t => exact ih _ hes h1 h2
      | csv b =>
        have : csvEvent k (.csv b) = k := (fails k b h1 h2).1
        rw [this]
        exact ih k hes h1 h2
  obtain ⟨k1, k2, k3⟩ := key es (csvEvent h (.setup vials)) hq rfl hnew
  exact ⟨k1, k2, fails _ b k2 k3⟩

/-- **C159.** So the tables of exact results, made after a new experiment has been set up, show the old one: all rows are of old vials. -/
theorem C159_old_rows (h0 : CsvHome U V P) (old vials : List (LabVial U P)) (he : h0.dir.experiment = some old) (hd : Distinct old)
    (ho : OwnResults h0.dir.results old) (hok : (csvCmd true h0).2 = .ok ()) (hdis : ∀ v ∈ vials, ∀ w ∈ old, v.uuid ≠ w.uuid)
    (hnew : ∀ v ∈ vials, ¬ HasResult h0.dir.results v) (es : List (CsvEvent U V P)) (hq : ∀ e ∈ es, e.Quiet vials) :
    ∃ rows, exactTableRows (es.foldl csvEvent (csvEvent (csvCmd true h0).1 (.setup vials))) = .ok rows ∧
      (∀ v, v ∈ rows.map (·.row.vial) ↔ v ∈ old ∧ HasResult h0.dir.results v ∧ ∃ st, h0.stats v.uuid = .good st) ∧
      ∀ r ∈ rows, ∀ v ∈ vials, r.row.vial.uuid ≠ v.uuid := by
  have hr : readExperiment h0.dir false = .ok old := by simp [readExperiment, he]
  cases hx : branchCutTable h0.dir.results h0.stats old with
  | error e => simp [csvCmd, csvBranchCutCmd, hr, hx] at hok
  | ok rows =>
    have hc : (csvCmd true h0).1 = { h0 with csv := some (.branchCut rows) } := by simp [csvCmd, csvBranchCutCmd, hr, hx]
    obtain ⟨h1, -⟩ := C159_stale (csvCmd true h0).1 vials (by rw [hc]; exact hnew) es hq true
    refine ⟨rows, ?_, (C100_rows hd ho hx).1, ?_⟩
    · rw [hc] at h1 ⊢
      simp only [exactTableRows, h1]
    · intro r hrow v hv e
      have := ((C100_rows hd ho hx).1 r.row.vial).1 (List.mem_map.2 ⟨r, hrow, rfl⟩)
      exact hdis v hv _ this.1 e.symm

/-- **C159.** `csv all`: the six files are those of the cost cover, tailing off and heuristics experiments of the two datasets, in this order; files of other experiments do
not change.  A file is treated as by its own command if no command before it raises, and does not change otherwise.  The command succeeds iff none raises. -/
theorem C159_all (L : CsvLab U V P) :
    csvAllSteps = [((.londonaq, .costCover), true), ((.londonaq, .tailingOff), true), ((.londonaq, .compareHeuristics), false),
      ((.tspwplib, .costCover), true), ((.tspwplib, .tailingOff), true), ((.tspwplib, .compareHeuristics), false)] ∧
    (∀ d x, x ∉ [ExperimentName.costCover, .tailingOff, .compareHeuristics] → (csvAllCmd L).1 (d, x) = L (d, x)) ∧
    (∀ pre c post, csvAllSteps = pre ++ c :: post → (∀ b ∈ pre, ¬ CsvRaises L b) → (csvAllCmd L).1 c.1 = (csvCmd c.2 (L c.1)).1) ∧
    (∀ pre c post, csvAllSteps = pre ++ c :: post → (∃ b ∈ pre, CsvRaises L b) → (csvAllCmd L).1 c.1 = L c.1) ∧
    ((csvAllCmd L).2 = none ↔ ∀ c ∈ csvAllSteps, ¬ CsvRaises L c) := by
  obtain ⟨h1, h2, h3, h4⟩ := csvSteps_spec csvAllSteps (by decide) L
  refine ⟨rfl, ?_, h2, h3, h4⟩
  intro d x hx
  refine h1 _ ?_
  cases d <;> cases x <;> first | (exfalso; exact hx (by decide)) | decide

/-- **C159.** In particular, while the cost cover experiment of the first dataset has been set up and has no result, `csv all` changes no file at all. -/
theorem C159_blocked (L : CsvLab U V P) (vials : List (LabVial U P)) (he : (L (.londonaq, .costCover)).dir.experiment = some vials)
    (hn : ∀ v ∈ vials, ¬ HasResult (L (.londonaq, .costCover)).dir.results v) :
    (csvAllCmd L).1 = L ∧ ∃ e, (csvAllCmd L).2 = some (.lab e) := by
  obtain ⟨h1, h2, h3, e, h4⟩ := C159_stale (L (.londonaq, .costCover)) vials hn [] (by simp) true
  have hset : csvEvent (L (.londonaq, .costCover)) (.setup vials) = L (.londonaq, .costCover) := by
    simp only [csvEvent, setupCmd, ← he]
  simp only [List.foldl_nil, hset] at h3 h4
  have hs : csvAllCmd L = (fun k' => if k' = (DatasetName.londonaq, ExperimentName.costCover) then L (.londonaq, .costCover) else L k', some (.lab e)) := by
    rw [csvAllCmd, show csvAllSteps = ((DatasetName.londonaq, ExperimentName.costCover), true) :: csvAllSteps.tail from rfl, csvSteps]
    simp only [h3, h4]
    rw [if_neg (by simp)]
  rw [hs]
  refine ⟨?_, e, rfl⟩
  funext k
  by_cases hk : k = (DatasetName.londonaq, ExperimentName.costCover)
  · simp [hk]
  · simp [hk]

/-- Three vials, the first two with results, the first one with statistics. -/
def exCsv : CsvHome Nat Nat Unit := ⟨⟨some exThree, none, exStore, none⟩, fun u => if u = 0 then .good (exStats 11 7 7) else .absent, none⟩

/-- Vials with other identifiers. -/
def exNext : List (LabVial Nat Unit) := [⟨7, 0, ()⟩, ⟨8, 0, ()⟩]

def CsvFile.uuids : CsvFile Nat Nat Unit → Bool × List Nat
  | .heuristics rows => (false, rows.map (·.vial.uuid))
  | .branchCut rows => (true, rows.map (·.row.vial.uuid))

example : ((csvCmd false exCsv).1.csv.map CsvFile.uuids) = some (false, [0, 1]) ∧ ((csvCmd true exCsv).1.csv.map CsvFile.uuids) = some (true, [0]) ∧
    (csvCmd false exCsv).2 = .ok () ∧ (csvCmd true exCsv).2 = .ok () := ⟨by rfl, by rfl, by rfl, by rfl⟩

/-- The rows after a new experiment has been set up, and its statistics exist, but no results: those of the old one. -/
example : (([CsvEvent.csv true, .stats fun _ => .good (exStats 11 7 7), .csv false].foldl csvEvent (csvEvent (csvCmd true exCsv).1 (.setup exNext))).csv.map CsvFile.uuids) =
      some (true, [0]) ∧
    (∀ e ∈ [CsvEvent.csv (U := Nat) (V := Nat) (P := Unit) true, .stats fun _ => .good (exStats 11 7 7), .csv false], e.Quiet exNext) ∧
    (∀ v ∈ exNext, ∀ w ∈ exThree, v.uuid ≠ w.uuid) ∧ (∀ v ∈ exNext, exCsv.dir.results v.uuid = .absent) ∧ Distinct exThree :=
  ⟨by rfl, by simp [CsvEvent.Quiet], by decide, by
    intro v hv
    simp only [exNext, List.mem_cons, List.not_mem_nil, or_false] at hv
    rcases hv with rfl | rfl <;> rfl, by unfold Distinct; decide⟩

/-- The six experiments: the first has no files, the second is set up and has no results, the others can be written. -/
def exCsvLab : CsvLab Nat Nat Unit := fun k =>
  if k = (.londonaq, .costCover) then ⟨⟨none, none, fun _ => .absent, none⟩, fun _ => .absent, none⟩
  else if k = (.londonaq, .tailingOff) then { exCsv with dir := { exCsv.dir with experiment := some exNext } }
  else exCsv

example : (csvAllCmd exCsvLab).2 = some (.lab .keyError) ∧ ((csvAllCmd exCsvLab).1 (.tspwplib, .costCover)).csv.isNone ∧
    (csvAllCmd fun _ => exCsv).2 = none ∧ ((csvAllCmd fun _ => exCsv).1 (.tspwplib, .compareHeuristics)).csv.map CsvFile.uuids = some (false, [0, 1]) :=
  ⟨by rfl, by rfl, by rfl, by rfl⟩

end Pctsp
