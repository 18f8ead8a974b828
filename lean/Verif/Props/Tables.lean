import Verif.Lemmas.Tables

/-!
# C100-C102: the CSV file of a branch and cut experiment, and the tables of results
-/

namespace Pctsp

variable {U V P : Type} [DecidableEq U] {vials : List (LabVial U P)}

/-- **C100.** The CSV file is written iff no result file is invalid, some vial has a result, no file of statistics is empty or invalid, and some vial has
statistics. -/
theorem C100_written (s : Store U V) (t : U → StatsFile) :
    (∃ rows, branchCutTable s t vials = .ok rows) ↔ (∀ v ∈ vials, s v.uuid ≠ .invalid) ∧ (∃ v ∈ vials, HasResult s v) ∧
      (∀ v ∈ vials, ¬ (t v.uuid).raises) ∧ ∃ v ∈ vials, ∃ st, t v.uuid = .good st := by
  unfold branchCutTable
  constructor
  · rintro ⟨rows, h⟩
    cases hr : readResults s vials with
    | error e => rw [hr] at h; cases h
    | ok rs =>
      rw [hr] at h
      cases he : experimentSummary vials rs with
      | error e => simp only [bind, Except.bind, he] at h; cases h
      | ok srows =>
        cases ht : summaryStatsOf t (vials.map (·.uuid)) with
        | error e => simp only [bind, Except.bind, he, ht] at h; cases h
        | ok st =>
          simp only [bind, Except.bind, he, ht] at h
          split at h
          · cases h
          · rename_i hne
            have h3 := summaryStatsOf_error ht
            refine ⟨(C97_read s).1 ⟨rs, hr⟩, ?_, fun v hv => h3 _ (List.mem_map_of_mem hv), ?_⟩
            · by_contra hc
              push Not at hc
              rw [(C97_raises hr).2 hc] at he
              cases he
            · rw [summaryStatsOf_ok h3, Except.ok.injEq] at ht
              rw [List.isEmpty_iff] at hne
              obtain ⟨x, hx⟩ := List.exists_mem_of_ne_nil _ hne
              rw [← ht] at hx
              obtain ⟨u, hu, hxu⟩ := List.mem_filterMap.1 hx
              obtain ⟨v, hv, rfl⟩ := List.mem_map.1 hu
              obtain ⟨s', hs', -⟩ := Option.map_eq_some_iff.1 hxu
              refine ⟨v, hv, s', ?_⟩
              cases hg : t v.uuid <;> rw [hg] at hs' <;> cases hs'
              rfl
  · rintro ⟨h1, h2, h3, v, hv, st, hst⟩
    obtain ⟨rs, hr⟩ := (C97_read s).2 h1
    have h3' : ∀ u ∈ vials.map (·.uuid), ¬ (t u).raises := by
      intro u hu
      obtain ⟨v, hv, rfl⟩ := List.mem_map.1 hu
      exact h3 v hv
    have ht := summaryStatsOf_ok h3'
    cases he : experimentSummary vials rs with
    | error e =>
      exfalso
      have : e = .keyError := by
        unfold experimentSummary at he
        split at he
        · cases he; rfl
        · cases he
      subst this
      obtain ⟨v, hv, hres⟩ := h2
      exact (C97_raises hr).1 he v hv hres
    | ok srows =>
      simp only [hr, bind, Except.bind, he, ht]
      rw [if_neg]
      · exact ⟨_, rfl⟩
      · rw [List.isEmpty_iff]
        refine List.ne_nil_of_mem (a := (v.uuid, st)) (List.mem_filterMap.2 ⟨v.uuid, List.mem_map_of_mem hv, ?_⟩)
        rw [hst]; rfl

/-- **C100.** The file has one row for every vial that has both a result and statistics, in the order of the vials: a vial with a result but without
statistics has no row. -/
theorem C100_rows {s : Store U V} {t : U → StatsFile} (hd : Distinct vials) (ho : OwnResults s vials) {rows : List (BranchCutRow U V P)}
    (h : branchCutTable s t vials = .ok rows) :
    (∀ v, v ∈ rows.map (·.row.vial) ↔ v ∈ vials ∧ HasResult s v ∧ ∃ st, t v.uuid = .good st) ∧ (rows.map (·.row.vial)).Sublist vials ∧
      ∀ r ∈ rows, s r.row.vial.uuid = .good r.row.result ∧ t r.row.vial.uuid = .good r.stats ∧
        (r.row.feasible = true ↔ r.row.vial.quota ≤ r.row.result.result.prize) := by
  obtain ⟨h1, h2, h3, -⟩ := (C100_written s t).1 ⟨rows, h⟩
  obtain ⟨rs, hr⟩ := (C97_read s).2 h1
  obtain ⟨srows, e1, e2, e3, e4⟩ := C97_rows hd ho hr h2
  have h3' : ∀ u ∈ vials.map (·.uuid), ¬ (t u).raises := by
    intro u hu
    obtain ⟨v, hv, rfl⟩ := List.mem_map.1 hu
    exact h3 v hv
  simp only [branchCutTable, hr, e1, summaryStatsOf_ok h3', bind, Except.bind] at h
  split at h
  · cases h
  rw [Except.ok.injEq] at h
  have hown : ∀ row ∈ srows, row.result.uuid = row.vial.uuid := fun row hrow =>
    ho _ ((e2 row.vial).1 (List.mem_map_of_mem hrow)).1 _ (e4 row hrow).1
  have hin : ∀ row ∈ srows, row.vial ∈ vials := fun row hrow => ((e2 row.vial).1 (List.mem_map_of_mem hrow)).1
  have hstats : ∀ {v : LabVial U P} {st}, (t v.uuid).stats? = some st ↔ t v.uuid = .good st := by
    intro v st; cases t v.uuid <;> simp [StatsFile.stats?]
  have hj : rows = srows.filterMap fun row => (t row.vial.uuid).stats?.map fun st => ⟨row, st⟩ := by
    rw [← h, joinStats]
    have : ∀ l : List (SummaryRow U V P), (∀ row ∈ l, row ∈ srows) → (l.flatMap fun row => (((vials.map (·.uuid)).filterMap fun u =>
        (t u).stats?.map fun s => (u, s)).filter fun x => decide (x.1 = row.result.uuid)).map fun x => (⟨row, x.2⟩ : BranchCutRow U V P)) =
        l.filterMap fun row => (t row.vial.uuid).stats?.map fun st => ⟨row, st⟩ := by
      intro l hl
      induction l with
      | nil => rfl
      | cons row l ih =>
        have hrow := hl row (by simp)
        rw [List.flatMap_cons, List.filterMap_cons, ih fun r hr => hl r (by simp [hr]), hown row hrow,
          filter_stats hd (List.mem_map_of_mem (hin row hrow))]
        cases (t row.vial.uuid).stats? <;> simp
    exact this srows fun _ h => h
  subst hj
  refine ⟨fun v => ?_, ?_, ?_⟩
  · simp only [List.mem_map, List.mem_filterMap]
    constructor
    · rintro ⟨r, ⟨row, hrow, hx⟩, rfl⟩
      obtain ⟨st, hst, rfl⟩ := Option.map_eq_some_iff.1 hx
      exact ⟨hin row hrow, ⟨_, (e4 row hrow).1⟩, st, hstats.1 hst⟩
    · rintro ⟨hv, hres, st, hst⟩
      obtain ⟨row, hrow, rfl⟩ := List.mem_map.1 ((e2 v).2 ⟨hv, hres⟩)
      exact ⟨⟨row, st⟩, ⟨row, hrow, by rw [hstats.2 hst]; rfl⟩, rfl⟩
  · refine List.Sublist.trans ?_ e3
    clear h e1 e2 e3 e4 hown hin
    induction srows with
    | nil => exact List.Sublist.slnil
    | cons row l ih =>
      rw [List.filterMap_cons]
      cases (t row.vial.uuid).stats? with
      | none => exact ih.cons _
      | some st => exact ih.cons_cons _
  · intro r hr
    obtain ⟨row, hrow, hx⟩ := List.mem_filterMap.1 hr
    obtain ⟨st, hst, rfl⟩ := Option.map_eq_some_iff.1 hx
    obtain ⟨k1, k2, k3⟩ := e4 row hrow
    refine ⟨k1, hstats.1 hst, fun hf => ?_, fun hq => (k2 hq).1⟩
    by_contra hq
    rw [(k3 (lt_of_not_ge hq)).1] at hf
    cases hf

/-- **C100.** Writing all experiments: the ones before the first that fails are written, and none after it; it does not fail iff every experiment that
exists can be written. -/
theorem C100_all {α : Type} (pre post : List (Option (Except LabError α))) (hpre : ∀ x ∈ pre, ∀ e, x ≠ some (.error e)) :
    (writeAll pre).2 = none ∧ (∀ a, a ∈ (writeAll pre).1 ↔ some (.ok a) ∈ pre) ∧
      ∀ e, writeAll (pre ++ some (.error e) :: post) = ((writeAll pre).1, some e) := by
  induction pre with
  | nil => simp [writeAll]
  | cons x pre ih =>
    obtain ⟨i1, i2, i3⟩ := ih fun y hy => hpre y (by simp [hy])
    match x, hpre x (by simp) with
    | none, _ => exact ⟨i1, fun a => by simp [writeAll, i2], fun e => by simpa [writeAll] using i3 e⟩
    | some (.error e), h => exact absurd rfl (h e)
    | some (.ok a), _ => exact ⟨i1, fun b => by simp [writeAll, i2], fun e => by simp [writeAll, i3 e]⟩

/-- **C100.** An experiment that exists but has no result yet keeps all later experiments from being written. -/
theorem C100_stops {s : Store U V} {t : U → StatsFile} (h1 : ∀ v ∈ vials, s v.uuid ≠ .invalid) (h2 : ∀ v ∈ vials, ¬ HasResult s v)
    (post : List (Option (Except LabError (List (BranchCutRow U V P))))) :
    writeAll (some (branchCutTable s t vials) :: post) = ([], some .keyError) := by
  obtain ⟨rs, hr⟩ := (C97_read s).2 h1
  simp only [branchCutTable, hr, (C97_raises hr).2 h2, bind, Except.bind, writeAll]

/-- **C101.** The cost cover table cannot be written iff a row whose status is not infeasible has the lower bound zero; otherwise it has one row for every run. -/
theorem C101_table (rnd : Rat → Ext) (rows : List (SummaryStats Ext)) :
    (costCoverRows rnd rows = none ↔ ∃ s ∈ rows, s.status ≠ 12 ∧ s.lowerBound = .fin 0) ∧
    ∀ xs, costCoverRows rnd rows = some xs → rows.map (costCoverRow rnd) = xs.map some := by
  have hrow : ∀ s, costCoverRow rnd s = none ↔ s.status ≠ 12 ∧ s.lowerBound = .fin 0 := by
    intro s
    unfold costCoverRow costCoverGap
    rw [Option.map_eq_none_iff]
    have hset : setToNan s.lowerBound = .fin 0 ↔ s.lowerBound = .fin 0 := by
      unfold setToNan
      split
      · rename_i h
        rw [Ext.beq_fin] at h
        rw [h]
        simp [scipBig]
      · rfl
    by_cases h1 : s.status = 12
    · simp [statusInfeasible, h1]
    · by_cases h2 : s.lowerBound = .fin 0
      · have h3 := hset.2 h2
        simp [statusInfeasible, h1, Ext.beq_fin, h2, h2 ▸ h3]
      · have : ¬ (setToNan s.lowerBound).beq (.fin 0) = true := by rw [Ext.beq_fin, hset]; exact h2
        simp [statusInfeasible, h1, h2, this]
  induction rows with
  | nil => simp [costCoverRows]
  | cons s rows ih =>
    unfold costCoverRows
    cases hs : costCoverRow rnd s with
    | none => simpa using .inl ((hrow s).1 hs)
    | some x =>
      have hs' : ¬ (s.status ≠ 12 ∧ s.lowerBound = .fin 0) := by rw [← hrow, hs]; simp
      constructor
      · rw [Option.map_eq_none_iff, ih.1]
        simp [hs']
      · intro xs h
        obtain ⟨ys, h1, rfl⟩ := Option.map_eq_some_iff.1 h
        simp [hs, ih.2 ys h1]

/-- **C101.** If it can be written, it counts a row as optimal iff SCIP has the status optimal, and the bounds agree and are not SCIP's infinity; and a row has
no gap, so that it is not counted in the mean, iff the run is infeasible or one of its bounds is SCIP's infinity. -/
theorem C101_cover {rnd : Rat → Ext} (h : RoundsDouble rnd) {s : SummaryStats Ext} {l u : Rat} (hl : s.lowerBound = .fin l) (hu : s.upperBound = .fin u)
    (bl : Bound l) (bu : Bound u) {g : Ext} {opt : Bool} (hrow : costCoverRow rnd s = some (g, opt)) :
    (opt = true ↔ s.status = 11 ∧ u = l ∧ l ≠ 10 ^ 20) ∧ (g = .nan ↔ s.status = 12 ∨ l = 10 ^ 20 ∨ u = 10 ^ 20) ∧
    (g ≠ .nan → (g = .fin 0 ↔ u = l)) := by
  have hbig : scipBig = 10 ^ 20 := by norm_num [scipBig]
  have hset : ∀ x : Rat, setToNan (.fin x) = if x = 10 ^ 20 then .nan else .fin x := by
    intro x
    simp only [setToNan, Ext.beq_fin, Ext.fin.injEq, hbig]
  have hnan : ∀ y, gapOf rnd .nan y = .nan := by intro y; cases y <;> simp [gapOf, Ext.neg, Ext.add, Ext.div]
  have hnan' : ∀ y, gapOf rnd (.fin y) .nan = .nan := by intro y; simp [gapOf, Ext.add, Ext.div]
  obtain ⟨g', h1, h2⟩ := Option.map_eq_some_iff.1 hrow
  obtain ⟨rfl, rfl⟩ := Prod.mk.inj h2
  simp only [Bool.and_eq_true, Ext.beq_fin, decide_eq_true_eq]
  change (_ ∧ s.status = 11 ↔ _) ∧ _
  rw [costCoverGap, statusInfeasible, hl, hu, hset, hset] at h1
  by_cases hs : s.status = 12
  · rw [if_pos hs] at h1
    obtain rfl := Option.some.inj h1
    simp [hs]
  rw [if_neg hs] at h1
  by_cases h3 : l = 10 ^ 20
  · rw [if_pos h3, hnan] at h1
    obtain rfl : Ext.nan = g' := by simpa [Ext.beq] using h1
    simp [h3]
  rw [if_neg h3] at h1
  by_cases h0 : l = 0
  · simp [h0, Ext.beq_fin] at h1
  have h0' : ¬ (Ext.fin l).beq (.fin 0) = true := by rw [Ext.beq_fin]; simpa using h0
  rw [if_neg h0'] at h1
  by_cases h4 : u = 10 ^ 20
  · rw [if_pos h4, hnan'] at h1
    obtain rfl := Option.some.inj h1
    simp only [reduceCtorEq, false_and, false_iff, true_iff, ne_eq, not_true_eq_false, false_implies, and_true]
    exact ⟨fun ⟨_, h5, h6⟩ => h6 (h5 ▸ h4), .inr (.inr h4)⟩
  rw [if_neg h4] at h1
  obtain rfl := Option.some.inj h1
  have hg := gapOf_eq_zero h bl bu.1
  refine ⟨by rw [hg]; clear hset h2 hrow h1; tauto, ?_, fun _ => by rw [hg]; exact and_iff_left h0⟩
  simp only [hs, h3, h4, or_self, iff_false]
  simp only [gapOf, Ext.neg, Ext.add]
  cases hr : rnd (u + -l) with
  | nan => exact absurd hr (h.noNan _)
  | inf b => simp [Ext.div]
  | fin y => simp only [Ext.div, if_neg h0]; exact h.noNan _

/-- **C101.** The tailing off table counts a row as optimal iff the bounds agree and are not zero, whatever the status is. -/
theorem C101_tailing {rnd : Rat → Ext} (h : RoundsDouble rnd) {s : SummaryStats Ext} {l u : Rat} (hl : s.lowerBound = .fin l) (hu : s.upperBound = .fin u)
    (bl : Bound l) (bu : Bound u) : tailingOptimal rnd s = true ↔ u = l ∧ l ≠ 0 := by
  simp only [tailingOptimal, Ext.beq_fin, hl, hu]
  exact gapOf_eq_zero h bl bu.1

theorem bound_big : Bound (10 ^ 20) := ⟨⟨10 ^ 20 * 2 ^ 52, by norm_num⟩, by rw [abs_of_pos] <;> norm_num⟩

/-- **C101.** So an infeasible instance, for which SCIP reports infinity as both bounds, counts as solved to optimality in the tailing off table and not in
the cost cover table; and an optimal tour of cost zero does not count in the tailing off table and keeps the cost cover table from being written. -/
theorem C101_wrong {rnd : Rat → Ext} (h : RoundsDouble rnd) {s : SummaryStats Ext} :
    (s.status = 12 → s.lowerBound = .fin (10 ^ 20) → s.upperBound = .fin (10 ^ 20) →
      tailingOptimal rnd s = true ∧ costCoverRow rnd s = some (.nan, false)) ∧
    (s.status = 11 → s.lowerBound = .fin 0 → s.upperBound = .fin 0 →
      tailingOptimal rnd s = false ∧ ∀ rows, s ∈ rows → costCoverRows rnd rows = none) := by
  have b0 : Bound 0 := ⟨⟨0, by norm_num⟩, by norm_num⟩
  constructor
  · intro h1 h2 h3
    refine ⟨(C101_tailing h h2 h3 bound_big bound_big).2 ⟨rfl, by norm_num⟩, ?_⟩
    simp [costCoverRow, costCoverGap, h1, statusInfeasible, Ext.beq]
  · intro h1 h2 h3
    refine ⟨?_, fun rows hs => (C101_table rnd rows).1.2 ⟨s, hs, by rw [h1]; decide, h2⟩⟩
    rw [← Bool.not_eq_true, C101_tailing h h2 h3 b0 b0]
    simp

/-- **C101.** The count of a group is the number of its rows with the mark; over all groups every row with the mark is counted once, except the rows that have
a missing value in their key. -/
theorem C101_count {α κ : Type} [DecidableEq κ] (key : α → Option κ) (flag : α → Bool) (rows : List α) :
    (∀ k, groupCount key flag k rows = rows.countP fun r => decide (key r = some k) && flag r) ∧
    ∀ ks : List κ, ks.Nodup → (∀ r ∈ rows, ∀ k, key r = some k → k ∈ ks) →
      (ks.map fun k => groupCount key flag k rows).sum = rows.countP fun r => (key r).isSome && flag r := by
  refine ⟨fun k => groupCount_eq key flag k rows, fun ks hks hcov => ?_⟩
  simp only [groupCount_eq]
  induction rows with
  | nil => simp
  | cons r rs ih' =>
    have ih := ih' fun r hr => hcov r (by simp [hr])
    simp only [List.countP_cons, List.sum_map_add, ih]
    congr 1
    cases hf : flag r with
    | false => simp
    | true =>
      cases hk : key r with
      | none => simp
      | some k =>
        have hmem := hcov r (by simp) k hk
        simp only [Bool.and_true, Option.some.injEq, decide_eq_true_eq, Option.isSome_some, if_true]
        clear ih hcov ih'
        induction ks with
        | nil => simp at hmem
        | cons k' ks ih =>
          rw [List.nodup_cons] at hks
          simp only [List.map_cons, List.sum_cons]
          by_cases hkk : k = k'
          · subst hkk
            have : (ks.map fun x => if k = x then 1 else 0).sum = 0 := by
              refine List.sum_eq_zero fun x hx => ?_
              obtain ⟨y, hy, rfl⟩ := List.mem_map.1 hx
              rw [if_neg]
              rintro rfl
              exact hks.1 hy
            simp [this]
          · rw [if_neg hkk, ih hks.2 (by simpa [hkk] using hmem)]

variable {K A : Type} [DecidableEq K] [DecidableEq A]

omit [DecidableEq U] in
/-- **C102.** The heuristics table has one row for every pair of an instance and an algorithm with its parameters: that of the first heuristic row with the
pair.  The lower bound is that of the first exact row of the instance with the cover of disjoint paths. -/
theorem C102_rows (rnd : Rat → Ext) (heur : List (HeurRow K A)) (exact : List (ExactRow K)) :
    ((heuristicsTable rnd heur exact).map fun r => (r.row.instance_, r.row.alg)).Nodup ∧
    (∀ k a, ((heuristicsTable rnd heur exact).map (·.row)).find? (fun r => decide ((r.instance_, r.alg) = (k, a))) =
      heur.find? fun r => decide ((r.instance_, r.alg) = (k, a))) ∧
    ∀ r ∈ heuristicsTable rnd heur exact, r.lowerBound =
      match exact.find? fun e => e.coverDisjoint && decide (e.instance_ = r.row.instance_) with
      | none => Ext.nan
      | some e => e.lowerBound := by
  have hrow : (heuristicsTable rnd heur exact).map (·.row) = dropDuplicates (fun r => (r.instance_, r.alg)) heur := by
    simp only [heuristicsTable, List.map_map]
    exact List.map_id _
  refine ⟨?_, fun k a => ?_, fun r hr => ?_⟩
  · rw [show (fun r : HeurTableRow K A => (r.row.instance_, r.row.alg)) = (fun r => (r.instance_, r.alg)) ∘ (·.row) from rfl, ← List.map_map, hrow]
    exact dropDuplicates_nodup _ _
  · rw [hrow]
    exact find_dropDuplicates _ heur (k, a)
  · obtain ⟨x, -, rfl⟩ := List.mem_map.1 hr
    simp only [joinedBound, find_dropDuplicates, List.find?_filter, Bool.decide_and, Bool.decide_eq_true]
    rfl

/-- **C102.** A row is marked as optimal iff the heuristic has an objective and it equals the lower bound of the instance, which is not zero. -/
theorem C102_optimal {rnd : Rat → Ext} (h : RoundsDouble rnd) {heur : List (HeurRow K A)} {exact : List (ExactRow K)}
    (hb : ∀ e ∈ exact, e.lowerBound = .nan ∨ ∃ l, Bound l ∧ e.lowerBound = .fin l) {r : HeurTableRow K A} (hr : r ∈ heuristicsTable rnd heur exact)
    (hc : ∀ c, r.row.objective = some c → |c| ≤ 2 ^ 53) :
    r.isOptimal = true ↔ ∃ c : Int, r.row.objective = some c ∧ r.lowerBound = .fin c ∧ c ≠ 0 := by
  have hlb : r.lowerBound = .nan ∨ ∃ l, Bound l ∧ r.lowerBound = .fin l := by
    rw [(C102_rows rnd heur exact).2.2 r hr]
    cases hf : exact.find? fun e => e.coverDisjoint && decide (e.instance_ = r.row.instance_) with
    | none => exact .inl rfl
    | some e => exact hb e (List.mem_of_find?_eq_some hf)
  obtain ⟨x, -, rfl⟩ := List.mem_map.1 hr
  simp only [Ext.beq_fin] at hlb hc ⊢
  rcases hlb with hlb | ⟨l, hl, hlb⟩
  · rw [hlb]
    refine iff_of_false ?_ (by rintro ⟨c, -, h, -⟩; cases h)
    cases objectiveExt rnd x.objective <;> simp [gapOf, Ext.neg, Ext.add, Ext.div]
  · rw [hlb]
    cases hx : x.objective with
    | none => simp [objectiveExt, gapOf, Ext.neg, Ext.add, Ext.div]
    | some c =>
      rw [objectiveExt, h.exact c (hc c hx), gapOf_eq_zero h hl ⟨c * 2 ^ 52, by push_cast; ring⟩]
      simp only [Option.some.injEq, Ext.fin.injEq]
      constructor
      · rintro ⟨rfl, h0⟩
        exact ⟨c, rfl, rfl, by exact_mod_cast h0⟩
      · rintro ⟨c', rfl, rfl, h0⟩
        exact ⟨rfl, by exact_mod_cast h0⟩

/-- **C102.** If the lower bound is one, the objective of a row that is marked as optimal is the least cost of a feasible tour; and conversely the least cost
is marked if it is not zero and the exact algorithm has proved it. -/
theorem C102_right [DecidableEq V] {rnd : Rat → Ext} (h : RoundsDouble rnd) {heur : List (HeurRow K A)} {exact : List (ExactRow K)}
    (hb : ∀ e ∈ exact, e.lowerBound = .nan ∨ ∃ l, Bound l ∧ e.lowerBound = .fin l) {r : HeurTableRow K A} (hr : r ∈ heuristicsTable rnd heur exact)
    (hc : ∀ c, r.row.objective = some c → |c| ≤ 2 ^ 53) {es : List (V × V)} {w : V → V → Int} {π : V → Int} {quota : Int} {root : V}
    (hvalid : ∀ l, r.lowerBound = .fin l → ∀ t, FeasibleIn es π quota root t → l ≤ namedCost w t)
    (hobj : ∀ c, r.row.objective = some c → ∃ t, FeasibleIn es π quota root t ∧ namedCost w t = c) :
    (r.isOptimal = true → ∃ c, r.row.objective = some c ∧ (∃ t, FeasibleIn es π quota root t ∧ namedCost w t = c) ∧
      ∀ t, FeasibleIn es π quota root t → c ≤ namedCost w t) ∧
    ∀ c : Int, r.row.objective = some c → c ≠ 0 → r.lowerBound = .fin c → r.isOptimal = true := by
  constructor
  · intro ho
    obtain ⟨c, h1, h2, -⟩ := (C102_optimal h hb hr hc).1 ho
    exact ⟨c, h1, hobj c h1, fun t ht => by exact_mod_cast hvalid c h2 t ht⟩
  · intro c h1 h0 h2
    exact (C102_optimal h hb hr hc).2 ⟨c, h1, h2, h0⟩

/-- **C102.** A row has no gap iff the heuristic has no objective, or the instance has no bound, or both are zero; the gap is infinite if the bound is zero and
the objective positive. -/
theorem C102_gap {rnd : Rat → Ext} (h : RoundsDouble rnd) {heur : List (HeurRow K A)} {exact : List (ExactRow K)}
    (hb : ∀ e ∈ exact, e.lowerBound = .nan ∨ ∃ l, e.lowerBound = .fin l) {r : HeurTableRow K A} (hr : r ∈ heuristicsTable rnd heur exact)
    (hc : ∀ c, r.row.objective = some c → |c| ≤ 2 ^ 53) :
    (r.gap = .nan ↔ r.row.objective = none ∨ r.lowerBound = .nan ∨ r.lowerBound = .fin 0 ∧ r.row.objective = some 0) ∧
    ∀ c, r.row.objective = some c → 0 < c → r.lowerBound = .fin 0 → r.gap = .inf false := by
  have hlb : r.lowerBound = .nan ∨ ∃ l, r.lowerBound = .fin l := by
    rw [(C102_rows rnd heur exact).2.2 r hr]
    cases hf : exact.find? fun e => e.coverDisjoint && decide (e.instance_ = r.row.instance_) with
    | none => exact .inl rfl
    | some e => exact hb e (List.mem_of_find?_eq_some hf)
  obtain ⟨x, -, rfl⟩ := List.mem_map.1 hr
  simp only at hlb hc ⊢
  rcases hlb with hlb | ⟨l, hlb⟩
  · rw [hlb]
    refine ⟨iff_of_true ?_ (by simp), by simp⟩
    cases objectiveExt rnd x.objective <;> simp [gapOf, Ext.neg, Ext.add, Ext.div]
  · rw [hlb]
    cases hx : x.objective with
    | none => simp [objectiveExt, gapOf, Ext.neg, Ext.add, Ext.div]
    | some c =>
      simp only [objectiveExt, h.exact c (hc c hx), gapOf, Ext.neg, Ext.add]
      by_cases hl : l = 0
      · subst hl
        simp only [neg_zero, add_zero, h.exact c (hc c hx), Ext.div, if_true]
        constructor
        · by_cases h0 : c = 0 <;> simp [h0]
        · rintro c' ⟨rfl⟩ h1 -
          have : (c : Rat) ≠ 0 := by exact_mod_cast h1.ne'
          simp [this, h1.le]
      · refine ⟨iff_of_false ?_ (by simp [hl]), by simp [hl]⟩
        cases hd : rnd ((c : Rat) + -l) with
        | nan => exact absurd hd (h.noNan _)
        | inf s => simp [Ext.div]
        | fin q => simp [Ext.div, hl, h.noNan]

/-- **C102.** The mean gap of a group is that of its rows that have a gap: instances that the heuristic did not solve, or without an exact row, do not count.
One infinite gap makes the mean infinite. -/
theorem C102_mean {rnd : Rat → Ext} (h : RoundsDouble rnd) (xs : List Ext) :
    (∀ ys, ys.Sublist xs → (∀ x, x ≠ .nan → ys.count x = xs.count x) → columnMean rnd ys = columnMean rnd xs) ∧
    ((∀ x ∈ xs, x = .nan ∨ x = .inf false ∨ ∃ q, 0 ≤ q ∧ x = .fin q) → .inf false ∈ xs → xs.length ≤ 2 ^ 53 → columnMean rnd xs = .inf false) := by
  constructor
  · intro ys hs hcount
    have : ys.filter (fun x => decide (x ≠ .nan)) = xs.filter fun x => decide (x ≠ .nan) := by
      refine (hs.filter _).eq_of_length_le ?_
      refine List.Perm.length_eq ?_ |>.ge
      rw [List.perm_iff_count]
      intro a
      by_cases ha : a = .nan
      · subst ha
        rw [List.count_eq_zero.2 (by simp), List.count_eq_zero.2 (by simp)]
      · rw [List.count_filter (by simpa using ha), List.count_filter (by simpa using ha), hcount a ha]
    simp only [columnMean, this]
  · intro hx hi hlen
    have key : ∀ ys : List Ext, (∀ x ∈ ys, x = .inf false ∨ ∃ q, 0 ≤ q ∧ x = .fin q) → ∀ a, (a = .inf false ∨ ∃ q, 0 ≤ q ∧ a = .fin q) →
        (a = .inf false ∨ .inf false ∈ ys) → ys.foldl (Ext.add rnd) a = .inf false := by
      intro ys
      induction ys with
      | nil => intro _ a _ h2; simpa using h2
      | cons y ys ih =>
        intro h1 a ha h2
        have hy := h1 y (by simp)
        have hsum : Ext.add rnd a y = .inf false ∨ ∃ q, 0 ≤ q ∧ Ext.add rnd a y = .fin q := by
          rcases ha with rfl | ⟨p, hp, rfl⟩ <;> rcases hy with rfl | ⟨q, hq, rfl⟩ <;> simp only [Ext.add, if_true, true_or]
          exact h.nonneg _ (add_nonneg hp hq)
        refine ih (fun x hx => h1 x (by simp [hx])) _ hsum ?_
        rcases h2 with rfl | h2
        · rcases hy with rfl | ⟨q, hq, rfl⟩ <;> simp [Ext.add]
        · rcases List.mem_cons.1 h2 with rfl | h2
          · rcases ha with rfl | ⟨p, hp, rfl⟩ <;> simp [Ext.add]
          · exact .inr h2
    have hsum := key (xs.filter fun x => decide (x ≠ .nan)) (by
      intro x hx'
      obtain ⟨h1, h2⟩ := List.mem_filter.1 hx'
      rcases hx x h1 with rfl | h3
      · simp at h2
      · exact h3) (.fin 0) (.inr ⟨0, le_rfl, rfl⟩) (.inr (List.mem_filter.2 ⟨hi, by simp⟩))
    have hl : (xs.filter fun x => decide (x ≠ .nan)).length ≤ 2 ^ 53 := (List.length_filter_le _ _).trans hlen
    simp only [columnMean, hsum]
    have := h.exact ((xs.filter fun x => decide (x ≠ .nan)).length : Int) (by rw [abs_of_nonneg (by positivity)]; exact_mod_cast hl)
    simp only [Int.cast_natCast] at this
    rw [this, Ext.div, if_neg (by simp)]

/-! ## Examples -/

theorem exRounds : RoundsDouble .fin where
  exact _ _ := rfl
  noNan _ h := by cases h
  keep _ _ x hx y hy := by cases hy; exact hx
  nonneg x hx := .inr ⟨x, hx, rfl⟩

/-- Statistics with the given status and bounds. -/
def exStats (status : Int) (l u : Rat) : SummaryStats Ext :=
  ⟨status, .fin l, .fin u, 0, 0, 0, 0, 0, 0, 0, 0⟩

/-- The first two of the three vials of the summary example have a result; of these, only the first one has statistics. -/
example : (branchCutTable exStore (fun u => if u = 0 then .good (exStats 11 7 7) else .absent) exThree).map (·.map fun r => (r.row.vial.uuid, r.row.objective)) =
    .ok [(0, some 7)] := by rfl

/-- An empty file of statistics loses the rows of all the vials, and the experiments that come later. -/
example : writeAll [none, some (branchCutTable exStore (fun u => if u = 0 then .good (exStats 11 7 7) else .empty) exThree), some (.ok [])] =
    ([], some .typeError) := by rfl

example : costCoverRows .fin [exStats 11 7 7, exStats 11 8 9, exStats 5 7 7, exStats 12 (10 ^ 20) (10 ^ 20), exStats 5 7 (10 ^ 20), exStats 12 0 0] =
      some [(.fin 0, true), (.fin (1 / 8), false), (.fin 0, false), (.nan, false), (.nan, false), (.nan, false)] ∧
    costCoverRows .fin [exStats 11 7 7, exStats 5 0 9] = none ∧
    tailingOptimal .fin (exStats 5 7 7) = true ∧ tailingOptimal .fin (exStats 12 (10 ^ 20) (10 ^ 20)) = true := by decide +kernel

example : Bound 7 ∧ Bound (15 / 2) :=
  ⟨⟨⟨7 * 2 ^ 52, by norm_num⟩, by rw [abs_of_pos] <;> norm_num⟩, ⟨⟨15 * 2 ^ 51, by norm_num⟩, by rw [abs_of_pos] <;> norm_num⟩⟩

/-- Two instances, two algorithms and a row that repeats the first: the exact row without the cover of disjoint paths is not used. -/
def exHeur : List (HeurRow Nat Nat) := [⟨0, 0, true, some 7⟩, ⟨0, 1, true, some 14⟩, ⟨1, 0, false, none⟩, ⟨0, 0, true, some 9⟩]

def exExact : List (ExactRow Nat) := [⟨0, false, .fin 6, .fin 9⟩, ⟨0, true, .fin 7, .fin 7⟩, ⟨1, true, .fin 3, .fin 4⟩]

example : (heuristicsTable .fin exHeur exExact).map (fun r => (r.row.instance_, r.row.alg, r.lowerBound, r.gap, r.isOptimal)) =
    [(0, 0, .fin 7, .fin 0, true), (0, 1, .fin 7, .fin 1, false), (1, 0, .fin 3, .nan, false)] := by decide +kernel

example : columnMean .fin [.fin 0, .fin 1, .nan] = .fin (1 / 2) ∧ columnMean .fin [.fin 0, .inf false, .nan] = .inf false := by decide +kernel

end Pctsp
