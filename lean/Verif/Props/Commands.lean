import Verif.Lemmas.Commands
import Verif.Props.Batch

/-!
# Properties of the commands of the main app: the array job (C110), the list of missing results (C111), running one vial (C112),
and the hours of the script (C113)
-/

namespace Pctsp

variable {U V P : Type} [DecidableEq U] {run : LabVial U P → Attempt U V}

/-! ## C110 -/

omit [DecidableEq U] in
/-- C110: what `slurm` does.  It fails iff the file of the experiment (with `--only-missing-results`: of the missing vials) does not exist, the batch size is
zero, or there is a script already and `--overwrite` is not given; then no file changes.  Otherwise the script describes just enough tasks, and no other file
changes. -/
theorem C110_script {rnd : Rat → Rat} (h : Rounds53 rnd) (d : LabDir U V P) (only overwrite : Bool) (limit : Rat) :
    (∀ size, (if only then d.missing else d.experiment) = none → slurmCmd rnd size only overwrite limit d = (d, .error .fileNotFound)) ∧
    ∀ l, (if only then d.missing else d.experiment) = some l →
      slurmCmd rnd 0 only overwrite limit d = (d, .error (.lab .zeroDivision)) ∧
      ∀ b : Nat, 0 < b → b ≤ 2 ^ 53 → l.length < 2 ^ 52 →
        (d.script ≠ none → overwrite = false → slurmCmd rnd b only overwrite limit d = (d, .error .fileExists)) ∧
        (d.script = none ∨ overwrite = true →
          ∃ c : Nat, slurmCmd rnd b only overwrite limit d = ({ d with script := some ⟨slurmHours rnd b limit, (c : Int) - 1, b, only⟩ }, .ok ()) ∧
            ∀ k : Nat, c ≤ k ↔ l.length ≤ k * b) := by
  refine ⟨fun size hn => by simp only [slurmCmd, readExperiment, hn], fun l hl => ⟨?_, fun b hb hb' hn => ?_⟩⟩
  · simp only [slurmCmd, readExperiment, hl, C94_zero h]
  · obtain ⟨c, hc, hk⟩ := C94_count h hb hb' hn
    constructor
    · intro h1 h2
      have : d.script.isSome = true := Option.isSome_iff_ne_none.2 h1
      simp only [slurmCmd, readExperiment, hl, hc, this, h2]
      rfl
    · intro h1
      refine ⟨c, ?_, hk⟩
      have : (d.script.isSome && !overwrite) = false := by
        rcases h1 with h1 | h1 <;> simp [h1]
      simp only [slurmCmd, readExperiment, hl, hc, this]
      rfl

/-- C110: the array job, whatever the order of its tasks.  The result file of a vial is the one that its own attempt leaves, unless an earlier vial of the same
task stopped its process; then it is the old one.  No other file changes. -/
theorem C110_job {rnd : Rat → Rat} (h : Rounds53 rnd) {d d' : LabDir U V P} {only overwrite : Bool} {limit : Rat} {l : List (LabVial U P)}
    (hl : (if only then d.missing else d.experiment) = some l) (hd : Distinct l) {b : Nat} (hb : 0 < b) (hb' : b ≤ 2 ^ 53) (hn : l.length < 2 ^ 52)
    (hs : slurmCmd rnd b only overwrite limit d = (d', .ok ())) :
    ∃ sc, d'.script = some sc ∧ ∀ ks : List Nat, ks.Perm (List.range (sc.lastTask + 1).toNat) →
      (runTasks run sc ks d').experiment = d.experiment ∧ (runTasks run sc ks d').missing = d.missing ∧ (runTasks run sc ks d').script = some sc ∧
      (∀ u, u ∉ l.map (·.uuid) → (runTasks run sc ks d').results u = d.results u) ∧
      ∀ (p : Nat) (v : LabVial U P), l[p]? = some v →
        ((∀ w ∈ (l.take p).drop (p - p % b), (run w).survives) → (runTasks run sc ks d').results v.uuid = (run v).fileAfter v.uuid (d.results v.uuid)) ∧
        ((∃ w ∈ (l.take p).drop (p - p % b), ¬ (run w).survives) → (runTasks run sc ks d').results v.uuid = d.results v.uuid) := by
  obtain ⟨h1, h2⟩ := ((C110_script h d only overwrite limit).2 l hl).2 b hb hb' hn
  have hcase : d.script = none ∨ overwrite = true := by
    by_contra hc
    rw [not_or] at hc
    rw [h1 hc.1 (by simpa using hc.2)] at hs
    injection hs with _ hs; cases hs
  obtain ⟨c, hc, hk⟩ := h2 hcase
  rw [hc] at hs
  injection hs with hs _
  subst hs
  refine ⟨_, rfl, fun ks hks => ?_⟩
  have hct : ((c : Int) - 1 + 1).toNat = c := by omega
  simp only [hct] at hks
  have hlen := (hk c).1 le_rfl
  have hsv : scriptVials (⟨slurmHours rnd b limit, (c : Int) - 1, b, only⟩ : Script) { d with script := some ⟨slurmHours rnd b limit, (c : Int) - 1, b, only⟩ } = some l := by
    unfold scriptVials; exact hl
  rw [runTasks_eq (run := run) ⟨slurmHours rnd b limit, (c : Int) - 1, b, only⟩ (b := b) rfl ks _ hsv]
  exact ⟨rfl, rfl, rfl, fun u hu => runBlocks_other _ hlen hks hu, fun p v hp => runBlocks_file hd _ hb hlen hks hp⟩

/-- C110: if nothing stops a process, the job leaves the files that running the whole list at once leaves, whatever the order of its tasks. -/
theorem C110_same {rnd : Rat → Rat} (h : Rounds53 rnd) {d d' : LabDir U V P} {only overwrite : Bool} {limit : Rat} {l : List (LabVial U P)}
    (hl : (if only then d.missing else d.experiment) = some l) (hd : Distinct l) {b : Nat} (hb : 0 < b) (hb' : b ≤ 2 ^ 53) (hn : l.length < 2 ^ 52)
    (hs : slurmCmd rnd b only overwrite limit d = (d', .ok ())) (hrun : ∀ v ∈ l, (run v).survives) {sc : Script} (hsc : d'.script = some sc)
    {ks : List Nat} (hks : ks.Perm (List.range (sc.lastTask + 1).toNat)) :
    (runTasks run sc ks d').results = (runVials run l d.results).1 := by
  obtain ⟨sc', h1, h2⟩ := C110_job (run := run) h hl hd hb hb' hn hs
  rw [hsc, Option.some.injEq] at h1; subst h1
  obtain ⟨_, _, _, h3, h4⟩ := h2 ks hks
  funext u
  by_cases hu : u ∈ l.map (·.uuid)
  · obtain ⟨v, hv, rfl⟩ := List.mem_map.1 hu
    obtain ⟨p, hp⟩ := List.mem_iff_getElem?.1 hv
    rw [(h4 p v hp).1 fun w hw => hrun w (List.mem_of_mem_take (List.mem_of_mem_drop hw))]
    obtain ⟨A, B, rfl⟩ := List.append_of_mem hv
    exact (runVials_file run (fun w hw => hrun w (by simp [hw])) hd d.results).symm
  · rw [h3 u hu, runVials_other run _ _ hu]

omit [DecidableEq U] in
/-- C110: `nbatches` prints the number of tasks that the script without `--only-missing-results` has; unlike `slurm` it rejects a batch size that is not
positive. -/
theorem C110_nbatches {rnd : Rat → Rat} (h : Rounds53 rnd) (d : LabDir U V P) :
    (∀ size, size ≤ 0 → nbatchesCmd rnd size d = .error .valueError) ∧
    ∀ l, d.experiment = some l → l.length < 2 ^ 52 → ∀ b : Nat, 0 < b → b ≤ 2 ^ 53 →
      ∃ c : Nat, nbatchesCmd rnd b d = .ok (c : Int) ∧ (∀ k : Nat, c ≤ k ↔ l.length ≤ k * b) ∧
        ∀ limit, ∃ sc, (slurmCmd rnd b false true limit d).1.script = some sc ∧ sc.lastTask + 1 = c := by
  refine ⟨fun size hs => by simp [nbatchesCmd, hs], fun l hl hn b hb hb' => ?_⟩
  obtain ⟨c, hc, hk⟩ := C94_count h hb hb' hn
  refine ⟨c, ?_, hk, fun limit => ?_⟩
  · have : b ≠ 0 := by omega
    simp [nbatchesCmd, this, readExperiment, hl, hc, liftLab]
  · obtain ⟨c', e1, e2⟩ := (((C110_script h d false true limit).2 l hl).2 b hb hb' hn).2 (.inr rfl)
    refine ⟨_, by rw [e1], ?_⟩
    have a1 := (hk c').2 ((e2 c').1 le_rfl)
    have a2 := (e2 c).2 ((hk c).1 le_rfl)
    simp only; omega

/-! ## C111 -/

/-- C111: `missing` writes the list of the vials without a readable result, and changes nothing else; it fails, and then changes nothing, iff there is no
experiment or the file of a result is no result. -/
theorem C111_missing (d : LabDir U V P) :
    (d.experiment = none → missingCmd d = (d, .error .fileNotFound)) ∧
    ∀ vials, d.experiment = some vials →
      ((∃ v ∈ vials, d.results v.uuid = .invalid) → missingCmd d = (d, .error (.lab .validation))) ∧
      ((∀ v ∈ vials, d.results v.uuid ≠ .invalid) → ∃ m, missingCmd d = ({ d with missing := some m }, .ok m) ∧
        m.Sublist vials ∧ (∀ v, v ∈ m ↔ v ∈ vials ∧ ¬ HasResult d.results v) ∧ nmissingCmd d = .ok (m.length, vials.length)) := by
  refine ⟨fun h => by simp [missingCmd, readExperiment, h], fun vials hv => ?_⟩
  obtain ⟨h1, h2⟩ := C96_missing (vials := vials) d.results
  constructor
  · rintro ⟨v, hvm, hvi⟩
    cases hm : missingVials d.results vials with
    | ok m => exact absurd hvi (h2.1 ⟨m, hm⟩ v hvm)
    | error e => rw [missingVials_error hm] at hm; simp [missingCmd, readExperiment, hv, hm]
  · intro hval
    obtain ⟨m, hm⟩ := h2.2 hval
    obtain ⟨h3, h4⟩ := h1 m hm
    exact ⟨m, by simp [missingCmd, readExperiment, hv, hm], h4, h3, by simp [nmissingCmd, readExperiment, hv, hm, liftLab, Except.map]⟩

/-- C111: `missing`, `slurm --only-missing-results` and the tasks of its script, in any order, leave no vial without a result if every attempt succeeds, and
touch no result that was there before. -/
theorem C111_workflow {rnd : Rat → Rat} (h : Rounds53 rnd) (ha : AllDone run) {d d₁ d₂ : LabDir U V P} {vials m : List (LabVial U P)}
    (hv : d.experiment = some vials) (hd : Distinct vials) (hm : missingCmd d = (d₁, .ok m)) {overwrite : Bool} {limit : Rat} {b : Nat} (hb : 0 < b)
    (hb' : b ≤ 2 ^ 53) (hn : vials.length < 2 ^ 52) (hs : slurmCmd rnd b true overwrite limit d₁ = (d₂, .ok ())) {sc : Script} (hsc : d₂.script = some sc)
    {ks : List Nat} (hks : ks.Perm (List.range (sc.lastTask + 1).toNat)) :
    nmissingCmd (runTasks run sc ks d₂) = .ok (0, vials.length) ∧
      ∀ v ∈ vials, HasResult d.results v → (runTasks run sc ks d₂).results v.uuid = d.results v.uuid := by
  have hval : ∀ v ∈ vials, d.results v.uuid ≠ .invalid := by
    intro v hvm hvi
    have he := ((C111_missing d).2 vials hv).1 ⟨v, hvm, hvi⟩
    rw [he] at hm; injection hm with _ hm; cases hm
  obtain ⟨m', e1, e2, e3, _⟩ := ((C111_missing d).2 vials hv).2 hval
  rw [e1] at hm
  injection hm with hm1 hm2
  injection hm2 with hm2
  subst hm1; subst hm2
  have hdm : Distinct m' := by unfold Distinct at hd ⊢; exact hd.sublist (e2.map _)
  have hlen : m'.length < 2 ^ 52 := lt_of_le_of_lt e2.length_le hn
  obtain ⟨sc', k1, k2⟩ := C110_job (run := run) (d := { d with missing := some m' }) (only := true) h rfl hdm hb hb' hlen hs
  rw [hsc, Option.some.injEq] at k1; subst k1
  obtain ⟨k3, _, _, k4, k5⟩ := k2 ks hks
  have old : ∀ v ∈ vials, HasResult d.results v → (runTasks run sc ks d₂).results v.uuid = d.results v.uuid := by
    intro v hvm hr
    refine k4 v.uuid fun hu => ?_
    obtain ⟨w, hw, hwu⟩ := List.mem_map.1 hu
    have := hd.inj ((e3 w).1 hw).1 hvm hwu
    subst this
    exact ((e3 w).1 hw).2 hr
  refine ⟨?_, old⟩
  have hgood : ∀ v ∈ vials, ∃ r, (runTasks run sc ks d₂).results v.uuid = .good r := by
    intro v hvm
    by_cases hr : HasResult d.results v
    · obtain ⟨r, hr'⟩ := hr
      exact ⟨r, by rw [old v hvm ⟨r, hr'⟩, hr']⟩
    · obtain ⟨p, hp⟩ := List.mem_iff_getElem?.1 ((e3 v).2 ⟨hvm, hr⟩)
      obtain ⟨r, hr⟩ := ha v
      exact ⟨⟨v.uuid, r⟩, by rw [(k5 p v hp).1 fun w _ => ha.survives w, hr]; rfl⟩
  have hex : (runTasks run sc ks d₂).experiment = some vials := by rw [k3]; exact hv
  simp [nmissingCmd, readExperiment, hex, missingVials_mono hgood, liftLab, Except.map]

/-- C111: a batch of missing vials does not look at the results, and a new experiment does not change it: it runs the list that `missing` last wrote. -/
theorem C111_stale (d : LabDir U V P) (vials : List (LabVial U P)) (start size : Nat) :
    (d.missing = none → batchCmd run start size true (setupCmd vials d) = (setupCmd vials d, .error .fileNotFound)) ∧
    ∀ m, d.missing = some m →
      batchCmd run start size true (setupCmd vials d) =
        ({ setupCmd vials d with results := (runVials run ((m.drop start).take size) d.results).1 },
          liftLab (runVials run ((m.drop start).take size) d.results).2) ∧
      ∀ v ∈ vials, v.uuid ∉ m.map (·.uuid) → (batchCmd run start size true (setupCmd vials d)).1.results v.uuid = d.results v.uuid := by
  refine ⟨fun h => by simp [batchCmd, readExperiment, setupCmd, h], fun m hm => ?_⟩
  have key : batchCmd run start size true (setupCmd vials d) =
        ({ setupCmd vials d with results := (runVials run ((m.drop start).take size) d.results).1 },
          liftLab (runVials run ((m.drop start).take size) d.results).2) := by
    have h1 : readExperiment (setupCmd vials d) true = .ok m := by simp [readExperiment, setupCmd, hm]
    unfold batchCmd
    rw [h1]
    simp only
    rw [show (setupCmd vials d).results = d.results from rfl, runBatch_ok run (batchVials_nat d.results m start size)]
  refine ⟨key, fun v _ hv => ?_⟩
  rw [key]
  refine runVials_other run _ _ fun h => hv ?_
  obtain ⟨w, hw, hwu⟩ := List.mem_map.1 h
  exact List.mem_map.2 ⟨w, List.mem_of_mem_drop (List.mem_of_mem_take hw), hwu⟩

/-- C111: `infeasible` prints the identifiers of the vials whose stored prize is below the quota; it fails iff there is no experiment or a result file cannot
be parsed or is no result. -/
theorem C111_infeasible (d : LabDir U V P) :
    (d.experiment = none → infeasibleCmd d = .error .fileNotFound) ∧
    ∀ vials, d.experiment = some vials →
      ((∀ v ∈ vials, d.results v.uuid ≠ .corrupt ∧ d.results v.uuid ≠ .invalid) →
        ∃ l, infeasibleCmd d = .ok l ∧ ∀ u, u ∈ l ↔ ∃ v ∈ vials, ∃ r, v.uuid = u ∧ d.results v.uuid = .good r ∧ r.result.prize < v.quota) ∧
      ((∃ v ∈ vials, d.results v.uuid = .corrupt ∨ d.results v.uuid = .invalid) → ∃ e, infeasibleCmd d = .error (.lab e)) := by
  refine ⟨fun h => by simp [infeasibleCmd, readExperiment, h], fun vials hv => ?_⟩
  obtain ⟨h1, h2⟩ := C96_infeasible (vials := vials) d.results
  constructor
  · intro hok
    obtain ⟨m, hm⟩ := h2.2 hok
    refine ⟨m.map (·.uuid), by simp [infeasibleCmd, readExperiment, hv, hm, liftLab, Except.map], fun u => ?_⟩
    rw [List.mem_map]
    constructor
    · rintro ⟨v, hvm, rfl⟩
      obtain ⟨h3, r, h4, h5⟩ := (h1 m hm v).1 hvm
      exact ⟨v, h3, r, rfl, h4, h5⟩
    · rintro ⟨v, h3, r, rfl, h4, h5⟩
      exact ⟨v, (h1 m hm v).2 ⟨h3, r, h4, h5⟩, rfl⟩
  · rintro ⟨v, hvm, hbad⟩
    cases hm : infeasibleVials d.results vials with
    | ok m =>
      have := h2.1 ⟨m, hm⟩ v hvm
      rcases hbad with hb | hb
      · exact absurd hb this.1
      · exact absurd hb this.2
    | error e => exact ⟨e, by simp [infeasibleCmd, readExperiment, hv, hm, liftLab, Except.map]⟩

/-! ## C112 -/

/-- C112: `vial` runs the vial with the identifier and returns its result; it fails with ValueError iff there is none, and with IndexError iff the attempt
raised (which is caught and leaves no result); other result files do not change. -/
theorem C112_vial (d : LabDir U V P) (u : U) :
    (d.experiment = none → vialCmd run u d = (d, .error .fileNotFound)) ∧
    ∀ vials, d.experiment = some vials → Distinct vials →
      (u ∉ vials.map (·.uuid) → vialCmd run u d = (d, .error .valueError)) ∧
      ∀ v ∈ vials, v.uuid = u →
        (vialCmd run u d).1 = { d with results := setFile d.results u ((run v).fileAfter u (d.results u)) } ∧
        (run v = .failed ↔ (vialCmd run u d).2 = .error .indexError) ∧
        (∀ r, (vialCmd run u d).2 = .ok r ↔ ∃ x, (run v).result? = some x ∧ r = ⟨u, x⟩) ∧
        (run v = .abort → (vialCmd run u d).2 = .error (.lab .load)) ∧ (run v = .died → (vialCmd run u d).2 = .error (.lab .died)) := by
  refine ⟨fun h => by simp [vialCmd, readExperiment, h], fun vials hv hd => ⟨fun hu => ?_, fun v hvm hvu => ?_⟩⟩
  · have : findVial u vials = none := by
      unfold findVial
      rw [findVial_foldl, List.filter_eq_nil_iff.2 fun w hw => by
        simp only [decide_eq_true_eq]; exact fun e => hu (List.mem_map.2 ⟨w, hw, e⟩)]
      rfl
    simp [vialCmd, readExperiment, hv, this]
  · have : findVial u vials = some v := by
      unfold findVial
      rw [findVial_foldl]
      obtain ⟨A, B, rfl⟩ := List.append_of_mem hvm
      obtain ⟨h1, h2⟩ := hd.middle
      have hA : A.filter (fun w => decide (w.uuid = u)) = [] := List.filter_eq_nil_iff.2 fun w hw => by
        simp only [decide_eq_true_eq]; exact fun e => h1 (List.mem_map.2 ⟨w, hw, e.trans hvu.symm⟩)
      have hB : B.filter (fun w => decide (w.uuid = u)) = [] := List.filter_eq_nil_iff.2 fun w hw => by
        simp only [decide_eq_true_eq]; exact fun e => h2 (List.mem_map.2 ⟨w, hw, e.trans hvu.symm⟩)
      rw [List.filter_append, List.filter_cons, hA, hB]
      simp [hvu]
    have hid : setFile d.results u (d.results u) = d.results := funext fun x => by unfold setFile; split <;> simp_all
    simp only [vialCmd, readExperiment, hv, this, Bool.false_eq_true, if_false]
    subst hvu
    cases hr : run v <;> simp [runVials, hr, Attempt.fileAfter, Attempt.result?, hid, consResult, Except.map, eq_comm]

/-! ## C113 -/

/-- A number is at most rounded down to the next multiple of a power of two. -/
theorem Rounds53.ge {rnd : Rat → Rat} (h : Rounds53 rnd) {x : Rat} {k : Nat} (h0 : 0 ≤ x) (hk : k ≤ 1022) (hx : x * 2 ^ k ≤ 2 ^ 53) :
    x - 1 / 2 ^ k ≤ rnd x := by
  have hp : (0 : Rat) < 2 ^ k := by positivity
  have h1 : ((⌊x * 2 ^ k⌋ : Int) : Rat) / 2 ^ k ≤ x := by
    rw [div_le_iff₀ hp]; exact Int.floor_le _
  have h2 : (0 : Int) ≤ ⌊x * 2 ^ k⌋ := Int.floor_nonneg.2 (by positivity)
  have h3 : ⌊x * 2 ^ k⌋ ≤ 2 ^ 53 := by
    have : ((⌊x * 2 ^ k⌋ : Int) : Rat) ≤ ((2 ^ 53 : Int) : Rat) := le_trans (Int.floor_le _) (by push_cast; exact hx)
    exact_mod_cast this
  have h4 := h.mono _ _ h1
  rw [h.exact _ k (by omega) h3 hk] at h4
  refine le_trans ?_ h4
  rw [sub_le_iff_le_add, ← add_div, le_div_iff₀ hp]
  exact (Int.lt_floor_add_one _).le

/-- C113: the script asks for at least the time that a batch can take (up to 2^20 vials and 2^20 hours), unless that is more than 172800 hours. -/
theorem C113_enough {rnd : Rat → Rat} (h : Rounds53 rnd) {b : Nat} (hb : b ≤ 2 ^ 20) {limit : Rat} (h0 : 0 ≤ limit) (hl : limit ≤ 3600 * 2 ^ 20) :
    min (b * limit) (172800 * 3600) ≤ (slurmHours rnd b limit : Rat) * 3600 := by
  have eb : rnd ((b : Int) : Rat) = (b : Int) := h.int (by omega) (by omega)
  have hx0 : 0 ≤ limit / 3600 := by positivity
  have hbq : ((b : Nat) : Rat) ≤ 2 ^ 20 := by exact_mod_cast hb
  have hb0 : (0 : Rat) ≤ b := Nat.cast_nonneg b
  have h1 := h.ge (x := limit / 3600) (k := 30) hx0 (by omega) (by
    have : limit / 3600 ≤ 2 ^ 20 := by rw [div_le_iff₀ (by norm_num)]; linarith
    norm_num at this ⊢; linarith)
  have h0t : (0 : Rat) ≤ rnd (limit / 3600) := by
    have := h.mono _ _ hx0
    have e0 := h.int (m := 0) (by omega) (by omega)
    simp only [Int.cast_zero] at e0
    rwa [e0] at this
  have htu : rnd (limit / 3600) ≤ 2 ^ 20 := by
    have : limit / 3600 ≤ ((2 ^ 20 : Int) : Rat) := by rw [div_le_iff₀ (by norm_num)]; push_cast; linarith
    have := h.mono _ _ this
    rw [h.int (by omega) (by omega)] at this
    push_cast at this; exact this
  have h2 := h.ge (x := (b : Rat) * rnd (limit / 3600)) (k := 1) (by positivity) (by omega) (by
    have : (b : Rat) * rnd (limit / 3600) ≤ 2 ^ 20 * 2 ^ 20 := mul_le_mul hbq htu h0t (by positivity)
    norm_num at this ⊢; linarith)
  have h3 : (b : Rat) * (limit / 3600) - 1 ≤ rnd ((b : Rat) * rnd (limit / 3600)) := by
    have : (b : Rat) * (limit / 3600 - 1 / 2 ^ 30) ≤ b * rnd (limit / 3600) := mul_le_mul_of_nonneg_left h1 hb0
    have e1 : (b : Rat) * (limit / 3600 - 1 / 2 ^ 30) = b * (limit / 3600) - b * (1 / 2 ^ 30) := by ring
    have e2 : (b : Rat) * (1 / 2 ^ 30) ≤ 2 ^ 20 * (1 / 2 ^ 30) := mul_le_mul_of_nonneg_right hbq (by positivity)
    have e3 : (2 : Rat) ^ 20 * (1 / 2 ^ 30) ≤ 1 / 2 := by norm_num
    have e4 : (1 : Rat) / 2 ^ 1 = 1 / 2 := by norm_num
    rw [e4] at h2
    linarith
  have h4 := Int.le_ceil (rnd ((b : Rat) * rnd (limit / 3600)))
  have h5 : (b : Rat) * (limit / 3600) ≤ ((⌈rnd ((b : Rat) * rnd (limit / 3600))⌉ + 1 : Int) : Rat) := by push_cast; linarith
  have hs : slurmHours rnd b limit = min (⌈rnd ((b : Rat) * rnd (limit / 3600))⌉ + 1) 172800 := by
    unfold slurmHours; rw [eb]; norm_num
  rw [hs]
  rcases min_cases (⌈rnd ((b : Rat) * rnd (limit / 3600))⌉ + 1) 172800 with ⟨e, _⟩ | ⟨e, _⟩
  · rw [e]
    refine le_trans (min_le_left _ _) ?_
    have : (b : Rat) * limit = b * (limit / 3600) * 3600 := by field_simp
    rw [this]; exact mul_le_mul_of_nonneg_right h5 (by norm_num)
  · rw [e]; push_cast; exact min_le_right _ _

/-- C113: for a time limit of whole hours the script asks for the product of the batch size and the hours plus one hour, but for at most 172800 hours. -/
theorem C113_hours {rnd : Rat → Rat} (h : Rounds53 rnd) {b t : Nat} (hb : b ≤ 2 ^ 53) (ht : t ≤ 2 ^ 53) (hbt : b * t ≤ 2 ^ 53) :
    slurmHours rnd b (3600 * t) = min ((b : Int) * t + 1) 172800 := by
  have eb : rnd ((b : Int) : Rat) = (b : Int) := h.int (by omega) (by exact_mod_cast hb)
  have et : rnd (3600 * (t : Rat) / 3600) = t := by
    have := h.int (m := (t : Int)) (by omega) (by exact_mod_cast ht)
    rw [mul_div_cancel_left₀ _ (by norm_num)]; exact_mod_cast this
  have ep : rnd (((b : Int) : Rat) * (t : Rat)) = ((b * t : Nat) : Int) := by
    have := h.int (m := ((b * t : Nat) : Int)) (by omega) (by exact_mod_cast hbt)
    push_cast at this ⊢; exact this
  unfold slurmHours
  rw [et, eb, ep, Int.ceil_intCast]
  push_cast
  norm_num

/-- The claim that a script never asks for more than two days. -/
def TwoDaysAtMost : Prop := ∀ (b t : Nat), slurmHours id b (3600 * t) ≤ 48

/-- C113: it is false: twelve vials of the default of four hours ask for 49 hours, as the bound is the number of seconds of two days; the bound only has
an effect for more than nineteen years. -/
theorem C113_not_two_days : ¬ TwoDaysAtMost ∧ ∀ {rnd : Rat → Rat}, Rounds53 rnd → ∀ b t : Nat, b ≤ 2 ^ 53 → t ≤ 2 ^ 53 → b * t ≤ 2 ^ 53 →
    (slurmHours rnd b (3600 * t) ≤ 48 ↔ b * t ≤ 47) := by
  constructor
  · intro h
    have h1 := h 12 4
    rw [C113_hours rounds53_id (by omega) (by omega) (by omega)] at h1
    revert h1; decide
  · intro rnd hr b t hb ht hbt
    rw [C113_hours hr hb ht hbt]
    constructor
    · intro h1
      rcases min_le_iff.1 h1 with h1 | h1
      · have : ((b * t : Nat) : Int) + 1 ≤ 48 := by push_cast; exact h1
        omega
      · omega
    · intro h1
      refine min_le_iff.2 (.inl ?_)
      have : ((b * t : Nat) : Int) ≤ 47 := by omega
      push_cast at this; omega

/-! ## Examples -/

/-- An experiment of five vials of which the first has a result. -/
def exDir : LabDir Nat Nat Unit := ⟨some exVials, none, fun u => if u = 0 then .good ⟨0, ⟨3, 12, []⟩⟩ else .absent, none⟩

theorem exVials_distinct : Distinct exVials := by unfold Distinct; decide

-- `missing`, `slurm --only-missing-results` with batches of two (tasks 0 and 1), and the tasks in reverse order
example : ∃ d₁ d₂ sc, missingCmd exDir = (d₁, .ok (exVials.drop 1)) ∧ slurmCmd id 2 true false (3600 * 4) d₁ = (d₂, .ok ()) ∧
    d₂.script = some sc ∧ sc.lastTask = 1 ∧ sc.hours = 9 ∧ nmissingCmd (runTasks exRun sc [1, 0] d₂) = .ok (0, 5) ∧
    (runTasks exRun sc [1, 0] d₂).results = (runVials exRun (exVials.drop 1) d₁.results).1 := by
  have h1 : missingCmd exDir = ({ exDir with missing := some (exVials.drop 1) }, .ok (exVials.drop 1)) := rfl
  obtain ⟨c, hc, hk⟩ := (((C110_script rounds53_id { exDir with missing := some (exVials.drop 1) } true false (3600 * 4)).2 (exVials.drop 1) rfl).2 2
    (by omega) (by omega) (by decide)).2 (.inl rfl)
  have hl : (exVials.drop 1).length = 4 := rfl
  have k1 := hk 1
  have k2 := hk 2
  obtain rfl : c = 2 := by omega
  have hh := C113_hours rounds53_id (b := 2) (t := 4) (by omega) (by omega) (by omega)
  have hks : [1, 0].Perm (List.range 2) := by decide
  exact ⟨_, _, _, h1, hc, rfl, rfl, hh,
    (C111_workflow rounds53_id (run := exRun) (fun _ => ⟨_, rfl⟩) rfl exVials_distinct h1 (by omega) (by omega) (by decide) hc rfl (ks := [1, 0]) hks).1,
    C110_same rounds53_id (run := exRun) (only := true) (l := exVials.drop 1) rfl (by unfold Distinct; decide) (by omega) (by omega) (by decide) hc (fun _ _ => trivial) rfl hks⟩

-- a job whose second task starts with a problem that cannot be loaded
example : ∃ d sc, slurmCmd id 2 false false (3600 * 4) exDir = (d, .ok ()) ∧ d.script = some sc ∧
    (runTasks (fun v => if v.uuid = 2 then .abort else exRun v) sc (List.range (sc.lastTask + 1).toNat) d).results 3 = .absent := by
  obtain ⟨c, hc, _⟩ := (((C110_script rounds53_id exDir false false (3600 * 4)).2 exVials rfl).2 2 (by omega) (by omega) (by decide)).2 (.inl rfl)
  obtain ⟨sc, h1, h2⟩ := C110_job rounds53_id (run := fun v => if v.uuid = 2 then .abort else exRun v) (only := false) (l := exVials) rfl
    exVials_distinct (by omega) (by omega) (by decide) hc
  exact ⟨_, sc, hc, h1, ((h2 _ (List.Perm.refl _)).2.2.2.2 3 ⟨3, 10, ()⟩ rfl).2 ⟨⟨2, 10, ()⟩, by decide, fun h => h⟩⟩

-- a script that exists; an experiment that does not
example : slurmCmd id 2 false false 7200 { exDir with script := some ⟨1, 1, 1, false⟩ } = ({ exDir with script := some ⟨1, 1, 1, false⟩ }, .error .fileExists) :=
  (((C110_script rounds53_id { exDir with script := some ⟨1, 1, 1, false⟩ } false false 7200).2 exVials rfl).2 2 (by omega) (by omega) (by decide)).1 (by simp) rfl
example : slurmCmd id 2 true true 7200 exDir = (exDir, .error .fileNotFound) := (C110_script rounds53_id exDir true true 7200).1 2 rfl

-- the list of missing vials of an old experiment is run after a new one was set up
example : (batchCmd exRun 0 2 true (setupCmd [⟨7, 10, ()⟩] { exDir with missing := some (exVials.drop 1) })).1.results 1 = .good ⟨1, ⟨3, 12, []⟩⟩ ∧
    (batchCmd exRun 0 2 true (setupCmd [⟨7, 10, ()⟩] { exDir with missing := some (exVials.drop 1) })).1.results 7 = .absent :=
  ⟨rfl, ((C111_stale (run := exRun) { exDir with missing := some (exVials.drop 1) } [⟨7, 10, ()⟩] 0 2).2 _ rfl).2 ⟨7, 10, ()⟩ (by simp) (by decide)⟩

/-- A file that is no result. -/
def exInvalid : LabDir Nat Nat Unit := ⟨some exVials, none, fun _ => .invalid, none⟩
example : missingCmd exInvalid = (exInvalid, .error (.lab .validation)) :=
  ((C111_missing exInvalid).2 exVials rfl).1 ⟨⟨0, 10, ()⟩, by decide, rfl⟩
example : nbatchesCmd id 0 exDir = .error .valueError := (C110_nbatches rounds53_id exDir).1 0 (by omega)
example : infeasibleCmd exDir = .ok [] := by
  obtain ⟨l, hl, h⟩ := ((C111_infeasible exDir).2 exVials rfl).1 (by intro v _; unfold exDir; simp only; split <;> simp)
  rw [hl]; congr 1
  rw [List.eq_nil_iff_forall_not_mem]
  intro u hu
  obtain ⟨v, _, r, hvu, hr, hp⟩ := (h u).1 hu
  unfold exDir at hr; simp only at hr
  split at hr
  · injection hr with hr; subst hr
    have : v.quota = 10 := by rename_i hv _ ; revert hv; simp [exVials]; rintro i _ rfl; rfl
    rw [this] at hp; revert hp; decide
  · cases hr

-- a vial whose attempt raises, and an unknown one
example : (vialCmd (fun _ => .failed) 3 exDir).2 = .error .indexError ∧ vialCmd exRun 9 exDir = (exDir, .error .valueError) :=
  ⟨((((C112_vial (run := fun _ => .failed) exDir 3).2 exVials rfl exVials_distinct).2 ⟨3, 10, ()⟩ (by decide) rfl).2.1).1 rfl,
   ((C112_vial (run := exRun) exDir 9).2 exVials rfl exVials_distinct).1 (by decide)⟩

-- eleven vials of 100 minutes
example : min ((11 : Nat) * 6000) (172800 * 3600) ≤ (slurmHours id (11 : Nat) 6000 : Rat) * 3600 := by
  have := C113_enough rounds53_id (b := 11) (by omega) (limit := 6000) (by norm_num) (by norm_num)
  exact_mod_cast this

end Pctsp
