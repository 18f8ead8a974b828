import Verif.Model.LabHome
import Verif.Lemmas.Commands
import Verif.Props.Batch

/-!
# C157: what the commands that run at once leave on the disk
-/

namespace Pctsp

variable {U V P : Type} [DecidableEq U] {run : LabVial U P → Attempt U V} {vials : List (LabVial U P)}

/-- The results that the attempts return, in the order of the vials. -/
def returned (run : LabVial U P → Attempt U V) (vials : List (LabVial U P)) : List (StoredResult U V) :=
  vials.filterMap fun v => (run v).result?.map fun r => ⟨v.uuid, r⟩

/-- **C157.** Without the directory of the labs the command fails and changes nothing.  Otherwise the experiment is replaced, the list of missing vials and the
script are kept, and the command either ends well, and then `results.json` has the results of this run in order, or, iff some attempt ends it, it fails
and `results.json` is what it was. -/
theorem C157_outcome (h : LabHome U V P) :
    (h.parent = false → labCmd run vials h = (h, .error .fileNotFound)) ∧
    (h.parent = true → (labCmd run vials h).1.parent = true ∧ (labCmd run vials h).1.dir.experiment = some vials ∧
      (labCmd run vials h).1.dir.missing = h.dir.missing ∧ (labCmd run vials h).1.dir.script = h.dir.script ∧
      ((∀ v ∈ vials, (run v).survives) → (labCmd run vials h).2 = .ok () ∧ (labCmd run vials h).1.backup = some (returned run vials)) ∧
      ((∃ v ∈ vials, ¬ (run v).survives) → (∃ e, (labCmd run vials h).2 = .error (.lab e)) ∧ (labCmd run vials h).1.backup = h.backup)) := by
  refine ⟨fun hp => by simp [labCmd, hp], fun hp => ?_⟩
  cases hx : (runVials run vials h.dir.results).2 with
  | ok rs =>
    have hall : ∀ v ∈ vials, (run v).survives := by
      rcases survive_or_first run vials with hs | ⟨pre, v, post, rfl, h1, h2⟩
      · exact hs
      · obtain ⟨-, e, he⟩ := runVials_stop run h1 h2 post h.dir.results
        rw [he] at hx; cases hx
    have hr := C96_results h.dir.results hall
    rw [hx] at hr
    cases hr
    refine ⟨?_, ?_, ?_, ?_, fun _ => ?_, fun ⟨v, hv, hn⟩ => absurd (hall v hv) hn⟩ <;> simp [labCmd, hp, setupCmd, hx, writeResults, returned]
  | error e =>
    refine ⟨?_, ?_, ?_, ?_, fun hs => ?_, fun _ => ?_⟩
    · simp [labCmd, hp, setupCmd, hx]
    · simp [labCmd, hp, setupCmd, hx]
    · simp [labCmd, hp, setupCmd, hx]
    · simp [labCmd, hp, setupCmd, hx]
    · rw [C96_results _ hs] at hx; cases hx
    · simp [labCmd, hp, setupCmd, hx]

theorem labCmd_results {h : LabHome U V P} (hp : h.parent = true) : (labCmd run vials h).1.dir.results = (runVials run vials h.dir.results).1 := by
  cases hx : (runVials run vials h.dir.results).2 <;> simp [labCmd, hp, setupCmd, hx, writeResults]

/-- **C157.** The command leaves the files that `setup` and then one batch of all vials leave, and `results.json` has the list that the batch returns. -/
theorem C157_setup_batch {h : LabHome U V P} (hp : h.parent = true) {size : Nat} (hs : vials.length ≤ size) :
    (labCmd run vials h).1.dir = (batchCmd run 0 size false (setupCmd vials h.dir)).1 ∧
    ∀ rs, (batchCmd run 0 size false (setupCmd vials h.dir)).2 = .ok rs → (labCmd run vials h).2 = .ok () ∧ (labCmd run vials h).1.backup = some rs := by
  have hb := (C96_batch (run := run) (vials := vials) h.dir.results 0 size).2.2
  rw [List.drop_zero, List.take_of_length_le hs, Nat.cast_zero] at hb
  have hb' : batchCmd run 0 size false (setupCmd vials h.dir) =
      ({ setupCmd vials h.dir with results := (runVials run vials h.dir.results).1 }, liftLab (runVials run vials h.dir.results).2) := by
    simp only [batchCmd, readExperiment, setupCmd, Bool.false_eq_true, if_false]
    rw [hb]
  rw [hb']
  cases hx : (runVials run vials h.dir.results).2 with
  | ok rs => exact ⟨by simp [labCmd, hp, setupCmd, hx, writeResults], fun rs' h' => by cases h'; simp [labCmd, hp, setupCmd, hx, writeResults]⟩
  | error e => exact ⟨by simp [labCmd, hp, setupCmd, hx], fun rs' h' => by cases h'⟩

/-- **C157.** After a run of new vials in which every file can be written, the vials without a result are those whose attempt raised and, if an attempt ended the
command, that one and all later ones. -/
theorem C157_missing {h : LabHome U V P} (hp : h.parent = true) (hd : Distinct vials) (hnew : ∀ v ∈ vials, h.dir.results v.uuid = .absent)
    (hw : ∀ v ∈ vials, ∀ r f, run v ≠ .unwritten r f) :
    ∃ m, missingVials (labCmd run vials h).1.dir.results vials = .ok m ∧ m.Sublist vials ∧
      ∀ pre v post, vials = pre ++ v :: post → (v ∈ m ↔ ¬ ((∀ w ∈ pre, (run w).survives) ∧ ∃ r, run v = .done r)) := by
  classical
  rw [labCmd_results hp]
  have key : ∀ pre v post, vials = pre ++ v :: post →
      (runVials run vials h.dir.results).1 v.uuid = .absent ∧ ¬ ((∀ w ∈ pre, (run w).survives) ∧ ∃ r, run v = .done r) ∨
      ∃ r, (runVials run vials h.dir.results).1 v.uuid = .good ⟨v.uuid, r⟩ ∧ (∀ w ∈ pre, (run w).survives) ∧ run v = .done r := by
    rintro pre v post rfl
    obtain ⟨k1, k2, -⟩ := C96_files (run := run) hd h.dir.results
    have ho := hnew v (by simp)
    by_cases hs : ∀ w ∈ pre, (run w).survives
    · rw [k1 hs, ho]
      cases hr : run v with
      | unwritten r f => exact absurd hr (hw v (by simp) r f)
      | done r => exact .inr ⟨r, rfl, hs, rfl⟩
      | abort | died | failed => exact .inl ⟨rfl, fun ⟨_, r, h⟩ => by cases h⟩
    · obtain ⟨w, hw', hn⟩ : ∃ w ∈ pre, ¬ (run w).survives := by push Not at hs; exact hs
      exact .inl ⟨(k2 ⟨w, hw', hn⟩).trans ho, fun ⟨h, _⟩ => hs h⟩
  obtain ⟨m, hm⟩ := ((C96_missing (vials := vials) (runVials run vials h.dir.results).1).2).2 fun v hv => by
    obtain ⟨pre, post, e⟩ := List.append_of_mem hv
    rcases key pre v post e with ⟨k, -⟩ | ⟨r, k, -⟩ <;> rw [k] <;> simp
  obtain ⟨h1, h2⟩ := (C96_missing (vials := vials) (runVials run vials h.dir.results).1).1 m hm
  refine ⟨m, hm, h2, fun pre v post e => ?_⟩
  rw [h1]
  rcases key pre v post e with ⟨k, k'⟩ | ⟨r, k, k1, k2⟩
  · exact ⟨fun _ => k', fun _ => ⟨by simp [e], fun ⟨r, hr⟩ => by rw [k] at hr; cases hr⟩⟩
  · exact ⟨fun ⟨_, hn⟩ => absurd ⟨_, k⟩ hn, fun hn => absurd ⟨k1, r, k2⟩ hn⟩

omit [DecidableEq U] in
theorem readResults_of {s : Store U V} (l : List (LabVial U P)) (f : LabVial U P → Option (LabResult V))
    (h : ∀ v ∈ l, (∃ r, f v = some r ∧ s v.uuid = .good ⟨v.uuid, r⟩) ∨ f v = none ∧ s v.uuid = .absent) :
    readResults s l = .ok (l.filterMap fun v => (f v).map fun r => ⟨v.uuid, r⟩) := by
  induction l with
  | nil => rfl
  | cons v vs ih =>
    have ih := ih fun w hw => h w (List.mem_cons_of_mem _ hw)
    rcases h v List.mem_cons_self with ⟨r, h1, h2⟩ | ⟨h1, h2⟩
    · simp [readResults, h1, h2, ih, Except.map]
    · simp [readResults, h1, h2, ih]

/-- **C157.** After a run of new vials that ends well and in which every file can be written, the results that are read from the files of the vials are
those in `results.json`. -/
theorem C157_backup {h : LabHome U V P} (hp : h.parent = true) (hd : Distinct vials) (hnew : ∀ v ∈ vials, h.dir.results v.uuid = .absent)
    (hw : ∀ v ∈ vials, ∀ r f, run v ≠ .unwritten r f) (hs : ∀ v ∈ vials, (run v).survives) :
    ∃ rs, (labCmd run vials h).1.backup = some rs ∧ readResults (labCmd run vials h).1.dir.results vials = .ok rs := by
  refine ⟨returned run vials, (((C157_outcome h).2 hp).2.2.2.2.1 hs).2, ?_⟩
  rw [labCmd_results hp]
  refine readResults_of vials (fun v => (run v).result?) fun v hv => ?_
  obtain ⟨pre, post, rfl⟩ := List.append_of_mem hv
  rw [(C96_files (run := run) hd h.dir.results).1 fun w hw => hs w (by simp [hw]), hnew v hv]
  cases hr : run v with
  | unwritten r f => exact absurd hr (hw v hv r f)
  | done r => exact .inl ⟨r, rfl, rfl⟩
  | abort | died | failed => exact .inr ⟨rfl, rfl⟩

/-- **C157.** A result whose file cannot be written is in `results.json` but is not read from the files; the vial counts as missing. -/
theorem C157_unwritten {h : LabHome U V P} (hp : h.parent = true) (hd : Distinct vials) (hs : ∀ v ∈ vials, (run v).survives) {v : LabVial U P} (hv : v ∈ vials)
    {r : LabResult V} {f : ResultFile U V} (hr : run v = .unwritten r f) (hf : ∀ x, f ≠ .good x) :
    (∃ rs, (labCmd run vials h).1.backup = some rs ∧ ⟨v.uuid, r⟩ ∈ rs) ∧ ¬ HasResult (labCmd run vials h).1.dir.results v := by
  refine ⟨⟨_, (((C157_outcome h).2 hp).2.2.2.2.1 hs).2, List.mem_filterMap.2 ⟨v, hv, by rw [hr]; rfl⟩⟩, ?_⟩
  rw [HasResult, labCmd_results hp]
  obtain ⟨pre, post, rfl⟩ := List.append_of_mem hv
  rw [(C96_files (run := run) hd h.dir.results).1 fun w hw => hs w (by simp [hw]), hr]
  exact fun ⟨x, hx⟩ => hf x hx

/-- **C157.** Commands one after the other on vials with different identifiers: the experiment is that of the last one, `results.json` is that of the last one
that ended well, and every vial of every command keeps the file that its own attempt left, or the old one if an earlier vial ended its command. -/
theorem C157_sequence (cs : List ((LabVial U P → Attempt U V) × List (LabVial U P))) (h : LabHome U V P) (hp : h.parent = true)
    (hd : Distinct (cs.map Prod.snd).flatten) :
    (labCmds cs h).dir.experiment = ((cs.getLast?.map Prod.snd).or h.dir.experiment) ∧
    (∀ A c B, cs = A ++ c :: B → (∀ v ∈ c.2, (c.1 v).survives) → (∀ b ∈ B, ∃ v ∈ b.2, ¬ (b.1 v).survives) →
      (labCmds cs h).backup = some (returned c.1 c.2)) ∧
    ((∀ c ∈ cs, ∃ v ∈ c.2, ¬ (c.1 v).survives) → (labCmds cs h).backup = h.backup) ∧
    (∀ c ∈ cs, ∀ pre v post, c.2 = pre ++ v :: post →
      ((∀ w ∈ pre, (c.1 w).survives) → (labCmds cs h).dir.results v.uuid = (c.1 v).fileAfter v.uuid (h.dir.results v.uuid)) ∧
      ((∃ w ∈ pre, ¬ (c.1 w).survives) → (labCmds cs h).dir.results v.uuid = h.dir.results v.uuid)) ∧
    ∀ u, u ∉ ((cs.map Prod.snd).flatten).map (·.uuid) → (labCmds cs h).dir.results u = h.dir.results u := by
  induction cs generalizing h with
  | nil => exact ⟨rfl, fun A c B e => by simp at e, fun _ => rfl, fun c hc => by simp at hc, fun _ _ => rfl⟩
  | cons c cs ih =>
    obtain ⟨hp1, he1, -, -, hok, hbad⟩ := (C157_outcome (run := c.1) (vials := c.2) h).2 hp
    have hd' : Distinct (c.2 ++ (cs.map Prod.snd).flatten) := by simpa using hd
    have hd1 : Distinct c.2 := by
      unfold Distinct at hd' ⊢; rw [List.map_append] at hd'; exact hd'.of_append_left
    have hd2 : Distinct (cs.map Prod.snd).flatten := by
      unfold Distinct at hd' ⊢; rw [List.map_append] at hd'; exact hd'.of_append_right
    have hdis : ∀ u ∈ c.2.map (·.uuid), u ∉ ((cs.map Prod.snd).flatten).map (·.uuid) := by
      unfold Distinct at hd'; rw [List.map_append] at hd'
      exact fun u h1 h2 => (List.nodup_append.1 hd').2.2 u h1 u h2 rfl
    obtain ⟨i1, i2, i3, i4, i5⟩ := ih (labCmd c.1 c.2 h).1 hp1 hd2
    have hother : ∀ u, u ∉ c.2.map (·.uuid) → (labCmd c.1 c.2 h).1.dir.results u = h.dir.results u := fun u hu => by
      rw [labCmd_results hp]; exact runVials_other _ _ _ hu
    refine ⟨?_, ?_, ?_, ?_, ?_⟩
    · rw [labCmds, i1, he1]
      cases cs with
      | nil => rfl
      | cons c' cs => rw [List.getLast?_cons_cons]; simp [List.getLast?_cons]
    · intro A a B e ha hB
      cases A with
      | nil =>
        simp only [List.nil_append, List.cons.injEq] at e
        obtain ⟨rfl, rfl⟩ := e
        rw [labCmds, i3 hB, (hok ha).2]
      | cons x A =>
        simp only [List.cons_append, List.cons.injEq] at e
        exact i2 A a B e.2 ha hB
    · intro hall
      rw [labCmds, i3 fun x hx => hall x (List.mem_cons_of_mem _ hx), (hbad (hall c List.mem_cons_self)).2]
    · intro a ha pre v post e
      rcases List.mem_cons.1 ha with rfl | ha
      · have hv : v.uuid ∈ a.2.map (·.uuid) := by rw [e]; simp
        rw [labCmds, i5 _ (hdis _ hv), labCmd_results hp]
        rw [e] at hd1 ⊢
        obtain ⟨k1, k2, -⟩ := C96_files (run := a.1) hd1 h.dir.results
        exact ⟨k1, k2⟩
      · have hv : v.uuid ∉ c.2.map (·.uuid) := fun hc => hdis _ hc (by
          refine List.mem_map.2 ⟨v, List.mem_flatten.2 ⟨a.2, List.mem_map.2 ⟨a, ha, rfl⟩, by rw [e]; simp⟩, rfl⟩)
        have := i4 a ha pre v post e
        rwa [hother _ hv] at this
    · intro u hu
      rw [List.map_cons, List.flatten_cons, List.map_append, List.mem_append, not_or] at hu
      rw [labCmds, i5 u hu.2, hother u hu.1]

/-- **C157.** If a command ends well and a later one does not, `results.json` holds results of vials none of which is in the experiment. -/
theorem C157_stale {h : LabHome U V P} (hp : h.parent = true) {run' : LabVial U P → Attempt U V} {vials' : List (LabVial U P)} (hd : Distinct (vials ++ vials'))
    (hs : ∀ v ∈ vials, (run v).survives) (hs' : ∃ v ∈ vials', ¬ (run' v).survives) :
    (labCmds [(run, vials), (run', vials')] h).dir.experiment = some vials' ∧
    ∃ rs, (labCmds [(run, vials), (run', vials')] h).backup = some rs ∧ rs = returned run vials ∧ ∀ x ∈ rs, x.uuid ∉ vials'.map (·.uuid) := by
  obtain ⟨h1, h2, -⟩ := C157_sequence [(run, vials), (run', vials')] h hp (by simpa using hd)
  refine ⟨by rw [h1]; rfl, _, h2 [] _ _ rfl hs (by simpa using hs'), rfl, fun x hx => ?_⟩
  obtain ⟨v, hv, e⟩ := List.mem_filterMap.1 hx
  obtain ⟨r, -, rfl⟩ := Option.map_eq_some_iff.1 e
  unfold Distinct at hd; rw [List.map_append] at hd
  exact fun hm => (List.nodup_append.1 hd).2.2 _ (List.mem_map.2 ⟨v, hv, rfl⟩) _ hm rfl

theorem labCmds_append (cs cs' : List ((LabVial U P → Attempt U V) × List (LabVial U P))) (h : LabHome U V P) :
    labCmds (cs ++ cs') h = labCmds cs' (labCmds cs h) := by
  induction cs generalizing h with
  | nil => rfl
  | cons c cs ih => exact ih _

/-- **C157.** `londonaq` (or `tsplib`) any number of times: the experiment holds the vial of the last call only, so `nmissing` speaks of one vial, whatever the
earlier calls did; but a result that an earlier call wrote is still in its file, and so is that of the last call. -/
theorem C157_one_run (cs : List ((LabVial U P → Attempt U V) × LabVial U P)) (run : LabVial U P → Attempt U V) (v : LabVial U P) (h : LabHome U V P)
    (hp : h.parent = true) (hd : Distinct (cs.map Prod.snd ++ [v])) :
    (oneRunCmd run v (labCmds (cs.map fun c => (c.1, [c.2])) h)).1.dir.experiment = some [v] ∧
    (∀ k n, nmissingCmd (oneRunCmd run v (labCmds (cs.map fun c => (c.1, [c.2])) h)).1.dir = .ok (k, n) → n = 1 ∧
      (k = 0 ↔ HasResult (oneRunCmd run v (labCmds (cs.map fun c => (c.1, [c.2])) h)).1.dir.results v)) ∧
    ∀ c ∈ cs ++ [(run, v)], ∀ r, c.1 c.2 = .done r →
      (oneRunCmd run v (labCmds (cs.map fun c => (c.1, [c.2])) h)).1.dir.results c.2.uuid = .good ⟨c.2.uuid, r⟩ := by
  have e : (oneRunCmd run v (labCmds (cs.map fun c => (c.1, [c.2])) h)).1 = labCmds ((cs ++ [(run, v)]).map fun c => (c.1, [c.2])) h := by
    rw [List.map_append, labCmds_append]; rfl
  rw [e]
  have hf : ∀ l : List ((LabVial U P → Attempt U V) × LabVial U P), ((l.map fun c => (c.1, [c.2])).map Prod.snd).flatten = l.map Prod.snd := fun l => by
    induction l with
    | nil => rfl
    | cons c l ih => simpa using ih
  obtain ⟨h1, -, -, h4, -⟩ := C157_sequence ((cs ++ [(run, v)]).map fun c => (c.1, [c.2])) h hp (by rw [hf]; simpa using hd)
  have hx : (labCmds ((cs ++ [(run, v)]).map fun c => (c.1, [c.2])) h).dir.experiment = some [v] := by rw [h1]; simp
  refine ⟨hx, fun k n hkn => ?_, fun c hc r hr => ?_⟩
  · simp only [nmissingCmd, readExperiment, Bool.false_eq_true, if_false, hx] at hkn
    cases hm : missingVials (labCmds ((cs ++ [(run, v)]).map fun c => (c.1, [c.2])) h).dir.results [v] with
    | error er => rw [hm] at hkn; cases hkn
    | ok m =>
      rw [hm] at hkn
      cases hkn
      obtain ⟨k1, -⟩ := (C96_missing (vials := [v]) _).1 m hm
      refine ⟨rfl, ?_⟩
      rw [List.length_eq_zero_iff]
      constructor
      · rintro rfl
        by_contra hn
        exact absurd ((k1 v).2 ⟨by simp, hn⟩) (by simp)
      · intro hr
        refine List.eq_nil_iff_forall_not_mem.2 fun w hw => ?_
        obtain ⟨hw1, hw2⟩ := (k1 w).1 hw
        obtain rfl := List.mem_singleton.1 hw1
        exact hw2 hr
  · obtain ⟨k1, -⟩ := h4 (c.1, [c.2]) (List.mem_map.2 ⟨c, hc, rfl⟩) [] c.2 [] rfl
    rw [k1 (by simp), hr]
    rfl

/-! ## Examples -/

/-- The files before the first command. -/
def exHome : LabHome Nat Nat Unit := ⟨true, ⟨none, none, exEmpty, none⟩, none⟩

/-- The attempt at the vial 3 raises, and the problem of the vial 4 cannot be loaded. -/
def exMixed : LabVial Nat Unit → Attempt Nat Nat := fun v => if v.uuid = 3 then .failed else if v.uuid = 4 then .abort else exRun v

theorem exMixed_survives : ∀ v ∈ exVials.take 4, (exMixed v).survives := by
  intro v hv
  have : v.uuid ≠ 4 := by
    have : ∀ v ∈ exVials.take 4, v.uuid ≠ 4 := by decide
    exact this v hv
  unfold exMixed
  split
  · trivial
  · trivial

/-- A run that is ended by its fifth vial: the first three have results. -/
example : exHome.parent = true ∧ Distinct exVials ∧ (∀ v ∈ exVials, exHome.dir.results v.uuid = .absent) ∧
    (missingVials (labCmd exMixed exVials exHome).1.dir.results exVials).map (·.map (·.uuid)) = .ok [3, 4] ∧
    (labCmd exMixed exVials exHome).1.backup.isNone :=
  ⟨rfl, exBatch_distinct, fun _ _ => rfl, by rfl, by rfl⟩

example : ∃ m, missingVials (labCmd exMixed exVials exHome).1.dir.results exVials = .ok m ∧ m.Sublist exVials :=
  let ⟨m, h1, h2, _⟩ := C157_missing (run := exMixed) (h := exHome) rfl exBatch_distinct (fun _ _ => rfl) (fun v _ r f => by
    unfold exMixed
    split
    · exact nofun
    · split <;> exact nofun)
  ⟨m, h1, h2⟩

/-- The four vials before it, alone: the run ends well and writes three results. -/
example : (labCmd exMixed (exVials.take 4) exHome).1.backup.map (·.map (·.uuid)) = some [0, 1, 2] ∧
    ∃ rs, (labCmd exMixed (exVials.take 4) exHome).1.backup = some rs ∧ readResults (labCmd exMixed (exVials.take 4) exHome).1.dir.results (exVials.take 4) = .ok rs :=
  ⟨by rfl, C157_backup rfl (by unfold Distinct; decide) (fun _ _ => rfl) (fun v _ r f => by
    unfold exMixed
    split
    · exact nofun
    · split <;> exact nofun) exMixed_survives⟩

/-- A run that ends well, and another one that does not: the list of results is that of the first. -/
example : (labCmds [(exMixed, exVials.take 3), (exMixed, exVials.drop 3)] exHome).backup.map (·.map (·.uuid)) = some [0, 1, 2] ∧
    (labCmds [(exMixed, exVials.take 3), (exMixed, exVials.drop 3)] exHome).dir.experiment = some (exVials.drop 3) :=
  ⟨by rfl, (C157_stale (run := exMixed) (run' := exMixed) (h := exHome) rfl (by unfold Distinct; decide) (fun v hv => exMixed_survives v (by
    have : ∀ v ∈ exVials.take 3, v ∈ exVials.take 4 := by decide
    exact this v hv)) ⟨⟨4, 10, ()⟩, by decide, fun h => h⟩).1⟩

/-- A result that cannot be written. -/
def exFull : LabVial Nat Unit → Attempt Nat Nat := fun v =>
  match exRun v with
  | .done r => .unwritten r .corrupt
  | a => a

example : ¬ HasResult (labCmd exFull exVials exHome).1.dir.results (⟨1, 10, ()⟩ : LabVial Nat Unit) :=
  (C157_unwritten (run := exFull) (h := exHome) (v := ⟨1, 10, ()⟩) rfl exBatch_distinct (fun _ _ => trivial) (by decide) rfl (fun _ => nofun)).2

/-- Three single runs: the results of all are in their files, and the experiment has the last one only. -/
example : nmissingCmd (oneRunCmd exRun ⟨7, 0, ()⟩ (labCmds ([(exRun, ⟨5, 0, ()⟩), (exRun, ⟨6, 0, ()⟩)].map fun c => (c.1, [c.2])) exHome)).1.dir = .ok (0, 1) ∧
    Distinct ([(exRun, (⟨5, 0, ()⟩ : LabVial Nat Unit)), (exRun, ⟨6, 0, ()⟩)].map Prod.snd ++ [⟨7, 0, ()⟩]) :=
  ⟨by rfl, by unfold Distinct; decide⟩

example : labCmd exRun exVials ⟨false, exHome.dir, none⟩ = (⟨false, exHome.dir, none⟩, .error .fileNotFound) := (C157_outcome _).1 rfl

end Pctsp
