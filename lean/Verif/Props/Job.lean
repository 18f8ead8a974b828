import Verif.Lemmas.Job
import Verif.Props.Commands

/-!
# C131: array jobs whose tasks run at the same time and can be killed
-/

namespace Pctsp

variable {ι U V P : Type} [DecidableEq ι] [DecidableEq U] {run : LabVial U P → Attempt U V}

/-- **C131.** At any time of a job, whatever the order in which its tasks make their steps and whichever of them have been killed: the vials of a task come in three
parts, in their order; the files of the first part are final, those of the last part are as they were before the job, and in between there is at most one vial, whose
attempt succeeded and whose file cannot be parsed.  No other file has changed. -/
theorem C131_anytime {kills : Bool} {s : Store U V} {batches : ι → List (LabVial U P)} (ha : Apart batches) {n : Nat} {j : JobState ι U V P}
    (h : JobReach run kills (JobState.start batches s) n j) :
    (∀ i, ∃ pre mid post, batches i = pre ++ mid ++ post ∧ mid.length ≤ 1 ∧
      (∀ v ∈ pre, j.results v.uuid = (run v).fileAfter v.uuid (s v.uuid)) ∧ (∀ v ∈ mid, (∃ r, run v = .done r) ∧ j.results v.uuid = .corrupt) ∧
      ∀ v ∈ post, j.results v.uuid = s v.uuid) ∧
    ∀ u, (∀ i, ∀ v ∈ batches i, v.uuid ≠ u) → j.results u = s u := by
  have hinv := JobInv.reach ha h
  refine ⟨fun i => ?_, hinv.2⟩
  rcases hinv.1 i with ⟨pre, hB, hw, h1, h2⟩ | ⟨p, v, r, hB, hr, hw, hc, h1, h2⟩ | ⟨p, v, post, hB, ht, hv, h1, h2⟩ | ⟨hk, ht, pre, post, hB, h1, h2⟩ |
    ⟨hk, ht, p, v, r, post, hB, hr, hc, h1, h2⟩
  · exact ⟨pre, [], _, by rw [hB]; simp, by simp, fun v hv => (h1 v hv).2, by simp, h2⟩
  · exact ⟨p, [v], _, by rw [hB]; simp, by simp, fun v hv => (h1 v hv).2, by simp [hr, hc], h2⟩
  · exact ⟨p, [], v :: post, by rw [hB]; simp, by simp, fun v hv => (h1 v hv).2, by simp, h2⟩
  · exact ⟨pre, [], post, by rw [hB]; simp, by simp, h1, by simp, h2⟩
  · exact ⟨p, [v], post, by rw [hB]; simp, by simp, h1, by simp [hr, hc], h2⟩

/-- **C131.** If no task is killed, then the files that a job leaves do not depend on the order of the steps: each batch leaves what it would leave alone. -/
theorem C131_ended {s : Store U V} {batches : ι → List (LabVial U P)} (ha : Apart batches) {n : Nat} {j : JobState ι U V P}
    (h : JobReach run false (JobState.start batches s) n j) (he : j.Ended) (i : ι) (v : LabVial U P) (hv : v ∈ batches i) :
    j.results v.uuid = (runVials run (batches i) s).1 v.uuid := by
  have hd := ha.distinct i
  rcases (JobInv.reach ha h).1 i with ⟨pre, hB, hw, h1, h2⟩ | ⟨p, v', r, hB, hr, hw, hc, h1, h2⟩ | ⟨p, v', post, hB, ht, hv', h1, h2⟩ | ⟨hk, -⟩ | ⟨hk, -⟩
  · rw [(he i).1, List.append_nil] at hB
    rw [hB] at hv hd ⊢
    obtain ⟨A, C, rfl⟩ := List.append_of_mem hv
    rw [runVials_file run (fun w hw => (h1 w (by simp [hw])).1) hd, (h1 v hv).2, finalFile]
  · rw [(he i).2] at hw; cases hw
  · rw [hB] at hv hd ⊢
    rcases List.mem_append.1 hv with hvp | hvp
    · obtain ⟨A, C, rfl⟩ := List.append_of_mem hvp
      rw [(h1 v hvp).2, finalFile, List.append_assoc, List.cons_append]
      rw [List.append_assoc, List.cons_append] at hd
      rw [runVials_file run (fun w hw => (h1 w (by simp [hw])).1) hd]
    · rw [(runVials_stop run (fun w hw => (h1 w hw).1) hv' post s).1, h2 v hvp, runVials_other]
      intro hm
      obtain ⟨w, hw, e⟩ := List.mem_map.1 hm
      unfold Distinct at hd
      rw [List.map_append] at hd
      exact (List.nodup_append.1 hd).2.2 _ (List.mem_map_of_mem hw) _ (List.mem_map_of_mem hvp) e
  · cases hk
  · cases hk

/-- **C131.** A job comes to an end: the number of steps is at most twice the number of its vials; and as long as a task has not ended, it can make a step. -/
theorem C131_terminates [Fintype ι] {kills : Bool} {s : Store U V} {batches : ι → List (LabVial U P)} {n : Nat} {j : JobState ι U V P}
    (h : JobReach run kills (JobState.start batches s) n j) :
    n ≤ 2 * ∑ i, (batches i).length ∧ (¬ j.Ended → ∃ k, JobStep run false j k) := by
  constructor
  · have : n + ∑ i, (j.tasks i).left ≤ ∑ i, ((JobState.start batches s).tasks i).left := by
      induction h with
      | refl => simp
      | step _ hs ih => have := hs.left; omega
    have e : ∑ i, ((JobState.start batches s).tasks i).left = 2 * ∑ i, (batches i).length := by
      rw [Finset.mul_sum]
      exact Finset.sum_congr rfl fun i _ => by simp [JobState.start, TaskState.left]
    omega
  · intro hn
    simp only [JobState.Ended, not_forall] at hn
    obtain ⟨i, hi⟩ := hn
    cases hw : (j.tasks i).writing with
    | some x => exact ⟨_, .close i x.1 x.2 hw⟩
    | none =>
      cases hr : (j.tasks i).rest with
      | nil => exact absurd ⟨hr, hw⟩ hi
      | cons v vs => exact ⟨_, .next i v vs hw hr⟩

/-- **C131.** Killed tasks do no lasting harm: if all attempts succeed, then running the vials that `missing` finds after the job has been killed gives every vial a
result.  A vial without a result before the job has the file that an undisturbed job would have left; a vial that had a result before has that one or the new one. -/
theorem C131_resume {s : Store U V} {batches : ι → List (LabVial U P)} (ha : Apart batches) {vials : List (LabVial U P)} (hd : Distinct vials)
    (hb : ∀ v, v ∈ vials ↔ ∃ i, v ∈ batches i) (hrun : ∀ v ∈ vials, ∃ r, run v = .done r) (hinv : ∀ v ∈ vials, s v.uuid ≠ .invalid) {n : Nat}
    {j : JobState ι U V P} (h : JobReach run true (JobState.start batches s) n j) :
    ∃ m, missingVials j.results vials = .ok m ∧ ∀ v ∈ vials, HasResult (runVials run m j.results).1 v ∧
      (¬ HasResult s v → (runVials run m j.results).1 v.uuid = (runVials run vials s).1 v.uuid) ∧
      ((runVials run m j.results).1 v.uuid = s v.uuid ∨ (runVials run m j.results).1 v.uuid = (runVials run vials s).1 v.uuid) := by
  classical
  have hsurv : ∀ v ∈ vials, (run v).survives := fun v hv => by obtain ⟨r, hr⟩ := hrun v hv; simp [hr, Attempt.survives]
  have hany := (C131_anytime ha h).1
  have hcase : ∀ v ∈ vials, j.results v.uuid = (run v).fileAfter v.uuid (s v.uuid) ∨ j.results v.uuid = .corrupt ∨ j.results v.uuid = s v.uuid := by
    intro v hv
    obtain ⟨i, hi⟩ := (hb v).1 hv
    obtain ⟨pre, mid, post, hB, -, h1, h2, h3⟩ := hany i
    rw [hB, List.mem_append, List.mem_append] at hi
    rcases hi with (hi | hi) | hi
    · exact .inl (h1 v hi)
    · exact .inr (.inl (h2 v hi).2)
    · exact .inr (.inr (h3 v hi))
  have hni : ∀ v ∈ vials, j.results v.uuid ≠ .invalid := by
    intro v hv e
    obtain ⟨r, hr⟩ := hrun v hv
    rcases hcase v hv with h1 | h1 | h1
    · rw [h1, hr] at e; cases e
    · rw [h1] at e; cases e
    · rw [h1] at e; exact hinv v hv e
  obtain ⟨m, hm⟩ := (C96_missing (vials := vials) j.results).2.2 hni
  obtain ⟨hmem, hsub⟩ := (C96_missing (vials := vials) j.results).1 m hm
  refine ⟨m, hm, fun v hv => ?_⟩
  have hfull : (runVials run vials s).1 v.uuid = (run v).fileAfter v.uuid (s v.uuid) := by
    obtain ⟨A, C, rfl⟩ := List.append_of_mem hv
    exact runVials_file run (fun w hw => hsurv w (by simp [hw])) hd s
  have hdm : Distinct m := List.Nodup.sublist (hsub.map _) hd
  obtain ⟨r, hr⟩ := hrun v hv
  by_cases hres : HasResult j.results v
  · have hvm : v ∉ m := fun hx => ((hmem v).1 hx).2 hres
    have hum : v.uuid ∉ m.map (·.uuid) := by
      intro hx
      obtain ⟨w, hw, e⟩ := List.mem_map.1 hx
      have hwv := ((hmem w).1 hw).1
      have : w = v := List.inj_on_of_nodup_map hd hwv hv e
      exact hvm (this ▸ hw)
    have hkeep : (runVials run m j.results).1 v.uuid = j.results v.uuid := runVials_other run m j.results hum
    rw [hfull]
    unfold HasResult
    rw [hkeep]
    refine ⟨hres, fun hn => ?_, ?_⟩
    · rcases hcase v hv with h1 | h1 | h1
      · exact h1
      · obtain ⟨r', hr'⟩ := hres; rw [h1] at hr'; cases hr'
      · obtain ⟨r', hr'⟩ := hres; rw [h1] at hr'; exact absurd ⟨r', hr'⟩ hn
    · rcases hcase v hv with h1 | h1 | h1
      · exact .inr h1
      · obtain ⟨r', hr'⟩ := hres; rw [h1] at hr'; cases hr'
      · exact .inl h1
  · have hvm : v ∈ m := (hmem v).2 ⟨hv, hres⟩
    have hnew : (runVials run m j.results).1 v.uuid = (run v).fileAfter v.uuid (j.results v.uuid) := by
      obtain ⟨A, C, rfl⟩ := List.append_of_mem hvm
      exact runVials_file run (fun w hw => hsurv w (hsub.subset (by simp [hw]))) hdm j.results
    rw [hfull]
    unfold HasResult
    rw [hnew, hr]
    exact ⟨⟨_, rfl⟩, fun _ => rfl, .inr rfl⟩

/-- The batches of an experiment without repeated identifiers are apart. -/
theorem blocks_apart {l : List (LabVial U P)} (hd : Distinct l) (b c : Nat) :
    Apart (fun k : Fin c => (l.drop (k * b)).take b) := by
  have hidx : ∀ (k : Fin c) (v : LabVial U P), v ∈ (l.drop (k * b)).take b → ∃ p, l[p]? = some v ∧ p / b = k ∧ 0 < b := by
    intro k v hv
    obtain ⟨q, hq⟩ := List.mem_iff_getElem?.1 hv
    rw [List.getElem?_take] at hq
    split at hq
    · rename_i hlt
      rw [List.getElem?_drop] at hq
      refine ⟨k * b + q, hq, ?_, by omega⟩
      rw [Nat.mul_comm, Nat.mul_add_div (by omega), Nat.div_eq_of_lt hlt, Nat.add_zero]
    · cases hq
  refine ⟨fun k => List.Nodup.sublist (((List.take_sublist _ _).trans (List.drop_sublist _ _)).map _) hd, fun i k hik v hv w hw e => hik ?_⟩
  obtain ⟨p, hp, hpk, -⟩ := hidx i v hv
  obtain ⟨q, hq, hqk, -⟩ := hidx k w hw
  have hpq : (l.map (·.uuid))[p]? = (l.map (·.uuid))[q]? := by simp [hp, hq, e]
  have hpl : p < (l.map (·.uuid)).length := by
    rw [List.length_map]; exact (List.getElem?_eq_some_iff.1 hp).1
  have : p = q := (List.getElem?_inj hpl hd).1 hpq
  exact Fin.ext (by rw [← hpk, ← hqk, this])

/-- **C131.** The job of the script that `slurm` writes, with all its tasks at the same time: if none is killed it leaves the files that the tasks leave one after the
other in any order; and if some are killed, repeating what `missing` finds completes it. -/
theorem C131_slurm {rnd : Rat → Rat} (hr : Rounds53 rnd) {d d' : LabDir U V P} {overwrite : Bool} {limit : Rat} {l : List (LabVial U P)}
    (hl : d.experiment = some l) (hd : Distinct l) {b : Nat} (hb : 0 < b) (hb' : b ≤ 2 ^ 53) (hn : l.length < 2 ^ 52)
    (hs : slurmCmd rnd b false overwrite limit d = (d', .ok ())) :
    ∃ sc, d'.script = some sc ∧
      Apart (fun k : Fin (sc.lastTask + 1).toNat => (l.drop (k * b)).take b) ∧
      (∀ v, v ∈ l ↔ ∃ k : Fin (sc.lastTask + 1).toNat, v ∈ (l.drop (k * b)).take b) ∧
      ∀ (n : Nat) (j : JobState (Fin (sc.lastTask + 1).toNat) U V P),
        JobReach run false (JobState.start (fun k : Fin (sc.lastTask + 1).toNat => (l.drop (k * b)).take b) d.results) n j → j.Ended →
        j.results = (runTasks run sc (List.range (sc.lastTask + 1).toNat) d').results := by
  obtain ⟨sc, h1, h2⟩ := C110_job (run := run) (only := false) hr hl hd hb hb' hn hs
  obtain ⟨-, -, -, h3, h4⟩ := h2 _ (List.Perm.refl _)
  have hlast : ∀ k : Nat, (sc.lastTask + 1).toNat ≤ k ↔ l.length ≤ k * b := by
    obtain ⟨e1, e2⟩ := ((C110_script hr d false overwrite limit).2 l hl).2 b hb hb' hn
    have hcase : d.script = none ∨ overwrite = true := by
      by_contra hc
      rw [not_or] at hc
      rw [e1 hc.1 (by simpa using hc.2)] at hs
      injection hs with _ hs; cases hs
    obtain ⟨c, e3, e4⟩ := e2 hcase
    rw [e3] at hs
    injection hs with hs _
    subst hs
    simp only [Option.some.injEq] at h1
    subst h1
    intro k
    rw [← e4 k]
    dsimp only
    rw [show ((c : Int) - 1 + 1).toNat = c by omega]
  have hmem : ∀ v, v ∈ l ↔ ∃ k : Fin (sc.lastTask + 1).toNat, v ∈ (l.drop (k * b)).take b := by
    refine fun v => ⟨fun hv => ?_, fun ⟨k, hk⟩ => List.mem_of_mem_drop (List.mem_of_mem_take hk)⟩
    obtain ⟨p, hp⟩ := List.mem_iff_getElem?.1 hv
    have hpl := (List.getElem?_eq_some_iff.1 hp).1
    have hdm := Nat.div_add_mod p b
    have hml := Nat.mod_lt p hb
    have hlt : p / b < (sc.lastTask + 1).toNat := by
      by_contra hc
      have h5 := (hlast (p / b)).1 (by omega)
      rw [Nat.mul_comm] at h5
      omega
    refine ⟨⟨p / b, hlt⟩, List.mem_iff_getElem?.2 ⟨p % b, ?_⟩⟩
    rw [List.getElem?_take, if_pos hml, List.getElem?_drop]
    dsimp only
    rw [Nat.mul_comm, hdm, hp]
  refine ⟨sc, h1, blocks_apart hd b _, hmem, fun n j hj he => ?_⟩
  have ha := blocks_apart hd b (sc.lastTask + 1).toNat
  funext u
  by_cases hu : u ∈ l.map (·.uuid)
  · obtain ⟨v, hv, rfl⟩ := List.mem_map.1 hu
    obtain ⟨p, hp⟩ := List.mem_iff_getElem?.1 hv
    have hpl := (List.getElem?_eq_some_iff.1 hp).1
    have hdm := Nat.div_add_mod p b
    have hml := Nat.mod_lt p hb
    have hmul : p / b * b = b * (p / b) := Nat.mul_comm _ _
    have hlt : p / b < (sc.lastTask + 1).toNat := by
      by_contra hc
      have h5 := (hlast (p / b)).1 (by omega)
      omega
    -- the block of position `p`, split at `p`
    have hsplit : (l.drop (p / b * b)).take b = (l.take p).drop (p - p % b) ++ v :: (l.drop (p + 1)).take (b - p % b - 1) := by
      have e0 : p / b * b = p - p % b := by omega
      have e1 : l = l.take p ++ v :: l.drop (p + 1) := by
        obtain ⟨hlt', hv'⟩ := List.getElem?_eq_some_iff.1 hp
        conv_lhs => rw [← List.take_append_drop p l, List.drop_eq_getElem_cons hlt', hv']
      rw [e0]
      conv_lhs => rw [e1]
      have e2 : (l.take p).length = p := by rw [List.length_take]; omega
      rw [List.drop_append_of_le_length (by rw [e2]; omega), List.take_append]
      have e3 : ((l.take p).drop (p - p % b)).length = p % b := by rw [List.length_drop, e2]; omega
      rw [e3, List.take_of_length_le (by rw [e3]; omega)]
      obtain ⟨q, hq⟩ : ∃ q, b - p % b = q + 1 := ⟨b - p % b - 1, by omega⟩
      rw [hq, List.take_succ_cons, Nat.add_sub_cancel]
    have hvB : v ∈ (l.drop (((⟨p / b, hlt⟩ : Fin _) : Nat) * b)).take b := by
      dsimp only; rw [hsplit]; simp
    rw [C131_ended ha hj he ⟨p / b, hlt⟩ v hvB]
    dsimp only
    have hdB := ha.distinct ⟨p / b, hlt⟩
    dsimp only at hdB
    rw [hsplit] at hdB ⊢
    obtain ⟨h5, h6⟩ := h4 p v hp
    by_cases hsv : ∀ w ∈ (l.take p).drop (p - p % b), (run w).survives
    · rw [runVials_file run hsv hdB, h5 hsv]
    · simp only [not_forall] at hsv
      obtain ⟨w, hw, hws⟩ := hsv
      rw [runVials_file_stopped run hw hws hdB, h6 ⟨w, hw, hws⟩]
  · rw [h3 u hu]
    refine (C131_anytime ha hj).2 u fun i v hv e => hu ?_
    exact e ▸ List.mem_map_of_mem ((hmem v).2 ⟨i, hv⟩)

/-! Examples: the five vials of `exDir` in three tasks of at most two vials. -/

/-- The tasks of the examples. -/
def exBatches (k : Fin 3) : List (LabVial Nat Unit) := (exVials.drop (k * 2)).take 2
theorem exBatches_apart : Apart exBatches := blocks_apart exVials_distinct 2 3
theorem exBatches_all (v : LabVial Nat Unit) : v ∈ exVials ↔ ∃ k, v ∈ exBatches k := by
  have hv : exVials = [⟨0, 10, ()⟩, ⟨1, 10, ()⟩, ⟨2, 10, ()⟩, ⟨3, 10, ()⟩, ⟨4, 10, ()⟩] := rfl
  have h0 : exBatches 0 = [⟨0, 10, ()⟩, ⟨1, 10, ()⟩] := rfl
  have h1 : exBatches 1 = [⟨2, 10, ()⟩, ⟨3, 10, ()⟩] := rfl
  have h2 : exBatches 2 = [⟨4, 10, ()⟩] := rfl
  rw [hv]
  simp only [Fin.exists_fin_succ, Fin.isValue, h0, Fin.succ_zero_eq_one, h1, IsEmpty.exists_iff, or_false]
  rw [show (Fin.succ 1 : Fin 3) = 2 from rfl, h2]
  simp [or_assoc]

/-- Task 1 starts, task 0 starts, task 1 closes its file, task 0 is killed while it writes. -/
theorem exKilled : ∃ j : JobState (Fin 3) Nat Nat Unit, JobReach exRun true (JobState.start exBatches exDir.results) 4 j ∧
    j.results 0 = .corrupt ∧ j.results 2 = (exRun ⟨2, 10, ()⟩).fileAfter 2 .absent ∧ j.results 3 = exDir.results 3 := by
  refine ⟨_, .step (.step (.step (.step .refl (.next 1 ⟨2, 10, ()⟩ [⟨3, 10, ()⟩] rfl rfl)) (.next 0 ⟨0, 10, ()⟩ [⟨1, 10, ()⟩] rfl rfl))
    (.close 1 _ _ rfl)) (.kill 0 rfl (.inr (by simp [JobState.close, JobState.next, JobState.setTask, exRun]))), rfl, rfl, rfl⟩

-- running what is missing completes it
example : ∃ (j : JobState (Fin 3) Nat Nat Unit) (m : List (LabVial Nat Unit)), JobReach exRun true (JobState.start exBatches exDir.results) 4 j ∧
    missingVials j.results exVials = .ok m ∧ ⟨0, 10, ()⟩ ∈ m ∧ ∀ v ∈ exVials, HasResult (runVials exRun m j.results).1 v := by
  obtain ⟨j, hj, h0, -⟩ := exKilled
  obtain ⟨m, hm, h⟩ := C131_resume exBatches_apart exVials_distinct exBatches_all (fun _ _ => ⟨_, rfl⟩)
    (by intro v _; unfold exDir; simp only; split <;> simp) hj
  refine ⟨j, m, hj, hm, (((C96_missing j.results).1 m hm).1 _).2 ⟨by decide, ?_⟩, fun v hv => (h v hv).1⟩
  rintro ⟨r, hr⟩
  rw [h0] at hr; cases hr

-- no job of these tasks makes more than ten steps
example {kills : Bool} {n : Nat} {j : JobState (Fin 3) Nat Nat Unit} (h : JobReach exRun kills (JobState.start exBatches exDir.results) n j) : n ≤ 10 :=
  (C131_terminates h).1

-- a job that ends: one task with one vial
example : ∃ j : JobState Unit Nat Nat Unit, JobReach exRun false (JobState.start (fun _ => [⟨1, 10, ()⟩]) exDir.results) 2 j ∧ j.Ended ∧
    j.results 1 = (runVials exRun [⟨1, 10, ()⟩] exDir.results).1 1 := by
  have h : JobReach exRun false (JobState.start (fun _ : Unit => [⟨1, 10, ()⟩]) exDir.results) 2 _ :=
    .step (.step .refl (.next () ⟨1, 10, ()⟩ [] rfl rfl)) (.close () _ _ rfl)
  have he : JobState.Ended (JobState.close (JobState.next exRun (JobState.start (fun _ : Unit => [⟨1, 10, ()⟩]) exDir.results) () ⟨1, 10, ()⟩ []) ()
      1 (.good ⟨1, ⟨3, 12, []⟩⟩)) := fun _ => ⟨rfl, rfl⟩
  refine ⟨_, h, he, C131_ended (batches := fun _ : Unit => [⟨1, 10, ()⟩]) ⟨fun _ => by unfold Distinct; simp, fun i k hik => absurd rfl hik⟩ h he () ⟨1, 10, ()⟩ (by simp)⟩

-- the script of `exDir` in batches of two
example : ∃ d sc, slurmCmd id 2 false false (3600 * 4) exDir = (d, .ok ()) ∧ d.script = some sc ∧
    Apart (fun k : Fin (sc.lastTask + 1).toNat => (exVials.drop (k * 2)).take 2) := by
  obtain ⟨c, hc, _⟩ := (((C110_script rounds53_id exDir false false (3600 * 4)).2 exVials rfl).2 2 (by omega) (by omega) (by decide)).2 (.inl rfl)
  obtain ⟨sc, h1, h2, -⟩ := C131_slurm (run := exRun) rounds53_id (l := exVials) rfl exVials_distinct (by omega) (by omega) (by decide) hc
  exact ⟨_, sc, hc, h1, h2⟩

end Pctsp
