import Verif.Model.Job
import Verif.Lemmas.Batch
import Mathlib.Algebra.BigOperators.Fin
import Mathlib.Algebra.Order.BigOperators.Group.Finset

/-!
# Tasks at the same time: lemmas
-/

namespace Pctsp

variable {ι U V P : Type} [DecidableEq ι] [DecidableEq U] {run : LabVial U P → Attempt U V} {kills : Bool}

/-- The batches have different vials. -/
structure Apart (batches : ι → List (LabVial U P)) : Prop where
  distinct : ∀ i, Distinct (batches i)
  apart : ∀ i j, i ≠ j → ∀ v ∈ batches i, ∀ w ∈ batches j, v.uuid ≠ w.uuid

/-- The file of a vial after its attempt. -/
def finalFile (run : LabVial U P → Attempt U V) (s : Store U V) (v : LabVial U P) : ResultFile U V := (run v).fileAfter v.uuid (s v.uuid)

/-- What is known about a task at any time: it is between two vials, it is writing, it ended itself, or it was killed between two vials or while writing. -/
def TaskInv (run : LabVial U P → Attempt U V) (kills : Bool) (s : Store U V) (B : List (LabVial U P)) (t : TaskState U V P) (res : Store U V) : Prop :=
  (∃ pre, B = pre ++ t.rest ∧ t.writing = none ∧ (∀ v ∈ pre, (run v).survives ∧ res v.uuid = finalFile run s v) ∧ ∀ v ∈ t.rest, res v.uuid = s v.uuid) ∨
  (∃ p v r, B = p ++ v :: t.rest ∧ run v = .done r ∧ t.writing = some (v.uuid, .good ⟨v.uuid, r⟩) ∧ res v.uuid = .corrupt ∧
    (∀ w ∈ p, (run w).survives ∧ res w.uuid = finalFile run s w) ∧ ∀ w ∈ t.rest, res w.uuid = s w.uuid) ∨
  (∃ p v post, B = p ++ v :: post ∧ t = ⟨[], none⟩ ∧ ¬ (run v).survives ∧ (∀ w ∈ p, (run w).survives ∧ res w.uuid = finalFile run s w) ∧
    ∀ w ∈ v :: post, res w.uuid = s w.uuid) ∨
  (kills = true ∧ t = ⟨[], none⟩ ∧ ∃ pre post, B = pre ++ post ∧ (∀ v ∈ pre, res v.uuid = finalFile run s v) ∧ ∀ w ∈ post, res w.uuid = s w.uuid) ∨
  (kills = true ∧ t = ⟨[], none⟩ ∧ ∃ p v r post, B = p ++ v :: post ∧ run v = .done r ∧ res v.uuid = .corrupt ∧
    (∀ w ∈ p, res w.uuid = finalFile run s w) ∧ ∀ w ∈ post, res w.uuid = s w.uuid)

theorem TaskInv.congr {s : Store U V} {B : List (LabVial U P)} {t : TaskState U V P} {res res' : Store U V} (h : TaskInv run kills s B t res)
    (he : ∀ v ∈ B, res' v.uuid = res v.uuid) : TaskInv run kills s B t res' := by
  rcases h with ⟨pre, hB, hw, h1, h2⟩ | ⟨p, v, r, hB, hr, hw, hc, h1, h2⟩ | ⟨p, v, post, hB, ht, hv, h1, h2⟩ | ⟨hk, ht, pre, post, hB, h1, h2⟩ |
    ⟨hk, ht, p, v, r, post, hB, hr, hc, h1, h2⟩
  · exact .inl ⟨pre, hB, hw, fun v hv => ⟨(h1 v hv).1, by rw [he v (by simp [hB, hv])]; exact (h1 v hv).2⟩,
      fun v hv => by rw [he v (by rw [hB]; simp [hv])]; exact h2 v hv⟩
  · exact .inr (.inl ⟨p, v, r, hB, hr, hw, by rw [he v (by simp [hB])]; exact hc, fun w hw => ⟨(h1 w hw).1, by rw [he w (by simp [hB, hw])]; exact (h1 w hw).2⟩,
      fun w hw => by rw [he w (by rw [hB]; simp [hw])]; exact h2 w hw⟩)
  · exact .inr (.inr (.inl ⟨p, v, post, hB, ht, hv, fun w hw => ⟨(h1 w hw).1, by rw [he w (by simp [hB, hw])]; exact (h1 w hw).2⟩,
      fun w hw => by rw [he w (by rw [hB]; exact List.mem_append_right _ hw)]; exact h2 w hw⟩))
  · exact .inr (.inr (.inr (.inl ⟨hk, ht, pre, post, hB, fun v hv => by rw [he v (by simp [hB, hv])]; exact h1 v hv,
      fun w hw => by rw [he w (by simp [hB, hw])]; exact h2 w hw⟩)))
  · exact .inr (.inr (.inr (.inr ⟨hk, ht, p, v, r, post, hB, hr, by rw [he v (by simp [hB])]; exact hc, fun w hw => by rw [he w (by simp [hB, hw])]; exact h1 w hw,
      fun w hw => by rw [he w (by simp [hB, hw])]; exact h2 w hw⟩)))

/-- What is known about the job at any time. -/
def JobInv (run : LabVial U P → Attempt U V) (kills : Bool) (s : Store U V) (batches : ι → List (LabVial U P)) (j : JobState ι U V P) : Prop :=
  (∀ i, TaskInv run kills s (batches i) (j.tasks i) j.results) ∧ ∀ u, (∀ i, ∀ v ∈ batches i, v.uuid ≠ u) → j.results u = s u

theorem jobFile_ne {s : Store U V} {u u' : U} {f : ResultFile U V} (h : u' ≠ u) : setFile s u f u' = s u' := by simp [setFile, h]
theorem jobFile_same {s : Store U V} {u : U} {f : ResultFile U V} : setFile s u f u = f := by simp [setFile]

/-- A step that changes one task and at most the file of one of its vials. -/
theorem JobInv.update {s : Store U V} {batches : ι → List (LabVial U P)} (ha : Apart batches) {j : JobState ι U V P} (h : JobInv run kills s batches j) {i : ι}
    {t : TaskState U V P} {v : LabVial U P} (hv : v ∈ batches i) {f : ResultFile U V} (ht : TaskInv run kills s (batches i) t (setFile j.results v.uuid f)) :
    JobInv run kills s batches ⟨j.setTask i t, setFile j.results v.uuid f⟩ := by
  refine ⟨fun i' => ?_, fun u hu => ?_⟩
  · by_cases hi : i' = i
    · subst hi
      simpa [JobState.setTask] using ht
    · simp only [JobState.setTask, if_neg hi]
      exact (h.1 i').congr fun w hw => jobFile_ne (ha.apart i' i hi w hw v hv)
  · dsimp only
    rw [jobFile_ne (fun e => hu i v hv e.symm)]
    exact h.2 u hu

theorem JobInv.updateTask {s : Store U V} {batches : ι → List (LabVial U P)} {j : JobState ι U V P} (h : JobInv run kills s batches j) {i : ι}
    {t : TaskState U V P} (ht : TaskInv run kills s (batches i) t j.results) : JobInv run kills s batches { j with tasks := j.setTask i t } := by
  refine ⟨fun i' => ?_, h.2⟩
  by_cases hi : i' = i
  · subst hi
    simpa [JobState.setTask] using ht
  · simp only [JobState.setTask, if_neg hi]
    exact h.1 i'

theorem JobInv.start (batches : ι → List (LabVial U P)) (s : Store U V) : JobInv run kills s batches (JobState.start batches s) :=
  ⟨fun _ => .inl ⟨[], rfl, rfl, by simp, fun _ _ => rfl⟩, fun _ _ => rfl⟩

theorem JobInv.step {s : Store U V} {batches : ι → List (LabVial U P)} (ha : Apart batches) {j k : JobState ι U V P} (h : JobInv run kills s batches j)
    (hs : JobStep run kills j k) : JobInv run kills s batches k := by
  cases hs with
  | next i v vs hw hr =>
    rcases h.1 i with ⟨pre, hB, -, h1, h2⟩ | ⟨p, v', r, hB, hr', hw', hc, h1, h2⟩ | ⟨p, v', post, hB, ht, hv, h1, h2⟩ | ⟨hk, ht, pre, post, hB, h1, h2⟩ |
      ⟨hk, ht, p, v', r, post, hB, hr', hc, h1, h2⟩
    · rw [hr] at hB h2
      have hv : v ∈ batches i := by rw [hB]; simp
      have hd := ha.distinct i
      rw [hB] at hd
      obtain ⟨d1, d2⟩ := hd.middle
      have e1 : ∀ w ∈ pre, w.uuid ≠ v.uuid := fun w hw e => d1 (e ▸ List.mem_map_of_mem hw)
      have e2 : ∀ w ∈ vs, w.uuid ≠ v.uuid := fun w hw e => d2 (e ▸ List.mem_map_of_mem hw)
      have hold : j.results v.uuid = s v.uuid := h2 v (by simp)
      have hres : ∀ {t' : TaskState U V P} {f : ResultFile U V}, t'.rest = vs → t'.writing = none → (run v).survives → f = finalFile run s v →
          TaskInv run kills s (batches i) t' (setFile j.results v.uuid f) := by
        intro t' f ht ht' hsv hf
        refine .inl ⟨pre ++ [v], by rw [hB, ht]; simp, ht', fun w hw => ?_, fun w hw => ?_⟩
        · rcases List.mem_append.1 hw with hw | hw
          · exact ⟨(h1 w hw).1, by rw [jobFile_ne (e1 w hw)]; exact (h1 w hw).2⟩
          · rw [List.mem_singleton.1 hw]; exact ⟨hsv, by rw [jobFile_same, hf]⟩
        · rw [ht] at hw
          rw [jobFile_ne (e2 w hw)]; exact h2 w (by simp [hw])
      have hid : setFile j.results v.uuid (s v.uuid) = j.results := by
        funext u
        by_cases hu : u = v.uuid
        · subst hu; rw [jobFile_same, hold]
        · rw [jobFile_ne hu]
      unfold JobState.next
      cases hrun : run v with
      | abort =>
        exact h.updateTask (.inr (.inr (.inl ⟨pre, v, vs, hB, rfl, by simp [hrun, Attempt.survives], h1, h2⟩)))
      | died =>
        exact h.updateTask (.inr (.inr (.inl ⟨pre, v, vs, hB, rfl, by simp [hrun, Attempt.survives], h1, h2⟩)))
      | failed =>
        have := hres (t' := ⟨vs, none⟩) (f := s v.uuid) rfl rfl (by simp [hrun, Attempt.survives]) (by simp [finalFile, hrun, Attempt.fileAfter])
        rw [hid] at this
        exact h.updateTask this
      | unwritten r f =>
        exact h.update ha hv (hres rfl rfl (by simp [hrun, Attempt.survives]) (by simp [finalFile, hrun, Attempt.fileAfter]))
      | done r =>
        refine h.update ha hv (.inr (.inl ⟨pre, v, r, hB, hrun, rfl, jobFile_same, fun w hw => ⟨(h1 w hw).1, ?_⟩, fun w hw => ?_⟩))
        · rw [jobFile_ne (e1 w hw)]; exact (h1 w hw).2
        · rw [jobFile_ne (e2 w hw)]; exact h2 w (by simp [hw])
    · rw [hw] at hw'; cases hw'
    · rw [ht] at hr; cases hr
    · rw [ht] at hr; cases hr
    · rw [ht] at hr; cases hr
  | close i u f hw =>
    rcases h.1 i with ⟨pre, hB, hw', h1, h2⟩ | ⟨p, v, r, hB, hr, hw', hc, h1, h2⟩ | ⟨p, v', post, hB, ht, hv, h1, h2⟩ | ⟨hk, ht, pre, post, hB, h1, h2⟩ |
      ⟨hk, ht, p, v', r, post, hB, hr', hc, h1, h2⟩
    · rw [hw] at hw'; cases hw'
    · rw [hw] at hw'
      simp only [Option.some.injEq, Prod.mk.injEq] at hw'
      obtain ⟨rfl, rfl⟩ := hw'
      have hd := ha.distinct i
      rw [hB] at hd
      obtain ⟨d1, d2⟩ := hd.middle
      have e1 : ∀ w ∈ p, w.uuid ≠ v.uuid := fun w hw e => d1 (e ▸ List.mem_map_of_mem hw)
      have e2 : ∀ w ∈ (j.tasks i).rest, w.uuid ≠ v.uuid := fun w hw e => d2 (e ▸ List.mem_map_of_mem hw)
      refine h.update ha (v := v) (by rw [hB]; simp) (.inl ⟨p ++ [v], by rw [hB]; simp, rfl, fun w hw => ?_, fun w hw => ?_⟩)
      · rcases List.mem_append.1 hw with hw | hw
        · exact ⟨(h1 w hw).1, by rw [jobFile_ne (e1 w hw)]; exact (h1 w hw).2⟩
        · rw [List.mem_singleton.1 hw]; exact ⟨by simp [hr, Attempt.survives], by rw [jobFile_same]; simp [finalFile, hr, Attempt.fileAfter]⟩
      · rw [jobFile_ne (e2 w hw)]; exact h2 w hw
    · rw [ht] at hw; cases hw
    · rw [ht] at hw; cases hw
    · rw [ht] at hw; cases hw
  | kill i hk hn =>
    refine h.updateTask ?_
    rcases h.1 i with ⟨pre, hB, hw', h1, h2⟩ | ⟨p, v, r, hB, hr, hw', hc, h1, h2⟩ | ⟨p, v', post, hB, ht, hv, h1, h2⟩ | ⟨hk, ht, pre, post, hB, h1, h2⟩ |
      ⟨hk, ht, p, v', r, post, hB, hr', hc, h1, h2⟩
    · exact .inr (.inr (.inr (.inl ⟨hk, rfl, pre, _, hB, fun v hv => (h1 v hv).2, h2⟩)))
    · exact .inr (.inr (.inr (.inr ⟨hk, rfl, p, v, r, _, hB, hr, hc, fun v hv => (h1 v hv).2, h2⟩)))
    · exact .inr (.inr (.inl ⟨p, v', post, hB, rfl, hv, h1, h2⟩))
    · exact .inr (.inr (.inr (.inl ⟨hk, rfl, pre, post, hB, h1, h2⟩)))
    · exact .inr (.inr (.inr (.inr ⟨hk, rfl, p, v', r, post, hB, hr', hc, h1, h2⟩)))

theorem JobInv.reach {s : Store U V} {batches : ι → List (LabVial U P)} (ha : Apart batches) {n : Nat} {j : JobState ι U V P}
    (h : JobReach run kills (JobState.start batches s) n j) : JobInv run kills s batches j := by
  induction h with
  | refl => exact .start batches s
  | step _ hs ih => exact ih.step ha hs

/-- The work that a task has left. -/
def TaskState.left (t : TaskState U V P) : Nat := 2 * t.rest.length + (if t.writing.isSome then 1 else 0)

theorem JobStep.left [Fintype ι] {j k : JobState ι U V P} (h : JobStep run kills j k) : ∑ i, (k.tasks i).left < ∑ i, (j.tasks i).left := by
  have key : ∀ (i : ι) (t : TaskState U V P), t.left < (j.tasks i).left → ∑ i', (j.setTask i t i').left < ∑ i', (j.tasks i').left := by
    intro i t ht
    refine Finset.sum_lt_sum (fun i' _ => ?_) ⟨i, Finset.mem_univ _, by simpa [JobState.setTask] using ht⟩
    by_cases hi : i' = i
    · subst hi; simpa [JobState.setTask] using ht.le
    · simp [JobState.setTask, hi]
  cases h with
  | next i v vs hw hr =>
    have : (j.tasks i).left = 2 * (vs.length + 1) := by simp [TaskState.left, hw, hr]
    unfold JobState.next
    cases run v <;> exact key i _ (by rw [this]; simp [TaskState.left] <;> omega)
  | close i u f hw => exact key i _ (by simp [TaskState.left, hw])
  | kill i hk hn =>
    refine key i _ ?_
    rcases hn with hn | hn
    · have := List.length_pos_iff.2 hn
      simp only [TaskState.left, List.length_nil]
      simp; omega
    · have := Option.isSome_iff_ne_none.2 hn
      simp [TaskState.left, this]

end Pctsp
