import Verif.Lemmas.BatchMissing
import Verif.Model.Commands

/-!
# Lemmas about the commands of the main app
-/

namespace Pctsp

variable {U V P : Type} [DecidableEq U] {run : LabVial U P → Attempt U V}

/-- The vials that a script runs. -/
def scriptVials (sc : Script) (d : LabDir U V P) : Option (List (LabVial U P)) := if sc.onlyMissing then d.missing else d.experiment

theorem runTasks_eq (sc : Script) {b : Nat} (hb : sc.size = b) {l : List (LabVial U P)} (ks : List Nat) (d : LabDir U V P)
    (hl : scriptVials sc d = some l) :
    runTasks run sc ks d = { d with results := runLists run (ks.map fun k => (l.drop (k * b)).take b) d.results } := by
  induction ks generalizing d with
  | nil => rfl
  | cons k ks ih =>
    have h1 : readExperiment d sc.onlyMissing = .ok l := by unfold readExperiment; unfold scriptVials at hl; rw [hl]
    have h2 : ((k : Int) * (b : Int)) = ((k * b : Nat) : Int) := by push_cast; rfl
    have h3 : (batchCmd run (k * sc.size) sc.size sc.onlyMissing d).1 =
        { d with results := (runVials run ((l.drop (k * b)).take b) d.results).1 } := by
      unfold batchCmd
      rw [h1, hb, h2]
      simp only
      rw [runBatch_ok run (batchVials_nat d.results l (k * b) b)]
    simp only [runTasks, List.map_cons, runLists]
    rw [h3, ih]
    exact hl

/-- The block of a position. -/
theorem block_split {α : Type} (l : List α) {b p : Nat} (hb : 0 < b) {v : α} (hp : l[p]? = some v) :
    ∃ post, (l.drop (p / b * b)).take b = (l.take p).drop (p - p % b) ++ v :: post := by
  obtain ⟨hpl, hpv⟩ := List.getElem?_eq_some_iff.1 hp
  have hdm := Nat.div_add_mod p b
  have hml := Nat.mod_lt p hb
  have hmul : p / b * b = b * (p / b) := Nat.mul_comm _ _
  have hpre : (l.take p).drop (p - p % b) = (l.drop (p / b * b)).take (p % b) := by
    rw [List.drop_take]
    congr 1
    · omega
    · congr 1; omega
  obtain ⟨k, hk⟩ : ∃ k, b = p % b + (k + 1) := ⟨b - p % b - 1, by omega⟩
  have e : (l.drop (p / b * b)).take b = (l.drop (p / b * b)).take (p % b + (k + 1)) := by rw [← hk]
  refine ⟨(l.drop (p + 1)).take k, ?_⟩
  rw [e, List.take_add, hpre]
  congr 1
  rw [List.drop_drop, show p / b * b + p % b = p by omega, List.drop_eq_getElem_cons hpl, List.take_succ_cons, hpv]

theorem blocks_perm {α : Type} (l : List α) {b c : Nat} (hc : l.length ≤ c * b) {ks : List Nat} (hks : ks.Perm (List.range c)) :
    ((ks.map fun k => (l.drop (k * b)).take b).flatten).Perm l := by
  have h := (hks.map fun k => (l.drop (k * b)).take b).flatten
  rwa [flatten_blocks, List.take_of_length_le hc] at h

/-- Tasks in any order: the file of a vial depends on the vials before it in its own block only. -/
theorem runBlocks_file {l : List (LabVial U P)} (hd : Distinct l) (s : Store U V) {b c : Nat} (hb : 0 < b) (hc : l.length ≤ c * b)
    {ks : List Nat} (hks : ks.Perm (List.range c)) {p : Nat} {v : LabVial U P} (hp : l[p]? = some v) :
    ((∀ w ∈ (l.take p).drop (p - p % b), (run w).survives) →
      runLists run (ks.map fun k => (l.drop (k * b)).take b) s v.uuid = (run v).fileAfter v.uuid (s v.uuid)) ∧
    ((∃ w ∈ (l.take p).drop (p - p % b), ¬ (run w).survives) →
      runLists run (ks.map fun k => (l.drop (k * b)).take b) s v.uuid = s v.uuid) := by
  obtain ⟨hpl, _⟩ := List.getElem?_eq_some_iff.1 hp
  have hic : p / b < c := (Nat.div_lt_iff_lt_mul hb).2 (by omega)
  obtain ⟨A, B, hAB⟩ := List.append_of_mem (hks.mem_iff.2 (List.mem_range.2 hic))
  obtain ⟨post, hpost⟩ := block_split l hb hp
  have hfl := blocks_perm l hc hks
  rw [hAB, List.map_append, List.map_cons, hpost] at hfl
  rw [hAB, List.map_append, List.map_cons, hpost]
  refine runLists_file run ?_ s
  unfold Distinct
  exact (hfl.map _).nodup_iff.2 hd

theorem runBlocks_other {l : List (LabVial U P)} (s : Store U V) {b c : Nat} (hc : l.length ≤ c * b)
    {ks : List Nat} (hks : ks.Perm (List.range c)) {u : U} (hu : u ∉ l.map (·.uuid)) :
    runLists run (ks.map fun k => (l.drop (k * b)).take b) s u = s u :=
  runLists_other run _ s fun h => hu (((blocks_perm l hc hks).map _).mem_iff.1 h)

omit [DecidableEq U] in
theorem missingVials_mono {s : Store U V} {vials : List (LabVial U P)} (h : ∀ v ∈ vials, ∃ r, s v.uuid = .good r) :
    missingVials s vials = .ok [] := by
  induction vials with
  | nil => rfl
  | cons v vs ih =>
    obtain ⟨r, hr⟩ := h v List.mem_cons_self
    simp only [missingVials, hr]
    exact ih fun w hw => h w (List.mem_cons_of_mem _ hw)

omit [DecidableEq U] in
theorem missingVials_error {s : Store U V} {vials : List (LabVial U P)} {e : LabError} (h : missingVials s vials = .error e) : e = .validation := by
  induction vials with
  | nil => cases h
  | cons v vs ih =>
    simp only [missingVials] at h
    split at h
    all_goals first
      | (cases h; rfl)
      | exact ih h
      | (cases hm : missingVials s vs with
        | ok m => rw [hm] at h; cases h
        | error e' => rw [hm] at h; injection h with h; subst h; exact ih hm)

theorem findVial_foldl (uuid : U) (vials : List (LabVial U P)) (acc : Option (LabVial U P)) :
    vials.foldl (fun found v => if v.uuid = uuid then some v else found) acc =
      ((vials.filter fun v => decide (v.uuid = uuid)).getLast?).or acc := by
  induction vials generalizing acc with
  | nil => rfl
  | cons v vs ih =>
    simp only [List.foldl_cons, List.filter_cons]
    rw [ih]
    by_cases h : v.uuid = uuid
    · simp only [h, if_true, decide_true, List.getLast?_cons]
      cases (vs.filter fun v => decide (v.uuid = uuid)).getLast? <;> rfl
    · simp only [h, if_false, decide_false, Bool.false_eq_true]

end Pctsp
