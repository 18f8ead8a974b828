import Verif.Spec.Batch
import Mathlib.Data.Nat.Log
import Mathlib.Tactic.Linarith
import Mathlib.Tactic.Ring
import Mathlib.Tactic.FieldSimp
import Mathlib.Tactic.Positivity
import Mathlib.Tactic.NormNum

/-!
# Lemmas about batches and result files
-/

namespace Pctsp

variable {U V P : Type} {α : Type}

/-! ## The number of batches -/

theorem Rounds53.int {rnd : Rat → Rat} (h : Rounds53 rnd) {m : Int} (h1 : -2 ^ 53 ≤ m) (h2 : m ≤ 2 ^ 53) : rnd m = m := by
  simpa using h.exact m 0 h1 h2 (by omega)

/-- A power of two next to a number. -/
theorem exists_pow_two {b : Nat} (hb : 0 < b) : ∃ k, b ≤ 2 ^ k ∧ 2 ^ k < 2 * b := by
  refine ⟨Nat.clog 2 b, Nat.le_pow_clog (by omega) b, ?_⟩
  rcases Nat.lt_or_ge 1 b with h | h
  · have := Nat.pow_pred_clog_lt_self (b := 2) (by omega) h
    have hp : 0 < Nat.clog 2 b := Nat.clog_pos (by omega) h
    obtain ⟨k, hk⟩ : ∃ k, Nat.clog 2 b = k + 1 := ⟨Nat.clog 2 b - 1, by omega⟩
    rw [hk] at this ⊢
    simp only [Nat.pred_eq_sub_one, Nat.add_sub_cancel] at this
    rw [Nat.pow_succ]; omega
  · obtain rfl : b = 1 := by omega
    simp

theorem getNbatches_eq {rnd : Rat → Rat} (h : Rounds53 rnd) {n b q : Nat} (hb : 0 < b) (hb' : b ≤ 2 ^ 53) (hn : n < 2 ^ 52) (h1 : q * b < n)
    (h2 : n ≤ (q + 1) * b) : getNbatches rnd n b = .ok ((q + 1 : Nat) : Int) := by
  have eb : rnd ((b : Int) : Rat) = (b : Int) := h.int (by omega) (by exact_mod_cast hb')
  have en : rnd ((n : Int) : Rat) = (n : Int) := h.int (by omega) (by omega)
  have hbq : (0 : Rat) < ((b : Int) : Rat) := by exact_mod_cast hb
  unfold getNbatches
  rw [eb, en, if_neg (ne_of_gt hbq)]
  congr 1
  rw [Int.ceil_eq_iff]
  have hqn : q ≤ n := le_trans (Nat.le_mul_of_pos_right q hb) h1.le
  constructor
  · obtain ⟨k, hk1, hk2⟩ := exists_pow_two hb
    have hm : q * 2 ^ k + 1 ≤ 2 ^ 53 := by
      have : q * 2 ^ k ≤ q * (2 * b) := Nat.mul_le_mul_left q hk2.le
      have : q * (2 * b) = 2 * (q * b) := by ring
      omega
    have hk : k ≤ 1022 := by
      have h3 : 2 ^ k < 2 ^ 54 := by omega
      have := (Nat.pow_lt_pow_iff_right (by omega : 1 < 2)).1 h3
      omega
    have hy := h.exact ((q * 2 ^ k + 1 : Nat) : Int) k (by omega) (by exact_mod_cast hm) hk
    have hpk : (0 : Rat) < 2 ^ k := by positivity
    have hle : (((q * 2 ^ k + 1 : Nat) : Int) : Rat) / 2 ^ k ≤ ((n : Int) : Rat) / ((b : Int) : Rat) := by
      rw [div_le_div_iff₀ hpk hbq]
      have : (q * 2 ^ k + 1) * b ≤ n * 2 ^ k := by
        have : (q * b + 1) * 2 ^ k ≤ n * 2 ^ k := Nat.mul_le_mul_right _ h1
        calc (q * 2 ^ k + 1) * b = q * b * 2 ^ k + b := by ring
          _ ≤ q * b * 2 ^ k + 2 ^ k := by omega
          _ = (q * b + 1) * 2 ^ k := by ring
          _ ≤ _ := this
      exact_mod_cast this
    have := h.mono _ _ hle
    rw [hy] at this
    refine lt_of_lt_of_le ?_ this
    rw [lt_div_iff₀ hpk]
    push_cast
    nlinarith
  · have hle : ((n : Int) : Rat) / ((b : Int) : Rat) ≤ (((q + 1 : Nat) : Int) : Rat) := by
      rw [div_le_iff₀ hbq]; exact_mod_cast h2
    have := h.mono _ _ hle
    rwa [h.int (m := ((q + 1 : Nat) : Int)) (by omega) (by
      have : ((q + 1 : Nat) : Int) ≤ 2 ^ 53 := by omega
      exact this)] at this

theorem getNbatches_zero {rnd : Rat → Rat} (h : Rounds53 rnd) {b : Nat} (hb : 0 < b) (hb' : b ≤ 2 ^ 53) : getNbatches rnd 0 b = .ok 0 := by
  have eb : rnd ((b : Int) : Rat) = (b : Int) := h.int (by omega) (by exact_mod_cast hb')
  have e0 : rnd ((0 : Int) : Rat) = ((0 : Int) : Rat) := h.int (by omega) (by omega)
  have hbq : (0 : Rat) < ((b : Int) : Rat) := by exact_mod_cast hb
  unfold getNbatches
  rw [eb, e0, if_neg (ne_of_gt hbq)]
  simp only [Int.cast_zero, zero_div] at e0 ⊢
  rw [e0]; simp

/-! ## Slices -/

theorem pySlice_nat (l : List α) (a b : Nat) : pySlice l a b = (l.take b).drop a := by
  have h : ∀ i : Nat, sliceIndex l.length (i : Int) = min i l.length := fun i => by
    unfold sliceIndex; rw [if_neg (by omega)]; simp
  unfold pySlice
  rw [h, h, ← List.take_eq_take_min]
  rcases Nat.le_total a l.length with ha | ha
  · rw [Nat.min_eq_left ha]
  · rw [Nat.min_eq_right ha, List.drop_eq_nil_of_le (by simp), List.drop_eq_nil_of_le (by simp; omega)]

/-- A batch of natural numbers. -/
theorem pySlice_batch (l : List α) {n : Nat} (hn : l.length ≤ n) (a b : Nat) :
    pySlice l a (min ((a : Int) + b) n) = (l.drop a).take b := by
  have : (min ((a : Int) + b) n) = ((min (a + b) n : Nat) : Int) := by omega
  rw [this, pySlice_nat, List.drop_take, List.take_eq_take_iff]
  simp; omega

theorem batchVials_nat (s : Store U V) (vials : List (LabVial U P)) (a b : Nat) :
    batchVials s vials a b false = .ok ((vials.drop a).take b) := by
  unfold batchVials
  exact congrArg Except.ok (pySlice_batch vials le_rfl a b)

theorem missingVials_length {s : Store U V} {vials l : List (LabVial U P)} (h : missingVials s vials = .ok l) : l.length ≤ vials.length := by
  induction vials generalizing l with
  | nil => cases h; simp
  | cons v vs ih =>
    simp only [missingVials] at h
    split at h
    all_goals first
      | cases h; done
      | (cases hm : missingVials s vs with
        | error e => rw [hm] at h; cases h
        | ok m =>
          rw [hm] at h
          cases h
          have := ih hm
          simp only [List.length_cons]; omega)

theorem batchVials_missing {s : Store U V} {vials m : List (LabVial U P)} (h : missingVials s vials = .ok m) (a b : Nat) :
    batchVials s vials a b true = .ok ((m.drop a).take b) := by
  unfold batchVials
  simp only [if_true, h]
  exact congrArg Except.ok (pySlice_batch m (missingVials_length h) a b)

/-- Blocks of a list. -/
theorem flatten_blocks (l : List α) (b c : Nat) : ((List.range c).map fun i => (l.drop (i * b)).take b).flatten = l.take (c * b) := by
  induction c with
  | zero => simp
  | succ c ih =>
    rw [List.range_succ, List.map_append, List.flatten_append, ih]
    simp only [List.map_cons, List.map_nil, List.flatten_cons, List.flatten_nil, List.append_nil]
    rw [show (c + 1) * b = c * b + b by ring, List.take_add]

/-! ## Running a list of vials -/

section run

variable [DecidableEq U] (run : LabVial U P → Attempt U V)

/-- The results of the vials that return one. -/
def resultsOf (vials : List (LabVial U P)) : List (StoredResult U V) := vials.filterMap fun v => (run v).result?.map fun r => ⟨v.uuid, r⟩

theorem setFile_ne {s : Store U V} {u u' : U} (f : ResultFile U V) (h : u' ≠ u) : setFile s u f u' = s u' := if_neg h

theorem runVials_other {u : U} (vials : List (LabVial U P)) (s : Store U V) (h : u ∉ vials.map (·.uuid)) : (runVials run vials s).1 u = s u := by
  induction vials generalizing s with
  | nil => rfl
  | cons v vs ih =>
    simp only [List.map_cons, List.mem_cons, not_or] at h
    unfold runVials
    split
    · rfl
    · rfl
    · exact ih s h.2
    · exact (ih _ h.2).trans (setFile_ne _ h.1)
    · exact (ih _ h.2).trans (setFile_ne _ h.1)

theorem runVials_cons_of_survives {v : LabVial U P} (h : (run v).survives) (vs : List (LabVial U P)) (s : Store U V) :
    runVials run (v :: vs) s =
      let x := runVials run vs (setFile s v.uuid ((run v).fileAfter v.uuid (s v.uuid)))
      (x.1, x.2.map (((run v).result?.map fun r => ⟨v.uuid, r⟩).toList ++ ·)) := by
  have hid : setFile s v.uuid (s v.uuid) = s := funext fun u => by unfold setFile; split <;> simp_all
  have hmap : ∀ x : Except LabError (List (StoredResult U V)), x.map (fun l => l) = x := fun x => by cases x <;> rfl
  cases hr : run v <;> rw [hr] at h
  · cases h
  · cases h
  · simp [runVials, hr, Attempt.fileAfter, Attempt.result?, hid, hmap]
  · simp [runVials, hr, Attempt.fileAfter, Attempt.result?, consResult]
  · simp [runVials, hr, Attempt.fileAfter, Attempt.result?, consResult]

theorem runVials_append {pre : List (LabVial U P)} (h : ∀ v ∈ pre, (run v).survives) (post : List (LabVial U P)) (s : Store U V) :
    runVials run (pre ++ post) s =
      let x := runVials run post (runVials run pre s).1
      (x.1, x.2.map (resultsOf run pre ++ ·)) := by
  induction pre generalizing s with
  | nil =>
    have hmap : ∀ x : Except LabError (List (StoredResult U V)), x.map (fun l => l) = x := fun x => by cases x <;> rfl
    simp [runVials, resultsOf, hmap]
  | cons v vs ih =>
    have hv := h v (by simp)
    rw [List.cons_append, runVials_cons_of_survives run hv, runVials_cons_of_survives run hv, ih fun w hw => h w (by simp [hw])]
    simp only
    congr 1
    cases (runVials run post (runVials run vs (setFile s v.uuid ((run v).fileAfter v.uuid (s v.uuid)))).1).2 with
    | error e => rfl
    | ok l =>
      simp only [Except.map]
      congr 1
      unfold resultsOf
      cases hr : (run v).result? <;> simp [List.filterMap_cons, hr]

theorem runVials_survive {vials : List (LabVial U P)} (h : ∀ v ∈ vials, (run v).survives) (s : Store U V) :
    (runVials run vials s).2 = .ok (resultsOf run vials) := by
  have := runVials_append run h [] s
  rw [List.append_nil] at this
  rw [this]; simp [runVials, Except.map]

theorem runVials_stop {pre : List (LabVial U P)} (h : ∀ v ∈ pre, (run v).survives) {v : LabVial U P} (hv : ¬ (run v).survives)
    (post : List (LabVial U P)) (s : Store U V) :
    (runVials run (pre ++ v :: post) s).1 = (runVials run pre s).1 ∧ ∃ e, (runVials run (pre ++ v :: post) s).2 = .error e := by
  rw [runVials_append run h]
  cases hr : run v <;> rw [hr] at hv <;> first | exact absurd trivial hv | simp [runVials, hr, Except.map]

/-- Either all vials survive or there is a first one that does not. -/
theorem survive_or_first (vials : List (LabVial U P)) :
    (∀ v ∈ vials, (run v).survives) ∨
      ∃ pre v post, vials = pre ++ v :: post ∧ (∀ w ∈ pre, (run w).survives) ∧ ¬ (run v).survives := by
  induction vials with
  | nil => left; simp
  | cons v vs ih =>
    by_cases hv : (run v).survives
    · rcases ih with h | ⟨pre, w, post, rfl, h1, h2⟩
      · left; simpa [hv] using h
      · exact .inr ⟨v :: pre, w, post, rfl, by simpa [hv] using h1, h2⟩
    · exact .inr ⟨[], v, vs, rfl, by simp, hv⟩

theorem Distinct.middle {pre : List (LabVial U P)} {v : LabVial U P} {post : List (LabVial U P)} (h : Distinct (pre ++ v :: post)) :
    v.uuid ∉ pre.map (·.uuid) ∧ v.uuid ∉ post.map (·.uuid) := by
  unfold Distinct at h
  simp only [List.map_append, List.map_cons, List.nodup_append, List.nodup_cons, List.mem_cons] at h
  exact ⟨fun hm => h.2.2 _ hm _ (.inl rfl) rfl, h.2.1.1⟩

theorem runVials_file {pre : List (LabVial U P)} (h : ∀ w ∈ pre, (run w).survives) {v : LabVial U P} {post : List (LabVial U P)}
    (hd : Distinct (pre ++ v :: post)) (s : Store U V) :
    (runVials run (pre ++ v :: post) s).1 v.uuid = (run v).fileAfter v.uuid (s v.uuid) := by
  obtain ⟨h1, h2⟩ := hd.middle
  by_cases hv : (run v).survives
  · rw [runVials_append run h]
    simp only
    rw [runVials_cons_of_survives run hv]
    simp only
    rw [runVials_other run _ _ h2, runVials_other run _ _ h1]
    exact if_pos rfl
  · rw [(runVials_stop run h hv post s).1, runVials_other run _ _ h1]
    cases hr : run v <;> rw [hr] at hv <;> first | exact absurd trivial hv | rfl

theorem runVials_file_stopped {pre : List (LabVial U P)} {w : LabVial U P} (hw : w ∈ pre) (hs : ¬ (run w).survives) {v : LabVial U P}
    {post : List (LabVial U P)} (hd : Distinct (pre ++ v :: post)) (s : Store U V) :
    (runVials run (pre ++ v :: post) s).1 v.uuid = s v.uuid := by
  obtain ⟨h1, h2⟩ := hd.middle
  rcases survive_or_first run pre with h | ⟨A, x, B, rfl, hA, hx⟩
  · exact absurd (h w hw) hs
  · rw [List.append_assoc, List.cons_append, (runVials_stop run hA hx _ s).1, runVials_other]
    intro hm; exact h1 (by simp only [List.map_append, List.mem_append]; exact .inl hm)

/-! ## Running several lists -/

/-- Run several lists of vials, each to its own end. -/
def runLists : List (List (LabVial U P)) → Store U V → Store U V
  | [], s => s
  | l :: ls, s => runLists ls (runVials run l s).1

theorem runLists_other {u : U} (ls : List (List (LabVial U P))) (s : Store U V) (h : u ∉ ls.flatten.map (·.uuid)) : runLists run ls s u = s u := by
  induction ls generalizing s with
  | nil => rfl
  | cons l ls ih =>
    simp only [List.flatten_cons, List.map_append, List.mem_append, not_or] at h
    unfold runLists
    rw [ih _ h.2, runVials_other run _ _ h.1]

theorem runLists_append (A B : List (List (LabVial U P))) (s : Store U V) : runLists run (A ++ B) s = runLists run B (runLists run A s) := by
  induction A generalizing s with
  | nil => rfl
  | cons l A ih => exact ih _

/-- The file of a vial depends on its own list only. -/
theorem runLists_file {A B : List (List (LabVial U P))} {pre : List (LabVial U P)} {v : LabVial U P} {post : List (LabVial U P)}
    (hd : Distinct (A ++ (pre ++ v :: post) :: B).flatten) (s : Store U V) :
    ((∀ w ∈ pre, (run w).survives) → runLists run (A ++ (pre ++ v :: post) :: B) s v.uuid = (run v).fileAfter v.uuid (s v.uuid)) ∧
    ((∃ w ∈ pre, ¬ (run w).survives) → runLists run (A ++ (pre ++ v :: post) :: B) s v.uuid = s v.uuid) := by
  have hf : (A ++ (pre ++ v :: post) :: B).flatten = (A.flatten ++ pre) ++ v :: (post ++ B.flatten) := by simp
  rw [hf] at hd
  obtain ⟨h1, h2⟩ := hd.middle
  simp only [List.map_append, List.mem_append, not_or] at h1 h2
  have hd' : Distinct (pre ++ v :: post) := by
    unfold Distinct at hd ⊢
    refine hd.sublist ?_
    refine List.Sublist.map _ ?_
    rw [List.append_assoc]
    refine List.Sublist.trans ?_ (List.sublist_append_right A.flatten _)
    refine List.Sublist.append_left ?_ pre
    exact List.Sublist.cons_cons v (List.sublist_append_left post _)
  have key : runLists run (A ++ (pre ++ v :: post) :: B) s v.uuid = (runVials run (pre ++ v :: post) (runLists run A s)).1 v.uuid := by
    rw [runLists_append]
    exact runLists_other run B _ h2.2
  rw [key, ← runLists_other run A s h1.1]
  exact ⟨fun h => runVials_file run h hd' _, fun ⟨w, hw, hs⟩ => runVials_file_stopped run hw hs hd' _⟩

theorem runBatch_ok {vials l : List (LabVial U P)} {start size : Int} {only : Bool} {s : Store U V}
    (h : batchVials s vials start size only = .ok l) : runBatch run vials start size only s = runVials run l s := by
  unfold runBatch; rw [h]

theorem runBatches_all (vials : List (LabVial U P)) (b : Nat) (starts : List Nat) (s : Store U V) :
    (runBatches run vials b false (starts.map fun a => ((a : Nat) : Int)) s).1 = runLists run (starts.map fun a => (vials.drop a).take b) s := by
  induction starts generalizing s with
  | nil => rfl
  | cons a as ih =>
    simp only [List.map_cons, runBatches, runLists]
    rw [runBatch_ok run (batchVials_nat s vials a b)]
    exact ih _

theorem batchStarts_nat (c b : Nat) : batchStarts c b = ((List.range c).map fun i => i * b).map fun a => ((a : Nat) : Int) := by
  unfold batchStarts; simp [Function.comp_def]

/-! ## Missing results -/

open Classical in
omit [DecidableEq U] in
theorem missingVials_eq_ok {s : Store U V} {vials m : List (LabVial U P)} :
    missingVials s vials = .ok m ↔ (∀ v ∈ vials, s v.uuid ≠ .invalid) ∧ m = vials.filter fun v => decide (¬ HasResult s v) := by
  induction vials generalizing m with
  | nil => simp [missingVials, eq_comm]
  | cons v vs ih =>
    have key : ∀ {m : List (LabVial U P)}, (missingVials s vs).map (v :: ·) = .ok m ↔ ∃ m', missingVials s vs = .ok m' ∧ v :: m' = m := by
      intro m; cases missingVials s vs <;> simp [Except.map]
    simp only [missingVials, List.forall_mem_cons, List.filter_cons]
    cases hs : s v.uuid with
    | absent => simp only [key]; simp [HasResult, hs, ih, eq_comm, and_comm]
    | corrupt => simp only [key]; simp [HasResult, hs, ih, eq_comm, and_comm]
    | invalid => simp
    | good r => simp [HasResult, hs, ih]

end run

end Pctsp
