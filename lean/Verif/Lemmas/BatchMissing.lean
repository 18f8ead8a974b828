import Verif.Lemmas.Batch
import Mathlib.Data.List.Nodup

/-!
# Batches of the vials without results
-/

namespace Pctsp

variable {U V P : Type} [DecidableEq U] (run : LabVial U P → Attempt U V)

theorem Distinct.nodup {vials : List (LabVial U P)} (h : Distinct vials) : vials.Nodup := List.Nodup.of_map _ h

theorem Distinct.inj {vials : List (LabVial U P)} (h : Distinct vials) {v w : LabVial U P} (hv : v ∈ vials) (hw : w ∈ vials) (he : v.uuid = w.uuid) :
    v = w := List.inj_on_of_nodup_map h hv hw he

omit [DecidableEq U] in
theorem AllDone.survives {run : LabVial U P → Attempt U V} (h : AllDone run) (v : LabVial U P) : (run v).survives := by
  obtain ⟨r, hr⟩ := h v; rw [hr]; trivial

theorem runVials_good {run : LabVial U P → Attempt U V} (ha : AllDone run) {l : List (LabVial U P)} (hd : Distinct l) {v : LabVial U P} (hv : v ∈ l)
    (s : Store U V) : ∃ r, (runVials run l s).1 v.uuid = .good r := by
  obtain ⟨A, B, rfl⟩ := List.append_of_mem hv
  rw [runVials_file run (fun w _ => ha.survives w) hd]
  obtain ⟨r, hr⟩ := ha v
  exact ⟨_, by rw [hr]; rfl⟩

/-- Running some of the missing vials leaves the others missing. -/
theorem missing_after {run : LabVial U P → Attempt U V} (ha : AllDone run) {vials O T R : List (LabVial U P)} (hd : Distinct vials) {s : Store U V}
    (h : missingVials s vials = .ok (O ++ T ++ R)) : missingVials (runVials run T s).1 vials = .ok (O ++ R) := by
  classical
  obtain ⟨hi, hm⟩ := missingVials_eq_ok.1 h
  have hsub : (O ++ T ++ R).Sublist vials := hm ▸ List.filter_sublist
  have hdm : Distinct (O ++ T ++ R) := List.Nodup.sublist (hsub.map _) hd
  have hT : T.Sublist (O ++ T ++ R) := (List.sublist_append_right O T).trans (List.sublist_append_left _ R)
  have hdT : Distinct T := List.Nodup.sublist (hT.map _) hdm
  have hnot : ∀ v ∈ vials, v ∉ T → (runVials run T s).1 v.uuid = s v.uuid := by
    intro v hv hvT
    refine runVials_other run T s fun hc => ?_
    obtain ⟨w, hw, he⟩ := List.mem_map.1 hc
    exact hvT (hd.inj (hsub.subset (hT.subset hw)) hv he ▸ hw)
  refine missingVials_eq_ok.2 ⟨fun v hv => ?_, ?_⟩
  · by_cases hvT : v ∈ T
    · obtain ⟨r, hr⟩ := runVials_good ha hdT hvT s
      rw [hr]; simp
    · rw [hnot v hv hvT]; exact hi v hv
  · have e1 : (vials.filter fun v => decide (¬ HasResult (runVials run T s).1 v)) =
        (vials.filter fun v => decide (¬ HasResult s v)).filter fun v => decide (v ∉ T) := by
      rw [List.filter_filter]
      refine List.filter_congr fun v hv => ?_
      by_cases hvT : v ∈ T
      · obtain ⟨r, hr⟩ := runVials_good ha hdT hvT s
        have : HasResult (runVials run T s).1 v := ⟨r, hr⟩
        simp [hvT, this]
      · have : HasResult (runVials run T s).1 v ↔ HasResult s v := by unfold HasResult; rw [hnot v hv hvT]
        simp [hvT, this]
    rw [e1, ← hm]
    have hn := hdm.nodup
    simp only [List.nodup_append] at hn
    have hO : O.filter (fun v => decide (v ∉ T)) = O :=
      List.filter_eq_self.2 fun v hv => by simpa using fun hc => hn.1.2.2 v hv v hc rfl
    have hR : R.filter (fun v => decide (v ∉ T)) = R :=
      List.filter_eq_self.2 fun v hv => by simpa using fun hc => hn.2.2 v (List.mem_append_right O hc) v hv rfl
    have hTT : T.filter (fun v => decide (v ∉ T)) = [] := List.filter_eq_nil_iff.2 fun v hv => by simpa using hv
    simp only [List.filter_append, hO, hR, hTT, List.append_nil]

/-- The odd blocks among the first `2 * j` blocks. -/
def oddBlocks {α : Type} (b : Nat) (l : List α) (j : Nat) : List α := ((List.range j).map fun i => (l.drop ((2 * i + 1) * b)).take b).flatten

theorem oddBlocks_succ {α : Type} (b : Nat) (l : List α) (j : Nat) : oddBlocks b l (j + 1) = oddBlocks b l j ++ (l.drop ((2 * j + 1) * b)).take b := by
  unfold oddBlocks; rw [List.range_succ]; simp

theorem oddBlocks_length_le {α : Type} (b : Nat) (l : List α) (j : Nat) : (oddBlocks b l j).length ≤ j * b := by
  induction j with
  | zero => simp [oddBlocks]
  | succ j ih =>
    have e : (j + 1) * b = j * b + b := by ring
    rw [oddBlocks_succ, List.length_append, e]
    have : ((l.drop ((2 * j + 1) * b)).take b).length ≤ b := List.length_take_le _ _
    omega

theorem oddBlocks_length {α : Type} (b : Nat) (l : List α) (j : Nat) (h : 2 * j * b ≤ l.length) : (oddBlocks b l j).length = j * b := by
  induction j with
  | zero => simp [oddBlocks]
  | succ j ih =>
    have h1 : 2 * (j + 1) * b = 2 * j * b + b + b := by ring
    have h2 : (2 * j + 1) * b = 2 * j * b + b := by ring
    have e : (j + 1) * b = j * b + b := by ring
    rw [oddBlocks_succ, List.length_append, ih (by omega), List.length_take, List.length_drop, e, Nat.min_eq_left (by omega)]

/-- The batch is the next even block. -/
theorem next_block {α : Type} (b : Nat) (l : List α) (j : Nat) :
    ((oddBlocks b l j ++ l.drop (2 * j * b)).drop (j * b)).take b = (l.drop (2 * j * b)).take b := by
  rcases Nat.le_total (2 * j * b) l.length with h | h
  · rw [← oddBlocks_length b l j h, List.drop_left]
  · rw [List.drop_eq_nil_of_le h, List.append_nil, List.drop_eq_nil_of_le (oddBlocks_length_le b l j)]

theorem mem_oddBlocks {α : Type} {b : Nat} (hb : 0 < b) {l : List α} (hl : l.Nodup) {c p : Nat} {v : α} (hp : l[p]? = some v) (hc : l.length ≤ c * b) :
    v ∈ oddBlocks b l c ↔ (p / b) % 2 = 1 := by
  have hpl : p < l.length := (List.getElem?_eq_some_iff.1 hp).1
  have hget : ∀ q, l[q]? = some v → q = p := fun q hq => by
    have hql : q < l.length := (List.getElem?_eq_some_iff.1 hq).1
    exact (List.Nodup.getElem_inj_iff hl (hi := hql) (hj := hpl)).1
      (((List.getElem?_eq_some_iff.1 hq).2).trans (List.getElem?_eq_some_iff.1 hp).2.symm)
  unfold oddBlocks
  simp only [List.mem_flatten, List.mem_map, List.mem_range]
  constructor
  · rintro ⟨_, ⟨i, hi, rfl⟩, hv⟩
    obtain ⟨q, hq⟩ := List.mem_iff_getElem?.1 hv
    have hqb : q < b := by
      by_contra hcon
      rw [List.getElem?_take, if_neg hcon] at hq; cases hq
    rw [List.getElem?_take_of_lt hqb, List.getElem?_drop] at hq
    have := hget _ hq
    rw [← this, Nat.mul_comm, Nat.mul_add_div hb, Nat.div_eq_of_lt hqb]
    omega
  · intro hodd
    have hdm := Nat.div_add_mod p b
    obtain ⟨i, hi⟩ : ∃ i, p / b = 2 * i + 1 := ⟨p / b / 2, by omega⟩
    refine ⟨_, ⟨i, ?_, rfl⟩, List.mem_iff_getElem?.2 ⟨p % b, ?_⟩⟩
    · have : p / b < c := (Nat.div_lt_iff_lt_mul hb).2 (by omega)
      omega
    · rw [List.getElem?_take_of_lt (Nat.mod_lt p hb), List.getElem?_drop, ← hi, Nat.mul_comm (p / b) b, hdm, hp]

/-- The batches from number `j` on. -/
theorem runBatches_missing {run : LabVial U P → Attempt U V} (ha : AllDone run) {vials m : List (LabVial U P)} (hd : Distinct vials) (b : Nat) (k j : Nat)
    {s : Store U V} (h : missingVials s vials = .ok (oddBlocks b m j ++ m.drop (2 * j * b))) :
    missingVials (runBatches run vials b true ((List.range' j k).map fun i => ((i * b : Nat) : Int)) s).1 vials =
      .ok (oddBlocks b m (j + k) ++ m.drop (2 * (j + k) * b)) := by
  induction k generalizing j s with
  | zero => simpa [runBatches] using h
  | succ k ih =>
    rw [List.range'_succ, List.map_cons]
    simp only [runBatches]
    rw [runBatch_ok run (batchVials_missing h (j * b) b), next_block]
    have e : j + (k + 1) = j + 1 + k := by omega
    rw [e]
    refine ih (j + 1) ?_
    have hsplit : oddBlocks b m j ++ m.drop (2 * j * b) = oddBlocks b m j ++ (m.drop (2 * j * b)).take b ++ m.drop ((2 * j + 1) * b) := by
      rw [List.append_assoc, show (2 * j + 1) * b = 2 * j * b + b by ring, ← List.drop_drop, List.take_append_drop]
    rw [hsplit] at h
    rw [missing_after ha hd h, oddBlocks_succ, List.append_assoc, show 2 * (j + 1) * b = (2 * j + 1) * b + b by ring, ← List.drop_drop, List.take_append_drop]

/-- Always taking the first batch. -/
theorem runBatches_first {run : LabVial U P → Attempt U V} (ha : AllDone run) {vials m : List (LabVial U P)} (hd : Distinct vials) (b : Nat) (k : Nat)
    {s : Store U V} (h : missingVials s vials = .ok m) :
    missingVials (runBatches run vials b true (List.replicate k 0) s).1 vials = .ok (m.drop (k * b)) := by
  induction k generalizing m s with
  | zero => simpa [runBatches] using h
  | succ k ih =>
    rw [List.replicate_succ]
    simp only [runBatches]
    have hb : batchVials s vials 0 b true = .ok (m.take b) := by simpa using batchVials_missing h 0 b
    rw [runBatch_ok run hb]
    have h' : missingVials s vials = .ok ([] ++ m.take b ++ m.drop b) := by simpa using h
    rw [ih (missing_after ha hd h')]
    simp [List.drop_drop, Nat.succ_mul, Nat.add_comm]

end Pctsp
