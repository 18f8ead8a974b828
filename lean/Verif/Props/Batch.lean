import Verif.Lemmas.BatchMissing

/-!
# C94, C95, C96: batches of an experiment and what they leave behind
-/

namespace Pctsp

variable {U V P : Type} [DecidableEq U] {run : LabVial U P → Attempt U V} {vials : List (LabVial U P)}

/-! ## C94 -/

/-- C94: the number of batches is the least number that is enough, in spite of the floating point division. -/
theorem C94_count {rnd : Rat → Rat} (h : Rounds53 rnd) {n b : Nat} (hb : 0 < b) (hb' : b ≤ 2 ^ 53) (hn : n < 2 ^ 52) :
    ∃ c : Nat, getNbatches rnd n b = .ok (c : Int) ∧ ∀ k : Nat, c ≤ k ↔ n ≤ k * b := by
  rcases Nat.eq_zero_or_pos n with rfl | hpos
  · exact ⟨0, getNbatches_zero h hb hb', fun k => by simp⟩
  · have hdm := Nat.div_add_mod (n - 1) b
    have hml := Nat.mod_lt (n - 1) hb
    have e1 : (n - 1) / b * b = b * ((n - 1) / b) := Nat.mul_comm _ _
    have e2 : ((n - 1) / b + 1) * b = b * ((n - 1) / b) + b := by rw [Nat.succ_mul, e1]
    refine ⟨(n - 1) / b + 1, getNbatches_eq h hb hb' hn (by omega) (by omega), fun k => ?_⟩
    rw [Nat.succ_le_iff, Nat.div_lt_iff_lt_mul hb]; omega

/-- C94: a batch size of zero raises. -/
theorem C94_zero {rnd : Rat → Rat} (h : Rounds53 rnd) (n : Int) : getNbatches rnd n 0 = .error .zeroDivision := by
  unfold getNbatches
  rw [if_pos]
  have := h.int (m := 0) (by omega) (by omega)
  simpa using this

/-- C94: the batches contain every vial once and in the order of the experiment, and none has more vials than the batch size. -/
theorem C94_cover (s : Store U V) {b c : Nat} (hc : vials.length ≤ c * b) :
    ∃ ls, List.Forall₂ (fun a l => batchVials s vials a b false = .ok l) (batchStarts c b) ls ∧ ls.flatten = vials ∧ ∀ l ∈ ls, l.length ≤ b := by
  refine ⟨(List.range c).map fun i => (vials.drop (i * b)).take b, ?_, ?_, ?_⟩
  · rw [batchStarts_nat, List.forall₂_map_left_iff, List.forall₂_map_left_iff, List.forall₂_map_right_iff]
    exact List.forall₂_same.2 fun i _ => batchVials_nat s vials _ b
  · rw [flatten_blocks, List.take_of_length_le hc]
  · intro l hl
    obtain ⟨i, _, rfl⟩ := List.mem_map.1 hl
    exact List.length_take_le _ _

/-- C94: after all batches the result file of a vial is the one that its own attempt leaves, if no earlier vial of the same batch stopped the process,
and the old one otherwise. -/
theorem C94_files (hd : Distinct vials) (s : Store U V) {b c : Nat} (hb : 0 < b) (hc : vials.length ≤ c * b) {p : Nat} {v : LabVial U P}
    (hp : vials[p]? = some v) :
    ((∀ w ∈ (vials.take p).drop (p - p % b), (run w).survives) →
      (runBatches run vials b false (batchStarts c b) s).1 v.uuid = (run v).fileAfter v.uuid (s v.uuid)) ∧
    ((∃ w ∈ (vials.take p).drop (p - p % b), ¬ (run w).survives) →
      (runBatches run vials b false (batchStarts c b) s).1 v.uuid = s v.uuid) := by
  obtain ⟨hpl, hpv⟩ := List.getElem?_eq_some_iff.1 hp
  have hdm := Nat.div_add_mod p b
  have hml := Nat.mod_lt p hb
  have hmul : p / b * b = b * (p / b) := Nat.mul_comm _ _
  have hic : p / b < c := (Nat.div_lt_iff_lt_mul hb).2 (by omega)
  have hpre : (vials.take p).drop (p - p % b) = (vials.drop (p / b * b)).take (p % b) := by
    rw [List.drop_take]
    congr 1
    · omega
    · congr 1; omega
  have hblock : (vials.drop (p / b * b)).take b =
      (vials.drop (p / b * b)).take (p % b) ++ v :: (vials.drop (p + 1)).take (b - p % b - 1) := by
    obtain ⟨k, hk⟩ : ∃ k, b = p % b + (k + 1) := ⟨b - p % b - 1, by omega⟩
    have e : (vials.drop (p / b * b)).take b = (vials.drop (p / b * b)).take (p % b + (k + 1)) := by rw [← hk]
    rw [e, List.take_add]
    congr 1
    rw [List.drop_drop, show p / b * b + p % b = p by omega, List.drop_eq_getElem_cons hpl, List.take_succ_cons, hpv, show b - p % b - 1 = k by omega]
  have hls : (((List.range c).map fun i => i * b).map fun a => (vials.drop a).take b) =
      ((List.range (p / b)).map fun i => (vials.drop (i * b)).take b) ++
        ((vials.drop (p / b * b)).take (p % b) ++ v :: (vials.drop (p + 1)).take (b - p % b - 1)) ::
          ((List.range' (p / b + 1) (c - p / b - 1)).map fun i => (vials.drop (i * b)).take b) := by
    rw [← hblock]
    obtain ⟨k, rfl⟩ : ∃ k, c = p / b + (k + 1) := ⟨c - p / b - 1, by omega⟩
    rw [List.map_map, List.range_eq_range', List.range_eq_range', ← List.range'_append_1, List.map_append, List.range'_succ, List.map_cons,
      show p / b + (k + 1) - p / b - 1 = k by omega]
    simp [Function.comp_def]
  have hfl := flatten_blocks vials b c
  rw [List.take_of_length_le hc] at hfl
  rw [batchStarts_nat, runBatches_all, hls, hpre]
  refine runLists_file run ?_ s
  rw [← hls, List.map_map]
  have : (fun a => (vials.drop a).take b) ∘ (fun i => i * b) = fun i => (vials.drop (i * b)).take b := rfl
  rw [this, hfl]; exact hd

/-- C94: if nothing stops a process, the batches leave the same files as the whole experiment. -/
theorem C94_same (hd : Distinct vials) (s : Store U V) {b c : Nat} (hb : 0 < b) (hc : vials.length ≤ c * b) (hs : ∀ v ∈ vials, (run v).survives) :
    (runBatches run vials b false (batchStarts c b) s).1 = (runVials run vials s).1 := by
  funext u
  by_cases hu : u ∈ vials.map (·.uuid)
  · obtain ⟨v, hv, rfl⟩ := List.mem_map.1 hu
    obtain ⟨p, hp⟩ := List.mem_iff_getElem?.1 hv
    rw [(C94_files hd s hb hc hp).1 fun w hw => hs w (List.mem_of_mem_take (List.mem_of_mem_drop hw))]
    obtain ⟨A, B, rfl⟩ := List.append_of_mem hv
    exact (runVials_file run (fun w hw => hs w (by simp [hw])) hd s).symm
  · rw [runVials_other run _ _ hu, batchStarts_nat, runBatches_all, runLists_other]
    rw [List.map_map]
    have : (fun a => (vials.drop a).take b) ∘ (fun i => i * b) = fun i => (vials.drop (i * b)).take b := rfl
    rw [this, flatten_blocks, List.take_of_length_le hc]
    exact hu

/-- C94: a negative start counts from the end, but a batch of that many vials is empty instead of containing the last ones. -/
theorem C94_negative (s : Store U V) {k b : Nat} (hk : 0 < k) (hkn : k ≤ vials.length) :
    batchVials s vials (-(k : Int)) b false = .ok (if b < k then (vials.drop (vials.length - k)).take b else (vials.take (b - k)).drop (vials.length - k)) := by
  unfold batchVials
  refine congrArg Except.ok ?_
  unfold pySlice sliceIndex
  rw [if_pos (by omega : -(k : Int) < 0), show (-(k : Int) + vials.length).toNat = vials.length - k by omega]
  by_cases h : b < k
  · rw [if_pos h, if_pos (by omega), show (min (-(k : Int) + b) vials.length + vials.length).toNat = vials.length - k + b by omega, List.drop_take]
    congr 1; omega
  · rw [if_neg h, if_neg (by omega), show (min (-(k : Int) + (b : Int)) (vials.length : Int)).toNat = min (b - k) vials.length by omega,
      Nat.min_assoc, Nat.min_self, ← List.take_eq_take_min]

/-! ## C95 -/

/-- C95: batches of the vials without results contain each of them once if no result is written in between. -/
theorem C95_simultaneous {s : Store U V} {m : List (LabVial U P)} (h : missingVials s vials = .ok m) {b c : Nat} (hc : m.length ≤ c * b) :
    ∃ ls, List.Forall₂ (fun a l => batchVials s vials a b true = .ok l) (batchStarts c b) ls ∧ ls.flatten = m := by
  refine ⟨(List.range c).map fun i => (m.drop (i * b)).take b, ?_, ?_⟩
  · rw [batchStarts_nat, List.forall₂_map_left_iff, List.forall₂_map_left_iff, List.forall₂_map_right_iff]
    exact List.forall₂_same.2 fun i _ => batchVials_missing h _ b
  · rw [flatten_blocks, List.take_of_length_le hc]

omit [DecidableEq U] in
theorem hasResult_iff_not_mem {s : Store U V} {m : List (LabVial U P)} (h : missingVials s vials = .ok m) {v : LabVial U P} (hv : v ∈ vials) :
    HasResult s v ↔ v ∉ m := by
  classical
  obtain ⟨_, rfl⟩ := missingVials_eq_ok.1 h
  simp [hv]

/-- C95: one after the other, they skip every second block: the list of missing vials shrinks while the start moves on. -/
theorem C95_alternate (ha : AllDone run) (hd : Distinct vials) {s : Store U V} {m : List (LabVial U P)} (h : missingVials s vials = .ok m) {b c : Nat}
    (hb : 0 < b) (hc : m.length ≤ c * b) {p : Nat} {v : LabVial U P} (hp : m[p]? = some v) :
    HasResult (runBatches run vials b true (batchStarts c b) s).1 v ↔ (p / b) % 2 = 0 := by
  classical
  have hm := (missingVials_eq_ok.1 h).2
  have hsub : m.Sublist vials := hm ▸ List.filter_sublist
  have hn : m.Nodup := hd.nodup.sublist hsub
  have h0 : missingVials s vials = .ok (oddBlocks b m 0 ++ m.drop (2 * 0 * b)) := by simpa [oddBlocks] using h
  have hfin := runBatches_missing ha hd b c 0 h0
  have hst : batchStarts c b = (List.range' 0 c).map fun i => ((i * b : Nat) : Int) := by
    unfold batchStarts; rw [List.range_eq_range']; simp
  rw [← hst, Nat.zero_add] at hfin
  have hdrop : m.drop (2 * c * b) = [] := List.drop_eq_nil_of_le (by
    have : 2 * c * b = c * b + c * b := by ring
    omega)
  rw [hdrop, List.append_nil] at hfin
  have hv : v ∈ vials := hsub.subset (List.mem_of_getElem? hp)
  rw [hasResult_iff_not_mem hfin hv, mem_oddBlocks hb hn hp hc]
  omega

/-- C95: so as soon as one batch is not enough, some vial has no result at the end. -/
theorem C95_skipped (ha : AllDone run) (hd : Distinct vials) {s : Store U V} {m : List (LabVial U P)} (h : missingVials s vials = .ok m) {b c : Nat}
    (hb : 0 < b) (hc : m.length ≤ c * b) :
    (∀ v ∈ vials, HasResult (runBatches run vials b true (batchStarts c b) s).1 v) ↔ m.length ≤ b := by
  classical
  have hm := (missingVials_eq_ok.1 h).2
  have hsub : m.Sublist vials := hm ▸ List.filter_sublist
  constructor
  · intro hall
    by_contra hlt
    have hp : m[b]? = some (m[b]'(by omega)) := List.getElem?_eq_getElem (by omega)
    have := (C95_alternate ha hd h hb hc hp).1 (hall _ (hsub.subset (List.getElem_mem _)))
    rw [Nat.div_self hb] at this
    omega
  · intro hle v hv
    by_cases hvm : v ∈ m
    · obtain ⟨p, hp⟩ := List.mem_iff_getElem?.1 hvm
      have hpl : p < m.length := (List.getElem?_eq_some_iff.1 hp).1
      exact (C95_alternate ha hd h hb hc hp).2 (by rw [Nat.div_eq_of_lt (by omega)])
    · have h0 : missingVials s vials = .ok (oddBlocks b m 0 ++ m.drop (2 * 0 * b)) := by simpa [oddBlocks] using h
      have hfin := runBatches_missing ha hd b c 0 h0
      have hst : batchStarts c b = (List.range' 0 c).map fun i => ((i * b : Nat) : Int) := by
        unfold batchStarts; rw [List.range_eq_range']; simp
      rw [← hst, Nat.zero_add] at hfin
      rw [hasResult_iff_not_mem hfin hv]
      intro hc'
      refine hvm ?_
      rcases List.mem_append.1 hc' with h1 | h1
      · unfold oddBlocks at h1
        simp only [List.mem_flatten, List.mem_map] at h1
        obtain ⟨_, ⟨i, _, rfl⟩, h2⟩ := h1
        exact List.mem_of_mem_drop (List.mem_of_mem_take h2)
      · exact List.mem_of_mem_drop h1

/-- C95: starting every batch at zero works. -/
theorem C95_restart (ha : AllDone run) (hd : Distinct vials) {s : Store U V} {m : List (LabVial U P)} (h : missingVials s vials = .ok m) {b c : Nat}
    (hc : m.length ≤ c * b) : ∀ v ∈ vials, HasResult (runBatches run vials b true (List.replicate c 0) s).1 v := by
  intro v hv
  have := runBatches_first ha hd b c h
  rw [List.drop_eq_nil_of_le hc] at this
  rw [hasResult_iff_not_mem this hv]; simp

/-! ## C96 -/

/-- C96: without a problem that cannot be loaded, the results are those of the vials that return one, in order. -/
theorem C96_results (s : Store U V) (hs : ∀ v ∈ vials, (run v).survives) :
    (runVials run vials s).2 = .ok (vials.filterMap fun v => (run v).result?.map fun r => ⟨v.uuid, r⟩) := runVials_survive run hs s

/-- C96: the file of a vial only depends on its own attempt and on whether an earlier one stopped the process; other files are not touched. -/
theorem C96_files {pre post : List (LabVial U P)} {v : LabVial U P} (hd : Distinct (pre ++ v :: post)) (s : Store U V) :
    ((∀ w ∈ pre, (run w).survives) → (runVials run (pre ++ v :: post) s).1 v.uuid = (run v).fileAfter v.uuid (s v.uuid)) ∧
    ((∃ w ∈ pre, ¬ (run w).survives) → (runVials run (pre ++ v :: post) s).1 v.uuid = s v.uuid) ∧
    ∀ u, u ∉ (pre ++ v :: post).map (·.uuid) → (runVials run (pre ++ v :: post) s).1 u = s u :=
  ⟨fun h => runVials_file run h hd s, fun ⟨_, hw, hws⟩ => runVials_file_stopped run hw hws hd s, fun _ hu => runVials_other run _ s hu⟩

/-- C96: a problem that cannot be loaded, or a process that ends, loses the results of the earlier vials from the answer, but not their files. -/
theorem C96_lost {pre post : List (LabVial U P)} {v : LabVial U P} (s : Store U V) (h : ∀ w ∈ pre, (run w).survives) :
    (run v = .abort → runVials run (pre ++ v :: post) s = ((runVials run pre s).1, .error .load)) ∧
    (run v = .died → runVials run (pre ++ v :: post) s = ((runVials run pre s).1, .error .died)) := by
  rw [runVials_append run h]
  exact ⟨fun hv => by simp [runVials, hv, Except.map], fun hv => by simp [runVials, hv, Except.map]⟩

/-- C96: the missing vials are those without a readable result, unless some file is no result at all. -/
theorem C96_missing (s : Store U V) :
    (∀ m, missingVials s vials = .ok m → (∀ v, v ∈ m ↔ v ∈ vials ∧ ¬ HasResult s v) ∧ m.Sublist vials) ∧
    ((∃ m, missingVials s vials = .ok m) ↔ ∀ v ∈ vials, s v.uuid ≠ .invalid) := by
  classical
  refine ⟨fun m hm => ?_, ?_⟩
  · obtain ⟨_, rfl⟩ := missingVials_eq_ok.1 hm
    exact ⟨fun v => by simp, List.filter_sublist⟩
  · constructor
    · rintro ⟨m, hm⟩; exact (missingVials_eq_ok.1 hm).1
    · exact fun h => ⟨_, missingVials_eq_ok.2 ⟨h, rfl⟩⟩

/-- C96: a batch of the missing vials fails, and runs nothing, iff some file is no result at all, wherever the batch starts; otherwise it runs its part of the
missing vials. A batch of all vials runs its part whatever the files are. -/
theorem C96_batch (s : Store U V) (start size : Nat) :
    ((∃ v ∈ vials, s v.uuid = .invalid) → runBatch run vials start size true s = (s, .error .validation)) ∧
    (∀ m, missingVials s vials = .ok m → runBatch run vials start size true s = runVials run ((m.drop start).take size) s) ∧
    runBatch run vials start size false s = runVials run ((vials.drop start).take size) s := by
  refine ⟨fun h => ?_, fun m hm => ?_, ?_⟩
  · have hm : missingVials s vials = .error .validation := by
      cases hm : missingVials s vials with
      | ok m =>
        obtain ⟨v, hv, hi⟩ := h
        exact absurd hi ((missingVials_eq_ok.1 hm).1 v hv)
      | error e =>
        clear h
        congr 1
        induction vials generalizing e with
        | nil => cases hm
        | cons v vs ih =>
          unfold missingVials at hm
          cases hx : s v.uuid with
          | invalid => rw [hx] at hm; cases hm; rfl
          | good r => rw [hx] at hm; exact ih e hm
          | absent | corrupt =>
            rw [hx] at hm
            cases hr : missingVials s vs with
            | ok m => rw [hr] at hm; cases hm
            | error e' => rw [hr] at hm; cases hm; exact ih _ hr
    simp only [runBatch, batchVials, hm, if_true, bind, Except.bind]
  · simp only [runBatch, batchVials_missing hm]
  · simp only [runBatch, batchVials_nat]

omit [DecidableEq U] in
theorem infeasibleVials_spec (s : Store U V) (vials : List (LabVial U P)) :
    (∀ m, infeasibleVials s vials = .ok m →
      (∀ v, v ∈ m ↔ v ∈ vials ∧ ∃ r, s v.uuid = .good r ∧ r.result.prize < v.quota) ∧ (∀ v ∈ vials, s v.uuid ≠ .corrupt ∧ s v.uuid ≠ .invalid)) ∧
    ((∀ v ∈ vials, s v.uuid ≠ .corrupt ∧ s v.uuid ≠ .invalid) → ∃ m, infeasibleVials s vials = .ok m) := by
  induction vials with
  | nil => refine ⟨fun m hm => ?_, fun _ => ⟨[], rfl⟩⟩; cases hm; simp
  | cons v vs ih =>
    have key : ∀ {m : List (LabVial U P)}, (infeasibleVials s vs).map (v :: ·) = .ok m ↔ ∃ m', infeasibleVials s vs = .ok m' ∧ v :: m' = m := by
      intro m; cases infeasibleVials s vs <;> simp [Except.map]
    obtain ⟨ih1, ih2⟩ := ih
    simp only [infeasibleVials, List.forall_mem_cons]
    cases hs : s v.uuid with
    | absent =>
      refine ⟨fun m hm => ⟨fun w => ?_, by simp, (ih1 m hm).2⟩, fun h => ih2 h.2⟩
      rw [(ih1 m hm).1 w, List.mem_cons]
      constructor
      · rintro ⟨h1, h2⟩; exact ⟨.inr h1, h2⟩
      · rintro ⟨rfl | h1, r, h2, h3⟩
        · rw [hs] at h2; cases h2
        · exact ⟨h1, r, h2, h3⟩
    | corrupt => simp
    | invalid => simp
    | good r =>
      by_cases hq : r.result.prize < v.quota
      · simp only [if_pos hq, key]
        refine ⟨?_, fun h => ?_⟩
        · rintro m ⟨m', hm', rfl⟩
          refine ⟨fun w => ?_, by simp, (ih1 m' hm').2⟩
          rw [List.mem_cons, (ih1 m' hm').1 w, List.mem_cons]
          constructor
          · rintro (rfl | ⟨h1, h2⟩)
            · exact ⟨.inl rfl, r, hs, hq⟩
            · exact ⟨.inr h1, h2⟩
          · rintro ⟨rfl | h1, h2⟩
            · exact .inl rfl
            · exact .inr ⟨h1, h2⟩
        · obtain ⟨m, hm⟩ := ih2 h.2
          exact ⟨v :: m, m, hm, rfl⟩
      · simp only [if_neg hq]
        refine ⟨fun m hm => ⟨fun w => ?_, by simp, (ih1 m hm).2⟩, fun h => ih2 h.2⟩
        rw [(ih1 m hm).1 w, List.mem_cons]
        constructor
        · rintro ⟨h1, h2⟩; exact ⟨.inr h1, h2⟩
        · rintro ⟨rfl | h1, r', h2, h3⟩
          · rw [hs] at h2; cases h2; exact absurd h3 hq
          · exact ⟨h1, r', h2, h3⟩

/-- C96: the infeasible vials are those whose result misses the quota; the test raises as soon as one file is corrupt, which the list of missing vials
tolerates. -/
theorem C96_infeasible (s : Store U V) :
    (∀ m, infeasibleVials s vials = .ok m → ∀ v, v ∈ m ↔ v ∈ vials ∧ ∃ r, s v.uuid = .good r ∧ r.result.prize < v.quota) ∧
    ((∃ m, infeasibleVials s vials = .ok m) ↔ ∀ v ∈ vials, s v.uuid ≠ .corrupt ∧ s v.uuid ≠ .invalid) :=
  ⟨fun m hm => ((infeasibleVials_spec s vials).1 m hm).1, fun ⟨m, hm⟩ => ((infeasibleVials_spec s vials).1 m hm).2, (infeasibleVials_spec s vials).2⟩

/-! ## Examples -/

/-- Five vials, whose attempts succeed. -/
def exVials : List (LabVial Nat Unit) := (List.range 5).map fun i => ⟨i, 10, ()⟩
def exRun : LabVial Nat Unit → Attempt Nat Nat := fun _ => .done ⟨3, 12, []⟩
def exEmpty : Store Nat Nat := fun _ => .absent

theorem rounds53_id : Rounds53 id := ⟨fun _ _ h => h, fun _ _ _ _ _ => rfl⟩

example : getNbatches id 5 2 = .ok 3 := by
  obtain ⟨c, hc, h⟩ := C94_count rounds53_id (n := 5) (b := 2) (by omega) (by omega) (by omega)
  have h3 := (h 3).2 (by omega)
  have h2 := (h 2)
  obtain rfl : c = 3 := by omega
  exact hc
example : Distinct exVials := by unfold Distinct; decide
example : AllDone exRun := fun _ => ⟨_, rfl⟩
example : missingVials exEmpty exVials = .ok exVials := rfl
/-- With batches of two, the vials 2 and 3 are skipped. -/
example : (missingVials (runBatches exRun exVials 2 true (batchStarts 3 2) exEmpty).1 exVials).map (·.map (·.uuid)) = .ok [2, 3] := by rfl
example : (missingVials (runBatches exRun exVials 2 false (batchStarts 3 2) exEmpty).1 exVials).map (·.map (·.uuid)) = .ok [] := by rfl
example : (missingVials (runBatches exRun exVials 2 true (List.replicate 3 0) exEmpty).1 exVials).map (·.map (·.uuid)) = .ok [] := by rfl
example : (batchVials exEmpty exVials (-2) 2 false).map (·.map (·.uuid)) = .ok [] := by rfl
example : (batchVials exEmpty exVials (-2) 1 false).map (·.map (·.uuid)) = .ok [3] := by rfl

/-- The first problem cannot be loaded: in batches of two only that batch suffers. -/
def exAbort : LabVial Nat Unit → Attempt Nat Nat := fun v => if v.uuid = 0 then .abort else exRun v
example : (missingVials (runBatches exAbort exVials 2 false (batchStarts 3 2) exEmpty).1 exVials).map (·.map (·.uuid)) = .ok [0, 1] := by rfl
example : (missingVials (runVials exAbort exVials exEmpty).1 exVials).map (·.map (·.uuid)) = .ok [0, 1, 2, 3, 4] := by rfl

/-- A truncated file. -/
def exCorrupt : Store Nat Nat := fun u => if u = 1 then .corrupt else .absent
example : (missingVials exCorrupt exVials).map (·.map (·.uuid)) = .ok [0, 1, 2, 3, 4] := by rfl
example : (infeasibleVials exCorrupt exVials).map (·.map (·.uuid)) = .error .jsonDecode := by rfl

theorem exBatch_distinct : Distinct exVials := by unfold Distinct; decide
theorem exBatch_done : AllDone exRun := fun _ => ⟨_, rfl⟩
example := C94_zero rounds53_id 5
example := C94_cover (vials := exVials) exEmpty (b := 2) (c := 3) (by decide)
example := C94_files (run := exAbort) exBatch_distinct exEmpty (b := 2) (c := 3) (by decide) (by decide) (p := 1) rfl
example := C94_same (run := exRun) exBatch_distinct exEmpty (b := 2) (c := 3) (by decide) (by decide) (fun _ _ => trivial)
example := C94_negative (vials := exVials) exEmpty (k := 2) (b := 1) (by decide) (by decide)
example := C95_simultaneous (s := exEmpty) (vials := exVials) rfl (b := 2) (c := 3) (by decide)
example := C95_alternate exBatch_done exBatch_distinct (s := exEmpty) rfl (b := 2) (c := 3) (by decide) (by decide) (p := 2) rfl
example := C95_skipped exBatch_done exBatch_distinct (s := exEmpty) rfl (b := 2) (c := 3) (by decide) (by decide)
example := C95_restart exBatch_done exBatch_distinct (s := exEmpty) rfl (b := 2) (c := 3) (by decide)
example := C96_results (run := exRun) (vials := exVials) exEmpty (fun _ _ => trivial)
example := C96_files (run := exAbort) (pre := [⟨1, 0, ()⟩]) (v := ⟨0, 0, ()⟩) (post := [⟨2, 0, ()⟩]) (by unfold Distinct; decide) exEmpty
example := C96_lost (run := exAbort) (pre := [⟨1, 0, ()⟩]) (v := ⟨0, 0, ()⟩) (post := [⟨2, 0, ()⟩]) exEmpty (fun w hw => by obtain rfl := List.mem_singleton.1 hw; trivial)

end Pctsp
