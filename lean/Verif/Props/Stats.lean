import Verif.Model.Stats

/-!
# Properties of the summary statistics (C43, C62) and of the time stamps (C63)
-/

namespace Pctsp

variable {D : Type}

theorem readSummary_write (s : SummaryStats D) (p : Place D) (hp : p.parent = true) :
    readSummary (writeSummary s p) = .ok { s with
      numCostCoverShortestPaths := s.nconssPresolveDisjointPaths, nconssPresolveDisjointPaths := s.numCostCoverShortestPaths } := by
  simp only [writeSummary, hp, if_true, readSummary, SummaryStats.toYaml]
  rfl

/-! ## C43 -/

/-- C43: a round trip keeps all fields but two, and swaps these. -/
theorem C43_round_trip (s : SummaryStats D) (p : Place D) (hp : p.parent = true) :
    ∃ s', readSummary (writeSummary s p) = .ok s' ∧
      s'.status = s.status ∧ s'.lowerBound = s.lowerBound ∧ s'.upperBound = s.upperBound ∧
      s'.numCostCoverDisjointPaths = s.numCostCoverDisjointPaths ∧
      s'.numCostCoverShortestPaths = s.nconssPresolveDisjointPaths ∧
      s'.nconssPresolveDisjointPaths = s.numCostCoverShortestPaths ∧
      s'.nconssPresolveShortestPaths = s.nconssPresolveShortestPaths ∧ s'.numCycleCover = s.numCycleCover ∧
      s'.numNodes = s.numNodes ∧ s'.numSecDisjointTour = s.numSecDisjointTour ∧ s'.numSecMaxflowMincut = s.numSecMaxflowMincut :=
  ⟨_, readSummary_write s p hp, rfl, rfl, rfl, rfl, rfl, rfl, rfl, rfl, rfl, rfl, rfl⟩

/-- C43: the round trip is the identity iff the two fields are equal. -/
theorem C43_identity_iff (s : SummaryStats D) (p : Place D) (hp : p.parent = true) :
    readSummary (writeSummary s p) = .ok s ↔ s.numCostCoverShortestPaths = s.nconssPresolveDisjointPaths := by
  rw [readSummary_write s p hp]
  cases s
  simp only [Except.ok.injEq, SummaryStats.mk.injEq, true_and, and_true]
  exact ⟨fun h => h.2, fun h => ⟨h.symm, h⟩⟩

/-- C43: two round trips are the identity, through any two files. -/
theorem C43_twice (s s' : SummaryStats D) (p q : Place D) (hp : p.parent = true) (hq : q.parent = true)
    (h : readSummary (writeSummary s p) = .ok s') : readSummary (writeSummary s' q) = .ok s := by
  rw [readSummary_write s p hp, Except.ok.injEq] at h
  subst h
  rw [readSummary_write _ q hq]

/-- C43: without the parent directory nothing is written and nothing is reported; reading a missing file throws. -/
theorem C43_no_file (s : SummaryStats D) (p : Place D) :
    (p.parent = false → writeSummary s p = p) ∧ (p.content = none → readSummary p = .error .fileDoesNotExist) := by
  constructor
  · intro h; simp [writeSummary, h]
  · intro h; simp [readSummary, h]

/-- The claim that the round trip is the identity. -/
def SummaryRoundTrips : Prop :=
  ∀ (s : SummaryStats Int) (p : Place Int), p.parent = true → readSummary (writeSummary s p) = .ok s

/-- C43: it is false, for 7 cost cover rows added while solving and 2 before. -/
theorem C43_not_round_trip : ¬ SummaryRoundTrips := by
  intro h
  have := (C43_identity_iff ⟨11, 20, 25, 3, 7, 2, 0, 1, 14, 8, 5⟩ ⟨true, none⟩ rfl).1 (h _ _ rfl)
  revert this; decide

/-- The counters of the summary file. -/
def summaryCounters : List String :=
  ["num_cost_cover_disjoint_paths", "num_cost_cover_shortest_paths", "nconss_presolve_disjoint_paths", "nconss_presolve_shortest_paths",
   "num_cycle_cover", "num_sec_disjoint_tour", "num_sec_maxflow_mincut"]

theorem asNat_ok {y : Yaml D} {key : String} {n : Nat} (h : y.asNat key = .ok n) : y.get key = some (.nat n) ∨ y.get key = some (.int n) := by
  unfold Yaml.asNat at h
  split at h
  · rename_i m hm; injection h with h; subst h; exact .inl hm
  · rename_i i hi
    split at h
    · rename_i h0; injection h with h; subst h; right; rw [hi, Int.toNat_of_nonneg h0]
    · cases h
  · cases h

/-- C43: the reader throws for every file in which a counter is missing, negative or no integer; the exception names a key. -/
theorem C43_bad_counter (parent : Bool) (y : Yaml D) (key : String) (hk : key ∈ summaryCounters)
    (hy : ∀ n : Nat, y.get key ≠ some (.nat n) ∧ y.get key ≠ some (.int n)) :
    ∃ k, readSummary ⟨parent, some y⟩ = .error (.badConversion k) := by
  have hbad : ∀ n, y.asNat key ≠ .ok n := by
    intro n h
    rcases asNat_ok h with h | h
    · exact (hy n).1 h
    · exact (hy n).2 h
  have e1 : ∀ k, (∃ v, y.asNat k = .ok v) ∨ y.asNat k = .error (.badConversion k) := by
    intro k; unfold Yaml.asNat; repeat' split
    all_goals simp
  have e2 : ∀ k, (∃ v, y.asInt k = .ok v) ∨ y.asInt k = .error (.badConversion k) := by
    intro k; unfold Yaml.asInt; repeat' split
    all_goals simp
  have e3 : ∀ k, (∃ v, y.asNum k = .ok v) ∨ y.asNum k = .error (.badConversion k) := by
    intro k; unfold Yaml.asNum; repeat' split
    all_goals simp
  have step : ∀ {α β : Type} {x : Except ReadError α} {k : String} {f : α → Except ReadError β},
      ((∃ v, x = .ok v) ∨ x = .error (.badConversion k)) → (∀ v, x = .ok v → ∃ k, f v = .error (.badConversion k)) →
      ∃ k, (x >>= f) = .error (.badConversion k) := by
    rintro α β x k f (⟨v, rfl⟩ | rfl) h
    · exact h v rfl
    · exact ⟨k, rfl⟩
  simp only [readSummary]
  refine step (e2 _) fun _ _ => step (e3 _) fun _ _ => step (e3 _) fun _ _ => ?_
  refine step (e1 _) fun _ h1 => step (e1 _) fun _ h2 => step (e1 _) fun _ h3 => step (e1 _) fun _ h4 => step (e1 _) fun _ h5 => ?_
  refine step (e2 _) fun _ _ => step (e1 _) fun _ h6 => step (e1 _) fun _ h7 => ?_
  exfalso
  simp only [summaryCounters, List.mem_cons, List.not_mem_nil, or_false] at hk
  rcases hk with rfl | rfl | rfl | rfl | rfl | rfl | rfl
  · exact hbad _ h1
  · exact hbad _ h3
  · exact hbad _ h2
  · exact hbad _ h4
  · exact hbad _ h5
  · exact hbad _ h6
  · exact hbad _ h7

-- a negative counter in an otherwise complete file
example : ∃ k, readSummary (D := Int) ⟨true, some [("status", .int 11), ("lower_bound", .num 20), ("upper_bound", .num 25),
    ("num_cost_cover_disjoint_paths", .nat 1), ("num_cost_cover_shortest_paths", .nat 1), ("nconss_presolve_disjoint_paths", .int (-1)),
    ("nconss_presolve_shortest_paths", .nat 1), ("num_cycle_cover", .nat 1), ("num_nodes", .int 1), ("num_sec_disjoint_tour", .nat 1),
    ("num_sec_maxflow_mincut", .nat 1)]⟩ = .error (.badConversion k) :=
  C43_bad_counter true _ "nconss_presolve_disjoint_paths" (by decide) (by intro n; constructor <;> simp [Yaml.get] <;> omega)

/-! ## C62 -/

/-- C62: the Python reader returns exactly what was written, so it disagrees with the C++ reader of the same file unless the two
fields are equal. -/
theorem C62_python_reader (s : SummaryStats D) (p : Place D) (hp : p.parent = true) :
    readSummaryPy (writeSummary s p) = .ok s ∧
      (readSummaryPy (writeSummary s p) = readSummary (writeSummary s p) ↔
        s.numCostCoverShortestPaths = s.nconssPresolveDisjointPaths) := by
  have h1 : readSummaryPy (writeSummary s p) = .ok s := by
    simp only [writeSummary, hp, if_true, readSummaryPy, SummaryStats.toYaml]
    rfl
  exact ⟨h1, by rw [h1, ← C43_identity_iff s p hp]; exact eq_comm⟩

example : (⟨true, none⟩ : Place Int).parent = true ∧ readSummaryPy (writeSummary ⟨11, 20, 25, 3, 7, 2, 0, 1, 14, 8, 5⟩ ⟨true, none⟩) =
    Except.ok (⟨11, 20, 25, 3, 7, 2, 0, 1, 14, 8, 5⟩ : SummaryStats Int) := ⟨rfl, rfl⟩

/-! ## C63 -/

/-- The milliseconds that a reader takes from the digits after the decimal point of the seconds (at most three digits). -/
def readMillis (ds : List Nat) : Nat := ds.foldl (fun a d => 10 * a + d) 0 * 10 ^ (3 - ds.length)

/-- C63: the fraction of a time stamp means the milliseconds iff they are zero or have three digits. -/
theorem C63_fraction_iff (ms : Nat) (h : ms < 1000) : readMillis (fractionDigits ms) = ms ↔ ms = 0 ∨ 100 ≤ ms := by
  unfold fractionDigits readMillis
  by_cases h1 : ms < 10
  · rw [if_pos h1]; simp; omega
  · rw [if_neg h1]
    by_cases h2 : ms < 100
    · rw [if_pos h2]; simp; omega
    · rw [if_neg h2]; simp; omega

/-- C63: so time stamps are neither ordered like the times nor do they determine them. -/
theorem C63_not_monotone :
    ¬ (∀ a b, a < b → b < 1000 → readMillis (fractionDigits a) ≤ readMillis (fractionDigits b)) ∧
      ∃ a b, a < b ∧ b < 1000 ∧ readMillis (fractionDigits a) = readMillis (fractionDigits b) := by
  constructor
  · intro h; exact absurd (h 5 10 (by decide) (by decide)) (by decide)
  · exact ⟨5, 50, by decide, by decide, by decide⟩

example : readMillis (fractionDigits 7) = 700 ∧ readMillis (fractionDigits 345) = 345 := by decide

example := C43_round_trip (⟨11, 20, 25, 3, 7, 2, 0, 1, 14, 8, 5⟩ : SummaryStats Int) ⟨true, none⟩ rfl
example := C43_identity_iff (⟨11, 20, 25, 3, 7, 2, 0, 1, 14, 8, 5⟩ : SummaryStats Int) ⟨true, none⟩ rfl
example := C43_twice (⟨11, 20, 25, 3, 7, 2, 0, 1, 14, 8, 5⟩ : SummaryStats Int) _ ⟨true, none⟩ ⟨true, none⟩ rfl rfl rfl
example := C63_fraction_iff 7 (by decide)

end Pctsp
