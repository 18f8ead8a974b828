import Verif.Lemmas.Logs

/-!
# Properties of the tables of statistics (C107), of the history of the bounds (C108) and of the level of the log (C109)
-/

namespace Pctsp

variable {D : Type}

/-! ## C107 -/

/-- No printed number or time stamp contains a comma or a line break. -/
def Printer.Plain (pr : Printer D) : Prop :=
  (∀ x, ',' ∉ pr.num x ∧ '\n' ∉ pr.num x) ∧ (∀ n, ',' ∉ pr.nat n ∧ '\n' ∉ pr.nat n) ∧ ∀ t, ',' ∉ pr.time t ∧ '\n' ∉ pr.time t

/-- The cell in line `i` (the first line is the header) of the column with a name. -/
def tableCell (text : List Char) (i : Nat) (name : String) : Option (List Char) := do
  let header ← (readTable text)[0]?
  let row ← (readTable text)[i]?
  let p ← (header.zip row).find? fun p => p.1 == name.toList
  some p.2

theorem nodeHeader : writeRowCSV (nodeStatsColNames.map String.toList) =
    "lower_bound,node_id,num_sec_disjoint_tour,num_sec_maxflow_mincut,num_cost_cover_disjoint_paths,num_cost_cover_shortest_paths,num_cost_cover_steiner_tree,parent_id,upper_bound".toList
      ++ ['\n'] := by decide +kernel

theorem boundsHeader : writeRowCSV (boundsColNames.map String.toList) =
    "start_timestamp,end_timestamp,lower_bound,upper_bound,node_id".toList ++ ['\n'] := by decide +kernel

theorem table_of {α : Type} (header : List Char) (line : α → List Char) (xs : List α) (h0 : '\n' ∉ header) (h : ∀ x, '\n' ∉ line x) :
    readTable ((header ++ ['\n']) ++ xs.flatMap fun x => line x ++ ['\n']) = cutAt ',' header :: xs.map fun x => cutAt ',' (line x) := by
  have := readTable_rows (header :: xs.map line) (by
    intro l hl
    rcases List.mem_cons.1 hl with rfl | hl
    · exact h0
    · obtain ⟨x, _, rfl⟩ := List.mem_map.1 hl; exact h x)
  rw [List.flatMap_cons, List.flatMap_map] at this
  rw [this, List.map_cons, List.map_map]
  rfl

/-- C107: the node statistics in a file.  Every record is a line of nine cells, and the cell below a name is the field of that name. -/
theorem C107_nodes (pr : Printer D) (hpr : pr.Plain) (stats : List (NodeStats D)) (p : TextPlace) (hp : p.parent = true) :
    ∃ text, (writeNodeStatsToCSV pr stats p).content = some text ∧ (readTable text).length = stats.length + 1 ∧
      (∀ row ∈ readTable text, row.length = 9) ∧
      ∀ (i : Nat) (s : NodeStats D), stats[i]? = some s →
        tableCell text (i + 1) "lower_bound" = some (pr.num s.lowerBound) ∧
        tableCell text (i + 1) "upper_bound" = some (pr.num s.upperBound) ∧
        tableCell text (i + 1) "node_id" = some (pr.nat s.nodeId) ∧
        tableCell text (i + 1) "parent_id" = some (pr.nat s.parentId) ∧
        tableCell text (i + 1) "num_sec_disjoint_tour" = some (pr.nat s.numSecDisjointTour) ∧
        tableCell text (i + 1) "num_sec_maxflow_mincut" = some (pr.nat s.numSecMaxflowMincut) ∧
        tableCell text (i + 1) "num_cost_cover_disjoint_paths" = some (pr.nat s.numCostCoverDisjointPaths) ∧
        tableCell text (i + 1) "num_cost_cover_shortest_paths" = some (pr.nat s.numCostCoverShortestPaths) ∧
        tableCell text (i + 1) "num_cost_cover_steiner_tree" = some (pr.nat s.numCostCoverSteinerTree) := by
  obtain ⟨q1, q2, q3⟩ := hpr
  let line : NodeStats D → List Char := fun s => pr.num s.lowerBound ++ ',' :: (pr.nat s.nodeId ++ ',' :: (pr.nat s.numSecDisjointTour ++ ',' ::
    (pr.nat s.numSecMaxflowMincut ++ ',' :: (pr.nat s.numCostCoverDisjointPaths ++ ',' :: (pr.nat s.numCostCoverShortestPaths ++ ',' ::
    (pr.nat s.numCostCoverSteinerTree ++ ',' :: (pr.nat s.parentId ++ ',' :: pr.num s.upperBound)))))))
  have hl : ∀ s, writeNodeStatsRow pr s = line s ++ ['\n'] := by intro s; simp [writeNodeStatsRow, line]
  have hn : ∀ s, '\n' ∉ line s := by
    intro s
    simp only [line, List.mem_append, List.mem_cons, not_or]
    refine ⟨(q1 _).2, by decide, (q2 _).2, by decide, (q2 _).2, by decide, (q2 _).2, by decide, (q2 _).2, by decide, (q2 _).2, by decide,
      (q2 _).2, by decide, (q2 _).2, by decide, (q1 _).2⟩
  have hc : ∀ s, cutAt ',' (line s) = [pr.num s.lowerBound, pr.nat s.nodeId, pr.nat s.numSecDisjointTour, pr.nat s.numSecMaxflowMincut,
      pr.nat s.numCostCoverDisjointPaths, pr.nat s.numCostCoverShortestPaths, pr.nat s.numCostCoverSteinerTree, pr.nat s.parentId,
      pr.num s.upperBound] := by
    intro s
    simp only [line]
    rw [cutAt_append _ (q1 _).1, cutAt_append _ (q2 _).1, cutAt_append _ (q2 _).1, cutAt_append _ (q2 _).1, cutAt_append _ (q2 _).1,
      cutAt_append _ (q2 _).1, cutAt_append _ (q2 _).1, cutAt_append _ (q2 _).1, cutAt_plain (q1 _).1]
  have hh : cutAt ',' "lower_bound,node_id,num_sec_disjoint_tour,num_sec_maxflow_mincut,num_cost_cover_disjoint_paths,num_cost_cover_shortest_paths,num_cost_cover_steiner_tree,parent_id,upper_bound".toList
      = nodeStatsColNames.map String.toList := by decide +kernel
  simp only [writeNodeStatsToCSV, hp, if_true, foldl_append_flatMap, nodeHeader, hl]
  refine ⟨_, rfl, ?_⟩
  unfold tableCell
  rw [table_of _ line stats (by decide +kernel) hn, hh]
  simp only [hc]
  refine ⟨by simp, ?_, ?_⟩
  · intro row hrow
    rcases List.mem_cons.1 hrow with rfl | hrow
    · rfl
    · obtain ⟨s, _, rfl⟩ := List.mem_map.1 hrow; rfl
  · intro i s hs
    simp only [List.getElem?_cons_zero, List.getElem?_cons_succ, List.getElem?_map, hs, Option.map_some]
    refine ⟨?_, ?_, ?_, ?_, ?_, ?_, ?_, ?_, ?_⟩ <;> rfl

/-- C107: the history of the bounds in a file, line by line. -/
theorem C107_bounds (pr : Printer D) (hpr : pr.Plain) (bounds : List (BoundsRecord D)) (p : TextPlace) (hp : p.parent = true) :
    ∃ text, (writeBoundsToCSV pr bounds p).content = some text ∧ (readTable text).length = bounds.length + 1 ∧
      (∀ row ∈ readTable text, row.length = 5) ∧
      ∀ (i : Nat) (b : BoundsRecord D), bounds[i]? = some b →
        tableCell text (i + 1) "start_timestamp" = some (pr.time b.start) ∧
        tableCell text (i + 1) "end_timestamp" = some (pr.time b.stop) ∧
        tableCell text (i + 1) "lower_bound" = some (pr.num b.lowerBound) ∧
        tableCell text (i + 1) "upper_bound" = some (pr.num b.upperBound) ∧
        tableCell text (i + 1) "node_id" = some (pr.nat b.nodeId) := by
  obtain ⟨q1, q2, q3⟩ := hpr
  let line : BoundsRecord D → List Char := fun b => pr.time b.start ++ ',' :: (pr.time b.stop ++ ',' :: (pr.num b.lowerBound ++ ',' ::
    (pr.num b.upperBound ++ ',' :: pr.nat b.nodeId)))
  have hl : ∀ b, writeBoundsRow pr b = line b ++ ['\n'] := by intro b; simp [writeBoundsRow, line]
  have hn : ∀ b, '\n' ∉ line b := by
    intro b
    simp only [line, List.mem_append, List.mem_cons, not_or]
    exact ⟨(q3 _).2, by decide, (q3 _).2, by decide, (q1 _).2, by decide, (q1 _).2, by decide, (q2 _).2⟩
  have hc : ∀ b, cutAt ',' (line b) = [pr.time b.start, pr.time b.stop, pr.num b.lowerBound, pr.num b.upperBound, pr.nat b.nodeId] := by
    intro b
    simp only [line]
    rw [cutAt_append _ (q3 _).1, cutAt_append _ (q3 _).1, cutAt_append _ (q1 _).1, cutAt_append _ (q1 _).1, cutAt_plain (q2 _).1]
  have hh : cutAt ',' "start_timestamp,end_timestamp,lower_bound,upper_bound,node_id".toList = boundsColNames.map String.toList := by
    decide +kernel
  simp only [writeBoundsToCSV, hp, if_true, foldl_append_flatMap, boundsHeader, hl]
  refine ⟨_, rfl, ?_⟩
  unfold tableCell
  rw [table_of _ line bounds (by decide +kernel) hn, hh]
  simp only [hc]
  refine ⟨by simp, ?_, ?_⟩
  · intro row hrow
    rcases List.mem_cons.1 hrow with rfl | hrow
    · rfl
    · obtain ⟨s, _, rfl⟩ := List.mem_map.1 hrow; rfl
  · intro i b hb
    simp only [List.getElem?_cons_zero, List.getElem?_cons_succ, List.getElem?_map, hb, Option.map_some]
    refine ⟨?_, ?_, ?_, ?_, ?_⟩ <;> rfl

/-- C107: without the directory nothing is written, nothing is reported, and an old file stays. -/
theorem C107_no_directory (pr : Printer D) (stats : List (NodeStats D)) (bounds : List (BoundsRecord D)) (p : TextPlace)
    (hp : p.parent = false) : writeNodeStatsToCSV pr stats p = p ∧ writeBoundsToCSV pr bounds p = p := by
  simp [writeNodeStatsToCSV, writeBoundsToCSV, hp]

/-- C107: a bound that is an integer keeps its value in the file iff it is below a million or all its digits after the first six are
zero; the error is at most half a unit of the sixth digit; and the order of two bounds is never reversed. -/
theorem C107_precision (n : Nat) :
    (print6 n = n ↔ n < 10 ^ 6 ∨ ∃ k, 10 ^ (k + 5) ≤ n ∧ n < 10 ^ (k + 6) ∧ 10 ^ k ∣ n) ∧
    (∀ k, 10 ^ (k + 5) ≤ n → n < 10 ^ (k + 6) → 2 * print6 n ≤ 2 * n + 10 ^ k ∧ 2 * n ≤ 2 * print6 n + 10 ^ k) ∧
    ∀ m, n ≤ m → print6 n ≤ print6 m := by
  have hk : ∀ k, 10 ^ (k + 5) ≤ n → n < 10 ^ (k + 6) → droppedDigits n = k := by
    intro k h1 h2
    have : Nat.log 10 n = k + 5 := (Nat.log_eq_iff (by omega)).2 ⟨h1, h2⟩
    unfold droppedDigits; omega
  have hd : 0 < 10 ^ droppedDigits n := by positivity
  refine ⟨⟨fun h => ?_, fun h => ?_⟩, fun k h1 h2 => ?_, fun m hm => print6_mono hm⟩
  · by_cases h0 : droppedDigits n = 0
    · left; have := lt_dropped (n := n); rwa [h0] at this
    · exact Or.inr ⟨droppedDigits n, dropped_le h0, lt_dropped, ⟨_, by rw [Nat.mul_comm]; exact h.symm⟩⟩
  · have hdvd : 10 ^ droppedDigits n ∣ n := by
      rcases h with h | ⟨k, h1, h2, h3⟩
      · rw [dropped_small h]; exact one_dvd _
      · rw [hk k h1 h2]; exact h3
    unfold print6 divRound
    rw [Nat.mod_eq_zero_of_dvd hdvd, if_pos (by omega), Nat.div_mul_cancel hdvd]
  · have := divRound_err n hd
    rw [hk k h1 h2] at this
    unfold print6; rw [hk k h1 h2]; exact this

/-- The claim that different integral bounds are different in the file. -/
def BoundsKept : Prop := ∀ m n : Nat, print6 m = print6 n → m = n

/-- C107: it is false. -/
theorem C107_not_kept : ¬ BoundsKept := by
  intro h
  have e1 : droppedDigits 1234567 = 1 := by
    have : Nat.log 10 1234567 = 6 := (Nat.log_eq_iff (by omega)).2 (by omega)
    unfold droppedDigits; omega
  have e2 : droppedDigits 1234571 = 1 := by
    have : Nat.log 10 1234571 = 6 := (Nat.log_eq_iff (by omega)).2 (by omega)
    unfold droppedDigits; omega
  have := h 1234567 1234571 (by unfold print6; rw [e1, e2]; rfl)
  omega

/-- Decimal digits. -/
def decimalPrinter : Printer Nat := ⟨Nat.toDigits 10, Nat.toDigits 10, Nat.toDigits 10⟩

theorem decimalPrinter_plain : decimalPrinter.Plain := by
  have h : ∀ n, ',' ∉ Nat.toDigits 10 n ∧ '\n' ∉ Nat.toDigits 10 n := fun n =>
    ⟨fun h => by have := Nat.isDigit_of_mem_toDigits (by decide) (by decide) h; revert this; decide,
     fun h => by have := Nat.isDigit_of_mem_toDigits (by decide) (by decide) h; revert this; decide⟩
  exact ⟨h, h, h⟩

-- two records of nodes, written into an existing directory over an old file
example : ∃ text, (writeNodeStatsToCSV decimalPrinter [⟨20, 1, 3, 0, 0, 0, 0, 1, 35⟩, ⟨24, 2, 0, 7, 1, 0, 0, 1, 30⟩] ⟨true, some ['x']⟩).content
      = some text ∧ tableCell text 2 "num_sec_maxflow_mincut" = some ['7'] := by
  obtain ⟨text, h1, _, _, h2⟩ := C107_nodes decimalPrinter decimalPrinter_plain
    [⟨20, 1, 3, 0, 0, 0, 0, 1, 35⟩, ⟨24, 2, 0, 7, 1, 0, 0, 1, 30⟩] ⟨true, some ['x']⟩ rfl
  exact ⟨text, h1, (h2 1 _ rfl).2.2.2.2.2.1⟩

-- a record of bounds
example : ∃ text, (writeBoundsToCSV decimalPrinter [⟨5, 9, 20, 35, 1⟩] ⟨true, none⟩).content = some text ∧
    tableCell text 1 "end_timestamp" = some ['9'] := by
  obtain ⟨text, h1, _, _, h2⟩ := C107_bounds decimalPrinter decimalPrinter_plain [⟨5, 9, 20, 35, 1⟩] ⟨true, none⟩ rfl
  exact ⟨text, h1, (h2 0 _ rfl).2.1⟩

-- without the directory
example : writeNodeStatsToCSV decimalPrinter [⟨20, 1, 3, 0, 0, 0, 0, 1, 35⟩] ⟨false, some ['x']⟩ = ⟨false, some ['x']⟩ :=
  (C107_no_directory decimalPrinter _ [] _ rfl).1

-- 1234500000 is kept; 1234567 is printed with an error of at most 5
example : print6 1234500000 = 1234500000 ∧ 2 * print6 1234567 ≤ 2 * 1234567 + 10 ∧ print6 1234567 ≤ print6 1234568 :=
  ⟨(C107_precision _).1.2 (Or.inr ⟨4, by omega, by omega, by omega⟩), ((C107_precision 1234567).2.1 1 (by omega) (by omega)).1,
   (C107_precision _).2.2 _ (by omega)⟩

/-! ## C108 -/

/-- C108: the history is undefined iff an event has no current node; nothing is thrown. -/
theorem C108_total (t₀ : Nat) (es : List (LpSolved D)) :
    ((∃ s, boundsRun (boundsNew t₀) es = .ok s) ↔ ∀ e ∈ es, e.node ≠ none) ∧
      ((∃ w, boundsRun (boundsNew t₀) es = .ub w) ↔ ∃ e ∈ es, e.node = none) := by
  have h1 : (∀ e ∈ es, e.node ≠ none) → ∃ s, boundsRun (boundsNew (D := D) t₀) es = .ok s := fun h => by
    obtain ⟨s, hs, _⟩ := boundsRun_ok es (boundsNew t₀) fun e he => Option.isSome_iff_ne_none.2 (h e he)
    exact ⟨s, hs⟩
  have h2 : (∃ e ∈ es, e.node = none) → ∃ w, boundsRun (boundsNew (D := D) t₀) es = .ub w := boundsRun_ub es _
  refine ⟨⟨fun ⟨s, hs⟩ e he hn => ?_, h1⟩, ⟨fun ⟨w, hw⟩ => ?_, h2⟩⟩
  · obtain ⟨w, hw⟩ := h2 ⟨e, he, hn⟩; rw [hs] at hw; cases hw
  · by_contra h
    obtain ⟨s, hs⟩ := h1 fun e he hn => h ⟨e, he, hn⟩
    rw [hw] at hs; cases hs

/-- C108: the history has a record for each event, in order: its bounds, the number of its node in 32 bits, the first reading of the
clock at the event as its end, and as its start the second reading at the event before, or the reading when the handler was made. -/
theorem C108_records (t₀ : Nat) (es : List (LpSolved D)) (s : BoundsState D) (h : boundsRun (boundsNew t₀) es = .ok s) :
    s.records.length = es.length ∧
    ∀ (i : Nat) (e : LpSolved D), es[i]? = some e → ∃ r, s.records[i]? = some r ∧ r.stop = e.now₁ / 1000000 ∧
      r.lowerBound = e.lower ∧ r.upperBound = e.upper ∧ (∀ n, e.node = some n → r.nodeId = n % 2 ^ 32) ∧
      (i = 0 → r.start = t₀ / 1000000) ∧
      ∀ (j : Nat) (e' : LpSolved D), i = j + 1 → es[j]? = some e' → r.start = e'.now₂ / 1000000 := by
  obtain ⟨h1, _, _, h4⟩ := boundsRun_record es _ s h
  simp only [boundsNew, List.length_nil, Nat.zero_add] at h1 h4
  exact ⟨h1, h4⟩

/-- C108: if the clock is never set back, the intervals of the history are ordered and do not overlap, none ends before it starts, and
together they last at most as long as the time from the making of the handler to the last event. -/
theorem C108_intervals (t₀ : Nat) (es : List (LpSolved D)) (s : BoundsState D) (h : boundsRun (boundsNew t₀) es = .ok s)
    (hclock : (t₀ :: es.flatMap fun e => [e.now₁, e.now₂]).Pairwise (· ≤ ·)) :
    (s.records.flatMap fun r => [r.start, r.stop]).Pairwise (· ≤ ·) ∧
      ∀ e, es.getLast? = some e → (s.records.map fun r => r.stop - r.start).sum ≤ e.now₂ / 1000000 - t₀ / 1000000 := by
  rw [List.pairwise_cons] at hclock
  obtain ⟨new, n1, n2, _, n4⟩ := boundsRun_intervals es _ s h (fun x hx => toMillis_mono (hclock.1 x hx)) hclock.2
  obtain ⟨_, _, h3, _⟩ := boundsRun_record es _ s h
  simp only [boundsNew, List.nil_append] at n1 n4 h3
  rw [n1]
  refine ⟨n2, fun e he => ?_⟩
  rw [he] at h3
  simp only [Option.map_some, Option.getD_some] at h3
  rw [h3] at n4
  exact Nat.le_sub_of_add_le n4

/-- The claim that no interval ends before it starts, whatever the clock does. -/
def IntervalsForward : Prop :=
  ∀ (t₀ : Nat) (es : List (LpSolved Int)) (s : BoundsState Int), boundsRun (boundsNew t₀) es = .ok s → ∀ r ∈ s.records, r.start ≤ r.stop

/-- C108: it is false: the system clock may be set back between two events. -/
theorem C108_not_forward : ¬ IntervalsForward := by
  intro h
  have := h 5000000 [⟨9000000, 9000000, 20, 35, some 1⟩, ⟨7000000, 7500000, 21, 35, some 1⟩]
    ⟨7, [⟨5, 9, 20, 35, 1⟩, ⟨9, 7, 21, 35, 1⟩]⟩ (by decide +kernel) ⟨9, 7, 21, 35, 1⟩ (by decide)
  revert this; decide

-- two events
example : ∃ s : BoundsState Int, boundsRun (boundsNew 5000000) [⟨9000000, 9100000, 20, 35, some 1⟩, ⟨12000000, 12500000, 21, 35, some 3⟩] = .ok s ∧
    s.records.length = 2 ∧ (s.records.flatMap fun r => [r.start, r.stop]).Pairwise (· ≤ ·) := by
  obtain ⟨s, hs⟩ := (C108_total (D := Int) 5000000 [⟨9000000, 9100000, 20, 35, some 1⟩, ⟨12000000, 12500000, 21, 35, some 3⟩]).1.2 (by decide)
  exact ⟨s, hs, (C108_records _ _ s hs).1, (C108_intervals _ _ s hs (by decide)).1⟩

/-! ## C109 -/

/-- The levels of Python. -/
def pyLevels : List Int := [0, 10, 20, 30, 40, 50]

/-- C109: for each level of Python (NOTSET, DEBUG, INFO, WARNING, ERROR, CRITICAL) exactly the messages of the level of the same name
(TRACE for NOTSET) and above are written; for every other number those of INFO and above. -/
theorem C109_shown (py : Int) (severity : Nat) (hs : severity ≤ 5) :
    (py ∈ pyLevels → (logShows (boostLevel py) severity = true ↔ py ≤ 10 * severity)) ∧
      (py ∉ pyLevels → (logShows (boostLevel py) severity = true ↔ 2 ≤ severity)) := by
  simp only [pyLevels, List.mem_cons, List.not_mem_nil, or_false, not_or, logShows, boostLevel]
  constructor
  · rintro (rfl | rfl | rfl | rfl | rfl | rfl) <;> norm_num <;> omega
  · rintro ⟨h0, h1, h2, h3, h4, h5⟩
    simp only [if_neg h0, if_neg h1, if_neg h2, if_neg h3, if_neg h4, if_neg h5, ge_iff_le, decide_eq_true_eq]

/-- C109: a higher number writes more iff it is no level of Python and the lower one is WARNING or above, or the lower one is no level
and the higher one is NOTSET or DEBUG. -/
theorem C109_reversed_iff (a b : Int) (hab : a ≤ b) :
    (∃ severity ≤ 5, logShows (boostLevel b) severity = true ∧ logShows (boostLevel a) severity = false) ↔
      (30 ≤ a ∧ a ∈ pyLevels ∧ b ∉ pyLevels) ∨ (a ∉ pyLevels ∧ b ∈ pyLevels ∧ b ≤ 10) := by
  have key : (∃ severity ≤ 5, logShows (boostLevel b) severity = true ∧ logShows (boostLevel a) severity = false) ↔
      boostLevel b < boostLevel a := by
    have hb : boostLevel b ≤ 5 := by unfold boostLevel; split_ifs <;> omega
    constructor
    · rintro ⟨v, _, h1, h2⟩
      simp only [logShows, decide_eq_true_eq, decide_eq_false_iff_not] at h1 h2; omega
    · intro h
      exact ⟨boostLevel b, hb, by simp [logShows], by simp only [logShows, decide_eq_false_iff_not]; omega⟩
  rw [key]
  simp only [pyLevels, List.mem_cons, List.not_mem_nil, or_false, not_or]
  unfold boostLevel
  split_ifs <;> omega

example : logShows (boostLevel 30) 3 = true ∧ (∃ severity ≤ 5, logShows (boostLevel 35) severity = true ∧ logShows (boostLevel 30) severity = false) :=
  ⟨((C109_shown 30 3 (by decide)).1 (by decide)).2 (by decide), (C109_reversed_iff 30 35 (by decide)).2 (by decide)⟩

end Pctsp
