import Verif.Model.ScipLog
import Mathlib.Data.List.Nodup

/-!
# C163: the log file of the solver
-/

namespace Pctsp

theorem writeAt_nil (t : List Char) : writeAt [] 0 t = t := by simp [writeAt]

theorem writeAt_append (a b t : List Char) : writeAt (a ++ b) a.length t = a ++ t ++ b.drop t.length := by
  simp [writeAt, List.drop_append]

/-- What the runs of a process leave, with the streams that are open. -/
theorem logRuns_spec (room : Nat) : ∀ (rs : List LoggedRun) (s : LogDisk), s.streams.length ≤ room → (rs.map (·.dir)).Nodup →
    (logRuns room s rs).streams = ((rs.take (room - s.streams.length)).map fun r => (r.dir, r.shown.length, r.rest)).reverse ++ s.streams ∧
    (∀ (i : Nat) (h : i < rs.length), (logRuns room s rs).files rs[i].dir =
      if s.streams.length + i < room then rs[i].shown ++ rs[i].late else s.files rs[i].dir ++ rs[i].early ++ rs[i].late ++ (rs[i].shown ++ rs[i].rest)) ∧
    ∀ d, d ∉ rs.map (·.dir) → (logRuns room s rs).files d = s.files d
  | [], s, _, _ => by simp [logRuns]
  | r :: rs, s, hs, hn => by
    rw [List.map_cons, List.nodup_cons] at hn
    by_cases hr : s.streams.length < room
    · have e : logRun room s r = { files := setLog s.files r.dir (r.shown ++ r.late), streams := (r.dir, r.shown.length, r.rest) :: s.streams } := by
        simp [logRun, hr, writeAt_nil]
      obtain ⟨h1, h2, h3⟩ := logRuns_spec room rs (logRun room s r) (by rw [e]; simp only [List.length_cons]; omega) hn.2
      simp only [logRuns, List.foldl_cons] at h1 h2 h3 ⊢
      refine ⟨?_, ?_, ?_⟩
      · rw [h1, e]
        obtain ⟨k, hk⟩ : ∃ k, room - s.streams.length = k + 1 := ⟨room - s.streams.length - 1, by omega⟩
        rw [hk, List.length_cons, show room - (s.streams.length + 1) = k by omega]
        simp
      · intro i hi
        cases i with
        | zero => rw [List.getElem_cons_zero, h3 r.dir hn.1, e]; simp [setLog, hr]
        | succ i =>
          have hi' : i < rs.length := by simpa using hi
          rw [List.getElem_cons_succ, h2 i hi', e]
          have hne : rs[i].dir ≠ r.dir := fun h => hn.1 (by rw [← h]; exact List.mem_map_of_mem (List.getElem_mem hi'))
          simp only [List.length_cons, setLog, if_neg hne]
          rw [show s.streams.length + 1 + i = s.streams.length + (i + 1) by omega]
      · intro d hd
        rw [List.map_cons, List.mem_cons, not_or] at hd
        rw [h3 d hd.2, e]
        simp [setLog, hd.1]
    · have e : logRun room s r = { s with files := setLog s.files r.dir (s.files r.dir ++ r.early ++ r.late ++ (r.shown ++ r.rest)) } := by
        simp [logRun, hr]
      obtain ⟨h1, h2, h3⟩ := logRuns_spec room rs (logRun room s r) (by rw [e]; exact hs) hn.2
      simp only [logRuns, List.foldl_cons] at h1 h2 h3 ⊢
      refine ⟨?_, ?_, ?_⟩
      · rw [h1, e, show room - s.streams.length = 0 by omega]
        simp
      · intro i hi
        cases i with
        | zero => rw [List.getElem_cons_zero, h3 r.dir hn.1, e]; simp [setLog, hr]
        | succ i =>
          have hi' : i < rs.length := by simpa using hi
          rw [List.getElem_cons_succ, h2 i hi', e]
          have hne : rs[i].dir ≠ r.dir := fun h => hn.1 (by rw [← h]; exact List.mem_map_of_mem (List.getElem_mem hi'))
          simp only [setLog, if_neg hne]
          rw [if_neg (by omega), if_neg (by omega)]
      · intro d hd
        rw [List.map_cons, List.mem_cons, not_or] at hd
        rw [h3 d hd.2, e]
        simp [setLog, hd.1]

/-- Streams of pairwise different files: each changes its own file only. -/
theorem flush_spec : ∀ (l : List (Nat × Nat × List Char)) (files : Nat → List Char), (l.map (·.1)).Nodup →
    (∀ x ∈ l, (l.foldl (fun files x => setLog files x.1 (writeAt (files x.1) x.2.1 x.2.2)) files) x.1 = writeAt (files x.1) x.2.1 x.2.2) ∧
    ∀ d, d ∉ l.map (·.1) → (l.foldl (fun files x => setLog files x.1 (writeAt (files x.1) x.2.1 x.2.2)) files) d = files d
  | [], _, _ => by simp
  | y :: l, files, hn => by
    rw [List.map_cons, List.nodup_cons] at hn
    obtain ⟨h1, h2⟩ := flush_spec l (setLog files y.1 (writeAt (files y.1) y.2.1 y.2.2)) hn.2
    simp only [List.foldl_cons]
    constructor
    · intro x hx
      rcases List.mem_cons.1 hx with rfl | hx
      · rw [h2 _ hn.1]
        simp [setLog]
      · have hne : x.1 ≠ y.1 := fun h => hn.1 (by rw [← h]; exact List.mem_map_of_mem hx)
        rw [h1 x hx]
        simp [setLog, hne]
    · intro d hd
      rw [List.map_cons, List.mem_cons, not_or] at hd
      rw [h2 d hd.2]
      simp [setLog, hd.1]

/-- **C163.** A process that runs the solver in different directories and is killed: the log of each of the first `room` runs has lost what was in it before and the messages that had been written, and of
SCIP's statistics it has the part that was written at once; the log of each later run has everything.  One stream stays open for each of the first `room` runs. -/
theorem C163_killed (room : Nat) (rs : List LoggedRun) (files : Nat → List Char) (hn : (rs.map (·.dir)).Nodup) :
    (logRuns room ⟨files, []⟩ rs).streams.length = min room rs.length ∧
    (∀ (i : Nat) (h : i < rs.length), (i < room → (logRuns room ⟨files, []⟩ rs).files rs[i].dir = rs[i].shown ++ rs[i].late) ∧
      (room ≤ i → (logRuns room ⟨files, []⟩ rs).files rs[i].dir = files rs[i].dir ++ rs[i].early ++ rs[i].late ++ (rs[i].shown ++ rs[i].rest))) ∧
    ∀ d, d ∉ rs.map (·.dir) → (logRuns room ⟨files, []⟩ rs).files d = files d := by
  obtain ⟨h1, h2, h3⟩ := logRuns_spec room rs ⟨files, []⟩ (Nat.zero_le _) hn
  refine ⟨by rw [h1]; simp, fun i h => ?_, h3⟩
  have := h2 i h
  simp only [List.length_nil, Nat.zero_add] at this
  exact ⟨fun hi => by rw [this, if_pos hi], fun hi => by rw [this, if_neg (by omega)]⟩

/-- **C163.** If the process ends by itself, the log of each of the first `room` runs starts with all of SCIP's statistics; of the messages it has at most the end, namely what was in the buffer without as
many characters as the buffer of the statistics held.  So the log never has the messages that were on the disk. -/
theorem C163_exit (room : Nat) (rs : List LoggedRun) (files : Nat → List Char) (hn : (rs.map (·.dir)).Nodup) :
    (∀ (i : Nat) (h : i < rs.length), (i < room → logExit (logRuns room ⟨files, []⟩ rs) rs[i].dir = rs[i].shown ++ rs[i].rest ++ rs[i].late.drop rs[i].rest.length) ∧
      (room ≤ i → logExit (logRuns room ⟨files, []⟩ rs) rs[i].dir = files rs[i].dir ++ rs[i].early ++ rs[i].late ++ (rs[i].shown ++ rs[i].rest))) ∧
    ∀ d, d ∉ rs.map (·.dir) → logExit (logRuns room ⟨files, []⟩ rs) d = files d := by
  obtain ⟨h1, h2, h3⟩ := logRuns_spec room rs ⟨files, []⟩ (Nat.zero_le _) hn
  simp only [List.length_nil, Nat.sub_zero, List.append_nil, Nat.zero_add] at h1 h2
  have hdirs : (logRuns room ⟨files, []⟩ rs).streams.map (·.1) = ((rs.take room).map (·.dir)).reverse := by
    rw [h1, List.map_reverse, List.map_map]
    rfl
  have hnd : ((logRuns room ⟨files, []⟩ rs).streams.map (·.1)).Nodup := by
    rw [hdirs, List.nodup_reverse, List.map_take]
    exact hn.sublist (List.take_sublist _ _)
  obtain ⟨f1, f2⟩ := flush_spec _ (logRuns room ⟨files, []⟩ rs).files hnd
  refine ⟨fun i h => ⟨fun hi => ?_, fun hi => ?_⟩, fun d hd => ?_⟩
  · have hmem : (rs[i].dir, rs[i].shown.length, rs[i].rest) ∈ (logRuns room ⟨files, []⟩ rs).streams := by
      rw [h1, List.mem_reverse]
      refine List.mem_map.2 ⟨rs[i], ?_, rfl⟩
      rw [List.mem_take_iff_getElem]
      exact ⟨i, by omega, rfl⟩
    have := f1 _ hmem
    rw [h2 i h, if_pos hi, writeAt_append] at this
    exact this
  · have hnot : rs[i].dir ∉ (logRuns room ⟨files, []⟩ rs).streams.map (·.1) := by
      rw [hdirs, List.mem_reverse]
      intro hm
      obtain ⟨x, hx, hxd⟩ := List.mem_map.1 hm
      rw [List.mem_take_iff_getElem] at hx
      obtain ⟨j, hj, rfl⟩ := hx
      have hj' : j < rs.length := by omega
      have : j = i := (hn.getElem_inj_iff (hi := by simpa using hj') (hj := by simpa using h)).1 (by simpa using hxd)
      omega
    exact (f2 _ hnot).trans (by rw [h2 i h, if_neg (by omega)])
  · refine (f2 d ?_).trans (h3 d hd)
    rw [hdirs, List.mem_reverse]
    exact fun h => hd (by rw [List.map_take] at h; exact List.mem_of_mem_take h)

/-- **C163.** So which runs have the messages of SCIP in their log depends on how many runs the process had before: with messages on the disk, the log of the run is complete iff at least `room` runs came first. -/
theorem C163_complete_iff (room : Nat) (rs : List LoggedRun) (files : Nat → List Char) (hn : (rs.map (·.dir)).Nodup) (i : Nat) (h : i < rs.length) (he : rs[i].early ≠ []) :
    logExit (logRuns room ⟨files, []⟩ rs) rs[i].dir = files rs[i].dir ++ rs[i].early ++ rs[i].late ++ (rs[i].shown ++ rs[i].rest) ↔ room ≤ i := by
  obtain ⟨h1, h2⟩ := (C163_exit room rs files hn).1 i h
  refine ⟨fun heq => ?_, h2⟩
  by_contra hlt
  rw [h1 (by omega)] at heq
  have hlen := congrArg List.length heq
  simp only [List.length_append, List.length_drop] at hlen
  have := List.length_pos_iff.2 he
  omega

/-- **C163.** Two runs in the same directory, in one process: what the first run's stream held in its buffer is written last, over the statistics of the second run. -/
theorem C163_same_directory (room : Nat) (hroom : 2 ≤ room) (files : Nat → List Char) (a b : LoggedRun) (hd : a.dir = b.dir) (hs : a.shown.length = b.shown.length) (hl : b.late = [])
    (hr : b.rest.length ≤ a.rest.length) : logExit (logRuns room ⟨files, []⟩ [a, b]) b.dir = b.shown ++ a.rest := by
  have h0 : 0 < room := by omega
  have h1 : 1 < room := by omega
  simp only [logRuns, List.foldl_cons, List.foldl_nil, logRun, List.length_nil, h0, if_true, List.length_cons, Nat.zero_add, h1, logExit, writeAt_nil, hl, List.append_nil, hd, setLog]
  have e1 : writeAt b.shown b.shown.length b.rest = b.shown ++ b.rest := by simpa using writeAt_append b.shown [] b.rest
  have e2 : writeAt (b.shown ++ b.rest) b.shown.length a.rest = b.shown ++ a.rest := by
    rw [writeAt_append, List.drop_eq_nil_of_le hr, List.append_nil]
  rw [hs, e1, e2]

/-- Two runs in different directories with room for one stream: the first log has the statistics only, the second has everything. -/
example : let rs : List LoggedRun := [⟨1, "presolving".toList, "end".toList, "Status: ".toList, "optimal".toList⟩, ⟨2, "presolving ".toList, "end ".toList, "Status: ".toList, "optimal".toList⟩]
    (rs.map (·.dir)).Nodup ∧ logExit (logRuns 1 ⟨fun _ => [], []⟩ rs) 1 = "Status: optimal".toList ∧
    logExit (logRuns 1 ⟨fun _ => [], []⟩ rs) 2 = "presolving end Status: optimal".toList ∧ (logRuns 1 ⟨fun _ => [], []⟩ rs).files 1 = "Status: end".toList := by decide +kernel

/-- Two runs in the same directory, in one process: the log is a mixture of the statistics of both. -/
example : logExit (logRuns 5 ⟨fun _ => [], []⟩ [⟨1, [], [], "Status: ".toList, "time limit".toList⟩, ⟨1, [], [], "Status: opt".toList, "imal".toList⟩]) 1 = "Status: time limit".toList := by decide +kernel

end Pctsp
