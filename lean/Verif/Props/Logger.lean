import Verif.Model.Logger
import Mathlib.Data.List.Induction

/-!
# C118: how often a message is written
-/

namespace Pctsp

theorem loggerCalls_append (st : Loggers) (a b : List (String × Nat)) : loggerCalls st (a ++ b) = loggerCalls (loggerCalls st a) b := List.foldl_append

theorem loggerCalls_spec (calls : List (String × Nat)) (name : String) :
    (loggerCalls (fun _ => none) calls name = none ↔ ∀ c ∈ calls, c.1 ≠ name) ∧
    ∀ lg, loggerCalls (fun _ => none) calls name = some lg →
      lg.handlers = (calls.filter fun c => decide (c.1 = name)).map Prod.snd ∧ lg.handlers.getLast? = some lg.level := by
  induction calls using List.reverseRecOn with
  | nil => simp [loggerCalls]
  | append_singleton calls c ih =>
    obtain ⟨ih1, ih2⟩ := ih
    have e : loggerCalls (fun _ => none) (calls ++ [c]) = getPctspLogger (loggerCalls (fun _ => none) calls) c.1 c.2 := by
      rw [loggerCalls_append]; rfl
    rw [e]
    by_cases hc : c.1 = name
    · rw [getPctspLogger, if_pos hc.symm, hc]
      cases h : loggerCalls (fun _ => none) calls name with
      | none =>
        refine ⟨⟨fun h => (by cases h), fun h => absurd hc (h c (by simp))⟩, ?_⟩
        rintro lg ⟨⟩
        have : calls.filter (fun c => decide (c.1 = name)) = [] := by
          rw [List.filter_eq_nil_iff]; simpa using ih1.1 h
        simp [List.filter_append, this, hc]
      | some lg0 =>
        refine ⟨⟨fun h => (by cases h), fun h => absurd hc (h c (by simp))⟩, ?_⟩
        rintro lg ⟨⟩
        simp [List.filter_append, hc, (ih2 lg0 h).1]
    · rw [getPctspLogger, if_neg (Ne.symm hc)]
      refine ⟨by rw [ih1]; simp only [List.forall_mem_append, List.forall_mem_singleton, ne_eq, hc, not_false_eq_true, and_true], fun lg hlg => ?_⟩
      refine ⟨?_, (ih2 lg hlg).2⟩
      rw [(ih2 lg hlg).1]
      simp [List.filter_append, hc]

/-- **C118**: after any calls of `get_pctsp_logger`, a message to a logger is written once for each of the calls with its name whose level is at most the level of the
message, unless the level of the last of these calls is higher; then it is not written. -/
theorem C118_times (before after : List (String × Nat)) (name : String) (last level : Nat) (hlast : ∀ c ∈ after, c.1 ≠ name) (hpos : last ≠ 0) :
    timesWritten (loggerCalls (fun _ => none) (before ++ (name, last) :: after)) name level =
      if last ≤ level then ((before ++ [(name, last)]).filter fun c => decide (c.1 = name ∧ c.2 ≤ level)).length else 0 := by
  obtain ⟨h1, h2⟩ := loggerCalls_spec (before ++ (name, last) :: after) name
  cases h : loggerCalls (fun _ => none) (before ++ (name, last) :: after) name with
  | none => exact absurd rfl (h1.1 h (name, last) (by simp))
  | some lg =>
    obtain ⟨h3, h4⟩ := h2 lg h
    have ha : after.filter (fun c => decide (c.1 = name)) = [] := by
      rw [List.filter_eq_nil_iff]; simpa using hlast
    have h5 : lg.handlers = ((before ++ [(name, last)]).filter fun c => decide (c.1 = name)).map Prod.snd := by
      rw [h3]; simp [List.filter_append, List.filter_cons, ha]
    have h6 : lg.level = last := by
      rw [h5] at h4
      simpa [List.filter_append] using h4.symm
    simp only [timesWritten, h, effectiveLevel, h6, if_neg hpos]
    congr 1
    rw [h5, List.filter_map, List.length_map, List.filter_filter]
    congr 1
    apply List.filter_congr
    intro c _
    simp [Bool.and_comm]

/-- **C118**: a logger whose name occurs in one call writes a message once or not at all; this is the case for every command that makes a logger of its own. -/
theorem C118_once (before after : List (String × Nat)) (name : String) (last level : Nat) (hb : ∀ c ∈ before, c.1 ≠ name) (ha : ∀ c ∈ after, c.1 ≠ name)
    (hpos : last ≠ 0) :
    timesWritten (loggerCalls (fun _ => none) (before ++ (name, last) :: after)) name level = if last ≤ level then 1 else 0 := by
  rw [C118_times before after name last level ha hpos]
  split
  · rename_i h
    have : before.filter (fun c => decide (c.1 = name ∧ c.2 ≤ level)) = [] := by
      rw [List.filter_eq_nil_iff]; intro c hc; simp [hb c hc]
    rw [List.filter_append, this]
    simp [h]
  · rfl

/-- **C118**: with the default loggers the messages of `run_algorithm` and of `run_preprocessing` are written twice, those of `run_heuristic` and of `Lab` once,
whatever other loggers are made. -/
theorem C118_default (calls : List (String × Nat)) (level : Nat) (h : ∀ c ∈ calls, c.1 ≠ "run_algorithm" ∧ c.1 ≠ "run_heuristic" ∧ c.1 ≠ "Lab") :
    timesWritten (loggerCalls (fun _ => none) (importCalls ++ calls)) "run_algorithm" level = (if 20 ≤ level then 2 else 0) ∧
    timesWritten (loggerCalls (fun _ => none) (importCalls ++ calls)) "run_heuristic" level = (if 20 ≤ level then 1 else 0) ∧
    timesWritten (loggerCalls (fun _ => none) (importCalls ++ calls)) "Lab" level = (if 20 ≤ level then 1 else 0) := by
  refine ⟨?_, ?_, ?_⟩
  · have := C118_times [("run_heuristic", 20), ("run_algorithm", 20)] (("Lab", 20) :: calls) "run_algorithm" 20 level
      (by simpa using fun a b hc => (h (a, b) hc).1) (by decide)
    rw [importCalls]
    refine this.trans ?_
    split
    · rename_i hl; simp [List.filter_cons, hl]
    · rfl
  · exact C118_once [] (("run_algorithm", 20) :: ("run_algorithm", 20) :: ("Lab", 20) :: calls) "run_heuristic" 20 level (by simp)
      (by simpa using fun a b hc => (h (a, b) hc).2.1) (by decide)
  · exact C118_once [("run_heuristic", 20), ("run_algorithm", 20), ("run_algorithm", 20)] calls "Lab" 20 level (by simp)
      (by simpa using fun a b hc => (h (a, b) hc).2.2) (by decide)

/-- **C118**: level 0 does not mean that everything is written: then messages below `WARNING` are not. -/
theorem C118_zero (before after : List (String × Nat)) (name : String) (level : Nat) (ha : ∀ c ∈ after, c.1 ≠ name) (hl : level < 30) :
    timesWritten (loggerCalls (fun _ => none) (before ++ (name, 0) :: after)) name level = 0 := by
  obtain ⟨h1, h2⟩ := loggerCalls_spec (before ++ (name, 0) :: after) name
  cases h : loggerCalls (fun _ => none) (before ++ (name, 0) :: after) name with
  | none => exact absurd rfl (h1.1 h (name, 0) (by simp))
  | some lg =>
    obtain ⟨h3, h4⟩ := h2 lg h
    have ha' : after.filter (fun c => decide (c.1 = name)) = [] := by
      rw [List.filter_eq_nil_iff]; simpa using ha
    have h6 : lg.level = 0 := by
      rw [h3] at h4
      simpa [List.filter_append, List.filter_cons, ha'] using h4.symm
    simp only [timesWritten, h, effectiveLevel, h6, if_true]
    rw [if_neg (by omega)]

example : timesWritten (loggerCalls (fun _ => none) (importCalls ++ [("londonaq", 10)])) "londonaq" 10 = 1 ∧
    timesWritten (loggerCalls (fun _ => none) (importCalls ++ [("londonaq", 10)])) "run_algorithm" 20 = 2 ∧
    timesWritten (loggerCalls (fun _ => none) [("a", 10), ("a", 30), ("a", 20)]) "a" 20 = 2 ∧
    timesWritten (loggerCalls (fun _ => none) [("a", 0)]) "a" 20 = 0 := by decide

example := C118_times [("a", 10), ("b", 10), ("a", 30)] [("b", 20)] "a" 20 20 (by decide) (by decide)
example := C118_once [("b", 10)] [("c", 20)] "a" 20 30 (by decide) (by decide) (by decide)
example := C118_default [("londonaq", 10)] 20 (by decide)
example := C118_zero [("a", 10)] [("b", 20)] "a" 20 (by decide) (by decide)

end Pctsp
