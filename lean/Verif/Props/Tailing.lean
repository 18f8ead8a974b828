import Verif.Model.Tailing

/-!
# Properties of the tailing off test (C41, C60)
-/

namespace Pctsp

variable {G : Type}

/-- The last `m` entries of a list, in order; none for `m < 1`. -/
def lastEntries (m : Int) (l : List G) : List G := l.drop (l.length - m.toNat)

theorem push_lastEntries (l : List G) (x : G) (m : Int) :
    pushIntoRollingLpGapList (lastEntries m l) x m = lastEntries m (l ++ [x]) := by
  unfold pushIntoRollingLpGapList lastEntries
  by_cases hm : 1 ≤ m
  · rw [if_pos hm]
    simp only [List.length_append, List.length_drop, List.length_singleton]
    by_cases h : m.toNat ≤ l.length
    · rw [if_pos (by omega), ← List.drop_append_of_le_length (by omega), List.drop_drop]
      congr 1; omega
    · rw [if_neg (by omega), show l.length - m.toNat = 0 by omega, show l.length + 1 - m.toNat = 0 by omega]; simp
  · rw [if_neg hm, show m.toNat = 0 by omega]; simp

/-! ## C41 -/

/-- C41: after any sequence of pushes the window holds exactly the last `min(m, number of pushes)` gaps in order, and nothing for
`m < 1`. -/
theorem C41_window (pushes : List G) (m : Int) :
    pushes.foldl (fun w x => pushIntoRollingLpGapList w x m) [] = lastEntries m pushes ∧
      (lastEntries m pushes).length = min m.toNat pushes.length ∧ lastEntries m pushes <:+ pushes := by
  refine ⟨?_, by simp [lastEntries]; omega, List.drop_suffix _ _⟩
  suffices h : ∀ done : List G, pushes.foldl (fun w x => pushIntoRollingLpGapList w x m) (lastEntries m done) =
      lastEntries m (done ++ pushes) by simpa [lastEntries] using h []
  induction pushes with
  | nil => simp
  | cons x xs ih => intro done; simp only [List.foldl_cons]; rw [push_lastEntries, ih]; simp

/-- C41: the node is tailing off iff the window of at least two gaps is full and its first gap minus its last one is below the
threshold. -/
theorem C41_tailing_off (sub : G → G → G) (lt : G → G → Bool) (threshold : G) (pushes : List G) (m : Int) :
    isNodeTailingOff sub lt (lastEntries m pushes) threshold m = true ↔
      ∃ (pre mid : List G) (a b : G), pushes = pre ++ a :: (mid ++ [b]) ∧ (mid.length : Int) + 2 = m ∧
        lt (sub a b) threshold = true := by
  constructor
  · intro h
    unfold isNodeTailingOff at h
    split at h
    case isFalse => simp at h
    case isTrue hc =>
      obtain ⟨pre, hpre⟩ : ∃ pre, pushes = pre ++ lastEntries m pushes := ⟨pushes.take _, (List.take_append_drop _ _).symm⟩
      generalize hw : lastEntries m pushes = w at h hc hpre
      match w, hc.2 with
      | a :: w', h2 =>
        rcases List.eq_nil_or_concat w' with rfl | ⟨mid, b, rfl⟩
        · simp at h2
        · have hl : (a :: (mid ++ [b])).getLast? = some b := by
            rw [← List.cons_append, List.getLast?_append]; simp
          simp only [List.concat_eq_append] at *
          rw [hl] at h
          simp at h
          exact ⟨pre, mid, a, b, hpre, by omega, h.1⟩
  · rintro ⟨pre, mid, a, b, rfl, h1, h2⟩
    have hw : lastEntries m (pre ++ a :: (mid ++ [b])) = a :: (mid ++ [b]) := by
      rw [lastEntries, List.drop_left' (by simp; omega)]
    have hl : (a :: (mid ++ [b])).getLast? = some b := by
      rw [← List.cons_append, List.getLast?_append]; simp
    rw [hw, isNodeTailingOff, if_pos ⟨by omega, by simp⟩, hl]
    simp [h2]; omega

/-- A window of three out of five gaps: the first minus the last of them is 1. -/
example : isNodeTailingOff (· - ·) (fun a b : Int => decide (a < b)) ([9, 7, 4, 3, 3].foldl
    (fun w x => pushIntoRollingLpGapList w x 3) []) 2 3 = true := by decide
/-- The whole history improves by 6, so a wider window is not tailing off. -/
example : isNodeTailingOff (· - ·) (fun a b : Int => decide (a < b)) ([9, 7, 4, 3, 3].foldl
    (fun w x => pushIntoRollingLpGapList w x 5) []) 2 5 = false := by decide

/-! ## C60 -/

/-- The gaps of the calls for one node whose solution was not a simple cycle. -/
def gapsOf (node : Nat) (cs : List (EnfoCall G)) : List G :=
  (cs.filter fun c => !c.simple && decide (c.node = node)).map (·.gap)

theorem enfolp_windows (sub : G → G → G) (lt : G → G → Bool) (threshold : G) (m : Int) (w : List (List G)) (c : EnfoCall G)
    (k : Nat) : (enfolp sub lt threshold m w c.simple c.node c.gap c.lpOk).2.getD k [] =
      if c.simple = false ∧ c.node = k then pushIntoRollingLpGapList (w.getD k []) c.gap m else w.getD k [] := by
  unfold enfolp
  cases hs : c.simple with
  | true => simp
  | false =>
    have hpad : ∀ j, (if w.length ≤ c.node then w ++ List.replicate (c.node + 1 - w.length) [] else w).getD j [] = w.getD j [] := by
      intro j
      split
      · simp only [List.getD_eq_getElem?_getD]
        by_cases hj : j < w.length
        · rw [List.getElem?_append_left hj]
        · rw [List.getElem?_append_right (by omega), List.getElem?_eq_none (l := w) (by omega), List.getElem?_replicate]
          split <;> rfl
      · rfl
    have hlen : c.node < (if w.length ≤ c.node then w ++ List.replicate (c.node + 1 - w.length) [] else w).length := by
      split
      · simp; omega
      · omega
    generalize (if w.length ≤ c.node then w ++ List.replicate (c.node + 1 - w.length) [] else w) = w' at hpad hlen
    have : ((w'.set c.node (pushIntoRollingLpGapList (w'.getD c.node []) c.gap m)).getD k []) =
        if c.node = k then pushIntoRollingLpGapList (w.getD k []) c.gap m else w.getD k [] := by
      rw [hpad, ← hpad k, List.getD_eq_getElem?_getD, List.getElem?_set]
      by_cases hk : c.node = k
      · subst hk; rw [if_pos rfl, if_pos rfl, if_pos hlen, hpad]; rfl
      · rw [if_neg hk, if_neg hk, List.getD_eq_getElem?_getD]
    simp only [Bool.false_eq_true, if_false, true_and]
    split <;> exact this

theorem enfoRun_windows (sub : G → G → G) (lt : G → G → Bool) (threshold : G) (m : Int) (k : Nat) :
    ∀ (cs done : List (EnfoCall G)) (w : List (List G)), w.getD k [] = lastEntries m (gapsOf k done) →
      (enfoRun sub lt threshold m cs w).2.getD k [] = lastEntries m (gapsOf k (done ++ cs))
  | [], done, w, h => by simpa [enfoRun] using h
  | c :: cs, done, w, h => by
    have e := enfolp_windows sub lt threshold m w c k
    have := enfoRun_windows sub lt threshold m k cs (done ++ [c])
      (enfolp sub lt threshold m w c.simple c.node c.gap c.lpOk).2 (by
        rw [e, h, push_lastEntries]
        by_cases hc : c.simple = false ∧ c.node = k
        · rw [if_pos hc]; simp [gapsOf, hc.1, hc.2]
        · rw [if_neg hc]
          congr 1
          have : (!c.simple && decide (c.node = k)) = false := by
            cases hs : c.simple <;> simp_all
          simp [gapsOf, this])
    simpa [enfoRun] using this

/-- C60: after any history of enforcement calls at any nodes, a call at a node whose solution is a simple cycle is feasible; otherwise
it branches iff the LP was solved (or is unbounded) and the last `m ≥ 2` gaps at that node (gaps of other nodes and of feasible
calls do not count) improved by less than the threshold; in all other cases it is infeasible. -/
theorem C60_branches_iff (sub : G → G → G) (lt : G → G → Bool) (threshold : G) (m : Int) (history : List (EnfoCall G))
    (c : EnfoCall G) :
    let r := (enfolp sub lt threshold m (enfoRun sub lt threshold m history []).2 c.simple c.node c.gap c.lpOk).1
    (r = .feasible ↔ c.simple = true) ∧
    (r = .branch ↔ c.simple = false ∧ c.lpOk = true ∧ ∃ (pre mid : List G) (a : G),
      gapsOf c.node history = pre ++ a :: mid ∧ (mid.length : Int) + 2 = m ∧ lt (sub a c.gap) threshold = true) := by
  have hw : (enfoRun sub lt threshold m history []).2.getD c.node [] = lastEntries m (gapsOf c.node history) := by
    simpa using enfoRun_windows sub lt threshold m c.node history [] [] (by simp [gapsOf, lastEntries])
  generalize (enfoRun sub lt threshold m history []).2 = w at hw
  have hpad : (if w.length ≤ c.node then w ++ List.replicate (c.node + 1 - w.length) [] else w).getD c.node [] = w.getD c.node [] := by
    split
    · simp only [List.getD_eq_getElem?_getD]
      rw [List.getElem?_append_right (by omega), List.getElem?_eq_none (l := w) (by omega), List.getElem?_replicate]
      split <;> rfl
    · rfl
  have ht := C41_tailing_off sub lt threshold (gapsOf c.node history ++ [c.gap]) m
  have he : (∃ (pre mid : List G) (a b : G), gapsOf c.node history ++ [c.gap] = pre ++ a :: (mid ++ [b]) ∧
      (mid.length : Int) + 2 = m ∧ lt (sub a b) threshold = true) ↔ ∃ (pre mid : List G) (a : G),
      gapsOf c.node history = pre ++ a :: mid ∧ (mid.length : Int) + 2 = m ∧ lt (sub a c.gap) threshold = true := by
    constructor
    · rintro ⟨pre, mid, a, b, h1, h2, h3⟩
      have h1' : gapsOf c.node history ++ [c.gap] = (pre ++ a :: mid) ++ [b] := by simpa using h1
      have e1 := List.append_inj_left' h1' rfl
      have e2 : c.gap = b := by simpa using List.append_inj_right' h1' rfl
      exact ⟨pre, mid, a, e1, h2, e2 ▸ h3⟩
    · rintro ⟨pre, mid, a, h1, h2, h3⟩
      exact ⟨pre, mid, a, c.gap, by rw [h1]; simp, h2, h3⟩
  rw [he] at ht
  unfold enfolp
  simp only [hpad, hw, push_lastEntries]
  cases hs : c.simple with
  | true => simp
  | false =>
    simp only [Bool.false_eq_true, if_false, true_and]
    cases hb : isNodeTailingOff sub lt (lastEntries m (gapsOf c.node history ++ [c.gap])) threshold m with
    | false =>
      rw [hb] at ht
      have hno := fun h => Bool.false_ne_true (ht.2 h)
      simp only [Bool.false_and, Bool.false_eq_true, if_false]
      exact ⟨by simp, ⟨by simp, fun h => absurd h.2 hno⟩⟩
    | true =>
      have hyes := ht.1 hb
      cases hl : c.lpOk with
      | false => simp
      | true =>
        simp only [Bool.and_true, if_true]
        exact ⟨by simp, ⟨fun _ => ⟨trivial, hyes⟩, fun _ => trivial⟩⟩

/-- Two nodes, interleaved: with a window of two the second call at node 4 branches although node 7 improves. -/
example : (enfoRun (· - ·) (fun a b : Int => decide (a < b)) 2 2
    [⟨false, 4, 10, true⟩, ⟨false, 7, 90, true⟩, ⟨false, 4, 9, true⟩, ⟨false, 7, 50, true⟩, ⟨true, 7, 0, true⟩] []).1 =
    [.infeasible, .infeasible, .branch, .infeasible, .feasible] := by decide

end Pctsp
