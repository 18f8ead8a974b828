import Mathlib.Data.List.Induction
import Verif.Model.Events

/-!
# Properties of the node statistics (C42, C61)
-/

namespace Pctsp

variable {D : Type}

/-- The largest node number of an event, 0 if there is none. -/
def topEvent : List (NodeOp D) → Nat
  | [] => 0
  | .event i :: os => max i.id (topEvent os)
  | _ :: os => topEvent os

/-- All rows of the disjoint tour separation that were reported for a node. -/
def disjointRows (node : Nat) : List (NodeOp D) → Nat
  | [] => 0
  | .disjoint k n :: os => (if k = node then n else 0) + disjointRows node os
  | _ :: os => disjointRows node os

/-- All rows of the max-flow separation that were reported for a node. -/
def maxflowRows (node : Nat) : List (NodeOp D) → Nat
  | [] => 0
  | .maxflow k n :: os => (if k = node then n else 0) + maxflowRows node os
  | _ :: os => maxflowRows node os

/-- All rows of the disjoint tour separation. -/
def allDisjointRows : List (NodeOp D) → Nat
  | [] => 0
  | .disjoint _ n :: os => n + allDisjointRows os
  | _ :: os => allDisjointRows os

/-- All rows of the max-flow separation. -/
def allMaxflowRows : List (NodeOp D) → Nat
  | [] => 0
  | .maxflow _ n :: os => n + allMaxflowRows os
  | _ :: os => allMaxflowRows os

/-- No event arrives for the node with the largest number so far. -/
def NoRepeat (ops : List (NodeOp D)) : Prop :=
  ∀ (pre post : List (NodeOp D)) (i : NodeInfo D), ops = pre ++ .event i :: post → i.id ≠ topEvent pre

/-- An event for the node arrived when its number was larger than all numbers before. -/
def FirstSeenOnTop (node : Nat) (ops : List (NodeOp D)) : Prop :=
  ∃ (pre post : List (NodeOp D)) (i : NodeInfo D), ops = pre ++ .event i :: post ∧ i.id = node ∧ topEvent pre < node

theorem topEvent_append : ∀ a b : List (NodeOp D), topEvent (a ++ b) = max (topEvent a) (topEvent b)
  | [], b => by simp [topEvent]
  | .event i :: a, b => by simp [topEvent, topEvent_append a b, Nat.max_assoc]
  | .disjoint _ _ :: a, b => by simp [topEvent, topEvent_append a b]
  | .maxflow _ _ :: a, b => by simp [topEvent, topEvent_append a b]

theorem disjointRows_append (k : Nat) : ∀ a b : List (NodeOp D), disjointRows k (a ++ b) = disjointRows k a + disjointRows k b
  | [], b => by simp [disjointRows]
  | .event i :: a, b => by simp [disjointRows, disjointRows_append k a b]
  | .disjoint _ _ :: a, b => by simp [disjointRows, disjointRows_append k a b]; omega
  | .maxflow _ _ :: a, b => by simp [disjointRows, disjointRows_append k a b]

theorem maxflowRows_append (k : Nat) : ∀ a b : List (NodeOp D), maxflowRows k (a ++ b) = maxflowRows k a + maxflowRows k b
  | [], b => by simp [maxflowRows]
  | .event i :: a, b => by simp [maxflowRows, maxflowRows_append k a b]
  | .disjoint _ _ :: a, b => by simp [maxflowRows, maxflowRows_append k a b]
  | .maxflow _ _ :: a, b => by simp [maxflowRows, maxflowRows_append k a b]; omega

theorem runNodeOps_append (zero : D) : ∀ (a b : List (NodeOp D)) (s : List (NodeStats D)),
    runNodeOps zero (a ++ b) s = (runNodeOps zero a s >>= runNodeOps zero b)
  | [], b, s => rfl
  | o :: a, b, s => by
    simp only [List.cons_append, runNodeOps]
    cases o.apply zero s with
    | ok s' => simp only [Res.ok_bind]; exact runNodeOps_append zero a b s'
    | throw e => rfl
    | ub m => rfl

theorem bumpNode_ok {stats stats' : List (NodeStats D)} {node : Nat} {f : NodeStats D → NodeStats D}
    (h : bumpNode stats node f = .ok stats') :
    ∃ k s, node = k + 1 ∧ stats[k]? = some s ∧ stats' = stats.set k (f s) := by
  cases node with
  | zero => simp [bumpNode] at h
  | succ k =>
    simp only [bumpNode] at h
    cases hs : stats[k]? with
    | none => simp [hs] at h
    | some s => simp only [hs, Res.ok.injEq] at h; exact ⟨k, s, rfl, hs ▸ rfl, h.symm⟩

theorem addCurrentNode_ok {zero : D} {stats stats' : List (NodeStats D)} {i : NodeInfo D}
    (h : addCurrentNode zero stats i = .ok stats') : 0 < i.id ∧ stats' =
      (if stats.length < i.id then stats ++ List.replicate (i.id - stats.length) (.blank zero) else stats).set
        (i.id - 1) (newStatsForNode i) := by
  unfold addCurrentNode at h
  split at h
  · simp at h
  · simp only [Res.ok.injEq] at h; exact ⟨by omega, h.symm⟩

/-- The number of records is always the largest node number of an event. -/
theorem apply_length {zero : D} {stats stats' : List (NodeStats D)} {o : NodeOp D} (h : o.apply zero stats = .ok stats') :
    stats'.length = max stats.length (topEvent [o]) := by
  cases o with
  | event i =>
    simp only [NodeOp.apply, nodeEvent] at h
    simp only [topEvent]
    split at h
    · obtain ⟨h1, rfl⟩ := addCurrentNode_ok h
      split <;> simp <;> omega
    · simp only [Res.ok.injEq] at h; subst h; omega
  | disjoint k n =>
    obtain ⟨j, s, rfl, -, rfl⟩ := bumpNode_ok h
    simp [topEvent]
  | maxflow k n =>
    obtain ⟨j, s, rfl, -, rfl⟩ := bumpNode_ok h
    simp [topEvent]

theorem run_length (zero : D) : ∀ (ops : List (NodeOp D)) (stats stats' : List (NodeStats D)),
    runNodeOps zero ops stats = .ok stats' → stats'.length = max stats.length (topEvent ops)
  | [], stats, stats', h => by simp only [runNodeOps, Res.ok.injEq] at h; subst h; simp [topEvent]
  | o :: os, stats, stats', h => by
    simp only [runNodeOps] at h
    obtain ⟨s1, h1, h2⟩ := Res.bind_eq_ok.1 h
    rw [run_length zero os s1 stats' h2, apply_length h1]
    rw [show o :: os = [o] ++ os from rfl, topEvent_append]; omega

/-- What is known of the records after a history without repeated events. -/
structure NodeInv (zero : D) (ops : List (NodeOp D)) (stats : List (NodeStats D)) : Prop where
  length : stats.length = topEvent ops
  counts : ∀ k s, stats[k]? = some s → s.numSecDisjointTour = disjointRows (k + 1) ops ∧
    s.numSecMaxflowMincut = maxflowRows (k + 1) ops
  fresh : ∀ k, stats.length ≤ k → disjointRows (k + 1) ops = 0 ∧ maxflowRows (k + 1) ops = 0
  seen : ∀ k s, stats[k]? = some s → FirstSeenOnTop (k + 1) ops → s.nodeId = k + 1
  unseen : ∀ k s, stats[k]? = some s → ¬ FirstSeenOnTop (k + 1) ops → s.nodeId = 0

theorem firstSeen_append_iff (k : Nat) (ops : List (NodeOp D)) (o : NodeOp D) :
    FirstSeenOnTop k (ops ++ [o]) ↔ FirstSeenOnTop k ops ∨ ∃ i, o = .event i ∧ i.id = k ∧ topEvent ops < k := by
  constructor
  · rintro ⟨pre, post, i, h1, h2, h3⟩
    rcases List.eq_nil_or_concat post with rfl | ⟨post', x, rfl⟩
    · have e := List.append_inj' h1 rfl
      right; exact ⟨i, by simpa using e.2, h2, e.1 ▸ h3⟩
    · left
      have h1' : ops ++ [o] = (pre ++ .event i :: post') ++ [x] := by simpa using h1
      exact ⟨pre, post', i, List.append_inj_left' h1' rfl, h2, h3⟩
  · rintro (⟨pre, post, i, rfl, h2, h3⟩ | ⟨i, rfl, h2, h3⟩)
    · exact ⟨pre, post ++ [o], i, by simp, h2, h3⟩
    · exact ⟨ops, [], i, rfl, h2, h3⟩

theorem NodeInv.bump {zero : D} {ops : List (NodeOp D)} {stats : List (NodeStats D)} (h : NodeInv zero ops stats) {k : Nat}
    {s : NodeStats D} (hs : stats[k]? = some s) (o : NodeOp D) (ho : topEvent [o] = 0) (ho' : ∀ i, o ≠ .event i)
    (f : NodeStats D → NodeStats D) (hid : (f s).nodeId = s.nodeId)
    (hd : ∀ j, disjointRows (j + 1) [o] = if j = k then (f s).numSecDisjointTour - s.numSecDisjointTour else 0)
    (hd' : s.numSecDisjointTour ≤ (f s).numSecDisjointTour)
    (hm : ∀ j, maxflowRows (j + 1) [o] = if j = k then (f s).numSecMaxflowMincut - s.numSecMaxflowMincut else 0)
    (hm' : s.numSecMaxflowMincut ≤ (f s).numSecMaxflowMincut) : NodeInv zero (ops ++ [o]) (stats.set k (f s)) := by
  have hk : k < stats.length := by
    rcases Nat.lt_or_ge k stats.length with h | h
    · exact h
    · rw [List.getElem?_eq_none h] at hs; simp at hs
  have hseen : ∀ j, FirstSeenOnTop j (ops ++ [o]) ↔ FirstSeenOnTop j ops := by
    intro j
    rw [firstSeen_append_iff]
    exact ⟨fun h => h.elim id fun ⟨i, hi, _⟩ => absurd hi (ho' i), Or.inl⟩
  have hget : ∀ j x, (stats.set k (f s))[j]? = some x → (j = k ∧ x = f s) ∨ (j ≠ k ∧ stats[j]? = some x) := by
    intro j x hx
    rw [List.getElem?_set] at hx
    by_cases e : k = j
    · rw [if_pos e, if_pos (e ▸ hk)] at hx; left; exact ⟨e.symm, by simpa using hx.symm⟩
    · rw [if_neg e] at hx; right; exact ⟨fun e' => e e'.symm, hx⟩
  constructor
  · rw [List.length_set, h.length, topEvent_append, ho]; simp
  · intro j x hx
    rw [disjointRows_append, maxflowRows_append, hd, hm]
    rcases hget j x hx with ⟨rfl, rfl⟩ | ⟨e, hx⟩
    · have := h.counts j s hs; simp only [if_true]; omega
    · have := h.counts j x hx; simp only [e, if_false]; omega
  · intro j hj
    rw [List.length_set] at hj
    rw [disjointRows_append, maxflowRows_append, hd, hm, if_neg (by omega), if_neg (by omega)]
    have := h.fresh j hj; omega
  · intro j x hx hf
    rw [hseen] at hf
    rcases hget j x hx with ⟨rfl, rfl⟩ | ⟨e, hx⟩
    · rw [hid]; exact h.seen j s hs hf
    · exact h.seen j x hx hf
  · intro j x hx hf
    rw [hseen] at hf
    rcases hget j x hx with ⟨rfl, rfl⟩ | ⟨e, hx⟩
    · rw [hid]; exact h.unseen j s hs hf
    · exact h.unseen j x hx hf

theorem NodeInv.step {zero : D} {ops : List (NodeOp D)} {stats stats' : List (NodeStats D)} (h : NodeInv zero ops stats)
    {o : NodeOp D} (hno : ∀ i, o = .event i → i.id ≠ topEvent ops) (ho : o.apply zero stats = .ok stats') :
    NodeInv zero (ops ++ [o]) stats' := by
  cases o with
  | disjoint node n =>
    obtain ⟨k, s, rfl, hs, rfl⟩ := bumpNode_ok ho
    refine h.bump hs _ rfl (by simp) (fun s => { s with numSecDisjointTour := s.numSecDisjointTour + n }) rfl ?_ (by simp) ?_ (by simp)
    · intro j
      simp only [disjointRows, Nat.add_zero]
      by_cases e : j = k
      · subst e; simp
      · rw [if_neg (by omega), if_neg e]
    · intro j; simp [maxflowRows]
  | maxflow node n =>
    obtain ⟨k, s, rfl, hs, rfl⟩ := bumpNode_ok ho
    refine h.bump hs _ rfl (by simp) (fun s => { s with numSecMaxflowMincut := s.numSecMaxflowMincut + n }) rfl ?_ (by simp) ?_ (by simp)
    · intro j; simp [disjointRows]
    · intro j
      simp only [maxflowRows, Nat.add_zero]
      by_cases e : j = k
      · subst e; simp
      · rw [if_neg (by omega), if_neg e]
  | event i =>
    have hne := hno i rfl
    have hd0 : ∀ j, disjointRows j (ops ++ [.event i]) = disjointRows j ops := by
      intro j; rw [disjointRows_append]; simp [disjointRows]
    have hm0 : ∀ j, maxflowRows j (ops ++ [.event i]) = maxflowRows j ops := by
      intro j; rw [maxflowRows_append]; simp [maxflowRows]
    have ht : topEvent (ops ++ [.event i]) = max (topEvent ops) i.id := by rw [topEvent_append]; simp [topEvent]
    simp only [NodeOp.apply, nodeEvent] at ho
    by_cases hc : i.id ≥ stats.length
    · rw [if_pos hc] at ho
      obtain ⟨h1, rfl⟩ := addCurrentNode_ok ho
      have hlt : stats.length < i.id := by have := h.length; omega
      rw [if_pos hlt]
      have hget : ∀ j x, ((stats ++ List.replicate (i.id - stats.length) (NodeStats.blank zero)).set (i.id - 1) (newStatsForNode i))[j]? = some x →
          (j < stats.length ∧ stats[j]? = some x) ∨ (stats.length ≤ j ∧ j + 1 < i.id ∧ x = NodeStats.blank zero) ∨
            (j + 1 = i.id ∧ x = newStatsForNode i) := by
        intro j x hx
        rw [List.getElem?_set] at hx
        by_cases e : i.id - 1 = j
        · rw [if_pos e, if_pos (by simp; omega)] at hx
          right; right; exact ⟨by omega, by simpa using hx.symm⟩
        · rw [if_neg e] at hx
          by_cases hj : j < stats.length
          · rw [List.getElem?_append_left hj] at hx; left; exact ⟨hj, hx⟩
          · rw [List.getElem?_append_right (by omega), List.getElem?_replicate] at hx
            split at hx
            · right; left; exact ⟨by omega, by omega, by simpa using hx.symm⟩
            · simp at hx
      constructor
      · simp only [List.length_set, List.length_append, List.length_replicate]; rw [ht, ← h.length]; omega
      · intro j x hx
        rw [hd0, hm0]
        rcases hget j x hx with ⟨_, hx⟩ | ⟨e, _, rfl⟩ | ⟨e, rfl⟩
        · exact h.counts j x hx
        · have := h.fresh j e; simp only [NodeStats.blank]; omega
        · have := h.fresh j (by omega); simp only [newStatsForNode]; omega
      · intro j hj
        rw [hd0, hm0]
        apply h.fresh
        simp only [List.length_set, List.length_append, List.length_replicate] at hj; omega
      · intro j x hx hf
        rw [firstSeen_append_iff] at hf
        rcases hget j x hx with ⟨e, hx⟩ | ⟨e, e', rfl⟩ | ⟨e, rfl⟩
        · refine h.seen j x hx (hf.elim id ?_)
          rintro ⟨i', _, _, h3⟩; have := h.length; omega
        · exfalso
          rcases hf with ⟨pre, post, i', rfl, h2, h3⟩ | ⟨i', h2, h3, _⟩
          · have := h.length; rw [topEvent_append] at this; simp only [topEvent] at this; omega
          · simp only [NodeOp.event.injEq] at h2; subst h2; omega
        · simp [newStatsForNode, e]
      · intro j x hx hf
        rw [firstSeen_append_iff] at hf
        rcases hget j x hx with ⟨e, hx⟩ | ⟨e, e', rfl⟩ | ⟨e, rfl⟩
        · exact h.unseen j x hx fun h' => hf (Or.inl h')
        · rfl
        · exact absurd (Or.inr ⟨i, rfl, e.symm, by have := h.length; omega⟩) hf
    · rw [if_neg hc] at ho
      simp only [Res.ok.injEq] at ho
      subst ho
      have hseen : ∀ j, FirstSeenOnTop j (ops ++ [.event i]) ↔ FirstSeenOnTop j ops := by
        intro j
        rw [firstSeen_append_iff]
        refine ⟨fun h' => h'.elim id ?_, Or.inl⟩
        rintro ⟨i', h1, h2, h3⟩
        simp only [NodeOp.event.injEq] at h1; subst h1
        have := h.length; omega
      constructor
      · rw [ht, h.length]; have := h.length; omega
      · intro j x hx; rw [hd0, hm0]; exact h.counts j x hx
      · intro j hj; rw [hd0, hm0]; exact h.fresh j hj
      · intro j x hx hf; exact h.seen j x hx ((hseen _).1 hf)
      · intro j x hx hf; exact h.unseen j x hx fun h' => hf ((hseen _).2 h')

theorem nodeInv_run (zero : D) : ∀ (ops pre : List (NodeOp D)) (stats stats' : List (NodeStats D)), NodeInv zero pre stats →
    NoRepeat (pre ++ ops) → runNodeOps zero ops stats = .ok stats' → NodeInv zero (pre ++ ops) stats'
  | [], pre, stats, stats', h, _, hr => by
    simp only [runNodeOps, Res.ok.injEq] at hr; subst hr; simpa using h
  | o :: os, pre, stats, stats', h, hno, hr => by
    simp only [runNodeOps] at hr
    obtain ⟨s1, h1, h2⟩ := Res.bind_eq_ok.1 hr
    have := nodeInv_run zero os (pre ++ [o]) s1 stats' (h.step (fun i hi => hno pre os i (by rw [hi])) h1) (by simpa using hno) h2
    simpa using this

/-! ## C42 -/

/-- C42: if no event arrives for the latest node again, the record at position `node - 1` counts exactly the rows that were reported
for the node; it carries the node's number if the node was the largest when its event came, and number 0 otherwise. -/
theorem C42_counts (zero : D) (ops : List (NodeOp D)) (hno : NoRepeat ops) (stats : List (NodeStats D))
    (h : runNodeOps zero ops [] = .ok stats) :
    stats.length = topEvent ops ∧ ∀ (node : Nat) (s : NodeStats D), 0 < node → stats[node - 1]? = some s →
      s.numSecDisjointTour = disjointRows node ops ∧ s.numSecMaxflowMincut = maxflowRows node ops ∧
        (FirstSeenOnTop node ops → s.nodeId = node) ∧ (¬ FirstSeenOnTop node ops → s.nodeId = 0) := by
  have hi := nodeInv_run zero ops [] [] stats ⟨rfl, by simp, by simp [disjointRows, maxflowRows], by simp, by simp⟩ hno h
  simp only [List.nil_append] at hi
  refine ⟨hi.length, ?_⟩
  intro node s hn hs
  have e : node - 1 + 1 = node := by omega
  have h1 := hi.counts (node - 1) s hs
  have h2 := hi.seen (node - 1) s hs
  have h3 := hi.unseen (node - 1) s hs
  rw [e] at h1 h2 h3
  exact ⟨h1.1, h1.2, h2, h3⟩

/-- The event of node `i.id` after the operations `pre` writes a new record: the node is the largest one so far. -/
def WritesRecord (pre : List (NodeOp D)) (i : NodeInfo D) : Prop := topEvent pre ≤ i.id

/-- What the record of `node` has to be: the values of the last event that wrote it, and the rows reported for the node since; if it was
never written, zeros and the rows reported for the node. -/
structure RecordSpec (zero : D) (ops : List (NodeOp D)) (node : Nat) (s : NodeStats D) : Prop where
  written : ∀ pre i post, ops = pre ++ .event i :: post → i.id = node → WritesRecord pre i →
    (∀ pre' j post', post = pre' ++ .event j :: post' → j.id = node → ¬ WritesRecord (pre ++ .event i :: pre') j) →
    s = ⟨i.lowerBound, node, disjointRows node post, maxflowRows node post, 0, 0, 0, if node = 1 then 1 else i.parent, i.upperBound⟩
  blank : (∀ pre i post, ops = pre ++ .event i :: post → i.id = node → ¬ WritesRecord pre i) →
    s = ⟨zero, 0, disjointRows node ops, maxflowRows node ops, 0, 0, 0, 0, zero⟩

theorem snoc_split {α : Type} {l pre post : List α} {o e : α} (h : l ++ [o] = pre ++ e :: post) :
    (l = pre ∧ o = e ∧ post = []) ∨ ∃ post', post = post' ++ [o] ∧ l = pre ++ e :: post' := by
  rcases List.eq_nil_or_concat post with rfl | ⟨p, x, rfl⟩
  · have := List.append_inj' h rfl
    exact .inl ⟨this.1, by simpa using this.2, rfl⟩
  · have h' : l ++ [o] = (pre ++ e :: p) ++ [x] := by simpa using h
    have := List.append_inj' h' rfl
    have hx : o = x := by simpa using this.2
    exact .inr ⟨p, by simp [hx], this.1⟩

/-- Rows cannot be reported for nodes above the largest one. -/
theorem rows_above (zero : D) (ops : List (NodeOp D)) : ∀ stats, runNodeOps zero ops [] = .ok stats → ∀ node, topEvent ops < node →
    disjointRows node ops = 0 ∧ maxflowRows node ops = 0 := by
  induction ops using List.reverseRecOn with
  | nil => intro _ _ node _; simp [disjointRows, maxflowRows]
  | append_singleton ops o ih =>
    intro stats h node hn
    rw [runNodeOps_append] at h
    obtain ⟨s1, h1, h2⟩ := Res.bind_eq_ok.1 h
    simp only [runNodeOps, Res.bind_eq_ok] at h2
    obtain ⟨s2, h2, -⟩ := h2
    have hl := run_length zero ops [] s1 h1
    rw [topEvent_append] at hn
    have h3 := ih s1 h1 node (by omega)
    rw [disjointRows_append, maxflowRows_append, h3.1, h3.2]
    cases o with
    | event i => simp [disjointRows, maxflowRows]
    | disjoint k n =>
      obtain ⟨j, s, rfl, hs, -⟩ := bumpNode_ok h2
      have := (List.getElem?_eq_some_iff.1 hs).1
      simp only [List.length_nil] at hl
      simp only [disjointRows, maxflowRows]
      rw [if_neg (by omega)]; simp
    | maxflow k n =>
      obtain ⟨j, s, rfl, hs, -⟩ := bumpNode_ok h2
      have := (List.getElem?_eq_some_iff.1 hs).1
      simp only [List.length_nil] at hl
      simp only [disjointRows, maxflowRows]
      rw [if_neg (by omega)]; simp

/-- An operation that is not an event. -/
theorem RecordSpec.bump {zero : D} {ops : List (NodeOp D)} {node : Nat} {s s' : NodeStats D} (h : RecordSpec zero ops node s) {o : NodeOp D}
    (ho : ∀ i, o ≠ .event i)
    (hs : s' = { s with
      numSecDisjointTour := s.numSecDisjointTour + disjointRows node [o]
      numSecMaxflowMincut := s.numSecMaxflowMincut + maxflowRows node [o] }) : RecordSpec zero (ops ++ [o]) node s' := by
  constructor
  · intro pre i post e hi hw hlast
    rcases snoc_split e with ⟨-, e2, -⟩ | ⟨post', rfl, e2⟩
    · exact absurd e2 (ho i)
    · rw [hs, h.written pre i post' e2 hi hw (fun pre' j q e3 => hlast pre' j (q ++ [o]) (by rw [e3]; simp))]
      simp only [disjointRows_append, maxflowRows_append]
  · intro hno
    rw [hs, h.blank (fun pre i post e => hno pre i (post ++ [o]) (by rw [e]; simp))]
    simp only [disjointRows_append, maxflowRows_append]

/-- C42, for every history, repeated events included: the record of a node holds the bounds and the parent (1 for the root) of the last event
that wrote it and counts the rows reported for the node after that event; a record that no event wrote holds zeros and the rows. -/
theorem C42_record (zero : D) (ops : List (NodeOp D)) (stats : List (NodeStats D)) (h : runNodeOps zero ops [] = .ok stats)
    (node : Nat) (hn : 0 < node) (s : NodeStats D) (hs : stats[node - 1]? = some s) : RecordSpec zero ops node s := by
  induction ops using List.reverseRecOn generalizing stats node s with
  | nil =>
    simp only [runNodeOps, Res.ok.injEq] at h
    subst h
    simp at hs
  | append_singleton ops o ih =>
    rw [runNodeOps_append] at h
    obtain ⟨s1, h1, h2⟩ := Res.bind_eq_ok.1 h
    simp only [runNodeOps, Res.bind_eq_ok] at h2
    obtain ⟨s2, h2, h3⟩ := h2
    simp only [Res.ok.injEq] at h3
    subst h3
    have hl := run_length zero ops [] s1 h1
    simp only [List.length_nil, Nat.zero_max] at hl
    cases o with
    | disjoint k n =>
      obtain ⟨j, x, rfl, hx, rfl⟩ := bumpNode_ok h2
      rw [List.getElem?_set] at hs
      split at hs
      · rename_i e
        split at hs
        · injection hs with hs
          refine (ih s1 h1 node hn x (by rw [← e]; exact hx)).bump (by simp) ?_
          rw [← hs]
          simp only [disjointRows, maxflowRows]
          rw [if_pos (by omega)]; rfl
        · cases hs
      · rename_i e
        refine (ih s1 h1 node hn s hs).bump (by simp) ?_
        simp only [disjointRows, maxflowRows]
        rw [if_neg (by omega)]; rfl
    | maxflow k n =>
      obtain ⟨j, x, rfl, hx, rfl⟩ := bumpNode_ok h2
      rw [List.getElem?_set] at hs
      split at hs
      · rename_i e
        split at hs
        · injection hs with hs
          refine (ih s1 h1 node hn x (by rw [← e]; exact hx)).bump (by simp) ?_
          rw [← hs]
          simp only [disjointRows, maxflowRows]
          rw [if_pos (by omega)]; rfl
        · cases hs
      · rename_i e
        refine (ih s1 h1 node hn s hs).bump (by simp) ?_
        simp only [disjointRows, maxflowRows]
        rw [if_neg (by omega)]; rfl
    | event i =>
      simp only [NodeOp.apply, nodeEvent] at h2
      have keep : ∀ x, RecordSpec zero ops node x → (i.id ≠ node ∨ i.id < topEvent ops) → RecordSpec zero (ops ++ [.event i]) node x := by
        intro x hx hne
        constructor
        · intro pre j post e hj hw hlast
          rcases snoc_split e with ⟨rfl, e2, rfl⟩ | ⟨post', rfl, e2⟩
          · injection e2 with e2
            subst e2
            simp only [WritesRecord] at hw
            rcases hne with h | h
            · exact absurd hj h
            · omega
          · rw [hx.written pre j post' e2 hj hw (fun pre' k q e3 => hlast pre' k (q ++ [.event i]) (by rw [e3]; simp))]
            simp [disjointRows_append, maxflowRows_append, disjointRows, maxflowRows]
        · intro hno
          rw [hx.blank (fun pre j post e => hno pre j (post ++ [.event i]) (by rw [e]; simp))]
          simp [disjointRows_append, maxflowRows_append, disjointRows, maxflowRows]
      split at h2
      · rename_i hge
        obtain ⟨hpos, rfl⟩ := addCurrentNode_ok h2
        rw [List.getElem?_set] at hs
        split at hs
        · -- the written record
          rename_i e
          have hid : i.id = node := by omega
          have hs : newStatsForNode i = s := by
            generalize (if s1.length < i.id then s1 ++ List.replicate (i.id - s1.length) (NodeStats.blank zero) else s1) = L at hs
            by_cases hL : i.id - 1 < L.length
            · rw [if_pos hL] at hs; exact Option.some.inj hs
            · rw [if_neg hL] at hs; cases hs
          constructor
          · intro pre j post e2 hj hw hlast
            rcases snoc_split e2 with ⟨-, e3, rfl⟩ | ⟨post', rfl, e3⟩
            · injection e3 with e3
              subst e3
              rw [← hs, newStatsForNode, ← hid]
              simp only [disjointRows, maxflowRows, NodeStats.mk.injEq, true_and, and_true]
              by_cases h1 : i.id = 1
              · simp [h1]
              · rw [if_neg h1, if_pos (by omega)]
            · exfalso
              refine hlast post' i [] rfl hid ?_
              simp only [WritesRecord]
              rw [← e3]; omega
          · intro hno
            exact absurd (by simp only [WritesRecord]; omega) (hno ops i [] rfl hid)
        · rename_i e
          have hid : i.id ≠ node := by omega
          by_cases hold : node - 1 < s1.length
          · have : s1[node - 1]? = some s := by
              split at hs
              · rw [List.getElem?_append_left hold] at hs; exact hs
              · exact hs
            exact keep s (ih s1 h1 node hn s this) (.inl hid)
          · -- a new record that was not written
            split at hs
            · rw [List.getElem?_append_right (by omega), List.getElem?_replicate] at hs
              split at hs
              · injection hs with hs
                have hz := rows_above zero ops s1 h1 node (by omega)
                constructor
                · intro pre j post e2 hj hw hlast
                  exfalso
                  rcases snoc_split e2 with ⟨-, e3, -⟩ | ⟨post', -, e3⟩
                  · injection e3 with e3; subst e3; exact hid hj
                  · have : topEvent ops = max (topEvent pre) (topEvent (.event j :: post')) := by rw [e3, topEvent_append]
                    simp only [topEvent] at this
                    omega
                · intro _
                  rw [← hs, NodeStats.blank, disjointRows_append, maxflowRows_append, hz.1, hz.2]
                  simp [disjointRows, maxflowRows]
              · cases hs
            · rw [List.getElem?_eq_none (by omega)] at hs; cases hs
      · rename_i hlt
        simp only [Res.ok.injEq] at h2
        subst h2
        exact keep s (ih s1 h1 node hn s hs) (.inr (by omega))

-- two nodes, the parent of node 3 is node 1; node 2 was never focused
example : runNodeOps (0 : Int) [.event ⟨1, 5, 7, 20⟩, .disjoint 1 4, .event ⟨3, 6, 1, 19⟩, .maxflow 3 2, .maxflow 2 1] [] =
    .ok [⟨5, 1, 4, 0, 0, 0, 0, 1, 20⟩, ⟨0, 0, 0, 1, 0, 0, 0, 0, 0⟩, ⟨6, 3, 0, 2, 0, 0, 0, 1, 19⟩] := by decide

/-- C42: a repeated event for the latest node replaces its record by a new one with all counts zero. -/
theorem C42_reset (zero : D) (ops : List (NodeOp D)) (stats : List (NodeStats D)) (h : runNodeOps zero ops [] = .ok stats)
    (i : NodeInfo D) (hi : i.id = topEvent ops) (hpos : 0 < i.id) :
    ∃ stats', runNodeOps zero (ops ++ [.event i]) [] = .ok stats' ∧ stats'.length = stats.length ∧
      (∀ k, k + 1 ≠ i.id → stats'[k]? = stats[k]?) ∧
      ∃ s, stats'[i.id - 1]? = some s ∧ s.nodeId = i.id ∧ s.numSecDisjointTour = 0 ∧ s.numSecMaxflowMincut = 0 := by
  have hl := run_length zero ops [] stats h
  simp only [List.length_nil, Nat.zero_max] at hl
  refine ⟨stats.set (i.id - 1) (newStatsForNode i), ?_, by simp, ?_, newStatsForNode i, ?_, rfl, rfl, rfl⟩
  · rw [runNodeOps_append, h]
    simp only [Res.ok_bind, runNodeOps, NodeOp.apply, nodeEvent]
    rw [if_pos (by omega), addCurrentNode, if_neg (by omega), if_neg (by omega)]; rfl
  · intro k hk; rw [List.getElem?_set, if_neg (by omega)]
  · rw [List.getElem?_set, if_pos rfl, if_pos (by omega)]

/-- The claim that the statistics count all rows. -/
def CountsAllRows : Prop :=
  ∀ (ops : List (NodeOp Unit)) (stats : List (NodeStats Unit)), runNodeOps () ops [] = .ok stats →
    numDisjointTourSECs stats = allDisjointRows ops ∧ numMaxflowMincutSECs stats = allMaxflowRows ops

/-- C42: it is false: the root node is focused, five rows are added, and the next event of the root drops them. -/
theorem C42_counts_lost : ¬ CountsAllRows := by
  intro h
  have := h [.event ⟨1, (), 0, ()⟩, .disjoint 1 5, .event ⟨1, (), 0, ()⟩] [newStatsForNode ⟨1, (), 0, ()⟩] rfl
  revert this; decide

theorem foldl_count (f : NodeStats D → Nat) : ∀ (l : List (NodeStats D)) (a : Nat),
    l.foldl (fun t s => t + f s) a = a + (l.map f).sum
  | [], a => by simp
  | x :: l, a => by simp [foldl_count f l]; omega

theorem sum_set (f : NodeStats D → Nat) : ∀ (l : List (NodeStats D)) (k : Nat) (s x : NodeStats D), l[k]? = some s →
    ((l.set k x).map f).sum + f s = (l.map f).sum + f x
  | [], k, s, x, h => by simp at h
  | a :: l, 0, s, x, h => by simp at h; subst h; simp; omega
  | a :: l, k + 1, s, x, h => by
    have := sum_set f l k s x (by simpa using h)
    simp only [List.set_cons_succ, List.map_cons, List.sum_cons]; omega

/-- How one operation changes the two totals. -/
theorem apply_totals {zero : D} {stats stats' : List (NodeStats D)} {o : NodeOp D} (h : o.apply zero stats = .ok stats') :
    ((stats'.map (·.numSecDisjointTour)).sum ≤ (stats.map (·.numSecDisjointTour)).sum + allDisjointRows [o] ∧
      (stats'.map (·.numSecMaxflowMincut)).sum ≤ (stats.map (·.numSecMaxflowMincut)).sum + allMaxflowRows [o]) ∧
    ((∀ i, o = .event i → i.id ≠ stats.length) →
      (stats'.map (·.numSecDisjointTour)).sum = (stats.map (·.numSecDisjointTour)).sum + allDisjointRows [o] ∧
      (stats'.map (·.numSecMaxflowMincut)).sum = (stats.map (·.numSecMaxflowMincut)).sum + allMaxflowRows [o]) := by
  cases o with
  | disjoint node n =>
    obtain ⟨k, s, rfl, hs, rfl⟩ := bumpNode_ok h
    have h1 := sum_set (·.numSecDisjointTour) stats k s { s with numSecDisjointTour := s.numSecDisjointTour + n } hs
    have h2 := sum_set (·.numSecMaxflowMincut) stats k s { s with numSecDisjointTour := s.numSecDisjointTour + n } hs
    simp only [allDisjointRows, allMaxflowRows] at *
    exact ⟨by omega, fun _ => by omega⟩
  | maxflow node n =>
    obtain ⟨k, s, rfl, hs, rfl⟩ := bumpNode_ok h
    have h1 := sum_set (·.numSecDisjointTour) stats k s { s with numSecMaxflowMincut := s.numSecMaxflowMincut + n } hs
    have h2 := sum_set (·.numSecMaxflowMincut) stats k s { s with numSecMaxflowMincut := s.numSecMaxflowMincut + n } hs
    simp only [allDisjointRows, allMaxflowRows] at *
    exact ⟨by omega, fun _ => by omega⟩
  | event i =>
    simp only [NodeOp.apply, nodeEvent] at h
    simp only [allDisjointRows, allMaxflowRows, Nat.add_zero]
    split at h
    case isFalse => simp only [Res.ok.injEq] at h; subst h; simp
    case isTrue hc =>
      obtain ⟨hp, rfl⟩ := addCurrentNode_ok h
      have hb1 : ((List.replicate (i.id - stats.length) (NodeStats.blank zero)).map (·.numSecDisjointTour)).sum = 0 := by
        rw [List.map_replicate]; simp [NodeStats.blank]
      have hb2 : ((List.replicate (i.id - stats.length) (NodeStats.blank zero)).map (·.numSecMaxflowMincut)).sum = 0 := by
        rw [List.map_replicate]; simp [NodeStats.blank]
      by_cases hlt : stats.length < i.id
      · rw [if_pos hlt]
        have hget : (stats ++ List.replicate (i.id - stats.length) (.blank zero))[i.id - 1]? = some (.blank zero) := by
          rw [List.getElem?_append_right (by omega), List.getElem?_replicate, if_pos (by omega)]
        have h1 := sum_set (·.numSecDisjointTour) _ _ _ (newStatsForNode i) hget
        have h2 := sum_set (·.numSecMaxflowMincut) _ _ _ (newStatsForNode i) hget
        simp only [List.map_append, List.sum_append, newStatsForNode, NodeStats.blank] at h1 h2 hb1 hb2 ⊢
        exact ⟨by omega, fun _ => by omega⟩
      · rw [if_neg hlt]
        have hk : i.id - 1 < stats.length := by omega
        have hget : stats[i.id - 1]? = some stats[i.id - 1] := List.getElem?_eq_getElem hk
        have h1 := sum_set (·.numSecDisjointTour) _ _ _ (newStatsForNode i) hget
        have h2 := sum_set (·.numSecMaxflowMincut) _ _ _ (newStatsForNode i) hget
        simp only [newStatsForNode] at h1 h2 ⊢
        exact ⟨by omega, fun h' => absurd (by omega) (h' i rfl)⟩

theorem allRows_cons (o : NodeOp D) (os : List (NodeOp D)) :
    allDisjointRows (o :: os) = allDisjointRows [o] + allDisjointRows os ∧
      allMaxflowRows (o :: os) = allMaxflowRows [o] + allMaxflowRows os := by
  cases o <;> simp [allDisjointRows, allMaxflowRows]

/-- C42: the totals of the summary never exceed the number of rows that were reported. -/
theorem C42_totals_le (zero : D) (ops : List (NodeOp D)) (stats : List (NodeStats D)) (h : runNodeOps zero ops [] = .ok stats) :
    numDisjointTourSECs stats ≤ allDisjointRows ops ∧ numMaxflowMincutSECs stats ≤ allMaxflowRows ops := by
  suffices ∀ s0, runNodeOps zero ops s0 = .ok stats →
      (stats.map (·.numSecDisjointTour)).sum ≤ (s0.map (·.numSecDisjointTour)).sum + allDisjointRows ops ∧
      (stats.map (·.numSecMaxflowMincut)).sum ≤ (s0.map (·.numSecMaxflowMincut)).sum + allMaxflowRows ops by
    have := this [] h
    rw [numDisjointTourSECs, numMaxflowMincutSECs, foldl_count, foldl_count]
    simpa using this
  clear h
  induction ops with
  | nil => intro s0 h; simp only [runNodeOps, Res.ok.injEq] at h; subst h; simp [allDisjointRows, allMaxflowRows]
  | cons o os ih =>
    intro s0 h
    simp only [runNodeOps] at h
    obtain ⟨s1, h1, h2⟩ := Res.bind_eq_ok.1 h
    have a := ih s1 h2
    have b := (apply_totals h1).1
    have c := allRows_cons o os
    omega

/-- C42: without a repeated event the totals of the summary are exact. -/
theorem C42_totals (zero : D) (ops : List (NodeOp D)) (hno : NoRepeat ops) (stats : List (NodeStats D))
    (h : runNodeOps zero ops [] = .ok stats) :
    numDisjointTourSECs stats = allDisjointRows ops ∧ numMaxflowMincutSECs stats = allMaxflowRows ops := by
  suffices ∀ pre s0, s0.length = topEvent pre → NoRepeat (pre ++ ops) → runNodeOps zero ops s0 = .ok stats →
      (stats.map (·.numSecDisjointTour)).sum = (s0.map (·.numSecDisjointTour)).sum + allDisjointRows ops ∧
      (stats.map (·.numSecMaxflowMincut)).sum = (s0.map (·.numSecMaxflowMincut)).sum + allMaxflowRows ops by
    have := this [] [] rfl hno h
    rw [numDisjointTourSECs, numMaxflowMincutSECs, foldl_count, foldl_count]
    simpa using this
  clear h hno
  induction ops with
  | nil => intro pre s0 _ _ h; simp only [runNodeOps, Res.ok.injEq] at h; subst h; simp [allDisjointRows, allMaxflowRows]
  | cons o os ih =>
    intro pre s0 hl hno h
    simp only [runNodeOps] at h
    obtain ⟨s1, h1, h2⟩ := Res.bind_eq_ok.1 h
    have a := ih (pre ++ [o]) s1 (by rw [apply_length h1, topEvent_append, hl]) (by simpa using hno) h2
    have b := (apply_totals h1).2 (fun i hi => by rw [hl]; exact hno pre os i (by rw [hi]))
    have c := allRows_cons o os
    omega

/-- A history without repetition: nodes 1, 3, 2, with rows at each of them. -/
def exNodeOps : List (NodeOp Unit) :=
  [.event ⟨1, (), 0, ()⟩, .disjoint 1 4, .maxflow 1 2, .event ⟨3, (), 1, ()⟩, .disjoint 3 1, .event ⟨2, (), 1, ()⟩, .maxflow 2 6]

theorem exNodeOps_noRepeat : NoRepeat exNodeOps := by
  intro pre post i h
  match pre, h with
  | [], h => simp [exNodeOps] at h; simp [topEvent, ← h.1]
  | [_], h => simp [exNodeOps] at h
  | [_, _], h => simp [exNodeOps] at h
  | [a, b, c], h =>
    simp [exNodeOps] at h; obtain ⟨rfl, rfl, rfl, h, -⟩ := h; simp [topEvent, ← h]
  | [_, _, _, _], h => simp [exNodeOps] at h
  | [a, b, c, d, e], h =>
    simp [exNodeOps] at h; obtain ⟨rfl, rfl, rfl, rfl, rfl, h, -⟩ := h; simp [topEvent, ← h]
  | [_, _, _, _, _, _], h => simp [exNodeOps] at h
  | _ :: _ :: _ :: _ :: _ :: _ :: _ :: _, h => simp [exNodeOps] at h

/-- The record of node 2 has its six rows, but not its number. -/
example : ∃ stats, runNodeOps () exNodeOps [] = .ok stats ∧
    stats.map (fun s => (s.nodeId, s.numSecDisjointTour, s.numSecMaxflowMincut)) = [(1, 4, 2), (0, 0, 6), (3, 1, 0)] :=
  ⟨_, rfl, by decide⟩

/-! ## C61 -/

/-- C61: the statistics access memory out of bounds exactly if rows are reported for node 0 or for a node that is larger than all
nodes with an event so far, or if the first events are for node 0; nothing is ever thrown. -/
theorem C61_undefined_iff (zero : D) (ops : List (NodeOp D)) :
    ((runNodeOps zero ops []).isUb = true ↔ ∃ (pre post : List (NodeOp D)) (o : NodeOp D), ops = pre ++ o :: post ∧
      ((∃ node n, (o = .disjoint node n ∨ o = .maxflow node n) ∧ (node = 0 ∨ topEvent pre < node)) ∨
        (∃ i, o = .event i ∧ i.id = 0 ∧ topEvent pre = 0))) ∧
    ((runNodeOps zero ops []).isUb = false → (runNodeOps zero ops []).isOk = true) := by
  have hone : ∀ (stats : List (NodeStats D)) (o : NodeOp D),
      ((o.apply zero stats).isUb = true ↔
        ((∃ node n, (o = .disjoint node n ∨ o = .maxflow node n) ∧ (node = 0 ∨ stats.length < node)) ∨
          (∃ i, o = .event i ∧ i.id = 0 ∧ stats.length = 0))) ∧
      ((o.apply zero stats).isUb = false → (o.apply zero stats).isOk = true) := by
    have hb : ∀ (stats : List (NodeStats D)) (node : Nat) (f : NodeStats D → NodeStats D),
        ((bumpNode stats node f).isUb = true ↔ node = 0 ∨ stats.length < node) ∧
          ((bumpNode stats node f).isUb = false → (bumpNode stats node f).isOk = true) := by
      intro stats node f
      cases node with
      | zero => simp [bumpNode, Res.isUb]
      | succ k =>
        simp only [bumpNode]
        by_cases hk : k < stats.length
        · rw [List.getElem?_eq_getElem hk]; simp [Res.isUb, Res.isOk]; omega
        · rw [List.getElem?_eq_none (by omega)]; simp [Res.isUb]; omega
    intro stats o
    cases o with
    | disjoint node n =>
      have := hb stats node (fun s => { s with numSecDisjointTour := s.numSecDisjointTour + n })
      refine ⟨this.1.trans ?_, this.2⟩
      constructor
      · intro h; exact Or.inl ⟨node, n, Or.inl rfl, h⟩
      · rintro (⟨k, m, h | h, h'⟩ | ⟨i, h, -⟩)
        · simp only [NodeOp.disjoint.injEq] at h; rw [h.1]; exact h'
        · simp at h
        · simp at h
    | maxflow node n =>
      have := hb stats node (fun s => { s with numSecMaxflowMincut := s.numSecMaxflowMincut + n })
      refine ⟨this.1.trans ?_, this.2⟩
      constructor
      · intro h; exact Or.inl ⟨node, n, Or.inr rfl, h⟩
      · rintro (⟨k, m, h | h, h'⟩ | ⟨i, h, -⟩)
        · simp at h
        · simp only [NodeOp.maxflow.injEq] at h; rw [h.1]; exact h'
        · simp at h
    | event i =>
      simp only [NodeOp.apply, nodeEvent, addCurrentNode]
      by_cases h1 : i.id ≥ stats.length
      · by_cases h2 : i.id = 0
        · rw [if_pos h1, if_pos h2]
          exact ⟨⟨fun _ => Or.inr ⟨i, rfl, h2, by omega⟩, fun _ => rfl⟩, fun h => by simp [Res.isUb] at h⟩
        · rw [if_pos h1, if_neg h2]; simp [Res.isUb, Res.isOk, h2]
      · rw [if_neg h1]
        refine ⟨⟨fun h => by simp [Res.isUb] at h, ?_⟩, fun _ => rfl⟩
        rintro (⟨k, m, h | h, -⟩ | ⟨i', h, h', h''⟩)
        · simp at h
        · simp at h
        · omega
  suffices ∀ (pre0 : List (NodeOp D)) (s0 : List (NodeStats D)), s0.length = topEvent pre0 →
      ((runNodeOps zero ops s0).isUb = true ↔ ∃ (pre post : List (NodeOp D)) (o : NodeOp D), ops = pre ++ o :: post ∧
        ((∃ node n, (o = .disjoint node n ∨ o = .maxflow node n) ∧ (node = 0 ∨ topEvent (pre0 ++ pre) < node)) ∨
          (∃ i, o = .event i ∧ i.id = 0 ∧ topEvent (pre0 ++ pre) = 0))) ∧
      ((runNodeOps zero ops s0).isUb = false → (runNodeOps zero ops s0).isOk = true) by
    simpa using this [] [] rfl
  induction ops with
  | nil => intro pre0 s0 _; simp [runNodeOps, Res.isUb, Res.isOk]
  | cons o os ih =>
    intro pre0 s0 hl
    have h1 := hone s0 o
    rw [hl] at h1
    simp only [runNodeOps]
    cases ha : o.apply zero s0 with
    | ub m =>
      rw [ha] at h1
      refine ⟨⟨fun _ => ⟨[], os, o, rfl, by simpa using h1.1.1 rfl⟩, fun _ => rfl⟩, fun h => by simp [Res.isUb] at h⟩
    | throw e => rw [ha] at h1; simp [Res.isUb, Res.isOk] at h1
    | ok s1 =>
      rw [ha] at h1
      have h2 := ih (pre0 ++ [o]) s1 (by rw [apply_length ha, topEvent_append, hl])
      simp only [Res.ok_bind]
      refine ⟨h2.1.trans ?_, h2.2⟩
      constructor
      · rintro ⟨pre, post, o', rfl, h⟩
        exact ⟨o :: pre, post, o', rfl, by simpa using h⟩
      · rintro ⟨pre, post, o', h3, h4⟩
        cases pre with
        | nil =>
          simp only [List.nil_append, List.cons.injEq] at h3
          obtain ⟨rfl, rfl⟩ := h3
          have := h1.1.2 (by simpa using h4)
          simp [Res.isUb] at this
        | cons p pre =>
          simp only [List.cons_append, List.cons.injEq] at h3
          obtain ⟨rfl, rfl⟩ := h3
          exact ⟨pre, post, o', rfl, by simpa using h4⟩

example : (runNodeOps () [.event ⟨1, (), 0, ()⟩, .disjoint 2 1] []).isUb = true ∧
    (runNodeOps () exNodeOps []).isUb = false := by decide

/-! The theorems applied to these operations. -/

example := C42_counts () exNodeOps exNodeOps_noRepeat _ rfl
example := C42_reset () exNodeOps _ rfl ⟨3, (), 2, ()⟩ rfl (by decide)
example := C42_totals_le () exNodeOps _ rfl

end Pctsp
