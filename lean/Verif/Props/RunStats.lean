import Verif.Lemmas.RunStats
import Verif.Props.Cuts

/-!
# C129: the numbers in the summary of a run
-/

namespace Pctsp

variable {D : Type}

/-- The node events of a history, in order. -/
def nodeEvents : List (Callback D) → List (NodeOp D)
  | [] => []
  | .node i :: cs => .event i :: nodeEvents cs
  | _ :: cs => nodeEvents cs

/-- The bounds of the new best solutions of a history, in order. -/
def bestBounds : List (Callback D) → List Int
  | [] => []
  | .best ub :: cs => ub :: bestBounds cs
  | _ :: cs => bestBounds cs

/-- The number of vertices whose distance exceeds a bound. -/
def exceeding (g : Graph) (dist : Nat → Int) (ub : Int) : Nat := ((List.range g.n).filter fun v => decide (ub < dist v)).length

/-- The events among the operations on the node statistics. -/
def eventsOf : List (NodeOp D) → List (NodeOp D)
  | [] => []
  | .event i :: os => .event i :: eventsOf os
  | _ :: os => eventsOf os

theorem eventsOf_append : ∀ a b : List (NodeOp D), eventsOf (a ++ b) = eventsOf a ++ eventsOf b
  | [], b => rfl
  | .event i :: a, b => by simp [eventsOf, eventsOf_append a b]
  | .disjoint _ _ :: a, b => by simp [eventsOf, eventsOf_append a b]
  | .maxflow _ _ :: a, b => by simp [eventsOf, eventsOf_append a b]

theorem topEvent_eventsOf : ∀ a : List (NodeOp D), topEvent (eventsOf a) = topEvent a
  | [] => rfl
  | .event i :: a => by simp [eventsOf, topEvent, topEvent_eventsOf a]
  | .disjoint _ _ :: a => by simp [eventsOf, topEvent, topEvent_eventsOf a]
  | .maxflow _ _ :: a => by simp [eventsOf, topEvent, topEvent_eventsOf a]

theorem noRepeat_of_events {ops : List (NodeOp D)} (h : NoRepeat (eventsOf ops)) : NoRepeat ops := by
  rintro pre post i rfl
  have := h (eventsOf pre) (eventsOf post) i (by rw [eventsOf_append]; rfl)
  rwa [topEvent_eventsOf] at this

theorem allDisjointRows_append : ∀ a b : List (NodeOp D), allDisjointRows (a ++ b) = allDisjointRows a + allDisjointRows b
  | [], b => by simp [allDisjointRows]
  | .event i :: a, b => by simp [allDisjointRows, allDisjointRows_append a b]
  | .disjoint _ _ :: a, b => by simp [allDisjointRows, allDisjointRows_append a b]; omega
  | .maxflow _ _ :: a, b => by simp [allDisjointRows, allDisjointRows_append a b]

theorem allMaxflowRows_append : ∀ a b : List (NodeOp D), allMaxflowRows (a ++ b) = allMaxflowRows a + allMaxflowRows b
  | [], b => by simp [allMaxflowRows]
  | .event i :: a, b => by simp [allMaxflowRows, allMaxflowRows_append a b]
  | .disjoint _ _ :: a, b => by simp [allMaxflowRows, allMaxflowRows_append a b]
  | .maxflow _ _ :: a, b => by simp [allMaxflowRows, allMaxflowRows_append a b]; omega

/-- What the node statistics and the rows of the subtour handler have in common. -/
def SecInv (zero : D) (E : RunEnv) (events : List (NodeOp D)) (s : RunState D) : Prop :=
  ∃ ops, runNodeOps zero ops [] = .ok s.nodes ∧ eventsOf ops = events ∧ allDisjointRows ops + allMaxflowRows ops = s.secOffered.length ∧
    (E.options.secDisjoint = false → allDisjointRows ops = 0) ∧ (E.options.secMaxflow = false → allMaxflowRows ops = 0) ∧
    s.secAdded.Sublist s.secOffered

theorem runNodeOps_snoc {zero : D} {ops : List (NodeOp D)} {stats stats' : List (NodeStats D)} {o : NodeOp D}
    (h : runNodeOps zero ops [] = .ok stats) (ho : o.apply zero stats = .ok stats') : runNodeOps zero (ops ++ [o]) [] = .ok stats' := by
  rw [runNodeOps_append, h, Res.ok_bind]
  simp [runNodeOps, ho]

theorem secInv_step {zero : D} {E : RunEnv} {events : List (NodeOp D)} {s s' : RunState D} (hi : SecInv zero E events s) {c : Callback D}
    (h : c.apply zero E s = .ok s') : SecInv zero E (events ++ nodeEvents [c]) s' := by
  obtain ⟨ops, h1, h2, h3, h4, h5, h6⟩ := hi
  cases c with
  | node i =>
    simp only [Callback.apply, Res.bind_eq_ok, Res.pure_eq, Res.ok.injEq] at h
    obtain ⟨nodes, hn, rfl⟩ := h
    refine ⟨ops ++ [.event i], runNodeOps_snoc (o := .event i) h1 hn, by rw [eventsOf_append, h2]; rfl, ?_, ?_, ?_, h6⟩
    · rw [allDisjointRows_append, allMaxflowRows_append]; simpa [allDisjointRows, allMaxflowRows] using h3
    · intro e; rw [allDisjointRows_append, h4 e]; rfl
    · intro e; rw [allMaxflowRows_append, h5 e]; rfl
  | cycle sv m ids =>
    simp only [Callback.apply, cycleCallback] at h
    split at h
    · simp only [Res.ok.injEq] at h; subst h; exact ⟨ops, h1, by simpa [nodeEvents] using h2, h3, h4, h5, h6⟩
    · simp only [Res.bind_eq_ok, Res.pure_eq, Res.ok.injEq] at h
      obtain ⟨st, -, rfl⟩ := h
      exact ⟨ops, h1, by simpa [nodeEvents] using h2, h3, h4, h5, h6⟩
  | best ub =>
    simp only [Callback.apply, Res.bind_eq_ok, Res.pure_eq, Res.ok.injEq] at h
    obtain ⟨d, -, t, -, rfl⟩ := h
    exact ⟨ops, h1, by simpa [nodeEvents] using h2, h3, h4, h5, h6⟩
  | sec lp nd sv x m ids =>
    simp only [Callback.apply, secCallback, Res.bind_eq_ok, Res.pure_eq, Res.ok.injEq] at h
    obtain ⟨⟨st, k, l⟩, hr, nodes, hj, rfl⟩ := h
    obtain ⟨rows, rows', ⟨off, add⟩, hk, hl, hd0, hf0⟩ : ∃ rows rows' : List Row, (st.offered = rows ++ rows' ∧ st.added.Sublist (rows ++ rows')) ∧
        k = rows.length ∧ l = rows'.length ∧ (E.options.secDisjoint = false → k = 0) ∧ (E.options.secMaxflow = false → l = 0) := by
      cases lp with
      | true =>
        obtain ⟨rows, rows', rfl, hk, hl, hd0, hf0⟩ := separateSubtour_offers hr
        exact ⟨rows, rows', ⟨by rw [offerAll_offered]; rfl, by rw [offerAll_added]; exact List.filter_sublist⟩, hk, hl, hd0, hf0⟩
      | false =>
        obtain ⟨rows, rows', rfl, hk, hl, hd0, hf0⟩ := separateSubtour_offers hr
        exact ⟨rows, rows', ⟨by rw [offerAll_offered]; rfl, by rw [offerAll_added]; exact List.filter_sublist⟩, hk, hl, hd0, hf0⟩
    simp only [reportSecs] at hj
    have key : ∀ nodes ops', runNodeOps zero (ops ++ ops') [] = .ok nodes → eventsOf ops' = [] → allDisjointRows ops' = k → allMaxflowRows ops' = l →
        SecInv zero E (events ++ nodeEvents [.sec lp nd sv x m ids])
          { s with nodes, secOffered := s.secOffered ++ st.offered, secAdded := s.secAdded ++ st.added } := by
      intro nodes ops' g1 g2 g3 g4
      refine ⟨ops ++ ops', g1, by rw [eventsOf_append, h2, g2]; rfl, ?_, ?_, ?_, ?_⟩
      · rw [allDisjointRows_append, allMaxflowRows_append, g3, g4]
        simp only [List.length_append, off]
        omega
      · intro e; rw [allDisjointRows_append, h4 e, g3, hd0 e]
      · intro e; rw [allMaxflowRows_append, h5 e, g4, hf0 e]
      · exact h6.append (off ▸ add)
    cases hd : E.options.secDisjoint with
    | false =>
      rw [hd] at hj
      simp only [Bool.false_eq_true, if_false, Res.ok_bind] at hj
      cases hf : E.options.secMaxflow with
      | false =>
        rw [hf] at hj
        simp only [Bool.false_eq_true, if_false, Res.ok_bind, Res.ok.injEq] at hj
        subst hj
        exact key _ [] (by simpa using h1) rfl (by rw [hd0 hd]; rfl) (by rw [hf0 hf]; rfl)
      | true =>
        rw [hf] at hj
        simp only [if_true] at hj
        exact key _ [.maxflow nd l] (runNodeOps_snoc h1 hj) rfl (by rw [hd0 hd]; rfl) (by simp [allMaxflowRows])
    | true =>
      rw [hd] at hj
      simp only [if_true] at hj
      obtain ⟨nodes1, hn, hj⟩ := Res.bind_eq_ok.1 hj
      cases hf : E.options.secMaxflow with
      | false =>
        rw [hf] at hj
        simp only [Bool.false_eq_true, if_false, Res.ok.injEq] at hj
        subst hj
        exact key _ [.disjoint nd k] (runNodeOps_snoc h1 hn) rfl (by simp [allDisjointRows]) (by rw [hf0 hf]; rfl)
      | true =>
        rw [hf] at hj
        simp only [if_true] at hj
        refine key _ [.disjoint nd k, .maxflow nd l] ?_ rfl (by simp [allDisjointRows]) (by simp [allMaxflowRows])
        have := runNodeOps_snoc (runNodeOps_snoc h1 hn) hj
        simpa using this

theorem nodeEvents_cons (c : Callback D) (cs : List (Callback D)) : nodeEvents (c :: cs) = nodeEvents [c] ++ nodeEvents cs := by
  cases c <;> rfl

theorem secInv_run {zero : D} {E : RunEnv} : ∀ (hist : List (Callback D)) (events : List (NodeOp D)) (s s' : RunState D), SecInv zero E events s →
    runCallbacks zero E hist s = .ok s' → SecInv zero E (events ++ nodeEvents hist) s'
  | [], events, s, s', hi, h => by simp only [runCallbacks, Res.ok.injEq] at h; subst h; simpa [nodeEvents] using hi
  | c :: cs, events, s, s', hi, h => by
    simp only [runCallbacks, Res.bind_eq_ok] at h
    obtain ⟨s1, h1, h2⟩ := h
    rw [nodeEvents_cons, ← List.append_assoc]
    exact secInv_run cs _ s1 s' (secInv_step hi h1) h2

theorem startRun_eq {E : RunEnv} {disjoint shortest : Nat → Int} {ub : Int} {s : RunState D} (h : startRun E disjoint shortest ub = .ok s) :
    s.nodes = [] ∧ s.secOffered = [] ∧ s.secAdded = [] ∧ s.cycleOffered = [] ∧ s.cycleAdded = [] ∧ (s.cycle = if E.options.cycleCover then some 0 else none) ∧
      startCover E E.options.coverDisjoint disjoint ub = .ok s.disjoint ∧ startCover E E.options.coverShortest shortest ub = .ok s.shortest := by
  simp only [startRun, Res.bind_eq_ok, Res.pure_eq, Res.ok.injEq] at h
  obtain ⟨d, h1, t, h2, rfl⟩ := h
  exact ⟨rfl, rfl, rfl, rfl, rfl, rfl, h1, h2⟩

variable {zero : D} {E : RunEnv} {disjoint shortest : Nat → Int} {ub0 : Int} {s0 s : RunState D} {hist : List (Callback D)}

/-- **C129.** The two numbers of subtour elimination rows add up to at most the number of rows that the handler created, and to exactly that number if
no node event repeats; of these rows the solver got a part.  A method that is switched off has the number 0. -/
theorem C129_sec (h0 : startRun E disjoint shortest ub0 = .ok s0) (h : runCallbacks zero E hist s0 = .ok s) (status : Int) (lo up : D) (nn : Int) :
    (s.summary status lo up nn).numSecDisjointTour + (s.summary status lo up nn).numSecMaxflowMincut ≤ s.secOffered.length ∧
    (NoRepeat (nodeEvents hist) →
      (s.summary status lo up nn).numSecDisjointTour + (s.summary status lo up nn).numSecMaxflowMincut = s.secOffered.length) ∧
    s.secAdded.Sublist s.secOffered ∧
    (E.options.secDisjoint = false → (s.summary status lo up nn).numSecDisjointTour = 0) ∧
    (E.options.secMaxflow = false → (s.summary status lo up nn).numSecMaxflowMincut = 0) := by
  obtain ⟨e1, e2, e3, -⟩ := startRun_eq h0
  have hi : SecInv zero E [] s0 := ⟨[], by rw [e1]; rfl, rfl, by rw [e2]; rfl, fun _ => rfl, fun _ => rfl, by rw [e2, e3]⟩
  obtain ⟨ops, h1, h2, h3, h4, h5, h6⟩ := secInv_run hist [] s0 s hi h
  have hle := C42_totals_le zero ops s.nodes h1
  simp only [RunState.summary]
  refine ⟨by omega, fun hno => ?_, h6, fun e => ?_, fun e => ?_⟩
  · have := C42_totals zero ops (noRepeat_of_events (by rw [h2]; exact hno)) s.nodes h1
    omega
  · have := h4 e; omega
  · have := h5 e; omega

/-- The counter of the cycle cover handler and the rows that entered the LP. -/
theorem cycle_run : ∀ (hist : List (Callback D)) (s s' : RunState D), runCallbacks zero E hist s = .ok s' →
    (s.cycle = none → s'.cycle = none ∧ s'.cycleAdded = s.cycleAdded ∧ s'.cycleOffered = s.cycleOffered) ∧
    ∀ c, s.cycle = some c → ∃ c', s'.cycle = some c' ∧ c' + s.cycleAdded.length = c + s'.cycleAdded.length ∧
      (s.cycleAdded.Sublist s.cycleOffered → s'.cycleAdded.Sublist s'.cycleOffered)
  | [], s, s', h => by
    simp only [runCallbacks, Res.ok.injEq] at h
    subst h
    exact ⟨fun e => ⟨e, rfl, rfl⟩, fun c e => ⟨c, e, by omega, id⟩⟩
  | c :: cs, s, s', h => by
    simp only [runCallbacks, Res.bind_eq_ok] at h
    obtain ⟨s1, h1, h2⟩ := h
    obtain ⟨ih1, ih2⟩ := cycle_run cs s1 s' h2
    have same : s1.cycle = s.cycle → s1.cycleAdded = s.cycleAdded → s1.cycleOffered = s.cycleOffered →
        (s.cycle = none → s'.cycle = none ∧ s'.cycleAdded = s.cycleAdded ∧ s'.cycleOffered = s.cycleOffered) ∧
        ∀ c, s.cycle = some c → ∃ c', s'.cycle = some c' ∧ c' + s.cycleAdded.length = c + s'.cycleAdded.length ∧
          (s.cycleAdded.Sublist s.cycleOffered → s'.cycleAdded.Sublist s'.cycleOffered) := by
      intro g1 g2 g3
      rw [← g1, ← g2, ← g3]
      exact ⟨ih1, ih2⟩
    cases c with
    | node i =>
      simp only [Callback.apply, Res.bind_eq_ok, Res.pure_eq, Res.ok.injEq] at h1
      obtain ⟨nodes, -, rfl⟩ := h1
      exact same rfl rfl rfl
    | best ub =>
      simp only [Callback.apply, Res.bind_eq_ok, Res.pure_eq, Res.ok.injEq] at h1
      obtain ⟨d, -, t, -, rfl⟩ := h1
      exact same rfl rfl rfl
    | sec lp nd sv x m ids =>
      have key : s1.cycle = s.cycle ∧ s1.cycleAdded = s.cycleAdded ∧ s1.cycleOffered = s.cycleOffered := by
        simp only [Callback.apply, secCallback, Res.bind_eq_ok, Res.pure_eq, Res.ok.injEq] at h1
        obtain ⟨_, -, _, -, rfl⟩ := h1
        exact ⟨rfl, rfl, rfl⟩
      exact same key.1 key.2.1 key.2.2
    | cycle sv m ids =>
      simp only [Callback.apply, cycleCallback] at h1
      split at h1
      · simp only [Res.ok.injEq] at h1
        subst h1
        exact same rfl rfl rfl
      · rename_i c0 hc0
        simp only [Res.bind_eq_ok, Res.pure_eq, Res.ok.injEq] at h1
        obtain ⟨st, hst, rfl⟩ := h1
        refine ⟨fun e => by rw [hc0] at e; simp at e, fun c e => ?_⟩
        rw [hc0] at e
        cases e
        rcases separateCycleCover_offers hst with ⟨g1, g2, g3⟩ | ⟨g1, g2, g3⟩
        · obtain ⟨c', e1, e2, e3⟩ := ih2 (c0 + 1) (by simp only; rw [if_pos g1])
          refine ⟨c', e1, ?_, fun hsub => e3 (by rw [g3]; exact hsub.append (List.Sublist.refl _))⟩
          simp only [List.length_append, g2] at e2
          omega
        · obtain ⟨c', e1, e2, e3⟩ := ih2 c0 (by simp only; rw [if_neg g1])
          refine ⟨c', e1, ?_, fun hsub => e3 (by rw [g2]; exact hsub.append (List.nil_sublist _))⟩
          simpa only [List.length_append, g2, List.length_nil, Nat.add_zero] using e2

/-- **C129.** The number of cycle cover rows is the number of rows that the solver got, which are a part of those that were created, and 0 if the
option is off. -/
theorem C129_cycle (h0 : startRun E disjoint shortest ub0 = .ok s0) (h : runCallbacks zero E hist s0 = .ok s) (status : Int) (lo up : D) (nn : Int) :
    (s.summary status lo up nn).numCycleCover = s.cycleAdded.length ∧ s.cycleAdded.Sublist s.cycleOffered ∧
    (E.options.cycleCover = false → s.cycleOffered = [] ∧ (s.summary status lo up nn).numCycleCover = 0) := by
  obtain ⟨-, -, -, e4, e5, e6, -⟩ := startRun_eq h0
  obtain ⟨k1, k2⟩ := cycle_run hist s0 s h
  cases hc : E.options.cycleCover with
  | false =>
    rw [hc] at e6
    obtain ⟨k3, k4, k5⟩ := k1 e6
    simp [RunState.summary, k3, k4, e5, k5, e4]
  | true =>
    rw [hc] at e6
    obtain ⟨c', k3, k4, k5⟩ := k2 0 e6
    simp only [RunState.summary, k3, Option.getD_some]
    rw [e5] at k4
    exact ⟨by simpa using k4, k5 (by rw [e4, e5]), by simp⟩

theorem bestBounds_cons (c : Callback D) (cs : List (Callback D)) : bestBounds (c :: cs) = bestBounds [c] ++ bestBounds cs := by
  cases c <;> rfl

/-- The state of one handler after a sequence of new best solutions. -/
def CoverAfter (E : RunEnv) (ubs : List Int) (o o' : Option CostCover) : Prop :=
  match o with
  | none => o' = none
  | some h => ∃ h', h.run E.graph E.graph.hasVar E.root ubs = .ok h' ∧ o' = some h'

theorem coverExec_after {ub : Int} {ubs : List Int} {o o1 o' : Option CostCover} (h : coverExec E ub o = .ok o1) (h' : CoverAfter E ubs o1 o') :
    CoverAfter E (ub :: ubs) o o' := by
  cases o with
  | none => simp only [coverExec, Res.ok.injEq] at h; subst h; exact h'
  | some c =>
    simp only [coverExec, Res.bind_eq_ok, Res.pure_eq, Res.ok.injEq] at h
    obtain ⟨c1, h1, rfl⟩ := h
    obtain ⟨c2, h2, rfl⟩ := h'
    exact ⟨c2, by simp [CostCover.run, h1, h2], rfl⟩

theorem covers_run : ∀ (hist : List (Callback D)) (s s' : RunState D), runCallbacks zero E hist s = .ok s' →
    CoverAfter E (bestBounds hist) s.disjoint s'.disjoint ∧ CoverAfter E (bestBounds hist) s.shortest s'.shortest
  | [], s, s', h => by
    simp only [runCallbacks, Res.ok.injEq] at h
    subst h
    have : ∀ o, CoverAfter E [] o o := by
      intro o
      cases o with
      | none => rfl
      | some c => exact ⟨c, rfl, rfl⟩
    exact ⟨this _, this _⟩
  | c :: cs, s, s', h => by
    simp only [runCallbacks, Res.bind_eq_ok] at h
    obtain ⟨s1, h1, h2⟩ := h
    obtain ⟨ih1, ih2⟩ := covers_run cs s1 s' h2
    cases c with
    | best ub =>
      simp only [Callback.apply, Res.bind_eq_ok, Res.pure_eq, Res.ok.injEq] at h1
      obtain ⟨d, hd, t, ht, rfl⟩ := h1
      exact ⟨coverExec_after hd ih1, coverExec_after ht ih2⟩
    | node i =>
      simp only [Callback.apply, Res.bind_eq_ok, Res.pure_eq, Res.ok.injEq] at h1
      obtain ⟨nodes, -, rfl⟩ := h1
      exact ⟨ih1, ih2⟩
    | cycle sv m ids =>
      simp only [Callback.apply, cycleCallback] at h1
      split at h1
      · simp only [Res.ok.injEq] at h1; subst h1; exact ⟨ih1, ih2⟩
      · simp only [Res.bind_eq_ok, Res.pure_eq, Res.ok.injEq] at h1
        obtain ⟨st, -, rfl⟩ := h1
        exact ⟨ih1, ih2⟩
    | sec lp nd sv x m ids =>
      have key : s1.disjoint = s.disjoint ∧ s1.shortest = s.shortest := by
        simp only [Callback.apply, secCallback, Res.bind_eq_ok, Res.pure_eq, Res.ok.injEq] at h1
        obtain ⟨_, -, _, -, rfl⟩ := h1
        exact ⟨rfl, rfl⟩
      show CoverAfter E (bestBounds cs) s.disjoint s'.disjoint ∧ CoverAfter E (bestBounds cs) s.shortest s'.shortest
      rw [← key.1, ← key.2]
      exact ⟨ih1, ih2⟩

theorem cover_numbers (hl : ∀ v < E.graph.n, (v, v) ∈ E.graph.edges) (hroot : E.root < E.graph.n) {on : Bool} {dist : Nat → Int} {ub0 : Int} {ubs : List Int}
    {o o' : Option CostCover} (h0 : startCover E on dist ub0 = .ok o) (h : CoverAfter E ubs o o') :
    (on = false → coverNumbers o' = (0, 0)) ∧
    (on = true → (coverNumbers o').2 = (if 0 < ub0 then exceeding E.graph dist ub0 else 0) ∧
      (coverNumbers o').1 = (coverNumbers o').2 + (ubs.map (exceeding E.graph dist)).sum ∧
      ∃ c, o' = some c ∧ (coverNumbers o').1 = c.rows.length) := by
  cases on with
  | false =>
    simp only [startCover, Bool.false_eq_true, if_false, Res.ok.injEq] at h0
    subst h0
    have : o' = none := h
    subst this
    exact ⟨fun _ => rfl, by simp⟩
  | true =>
    simp only [startCover, if_true, Res.bind_eq_ok, Res.pure_eq, Res.ok.injEq] at h0
    obtain ⟨c, h1, rfl⟩ := h0
    obtain ⟨c', h2, rfl⟩ := h
    obtain ⟨a, b, k1, k2, k3, k4, k5, k6⟩ := C59_count hl hroot dist ub0 ubs
    rw [h1, Res.ok.injEq] at k1
    subst k1
    rw [h2, Res.ok.injEq] at k2
    subst k2
    refine ⟨by simp, fun _ => ⟨?_, ?_, c', rfl, k3⟩⟩
    · simp only [coverNumbers, k4, k5, exceeding]
    · simp only [coverNumbers, k3, k4, k6]
      rfl

/-- **C129.** The numbers of a cost cover handler that is on: the presolve number is the number of vertices whose distance exceeds the cost of the start
solution, 0 if this cost is not positive; the other number adds the vertices whose distance exceeds the bound, for every new best solution, and is
the number of all rows of the handler.  The numbers of a handler that is off are 0. -/
theorem C129_covers (hl : ∀ v < E.graph.n, (v, v) ∈ E.graph.edges) (hroot : E.root < E.graph.n)
    (h0 : startRun E disjoint shortest ub0 = .ok s0) (h : runCallbacks zero E hist s0 = .ok s) (status : Int) (lo up : D) (nn : Int) :
    (E.options.coverDisjoint = false →
      (s.summary status lo up nn).numCostCoverDisjointPaths = 0 ∧ (s.summary status lo up nn).nconssPresolveDisjointPaths = 0) ∧
    (E.options.coverShortest = false →
      (s.summary status lo up nn).numCostCoverShortestPaths = 0 ∧ (s.summary status lo up nn).nconssPresolveShortestPaths = 0) ∧
    (E.options.coverDisjoint = true →
      (s.summary status lo up nn).nconssPresolveDisjointPaths = (if 0 < ub0 then exceeding E.graph disjoint ub0 else 0) ∧
      (s.summary status lo up nn).numCostCoverDisjointPaths =
        (s.summary status lo up nn).nconssPresolveDisjointPaths + ((bestBounds hist).map (exceeding E.graph disjoint)).sum ∧
      ∃ c, s.disjoint = some c ∧ (s.summary status lo up nn).numCostCoverDisjointPaths = c.rows.length) ∧
    (E.options.coverShortest = true →
      (s.summary status lo up nn).nconssPresolveShortestPaths = (if 0 < ub0 then exceeding E.graph shortest ub0 else 0) ∧
      (s.summary status lo up nn).numCostCoverShortestPaths =
        (s.summary status lo up nn).nconssPresolveShortestPaths + ((bestBounds hist).map (exceeding E.graph shortest)).sum ∧
      ∃ c, s.shortest = some c ∧ (s.summary status lo up nn).numCostCoverShortestPaths = c.rows.length) := by
  obtain ⟨-, -, -, -, -, -, e7, e8⟩ := startRun_eq h0
  obtain ⟨r1, r2⟩ := covers_run hist s0 s h
  obtain ⟨d1, d2⟩ := cover_numbers hl hroot e7 r1
  obtain ⟨t1, t2⟩ := cover_numbers hl hroot e8 r2
  simp only [RunState.summary]
  refine ⟨fun e => ?_, fun e => ?_, d2, t2⟩
  · rw [d1 e]; exact ⟨rfl, rfl⟩
  · rw [t1 e]; exact ⟨rfl, rfl⟩

/-- Two triangles that are joined by an edge, root 0, prize 1 everywhere, quota 4, all options on but the minimum cuts. -/
def runEx : RunEnv :=
  { graph := exTwo, prize := fun _ => 1, quota := 4, root := 0
    options := { coverDisjoint := true, coverShortest := false, cycleCover := true, secDisjoint := true, secMaxflow := false }
    flow := fun _ _ _ => ⟨0, fun _ => 0⟩, visit := fun _ _ _ => true, order := List.range exTwo.edges.length, q := 1 }

/-- A solver that finds every row efficacious iff `b`. -/
def svEx (b : Bool) : Solver := { efficacious := fun _ => b, infeasible := fun _ _ => false }

/-- A node, a separation of both kinds there, and a new best solution. -/
def histEx (b : Bool) : List (Callback Unit) :=
  [.node ⟨1, (), 0, ()⟩, .sec true 1 (svEx b) exBoth 2 [0, 0, 0, 1, 1, 1], .cycle (svEx b) 2 [0, 0, 0, 1, 1, 1], .best 5]

/-- What one looks at after a run: the summary, and how many rows the solver got from the two constraint handlers. -/
def outcomeEx (b : Bool) (hist : List (Callback Unit)) : Res (SummaryStats Unit × Nat × Nat) := do
  let s ← startRun runEx (fun v => v + 2) (fun _ => 0) 6
  let s ← runCallbacks () runEx (hist ++ histEx b) s
  pure (s.summary 1 () () 1, s.secAdded.length, s.cycleAdded.length)

-- the hypotheses of `C129_sec`, `C129_cycle` and `C129_covers` hold for a run in which every number that is not switched off is positive
example : (∀ v < runEx.graph.n, (v, v) ∈ runEx.graph.edges) ∧ runEx.root < runEx.graph.n ∧
    outcomeEx true [] = .ok (⟨1, (), (), 3, 0, 1, 0, 1, 1, 3, 0⟩, 3, 1) := by decide +kernel

example : NoRepeat (nodeEvents (histEx true)) := by
  rintro pre post i h
  cases pre with
  | nil => simp only [histEx, nodeEvents, List.nil_append, List.cons.injEq, NodeOp.event.injEq] at h; rw [← h.1]; decide
  | cons a pre => simp [histEx, nodeEvents] at h

/-- **C129.** The number of subtour elimination rows is not the number of rows that the solver got: it counts rows that were only created, unlike the
number of cycle cover rows; and it forgets rows if the event of a node repeats. -/
theorem C129_sec_differs :
    outcomeEx false [] = .ok (⟨1, (), (), 3, 0, 1, 0, 0, 1, 3, 0⟩, 0, 0) ∧
    outcomeEx true (histEx true) = .ok (⟨1, (), (), 5, 0, 1, 0, 2, 1, 3, 0⟩, 6, 2) := by
  decide +kernel

end Pctsp
