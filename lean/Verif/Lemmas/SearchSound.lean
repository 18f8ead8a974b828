import Verif.Lemmas.Search
import Verif.Lemmas.ToleranceTour

/-! # The search is sound -/

namespace Pctsp

variable {P : Problem} {order : List Nat} {scale ub : Int} {s t : Search} {mode : SearchMode}

/-- What holds in every state of the search. -/
structure Search.Inv (s : Search) (scale : Int) (P : Problem) (order : List Nat) : Prop where
  found : ∀ y ∈ s.found, Accepted P order y
  sorted : s.found.Pairwise fun a b => objective P.graph P.cost a < objective P.graph P.cost b
  rows : ∀ row ∈ s.rows, Adds scale P order s.found row
  cover : ∀ z, s.Wanted P order z → ∃ n ∈ s.nodes, InNode n 1 z

theorem Adds.mono {found found' : List (Nat → Int)} (hsub : found ⊆ found') {row : Row} (h : Adds scale P order found row) :
    Adds scale P order found' row := by
  cases h with
  | subtour a b c d e => exact .subtour a b c d e
  | cycle a b c d e => exact .cycle a b c d e
  | cover a b c d => exact .cover a (hsub b) c d

theorem mem_eventRows {ub' : Int} {all : List Row} (h : eventRows P ub' = .ok all) {row : Row} (hr : row ∈ all) :
    ∃ dist ∈ P.covers, ∃ rows, separateThenAddCostCover P.graph P.graph.hasVar P.root dist ub' = .ok rows ∧ row ∈ rows := by
  obtain ⟨rss, h1, h2⟩ := Res.bind_eq_ok.1 h
  injection h2 with h2
  subst h2
  obtain ⟨rs, hrs, hrow⟩ := List.mem_flatten.1 hr
  obtain ⟨dist, hd, h3⟩ := forall₂_mem_right (mapRes_eq_ok.1 h1) hrs
  exact ⟨dist, hd, rs, h3, hrow⟩

/-- A wanted solution of a node solves its LP relaxation. -/
theorem Search.Wanted.nodeLp {z : Nat → Int} (hz : s.Wanted P order z) {n : List (Nat × Bool)} (hn : InNode n 1 z) {kept own : List Row}
    (hk : kept ⊆ s.rows) (hown : s.Valid P order n own) : NodeLp P (kept ++ own) n 1 z := by
  refine ⟨⟨by omega, fun e he => ?_, fun row hr => satScaled_one.2 (hz.accepted.rows row hr)⟩, fun row hr => satScaled_one.2 ?_, hn⟩
  · rcases hz.accepted.binary e he with h | h <;> omega
  · rcases List.mem_append.1 hr with hr | hr
    · exact hz.rows row (hk hr)
    · exact hown z hz hn row hr

theorem getSolutionEdges_congr {g : Graph} {p q : Nat → Bool} (h : ∀ e < g.edges.length, p e = q e) : getSolutionEdges g order p = getSolutionEdges g order q := by
  unfold getSolutionEdges
  refine List.filter_congr fun e _ => ?_
  cases he : g.edges[e]? with
  | none => rfl
  | some p' => simp [h e (List.getElem?_eq_some_iff.1 he).1]

theorem enforced_iff {c : Bool} {a : Enfo} : enforced c a = true ↔ a = .feasible := by
  unfold enforced enforceCycleCover
  simp

theorem enforceSubtour_ok {G : Type} {sub : G → G → G} {lt : G → G → Bool} {threshold gap : G} {m : Int} {windows : List (List G)} {g : Graph}
    {p : Nat → Bool} {node : Nat} {lpOk : Bool} {a : Enfo × List (List G)}
    (h : enforceSubtour sub lt threshold m windows g order p node gap lpOk = .ok a) :
    isSimpleCycle g (getSolutionEdges g order p) = .ok (decide (a.1 = .feasible)) := by
  obtain ⟨b, h1, h2⟩ := Res.bind_eq_ok.1 h
  injection h2 with h2
  subst h2
  rw [h1]
  unfold enfolp
  cases b
  · simp only [Bool.false_eq_true, if_false]
    generalize (if windows.length ≤ node then windows ++ List.replicate (node + 1 - windows.length) [] else windows) = w
    split <;> simp
  · simp

/-- What the enforcement callbacks let pass would pass the checks. -/
theorem Sound.accepted_of_enforced (h : Sound P ub) (ho : order.Perm (List.range P.graph.edges.length)) {y : Nat → Int}
    (hbin : ∀ e < P.graph.edges.length, y e = 0 ∨ y e = 1) (hrows : ∀ row ∈ P.rows, row.Sat y)
    (hsec : secCheck P.graph order (fun e => decide (0 < y e)) = .ok .feasible) : Accepted P order y := by
  refine ⟨hbin, hrows, hsec, fun hon m ids hc => ?_⟩
  obtain ⟨rows, crows, h1, h2, h3⟩ := h.rows
  obtain ⟨rows', h4, h5⟩ := C33_accepts_exactly_feasible_tours h.simple P.prize P.quota h.root ho hbin
  rw [h1] at h4
  cases h4
  obtain ⟨t, es, a, b, c, d⟩ := h5.1 ⟨fun row hr => hrows row (by rw [h2]; simp [hr]), hsec⟩
  exact C37_check_accepts h.simple.wf (h.prizes hon) h.root hc a (by omega) c d

/-- An integral LP solution that passes the enforcement callbacks is accepted. -/
theorem Sound.enforced_accepted (h : Sound P ub) (ho : order.Perm (List.range P.graph.edges.length)) {q : Int} {x y : Nat → Int} (hx : LpSolution P q x)
    (hint : ∀ e < P.graph.edges.length, x e = q * y e)
    (hs : isSimpleCycle P.graph (getSolutionEdges P.graph order fun e => decide (0 < x e)) = .ok true) : Accepted P order y := by
  refine h.accepted_of_enforced ho (fun e he => ?_) (fun row hr => ?_) (secCheck_feasible.2 ?_)
  · have h1 := hx.bounds e he
    have hq := hx.pos
    rw [hint e he] at h1
    have h2 : 0 ≤ y e := by
      by_contra hc
      have : q * y e < 0 := Int.mul_neg_of_pos_of_neg hq (by omega)
      omega
    have h3 : y e ≤ 1 := by
      by_contra hc
      have : q * 2 ≤ q * y e := Int.mul_le_mul_of_nonneg_left (by omega) (by omega)
      omega
    omega
  · exact ((h.rows_local row hr).sat hx.pos hint).1 (hx.rows row hr)
  · rw [getSolutionEdges_congr (q := fun e => decide (0 < x e))]
    · exact hs
    · intro e he
      rw [decide_eq_decide, hint e he]
      have hq := hx.pos
      constructor
      · intro h; exact Int.mul_pos hq h
      · intro h; exact (mul_pos_iff_of_pos_left hq).1 h

theorem wanted_of_improved {y : Nat → Int} {rows : List Row} (hb : s.Better P y) {z : Nat → Int} (hz : (s.improved y rows).Wanted P order z) :
    s.Wanted P order z := by
  refine ⟨hz.accepted, fun row hr => hz.rows row (by simp [Search.improved, hr]), fun b h => ?_⟩
  exact Int.lt_trans (hz.better y rfl) (hb b h)

theorem Search.Inv.improved (h : s.Inv scale P order) {y : Nat → Int} (hy : Accepted P order y) (hb : s.Better P y) {all rows : List Row}
    (hr : eventRows P (objective P.graph P.cost y / scale) = .ok all) (hsub : rows ⊆ all) : (s.improved y rows).Inv scale P order := by
  refine ⟨?_, ?_, ?_, fun z hz => h.cover z (wanted_of_improved hb hz)⟩
  · intro z hz
    rcases List.mem_cons.1 hz with rfl | hz
    · exact hy
    · exact h.found z hz
  · refine List.pairwise_cons.2 ⟨fun z hz => ?_, h.sorted⟩
    cases hf : s.found with
    | nil => rw [hf] at hz; simp at hz
    | cons b l =>
      have h1 := hb b (by rw [hf]; rfl)
      have h2 := h.sorted
      rw [hf] at hz h2
      rcases List.mem_cons.1 hz with rfl | hz
      · exact h1
      · exact Int.lt_trans h1 ((List.pairwise_cons.1 h2).1 z hz)
  · intro row hrow
    rcases List.mem_append.1 hrow with hrow | hrow
    · exact (h.rows row hrow).mono (by intro z hz; simp [Search.improved, hz])
    · obtain ⟨dist, hd, rs, h1, h2⟩ := mem_eventRows hr (hsub hrow)
      exact .cover hd (by simp [Search.improved]) h1 h2

/-- A node without solutions of interest can be dropped. -/
theorem Search.Inv.drop (h : s.Inv scale P order) {l r : List (List (Nat × Bool))} {n : List (Nat × Bool)} (hs : s.nodes = l ++ n :: r)
    (hn : ∀ z, s.Wanted P order z → ¬ InNode n 1 z) : ({ s with nodes := l ++ r } : Search).Inv scale P order := by
  refine ⟨h.found, h.sorted, h.rows, fun z hz => ?_⟩
  have hz' : s.Wanted P order z := ⟨hz.accepted, hz.rows, hz.better⟩
  obtain ⟨n', h1, h2⟩ := h.cover z hz'
  rw [hs] at h1
  simp only [List.mem_append, List.mem_cons] at h1
  rcases h1 with h1 | rfl | h1
  · exact ⟨n', by simp [h1], h2⟩
  · exact absurd h2 (hn z hz')
  · exact ⟨n', by simp [h1], h2⟩

theorem Search.Inv.separated (h : s.Inv scale P order) {l r : List (List (Nat × Bool))} {n : List (Nat × Bool)} (hs : s.nodes = l ++ n :: r) {st : SepState}
    (hadd : ∀ row ∈ st.added, Adds scale P order s.found row)
    (hcut : st.result = .cutoff → ∀ z, Accepted P order z → InNode n 1 z → ∃ row ∈ st.added, ¬ row.Sat z) : (s.separated l r n st).Inv scale P order := by
  refine ⟨h.found, h.sorted, fun row hrow => ?_, fun z hz => ?_⟩
  · rcases List.mem_append.1 hrow with hrow | hrow
    · exact h.rows row hrow
    · exact hadd row hrow
  · have hz' : s.Wanted P order z := ⟨hz.accepted, fun row hr => hz.rows row (by simp [Search.separated, hr]), hz.better⟩
    obtain ⟨n', h1, h2⟩ := h.cover z hz'
    rw [hs] at h1
    simp only [Search.separated]
    by_cases hc : st.result = .cutoff
    · rw [if_pos hc]
      simp only [List.mem_append, List.mem_cons] at h1
      rcases h1 with h1 | rfl | h1
      · exact ⟨n', by simp [h1], h2⟩
      · obtain ⟨row, hr, hno⟩ := hcut hc z hz.accepted h2
        exact absurd (hz.rows row (by simp [Search.separated, hr])) hno
      · exact ⟨n', by simp [h1], h2⟩
    · rw [if_neg hc]
      exact ⟨n', h1, h2⟩

theorem cutoff_violates {n : List (Nat × Bool)} {q : Int} {x : Nat → Int} {sv : Solver} (hsv : HonestAt P n q x sv) {rows : List Row} {st0 st : SepState}
    (hst : st = offerAll sv rows st0) (h0 : st0.result ≠ .cutoff) (hc : st.result = .cutoff) {z : Nat → Int} (hz : Accepted P order z) (hn : InNode n 1 z) :
    ∃ row ∈ st.added, ¬ row.Sat z := by
  subst hst
  obtain ⟨row, hr, he, added, hi⟩ := offerAll_cutoff hc h0
  exact ⟨row, by rw [offerAll_added]; simp [hr, he], hsv.infeasible added row hi z hz.binary hn⟩

/-- A step keeps the invariant. -/
theorem Search.Inv.step (hsnd : Sound P ub) (ho : order.Perm (List.range P.graph.edges.length)) (hscale : 0 < scale)
    (hdvd : ∀ e < P.graph.edges.length, scale ∣ P.cost e) (h : s.Inv scale P order) (hst : Step mode scale P order s t) : t.Inv scale P order := by
  cases hst with
  | checked _ hy hb hr hsub => exact h.improved hy hb hr hsub
  | enforced hs hk hkeep hx hint ha hpass hb hr hsub =>
    have h1 := enforceSubtour_ok ha
    rw [enforced_iff.1 hpass] at h1
    exact h.improved (hsnd.enforced_accepted ho hx.lp hint (by simpa using h1)) hb hr hsub
  | infeasible hs hk _ hown hno => exact h.drop hs fun z hz hn => hno 1 z (hz.nodeLp hn hk hown)
  | @bound l r n kept own b hs hk _ hown hb hlow =>
    refine h.drop hs fun z hz hn => ?_
    have h1 := hlow 1 z (hz.nodeLp hn hk hown)
    have h2 := hz.better _ hb
    obtain ⟨a, ha⟩ := objective_dvd hdvd z
    obtain ⟨c, hc⟩ := objective_dvd hdvd b
    rw [ha, hc] at h1 h2
    have h3 : a < c := lt_of_mul_lt_mul_left h2 hscale.le
    have h4 : scale * a ≤ scale * (c - 1) := Int.mul_le_mul_of_nonneg_left (by omega) hscale.le
    rw [Int.mul_sub] at h4
    omega
  | subtour hs hk hkeep hx hsv hvisit hc hsep hne =>
    obtain ⟨rows, h1, h2⟩ := hsnd.sepalp_rows ho hvisit hx.lp hc hsep
    exact h.separated hs (fun row hr => .subtour hvisit hx.lp hc hsep hr) fun hcut z hz hn => cutoff_violates hsv h1 (by simp) hcut hz hn
  | cycle hs hk hkeep hon hx hsv hc hsep hne =>
    obtain ⟨rows, h1, h2⟩ := hsnd.cycle_rows hc hsep
    exact h.separated hs (fun row hr => .cycle hon hx.lp hc hsep hr) fun hcut z hz hn => cutoff_violates hsv h1 (by simp) hcut hz hn
  | @branch l r n e hs he hfree =>
    refine ⟨h.found, h.sorted, h.rows, fun z hz => ?_⟩
    obtain ⟨n', h1, h2⟩ := h.cover z ⟨hz.accepted, hz.rows, hz.better⟩
    rw [hs] at h1
    simp only [List.mem_append, List.mem_cons] at h1 ⊢
    rcases h1 with h1 | rfl | h1
    · exact ⟨n', by simp [h1], h2⟩
    · rcases hz.accepted.binary e he with h3 | h3
      · refine ⟨(e, false) :: n', by simp, fun p hp => ?_⟩
        rcases List.mem_cons.1 hp with rfl | hp
        · simp [bit, h3]
        · exact h2 p hp
      · refine ⟨(e, true) :: n', by simp, fun p hp => ?_⟩
        rcases List.mem_cons.1 hp with rfl | hp
        · simp [bit, h3]
        · exact h2 p hp
    · exact ⟨n', by simp [h1], h2⟩
  | @tighten l r n e b _ hs he hfree hall =>
    refine ⟨h.found, h.sorted, h.rows, fun z hz => ?_⟩
    have hz' : s.Wanted P order z := ⟨hz.accepted, hz.rows, hz.better⟩
    obtain ⟨n', h1, h2⟩ := h.cover z hz'
    rw [hs] at h1
    simp only [List.mem_append, List.mem_cons] at h1 ⊢
    rcases h1 with h1 | rfl | h1
    · exact ⟨n', by simp [h1], h2⟩
    · refine ⟨(e, b) :: n', by simp, fun p hp => ?_⟩
      rcases List.mem_cons.1 hp with rfl | hp
      · simp [hall z hz' h2]
      · exact h2 p hp
    · exact ⟨n', by simp [h1], h2⟩
  | @rejected l r n kept q x G sub lt threshold gap m windows node lpOk a hs hk hx hfix ha hpass =>
    refine h.drop hs fun z hz hn => ?_
    have h1 := enforceSubtour_ok ha
    have h2 : a.1 ≠ .feasible := fun hc => by rw [enforced_iff.2 hc] at hpass; simp at hpass
    have h3 := secCheck_feasible.1 hz.accepted.subtour
    rw [getSolutionEdges_congr (q := fun e => decide (0 < x e))] at h3
    · rw [h1] at h3
      simp [h2] at h3
    · intro e he
      obtain ⟨p, hp, rfl⟩ := List.mem_map.1 (hfix e he)
      rw [hn p hp, hx.node p hp]
      have hq := hx.lp.pos
      cases p.2 <;> simp [bit, hq]

theorem Search.Start.inv (h : s.Start scale P order) : s.Inv scale P order := by
  have h0 : Search.init.Inv scale P order := ⟨by simp [Search.init], by simp [Search.init], by simp [Search.init], fun z _ => ⟨[], by simp [Search.init], by simp [InNode]⟩⟩
  cases h with
  | plain => exact h0
  | warm h hy hr hsub => exact h0.improved hy (by simp [Search.Better, Search.init]) hr hsub

theorem Steps.inv (hsnd : Sound P ub) (ho : order.Perm (List.range P.graph.edges.length)) (hscale : 0 < scale)
    (hdvd : ∀ e < P.graph.edges.length, scale ∣ P.cost e) (h : s.Inv scale P order) {k : Nat} (hst : Steps mode scale P order k s t) : t.Inv scale P order := by
  induction hst with
  | zero => exact h
  | next _ h' ih => exact (ih h).step hsnd ho hscale hdvd h'

/-- The best solution only gets better. -/
theorem Step.keeps (h : Step mode scale P order s t) {b : Nat → Int} (hb : s.found.head? = some b) :
    ∃ y, t.found.head? = some y ∧ objective P.graph P.cost y ≤ objective P.graph P.cost b := by
  cases h with
  | checked _ _ h => exact ⟨_, rfl, (h b hb).le⟩
  | enforced _ _ _ _ _ _ _ h => exact ⟨_, rfl, (h b hb).le⟩
  | _ => exact ⟨b, hb, le_refl _⟩

theorem Steps.keeps {k : Nat} (h : Steps mode scale P order k s t) {b : Nat → Int} (hb : s.found.head? = some b) :
    ∃ y, t.found.head? = some y ∧ objective P.graph P.cost y ≤ objective P.graph P.cost b := by
  induction h with
  | zero => exact ⟨b, hb, le_refl _⟩
  | next _ h' ih =>
    obtain ⟨y, h1, h2⟩ := ih hb
    obtain ⟨z, h3, h4⟩ := h'.keeps h1
    exact ⟨z, h3, Int.le_trans h4 h2⟩

/-- The outcome of a search meets the specification of the solver. -/
theorem Search.Inv.spec (h : s.Inv scale P order) : ScipSpec scale P order s.outcome := by
  have hbest : s.outcome.best = s.found.head? := rfl
  refine ⟨fun y hy => h.found y (List.mem_of_mem_head? (by rw [hbest] at hy; exact hy)), s.found, s.rows, fun z hz => ⟨h.found z hz, ?_⟩, h.rows, ?_, ?_⟩
  · cases hf : s.found with
    | nil => rw [hf] at hz; simp at hz
    | cons b l =>
      refine ⟨b, by rw [hbest, hf]; rfl, ?_⟩
      have h2 := h.sorted
      rw [hf] at hz h2
      rcases List.mem_cons.1 hz with rfl | hz
      · exact le_refl _
      · exact ((List.pairwise_cons.1 h2).1 z hz).le
  · intro hst
    unfold Search.outcome at hst
    simp only at hst
    split at hst
    · rename_i hn
      cases hf : s.found with
      | nil => rw [hf] at hst; simp at hst
      | cons b l =>
        refine ⟨b, by rw [hbest, hf]; rfl, fun z hz hr => ?_⟩
        by_contra hc
        obtain ⟨n, h1, -⟩ := h.cover z ⟨hz, hr, fun b' hb' => by rw [hf] at hb'; cases hb'; omega⟩
        rw [hn] at h1
        simp at h1
    · simp at hst
  · intro hst
    unfold Search.outcome at hst
    simp only at hst
    split at hst
    · rename_i hn
      split at hst
      · rename_i hf
        refine ⟨by rw [hbest, hf]; rfl, fun z hz => ?_⟩
        by_contra hc
        have hc' : ∀ row ∈ s.rows, row.Sat z := fun row hr => by
          by_contra h'
          exact hc ⟨row, hr, h'⟩
        obtain ⟨n, h1, -⟩ := h.cover z ⟨hz, hc', fun b' hb' => by rw [hf] at hb'; cases hb'⟩
        rw [hn] at h1
        simp at h1
      · simp at hst
    · simp at hst

theorem SearchAnswer.spec (hsnd : Sound P ub) (ho : order.Perm (List.range P.graph.edges.length)) (hscale : 0 < scale)
    (hdvd : ∀ e < P.graph.edges.length, scale ∣ P.cost e) {o : ScipOutcome} (h : SearchAnswer mode scale P order o) :
    ScipSpec scale P order o ∧ KeepsStart P order o := by
  obtain ⟨k, s, t, h1, h2, rfl⟩ := h
  refine ⟨(h2.inv hsnd ho hscale hdvd h1.inv).spec, fun vars hv hy => ?_⟩
  cases h1 with
  | plain h => exact absurd hy (h vars hv)
  | warm hv' _ _ _ =>
    rw [hv] at hv'
    cases hv'
    exact h2.keeps rfl

end Pctsp
