import Verif.Spec.TolSearch
import Verif.Lemmas.SearchSound
import Verif.Props.Tolerance

/-! # The search with tolerances is sound -/

namespace Pctsp

variable {P : Problem} {order : List Nat} {ub : Int} {T : Tolerances} {s t : TolSearch}

/-- The tolerances are small for a graph with `n` vertices. -/
structure Tolerances.Small (T : Tolerances) (n : Nat) : Prop where
  eps : 0 ≤ T.eps
  le : T.eps ≤ T.tol
  tol : (n + 2) * T.tol < 1

/-- The rows of the problem include the rows of the model. -/
theorem Sound.rows_base (h : Sound P ub) : ∃ base, modelWithoutSECs P.graph P.prize P.quota P.root = .ok base ∧ base ⊆ P.rows := by
  obtain ⟨rows, crows, h1, h2, -⟩ := h.rows
  exact ⟨rows, h1, fun row hr => by rw [h2]; simp [hr]⟩

theorem lt_castInt (u : Rat) : u < (castInt u + 1 : Int) := by
  have hd : (0 : Int) < u.den := by exact_mod_cast u.pos
  have h1 := Int.mul_tdiv_add_tmod u.num u.den
  have h2 := Int.tmod_lt_of_pos u.num hd
  have h3 : u.num < (castInt u + 1) * u.den := by
    rw [castInt, add_mul, one_mul, mul_comm]
    omega
  have h4 : (u.num : Rat) < ((castInt u + 1 : Int) : Rat) * u.den := by exact_mod_cast h3
  have hd' : (0 : Rat) < u.den := by exact_mod_cast u.pos
  calc u = u.num / u.den := (Rat.num_div_den u).symm
    _ < _ := (div_lt_iff₀ hd').2 h4

/-- The rows of an event keep every tour that costs less than the bound. -/
theorem CoverRows.sat (hsnd : Sound P ub) (hcov : CoversValid P) {gap : Rat} {y : Nat → Rat} {rows : List Row} (h : CoverRows gap P y rows) {t es : List Nat}
    {z : Nat → Int} (ht : Feas P.graph P.prize P.quota P.root t) (hinc : IncidenceOf P.graph t es z)
    (hlt : (objective P.graph P.cost z : Rat) + gap < objectiveQ P.graph P.cost y) : ∀ row ∈ rows, row.Sat z := by
  obtain ⟨u, all, hu, hall, hsub⟩ := h
  intro row hr
  obtain ⟨dist, hd, rs, h1, h2⟩ := mem_eventRows hall (hsub hr)
  refine (coverRows_sat hsnd.simple hsnd.root h1 ht.tour hinc).2 (fun v hv => ?_) row h2
  have h3 := hcov dist hd t ht v hv
  rw [← objective_incidence hsnd.simple hsnd.loop ht.tour ht.three hinc] at h3
  have h4 := (abs_le.1 hu).1
  have h5 := lt_castInt u
  have h6 : ((objective P.graph P.cost z : Int) : Rat) < (castInt u + 1 : Int) := by linarith
  have : objective P.graph P.cost z < castInt u + 1 := by exact_mod_cast h6
  omega

/-- In a solution of a relaxation with tolerances the root has an edge that the library takes for positive. -/
theorem NodeTol.connected (hg : SimpleWithLoops P.graph) (hroot : P.root < P.graph.n) {base : List Row}
    (hrows : modelWithoutSECs P.graph P.prize P.quota P.root = .ok base) (hbase : base ⊆ P.rows) (hT : T.Small P.graph.n) {kept : List Row} {n : List (Nat × Bool)} {z : Nat → Rat} (hz : NodeTol T P kept n z) {q : Int} {x : Nat → Int}
    (hx : Shown T.eps P z q x) : ∃ v, v ≠ P.root ∧ SupportConnected P.graph x P.root v := by
  obtain ⟨heps, hle, htol⟩ := hT
  have htol0 := heps.trans hle
  have hn : (1 : Rat) ≤ P.graph.n := by
    have : 1 ≤ P.graph.n := by omega
    exact_mod_cast this
  have ht3 : T.tol < 1 / 3 := by nlinarith
  obtain ⟨loop, hl, hmem⟩ := modelRows_mem hg hroot hrows
  have hlt : loop < P.graph.edges.length := by rcases edgeIdx_eq_some hl with h | h <;> exact (List.getElem?_eq_some_iff.1 h).1
  -- the loop of the root
  have h1 := (hz.rows _ (hbase ((hmem _).2 (Or.inr (Or.inl rfl))))).1 1 rfl
  have h2 : (rootRow loop).activityQ z = z loop := by simp [Row.activityQ, rootRow]
  have hb := hz.bounds loop hlt
  have h3 : 1 - z loop ≤ T.tol * (1 + T.tol) := by
    rw [h2] at h1
    have := le_relDiff (B := 1 + T.tol) h1 htol0 (by linarith) (abs_le.2 ⟨by linarith, hb.2⟩) (by simp [htol0])
    simpa using this
  -- the degree of the root
  obtain ⟨loop', hl', hrow⟩ := degreeRow_simple hg hroot
  rw [hl] at hl'
  cases hl'
  have h4 := hz.rows _ (hbase ((hmem _).2 (Or.inr (Or.inr ⟨P.root, hroot, hrow⟩))))
  have h5 := abs_of_relDiff_zero htol0 (by linarith) (by simpa using h4.1 0 rfl) (by simpa using h4.2 0 rfl)
  have h6 : Row.activityQ z ⟨(loop, -2) :: ((List.range P.graph.edges.length).filter (incident P.graph P.root)).map fun e => (e, 1), some 0, some 0⟩ =
      (((List.range P.graph.edges.length).filter (incident P.graph P.root)).map z).sum - 2 * z loop := by
    simp [Row.activityQ, Function.comp_def]
    ring
  rw [h6] at h5
  have h7 := abs_le.1 h5
  have hlen := incident_length hg hroot
  by_contra hcon
  have hsmall : ∀ e ∈ (List.range P.graph.edges.length).filter (incident P.graph P.root), z e ≤ T.eps := by
    intro e he
    by_contra hbig
    obtain ⟨hm, hinc⟩ := List.mem_filter.1 he
    have hlte := List.mem_range.1 hm
    have hp : P.graph.edges[e]? = some (endsOf P.graph e) := by simp [endsOf, hlte]
    have hpos : 0 < x e := by
      have hv := hx.val e hlte
      rw [if_pos ((isVarPositive_iff heps).2 (not_le.1 hbig))] at hv
      have hq : (0 : Rat) < q := by exact_mod_cast hx.pos
      have : (0 : Rat) < x e := by
        rw [hv]
        exact mul_pos hq (lt_of_le_of_lt heps (not_le.1 hbig))
      exact_mod_cast this
    simp only [incident, hp, Bool.and_eq_true, decide_eq_true_eq, Bool.or_eq_true, beq_iff_eq] at hinc
    obtain ⟨hne, h | h⟩ := hinc
    · refine hcon ⟨(endsOf P.graph e).2, fun h' => hne (h.trans h'.symm), .single ⟨e, Or.inl ?_, hpos⟩⟩
      rw [hp, ← h]
    · refine hcon ⟨(endsOf P.graph e).1, fun h' => hne (h'.trans h.symm), .single ⟨e, Or.inr ?_, hpos⟩⟩
      rw [hp, ← h]
  have h8 : (((List.range P.graph.edges.length).filter (incident P.graph P.root)).map z).sum ≤
      ((List.range P.graph.edges.length).filter (incident P.graph P.root)).length * T.eps := by
    generalize (List.range P.graph.edges.length).filter (incident P.graph P.root) = l at hsmall
    clear h6 hlen
    induction l with
    | nil => simp
    | cons a l ih =>
      have := ih fun e he => hsmall e (by simp [he])
      have := hsmall a (by simp)
      simp only [List.map_cons, List.sum_cons, List.length_cons, Nat.cast_add, Nat.cast_one]
      linarith
  have h9 : (((List.range P.graph.edges.length).filter (incident P.graph P.root)).length : Rat) * T.eps ≤ (P.graph.n - 1) * T.tol := by
    have h10 : (((List.range P.graph.edges.length).filter (incident P.graph P.root)).length : Rat) ≤ P.graph.n - 1 := by
      have : ((((List.range P.graph.edges.length).filter (incident P.graph P.root)).length + 1 : Nat) : Rat) ≤ P.graph.n := by exact_mod_cast hlen
      push_cast at this
      linarith
    exact mul_le_mul h10 hle heps (by linarith)
  nlinarith

/-- What holds in every state of the search. -/
structure TolSearch.Inv (s : TolSearch) (T : Tolerances) (P : Problem) (order : List Nat) : Prop where
  found : ∀ y ∈ s.found, AcceptedTol T.eps T.tol P.graph order P.rows y
  rows : ∀ row ∈ s.rows, ∀ z, s.Wanted T.gap P order z → row.Sat z
  cover : ∀ z, s.Wanted T.gap P order z → ∃ n ∈ s.nodes, InNode n 1 z

theorem TolSearch.Wanted.older {gap : Rat} {y : Nat → Rat} {rows : List Row} {z : Nat → Int} (hb : s.Better P y) (hz : (s.improved y rows).Wanted gap P order z) :
    s.Wanted gap P order z := ⟨hz.accepted, fun b h' => (hz.better y rfl).trans (hb b h')⟩

theorem TolSearch.Inv.improved (hsnd : Sound P ub) (hcov : CoversValid P) (ho : order.Perm (List.range P.graph.edges.length)) (h : s.Inv T P order)
    {y : Nat → Rat} {new : List Row} (hy : AcceptedTol T.eps T.tol P.graph order P.rows y) (hb : s.Better P y) (hnew : CoverRows T.gap P y new) :
    (s.improved y new).Inv T P order := by
  refine ⟨fun z hz => ?_, fun row hr z hz => ?_, fun z hz => h.cover z (hz.older hb)⟩
  · rcases List.mem_cons.1 hz with rfl | hz
    · exact hy
    · exact h.found z hz
  · rcases List.mem_append.1 hr with hr | hr
    · exact h.rows row hr z (hz.older hb)
    · obtain ⟨t, es, ht, -, hinc⟩ := hsnd.tour_of_accepted ho hz.accepted
      exact hnew.sat hsnd hcov ht hinc (hz.better y rfl) row hr

theorem TolSearch.Inv.drop (h : s.Inv T P order) {l r : List (List (Nat × Bool))} {n : List (Nat × Bool)} (hs : s.nodes = l ++ n :: r)
    (hn : ∀ z, s.Wanted T.gap P order z → ¬ InNode n 1 z) : ({ s with nodes := l ++ r } : TolSearch).Inv T P order := by
  refine ⟨h.found, fun row hr z hz => h.rows row hr z ⟨hz.accepted, hz.better⟩, fun z hz => ?_⟩
  have hz' : s.Wanted T.gap P order z := ⟨hz.accepted, hz.better⟩
  obtain ⟨n', h1, h2⟩ := h.cover z hz'
  rw [hs] at h1
  simp only [List.mem_append, List.mem_cons] at h1
  rcases h1 with h1 | rfl | h1
  · exact ⟨n', by simp [h1], h2⟩
  · exact absurd h2 (hn z hz')
  · exact ⟨n', by simp [h1], h2⟩

theorem TolSearch.Inv.nodeLp (h : s.Inv T P order) {z : Nat → Int} (hz : s.Wanted T.gap P order z) {n : List (Nat × Bool)} (hn : InNode n 1 z)
    {kept own : List Row} (hk : kept ⊆ s.rows) (hown : s.Valid T.gap P order n own) : NodeLp P (kept ++ own) n 1 z := by
  refine ⟨⟨by omega, fun e he => ?_, fun row hr => satScaled_one.2 (hz.accepted.rows row hr)⟩, fun row hr => satScaled_one.2 ?_, hn⟩
  · rcases hz.accepted.binary e he with h | h <;> omega
  · rcases List.mem_append.1 hr with hr | hr
    · exact h.rows row (hk hr) z hz
    · exact hown z hz hn row hr

theorem TolSearch.Inv.separated (h : s.Inv T P order) {l r : List (List (Nat × Bool))} {n : List (Nat × Bool)} (hs : s.nodes = l ++ n :: r)
    {sv : Solver} (hsv : SaysInfeasible P n sv) {rows : List Row} {st0 : SepState} (h0 : st0.result ≠ .cutoff) (h0' : st0.added = [])
    (hrows : ∀ row ∈ rows, ∀ z, Accepted P order z → row.Sat z) : (s.separated l r n (offerAll sv rows st0)).Inv T P order := by
  have hcut : (offerAll sv rows st0).result = .cutoff → ∀ z, Accepted P order z → ¬ InNode n 1 z := by
    intro hc z hz hn
    obtain ⟨row, hr, -, added, hi⟩ := offerAll_cutoff hc h0
    exact hsv added row hi z hz.binary hn (hrows row hr z hz)
  refine ⟨h.found, fun row hrow z hz => ?_, fun z hz => ?_⟩
  · rcases List.mem_append.1 hrow with hrow | hrow
    · exact h.rows row hrow z ⟨hz.accepted, hz.better⟩
    · rw [offerAll_added, h0', List.nil_append] at hrow
      exact hrows row (List.mem_filter.1 hrow).1 z hz.accepted
  · have hz' : s.Wanted T.gap P order z := ⟨hz.accepted, hz.better⟩
    obtain ⟨n', h1, h2⟩ := h.cover z hz'
    rw [hs] at h1
    simp only [TolSearch.separated]
    split
    · rename_i hc
      simp only [List.mem_append, List.mem_cons] at h1
      rcases h1 with h1 | rfl | h1
      · exact ⟨n', by simp [h1], h2⟩
      · exact absurd h2 (hcut hc z hz.accepted)
      · exact ⟨n', by simp [h1], h2⟩
    · exact ⟨n', h1, h2⟩

/-- A step keeps the invariant. -/
theorem TolSearch.Inv.step (hsnd : Sound P ub) (hcov : CoversValid P) (ho : order.Perm (List.range P.graph.edges.length)) (hT : T.Small P.graph.n)
    (hfix : T.fix ≤ T.eps) (h : s.Inv T P order) (hst : TolStep T P order s t) : t.Inv T P order := by
  obtain ⟨base, hplain, hbase⟩ := hsnd.rows_base
  cases hst with
  | checked hy hb hnew => exact h.improved hsnd hcov ho hy hb hnew
  | enforced hs hk hz hint ha hpass hb hnew =>
    have h1 := enforceSubtour_ok ha
    rw [enforced_iff.1 hpass] at h1
    exact h.improved hsnd hcov ho ⟨hint, hz.rows, secCheck_feasible.2 (by simpa using h1)⟩ hb hnew
  | infeasible hs hk hown hno => exact h.drop hs fun z hz hn => hno 1 z (h.nodeLp hz hn hk hown)
  | @bound l r n kept own b hs hk hown hb hlow =>
    refine h.drop hs fun z hz hn => ?_
    have h1 := hlow 1 z (objective P.graph P.cost z) (h.nodeLp hz hn hk hown) (by simp)
    have h2 := hz.better _ hb
    linarith
  | subtour hs hk hz hx hsv hvisit hc hsep =>
    obtain ⟨rows, h1, h2⟩ := hsnd.sepalp_rows_of ho hvisit (hz.connected hsnd.simple hsnd.root hplain hbase hT hx) hc hsep
    rw [h1]
    refine h.separated hs hsv (by simp) rfl fun row hr y hy => ?_
    obtain ⟨p, hp, hrow⟩ := h2 row hr
    obtain ⟨t, es, ht, -, hinc⟩ := hsnd.tour_of_accepted ho hy
    exact secRow_valid_sep hsnd.simple.loops hp hrow ht.tour hinc
  | @cycle l r n kept z q x sv m ids st hs hk hon hz hx hsv hc hsep =>
    obtain ⟨vs, -, -, a, b⟩ := C37_valid sv hsnd.simple.loops (hsnd.prizes hon) P.quota hsnd.root (isComponents_labels hc) ⟨[], [], .didNotRun⟩
    obtain ⟨rows, h1, -⟩ := hsnd.cycle_rows hc hsep
    have hoff : st.offered = rows := by rw [h1, offerAll_offered]; rfl
    rw [h1]
    refine h.separated hs hsv (by simp) rfl fun row hr y hy => ?_
    obtain ⟨t, es, ht, -, hinc⟩ := hsnd.tour_of_accepted ho hy
    by_cases hq : P.quota ≤ prizeSum P.prize vs
    · have := a hq
      rw [hsep] at this
      cases this
      rw [← hoff] at hr
      simp at hr
    · obtain ⟨st', row', c, d, e⟩ := b (by omega)
      rw [hsep] at c
      cases c
      rw [← hoff, d] at hr
      simp only [List.nil_append, List.mem_singleton] at hr
      subst hr
      exact e t es y ht.tour hinc ht.prize
  | @branch l r n e hs he =>
    refine ⟨h.found, fun row hr z hz => h.rows row hr z ⟨hz.accepted, hz.better⟩, fun z hz => ?_⟩
    obtain ⟨n', h1, h2⟩ := h.cover z ⟨hz.accepted, hz.better⟩
    rw [hs] at h1
    simp only [List.mem_append, List.mem_cons] at h1 ⊢
    rcases h1 with h1 | rfl | h1
    · exact ⟨n', by simp [h1], h2⟩
    · rcases hz.accepted.binary e he with h3 | h3
      · refine ⟨(e, false) :: n', by simp, fun p hp => ?_⟩
        rcases List.mem_cons.1 hp with rfl | hp
        · simp [bit, h3]
        · exact h2 p hp
      · refine ⟨(e, true) :: n', by simp, fun p hp => ?_⟩
        rcases List.mem_cons.1 hp with rfl | hp
        · simp [bit, h3]
        · exact h2 p hp
    · exact ⟨n', by simp [h1], h2⟩
  | @tighten l r n e b hs he hall =>
    refine ⟨h.found, fun row hr z hz => h.rows row hr z ⟨hz.accepted, hz.better⟩, fun z hz => ?_⟩
    have hz' : s.Wanted T.gap P order z := ⟨hz.accepted, hz.better⟩
    obtain ⟨n', h1, h2⟩ := h.cover z hz'
    rw [hs] at h1
    simp only [List.mem_append, List.mem_cons] at h1 ⊢
    rcases h1 with h1 | rfl | h1
    · exact ⟨n', by simp [h1], h2⟩
    · refine ⟨(e, b) :: n', by simp, fun p hp => ?_⟩
      rcases List.mem_cons.1 hp with rfl | hp
      · simp [hall z hz' h2]
      · exact h2 p hp
    · exact ⟨n', by simp [h1], h2⟩
  | @rejected l r n kept z G sub lt threshold gap m windows node lpOk a hs hk hz hfixed ha hpass =>
    refine h.drop hs fun y hy hn => ?_
    have h1 := enforceSubtour_ok ha
    have h2 : a.1 ≠ .feasible := fun hc => by rw [enforced_iff.2 hc] at hpass; simp at hpass
    have h3 := secCheck_feasible.1 hy.accepted.subtour
    rw [getSolutionEdges_congr (q := isVarPositive T.eps z)] at h3
    · rw [h1] at h3
      simp [h2] at h3
    · intro e he
      obtain ⟨p, hp, rfl⟩ := List.mem_map.1 (hfixed e he)
      rw [Bool.eq_iff_iff, isVarPositive_iff hT.eps, hn p hp, decide_eq_true_eq]
      have h4 := abs_le.1 (hz.node p hp)
      have hn1 : (1 : Rat) ≤ P.graph.n := by
        have : 1 ≤ P.graph.n := by have := hsnd.root; omega
        exact_mod_cast this
      have h5 := hT.eps
      have h6 := hT.le
      have h7 : T.tol < 1 / 3 := by have := hT.tol; nlinarith
      cases hb : p.2 <;> simp only [hb, bit, Bool.false_eq_true, if_false, if_true, Int.cast_zero, Int.cast_one] at h4 ⊢
      · constructor
        · omega
        · intro; linarith
      · constructor
        · intro; linarith
        · intro; omega

theorem TolSearch.init_inv : TolSearch.init.Inv T P order :=
  ⟨by simp [TolSearch.init], by simp [TolSearch.init], fun z _ => ⟨[], by simp [TolSearch.init], by simp [InNode]⟩⟩

theorem TolSteps.inv (hsnd : Sound P ub) (hcov : CoversValid P) (ho : order.Perm (List.range P.graph.edges.length)) (hT : T.Small P.graph.n)
    (hfix : T.fix ≤ T.eps) (h : s.Inv T P order) (hst : TolSteps T P order s t) : t.Inv T P order := by
  induction hst with
  | refl => exact h
  | next _ h' ih => exact ih.step hsnd hcov ho hT hfix h'

end Pctsp
