import Verif.Lemmas.ToleranceTour
import Verif.Lemmas.Solve
import Mathlib.Tactic.IntervalCases

/-!
# Property C123: what the solver accepts with SCIP's tolerances
-/

namespace Pctsp

/-- The weights of the edges have the same sum of absolute values as the prizes. -/
theorem absWeight {g : Graph} (hg : SimpleWithLoops g) (prize : Nat → Int) (quota : Int) :
    ((prizeRow g (putPrizeOntoEdgeWeights g prize) quota).coeffs.map fun p => |p.2|).sum = absPrize g prize := by
  have h := prizeRow_activity hg (fun v => |prize v|) quota (fun _ => 1)
  rw [Row.activity] at h
  have h1 : ((prizeRow g (putPrizeOntoEdgeWeights g prize) quota).coeffs.map fun p => |p.2|) =
      (prizeRow g (putPrizeOntoEdgeWeights g fun v => |prize v|) quota).coeffs.map fun p => (-1) * (p.2 * 1) := by
    simp only [prizeRow, List.map_map, Function.comp_def]
    refine List.map_congr_left fun e he => ?_
    obtain ⟨p, hp⟩ : ∃ p, g.edges[e]? = some p := ⟨_, List.getElem?_eq_getElem (List.mem_range.1 he)⟩
    obtain ⟨a, b⟩ := p
    rw [putPrize_eq g prize hp, putPrize_eq g _ hp]
    split <;> simp
  rw [h1, sum_map_mul, h, absPrize]
  have h2 : ((List.range g.n).map fun v => |prize v| * loopVal g (fun _ => 1) v) = (List.range g.n).map fun v => |prize v| := by
    refine List.map_congr_left fun v hv => ?_
    obtain ⟨i, hi⟩ := Option.isSome_iff_exists.1 (edgeIdx_isSome_iff.2 (Or.inl (hg.loops v (List.mem_range.1 hv)) : Adj g v v))
    simp [loopVal, hi]
  rw [h2]
  omega

/-- **C123.** A solution that SCIP accepts with a feasibility tolerance `tol` and a zero tolerance `eps` is a tour: the nearest 0/1 vector is the incidence
vector of a tour through the root with at least three vertices, the edges that the library reports are exactly those of the tour, and the tour misses the
quota by at most `3 tol B`, where `B` bounds 1, the quota and the sum of the prizes. -/
theorem C123_tour {g : Graph} (hg : SimpleWithLoops g) {prize : Nat → Int} {quota : Int} {root : Nat} (hroot : root < g.n) {order : List Nat}
    (ho : order.Perm (List.range g.edges.length)) {rows : List Row} (hrows : modelWithoutSECs g prize quota root = .ok rows) {eps tol : Rat}
    (he : 0 ≤ eps) (het : eps ≤ tol) (ht : (g.n + 2) * tol < 1) {x : Nat → Rat} (hx : AcceptedTol eps tol g order rows x) :
    ∃ t es, IsTour g root t ∧ 4 ≤ t.length ∧ IncidenceOf g t es (roundBin x) ∧ (getSolutionEdges g order (isVarPositive eps x)).Perm es ∧
      (∀ e < g.edges.length, |x e - (roundBin x e : Rat)| ≤ tol) ∧
      ∀ B : Int, 1 ≤ B → |quota| ≤ B → absPrize g prize ≤ B → (quota : Rat) - tourPrize prize t ≤ 3 * tol * B := by
  have htol : 0 ≤ tol := he.trans het
  have hn : (1 : Rat) ≤ g.n := by
    have : 1 ≤ g.n := by omega
    exact_mod_cast this
  have ht3 : tol < 1 / 3 := by nlinarith
  have hnear : ∀ e < g.edges.length, |x e - (roundBin x e : Rat)| ≤ tol := fun e h => roundBin_near (by linarith) (hx.binary e h)
  obtain ⟨loop, hl, hmem⟩ := modelRows_mem hg hroot hrows
  have hlt : loop < g.edges.length := by rcases edgeIdx_eq_some hl with h | h <;> exact (List.getElem?_eq_some_iff.1 h).1
  have hrt := root_round hl htol ht3 (hx.binary loop hlt) (hx.rows _ ((hmem _).2 (Or.inr (Or.inl rfl))))
  have hdeg : ∀ v < g.n, edgeSum g (roundBin x) (incident g v) = 2 * loopVal g (roundBin x) v := by
    intro v hv
    obtain ⟨row, hrow, -⟩ := degreeRow_sat hg hv (roundBin x)
    exact degree_round hg htol ht hnear hv hrow (hx.rows _ ((hmem _).2 (Or.inr (Or.inr ⟨v, hv, hrow⟩))))
  have hsup := support_round hg hroot ho he (by linarith) hrt hdeg hx.subtour
  -- the rounded vector, with its own prize as the quota
  have hC := C33_accepts_exactly_feasible_tours hg prize ((List.range g.n).map fun v => prize v * loopVal g (roundBin x) v).sum hroot ho
    (x := roundBin x) (fun e _ => roundBin_binary x e)
  obtain ⟨rows', h1, h2⟩ := hC
  obtain ⟨rows'', h1', h3⟩ := modelRows_sat hg prize ((List.range g.n).map fun v => prize v * loopVal g (roundBin x) v).sum hroot (roundBin x)
  rw [h1] at h1'
  injection h1' with h1'
  subst h1'
  have hsec : secCheck g order (fun e => decide (0 < roundBin x e)) = .ok .feasible := by
    have := hx.subtour
    rw [secCheck_feasible] at this ⊢
    rwa [← hsup]
  obtain ⟨t, es, ht1, ht2, hinc, hq⟩ := h2.1 ⟨h3.2 ⟨le_refl _, hrt, hdeg⟩, hsec⟩
  refine ⟨t, es, ht1, ht2, hinc, ?_, hnear, ?_⟩
  · rw [hsup, List.perm_ext_iff_of_nodup (getSolutionEdges_nodup ho _) hinc.nodup]
    intro e
    obtain ⟨-, k1, k2⟩ := incidence_nonloop ht1 (by omega) hinc
    rw [mem_getSolutionEdges ho]
    constructor
    · rintro ⟨u, v, hp, huv, hpos⟩
      by_contra hcon
      rw [hinc.edge e u v hp huv, if_neg hcon] at hpos
      simp at hpos
    · intro hm
      have hp : g.edges[e]? = some (endsOf g e) := by simp [endsOf, k1 e hm]
      exact ⟨_, _, hp, k2 e hm, by rw [hinc.edge e _ _ hp (k2 e hm), if_pos hm]; simp⟩
  · intro B hB1 hB2 hB3
    have hr := (hx.rows _ ((hmem _).2 (Or.inl rfl))).2 (-quota) rfl
    have hact := activityQ_near hnear (r := prizeRow g (putPrizeOntoEdgeWeights g prize) quota) (by
      intro p hp
      obtain ⟨e, he, rfl⟩ := List.mem_map.1 hp
      exact List.mem_range.1 he)
    rw [absWeight hg, prizeRow_activity hg] at hact
    -- the activity of the rounded vector
    have hb : |((List.range g.n).map fun v => prize v * loopVal g (roundBin x) v).sum| ≤ absPrize g prize := by
      have : ∀ l : List Nat, |(l.map fun v => prize v * loopVal g (roundBin x) v).sum| ≤ (l.map fun v => |prize v|).sum := by
        intro l
        induction l with
        | nil => simp
        | cons v l ih =>
          simp only [List.map_cons, List.sum_cons]
          have : |prize v * loopVal g (roundBin x) v| ≤ |prize v| := by
            unfold loopVal
            rcases roundBin_binary x ((g.edgeIdx v v).getD 0) with h | h <;> simp [h]
          exact (abs_add_le _ _).trans (add_le_add this ih)
      exact this _
    have hq' : (((List.range g.n).map fun v => prize v * loopVal g (roundBin x) v).sum : Rat) ≤ tourPrize prize t := by exact_mod_cast hq
    set S : Int := ((List.range g.n).map fun v => prize v * loopVal g (roundBin x) v).sum with hS
    set A : Rat := (prizeRow g (putPrizeOntoEdgeWeights g prize) quota).activityQ x with hA
    have c1 : (1 : Rat) ≤ B := by exact_mod_cast hB1
    have c2 : |(quota : Rat)| ≤ B := by exact_mod_cast hB2
    have c3 : (absPrize g prize : Rat) ≤ B := by exact_mod_cast hB3
    have c4 : |(S : Rat)| ≤ absPrize g prize := by exact_mod_cast hb
    have c5 := abs_le.1 hact
    have c6 : tol * (absPrize g prize : Rat) ≤ tol * B := mul_le_mul_of_nonneg_left c3 htol
    have c7 := abs_le.1 c4
    push_cast at c5
    have c8 : |A| ≤ (1 + tol) * B := by rw [abs_le]; constructor <;> linarith
    have c9 := relDiff_le hr htol (B := (1 + tol) * B) (by nlinarith) c8 (by push_cast; rw [abs_neg]; nlinarith)
    push_cast at c9
    have c10 : tol * ((1 + tol) * B) ≤ 2 * tol * B := by
      have : (1 + tol) * B ≤ 2 * B := by nlinarith
      nlinarith
    linarith

/-- A triangle with self-loops. -/
def tolTriangle : Graph := { n := 3, edges := [(0, 1), (1, 2), (0, 2), (0, 0), (1, 1), (2, 2)] }

-- values of 0.95 everywhere, for a tolerance of 0.1
example : SimpleWithLoops tolTriangle ∧ (tolTriangle.n + 2) * (1 / 10 : Rat) < 1 ∧ ∃ rows, modelWithoutSECs tolTriangle (fun _ => 1) 3 0 = .ok rows ∧
    AcceptedTol (1 / 100) (1 / 10) tolTriangle (List.range 6) rows fun _ => 19 / 20 :=
  ⟨by decide, by decide +kernel, _, rfl, fun _ _ => Or.inr (by norm_num), by decide +kernel, by decide +kernel⟩

/-- **C123.** So the tour meets the quota if the numbers are small: with SCIP's default tolerance `1e-6`, if the quota and the sum of the prizes are
at most 333333 and the graph has at most 999997 vertices. -/
theorem C123_quota {g : Graph} (hg : SimpleWithLoops g) {prize : Nat → Int} {quota : Int} {root : Nat} (hroot : root < g.n) {order : List Nat}
    (ho : order.Perm (List.range g.edges.length)) {rows : List Row} (hrows : modelWithoutSECs g prize quota root = .ok rows)
    (hn : g.n ≤ 999997) (hq : |quota| ≤ 333333) (hp : absPrize g prize ≤ 333333) {x : Nat → Rat} (hx : AcceptedTol (1 / 10 ^ 9) (1 / 10 ^ 6) g order rows x) :
    ∃ t es, IsTour g root t ∧ 4 ≤ t.length ∧ IncidenceOf g t es (roundBin x) ∧ (getSolutionEdges g order (isVarPositive (1 / 10 ^ 9) x)).Perm es ∧
      quota ≤ tourPrize prize t := by
  have hn' : (g.n : Rat) ≤ 999997 := by exact_mod_cast hn
  obtain ⟨t, es, h1, h2, h3, h4, -, h5⟩ := C123_tour hg hroot ho hrows (by norm_num) (by norm_num) (by nlinarith) hx
  refine ⟨t, es, h1, h2, h3, h4, ?_⟩
  have h6 := h5 333333 (by norm_num) hq hp
  have h7 : ((quota - tourPrize prize t : Int) : Rat) < (1 : Int) := by push_cast; push_cast at h6; linarith
  have h8 : quota - tourPrize prize t < 1 := by exact_mod_cast h7
  omega

theorem activityQ_cast (r : Row) (y : Nat → Int) : r.activityQ (fun e => (y e : Rat)) = (r.activity y : Int) := by
  rw [Row.activityQ, Row.activity]
  induction r.coeffs with
  | nil => rfl
  | cons p l ih => simp only [List.map_cons, List.sum_cons, Int.cast_add, Int.cast_mul, ih]

theorem relDiff_nonneg {a b : Rat} (h : b ≤ a) : 0 ≤ relDiff a b :=
  div_nonneg (by linarith) (zero_le_one.trans (le_max_left _ _))

theorem relDiff_nonpos {a b : Rat} (h : a ≤ b) : relDiff a b ≤ 0 :=
  div_nonpos_of_nonpos_of_nonneg (by linarith) (zero_le_one.trans (le_max_left _ _))

theorem satTol_of_satQ {r : Row} {x : Nat → Rat} {tol : Rat} (htol : 0 ≤ tol) (h : r.SatQ x) : r.SatTol tol x :=
  ⟨fun l hl => (neg_nonpos.2 htol).trans (relDiff_nonneg (h.1 l hl)), fun u hu => (relDiff_nonpos (h.2 u hu)).trans htol⟩

theorem satQ_cast {r : Row} {y : Nat → Int} (h : r.Sat y) : r.SatQ (fun e => (y e : Rat)) := by
  refine ⟨fun l hl => ?_, fun u hu => ?_⟩ <;> rw [activityQ_cast]
  · exact_mod_cast h.1 l hl
  · exact_mod_cast h.2 u hu

/-- **C123.** Conversely the incidence vector of every feasible tour is accepted, whatever the tolerances are. -/
theorem C123_exact {g : Graph} (hg : SimpleWithLoops g) {prize : Nat → Int} {quota : Int} {root : Nat} (hroot : root < g.n) {order : List Nat}
    (ho : order.Perm (List.range g.edges.length)) {rows : List Row} (hrows : modelWithoutSECs g prize quota root = .ok rows) {eps tol : Rat}
    (he : 0 ≤ eps) (he1 : eps < 1) (htol : 0 ≤ tol) {t es : List Nat} {y : Nat → Int} (ht : IsTour g root t) (hlen : 4 ≤ t.length)
    (hinc : IncidenceOf g t es y) (hq : quota ≤ tourPrize prize t) : AcceptedTol eps tol g order rows fun e => (y e : Rat) := by
  have hbin : ∀ e < g.edges.length, y e = 0 ∨ y e = 1 := by
    intro e hlt
    obtain ⟨⟨u, v⟩, hp⟩ : ∃ p, g.edges[e]? = some p := ⟨_, List.getElem?_eq_getElem hlt⟩
    by_cases huv : u = v
    · subst huv
      rw [hinc.loop e u hp]; split <;> simp
    · rw [hinc.edge e u v hp huv]; split <;> simp
  obtain ⟨rows', h1, h2⟩ := C33_accepts_exactly_feasible_tours hg prize quota hroot ho hbin
  rw [hrows] at h1
  injection h1 with h1
  subst h1
  obtain ⟨h3, h4⟩ := h2.2 ⟨t, es, ht, hlen, hinc, hq⟩
  refine ⟨fun e hlt => ?_, fun row hrow => satTol_of_satQ htol (satQ_cast (h3 row hrow)), ?_⟩
  · rcases hbin e hlt with h | h
    · left; simp only [h]; simpa using htol
    · right; simp only [h]; simpa using htol
  · rw [secCheck_feasible] at h4 ⊢
    rw [← h4]
    congr 1
    rw [getSolutionEdges, getSolutionEdges]
    refine List.filter_congr fun e hm => ?_
    have hlt : e < g.edges.length := List.mem_range.1 (ho.mem_iff.1 hm)
    have : isVarPositive eps (fun e => (y e : Rat)) e = decide (0 < y e) := by
      rw [Bool.eq_iff_iff, isVarPositive_iff he, decide_eq_true_eq]
      rcases hbin e hlt with h | h <;> simp only [h]
      · simpa using he
      · simpa using he1
    rw [this]

/-- **C123.** If the best accepted solution is at most `gap` above the others, the costs of the edges add up to less than `(1 - gap) / tol`, and the prizes are
small as above, then the reported tour is feasible and no feasible tour is cheaper. -/
theorem C123_optimal {g : Graph} (hg : SimpleWithLoops g) {prize cost : Nat → Int} {quota : Int} {root : Nat} (hroot : root < g.n) {order : List Nat}
    (ho : order.Perm (List.range g.edges.length)) {rows : List Row} (hrows : modelWithoutSECs g prize quota root = .ok rows) {eps tol gap : Rat}
    (he : 0 ≤ eps) (het : eps ≤ tol) (ht : (g.n + 2) * tol < 1) (hl : ∀ e v, g.edges[e]? = some (v, v) → cost e = 0)
    (hc : tol * absCost g cost + gap < 1) (hB : 3 * tol * (max 1 (max |quota| (absPrize g prize)) : Int) < 1)
    {x : Nat → Rat} (hx : AcceptedTol eps tol g order rows x)
    (hopt : ∀ z, AcceptedTol eps tol g order rows z → objectiveQ g cost x ≤ objectiveQ g cost z + gap) :
    ∃ t es, IsTour g root t ∧ 4 ≤ t.length ∧ IncidenceOf g t es (roundBin x) ∧ (getSolutionEdges g order (isVarPositive eps x)).Perm es ∧
      quota ≤ tourPrize prize t ∧ ∀ t', IsTour g root t' → 4 ≤ t'.length → quota ≤ tourPrize prize t' → walkCost g cost t ≤ walkCost g cost t' := by
  obtain ⟨t, es, h1, h2, h3, h4, h5, h6⟩ := C123_tour hg hroot ho hrows he het ht hx
  refine ⟨t, es, h1, h2, h3, h4, ?_, ?_⟩
  · have h7 := h6 _ (le_max_left _ _) ((le_max_left _ _).trans (le_max_right _ _)) ((le_max_right _ _).trans (le_max_right _ _))
    have h8 : ((quota - tourPrize prize t : Int) : Rat) < (1 : Int) := by push_cast at h7 hB ⊢; linarith
    have h9 : quota - tourPrize prize t < 1 := by exact_mod_cast h8
    omega
  · intro t' k1 k2 k3
    have hn : (1 : Rat) ≤ g.n := by
      have : 1 ≤ g.n := by omega
      exact_mod_cast this
    have ht3 : tol < 1 / 3 := by nlinarith [he.trans het]
    obtain ⟨es', y, k4, -⟩ := incidence_exists k1 k2
    have k5 := hopt _ (C123_exact hg hroot ho hrows he (by linarith) (he.trans het) k1 k2 k4 k3)
    have k6 : objectiveQ g cost (fun e => (y e : Rat)) = (objective g cost y : Int) := by
      rw [objectiveQ, objective]
      induction List.range g.edges.length with
      | nil => rfl
      | cons p l ih => simp only [List.map_cons, List.sum_cons, Int.cast_add, Int.cast_mul, ih]
    have k7 := sum_near (List.range g.edges.length) cost x (roundBin x) tol fun e hm => h5 e (List.mem_range.1 hm)
    change |objectiveQ g cost x - (objective g cost (roundBin x) : Int)| ≤ tol * (absCost g cost : Int) at k7
    rw [objective_incidence hg hl h1 h2 h3] at k7
    rw [k6, objective_incidence hg hl k1 k2 k4] at k5
    have k8 := abs_le.1 k7
    have k9 : ((walkCost g cost t - walkCost g cost t' : Int) : Rat) < (1 : Int) := by push_cast; linarith
    have : walkCost g cost t - walkCost g cost t' < 1 := by exact_mod_cast k9
    omega

-- the triangle with costs of 1: every accepted solution is near the tour through all vertices, so the exact one is best up to a gap of `3 tol`
example : ∃ rows, modelWithoutSECs tolTriangle (fun _ => 1) 3 0 = .ok rows ∧ (1 / 10 ^ 6 : Rat) * absCost tolTriangle (fun e => if e < 3 then 1 else 0) + 3 / 10 ^ 6 < 1 ∧
    3 * (1 / 10 ^ 6 : Rat) * (max 1 (max |3| (absPrize tolTriangle fun _ => 1)) : Int) < 1 ∧ AcceptedTol (1 / 10 ^ 9) (1 / 10 ^ 6) tolTriangle (List.range 6) rows (fun _ => 1) ∧
    ∀ z, AcceptedTol (1 / 10 ^ 9) (1 / 10 ^ 6) tolTriangle (List.range 6) rows z →
      objectiveQ tolTriangle (fun e => if e < 3 then 1 else 0) (fun _ => 1) ≤ objectiveQ tolTriangle (fun e => if e < 3 then 1 else 0) z + 3 / 10 ^ 6 := by
  refine ⟨_, rfl, by decide +kernel, by decide +kernel, ⟨fun e _ => Or.inr (by norm_num), by decide +kernel, by decide +kernel⟩, fun z hz => ?_⟩
  have hg : SimpleWithLoops tolTriangle := by decide
  have hnear : ∀ e < tolTriangle.edges.length, |z e - (roundBin z e : Rat)| ≤ 1 / 10 ^ 6 := fun e h => roundBin_near (by norm_num) (hz.binary e h)
  have hroot := root_round (g := tolTriangle) (root := 0) (loop := 3) rfl (by norm_num) (by norm_num) (hz.binary 3 (by decide)) (hz.rows _ (by simp [rootRow]))
  have hdeg : ∀ v < 3, edgeSum tolTriangle (roundBin z) (incident tolTriangle v) = 2 * loopVal tolTriangle (roundBin z) v := by
    intro v hv
    obtain ⟨loop, -, hrow⟩ := degreeRow_simple hg (v := v) hv
    obtain ⟨l, -, hm⟩ := modelRows_mem hg (prize := fun _ => 1) (quota := 3) (root := 0) (by decide) rfl
    exact degree_round hg (by norm_num) (by simp [tolTriangle]; norm_num) hnear hv hrow (hz.rows _ ((hm _).2 (Or.inr (Or.inr ⟨v, hv, hrow⟩))))
  have h0 := hdeg 0 (by decide)
  have h1 := hdeg 1 (by decide)
  have e0 : edgeSum tolTriangle (roundBin z) (incident tolTriangle 0) = roundBin z 0 + (roundBin z 2 + 0) := rfl
  have e1 : edgeSum tolTriangle (roundBin z) (incident tolTriangle 1) = roundBin z 0 + (roundBin z 1 + 0) := rfl
  have e2 : loopVal tolTriangle (roundBin z) 1 = roundBin z 4 := rfl
  rw [e0, hroot] at h0
  rw [e1, e2] at h1
  have k0 := roundBin_binary z 0
  have k1 := roundBin_binary z 1
  have k2 := roundBin_binary z 2
  have k4 := roundBin_binary z 4
  have r0 : roundBin z 0 = 1 := by omega
  have r1 : roundBin z 1 = 1 := by omega
  have r2 : roundBin z 2 = 1 := by omega
  have n0 := hnear 0 (by decide)
  have n1 := hnear 1 (by decide)
  have n2 := hnear 2 (by decide)
  rw [r0, abs_le] at n0
  rw [r1, abs_le] at n1
  rw [r2, abs_le] at n2
  simp only [Int.cast_one] at n0 n1 n2
  simp [objectiveQ, tolTriangle, List.range_succ]
  linarith

/-- **C123.** A solution can be within the tolerance of a feasible tour, satisfy every row that feasible tours satisfy, and still be rejected for good: a
fractional value above `eps` that is near 0 counts as an edge. -/
theorem C123_rejected {g : Graph} (hg : SimpleWithLoops g) {prize : Nat → Int} {quota : Int} {root : Nat} (hroot : root < g.n) {order : List Nat}
    (ho : order.Perm (List.range g.edges.length)) {rows : List Row} (hrows : modelWithoutSECs g prize quota root = .ok rows) {eps tol d : Rat}
    (he : 0 ≤ eps) (hd : eps < d) (hdt : d ≤ tol) (ht : (g.n + 2) * tol < 1) {t t' es es' : List Nat} {y y' : Nat → Int}
    (h1 : IsTour g root t) (h2 : 4 ≤ t.length) (h3 : IncidenceOf g t es y) (h4 : quota ≤ tourPrize prize t)
    (k1 : IsTour g root t') (k2 : 4 ≤ t'.length) (k3 : IncidenceOf g t' es' y') (k4 : quota ≤ tourPrize prize t') (hdiff : ∃ e ∈ es', e ∉ es) :
    (∀ e < g.edges.length, NearBinary tol ((1 - d) * y e + d * y' e) ∧ |((1 - d) * y e + d * y' e) - y e| ≤ tol) ∧
    (∀ row : Row, row.Sat y → row.Sat y' → row.SatQ fun e => (1 - d) * y e + d * y' e) ∧ (∀ row ∈ rows, row.SatQ fun e => (1 - d) * y e + d * y' e) ∧
    secCheck g order (isVarPositive eps fun e => (1 - d) * y e + d * y' e) = .ok .infeasible := by
  have hn : (1 : Rat) ≤ g.n := by
    have : 1 ≤ g.n := by omega
    exact_mod_cast this
  have hd0 : 0 ≤ d := by linarith
  have htol : 0 ≤ tol := hd0.trans hdt
  have ht3 : tol < 1 / 3 := by nlinarith
  have hbin : ∀ {t es : List Nat} {y : Nat → Int}, IncidenceOf g t es y → ∀ e < g.edges.length, y e = 0 ∨ y e = 1 := by
    intro t es y hinc e hlt
    obtain ⟨⟨u, v⟩, hp⟩ : ∃ p, g.edges[e]? = some p := ⟨_, List.getElem?_eq_getElem hlt⟩
    by_cases huv : u = v
    · subst huv
      rw [hinc.loop e u hp]; split <;> simp
    · rw [hinc.edge e u v hp huv]; split <;> simp
  have hA : ∀ e < g.edges.length, NearBinary tol ((1 - d) * y e + d * y' e) ∧ |((1 - d) * y e + d * y' e) - y e| ≤ tol := by
    intro e hlt
    have habs : |d| ≤ tol := by rwa [abs_of_nonneg hd0]
    rcases hbin h3 e hlt with h | h <;> rcases hbin k3 e hlt with k | k <;> simp only [h, k, NearBinary]
    · exact ⟨Or.inl (by simpa using htol), by simpa using htol⟩
    · exact ⟨Or.inl (by simpa using habs), by simpa using habs⟩
    · exact ⟨Or.inr (by simpa using habs), by simpa using habs⟩
    · exact ⟨Or.inr (by simpa using htol), by simpa using htol⟩
  have hact : ∀ row : Row, row.activityQ (fun e => (1 - d) * y e + d * y' e) = (1 - d) * (row.activity y : Int) + d * (row.activity y' : Int) := by
    intro row
    rw [← activityQ_cast, ← activityQ_cast]
    simp only [Row.activityQ]
    induction row.coeffs with
    | nil => simp
    | cons p l ih => simp only [List.map_cons, List.sum_cons, ih]; ring
  have hB : ∀ row : Row, row.Sat y → row.Sat y' → row.SatQ fun e => (1 - d) * y e + d * y' e := by
    intro row hs hs'
    refine ⟨fun l hl => ?_, fun u hu => ?_⟩ <;> rw [hact]
    · have a1 : (l : Rat) ≤ row.activity y := by exact_mod_cast hs.1 l hl
      have a2 : (l : Rat) ≤ row.activity y' := by exact_mod_cast hs'.1 l hl
      nlinarith
    · have a1 : (row.activity y : Rat) ≤ u := by exact_mod_cast hs.2 u hu
      have a2 : (row.activity y' : Rat) ≤ u := by exact_mod_cast hs'.2 u hu
      nlinarith
  have hsat : ∀ {t es : List Nat} {y : Nat → Int}, IsTour g root t → 4 ≤ t.length → IncidenceOf g t es y → quota ≤ tourPrize prize t →
      ∀ row ∈ rows, row.Sat y := by
    intro t es y a1 a2 a3 a4
    obtain ⟨rows', b1, b2⟩ := C33_accepts_exactly_feasible_tours hg prize quota hroot ho (hbin a3)
    rw [hrows] at b1
    injection b1 with b1
    subst b1
    exact (b2.2 ⟨t, es, a1, a2, a3, a4⟩).1
  have hC : ∀ row ∈ rows, row.SatQ fun e => (1 - d) * y e + d * y' e :=
    fun row hr => hB row (hsat h1 h2 h3 h4 row hr) (hsat k1 k2 k3 k4 row hr)
  refine ⟨hA, hB, hC, ?_⟩
  obtain ⟨ps, b, c1, c2, -⟩ := C30_isSimpleCycle_iff g (getSolutionEdges g order (isVarPositive eps fun e => (1 - d) * y e + d * y' e)) (by
    intro e hm
    obtain ⟨u, v, hp, -⟩ := (mem_getSolutionEdges ho).1 hm
    exact (List.getElem?_eq_some_iff.1 hp).1)
  cases b with
  | false => rw [secCheck, c2]; rfl
  | true =>
    exfalso
    have hacc : AcceptedTol eps tol g order rows fun e => (1 - d) * y e + d * y' e :=
      ⟨fun e hlt => (hA e hlt).1, fun row hr => satTol_of_satQ htol (hC row hr), secCheck_feasible.2 c2⟩
    obtain ⟨s, fs, d1, d2, d3, d4, -, -⟩ := C123_tour hg hroot ho hrows he (by linarith) ht hacc
    obtain ⟨e, e1, e2⟩ := hdiff
    obtain ⟨-, f1, f2⟩ := incidence_nonloop k1 (by omega) k3
    have hp : g.edges[e]? = some (endsOf g e) := by simp [endsOf, f1 e e1]
    have hy : y e = 0 := by rw [h3.edge e _ _ hp (f2 e e1), if_neg e2]
    have hy' : y' e = 1 := by rw [k3.edge e _ _ hp (f2 e e1), if_pos e1]
    have hin : e ∈ getSolutionEdges g order (isVarPositive eps fun e => (1 - d) * y e + d * y' e) :=
      (mem_getSolutionEdges ho).2 ⟨_, _, hp, f2 e e1, (isVarPositive_iff he).2 (by simpa [hy, hy'] using hd)⟩
    have hrb := d3.edge e _ _ hp (f2 e e1)
    rw [if_pos (d4.mem_iff.1 hin)] at hrb
    simp only [roundBin, hy, hy'] at hrb
    norm_num at hrb
    linarith

/-- The complete graph on four vertices with self-loops. -/
def tolFour : Graph := { n := 4, edges := [(0, 1), (1, 2), (0, 2), (1, 3), (0, 3), (2, 3), (0, 0), (1, 1), (2, 2), (3, 3)] }

/-- The values of a tour: its edges and the self-loops of its vertices. -/
def tolVec (l : List Nat) : Nat → Int := fun e => if e ∈ l then 1 else 0

theorem tolFour_incidence : IncidenceOf tolFour [0, 1, 2, 0] [0, 1, 2] (tolVec [0, 1, 2, 6, 7, 8]) ∧
    IncidenceOf tolFour [0, 1, 3, 0] [0, 3, 4] (tolVec [0, 3, 4, 6, 7, 9]) := by
  have key : ∀ (t es l : List Nat) (ps : List (Nat × Nat)), es.map (fun e => tolFour.edges[e]?) = ps.map some → (ps.map und).Perm ((consec t).map und) → es.Nodup →
      (∀ e < 10, ∀ p, tolFour.edges[e]? = some p → tolVec l e = if p.1 = p.2 then (if p.1 ∈ t then 1 else 0) else if e ∈ es then 1 else 0) →
      IncidenceOf tolFour t es (tolVec l) := by
    intro t es l ps h1 h2 h3 h4
    refine ⟨⟨ps, ?_, h2⟩, h3, ?_, ?_⟩
    · rw [← List.forall₂_eq_eq_eq, List.forall₂_map_left_iff, List.forall₂_map_right_iff] at h1
      exact h1
    · intro e u v hp huv
      have := h4 e (List.getElem?_eq_some_iff.1 hp).1 _ hp
      simpa [huv] using this
    · intro e v hp
      have := h4 e (List.getElem?_eq_some_iff.1 hp).1 _ hp
      simpa using this
  constructor
  · exact key _ _ _ [(0, 1), (1, 2), (0, 2)] rfl (by decide) (by decide) (by
      intro e he p hp
      rcases p with ⟨a, b⟩
      interval_cases e <;> simp [tolFour] at hp <;> obtain ⟨rfl, rfl⟩ := hp <;> decide)
  · exact key _ _ _ [(0, 1), (1, 3), (0, 3)] rfl (by decide) (by decide) (by
      intro e he p hp
      rcases p with ⟨a, b⟩
      interval_cases e <;> simp [tolFour] at hp <;> obtain ⟨rfl, rfl⟩ := hp <;> decide)

example : SimpleWithLoops tolFour ∧ IsTour tolFour 0 [0, 1, 2, 0] ∧ IsTour tolFour 0 [0, 1, 3, 0] ∧ (∃ e ∈ [0, 3, 4], e ∉ [0, 1, 2]) ∧
    secCheck tolFour (List.range 10) (isVarPositive (1 / 10 ^ 9) fun e => (1 - 1 / 10 ^ 6) * tolVec [0, 1, 2, 6, 7, 8] e + 1 / 10 ^ 6 * tolVec [0, 3, 4, 6, 7, 9] e) =
      .ok .infeasible := by
  refine ⟨by decide, ⟨⟨[1, 2], rfl⟩, by decide, by decide⟩, ⟨⟨[1, 3], rfl⟩, by decide, by decide⟩, by decide, by decide +kernel⟩

-- the default tolerances are small enough for the rejected vector and for the tour theorem
example : ((tolFour.n : Rat) + 2) * (1 / 10 ^ 6) < 1 ∧ (1 / 10 ^ 9 : Rat) < 1 / 10 ^ 6 := by decide +kernel

/-- **C123.** Large numbers: a triangle with a prize of 400000 at each vertex and the quota 1200001.  No tour meets the quota, but with SCIP's default
tolerances the vector of the tour through all three vertices is accepted. -/
theorem C123_missed : SimpleWithLoops tolTriangle ∧ (∃ rows, modelWithoutSECs tolTriangle (fun _ => 400000) 1200001 0 = .ok rows ∧
      AcceptedTol (1 / 10 ^ 9) (1 / 10 ^ 6) tolTriangle (List.range 6) rows fun _ => 1) ∧
    ∀ t, IsTour tolTriangle 0 t → tourPrize (fun _ => 400000) t < 1200001 := by
  refine ⟨by decide, ⟨_, rfl, ⟨?_, ?_, ?_⟩⟩, ?_⟩
  · intro e _; right; norm_num
  · decide +kernel
  · decide +kernel
  · intro t ht
    have hnd := ht.nodup
    obtain ⟨m, rfl⟩ := ht.shape
    have hr : ∀ v ∈ (0 :: (m ++ [0])).dropLast, v ∈ List.range 3 := by
      intro v hv
      obtain ⟨w, hw⟩ : ∃ w, (v, w) ∈ consec (0 :: (m ++ [0])) := by
        have : v ∈ (consec (0 :: (m ++ [0]))).map Prod.fst := by rw [consec_fst]; exact hv
        obtain ⟨⟨a, b⟩, h, rfl⟩ := List.mem_map.1 this
        exact ⟨b, h⟩
      rw [List.mem_range]
      have hwf : tolTriangle.WF := by decide
      rcases ht.walk _ hw with h | h
      · exact (hwf _ h).1
      · exact (hwf _ h).2
    have hlen := (hnd.subperm hr).length_le
    rw [tourPrize, prizeSum, List.map_const', List.sum_replicate]
    simp only [List.length_range] at hlen ⊢
    generalize (0 :: (m ++ [0])).dropLast.length = k at hlen
    have : (k : Int) ≤ 3 := by exact_mod_cast hlen
    simp only [nsmul_eq_mul]
    omega

end Pctsp
