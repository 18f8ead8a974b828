import Verif.Lemmas.Float

/-!
# Properties C17–C20, C48, C49: extension by unitary gain
-/

namespace Pctsp

variable {F : Type}

/-- Vertices 0..4, a triangle 0-1-2 and vertices 3, 4 joined to 0 and 1 (3 also to 2 and 4). -/
def gainGraph : Graph := ⟨5, [(0, 1), (1, 2), (2, 0), (3, 0), (3, 1), (4, 0), (4, 1), (2, 3), (4, 3)]⟩

/-- Edge costs of `gainGraph`. -/
def gainCost (e : Nat) : Int := [2, 2, 2, 2, 2, 4, 3, 3, 3].getD e 0

/-- Prizes of `gainGraph`. -/
def gainPrize (v : Nat) : Int := [1, 1, 1, 6, 10].getD v 0

/-! ## What a sequence of insertions preserves -/

/-- What "only inserts new vertices" means for the tours before and after. -/
structure OnlyInserts (g : Graph) (t t' : List Nat) : Prop where
  sub : t.Sublist t'
  first : t'.head? = t.head?
  last : t'.getLast? = t.getLast?
  old : ∀ x ∈ t, t'.count x = t.count x
  new : ∀ x, x ∉ t → t'.count x ≤ 1
  vertex : ∀ x ∈ t', x ∈ t ∨ x < g.n
  walk : IsWalk g t → IsWalk g t'
  tour : ∀ r, IsTour g r t → IsTour g r t'
  bound : t'.length ≤ t.length + ((List.range g.n).filter (fun x => decide (x ∉ t))).length

theorem GainSteps.onlyInserts {g : Graph} {P : List Nat → Nat → Nat → Nat → Prop} {t t' : List Nat} (h : GainSteps g P t t') :
    OnlyInserts g t t' := by
  induction h with
  | refl t =>
    refine ⟨List.Sublist.refl t, rfl, rfl, fun _ _ => rfl, ?_, fun _ h => Or.inl h, id, fun _ => id, by omega⟩
    intro x hx; rw [List.count_eq_zero_of_not_mem hx]; omega
  | @step t t1 t' v a b hP hi hs ih =>
    have hst : GainStep g v t t1 := ⟨a, b, hi⟩
    have hout := hst.outside
    have hcount : ∀ x, t1.count x = t.count x + (if x = v then 1 else 0) := by
      intro x
      obtain ⟨A, B, rfl, rfl⟩ := hi.split
      simp only [List.count_append, List.count_cons]
      by_cases e : x = v
      · subst e; simp; omega
      · have : (v == x) = false := by simpa using fun h => e h.symm
        simp [this, e]
    refine ⟨?_, ?_, ?_, ?_, ?_, ?_, fun h => ih.walk (hst.isWalk h), fun r h => ih.tour r (hst.isTour h), ?_⟩
    · refine List.Sublist.trans ?_ ih.sub
      obtain ⟨A, B, rfl, rfl⟩ := hi.split
      refine List.Sublist.append_left ?_ A
      exact List.Sublist.cons_cons _ (List.sublist_cons_self _ _)
    · rw [ih.first]
      obtain ⟨A, B, rfl, rfl⟩ := hi.split
      cases A <;> simp
    · rw [ih.last]
      obtain ⟨A, B, rfl, rfl⟩ := hi.split
      rw [List.getLast?_append, List.getLast?_append]
      simp [List.getLast?_cons]
    · intro x hx
      have hxv : x ≠ v := by rintro rfl; exact hi.new hx
      rw [ih.old x ((hst.mem_iff x).2 (Or.inr hx)), hcount, if_neg hxv]; omega
    · intro x hx
      by_cases e : x = v
      · subst e
        rw [ih.old x ((hst.mem_iff x).2 (Or.inl rfl)), hcount, if_pos rfl, List.count_eq_zero_of_not_mem hx]
      · exact ih.new x (fun h => ((hst.mem_iff x).1 h).elim e hx)
    · intro x hx
      rcases ih.vertex x hx with h | h
      · rcases (hst.mem_iff x).1 h with rfl | h
        · exact Or.inr hi.vertex
        · exact Or.inl h
      · exact Or.inr h
    · have h1 : t1.length = t.length + 1 := by
        obtain ⟨A, B, rfl, rfl⟩ := hi.split
        simp; omega
      have h2 := ih.bound
      rw [← List.countP_eq_length_filter] at h2 ⊢
      unfold outsideCount at hout
      omega

theorem GainSteps.mono {g : Graph} {P Q : List Nat → Nat → Nat → Nat → Prop} (hPQ : ∀ t v a b, P t v a b → Q t v a b)
    {t t' : List Nat} (h : GainSteps g P t t') : GainSteps g Q t t' := by
  induction h with
  | refl t => exact GainSteps.refl t
  | step hP hi _ ih => exact GainSteps.step (hPQ _ _ _ _ hP) hi ih

/-- Every new vertex of the result was inserted by one of the steps. -/
theorem GainSteps.new_vertex {g : Graph} {P : List Nat → Nat → Nat → Nat → Prop} {t t' : List Nat} (h : GainSteps g P t t')
    {x : Nat} (hx : x ∈ t') (hxt : x ∉ t) : ∃ s a b, P s x a b := by
  induction h with
  | refl t => exact absurd hx hxt
  | @step t t1 t' v a b hP hi hs ih =>
    by_cases e : x = v
    · subst e; exact ⟨t, a, b, hP⟩
    · exact ih hx (fun h => ((GainStep.mem_iff ⟨a, b, hi⟩ x).1 h).elim e hxt)

theorem GainSteps.walkCost_le {g : Graph} {cost : Nat → Int} {P : List Nat → Nat → Nat → Nat → Prop}
    (hP : ∀ t v a b, P t v a b → pairCost g cost a b ≤ pairCost g cost a v + pairCost g cost v b)
    {t t' : List Nat} (h : GainSteps g P t t') : walkCost g cost t ≤ walkCost g cost t' := by
  induction h with
  | refl t => omega
  | @step t t1 t' v a b hp hi hs ih =>
    have := hP _ _ _ _ hp
    obtain ⟨A, B, rfl, rfl⟩ := hi.split
    have e1 := walkCost_mid g cost A a [] b B
    have e2 := walkCost_mid g cost A a [v] b B
    simp only [List.nil_append, List.cons_append] at e1 e2
    have e3 : walkCost g cost (a :: v :: [b]) = pairCost g cost a v + pairCost g cost v b := by simp [walkCost, consec]
    have e4 : walkCost g cost (a :: [b]) = pairCost g cost a b := by simp [walkCost, consec]
    rw [e3] at e2
    rw [e4] at e1
    omega

/-! ## C17, C18, C48: `extensionUnitaryGain` -/

/-- C17, C18, C48: on a non-empty walk of the graph, `extensionUnitaryGain` returns normally (so it terminates and never uses the
uninitialised position).  Every step inserts a vertex outside the tour between two consecutive vertices joined to it; no other
possible insertion has a greater gain; and the gain is above the average that was computed for the input tour.  At the end no insertion
has positive gain, or the best one is not above that average. -/
theorem C48_gain_best_insertions (O : FloatOps F) (hO : O.Strict) (g : Graph) (cost prize : Nat → Int) (t : List Nat)
    (hne : t ≠ []) (hlt : ∀ x ∈ t, x < g.n) (hw : IsWalk g t) :
    ∃ t', extensionUnitaryGain O g t cost prize = .ok t' ∧
      GainSteps g (fun s v a b => BestInsertion O g cost prize s v a b ∧
        O.lt (averageGain O g cost prize t) (gainBetween O g cost prize v a b) = true) t t' ∧
      ((∀ v a b, Insertable g t' v a b → O.lt O.zero (gainBetween O g cost prize v a b) = false) ∨
       ∃ v a b, BestInsertion O g cost prize t' v a b ∧
        O.lt (averageGain O g cost prize t) (gainBetween O g cost prize v a b) = false) := by
  refine extensionUnitaryGainLoop_spec O hO (g.n + 1) none _ _ t hne hlt hw (by simp) ?_ _ rfl
  have : outsideCount g t ≤ (List.range g.n).length := List.countP_le_length
  simp at this; omega

example : extensionUnitaryGain FloatOps.ieeeExact gainGraph [0, 1, 2, 0] gainCost gainPrize = .ok [0, 3, 1, 2, 0] := by decide +kernel

/-- C17: the input tour is kept as a subsequence with the same end points; only new vertices are inserted, each at most once;
walks stay walks and simple closed tours stay simple closed tours. -/
theorem C17_gain_only_inserts (O : FloatOps F) (hO : O.Strict) (g : Graph) (cost prize : Nat → Int) (t : List Nat)
    (hne : t ≠ []) (hlt : ∀ x ∈ t, x < g.n) (hw : IsWalk g t) :
    ∃ t', extensionUnitaryGain O g t cost prize = .ok t' ∧ OnlyInserts g t t' ∧
      GainSteps g (fun _ _ _ _ => True) t t' := by
  obtain ⟨t', h1, h2, -⟩ := C48_gain_best_insertions O hO g cost prize t hne hlt hw
  exact ⟨t', h1, h2.onlyInserts, h2.mono fun _ _ _ _ _ => trivial⟩

example := C17_gain_only_inserts FloatOps.ieeeExact FloatOps.ieeeExact_strict gainGraph gainCost gainPrize [0, 1, 2, 0] (by decide) (by decide) (by decide)

/-- C17, for `extensionUntilPrizeFeasible`. -/
theorem C17_until_feasible_only_inserts (O : FloatOps F) (hO : O.Strict) (g : Graph) (cost prize : Nat → Int) (quota : Int)
    (t : List Nat) (hne : t ≠ []) (hlt : ∀ x ∈ t, x < g.n) (hw : IsWalk g t) :
    ∃ t', extensionUntilPrizeFeasible O g t cost prize quota = .ok t' ∧ OnlyInserts g t t' ∧
      GainSteps g (fun s v a b => BestInsertion O g cost prize s v a b ∧ tourPrize prize s < quota) t t' := by
  have hc : outsideCount g t ≤ (List.range g.n).length := List.countP_le_length
  simp at hc
  obtain ⟨t', h1, h2, -⟩ := extensionUntilLoop_spec O hO (cost := cost) quota (g.n + 2) 0 (tourPrize prize t)
    (fun v => decide (v ∈ t)) (fun _ => none) t hne hlt hw (by simp) rfl (by omega) (by omega)
  exact ⟨t', by rw [extensionUntilPrizeFeasible, totalPrizeOfTour_eq prize hne]; exact h1, h2.onlyInserts, h2⟩

example : extensionUntilPrizeFeasible FloatOps.ieeeExact gainGraph [0, 1, 2, 0] gainCost gainPrize 15 = .ok [0, 3, 4, 1, 2, 0] := by
  decide +kernel

example : (∀ x ∈ [0, 1, 2, 0], x < gainGraph.n) ∧ IsWalk gainGraph [0, 1, 2, 0] := by decide

/-- C18: with non-negative prizes every vertex that `extensionUnitaryGain` adds has a positive prize, so the prize of the tour grows
strictly if anything is inserted; the number of insertions is at most the number of vertices outside the tour. -/
theorem C18_gain_terminates_positive (O : FloatOps F) (hO : O.Strict) (hD : O.DivSign) (g : Graph) (cost prize : Nat → Int)
    (hp : ∀ v, 0 ≤ prize v) (t : List Nat) (hne : t ≠ []) (hlt : ∀ x ∈ t, x < g.n) (hw : IsWalk g t) :
    ∃ t', extensionUnitaryGain O g t cost prize = .ok t' ∧
      t'.length ≤ t.length + ((List.range g.n).filter (fun x => decide (x ∉ t))).length ∧
      (∀ x ∈ t', x ∉ t → 0 < prize x) := by
  obtain ⟨t', h1, h2, -⟩ := C48_gain_best_insertions O hO g cost prize t hne hlt hw
  refine ⟨t', h1, h2.onlyInserts.bound, fun x hx hxt => ?_⟩
  obtain ⟨s, a, b, ⟨hb, -⟩⟩ := h2.new_vertex hx hxt
  rcases Int.lt_or_eq_of_le (hp x) with h | h
  · exact h
  · exfalso
    have := hb.positive
    rw [gainBetween, ← h, hD.zeroDiv] at this
    simp at this

/-- C18, for `extensionUntilPrizeFeasible`. -/
theorem C18_until_feasible_terminates_positive (O : FloatOps F) (hO : O.Strict) (hD : O.DivSign) (g : Graph)
    (cost prize : Nat → Int) (quota : Int)
    (hp : ∀ v, 0 ≤ prize v) (t : List Nat) (hne : t ≠ []) (hlt : ∀ x ∈ t, x < g.n) (hw : IsWalk g t) :
    ∃ t', extensionUntilPrizeFeasible O g t cost prize quota = .ok t' ∧
      t'.length ≤ t.length + ((List.range g.n).filter (fun x => decide (x ∉ t))).length ∧
      (∀ x ∈ t', x ∉ t → 0 < prize x) := by
  obtain ⟨t', h1, h2, h3⟩ := C17_until_feasible_only_inserts O hO g cost prize quota t hne hlt hw
  refine ⟨t', h1, h2.bound, fun x hx hxt => ?_⟩
  obtain ⟨s, a, b, ⟨hb, -⟩⟩ := h3.new_vertex hx hxt
  rcases Int.lt_or_eq_of_le (hp x) with h | h
  · exact h
  · exfalso
    have := hb.positive
    rw [gainBetween, ← h, hD.zeroDiv] at this
    simp at this

example : FloatOps.ieeeExact.Strict ∧ FloatOps.ieeeExact.DivSign ∧ (∀ v, 0 ≤ gainPrize v) :=
  ⟨FloatOps.ieeeExact_strict, FloatOps.ieeeExact_divSign, fun v => by
    unfold gainPrize
    match v with
    | 0 | 1 | 2 | 3 | 4 => decide
    | _ + 5 => simp⟩

/-! ## C19 -/

/-- C19: the result reaches the quota, or no vertex outside the tour has positive gain for any tour edge; every insertion was made
while the prize was below the quota; a feasible tour is returned unchanged. -/
theorem C19_until_feasible_exit (O : FloatOps F) (hO : O.Strict) (g : Graph) (cost prize : Nat → Int) (quota : Int)
    (t : List Nat) (hne : t ≠ []) (hlt : ∀ x ∈ t, x < g.n) (hw : IsWalk g t) :
    ∃ t', extensionUntilPrizeFeasible O g t cost prize quota = .ok t' ∧
      GainSteps g (fun s _ _ _ => tourPrize prize s < quota) t t' ∧
      (quota ≤ tourPrize prize t' ∨
        ∀ v a b, Insertable g t' v a b → O.lt O.zero (gainBetween O g cost prize v a b) = false) ∧
      (quota ≤ tourPrize prize t → t' = t) := by
  have hc : outsideCount g t ≤ (List.range g.n).length := List.countP_le_length
  simp at hc
  obtain ⟨t', h1, h2, h3⟩ := extensionUntilLoop_spec O hO (cost := cost) quota (g.n + 2) 0 (tourPrize prize t)
    (fun v => decide (v ∈ t)) (fun _ => none) t hne hlt hw (by simp) rfl (by omega) (by omega)
  refine ⟨t', by rw [extensionUntilPrizeFeasible, totalPrizeOfTour_eq prize hne]; exact h1, h2.mono fun _ _ _ _ h => h.2, h3, ?_⟩
  intro hq
  cases h2 with
  | refl => rfl
  | step hP => have := hP.2; omega

/-- C19, in integers: if the quota is missed, no vertex of positive prize outside the tour can be inserted between two consecutive
tour vertices without making the tour cheaper. -/
theorem C19_until_feasible_dead_end (O : FloatOps F) (hO : O.Strict) (hD : O.PosDiv) (g : Graph) (cost prize : Nat → Int)
    (quota : Int) (t : List Nat) (hne : t ≠ []) (hlt : ∀ x ∈ t, x < g.n) (hw : IsWalk g t) :
    ∃ t', extensionUntilPrizeFeasible O g t cost prize quota = .ok t' ∧
      (tourPrize prize t' < quota → ∀ v a b, Insertable g t' v a b → 0 < prize v →
        pairCost g cost a v + pairCost g cost v b < pairCost g cost a b) := by
  obtain ⟨t', h1, -, h3, -⟩ := C19_until_feasible_exit O hO g cost prize quota t hne hlt hw
  refine ⟨t', h1, fun hq v a b hi hv => ?_⟩
  rcases h3 with h3 | h3
  · omega
  · by_cases hd : pairCost g cost a v + pairCost g cost v b < pairCost g cost a b
    · exact hd
    · have := h3 v a b hi
      rw [gainBetween, hD _ _ hv (by omega)] at this
      simp at this

example : ∃ t', extensionUntilPrizeFeasible FloatOps.ieeeExact gainGraph [0, 1, 2, 0] gainCost gainPrize 100 = .ok t' ∧
    tourPrize gainPrize t' < 100 ∧ tourPrize gainPrize [0, 1, 2, 0] < tourPrize gainPrize t' := by
  refine ⟨[0, 3, 4, 1, 2, 0], ?_⟩; decide +kernel

/-! ## C20 -/

/-- `a`, `b` is the first pair of consecutive vertices of `t` that is not an edge. -/
def FirstNonEdge (g : Graph) (t : List Nat) (a b : Nat) : Prop :=
  ∃ A B, t = A ++ a :: b :: B ∧ IsWalk g (A ++ [a]) ∧ ¬ Adj g a b

theorem unitaryGainOfVertex_throw (O : FloatOps F) {g : Graph} (cost prize : Nat → Int) {t : List Nat} {a b : Nat}
    (hlt : ∀ x ∈ t, x < g.n) (h : FirstNonEdge g t a b) {v : Nat} (hv : v < g.n) :
    unitaryGainOfVertex O g t cost prize v = .throw (.invalidArgument a b) := by
  obtain ⟨A, B, he, hwa, hab⟩ := h
  cases t with
  | nil => simp at he
  | cons u rest => exact gainLoop_throw O cost prize hv 0 A a b B u rest he hlt hwa hab _

/-- C20: if the vertex list is not a walk and some vertex is outside, `std::invalid_argument` is thrown, for the first pair that is
not an edge. -/
theorem C20_gain_rejects_non_walks (O : FloatOps F) (g : Graph) (cost prize : Nat → Int) (t : List Nat)
    (hlt : ∀ x ∈ t, x < g.n) (hout : ∃ v < g.n, v ∉ t) (a b : Nat) (h : FirstNonEdge g t a b) :
    extensionUnitaryGain O g t cost prize = .throw (.invalidArgument a b) := by
  rw [extensionUnitaryGain, extensionUnitaryGainLoop, findVertexWithBiggestGain,
    biggestGainLoop_fail O cost prize t _ (.throw (.invalidArgument a b)) rfl
      (fun v hv _ => unitaryGainOfVertex_throw O cost prize hlt h hv) (List.range g.n) (by simp)
      (by obtain ⟨v, hv, hvt⟩ := hout; exact ⟨v, by simpa using hv, by simpa using hvt⟩)]
  rfl

/-- C20, for `extensionUntilPrizeFeasible`: only if the prize is below the quota; otherwise the list is returned unchecked. -/
theorem C20_until_feasible_rejects_non_walks (O : FloatOps F) (g : Graph) (cost prize : Nat → Int) (quota : Int) (t : List Nat)
    (hlt : ∀ x ∈ t, x < g.n) (hout : ∃ v < g.n, v ∉ t) (a b : Nat) (h : FirstNonEdge g t a b) :
    extensionUntilPrizeFeasible O g t cost prize quota =
      if tourPrize prize t < quota then .throw (.invalidArgument a b) else .ok t := by
  have hne : t ≠ [] := by
    obtain ⟨A, B, rfl, -⟩ := h; simp
  rw [extensionUntilPrizeFeasible, totalPrizeOfTour_eq prize hne]
  simp only [Res.ok_bind]
  rw [extensionUntilLoop]
  by_cases hq : tourPrize prize t < quota
  · rw [if_pos ⟨hq, rfl⟩, if_pos hq, findVertexWithBiggestGain,
      biggestGainLoop_fail O cost prize t _ (.throw (.invalidArgument a b)) rfl
      (fun v hv _ => unitaryGainOfVertex_throw O cost prize hlt h hv) (List.range g.n) (by simp)
      (by obtain ⟨v, hv, hvt⟩ := hout; exact ⟨v, by simpa using hv, by simpa using hvt⟩)]
    rfl
  · rw [if_neg (by simp [hq]), if_neg hq]; rfl

/-- C20: a list that is not a walk has a first pair that is not an edge. -/
theorem C20_non_walk_iff (g : Graph) (t : List Nat) : ¬ IsWalk g t ↔ ∃ a b, FirstNonEdge g t a b := by
  constructor
  · intro h
    induction t with
    | nil => exact absurd (by simp [IsWalk, consec]) h
    | cons u t ih =>
      cases t with
      | nil => exact absurd (by simp [IsWalk, consec]) h
      | cons w t =>
        by_cases hadj : Adj g u w
        · have hw : ¬ IsWalk g (w :: t) := by
            intro hw; apply h
            intro p hp
            rcases mem_consec_cons.1 hp with rfl | hp
            · exact hadj
            · exact hw p hp
          obtain ⟨a, b, A, B, he, hA, hab⟩ := ih hw
          refine ⟨a, b, u :: A, B, by rw [he]; rfl, ?_, hab⟩
          obtain ⟨y, ys, hy⟩ : ∃ y ys, A ++ [a] = y :: ys := by
            cases A <;> simp
          have hyw : y = w := by
            cases A with
            | nil => simp at he hy; exact hy.1.symm.trans he.1.symm
            | cons c A => simp at he hy; exact hy.1.symm.trans he.1.symm
          rw [List.cons_append, hy]
          rw [hy] at hA
          intro p hp
          rcases mem_consec_cons.1 hp with rfl | hp
          · rw [hyw]; exact hadj
          · exact hA p hp
        · exact ⟨u, w, [], t, rfl, by simp [IsWalk, consec], hadj⟩
  · rintro ⟨a, b, A, B, rfl, -, hab⟩ hw
    exact hab (hw (a, b) (mem_consec_iff_split.2 ⟨A, B, rfl⟩))

/-- C20: an empty tour is undefined behaviour as soon as the graph has a vertex. -/
theorem C20_empty_tour_undefined (O : FloatOps F) (g : Graph) (hn : 0 < g.n) (cost prize : Nat → Int) :
    (extensionUnitaryGain O g [] cost prize).isUb = true := by
  rw [extensionUnitaryGain, extensionUnitaryGainLoop, findVertexWithBiggestGain,
    biggestGainLoop_fail O cost prize [] _ (.ub "unitaryGainOfVertex: empty tour") rfl
      (fun v hv _ => rfl) (List.range g.n) (by simp) ⟨0, by simpa using hn, by simp⟩]
  rfl

example : FirstNonEdge gainGraph [0, 1, 4, 2, 0] 4 2 := ⟨[0, 1], [0], by decide⟩
example : (∀ x ∈ [0, 1, 4, 2, 0], x < gainGraph.n) ∧ ∃ v < gainGraph.n, v ∉ [0, 1, 4, 2, 0] := ⟨by decide, 3, by decide⟩

/-! ## C49 -/

/-- C49: with non-negative prizes no insertion makes the tour cheaper, so the cost of the tour never decreases. -/
theorem C49_gain_never_cheaper (O : FloatOps F) (hO : O.Strict) (hD : O.DivSign) (g : Graph) (cost prize : Nat → Int)
    (hp : ∀ v, 0 ≤ prize v) (t : List Nat) (hne : t ≠ []) (hlt : ∀ x ∈ t, x < g.n) (hw : IsWalk g t) (quota : Int) :
    (∃ t', extensionUnitaryGain O g t cost prize = .ok t' ∧ walkCost g cost t ≤ walkCost g cost t') ∧
    (∃ t', extensionUntilPrizeFeasible O g t cost prize quota = .ok t' ∧ walkCost g cost t ≤ walkCost g cost t') := by
  have key : ∀ (s : List Nat) (v a b : Nat), BestInsertion O g cost prize s v a b →
      pairCost g cost a b ≤ pairCost g cost a v + pairCost g cost v b := by
    intro s v a b hb
    by_cases h : pairCost g cost a b ≤ pairCost g cost a v + pairCost g cost v b
    · exact h
    · have := hb.positive
      rw [gainBetween, hD.negDiv _ _ (hp v) (by omega)] at this
      simp at this
  constructor
  · obtain ⟨t', h1, h2, -⟩ := C48_gain_best_insertions O hO g cost prize t hne hlt hw
    exact ⟨t', h1, h2.walkCost_le fun s v a b h => key s v a b h.1⟩
  · obtain ⟨t', h1, -, h2⟩ := C17_until_feasible_only_inserts O hO g cost prize quota t hne hlt hw
    exact ⟨t', h1, h2.walkCost_le fun s v a b h => key s v a b h.1⟩

/-- C49: an insertion that reaches the quota and makes the tour cheaper is refused, even if it is the only one: the unitary gain is
then negative. -/
theorem C49_cheaper_insertion_refused :
    ∃ (g : Graph) (cost prize : Nat → Int) (quota : Int) (t t' : List Nat), IsTour g 0 t ∧ IsTour g 0 t' ∧
      GainStep g 3 t t' ∧ walkCost g cost t' < walkCost g cost t ∧ (∀ e, 0 ≤ cost e) ∧ (∀ v, 0 ≤ prize v) ∧
      tourPrize prize t < quota ∧ quota ≤ tourPrize prize t' ∧
      extensionUntilPrizeFeasible FloatOps.ieeeExact g t cost prize quota = .ok t ∧
      extensionUnitaryGain FloatOps.ieeeExact g t cost prize = .ok t := by
  refine ⟨⟨4, [(0, 1), (1, 2), (2, 0), (3, 0), (3, 1)]⟩, fun e => if e = 0 then 10 else 1, fun v => if v = 3 then 5 else 1, 6,
    [0, 1, 2, 0], [0, 3, 1, 2, 0], ⟨⟨[1, 2], rfl⟩, by decide, by decide⟩, ⟨⟨[3, 1, 2], rfl⟩, by decide, by decide⟩,
    ⟨0, 1, ⟨[], [2, 0], rfl, rfl⟩, by decide, by decide, by decide, by decide⟩, by decide, ?_, ?_, by decide, by decide, by decide +kernel,
    by decide +kernel⟩
  · intro e; simp only; split <;> decide
  · intro v; simp only; split <;> decide

theorem gainPrize_nonneg (v : Nat) : 0 ≤ gainPrize v := by
  unfold gainPrize
  match v with
  | 0 | 1 | 2 | 3 | 4 => decide
  | _ + 5 => simp

example := C18_gain_terminates_positive FloatOps.ieeeExact FloatOps.ieeeExact_strict FloatOps.ieeeExact_divSign gainGraph gainCost gainPrize gainPrize_nonneg
  [0, 1, 2, 0] (by decide) (by decide) (by decide)
example := C19_until_feasible_exit FloatOps.ieeeExact FloatOps.ieeeExact_strict gainGraph gainCost gainPrize 15 [0, 1, 2, 0] (by decide) (by decide) (by decide)
example := C20_gain_rejects_non_walks FloatOps.ieeeExact gainGraph gainCost gainPrize [0, 1, 4, 2, 0] (by decide) ⟨3, by decide⟩ 4 2 ⟨[0, 1], [0], by decide⟩
example := C20_until_feasible_rejects_non_walks FloatOps.ieeeExact gainGraph gainCost gainPrize 100 [0, 1, 4, 2, 0] (by decide) ⟨3, by decide⟩ 4 2
  ⟨[0, 1], [0], by decide⟩
example := C49_gain_never_cheaper FloatOps.ieeeExact FloatOps.ieeeExact_strict FloatOps.ieeeExact_divSign gainGraph gainCost gainPrize gainPrize_nonneg
  [0, 1, 2, 0] (by decide) (by decide) (by decide) 15

end Pctsp
