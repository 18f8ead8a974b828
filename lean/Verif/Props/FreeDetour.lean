import Verif.Props.Gain

/-!
# Property C77: a detour without extra cost stops the extension by unitary gain
-/

namespace Pctsp

/-- Numbers that can be gains: not negative, not a NaN. -/
def Ext.Gain (x : Ext) : Prop := x = .inf false ∨ ∃ q : Rat, 0 ≤ q ∧ x = .fin q

theorem Ext.Gain.of_pos {x : Ext} (h : Ext.lt (.fin 0) x = true) : x.Gain := by
  rcases x with _ | (_ | _) | q <;> simp [Ext.lt] at h
  · exact .inl rfl
  · exact .inr ⟨q, le_of_lt h, rfl⟩

theorem SignRounding.gain {rnd : Rat → Ext} (h : SignRounding rnd) {q : Rat} (hq : 0 ≤ q) : (rnd q).Gain := by
  rcases lt_or_eq_of_le hq with hq | rfl
  · have := h.pos q hq
    generalize rnd q = x at *
    rcases x with _ | (_ | _) | x
    · exact absurd rfl this.2
    · exact .inl rfl
    · simp [Ext.lt] at this
    · simp [Ext.lt] at this; exact .inr ⟨x, this, rfl⟩
  · rw [h.zero]; exact .inr ⟨0, le_rfl, rfl⟩

theorem Ext.Gain.add {rnd : Rat → Ext} (h : SignRounding rnd) {x y : Ext} (hx : x.Gain) (hy : y.Gain) : (Ext.add rnd x y).Gain := by
  rcases hx with rfl | ⟨p, hp, rfl⟩ <;> rcases hy with rfl | ⟨q, hq, rfl⟩
  · exact .inl rfl
  · exact .inl rfl
  · exact .inl rfl
  · exact h.gain (by linarith)

theorem Ext.Gain.add_inf {rnd : Rat → Ext} {x : Ext} (hx : x.Gain) : Ext.add rnd x (.inf false) = .inf false ∧ Ext.add rnd (.inf false) x = .inf false := by
  rcases hx with rfl | ⟨p, hp, rfl⟩ <;> exact ⟨rfl, rfl⟩

/-- A sum of gains with an infinite one among them. -/
theorem foldl_add_inf {rnd : Rat → Ext} (h : SignRounding rnd) : ∀ (l : List Ext) (s : Ext), (∀ x ∈ l, x.Gain) → s.Gain →
    s = .inf false ∨ .inf false ∈ l → l.foldl (Ext.add rnd) s = .inf false := by
  intro l
  induction l with
  | nil => intro s _ _ h; simpa using h
  | cons x l ih =>
    intro s hl hs hi
    have hx := hl x List.mem_cons_self
    refine ih _ (fun y hy => hl y (List.mem_cons_of_mem _ hy)) (hs.add h hx) ?_
    rcases hi with rfl | hi
    · exact .inl hx.add_inf.2
    · rcases List.mem_cons.1 hi with e | hi
      · left; rw [← e]; exact hs.add_inf.1
      · exact .inr hi

theorem maxGain_gain {rnd : Rat → Ext} (g : Graph) (cost prize : Nat → Int) (t : List Nat) (v : Nat) :
    (maxGain (FloatOps.ieee rnd) g cost prize t v).Gain := by
  rw [maxGain]
  have key : ∀ (l : List (Nat × Nat)) (m : Ext), m.Gain → (l.foldl (fun m p =>
    if Adj g p.1 v ∧ Adj g v p.2 ∧ (FloatOps.ieee rnd).lt m (gainBetween (FloatOps.ieee rnd) g cost prize v p.1 p.2) = true
    then gainBetween (FloatOps.ieee rnd) g cost prize v p.1 p.2 else m) m).Gain := by
    intro l
    induction l with
    | nil => intro m hm; exact hm
    | cons p l ih =>
      intro m hm
      rw [List.foldl_cons]
      apply ih
      split
      · rename_i h
        have h3 := h.2.2
        generalize gainBetween (FloatOps.ieee rnd) g cost prize v p.1 p.2 = x at h3
        rcases hm with rfl | ⟨q, hq, rfl⟩ <;> rcases x with _ | (_ | _) | x <;> simp [FloatOps.ieee, Ext.lt] at h3
        · exact .inl rfl
        · exact .inr ⟨x, by linarith, rfl⟩
      · exact hm
  exact key _ _ (.inr ⟨0, le_rfl, rfl⟩)

/-- The gain of a vertex of positive prize that can be visited without extra cost is infinite. -/
theorem gainBetween_free {rnd : Rat → Ext} (h : SignRounding rnd) {g : Graph} {cost prize : Nat → Int} {v a b : Nat} (hp : 0 < prize v)
    (hc : pairCost g cost a v + pairCost g cost v b = pairCost g cost a b) :
    gainBetween (FloatOps.ieee rnd) g cost prize v a b = .inf false := by
  have e : pairCost g cost a v + pairCost g cost v b - pairCost g cost a b = 0 := by omega
  have hr := h.intPos _ hp
  simp only [gainBetween, e, FloatOps.ieee, Int.cast_zero, h.zero]
  generalize rnd (prize v : Rat) = x at hr
  rcases x with _ | (_ | _) | x <;> simp [Ext.lt] at hr
  · simp [Ext.div]
  · simp [Ext.div, ne_of_gt hr, not_lt.2 (le_of_lt hr)]

/-- C77.  Suppose that some vertex of positive prize outside of the tour can be inserted without extra cost.  Its gain is infinite, so
the average of the gains is infinite, no gain is above the average, and `extensionUnitaryGain` returns the tour as it was.  This holds for every rounding that keeps
signs. -/
theorem C77_free_detour_blocks (rnd : Rat → Ext) (hr : SignRounding rnd) (g : Graph) (cost prize : Nat → Int) (t : List Nat)
    (hlt : ∀ x ∈ t, x < g.n) (hw : IsWalk g t) (v a b : Nat) (hi : Insertable g t v a b) (hp : 0 < prize v)
    (hc : pairCost g cost a v + pairCost g cost v b = pairCost g cost a b) :
    extensionUnitaryGain (FloatOps.ieee rnd) g t cost prize = .ok t := by
  have hne : t ≠ [] := by
    rintro rfl
    have := hi.pair
    simp [consec] at this
  have hO := FloatOps.ieee_strict rnd
  obtain ⟨t', h1, h2, -⟩ := C48_gain_best_insertions (FloatOps.ieee rnd) hO g cost prize t hne hlt hw
  -- the gain of `v`
  have hmax : maxGain (FloatOps.ieee rnd) g cost prize t v = .inf false := by
    obtain ⟨e, -, e2, e3, -⟩ := gainOfVertex_spec (FloatOps.ieee rnd) hO (cost := cost) (prize := prize) hi.vertex hne hlt hw
    have h3 := e3 a b hi.pair hi.left hi.right
    rw [gainBetween_free hr hp hc, e2] at h3
    rcases maxGain_gain (rnd := rnd) g cost prize t v with h | ⟨q, hq, h⟩
    · exact h
    · rw [h] at h3
      simp [FloatOps.ieee, Ext.lt] at h3
  have hnot : ∀ x, (FloatOps.ieee rnd).lt (averageGain (FloatOps.ieee rnd) g cost prize t) x = false := by
    intro x
    rw [averageGain]
    have hsum : ((List.filter (fun v => decide (v ∉ t)) (List.range g.n)).map (maxGain (FloatOps.ieee rnd) g cost prize t)).foldl
        (FloatOps.ieee rnd).add (FloatOps.ieee rnd).zero = .inf false := by
      refine foldl_add_inf hr _ _ ?_ (.inr ⟨0, le_rfl, rfl⟩) (.inr ?_)
      · intro y hy
        obtain ⟨w, -, rfl⟩ := List.mem_map.1 hy
        exact maxGain_gain g cost prize t w
      · refine List.mem_map.2 ⟨v, ?_, hmax⟩
        simp [hi.vertex, hi.new]
    rw [hsum]
    have hlen : 0 < (List.filter (fun v => decide (v ∉ t)) (List.range g.n)).length :=
      List.length_pos_of_mem (a := v) (by simp [hi.vertex, hi.new])
    have hpos := hr.intPos (((List.filter (fun v => decide (v ∉ t)) (List.range g.n)).length : Nat) : Int) (by exact_mod_cast hlen)
    simp only [FloatOps.ieee]
    generalize rnd ((((List.filter (fun v => decide (v ∉ t)) (List.range g.n)).length : Nat) : Int) : Rat) = y at hpos
    rcases y with _ | (_ | _) | y <;> simp [Ext.lt] at hpos
    · simp [Ext.div, Ext.lt]
    · simp [Ext.div, not_lt.2 (le_of_lt hpos), Ext.lt]
  cases h2 with
  | refl => exact h1
  | step hP _ _ => rw [hnot] at hP; exact absurd hP.2 (by simp)

/-- C77.  In the same situation, with a tour below the quota, `extensionUntilPrizeFeasible` does extend the tour, and its first insertion is one without extra cost
(exact arithmetic). -/
theorem C77_free_detour_first (g : Graph) (cost prize : Nat → Int) (quota : Int) (t : List Nat)
    (hlt : ∀ x ∈ t, x < g.n) (hw : IsWalk g t) (hq : tourPrize prize t < quota) (v a b : Nat) (hi : Insertable g t v a b) (hp : 0 < prize v)
    (hc : pairCost g cost a v + pairCost g cost v b = pairCost g cost a b) :
    ∃ v' a' b' t1 t', extensionUntilPrizeFeasible FloatOps.ieeeExact g t cost prize quota = .ok t' ∧ InsertsBetween g v' a' b' t t1 ∧
      GainSteps g (fun _ _ _ _ => True) t1 t' ∧ 0 < prize v' ∧
      pairCost g cost a' v' + pairCost g cost v' b' = pairCost g cost a' b' := by
  have hne : t ≠ [] := by
    rintro rfl
    have := hi.pair
    simp [consec] at this
  have hO := FloatOps.ieeeExact_strict
  have hcnt : outsideCount g t ≤ (List.range g.n).length := List.countP_le_length
  simp at hcnt
  obtain ⟨t', h1, h2, h3⟩ := extensionUntilLoop_spec FloatOps.ieeeExact hO (cost := cost) quota (g.n + 2) 0 (tourPrize prize t)
    (fun v => decide (v ∈ t)) (fun _ => none) t hne hlt hw (by simp) rfl (by omega) (by omega)
  have h1' : extensionUntilPrizeFeasible FloatOps.ieeeExact g t cost prize quota = .ok t' := by
    rw [extensionUntilPrizeFeasible, totalPrizeOfTour_eq prize hne]; exact h1
  have hfree : gainBetween FloatOps.ieeeExact g cost prize v a b = .inf false := gainBetween_free SignRounding.fin hp hc
  cases h2 with
  | refl =>
    rcases h3 with h3 | h3
    · omega
    · have := h3 v a b hi
      rw [hfree] at this
      simp [FloatOps.ieeeExact, FloatOps.ieee, Ext.lt] at this
  | @step _ t1 _ v' a' b' hP hs hr =>
    refine ⟨v', a', b', t1, t', h1', hs, hr.mono fun _ _ _ _ _ => trivial, ?_⟩
    have e1 := hP.1.positive
    have e2 := hP.1.best v a b hi
    rw [hfree] at e2
    rw [gainBetween] at e1 e2
    simp only [FloatOps.ieeeExact, FloatOps.ieee, Ext.div] at e1 e2
    have hd : pairCost g cost a' v' + pairCost g cost v' b' - pairCost g cost a' b' = 0 := by
      by_contra hne
      rw [if_neg (by exact_mod_cast hne)] at e2
      simp [Ext.lt] at e2
    rw [hd] at e1
    refine ⟨?_, by omega⟩
    rcases Int.lt_trichotomy (prize v') 0 with h | h | h
    · have h' : ((prize v' : Int) : Rat) < 0 := by exact_mod_cast h
      simp [Ext.lt, ne_of_lt h, h] at e1
    · simp [h, Ext.lt] at e1
    · exact h

/-- A triangle and two more vertices: 3 lies on the way from 0 to 1 at no extra cost, 4 costs something. -/
def freeGraph : Graph := ⟨5, [(0, 1), (1, 2), (2, 0), (3, 0), (3, 1), (4, 0), (4, 1)]⟩
/-- Its costs. -/
def freeCost : Nat → Int := fun e => if e = 0 then 2 else if e = 5 then 3 else 1
/-- Its prizes. -/
def freePrize : Nat → Int := fun v => v

-- the free vertex is not visited, although the quota is missed and the tour would stay as cheap
example : extensionUnitaryGain FloatOps.ieeeExact freeGraph [0, 1, 2, 0] freeCost freePrize = .ok [0, 1, 2, 0] :=
  C77_free_detour_blocks .fin SignRounding.fin freeGraph freeCost freePrize [0, 1, 2, 0] (by decide) (by decide) 3 0 1
    ⟨by decide, by decide, by decide, by decide, by decide⟩ (by decide) (by decide)
-- with a little extra cost for the same vertex it is visited
example : extensionUnitaryGain FloatOps.ieeeExact freeGraph [0, 1, 2, 0] (fun e => if e = 3 then 2 else freeCost e) (fun v => if v = 4 then 1 else 9) =
    .ok [0, 3, 1, 2, 0] := by decide +kernel
example : extensionUntilPrizeFeasible FloatOps.ieeeExact freeGraph [0, 1, 2, 0] freeCost freePrize 6 = .ok [0, 3, 1, 2, 0] := by decide +kernel
example : tourPrize freePrize [0, 1, 2, 0] < 6 := by decide

/-- C48 for IEEE numbers with any rounding: `C48_gain_best_insertions` applies to them. -/
theorem C48_ieee (rnd : Rat → Ext) (g : Graph) (cost prize : Nat → Int) (t : List Nat) (hne : t ≠ []) (hlt : ∀ x ∈ t, x < g.n) (hw : IsWalk g t) :
    ∃ t', extensionUnitaryGain (FloatOps.ieee rnd) g t cost prize = .ok t' ∧
      GainSteps g (fun s v a b => BestInsertion (FloatOps.ieee rnd) g cost prize s v a b ∧
        Ext.lt (averageGain (FloatOps.ieee rnd) g cost prize t) (gainBetween (FloatOps.ieee rnd) g cost prize v a b) = true) t t' := by
  obtain ⟨t', h1, h2, -⟩ := C48_gain_best_insertions (FloatOps.ieee rnd) (FloatOps.ieee_strict rnd) g cost prize t hne hlt hw
  exact ⟨t', h1, h2⟩

example := C48_ieee .fin gainGraph gainCost gainPrize [0, 1, 2, 0] (by decide) (by decide) (by decide)

/-- C49 for IEEE numbers with any rounding that keeps signs. -/
theorem C49_ieee (rnd : Rat → Ext) (hr : SignRounding rnd) (g : Graph) (cost prize : Nat → Int)
    (hp : ∀ v, 0 ≤ prize v) (t : List Nat) (hne : t ≠ []) (hlt : ∀ x ∈ t, x < g.n) (hw : IsWalk g t) :
    ∃ t', extensionUnitaryGain (FloatOps.ieee rnd) g t cost prize = .ok t' ∧ walkCost g cost t ≤ walkCost g cost t' :=
  (C49_gain_never_cheaper (FloatOps.ieee rnd) (FloatOps.ieee_strict rnd) (FloatOps.ieee_divSign hr) g cost prize hp t hne hlt hw 0).1

example : ∃ t', extensionUnitaryGain FloatOps.ieeeExact gainGraph [0, 1, 2, 0] gainCost gainPrize = .ok t' ∧
    walkCost gainGraph gainCost [0, 1, 2, 0] ≤ walkCost gainGraph gainCost t' :=
  C49_ieee .fin SignRounding.fin gainGraph gainCost gainPrize (by
    intro v
    match v with
    | 0 | 1 | 2 | 3 | 4 => decide
    | n + 5 => simp [gainPrize]) _ (by decide) (by decide) (by decide)

end Pctsp
