import Verif.Lemmas.Direction

/-! Helper lemmas: extension by unitary gain and tours that are the same cycle. -/

namespace Pctsp

variable {F : Type}

/-- Edges of the one tour are edges of the other. -/
theorem SameCycle.mem {s t : List Nat} (h : SameCycle s t) {a b : Nat} (hm : (a, b) ∈ consec s) : (a, b) ∈ consec t ∨ (b, a) ∈ consec t := by
  obtain ⟨⟨c, d⟩, h1, h2⟩ := List.mem_map.1 (h.subset (List.mem_map.2 ⟨_, hm, rfl⟩))
  rw [und_eq_iff] at h2
  rcases h2 with ⟨rfl, rfl⟩ | ⟨rfl, rfl⟩
  · exact Or.inl h1
  · exact Or.inr h1

theorem mem_of_consec {t : List Nat} (h2 : 2 ≤ t.length) {x : Nat} : x ∈ t ↔ ∃ y, (x, y) ∈ consec t ∨ (y, x) ∈ consec t := by
  constructor
  · intro hx
    obtain ⟨A, B, rfl⟩ := List.append_of_mem hx
    cases B with
    | cons b B => exact ⟨b, Or.inl (mem_consec_iff_split.2 ⟨A, B, rfl⟩)⟩
    | nil =>
      rcases List.eq_nil_or_concat A with rfl | ⟨A', a, rfl⟩
      · simp at h2
      · exact ⟨a, Or.inr (mem_consec_iff_split.2 ⟨A', [], by simp⟩)⟩
  · rintro ⟨y, h | h⟩
    · exact (consec_mem h).1
    · exact (consec_mem h).2

theorem SameCycle.mem_iff {s t : List Nat} (h : SameCycle s t) (hs : 2 ≤ s.length) (ht : 2 ≤ t.length) (x : Nat) : x ∈ s ↔ x ∈ t := by
  rw [mem_of_consec hs, mem_of_consec ht]
  constructor
  · rintro ⟨y, hy | hy⟩
    · exact ⟨y, h.mem hy⟩
    · exact ⟨y, (h.mem hy).symm⟩
  · rintro ⟨y, hy | hy⟩
    · exact ⟨y, SameCycle.mem h.symm hy⟩
    · exact ⟨y, (SameCycle.mem h.symm hy).symm⟩

theorem SameCycle.isWalk {g : Graph} {s t : List Nat} (h : SameCycle s t) (hw : IsWalk g t) : IsWalk g s := by
  rintro ⟨a, b⟩ hm
  rcases h.mem hm with h | h
  · exact hw _ h
  · exact (hw _ h).symm

/-- Insertion into the same edge keeps the cycles the same. -/
theorem sameCycle_insert {A B C D : List Nat} {a b c d v : Nat} (h : SameCycle (A ++ a :: b :: B) (C ++ c :: d :: D))
    (hu : und (a, b) = und (c, d)) : SameCycle (A ++ a :: v :: b :: B) (C ++ c :: v :: d :: D) := by
  have split : ∀ (X : List Nat) (x y : Nat) (Y : List Nat), consec (X ++ x :: y :: Y) = consec (X ++ [x]) ++ (x, y) :: consec (y :: Y) := by
    intro X x y Y
    induction X with
    | nil => simp [consec]
    | cons z X ih =>
      cases X with
      | nil => simp [consec]
      | cons w X => simpa [consec_cons_cons] using ih
  have key : ∀ (X : List Nat) (x y : Nat) (Y : List Nat),
      (und (x, y) :: (consec (X ++ x :: v :: y :: Y)).map und).Perm
        (und (x, v) :: und (v, y) :: (consec (X ++ x :: y :: Y)).map und) := by
    intro X x y Y
    rw [split X x v, split X x y, consec_cons_cons]
    simp only [List.map_append, List.map_cons]
    generalize (consec (X ++ [x])).map und = p
    generalize (consec (y :: Y)).map und = q
    refine (List.Perm.cons _ List.perm_middle).trans ?_
    refine (List.Perm.swap _ _ _).trans ?_
    refine List.Perm.cons _ ?_
    refine (List.Perm.cons _ List.perm_middle).trans ?_
    refine (List.Perm.swap _ _ _).trans ?_
    exact List.Perm.cons _ List.perm_middle.symm
  have hsw : (und (a, v) :: und (v, b) :: (consec (A ++ a :: b :: B)).map und).Perm
      (und (c, v) :: und (v, d) :: (consec (C ++ c :: d :: D)).map und) := by
    have hc : ∀ x, und (x, v) = und (v, x) := fun x => und_eq_iff.2 (Or.inr ⟨rfl, rfl⟩)
    rw [und_eq_iff] at hu
    rcases hu with ⟨rfl, rfl⟩ | ⟨rfl, rfl⟩
    · exact (h.cons _).cons _
    · rw [hc a, ← hc b]
      exact (List.Perm.swap _ _ _).trans ((h.cons _).cons _)
  have := (key A a b B).trans (hsw.trans (key C c d D).symm)
  rw [hu] at this
  exact this.cons_inv

theorem maxGain_same (O : FloatOps F) (hO : O.Strict) {g : Graph} {cost prize : Nat → Int} (hnt : NoTies O g cost prize)
    {v : Nat} (hv : v < g.n) {s t : List Nat} (hst : SameCycle s t) (hsl : 2 ≤ s.length) (htl : 2 ≤ t.length) (hlt : ∀ x ∈ t, x < g.n)
    (hw : IsWalk g t) : maxGain O g cost prize s v = maxGain O g cost prize t v := by
  have hne : t ≠ [] := by rintro rfl; simp at htl
  have hnes : s ≠ [] := by rintro rfl; simp at hsl
  obtain ⟨e, -, h2, h3, h4⟩ := gainOfVertex_spec O hO (cost := cost) (prize := prize) hv hne hlt hw
  obtain ⟨e', -, k2, k3, k4⟩ := gainOfVertex_spec O hO (cost := cost) (prize := prize) hv (t := s) hnes
    (fun x hx => hlt x ((hst.mem_iff hsl htl x).1 hx)) (hst.isWalk hw)
  rw [← h2, ← k2]
  have h3' : ∀ a b, (a, b) ∈ consec s → Adj g a v → Adj g v b → O.lt e.value (gainBetween O g cost prize v a b) = false := by
    intro a b hm h1 h2
    rcases hst.mem hm with h | h
    · exact h3 a b h h1 h2
    · rw [gainBetween_comm]; exact h3 b a h h2.symm h1.symm
  have k3' : ∀ a b, (a, b) ∈ consec t → Adj g a v → Adj g v b → O.lt e'.value (gainBetween O g cost prize v a b) = false := by
    intro a b hm h1 h2
    rcases SameCycle.mem hst.symm hm with h | h
    · exact k3 a b h h1 h2
    · rw [gainBetween_comm]; exact k3 b a h h2.symm h1.symm
  rcases h4 with ⟨z, -⟩ | ⟨hp, A, a, b, B, hs, -, a1, a2, a3⟩
  · rcases k4 with ⟨z', -⟩ | ⟨kp, C, c, d, D, ks, -, b1, b2, b3⟩
    · rw [z, z']
    · have := h3' c d (mem_consec_iff_split.2 ⟨_, _, ks⟩) b1 b2
      rw [z, ← b3, kp] at this
      exact absurd this (by simp)
  · have m1 : (a, b) ∈ consec t := mem_consec_iff_split.2 ⟨_, _, hs⟩
    rcases k4 with ⟨z', -⟩ | ⟨kp, C, c, d, D, ks, -, b1, b2, b3⟩
    · have := k3' a b m1 a1 a2
      rw [z', ← a3, hp] at this
      exact absurd this (by simp)
    · have m2 : (c, d) ∈ consec s := mem_consec_iff_split.2 ⟨_, _, ks⟩
      by_cases c1 : a = c ∧ b = d
      · obtain ⟨rfl, rfl⟩ := c1; rw [a3, b3]
      by_cases c2 : a = d ∧ b = c
      · obtain ⟨rfl, rfl⟩ := c2; rw [a3, b3, gainBetween_comm]
      · exfalso
        have g1 := h3' c d m2 b1 b2
        have g2 := k3' a b m1 a1 a2
        rw [← b3] at g1
        rw [← a3] at g2
        have := hnt v a b c d (hw _ m1) a1 a2 (hst.isWalk hw _ m2) b1 b2 c1 c2 (a3 ▸ hp) (b3 ▸ kp)
        rw [← a3, ← b3, g1, g2] at this
        simp at this

/-- One round for two tours that are the same cycle. -/
theorem findBiggest_same (O : FloatOps F) (hO : O.Strict) {g : Graph} {cost prize : Nat → Int} (hnt : NoTies O g cost prize)
    {s t : List Nat} (hst : SameCycle s t) (hsl : 2 ≤ s.length) (htl : 2 ≤ t.length) (hlt : ∀ x ∈ t, x < g.n) (hw : IsWalk g t)
    (inTour : Nat → Bool) (hin : ∀ v, inTour v = true ↔ v ∈ t) (gm gm' : GainMap F) :
    ∃ g1 g2 best, findVertexWithBiggestGain O g t cost prize inTour gm = .ok (g1, best) ∧
      findVertexWithBiggestGain O g s cost prize inTour gm' = .ok (g2, best) ∧
      calculateAverageGain O g.n inTour g1 = calculateAverageGain O g.n inTour g2 ∧
      (best = none ∨ ∃ v e e' t1 s1, best = some v ∧ g1 v = some e ∧ g2 v = some e' ∧ e.value = e'.value ∧
        insertBiggestGainVertex t v g1 = .ok t1 ∧ insertBiggestGainVertex s v g2 = .ok s1 ∧ GainStep g v t t1 ∧ GainStep g v s s1 ∧
        SameCycle s1 t1) := by
  have hne : t ≠ [] := by rintro rfl; simp at htl
  have hnes : s ≠ [] := by rintro rfl; simp at hsl
  have hmem := hst.mem_iff hsl htl
  have hin' : ∀ v, inTour v = true ↔ v ∈ s := fun v => (hin v).trans (hmem v).symm
  have hlts : ∀ x ∈ s, x < g.n := fun x hx => hlt x ((hmem x).1 hx)
  have hws := hst.isWalk hw
  obtain ⟨g1, best, h1, h2, h3⟩ := findBiggest_spec O hO (cost := cost) (prize := prize) hne hlt hw inTour hin gm
  obtain ⟨g2, best', k1, k2, k3⟩ := findBiggest_spec O hO (cost := cost) (prize := prize) hnes hlts hws inTour hin' gm'
  have hmax : ∀ v < g.n, maxGain O g cost prize s v = maxGain O g cost prize t v := fun v hv =>
    maxGain_same O hO hnt hv hst hsl htl hlt hw
  have hb : best' = best := by
    obtain ⟨a1, a2, b, x, e1, e2⟩ := biggestGainLoop_values O (cost := cost) (prize := prize) t s inTour (List.range g.n) (by
      intro v hv
      have hv : v < g.n := by simpa using hv
      obtain ⟨e, p1, p2, -⟩ := gainOfVertex_spec O hO (cost := cost) (prize := prize) hv hne hlt hw
      obtain ⟨e', q1, q2, -⟩ := gainOfVertex_spec O hO (cost := cost) (prize := prize) hv hnes hlts hws
      exact ⟨e, e', p1, q1, by rw [p2, q2, hmax v hv]⟩) gm gm' none O.zero
    rw [findVertexWithBiggestGain, e1] at h1
    rw [findVertexWithBiggestGain, e2] at k1
    simp only [Res.ok_bind] at h1 k1
    cases h1; cases k1; rfl
  subst hb
  refine ⟨g1, g2, best', h1, k1, ?_, ?_⟩
  · rw [calculateAverageGain_eq O hin h2, calculateAverageGain_eq O hin' k2]
    simp only [averageGain, hmem]
    congr 2
    apply List.map_congr_left
    intro v hv
    exact (hmax v (by simpa using (List.mem_filter.1 hv).1)).symm
  · rcases h3 with ⟨rfl, -⟩ | ⟨v, e, a, b, t1, rfl, q1, q2, q3, q4, q5⟩
    · exact Or.inl rfl
    · rcases k3 with ⟨h, -⟩ | ⟨v', e', c, d, t2, h, s1, s2, s3, s4, s5⟩
      · simp at h
      · cases h
        right
        have hval : e.value = e'.value := by
          obtain ⟨x, y1, y2⟩ := h2 v q4.vertex q4.new
          obtain ⟨x', z1, z2⟩ := k2 v q4.vertex s4.new
          rw [q1] at y1; cases y1
          rw [s1] at z1; cases z1
          rw [y2, z2, hmax v q4.vertex]
        refine ⟨v, e, e', t1, t2, rfl, q1, s1, hval, q3, s3, ⟨a, b, q4⟩, ⟨c, d, s4⟩, ?_⟩
        obtain ⟨A, B, rfl, rfl⟩ := q4.split
        obtain ⟨C, D, rfl, rfl⟩ := s4.split
        have m1 : (a, b) ∈ consec (A ++ a :: b :: B) := mem_consec_iff_split.2 ⟨_, _, rfl⟩
        have m2 : (c, d) ∈ consec (C ++ c :: d :: D) := mem_consec_iff_split.2 ⟨_, _, rfl⟩
        refine sameCycle_insert hst ?_
        rw [und_eq_iff]
        by_contra hcon
        rw [not_or] at hcon
        have := hnt v a b c d (hw _ m1) q4.left q4.right (hws _ m2) s4.left s4.right (by tauto) (by tauto) q5.positive s5.positive
        rw [← q2, ← s2, hval, hO.irrefl] at this
        simp at this

theorem GainStep.two_le {g : Graph} {v : Nat} {t t' : List Nat} (h : GainStep g v t t') : 2 ≤ t'.length := by
  obtain ⟨a, b, ⟨A, B, rfl, rfl⟩, -⟩ := h
  simp; omega

theorem extensionUnitaryGainLoop_same (O : FloatOps F) (hO : O.Strict) {g : Graph} {cost prize : Nat → Int}
    (hnt : NoTies O g cost prize) (fuel : Nat) (avg : Option F) (inTour : Nat → Bool) (gm gm' : GainMap F) {s t : List Nat}
    (hst : SameCycle s t) (hsl : 2 ≤ s.length) (htl : 2 ≤ t.length) (hlt : ∀ x ∈ t, x < g.n) (hw : IsWalk g t)
    (hin : ∀ v, inTour v = true ↔ v ∈ t) (hf : outsideCount g t + 1 ≤ fuel) :
    ∃ t' s', extensionUnitaryGainLoop O g cost prize fuel avg inTour gm t = .ok t' ∧
      extensionUnitaryGainLoop O g cost prize fuel avg inTour gm' s = .ok s' ∧ SameCycle s' t' ∧ 2 ≤ s'.length ∧ 2 ≤ t'.length := by
  induction fuel generalizing avg inTour gm gm' s t with
  | zero => omega
  | succ fuel ih =>
    rw [extensionUnitaryGainLoop, extensionUnitaryGainLoop]
    obtain ⟨g1, g2, best, h1, h2, hav, h3⟩ := findBiggest_same O hO hnt hst hsl htl hlt hw inTour hin gm gm'
    rw [h1, h2]
    simp only [Res.ok_bind]
    rcases h3 with rfl | ⟨v, e, e', t1, s1, rfl, q1, q2, q3, q4, q5, q6, q7, q8⟩
    · exact ⟨t, s, rfl, rfl, hst, hsl, htl⟩
    · simp only [q1, q2, q3, hav, q4, q5, Res.ok_bind]
      have fin : ∀ thr : F, ∃ t' s', (if O.lt thr e'.value = true then
          extensionUnitaryGainLoop O g cost prize fuel (some thr) (upd inTour v true) g1 t1 else pure t) = Res.ok t' ∧
          (if O.lt thr e'.value = true then
            extensionUnitaryGainLoop O g cost prize fuel (some thr) (upd inTour v true) g2 s1 else pure s) =
            Res.ok s' ∧ SameCycle s' t' ∧ 2 ≤ s'.length ∧ 2 ≤ t'.length := by
        intro thr
        cases O.lt thr e'.value with
        | true => exact ih _ _ _ _ q8 q7.two_le q6.two_le (q6.lt hlt) (q6.isWalk hw) (q6.inTour_upd hin) (by have := q6.outside; omega)
        | false => exact ⟨t, s, rfl, rfl, hst, hsl, htl⟩
      exact fin _

theorem extensionUntilLoop_same (O : FloatOps F) (hO : O.Strict) {g : Graph} {cost prize : Nat → Int}
    (hnt : NoTies O g cost prize) (quota : Int) (fuel attempts : Nat) (ins : Bool) (cur : Int) (inTour : Nat → Bool)
    (gm gm' : GainMap F) {s t : List Nat}
    (hst : SameCycle s t) (hsl : 2 ≤ s.length) (htl : 2 ≤ t.length) (hlt : ∀ x ∈ t, x < g.n) (hw : IsWalk g t)
    (hin : ∀ v, inTour v = true ↔ v ∈ t) (hf : outsideCount g t + 1 ≤ fuel) :
    ∃ t' s', extensionUntilLoop O g cost prize quota fuel attempts ins cur inTour gm t = .ok t' ∧
      extensionUntilLoop O g cost prize quota fuel attempts ins cur inTour gm' s = .ok s' ∧ SameCycle s' t' ∧ 2 ≤ s'.length ∧ 2 ≤ t'.length := by
  induction fuel generalizing attempts ins cur inTour gm gm' s t with
  | zero => omega
  | succ fuel ih =>
    rw [extensionUntilLoop, extensionUntilLoop]
    split
    · obtain ⟨g1, g2, best, h1, h2, -, h3⟩ := findBiggest_same O hO hnt hst hsl htl hlt hw inTour hin gm gm'
      rw [h1, h2]
      simp only [Res.ok_bind]
      rcases h3 with rfl | ⟨v, e, e', t1, s1, rfl, q1, q2, q3, q4, q5, q6, q7, q8⟩
      · exact ⟨t, s, rfl, rfl, hst, hsl, htl⟩
      · simp only [q4, q5, Res.ok_bind]
        exact ih _ _ _ _ _ _ q8 q7.two_le q6.two_le (q6.lt hlt) (q6.isWalk hw) (q6.inTour_upd hin) (by have := q6.outside; omega)
    · exact ⟨t, s, rfl, rfl, hst, hsl, htl⟩

theorem SameCycle.walkCost_eq {s t : List Nat} (h : SameCycle s t) (g : Graph) (cost : Nat → Int) : walkCost g cost s = walkCost g cost t := by
  have e : ∀ l : List Nat, (consec l).map (fun p => pairCost g cost p.1 p.2) = ((consec l).map und).map (fun p => pairCost g cost p.1 p.2) := by
    intro l
    rw [List.map_map]
    apply List.map_congr_left
    rintro ⟨a, b⟩ -
    simp only [Function.comp, und]
    rcases Nat.le_total a b with h | h
    · rw [Nat.min_eq_left h, Nat.max_eq_right h]
    · rw [Nat.min_eq_right h, Nat.max_eq_left h, pairCost_comm]
  rw [walkCost, walkCost, e, e]
  exact (h.map _).sum_eq

theorem IsTour.two_le {g : Graph} {r : Nat} {t : List Nat} (h : IsTour g r t) : 2 ≤ t.length := by
  obtain ⟨m, rfl⟩ := h.shape
  simp

theorem SameCycle.tourPrize_eq {g : Graph} {r r' : Nat} {s t : List Nat} (h : SameCycle s t) (hs : IsTour g r' s) (ht : IsTour g r t)
    (prize : Nat → Int) : tourPrize prize s = tourPrize prize t := by
  have key : ∀ {q : Nat} {l : List Nat}, IsTour g q l → ∀ x, x ∈ l.dropLast ↔ x ∈ l := by
    intro q l hl x
    obtain ⟨m, rfl⟩ := hl.shape
    rw [dropLast_tour]
    simp; tauto
  have hp : s.dropLast.Perm t.dropLast := (List.perm_ext_iff_of_nodup hs.nodup ht.nodup).2 fun x => by
    rw [key hs, key ht, h.mem_iff hs.two_le ht.two_le]
  exact (hp.map _).sum_eq

/-- The tour in the other direction. -/
theorem sameCycle_reverse (t : List Nat) : SameCycle t.reverse t := by
  rw [SameCycle, consec_reverse, List.map_reverse, List.map_map]
  refine (List.reverse_perm _).trans (List.Perm.of_eq ?_)
  apply List.map_congr_left
  rintro ⟨a, b⟩ -
  exact und_eq_iff.2 (Or.inr ⟨rfl, rfl⟩)

/-- The tour from another of its vertices. -/
theorem sameCycle_rotate (r x : Nat) (A B : List Nat) : SameCycle (x :: (B ++ r :: (A ++ [x]))) (r :: (A ++ x :: (B ++ [r]))) := by
  have e1 : consec (r :: (A ++ x :: (B ++ [r]))) = consec (r :: (A ++ [x])) ++ consec (x :: (B ++ [r])) := by
    have := consec_append (r :: A) x (B ++ [r])
    simpa using this
  have e2 : consec (x :: (B ++ r :: (A ++ [x]))) = consec (x :: (B ++ [r])) ++ consec (r :: (A ++ [x])) := by
    have := consec_append (x :: B) r (A ++ [x])
    simpa using this
  rw [SameCycle, e1, e2, List.map_append, List.map_append]
  exact List.perm_append_comm

end Pctsp
