import Verif.Spec.Direction
import Verif.Lemmas.Gain
import Verif.Lemmas.Solve

/-! Helper lemmas: the direction of the tour and extension by unitary gain. -/

namespace Pctsp

variable {F : Type}

theorem IsTour.reversed {g : Graph} {r : Nat} {t : List Nat} (h : IsTour g r t) : IsTour g r t.reverse := by
  obtain ⟨m, rfl⟩ := h.shape
  refine ⟨⟨m.reverse, by simp⟩, ?_, isWalk_reverse.2 h.walk⟩
  have := h.nodup
  rw [dropLast_tour] at this
  have e : (r :: (m ++ [r])).reverse = r :: (m.reverse ++ [r]) := by simp
  rw [e, dropLast_tour, List.nodup_cons]
  rw [List.nodup_cons] at this
  simpa using this

theorem gainBetween_comm (O : FloatOps F) (g : Graph) (cost prize : Nat → Int) (v a b : Nat) :
    gainBetween O g cost prize v a b = gainBetween O g cost prize v b a := by
  rw [gainBetween, gainBetween, pairCost_comm g cost a v, pairCost_comm g cost v b, pairCost_comm g cost a b]
  congr 2
  omega

theorem mem_consec_rev {t : List Nat} {a b : Nat} : (a, b) ∈ consec t.reverse ↔ (b, a) ∈ consec t := by
  rw [consec_reverse, List.mem_reverse, List.mem_map]
  constructor
  · rintro ⟨⟨x, y⟩, h, e⟩
    simp [Prod.swap] at e
    obtain ⟨rfl, rfl⟩ := e
    exact h
  · intro h; exact ⟨(b, a), h, rfl⟩

/-- An edge of a tour is at one place only. -/
theorem split_unique {l A B A' B' : List Nat} {a b c d : Nat} (hn : ((consec l).map und).Nodup) (h1 : l = A ++ a :: b :: B)
    (h2 : l = A' ++ c :: d :: B') (h : und (a, b) = und (c, d)) : A = A' ∧ a = c ∧ b = d ∧ B = B' := by
  induction l generalizing A A' with
  | nil => simp at h1
  | cons x l ih =>
    have tail : ∀ {e f : Nat} {C D : List Nat}, l = C ++ e :: f :: D → und (e, f) ∈ (consec l).map und := fun hl =>
      List.mem_map.2 ⟨_, mem_consec_iff_split.2 ⟨_, _, hl⟩, rfl⟩
    have hcons : ∀ {y : Nat} {D : List Nat}, l = y :: D → und (x, y) ∉ (consec l).map und ∧ ((consec l).map und).Nodup := by
      rintro y D rfl
      rw [consec_cons_cons, List.map_cons, List.nodup_cons] at hn
      exact hn
    cases A with
    | nil =>
      cases A' with
      | nil => simp at h1 h2; obtain ⟨rfl, rfl⟩ := h1; simp at h2; tauto
      | cons y A' =>
        simp at h1 h2
        obtain ⟨rfl, h1⟩ := h1
        exact absurd (h ▸ tail h2.2) (hcons h1).1
    | cons z A =>
      cases A' with
      | nil =>
        simp at h1 h2
        obtain ⟨rfl, h2⟩ := h2
        exact absurd (h ▸ tail h1.2) (hcons h2).1
      | cons y A' =>
        simp at h1 h2
        obtain ⟨rfl, h1⟩ := h1
        obtain ⟨rfl, h2⟩ := h2
        have hn' : ((consec l).map und).Nodup := by
          cases l with
          | nil => simp at h1
          | cons w l => exact (hcons rfl).2
        obtain ⟨rfl, h3⟩ := ih hn' h1 h2
        exact ⟨rfl, h3⟩

/-- The greatest gain of a vertex does not depend on the direction. -/
theorem maxGain_reverse (O : FloatOps F) (hO : O.Strict) {g : Graph} {cost prize : Nat → Int} (hnt : NoTies O g cost prize)
    {v : Nat} (hv : v < g.n) {t : List Nat} (hne : t ≠ []) (hlt : ∀ x ∈ t, x < g.n) (hw : IsWalk g t) :
    maxGain O g cost prize t.reverse v = maxGain O g cost prize t v := by
  obtain ⟨e, -, h2, h3, h4⟩ := gainOfVertex_spec O hO (cost := cost) (prize := prize) hv hne hlt hw
  obtain ⟨e', -, k2, k3, k4⟩ := gainOfVertex_spec O hO (cost := cost) (prize := prize) hv (t := t.reverse) (by simpa using hne)
    (by simpa using hlt) (isWalk_reverse.2 hw)
  rw [← h2, ← k2]
  rcases h4 with ⟨z, -⟩ | ⟨hp, A, a, b, B, hs, -, a1, a2, a3⟩
  · rcases k4 with ⟨z', -⟩ | ⟨kp, C, c, d, D, ks, -, b1, b2, b3⟩
    · rw [z, z']
    · have := h3 d c (mem_consec_rev.1 (mem_consec_iff_split.2 ⟨_, _, ks⟩)) b2.symm b1.symm
      rw [z, gainBetween_comm, ← b3, kp] at this
      exact absurd this (by simp)
  · have m1 : (a, b) ∈ consec t := mem_consec_iff_split.2 ⟨_, _, hs⟩
    rcases k4 with ⟨z', -⟩ | ⟨kp, C, c, d, D, ks, -, b1, b2, b3⟩
    · have := k3 b a (mem_consec_rev.2 m1) a2.symm a1.symm
      rw [z', gainBetween_comm, ← a3, hp] at this
      exact absurd this (by simp)
    · have m2 : (d, c) ∈ consec t := mem_consec_rev.1 (mem_consec_iff_split.2 ⟨_, _, ks⟩)
      by_cases c1 : a = c ∧ b = d
      · obtain ⟨rfl, rfl⟩ := c1; rw [a3, b3]
      by_cases c2 : a = d ∧ b = c
      · obtain ⟨rfl, rfl⟩ := c2; rw [a3, b3, gainBetween_comm]
      · exfalso
        have g1 := h3 d c m2 b2.symm b1.symm
        have g2 := k3 b a (mem_consec_rev.2 m1) a2.symm a1.symm
        rw [gainBetween_comm] at g1 g2
        rw [← b3] at g1
        rw [← a3] at g2
        have := hnt v a b c d (hw _ m1) a1 a2 (hw _ m2).symm b1 b2 c1 c2 (a3 ▸ hp) (b3 ▸ kp)
        rw [← a3, ← b3, g1, g2] at this
        simp at this

/-- The vertex chosen depends on the gains alone. -/
theorem biggestGainLoop_values (O : FloatOps F) {g : Graph} {cost prize : Nat → Int} (t s : List Nat) (inTour : Nat → Bool)
    (vs : List Nat) (h : ∀ v ∈ vs, ∃ e e', unitaryGainOfVertex O g t cost prize v = .ok e ∧
      unitaryGainOfVertex O g s cost prize v = .ok e' ∧ e.value = e'.value) (gm gm' : GainMap F) (best : Option Nat) (bg : F) :
    ∃ g1 g2 b x, biggestGainLoop O g t cost prize inTour vs (gm, best, bg) = .ok (g1, b, x) ∧
      biggestGainLoop O g s cost prize inTour vs (gm', best, bg) = .ok (g2, b, x) := by
  induction vs generalizing gm gm' best bg with
  | nil => exact ⟨gm, gm', best, bg, rfl, rfl⟩
  | cons v vs ih =>
    have ih := ih (fun w hw => h w (List.mem_cons_of_mem _ hw))
    rw [biggestGainLoop, biggestGainLoop]
    cases inTour v with
    | true => exact ih _ _ _ _
    | false =>
      obtain ⟨e, e', h1, h2, h3⟩ := h v (by simp)
      simp only [h1, h2, Res.ok_bind, h3]
      cases O.lt bg e'.value with
      | true => exact ih _ _ _ _
      | false => exact ih _ _ _ _

/-- One round for the tour and for the tour in the other direction. -/
theorem findBiggest_reverse (O : FloatOps F) (hO : O.Strict) {g : Graph} {cost prize : Nat → Int} (hnt : NoTies O g cost prize)
    {r : Nat} {t : List Nat} (ht : IsTour g r t) (hlen : 4 ≤ t.length) (hlt : ∀ x ∈ t, x < g.n) (inTour : Nat → Bool)
    (hin : ∀ v, inTour v = true ↔ v ∈ t) (gm gm' : GainMap F) :
    ∃ g1 g2 best, findVertexWithBiggestGain O g t cost prize inTour gm = .ok (g1, best) ∧
      findVertexWithBiggestGain O g t.reverse cost prize inTour gm' = .ok (g2, best) ∧
      calculateAverageGain O g.n inTour g1 = calculateAverageGain O g.n inTour g2 ∧
      (best = none ∨ ∃ v e e' t1, best = some v ∧ g1 v = some e ∧ g2 v = some e' ∧ e.value = e'.value ∧
        insertBiggestGainVertex t v g1 = .ok t1 ∧ insertBiggestGainVertex t.reverse v g2 = .ok t1.reverse ∧ GainStep g v t t1) := by
  have hne := ht.ne_nil
  have hin' : ∀ v, inTour v = true ↔ v ∈ t.reverse := by simpa using hin
  obtain ⟨g1, best, h1, h2, h3⟩ := findBiggest_spec O hO (cost := cost) (prize := prize) hne hlt ht.walk inTour hin gm
  obtain ⟨g2, best', k1, k2, k3⟩ := findBiggest_spec O hO (cost := cost) (prize := prize) ht.reversed.ne_nil (by simpa using hlt)
    ht.reversed.walk inTour hin' gm'
  have hmax : ∀ v < g.n, maxGain O g cost prize t.reverse v = maxGain O g cost prize t v := fun v hv =>
    maxGain_reverse O hO hnt hv hne hlt ht.walk
  have hb : best' = best := by
    obtain ⟨a1, a2, b, x, e1, e2⟩ := biggestGainLoop_values O (cost := cost) (prize := prize) t t.reverse inTour (List.range g.n) (by
      intro v hv
      have hv : v < g.n := by simpa using hv
      obtain ⟨e, p1, p2, -⟩ := gainOfVertex_spec O hO (cost := cost) (prize := prize) hv hne hlt ht.walk
      obtain ⟨e', q1, q2, -⟩ := gainOfVertex_spec O hO (cost := cost) (prize := prize) hv ht.reversed.ne_nil (by simpa using hlt)
        ht.reversed.walk
      exact ⟨e, e', p1, q1, by rw [p2, q2, hmax v hv]⟩) gm gm' none O.zero
    rw [findVertexWithBiggestGain, e1] at h1
    rw [findVertexWithBiggestGain, e2] at k1
    simp only [Res.ok_bind] at h1 k1
    cases h1; cases k1; rfl
  subst hb
  refine ⟨g1, g2, best', h1, k1, ?_, ?_⟩
  · rw [calculateAverageGain_eq O hin h2, calculateAverageGain_eq O hin' k2]
    simp only [averageGain, List.mem_reverse]
    congr 2
    apply List.map_congr_left
    intro v hv
    exact (hmax v (by simpa using (List.mem_filter.1 hv).1)).symm
  · rcases h3 with ⟨rfl, -⟩ | ⟨v, e, a, b, t1, rfl, q1, q2, q3, q4, q5⟩
    · exact Or.inl rfl
    · rcases k3 with ⟨h, -⟩ | ⟨v', e', c, d, t2, h, s1, s2, s3, s4, s5⟩
      · simp at h
      · cases h
        right
        have hval : e.value = e'.value := by
          obtain ⟨x, y1, y2⟩ := h2 v q4.vertex q4.new
          obtain ⟨x', z1, z2⟩ := k2 v q4.vertex (by simpa using q4.new)
          rw [q1] at y1; cases y1
          rw [s1] at z1; cases z1
          rw [y2, z2, hmax v q4.vertex]
        refine ⟨v, e, e', t1, rfl, q1, s1, hval, q3, ?_, a, b, q4⟩
        rw [s3]
        obtain ⟨A, B, r1, r2⟩ := q4.split
        obtain ⟨C, D, u1, u2⟩ := s4.split
        have u1' : t = D.reverse ++ d :: c :: C.reverse := by
          have := congrArg List.reverse u1
          simpa using this
        have m1 : (a, b) ∈ consec t := mem_consec_iff_split.2 ⟨_, _, r1⟩
        have m2 : (d, c) ∈ consec t := mem_consec_iff_split.2 ⟨_, _, u1'⟩
        have hund : und (a, b) = und (d, c) := by
          rw [und_eq_iff]
          by_contra hcon
          rw [not_or] at hcon
          have := hnt v a b c d (ht.walk _ m1) q4.left q4.right (ht.walk _ m2).symm s4.left s4.right hcon.2 hcon.1 q5.positive s5.positive
          rw [← q2, ← s2, hval, hO.irrefl] at this
          simp at this
        obtain ⟨rfl, rfl, rfl, hB⟩ := split_unique (und_tour_nodup ht hlen) r1 u1' hund
        rw [u2, r2, hB]
        simp

theorem extensionUnitaryGainLoop_reverse (O : FloatOps F) (hO : O.Strict) {g : Graph} {cost prize : Nat → Int}
    (hnt : NoTies O g cost prize) (fuel : Nat) (avg : Option F) (inTour : Nat → Bool) (gm gm' : GainMap F) {r : Nat} {t : List Nat}
    (ht : IsTour g r t) (hlen : 4 ≤ t.length) (hlt : ∀ x ∈ t, x < g.n) (hin : ∀ v, inTour v = true ↔ v ∈ t)
    (hf : outsideCount g t + 1 ≤ fuel) :
    ∃ t', extensionUnitaryGainLoop O g cost prize fuel avg inTour gm t = .ok t' ∧
      extensionUnitaryGainLoop O g cost prize fuel avg inTour gm' t.reverse = .ok t'.reverse := by
  induction fuel generalizing avg inTour gm gm' t with
  | zero => omega
  | succ fuel ih =>
    rw [extensionUnitaryGainLoop, extensionUnitaryGainLoop]
    obtain ⟨g1, g2, best, h1, h2, hav, h3⟩ := findBiggest_reverse O hO hnt ht hlen hlt inTour hin gm gm'
    rw [h1, h2]
    simp only [Res.ok_bind]
    rcases h3 with rfl | ⟨v, e, e', t1, rfl, q1, q2, q3, q4, q5, q6⟩
    · exact ⟨t, rfl, rfl⟩
    · simp only [q1, q2, q3, hav, q4, q5, Res.ok_bind]
      have fin : ∀ thr : F, ∃ t', (if O.lt thr e'.value = true then
          extensionUnitaryGainLoop O g cost prize fuel (some thr) (upd inTour v true) g1 t1 else pure t) = Res.ok t' ∧
          (if O.lt thr e'.value = true then
            extensionUnitaryGainLoop O g cost prize fuel (some thr) (upd inTour v true) g2 t1.reverse else pure t.reverse) =
            Res.ok t'.reverse := by
        intro thr
        cases O.lt thr e'.value with
        | true =>
          refine ih _ _ _ _ (q6.isTour ht) ?_ (q6.lt hlt) (q6.inTour_upd hin) (by have := q6.outside; omega)
          obtain ⟨a, b, ⟨A, B, rfl, rfl⟩, -⟩ := q6
          simp at hlen ⊢; omega
        | false => exact ⟨t, rfl, rfl⟩
      exact fin _

theorem extensionUntilLoop_reverse (O : FloatOps F) (hO : O.Strict) {g : Graph} {cost prize : Nat → Int}
    (hnt : NoTies O g cost prize) (quota : Int) (fuel attempts : Nat) (ins : Bool) (cur : Int) (inTour : Nat → Bool)
    (gm gm' : GainMap F) {r : Nat} {t : List Nat}
    (ht : IsTour g r t) (hlen : 4 ≤ t.length) (hlt : ∀ x ∈ t, x < g.n) (hin : ∀ v, inTour v = true ↔ v ∈ t)
    (hf : outsideCount g t + 1 ≤ fuel) :
    ∃ t', extensionUntilLoop O g cost prize quota fuel attempts ins cur inTour gm t = .ok t' ∧
      extensionUntilLoop O g cost prize quota fuel attempts ins cur inTour gm' t.reverse = .ok t'.reverse := by
  induction fuel generalizing attempts ins cur inTour gm gm' t with
  | zero => omega
  | succ fuel ih =>
    rw [extensionUntilLoop, extensionUntilLoop]
    split
    · obtain ⟨g1, g2, best, h1, h2, -, h3⟩ := findBiggest_reverse O hO hnt ht hlen hlt inTour hin gm gm'
      rw [h1, h2]
      simp only [Res.ok_bind]
      rcases h3 with rfl | ⟨v, e, e', t1, rfl, q1, q2, q3, q4, q5, q6⟩
      · exact ⟨t, rfl, rfl⟩
      · simp only [q4, q5, Res.ok_bind]
        refine ih _ _ _ _ _ _ (q6.isTour ht) ?_ (q6.lt hlt) (q6.inTour_upd hin) (by have := q6.outside; omega)
        obtain ⟨a, b, ⟨A, B, rfl, rfl⟩, -⟩ := q6
        simp at hlen ⊢; omega
    · exact ⟨t, rfl, rfl⟩

theorem outsideCount_le (g : Graph) (t : List Nat) : outsideCount g t ≤ g.n := by
  rw [outsideCount]
  exact (List.countP_le_length).trans (by simp)

end Pctsp
