import Verif.Lemmas.Replace

/-! Helper lemmas: `findExtensionPaths` and the extension loops. -/

namespace Pctsp

theorem exists_split_two {t : List Nat} {i step : Nat} (hs : 1 ≤ step) (h : i + step < t.length) :
    ∃ A u Y w B, t = A ++ u :: (Y ++ w :: B) ∧ A.length = i ∧ Y.length + 1 = step := by
  refine ⟨t.take i, t[i], (t.drop (i + 1)).take (step - 1), t[i + step], t.drop (i + step + 1), ?_, ?_, ?_⟩
  · have h1 : t[i + step] :: t.drop (i + step + 1) = (t.drop (i + 1)).drop (step - 1) := by
      rw [List.drop_drop, show i + 1 + (step - 1) = i + step by omega, List.drop_eq_getElem_cons h]
    rw [h1, List.take_append_drop, List.getElem_cons_drop, List.take_append_drop]
  · simp; omega
  · simp; omega

section
variable {A : List Nat} {u : Nat} {Y : List Nat} {w : Nat} {B : List Nat}

theorem split_get_first : (A ++ u :: (Y ++ w :: B))[A.length]? = some u := by simp
theorem split_get_second : (A ++ u :: (Y ++ w :: B))[A.length + (Y.length + 1)]? = some w := by
  rw [List.getElem?_append_right (by omega)]; simp
theorem split_segment (n : Nat) (hn : n = Y.length + 2) :
    ((A ++ u :: (Y ++ w :: B)).drop A.length).take n = u :: (Y ++ [w]) := by
  rw [List.drop_left, show u :: (Y ++ w :: B) = (u :: (Y ++ [w])) ++ B by simp]
  exact List.take_left' (by simp; omega)
theorem split_drop_after (n : Nat) (hn : n = A.length + (Y.length + 2)) : (A ++ u :: (Y ++ w :: B)).drop n = B := by
  subst hn
  rw [← List.drop_drop]; simp
end

/-- What a feasible entry for position `i` looks like.  First case: the segment does not pass through the root; its interior
`Y` is replaced by `X`.  Second case: the root is inside the segment, and the external path is the detour through the root. -/
def GoodEntry (g : Graph) (r : Nat) (t : List Nat) (prize : Nat → Int) (step : Nat) (depth : Int) (i : Nat)
    (p : List Nat) : Prop :=
  (i + step < t.length ∧ ∃ A u Y w B X, t = A ++ u :: (Y ++ w :: B) ∧ A.length = i ∧ Y.length + 1 = step ∧
    p = u :: (X ++ [w]) ∧ X ≠ [] ∧ IsWalk g p ∧ X.Nodup ∧ (∀ y ∈ X, y ∉ t) ∧ (X.length : Int) ≤ depth - 1 ∧
    prizeSum prize Y < prizeSum prize X) ∨
  (∃ P v Q u R, t = r :: (P ++ v :: (Q ++ u :: (R ++ [r]))) ∧ P.length + Q.length + 2 = i ∧ R.length + P.length + 2 = step ∧
    p = [u, r, v] ∧ IsWalk g p ∧ prizeSum prize R + prizeSum prize P < 0)

theorem bfsCandidates_spec {g : Graph} (hg : g.WF) {prize : Nat → Int} {t internal : List Nat} {u w : Nat} {d : Int}
    (hd : 1 ≤ d) (hu : u < g.n) (hw : w < g.n) (hut : u ∈ t) :
    ∃ m p nbrs, breadthFirstSearch g u (fun h => decide (h ∈ t)) (fun _ => 0) d = .ok (m, p) ∧
      g.adjacentVertices w = .ok nbrs ∧
      (∀ c ∈ bfsCandidates g prize t internal w m p nbrs,
        (∃ X, c = u :: (X ++ [w]) ∧ X ≠ [] ∧ IsWalk g c ∧ X.Nodup ∧ (∀ y ∈ X, y ∉ t) ∧ (X.length : Int) ≤ d)) ∧
      (∀ x, x ∉ t → Adj g u x → Adj g x w → prizeSum prize internal < prizeSum prize [u, x, w] →
        [u, x, w] ∈ bfsCandidates g prize t internal w m p nbrs) := by
  obtain ⟨m, p, lev, h1, h2, h3⟩ := bfs_spec hg hu (fun h => decide (h ∈ t)) (fun _ => 0) d
  refine ⟨m, p, g.adjacent w, h1, by simp [Graph.adjacentVertices, hw], ?_, ?_⟩
  rotate_left
  · intro x hx hux hxw hpr
    have hcomp := bfs_complete h2 h3 [x] x (by simpa [IsWalk, consec] using hux) rfl (by simpa using hx)
      (by simp; omega)
    obtain ⟨X, a1, a2, -, -, a5, -, -, -⟩ := h2.path hu x hcomp.1 (Or.inl (by simpa using hx))
    have hX : X = [x] := by
      have hl : X.length ≤ 1 := by have := hcomp.2; simp at this; omega
      match X, hl with
      | [], _ => simp at a2; subst a2; exact absurd hut hx
      | [y], _ => simp at a2; rw [a2]
    rw [bfsCandidates, List.mem_filterMap]
    refine ⟨x, mem_adjacent.2 hxw.symm, ?_⟩
    rw [if_pos ⟨hx, hcomp.1⟩, a1, hX]
    simp only [totalPrize_eq]
    rw [if_pos (by simpa using hpr)]
    rfl
  intro c hc
  simp only [bfsCandidates, List.mem_filterMap] at hc
  obtain ⟨v, hv, hcv⟩ := hc
  split at hcv
  · rename_i hvt
    split at hcv
    · obtain ⟨X, a1, a2, a3, a4, -, a6, a7, -⟩ := h2.path hu v hvt.2 (Or.inl (by simpa using hvt.1))
      rw [a1] at hcv
      simp only [Option.some.injEq] at hcv
      have hXv : X ≠ [] := by
        rintro rfl
        simp at a2; subst a2; exact hvt.1 hut
      refine ⟨X, by rw [← hcv]; simp, hXv, ?_, (List.nodup_cons.1 a4).2, ?_, by omega⟩
      · rw [← hcv]
        obtain ⟨l', hl'⟩ := List.getLast?_eq_some_iff.1 a2
        rw [hl', List.append_assoc, List.singleton_append, isWalk_append, ← hl']
        refine ⟨a3, ?_⟩
        have : Adj g v w := (mem_adjacent.1 hv).symm
        simpa [IsWalk, consec] using this
      · intro y hy; simpa using (a7 y hy).1
    · simp at hcv
  · simp at hcv

variable {F : Type}

theorem isInternal_of_two (u : Nat) (Y : List Nat) (w r : Nat) :
    isInternalVertexOfWalk (u :: (Y ++ [w])) r = .ok (decide (r ∈ Y)) := by
  have : ¬ ((u :: (Y ++ [w])).length < 2) := by simp
  rw [isInternalVertexOfWalk, if_neg this]
  simp

/-- The candidates of a segment whose interior does not contain the root. -/
theorem externalCandidates_inner {g : Graph} (hg : g.WF) (prize : Nat → Int) {t : List Nat} {r u w : Nat} {Y : List Nat}
    (depth : Int) (hu : u < g.n) (hw : w < g.n) (hut : u ∈ t) (hr : r ∉ Y) :
    ∃ cands, externalCandidates g prize t r depth u w (u :: (Y ++ [w])) = .ok cands ∧
      (depth < 2 → cands = []) ∧
      (∀ c ∈ cands, ∃ X, c = u :: (X ++ [w]) ∧ X ≠ [] ∧ IsWalk g c ∧ X.Nodup ∧ (∀ y ∈ X, y ∉ t) ∧
        (X.length : Int) ≤ depth - 1) ∧
      (2 ≤ depth → ∀ x, x ∉ t → Adj g u x → Adj g x w →
        prizeSum prize (u :: (Y ++ [w])) < prizeSum prize [u, x, w] → [u, x, w] ∈ cands) := by
  rw [externalCandidates, isInternal_of_two]
  simp only [Res.ok_bind, hr, decide_false, Bool.false_eq_true, and_false, if_false, and_true]
  by_cases h2 : depth = 2
  · simp only [h2, if_true]
    obtain ⟨nbrs, h3, -, -, h4⟩ := neighborIntersection_spec hu hw
    rw [h3]
    refine ⟨_, rfl, by simp, ?_, ?_⟩
    rotate_left
    · intro _ x hx hux hxw _
      refine List.mem_map.2 ⟨x, List.mem_filter.2 ⟨(h4 x).2 ⟨hux, hxw.symm⟩, by simpa using hx⟩, rfl⟩
    intro c hc
    simp only [List.mem_map, List.mem_filter, decide_not, Bool.not_eq_eq_eq_not, Bool.not_true, decide_eq_false_iff_not] at hc
    obtain ⟨x, ⟨hx1, hx2⟩, rfl⟩ := hc
    have := (h4 x).1 hx1
    refine ⟨[x], rfl, by simp, ?_, by simp, by simpa using hx2, by simp⟩
    have h5 := this.2.symm
    simp only [IsWalk, consec]; intro q hq
    simp at hq
    rcases hq with rfl | rfl
    · exact this.1
    · exact h5
  · simp only [h2, if_false]
    by_cases h3 : depth > 2
    · simp only [h3, if_true]
      obtain ⟨m, p, nbrs, b1, b2, b3, b4⟩ := bfsCandidates_spec (prize := prize) (internal := u :: (Y ++ [w]))
        (d := depth - 1) hg (by omega) hu hw hut
      rw [b1]; simp only [Res.ok_bind, b2]
      exact ⟨_, rfl, fun h => by omega, b3, fun _ => b4⟩
    · simp only [h3, if_false]
      exact ⟨[], rfl, fun _ => rfl, by simp, fun h => by omega⟩

/-- The candidates of a segment whose interior contains the root. -/
theorem externalCandidates_root {g : Graph} (prize : Nat → Int) {t : List Nat} {r u w : Nat} {Y : List Nat}
    (depth : Int) (hu : u < g.n) (hrn : r < g.n) (hr : r ∈ Y) :
    ∃ cands, externalCandidates g prize t r depth u w (u :: (Y ++ [w])) = .ok cands ∧
      (depth < 2 → cands = []) ∧
      (∀ c ∈ cands, c = [u, r, w] ∧ IsWalk g c) ∧
      (depth = 2 → Adj g u r → Adj g r w → [u, r, w] ∈ cands) := by
  rw [externalCandidates, isInternal_of_two]
  simp only [Res.ok_bind, hr, decide_true, and_true]
  by_cases h2 : depth = 2
  · simp only [h2, if_true, Graph.edge, hu, hrn, Res.ok_bind]
    cases h3 : g.edgeIdx u r with
    | none =>
      refine ⟨[], rfl, fun _ => rfl, by simp, fun _ h => ?_⟩
      have := edgeIdx_isSome_iff.2 h
      simp [h3] at this
    | some e =>
      cases h4 : g.edgeIdx r w with
      | none =>
        refine ⟨[], rfl, fun _ => rfl, by simp, fun _ _ h => ?_⟩
        have := edgeIdx_isSome_iff.2 h
        simp [h4] at this
      | some e' =>
        refine ⟨_, rfl, by simp, ?_, fun _ _ _ => by simp⟩
        intro c hc; simp at hc; subst hc
        refine ⟨rfl, ?_⟩
        have a1 : Adj g u r := edgeIdx_isSome_iff.1 (by simp [h3])
        have a2 : Adj g r w := edgeIdx_isSome_iff.1 (by simp [h4])
        intro q hq
        simp [consec] at hq
        rcases hq with rfl | rfl
        · exact a1
        · exact a2
  · simp only [h2, if_false]
    exact ⟨[], by simp, fun _ => rfl, by simp, fun h => absurd h (by simp)⟩

/-- The entry chosen from the candidates. -/
theorem entry_of_candidates (O : FloatOps F) {g : Graph} (hg : g.WF) (cost prize : Nat → Int) {internal : List Nat}
    (hint : IsWalk g internal) (cands : List (List Nat)) (hc : ∀ p ∈ cands, IsWalk g p) :
    ∃ e : ExtEntry F, (do
      let (index, value) ← chooseExtensionPath O g cost prize cands internal
      if index ≥ 0 then
        match cands[index.toNat]? with
        | some p => pure { loss := value, feasible := true, path := p }
        | none => Res.ub "findExtensionPaths: candidate index out of range"
      else pure { loss := O.zero, feasible := false, path := [] } : Res (ExtEntry F)) = .ok e ∧
      (e.feasible = true → e.path ∈ cands ∧
        O.lt O.zero (O.ofInt (prizeSum prize e.path - prizeSum prize internal)) = true) ∧
      (e.feasible = false → ∀ p ∈ cands, O.lt O.zero (O.ofInt (prizeSum prize p - prizeSum prize internal)) = false) := by
  obtain ⟨idx, val, h1, h2⟩ := chooseExtensionPath_cases O hg cost prize hint cands hc
  rw [h1]
  simp only [Res.ok_bind]
  rcases h2 with ⟨rfl, h2⟩ | ⟨k, p, rfl, h3, h4⟩
  · exact ⟨_, by simp; rfl, by simp, fun _ => h2⟩
  · refine ⟨{ loss := val, feasible := true, path := p }, ?_, ?_, by simp⟩
    · simp [h3]
    · intro _; exact ⟨List.mem_of_getElem? h3, h4⟩

theorem extensionEntry_eq (O : FloatOps F) {g : Graph} {tour : List Nat} {cost prize : Nat → Int} {root : Nat}
    {step : Nat} {depth : Int} {i : Nat} {vi vj : Nat}
    {int : List Nat} {cs : List (List Nat)}
    (h1 : tour[i]? = some vi) (h2 : tour[(i + step) % (tour.length - 1)]? = some vj)
    (h3 : getSubpathOfCycle tour i ((i + step) % (tour.length - 1)) = .ok int)
    (h4 : externalCandidates g prize tour root depth vi vj int = .ok cs) :
    extensionEntry O g tour cost prize root step depth i = (do
      let (index, value) ← chooseExtensionPath O g cost prize cs int
      if index ≥ 0 then
        match cs[index.toNat]? with
        | some p => pure { loss := value, feasible := true, path := p }
        | none => Res.ub "findExtensionPaths: candidate index out of range"
      else pure { loss := O.zero, feasible := false, path := [] } : Res (ExtEntry F)) := by
  rw [extensionEntry]
  simp only [h1, h2, h3, Res.ok_bind, h4]
  rfl

/-- Laws needed by the loops: only a positive difference passes the test. -/
def FloatOps.SignSound (O : FloatOps F) : Prop := ∀ d : Int, O.lt O.zero (O.ofInt d) = true → 0 < d

theorem FloatOps.Lawful.signSound {O : FloatOps F} (h : O.Lawful) : O.SignSound := fun d hd => (h.sign d).1 hd

theorem extensionEntry_spec (O : FloatOps F) (hO : O.SignSound) {g : Graph} (hg : g.WF) {t : List Nat} {r : Nat}
    (ht : IsTour g r t) (cost prize : Nat → Int) (step : Nat) (depth : Int) (i : Nat) (hs : 1 ≤ step)
    (hsk : step < t.length - 1) (hi : i < t.length - 1) :
    ∃ e : ExtEntry F, extensionEntry O g t cost prize r step depth i = .ok e ∧
      (e.feasible = true → 2 ≤ depth ∧ GoodEntry g r t prize step depth i e.path) ∧
      (e.feasible = false → 2 ≤ depth → (∀ d : Int, 0 < d → O.lt O.zero (O.ofInt d) = true) →
        ∀ A u Y w B, t = A ++ u :: (Y ++ w :: B) → A.length = i → Y.length + 1 = step →
          ∀ x, x ∉ t → Adj g u x → Adj g x w → prize x ≤ prizeSum prize Y) ∧
      (e.feasible = false → depth = 2 → (∀ d : Int, 0 < d → O.lt O.zero (O.ofInt d) = true) →
        ∀ P v Q u R, t = r :: (P ++ v :: (Q ++ u :: (R ++ [r]))) → P.length + Q.length + 2 = i → R.length + P.length + 2 = step →
          Adj g u r → Adj g r v → 0 ≤ prizeSum prize R + prizeSum prize P) := by
  have hlt : ∀ v ∈ t, v < g.n := ht.walk.lt hg (by omega)
  by_cases hw : i + step ≤ t.length - 1
  · -- the segment does not pass through the root
    obtain ⟨A, u, Y, w, B, rfl, hA, hY⟩ := exists_split_two (t := t) hs (by omega : i + step < t.length)
    generalize hT : A ++ u :: (Y ++ w :: B) = T at *
    have hk : T.length = A.length + Y.length + B.length + 2 := by rw [← hT]; simp; omega
    have hTi : T[i]? = some u := by rw [← hT, ← hA]; exact split_get_first
    have hTs : T[i + step]? = some w := by rw [← hT, ← hA, ← hY]; exact split_get_second
    have hnd : (A ++ u :: (Y ++ (w :: B).dropLast)).Nodup := by rw [← dropLast_mid, hT]; exact ht.nodup
    have hrY : r ∉ Y := by
      intro hr
      have hh := (isTour_iff'.1 ht).1
      rw [← hT] at hh
      have hsub : (u :: Y).Nodup := by
        refine hnd.sublist ?_
        refine List.Sublist.trans ?_ (List.sublist_append_right _ _)
        exact List.Sublist.cons_cons _ (List.sublist_append_left _ _)
      cases A with
      | nil =>
        simp at hh; subst hh
        exact (List.nodup_cons.1 hsub).1 hr
      | cons a A =>
        simp at hh; subst hh
        rw [List.cons_append, List.nodup_cons] at hnd
        apply hnd.1; simp [hr]
    have hsub : getSubpathOfCycle T i ((i + step) % (T.length - 1)) = .ok (u :: (Y ++ [w])) ∧
        T[(i + step) % (T.length - 1)]? = some w := by
      by_cases he : i + step = T.length - 1
      · have hBn : B = [] := by
          have : B.length = 0 := by omega
          simpa using this
        have hwr : w = r := by
          have := (isTour_iff'.1 ht).2.1
          rw [← hT, hBn, show A ++ u :: (Y ++ [w]) = (A ++ u :: Y) ++ [w] by simp, List.getLast?_concat] at this
          simpa using this
        rw [he, Nat.mod_self]
        constructor
        · rw [getSubpath_outer T i 0 (by omega) (by omega)]
          rw [← hT, ← hA, hBn]; simp
        · obtain ⟨m, hm⟩ := ht.shape
          rw [hm, hwr]; rfl
      · rw [Nat.mod_eq_of_lt (by omega)]
        refine ⟨?_, hTs⟩
        rw [getSubpath_inner T i (i + step) (by omega) (by omega)]
        rw [← hT, ← hA, split_segment _ (by omega)]
    have huT : u ∈ T := List.mem_of_getElem? hTi
    have hwT : w ∈ T := List.mem_of_getElem? hTs
    obtain ⟨cands, hc1, hc2, hc3, hc4⟩ := externalCandidates_inner hg prize depth (hlt u huT) (hlt w hwT) huT hrY
    have hint : IsWalk g (u :: (Y ++ [w])) := by
      have := ht.walk; rw [← hT, isWalk_mid] at this; exact this.2.1
    obtain ⟨e, he1, he2, he3⟩ := entry_of_candidates O hg cost prize hint cands
      (fun p hp => by obtain ⟨X, -, -, h, -⟩ := hc3 p hp; exact h)
    refine ⟨e, ?_, ?_, ?_, ?_⟩
    rotate_right
    · intro _ _ _ P' v' Q' u' R' hsplit hi' hs'
      have := congrArg List.length hsplit
      simp only [List.length_append, List.length_cons, List.length_nil] at this
      omega
    rotate_right
    · intro hf hd hO2 A' u' Y' w' B' hsplit hA' hY' x hx hux hxw
      have e1 := List.append_inj (hT.trans hsplit) (by omega)
      obtain ⟨rfl, e2⟩ := e1
      simp only [List.cons.injEq] at e2
      obtain ⟨rfl, e3⟩ := e2
      have e4 := List.append_inj e3 (by omega)
      obtain ⟨rfl, e5⟩ := e4
      simp only [List.cons.injEq] at e5
      obtain ⟨rfl, rfl⟩ := e5
      by_contra hcon
      have hpr : prizeSum prize (u :: (Y ++ [w])) < prizeSum prize [u, x, w] := by
        simp only [prizeSum, List.map_cons, List.map_append, List.sum_cons, List.sum_append, List.map_nil,
          List.sum_nil] at hcon ⊢
        omega
      have := he3 hf _ (hc4 hd x hx hux hxw hpr)
      rw [hO2 _ (by omega)] at this
      simp at this
    · rw [extensionEntry_eq O hTi hsub.2 hsub.1 hc1]; exact he1
    · intro hf
      obtain ⟨hm, hlt⟩ := he2 hf
      refine ⟨?_, Or.inl ⟨by omega, ?_⟩⟩
      · by_contra hd
        rw [hc2 (by omega)] at hm; simp at hm
      obtain ⟨X, x1, x2, x3, x4, x5, x6⟩ := hc3 _ hm
      refine ⟨A, u, Y, w, B, X, hT.symm, hA, hY, x1, x2, x3, x4, x5, x6, ?_⟩
      have := hO _ hlt
      rw [x1] at this
      simp only [prizeSum, List.map_cons, List.map_append, List.sum_cons, List.sum_append] at this ⊢
      omega
  · -- the root is inside the segment
    obtain ⟨m, rfl⟩ := ht.shape
    have hlen : (r :: (m ++ [r])).length = m.length + 2 := by simp
    rw [hlen] at hsk hi hw
    have hj : (i + step) % (m.length + 1) = i + step - (m.length + 1) := by
      rw [Nat.mod_eq_sub_mod (by omega), Nat.mod_eq_of_lt (by omega)]
    generalize hj' : i + step - (m.length + 1) = j at hj
    have hj1 : 1 ≤ j := by omega
    have hji : j < i := by omega
    obtain ⟨P, v, Q, u, R, hm, hP, hQ⟩ := exists_split_two (t := m) (i := j - 1) (step := i - j) (by omega) (by omega)
    subst hm
    have hml : (P ++ v :: (Q ++ u :: R)).length = P.length + Q.length + R.length + 2 := by simp; omega
    rw [hml] at hsk hi hw hj hj' hlen
    generalize hT : r :: ((P ++ v :: (Q ++ u :: R)) ++ [r]) = T at *
    have hT' : T = r :: (P ++ v :: (Q ++ u :: (R ++ [r]))) := by rw [← hT]; simp
    have hk : T.length = P.length + Q.length + R.length + 4 := by rw [hT']; simp; omega
    have hTu : T[i]? = some u := by
      rw [hT', show r :: (P ++ v :: (Q ++ u :: (R ++ [r]))) = (r :: (P ++ v :: Q)) ++ u :: (R ++ [r]) by simp,
        List.getElem?_append_right (by simp; omega)]
      rw [show i - (r :: (P ++ v :: Q)).length = 0 by simp; omega]; rfl
    have hTv : T[j]? = some v := by
      rw [hT', show r :: (P ++ v :: (Q ++ u :: (R ++ [r]))) = (r :: P) ++ v :: (Q ++ u :: (R ++ [r])) by simp,
        List.getElem?_append_right (by simp; omega)]
      rw [show j - (r :: P).length = 0 by simp; omega]; rfl
    have hmod : (i + step) % (T.length - 1) = j := by
      rw [hk]; exact hj
    have hsubp : getSubpathOfCycle T i j = .ok (u :: ((R ++ r :: P) ++ [v])) := by
      rw [getSubpath_outer T i j hji (by omega)]
      have h1 : T.drop i = u :: (R ++ [r]) := by
        rw [hT', show r :: (P ++ v :: (Q ++ u :: (R ++ [r]))) = (r :: (P ++ v :: Q)) ++ u :: (R ++ [r]) by simp]
        exact List.drop_left' (by simp; omega)
      have h2 : (T.drop 1).take j = P ++ [v] := by
        rw [hT', show r :: (P ++ v :: (Q ++ u :: (R ++ [r]))) = r :: ((P ++ [v]) ++ (Q ++ u :: (R ++ [r]))) by simp,
          List.drop_one, List.tail_cons]
        exact List.take_left' (by simp; omega)
      rw [h1, h2]; simp
    have huT : u ∈ T := List.mem_of_getElem? hTu
    have hrT : r ∈ T := by rw [hT']; simp
    obtain ⟨cands, hc1, hc2, hc3, hc4⟩ := externalCandidates_root (t := T) (w := v) prize depth (hlt u huT) (hlt r hrT)
      (show r ∈ R ++ r :: P by simp)
    have hint : IsWalk g (u :: ((R ++ r :: P) ++ [v])) := by
      have h0 := ht.walk
      rw [hT'] at h0
      have h1 : IsWalk g (r :: (P ++ [v])) := by
        have := (isWalk_mid (A := []) (u := r) (Y := P) (w := v) (B := Q ++ u :: (R ++ [r]))).1 (by simpa using h0)
        exact this.2.1
      have h2 : IsWalk g (u :: (R ++ [r])) := by
        have e : r :: (P ++ v :: (Q ++ u :: (R ++ [r]))) = (r :: (P ++ v :: Q)) ++ u :: (R ++ [r]) := by simp
        rw [e, isWalk_append] at h0; exact h0.2
      have e : u :: ((R ++ r :: P) ++ [v]) = (u :: R) ++ r :: (P ++ [v]) := by simp
      rw [e, isWalk_append]; exact ⟨by simpa using h2, h1⟩
    obtain ⟨e, he1, he2, he3⟩ := entry_of_candidates O hg cost prize hint cands
      (fun p hp => (hc3 p hp).2)
    refine ⟨e, ?_, ?_, ?_, ?_⟩
    rotate_right
    · intro hf hd hO2 P' v' Q' u' R' hsplit hi' hs' ha hb
      have hl := congrArg List.length hsplit
      simp only [List.length_append, List.length_cons, List.length_nil] at hl
      have e0 := hT'.symm.trans hsplit
      have e1 := List.append_inj (List.cons.inj e0).2 (by omega)
      obtain ⟨rfl, e2⟩ := e1
      obtain ⟨rfl, e3⟩ := List.cons.inj e2
      obtain ⟨rfl, e4⟩ := List.append_inj e3 (by omega)
      obtain ⟨rfl, e5⟩ := List.cons.inj e4
      obtain ⟨rfl, -⟩ := List.append_inj' e5 rfl
      have hle := he3 hf _ (hc4 hd ha hb)
      by_contra hcon
      have h2 : prizeSum prize [u, r, v] - prizeSum prize (u :: ((R ++ r :: P) ++ [v])) =
          -(prizeSum prize R + prizeSum prize P) := by
        simp only [prizeSum, List.map_cons, List.map_append, List.sum_cons, List.sum_append, List.map_nil, List.sum_nil]
        omega
      rw [h2, hO2 _ (by omega)] at hle
      simp at hle
    rotate_right
    · intro _ _ _ A' u' Y' w' B' hsplit hA' hY'
      have := congrArg List.length hsplit
      simp only [List.length_append, List.length_cons] at this
      omega
    · rw [extensionEntry_eq O hTu (by rw [hmod]; exact hTv) (by rw [hmod]; exact hsubp) hc1]
      exact he1
    · intro hf
      obtain ⟨hm, hlt⟩ := he2 hf
      refine ⟨?_, Or.inr ?_⟩
      · by_contra hd
        rw [hc2 (by omega)] at hm; simp at hm
      obtain ⟨x1, x2⟩ := hc3 _ hm
      refine ⟨P, v, Q, u, R, hT', by omega, by omega, x1, x2, ?_⟩
      have := hO _ hlt
      rw [x1] at this
      simp only [prizeSum, List.map_cons, List.map_append, List.sum_cons, List.sum_append, List.map_nil, List.sum_nil] at this ⊢
      omega

theorem mapRes_spec {α β : Type} (f : α → Res β) (l : List α) (h : ∀ a ∈ l, ∃ b, f a = .ok b) :
    ∃ bs, mapRes f l = .ok bs ∧ bs.length = l.length ∧
      ∀ (k : Nat) a b, l[k]? = some a → bs[k]? = some b → f a = .ok b := by
  induction l with
  | nil => exact ⟨[], rfl, rfl, by simp⟩
  | cons a l ih =>
    obtain ⟨b, hb⟩ := h a (by simp)
    obtain ⟨bs, h1, h2, h3⟩ := ih (fun x hx => h x (List.mem_cons_of_mem _ hx))
    refine ⟨b :: bs, by simp [mapRes, hb, h1], by simp [h2], ?_⟩
    intro k a' b' ha' hb'
    cases k with
    | zero => simp at ha' hb'; subst ha'; subst hb'; exact hb
    | succ k => exact h3 k a' b' (by simpa using ha') (by simpa using hb')

theorem findExtensionPaths_spec (O : FloatOps F) (hO : O.SignSound) {g : Graph} (hg : g.WF) {t : List Nat} {r : Nat}
    (ht : IsTour g r t) (cost prize : Nat → Int) (step : Nat) (depth : Int) (hs : 1 ≤ step) (hsk : step < t.length - 1) :
    ∃ es : List (ExtEntry F), findExtensionPaths O g t cost prize r step depth = .ok es ∧ es.length = t.length - 1 ∧
      (∀ i e, es[i]? = some e →
        (e.feasible = true → 2 ≤ depth ∧ GoodEntry g r t prize step depth i e.path) ∧
        (e.feasible = false → 2 ≤ depth → (∀ d : Int, 0 < d → O.lt O.zero (O.ofInt d) = true) →
          ∀ A u Y w B, t = A ++ u :: (Y ++ w :: B) → A.length = i → Y.length + 1 = step →
            ∀ x, x ∉ t → Adj g u x → Adj g x w → prize x ≤ prizeSum prize Y) ∧
        (e.feasible = false → depth = 2 → (∀ d : Int, 0 < d → O.lt O.zero (O.ofInt d) = true) →
          ∀ P v Q u R, t = r :: (P ++ v :: (Q ++ u :: (R ++ [r]))) → P.length + Q.length + 2 = i → R.length + P.length + 2 = step →
            Adj g u r → Adj g r v → 0 ≤ prizeSum prize R + prizeSum prize P)) := by
  have key := fun i (hi : i < t.length - 1) => extensionEntry_spec O hO hg ht cost prize step depth i hs hsk hi
  obtain ⟨es, h1, h2, h3⟩ := mapRes_spec (extensionEntry O g t cost prize r step depth) (List.range (t.length - 1))
    (fun i hi => by
      obtain ⟨e, he, -⟩ := key i (by simpa using hi)
      exact ⟨e, he⟩)
  refine ⟨es, h1, by simpa using h2, ?_⟩
  intro i e he
  have hi : i < t.length - 1 := by
    have := (List.getElem?_eq_some_iff.1 he).1
    rw [h2] at this; simpa using this
  obtain ⟨e', he', h4, h5⟩ := key i hi
  have := h3 i i e (by simp [hi]) he
  rw [he'] at this
  obtain rfl : e' = e := by simpa using this
  exact ⟨h4, h5⟩

/-- The selected entry is feasible. -/
theorem selected_entry (O : FloatOps F) (es : List (ExtEntry F)) (h : numFeasibleExtensions (es.map (·.feasible)) > 0) :
    ∃ (k : Nat) (e : ExtEntry F), indexOfSmallestLoss O (es.map fun e => (e.loss, e.feasible)) = k ∧ es[k]? = some e ∧
      e.feasible = true := by
  rw [numFeasible_pos_iff] at h
  obtain ⟨e0, he0, hf0⟩ := List.mem_map.1 h
  rcases smallestLossLoop_cases O 0 (es.map fun e => (e.loss, e.feasible)) { found := false, value := O.zero, index := -1 } with
    ⟨-, h2⟩ | ⟨k, x, h1, h2⟩
  · rcases h2 with h2 | h2
    · simp at h2
    · have := h2 _ (List.mem_map.2 ⟨e0, he0, rfl⟩)
      simp [hf0] at this
  · rw [List.getElem?_map] at h1
    cases hk : es[k]? with
    | none => rw [hk] at h1; simp at h1
    | some e =>
      rw [hk] at h1
      simp only [Option.map_some, Option.some.injEq, Prod.mk.injEq] at h1
      exact ⟨k, e, by rw [indexOfSmallestLoss, h2]; simp, hk, h1.2⟩

theorem numFeasible_zero {es : List (ExtEntry F)} (h : ¬ numFeasibleExtensions (es.map (·.feasible)) > 0) :
    ∀ e ∈ es, e.feasible = false := by
  rw [numFeasible_pos_iff] at h
  intro e he
  cases hf : e.feasible with
  | false => rfl
  | true => exact absurd (List.mem_map.2 ⟨e, he, hf⟩) h

theorem eraseLoop_eq {α : Type} (pos m : Nat) (l : List α) (h : pos ≤ l.length) :
    eraseLoop pos m l = l.take pos ++ l.drop (pos + m) := by
  induction m generalizing l with
  | zero => simp [eraseLoop]
  | succ m ih =>
    rw [eraseLoop]
    by_cases hp : pos < l.length
    · rw [ih _ (by rw [List.length_eraseIdx_of_lt hp]; omega), List.eraseIdx_eq_take_drop_succ]
      rw [List.take_append_of_le_length (by simp; omega), List.take_take, Nat.min_self]
      congr 1
      rw [← List.drop_drop, List.drop_left' (by simp; omega), List.drop_drop]
      congr 1; omega
    · have : pos = l.length := by omega
      subst this
      rw [List.eraseIdx_of_length_le (Nat.le_refl _), ih _ (Nat.le_refl _)]
      simp

/-- The erase loops remove slices. -/
theorem swapPathsInTour_eq {α : Type} [DecidableEq α] (tour newPath : List α) (first last : Nat) :
    swapPathsInTour tour newPath first last =
      if first < last then
        if last < tour.length then .ok (tour.take first ++ newPath ++ tour.drop (last + 1))
        else .ub "swapPathsInTour: last_index out of range"
      else
        match tour with
        | [] => .ub "swapPathsInTour: empty tour"
        | root :: _ =>
          if first ≤ tour.length then
            if last < first then
              if root ∈ newPath then
                .ok (newPath.dropWhile (· ≠ root) ++ (tour.take first).drop (last + 1)
                  ++ (newPath.takeWhile (· ≠ root) ++ [root]))
              else .ub "swapPathsInTour: increment of new_path.end()"
            else .ub "swapPathsInTour: erase of end()"
          else .ub "swapPathsInTour: first_index out of range" := by
  rw [swapPathsInTour.eq_def]
  by_cases h1 : first < last
  · simp only [h1, if_true]
    by_cases h2 : last < tour.length
    · simp only [h2, if_true, Res.ok.injEq]
      rw [eraseLoop_eq _ _ _ (by omega), show first + (last - first) = last by omega, insertAt,
        List.eraseIdx_append_of_length_le (by simp; omega)]
      have e : first - (tour.take first).length = 0 := by simp; omega
      rw [e, List.eraseIdx_zero, List.take_left' (by simp; omega), List.drop_left' (by simp; omega), List.tail_drop]
    · simp only [h2, if_false]
  · simp only [h1, if_false]
    cases tour with
    | nil => rfl
    | cons root tl =>
      simp only
      by_cases h2 : first ≤ (root :: tl).length
      · simp only [h2, if_true]
        have h3 : eraseLoop first ((root :: tl).length - first) (root :: tl) = (root :: tl).take first := by
          rw [eraseLoop_eq _ _ _ h2, show first + ((root :: tl).length - first) = (root :: tl).length by omega]
          simp
        have h4 : ((root :: tl).take first).length = first := by rw [List.length_take]; omega
        rw [h3, h4, eraseLoop_eq _ _ _ (by omega)]
        simp [insertAt]
      · simp only [h2, if_false]

/-- Swapping in a path for a segment that does not contain the root inside. -/
theorem swap_inner {A : List Nat} {u : Nat} {Y : List Nat} {w : Nat} {B p : List Nat} {i step : Nat} (hA : A.length = i)
    (hY : Y.length + 1 = step) :
    swapPathsInTour (A ++ u :: (Y ++ w :: B)) p i (i + step) = .ok (A ++ p ++ B) := by
  rw [swapPathsInTour_eq, if_pos (by omega), if_pos (by simp; omega), split_drop_after _ (by omega), ← hA, List.take_left]

/-- A segment shorter than the tour, replaced by a path with an inner vertex, leaves at least three vertices. -/
theorem length_mid {A : List Nat} {u : Nat} {Y : List Nat} {w : Nat} {B X : List Nat} {step : Nat} (hX : X ≠ []) (hY : Y.length + 1 = step)
    (hsk : step < (A ++ u :: (Y ++ w :: B)).length - 1) : 4 ≤ (A ++ u :: (X ++ w :: B)).length := by
  have := List.length_pos_iff.2 hX
  simp at hsk ⊢
  omega

theorem swap_nonneg {g : Graph} {r : Nat} {t : List Nat} (ht : IsTour g r t) {prize : Nat → Int} (hp : ∀ v, 0 ≤ prize v)
    {step : Nat} {depth : Int} {i : Nat} {p : List Nat} (hsk : step < t.length - 1) (h : GoodEntry g r t prize step depth i p) :
    ∃ t', swapPathsInTour t p i (i + step) = .ok t' ∧ IsTour g r t' ∧ tourPrize prize t < tourPrize prize t' ∧ 4 ≤ t'.length := by
  rcases h with ⟨-, A, u, Y, w, B, X, rfl, hA, hY, rfl, hX, hw, hn, hd, -, hpr⟩ | ⟨P, v, Q, u, R, -, -, -, -, -, hpr⟩
  · refine ⟨A ++ u :: (X ++ w :: B), ?_, ?_, ?_, length_mid hX hY hsk⟩
    · rw [swap_inner hA hY]; simp
    · refine replace_tour ht hw hn ?_
      intro y hy hm
      refine hd y hy ?_
      simp only [List.mem_append, List.mem_cons] at hm ⊢
      tauto
    · have := tourPrize_mid prize A u X Y w B; omega
  · have h1 := prizeSum_nonneg hp P
    have h2 := prizeSum_nonneg hp R
    omega

theorem swap_mod {g : Graph} {r : Nat} {t : List Nat} (ht : IsTour g r t) {prize : Nat → Int}
    {step : Nat} {depth : Int} {i : Nat} {p : List Nat} (hi : i < t.length - 1) (hsk : step < t.length - 1)
    (h : GoodEntry g r t prize step depth i p) :
    ∃ t', swapPathsInTour t p i ((i + step) % (t.length - 1)) = .ok t' ∧ IsTour g r t' ∧
      tourPrize prize t < tourPrize prize t' ∧ 4 ≤ t'.length := by
  rcases h with ⟨hlt, A, u, Y, w, B, X, rfl, hA, hY, rfl, hX, hw, hn, hd, -, hpr⟩ |
    ⟨P, v, Q, u, R, rfl, hPQ, hRP, rfl, hw, hpr⟩
  · refine ⟨A ++ u :: (X ++ w :: B), ?_, ?_, ?_, length_mid hX hY hsk⟩
    · by_cases he : i + step = (A ++ u :: (Y ++ w :: B)).length - 1
      · have hlen : (A ++ u :: (Y ++ w :: B)).length = A.length + Y.length + B.length + 2 := by simp; omega
        have hBn : B = [] := by
          have : B.length = 0 := by omega
          simpa using this
        subst hBn
        have hwr : w = r := by
          have := (isTour_iff'.1 ht).2.1
          rw [show A ++ u :: (Y ++ [w]) = (A ++ u :: Y) ++ [w] by simp, List.getLast?_concat] at this
          simpa using this
        subst hwr
        cases A with
        | nil => simp at hlen he hsk; omega
        | cons a A =>
          have har : a = w := by
            have := (isTour_iff'.1 ht).1
            simpa using this
          subst har
          have hua : u ≠ a := by
            rintro rfl
            have := ht.nodup
            rw [dropLast_mid, List.cons_append, List.nodup_cons] at this
            exact this.1 (by simp)
          have hXa : ∀ y ∈ X, y ≠ a := by
            rintro y hy rfl
            exact hd y hy (by simp)
          have htw : (u :: (X ++ [a])).takeWhile (fun x => decide (x ≠ a)) = u :: X := by
            rw [← List.cons_append, List.takeWhile_append_of_pos]
            · simp
            · intro y hy
              rcases List.mem_cons.1 hy with rfl | hy
              · simpa using hua
              · simpa using hXa y hy
          have hdw : (u :: (X ++ [a])).dropWhile (fun x => decide (x ≠ a)) = [a] := by
            rw [← List.cons_append, List.dropWhile_append_of_pos]
            · simp
            · intro y hy
              rcases List.mem_cons.1 hy with rfl | hy
              · simpa using hua
              · simpa using hXa y hy
          rw [he, Nat.mod_self, swapPathsInTour_eq, if_neg (by omega)]
          simp only [List.cons_append]
          rw [if_pos (by simp at hA; simp; omega), if_pos (by simp at hA; omega), if_pos (by simp), htw, hdw]
          rw [← hA, ← List.cons_append, List.take_left]
          simp
      · rw [Nat.mod_eq_of_lt (by omega), swap_inner hA hY]; simp
    · refine replace_tour ht hw hn ?_
      intro y hy hm
      refine hd y hy ?_
      simp only [List.mem_append, List.mem_cons] at hm ⊢
      tauto
    · have := tourPrize_mid prize A u X Y w B; omega
  · have hlen : (r :: (P ++ v :: (Q ++ u :: (R ++ [r])))).length = P.length + Q.length + R.length + 4 := by simp; omega
    have hmod : (i + step) % ((r :: (P ++ v :: (Q ++ u :: (R ++ [r])))).length - 1) = P.length + 1 := by
      rw [hlen, Nat.mod_eq_sub_mod (by omega), Nat.mod_eq_of_lt (by omega)]; omega
    have hnd : (r :: (P ++ v :: (Q ++ u :: R))).Nodup := by
      have := ht.nodup
      rw [show r :: (P ++ v :: (Q ++ u :: (R ++ [r]))) = r :: ((P ++ v :: (Q ++ u :: R)) ++ [r]) by simp,
        dropLast_tour] at this
      exact this
    have hur : u ≠ r := by rintro rfl; exact (List.nodup_cons.1 hnd).1 (by simp)
    have hvr : v ≠ r := by rintro rfl; exact (List.nodup_cons.1 hnd).1 (by simp)
    refine ⟨r :: (v :: (Q ++ [u]) ++ [r]), ?_, ?_, ?_, by simp⟩
    · rw [hmod, swapPathsInTour_eq, if_neg (by omega)]
      show (if i ≤ (r :: (P ++ v :: (Q ++ u :: (R ++ [r])))).length then _ else _) = _
      rw [if_pos (by omega), if_pos (by omega), if_pos (by simp)]
      have h1 : ([u, r, v]).dropWhile (fun x => decide (x ≠ r)) = [r, v] := by simp [hur]
      have h2 : ([u, r, v]).takeWhile (fun x => decide (x ≠ r)) = [u] := by simp [hur]
      have h3 : ((r :: (P ++ v :: (Q ++ u :: (R ++ [r])))).take i).drop (P.length + 1 + 1) = Q := by
        rw [show r :: (P ++ v :: (Q ++ u :: (R ++ [r]))) = (r :: (P ++ v :: Q)) ++ u :: (R ++ [r]) by simp]
        rw [List.take_left' (by simp; omega), show r :: (P ++ v :: Q) = (r :: (P ++ [v])) ++ Q by simp]
        exact List.drop_left' (by simp)
      rw [h1, h2, h3]; simp
    · rw [isTour_iff]
      refine ⟨?_, ?_⟩
      · refine hnd.sublist (List.Sublist.cons_cons _ ?_)
        refine List.Sublist.trans ?_ (List.sublist_append_right _ _)
        refine List.Sublist.cons_cons _ (List.Sublist.append (List.Sublist.refl _) ?_)
        simp
      · have h0 := ht.walk
        have e1 : r :: (P ++ v :: (Q ++ u :: (R ++ [r]))) = (r :: P) ++ v :: (Q ++ u :: (R ++ [r])) := by simp
        rw [e1, isWalk_mid] at h0
        have a1 : Adj g u r := hw (u, r) (by simp [consec])
        have a2 : Adj g r v := hw (r, v) (by simp [consec])
        have e2 : r :: (v :: (Q ++ [u]) ++ [r]) = [r] ++ v :: (Q ++ u :: [r]) := by simp
        rw [e2, isWalk_mid]
        exact ⟨by simpa [IsWalk, consec] using a2, h0.2.1, by simpa [IsWalk, consec] using a1⟩
    · rw [tourPrize, tourPrize, dropLast_tour,
        show r :: (P ++ v :: (Q ++ u :: (R ++ [r]))) = r :: ((P ++ v :: (Q ++ u :: R)) ++ [r]) by simp, dropLast_tour]
      simp only [prizeSum, List.map_append, List.map_cons, List.sum_append, List.sum_cons, List.map_nil, List.sum_nil] at hpr ⊢
      omega

end Pctsp
