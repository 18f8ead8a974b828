import Verif.Model.Binding
import Verif.Lemmas.LabResult

/-!
# Lemmas about the choice of the root
-/

namespace Pctsp

section tours

variable {V : Type}

/-- A tour can be started at any of its vertices, with the same steps. -/
theorem FeasibleIn.reroot {es : List (V × V)} {π : V → Int} {q : Int} {root root' : V} {t : List V} (h : FeasibleIn es π q root t) (hr : root' ∈ t) :
    ∃ t', FeasibleIn es π q root' t' ∧ (consec t').Perm (consec t) ∧ t'.dropLast.Perm t.dropLast := by
  obtain ⟨m, rfl⟩ := h.tour.shape
  have hd : (root :: (m ++ [root])).dropLast = root :: m := by
    rw [← List.cons_append, List.dropLast_concat]
  by_cases he : root' = root
  · subst he
    exact ⟨_, h, List.Perm.refl _, List.Perm.refl _⟩
  have hm : root' ∈ m := by
    simp only [List.mem_cons, List.mem_append, List.not_mem_nil, or_false] at hr
    rcases hr with h | h | h
    · exact absurd h he
    · exact h
    · exact absurd h he
  obtain ⟨A, B, rfl⟩ := List.append_of_mem hm
  have e1 : root :: (A ++ root' :: B ++ [root]) = (root :: A) ++ root' :: (B ++ [root]) := by simp
  have e2 : root' :: (B ++ root :: A ++ [root']) = (root' :: B) ++ root :: (A ++ [root']) := by simp
  have hc : (consec (root' :: (B ++ root :: A ++ [root']))).Perm (consec (root :: (A ++ root' :: B ++ [root]))) := by
    rw [e1, e2, consec_append (root :: A), consec_append (root' :: B)]
    exact List.perm_append_comm
  have hd' : (root' :: (B ++ root :: A ++ [root'])).dropLast = root' :: (B ++ root :: A) := by
    rw [← List.cons_append, List.dropLast_concat]
  have hp : (root' :: (B ++ root :: A ++ [root'])).dropLast.Perm (root :: (A ++ root' :: B ++ [root])).dropLast := by
    rw [hd, hd']
    have : ((root' :: B) ++ (root :: A)).Perm ((root :: A) ++ (root' :: B)) := List.perm_append_comm
    simpa using this
  refine ⟨_, ⟨⟨⟨B ++ root :: A, rfl⟩, hp.nodup_iff.2 h.tour.nodup, fun p hp' => h.tour.walk p (hc.subset hp')⟩, ?_, ?_⟩, hc, hp⟩
  · have := h.three
    simp only [List.length_cons, List.length_append, List.length_nil] at this ⊢
    omega
  · have := h.prize
    rw [namedPrize, (hp.map π).sum_eq]
    exact this

theorem namedCost_perm {w : V → V → Int} {t t' : List V} (h : (consec t').Perm (consec t)) : namedCost w t' = namedCost w t := by
  rw [namedCost, namedCost, (h.map _).sum_eq]

end tours

section extension

variable {F : Type}

theorem subpath_length {α : Type} {cycle : List α} {m pos : Nat} {l : List α} (h : subpathLoop cycle m pos = .ok l) : l.length = m := by
  induction m generalizing pos l with
  | zero => cases h; rfl
  | succ m ih =>
    rw [subpathLoop] at h
    split at h
    · cases h
    · obtain ⟨r, h1, h2⟩ := Res.bind_eq_ok.1 h
      cases h2
      simp [ih h1]

theorem getSubpath_two {tour : List Nat} (hk : 1 < tour.length - 1) {i : Nat} (hi : i < tour.length - 1) {l : List Nat}
    (h : getSubpathOfCycle tour i ((i + 1) % (tour.length - 1)) = .ok l) : l.length = 2 := by
  simp only [getSubpathOfCycle] at h
  generalize hlen : (if (((i + 1) % (tour.length - 1) : Nat) : Int) - i + 1 ≤ 0 then (tour.length : Int) - i + ((i + 1) % (tour.length - 1) : Nat)
    else (((i + 1) % (tour.length - 1) : Nat) : Int) - i + 1) = len at h
  have h2 : len = 2 := by
    rw [← hlen]
    by_cases hl : i + 1 < tour.length - 1
    · rw [Nat.mod_eq_of_lt hl]
      split <;> omega
    · have : i + 1 = tour.length - 1 := by omega
      rw [this, Nat.mod_self]
      split <;> omega
  subst h2
  split at h
  · cases h
  · split at h
    · cases h
    · exact subpath_length h

theorem externalCandidates_two (g : Graph) (prize : Nat → Int) (tour : List Nat) (root root' : Nat) (depth : Int) (vi vj : Nat) {l : List Nat}
    (hl : l.length = 2) : externalCandidates g prize tour root depth vi vj l = externalCandidates g prize tour root' depth vi vj l := by
  obtain ⟨a, b, rfl⟩ : ∃ a b, l = [a, b] := List.length_eq_two.1 hl
  simp [externalCandidates, isInternalVertexOfWalk]

theorem extensionEntry_one (O : FloatOps F) (g : Graph) (cost prize : Nat → Int) (root root' : Nat) (depth : Int) {tour : List Nat}
    (hk : 1 < tour.length - 1) {i : Nat} (hi : i < tour.length - 1) :
    extensionEntry O g tour cost prize root 1 depth i = extensionEntry O g tour cost prize root' 1 depth i := by
  simp only [extensionEntry]
  split
  · rename_i vi vj _ _
    cases h : getSubpathOfCycle tour i ((i + 1) % (tour.length - 1)) with
    | ok l =>
      simp only [Res.ok_bind]
      rw [externalCandidates_two g prize tour root root' depth vi vj (getSubpath_two hk hi h)]
    | throw e => rfl
    | ub s => rfl
  · rfl

theorem mapRes_eq {α β : Type} {f f' : α → Res β} : ∀ {l : List α}, (∀ x ∈ l, f x = f' x) → mapRes f l = mapRes f' l
  | [], _ => rfl
  | x :: l, h => by
    rw [mapRes, mapRes, h x (by simp), mapRes_eq fun y hy => h y (by simp [hy])]

theorem findExtensionPaths_one (O : FloatOps F) (g : Graph) (cost prize : Nat → Int) (root root' : Nat) (depth : Int) {tour : List Nat}
    (hk : 1 < tour.length - 1) :
    findExtensionPaths O g tour cost prize root 1 depth = findExtensionPaths O g tour cost prize root' 1 depth :=
  mapRes_eq fun _ hi => extensionEntry_one O g cost prize root root' depth hk (List.mem_range.1 hi)

theorem stepFits_one {tour : List Nat} (h : ¬ stepFits 1 tour = false) : 1 < tour.length - 1 := by
  simp only [stepFits, Bool.not_eq_false, Bool.and_eq_true, decide_eq_true_eq] at h
  omega

theorem pathExtensionLoop_one (O : FloatOps F) (g : Graph) (cost prize : Nat → Int) (root root' : Nat) (depth : Int) (rem : Nat) (isFirst : Bool)
    (avg : Option F) (tour : List Nat) :
    pathExtensionLoop O g cost prize root 1 depth rem isFirst avg tour = pathExtensionLoop O g cost prize root' 1 depth rem isFirst avg tour := by
  induction rem generalizing isFirst avg tour with
  | zero => rfl
  | succ rem ih =>
    rw [pathExtensionLoop, pathExtensionLoop]
    split
    · rfl
    · split
      · rfl
      · rename_i hs
        rw [show Int.toNat 1 = 1 from rfl, findExtensionPaths_one O g cost prize root root' depth (stepFits_one hs)]
        simp only [ih]

theorem pathExtensionUntilLoop_one (O : FloatOps F) (g : Graph) (cost prize : Nat → Int) (root root' : Nat) (depth : Int) (rem : Nat) (tour : List Nat) :
    pathExtensionUntilLoop O g cost prize root 1 depth rem tour = pathExtensionUntilLoop O g cost prize root' 1 depth rem tour := by
  induction rem generalizing tour with
  | zero => rfl
  | succ rem ih =>
    rw [pathExtensionUntilLoop, pathExtensionUntilLoop]
    split
    · rfl
    · rename_i hs
      rw [show Int.toNat 1 = 1 from rfl, findExtensionPaths_one O g cost prize root root' depth (stepFits_one hs)]
      simp only [ih]

end extension

end Pctsp
