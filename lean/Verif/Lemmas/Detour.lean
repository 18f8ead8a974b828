import Verif.Lemmas.ExtensionLoop
import Verif.Lemmas.Renaming

/-! Helper lemmas: a tour with a single outside vertex that bridges `a` edges. -/

namespace Pctsp

variable {F : Type}

theorem tour_index_root {g : Graph} {r : Nat} {t : List Nat} (ht : IsTour g r t) {i : Nat} (h : t[i]? = some r) :
    i = 0 ∨ i + 1 = t.length := by
  obtain ⟨m, rfl⟩ := ht.shape
  have hn := ht.nodup
  rw [dropLast_tour] at hn
  by_cases hi : i < m.length + 1
  · left
    have h' : (r :: m)[i]? = some r := by
      rw [← h, ← List.cons_append, List.getElem?_append_left (by simpa using hi)]
    exact nodup_getElem?_inj hn h' (by simp)
  · right
    have := (List.getElem?_eq_some_iff.1 h).1
    simp at this ⊢; omega

theorem tour_index_other {g : Graph} {r : Nat} {t : List Nat} (ht : IsTour g r t) {w i j : Nat} (hw : w ≠ r) (hi : t[i]? = some w)
    (hj : t[j]? = some w) : i = j := by
  obtain ⟨m, rfl⟩ := ht.shape
  have hn := ht.nodup
  rw [dropLast_tour] at hn
  have key : ∀ k : Nat, (r :: (m ++ [r]))[k]? = some w → (r :: m)[k]? = some w := by
    intro k hk
    by_cases hl : k < m.length + 1
    · rw [← hk, ← List.cons_append, List.getElem?_append_left (by simpa using hl)]
    · exfalso
      have h1 := (List.getElem?_eq_some_iff.1 hk).1
      simp at h1
      have : k = m.length + 1 := by omega
      subst this
      rw [← List.cons_append, List.getElem?_append_right (by simp)] at hk
      simp at hk; exact hw hk.symm
  exact nodup_getElem?_inj hn (key i hi) (key j hj)

/-- The single outside vertex `x` of a tour of `a + b + 1` edges joins the root to the vertex after `a` edges. -/
structure Bridge (g : Graph) (r : Nat) (t : List Nat) (prize : Nat → Int) (a b x : Nat) : Prop where
  split : ∃ Y w B, t = r :: (Y ++ w :: B) ∧ Y.length + 1 = a ∧ Adj g r x ∧ Adj g x w
  length : t.length = a + b + 2
  out : x ∉ t
  only : ∀ y z, Adj g y z → y ∉ t → y = x ∧ (z = r ∨ t[a]? = some z)
  prize_x : prize x = 1
  prize_t : ∀ v ∈ t, prize v = 0
  nonneg : ∀ v, 0 ≤ prize v

theorem Bridge.segment {g : Graph} {r : Nat} {t : List Nat} {prize : Nat → Int} {a b x : Nat} (h : Bridge g r t prize a b x)
    (ht : IsTour g r t) (hab : a < b) {A Y B X : List Nat} {u w : Nat} (h1 : t = A ++ u :: (Y ++ w :: B))
    (h2 : Y.length + 1 = a ∨ Y.length + 1 = b) (h3 : IsWalk g (u :: (X ++ [w]))) (h4 : X ≠ []) (h5 : ∀ y ∈ X, y ∉ t) :
    Y.length + 1 = a ∧ A.length = 0 := by
  obtain ⟨Y0, w0, B0, s1, s2, s3, s4⟩ := h.split
  have hl := h.length
  have hwidx : t[a]? = some w0 := by
    rw [s1]; subst s2
    rw [List.getElem?_cons_succ, List.getElem?_append_right (Nat.le_refl _)]; simp
  have hw0 : w0 ≠ r := by
    rintro rfl
    have := tour_index_root ht hwidx
    omega
  obtain ⟨y, X', rfl⟩ := List.exists_cons_of_ne_nil h4
  have hu : u = r ∨ u = w0 := by
    have : Adj g u y := h3 (u, y) (by simp [consec])
    have := (h.only y u (Or.symm this) (h5 y (by simp))).2
    rw [hwidx] at this
    rcases this with e | e
    · exact Or.inl e
    · right; simpa using e.symm
  have hX' : X' = [] := by
    cases X' with
    | nil => rfl
    | cons z X'' =>
      exfalso
      have hz : Adj g y z := h3 (y, z) (by simp [consec])
      rcases (h.only y z hz (h5 y (by simp))).2 with e | e
      · subst e; exact h5 z (by simp) (by rw [s1]; simp)
      · exact h5 z (by simp) (List.mem_of_getElem? e)
  subst hX'
  have hw : w = r ∨ w = w0 := by
    have : Adj g y w := h3 (y, w) (by simp [consec])
    have := (h.only y w this (h5 y (by simp))).2
    rw [hwidx] at this
    rcases this with e | e
    · exact Or.inl e
    · right; simpa using e.symm
  have iu : t[A.length]? = some u := by rw [h1]; exact split_get_first
  have iw : t[A.length + (Y.length + 1)]? = some w := by rw [h1]; exact split_get_second
  have hlen : A.length + (Y.length + 1) < t.length := (List.getElem?_eq_some_iff.1 iw).1
  rcases hu with rfl | rfl
  · have p1 := tour_index_root ht iu
    rcases hw with rfl | rfl
    · have p2 := tour_index_root ht iw; omega
    · have p2 := tour_index_other ht hw0 iw hwidx; omega
  · have p1 := tour_index_other ht hw0 iu hwidx
    rcases hw with rfl | rfl
    · have p2 := tour_index_root ht iw; omega
    · have p2 := tour_index_other ht hw0 iw hwidx; omega

theorem numFeasible_all_false : ∀ (l : List Bool) (n : Nat), (∀ b ∈ l, b = false) →
    l.foldl (fun n b => n + b.toNat) n = n
  | [], n, _ => rfl
  | b :: l, n, h => by
    have hb := h b (by simp)
    subst hb
    simp only [List.foldl_cons, Bool.toNat_false, Nat.add_zero]
    exact numFeasible_all_false l n fun b hb => h b (by simp [hb])

/-- With step `a` and depth `b` the bridge is used. -/
theorem Bridge.extends (O : FloatOps F) (hO : O.Lawful) {g : Graph} {r : Nat} {t : List Nat} {prize : Nat → Int} {a b x : Nat}
    (h : Bridge g r t prize a b x) (hg : g.WF) (ht : IsTour g r t) (cost : Nat → Int) (ha : 1 ≤ a) (hab : a < b) :
    ∃ t', pathExtension O g t cost prize r a b = .ok t' ∧ IsTour g r t' ∧ tourPrize prize t < tourPrize prize t' := by
  obtain ⟨Y0, w0, B0, s1, s2, s3, s4⟩ := h.split
  have hl := h.length
  have hn : 0 < g.n := by
    rcases s3 with e | e
    · exact Nat.lt_of_le_of_lt (Nat.zero_le _) (hg _ e).1
    · exact Nat.lt_of_le_of_lt (Nat.zero_le _) (hg _ e).1
  obtain ⟨n, hn'⟩ : ∃ n, g.n = n + 1 := ⟨g.n - 1, by omega⟩
  have hfit : stepFits (a : Int) t = true := by rw [stepFits_iff ht.ne_nil]; simp; omega
  obtain ⟨es, e1, e2, e3⟩ := findExtensionPaths_spec O hO.signSound hg ht cost prize a b ha (by omega)
  have hfeas : ∀ i e, es[i]? = some e → e.feasible = true → i = 0 := by
    intro i e hi hf
    rcases ((e3 i e hi).1 hf).2 with ⟨-, A, u, Y, w, B, X, q1, q2, q3, q4, q5, q6, q7, q8, -, -⟩ | ⟨P, v, Q, u, R, -, -, -, -, -, hpr⟩
    · have := (h.segment ht hab q1 (Or.inl q3) (q4 ▸ q6) q5 q8).2; omega
    · have h1 := prizeSum_nonneg h.nonneg P
      have h2 := prizeSum_nonneg h.nonneg R
      omega
  obtain ⟨e0, rest, rfl⟩ : ∃ e0 rest, es = e0 :: rest := by
    cases es with
    | nil => simp at e2; omega
    | cons e0 rest => exact ⟨e0, rest, rfl⟩
  have h0 : e0.feasible = true := by
    cases hf : e0.feasible with
    | true => rfl
    | false =>
      exfalso
      have := (e3 0 e0 rfl).2.1 hf (by omega) (fun d hd => (hO.sign d).2 hd) [] r Y0 w0 B0 s1 rfl s2 x h.out s3 s4
      rw [h.prize_x] at this
      have hz : prizeSum prize Y0 = 0 := by
        rw [prizeSum, List.map_congr_left (g := fun _ => (0 : Int)) (fun v hv => h.prize_t v (by rw [s1]; simp [hv]))]
        generalize Y0 = l
        induction l with
        | nil => rfl
        | cons _ l _ => simp
      omega
  have hrest : ∀ e ∈ rest, e.feasible = false := by
    intro e he
    obtain ⟨k, hk⟩ := List.mem_iff_getElem?.1 he
    cases hf : e.feasible with
    | false => rfl
    | true => have := hfeas (k + 1) e (by simpa using hk) hf; omega
  have hnum : numFeasibleExtensions ((e0 :: rest).map (·.feasible)) = 1 := by
    rw [numFeasibleExtensions, List.map_cons, h0, List.foldl_cons]
    exact numFeasible_all_false _ _ (by simpa using hrest)
  obtain ⟨k, e, hk, hke, hfe⟩ := selected_entry O (e0 :: rest) (by rw [hnum]; omega)
  have hk0 : ¬ ((k : Int) < 0) := by omega
  obtain ⟨t1, r1, r2, r3, -⟩ := swap_nonneg ht h.nonneg (by omega) ((e3 k e hke).1 hfe).2
  rw [pathExtension, hn', pathExtensionLoop, if_neg ht.ne_nil, hfit, if_neg (by simp)]
  simp only [Int.toNat_natCast, e1, Res.ok_bind, hnum, hk, hk0, if_false, hke]
  simp only [Nat.lt_one_iff, gt_iff_lt, if_true, and_self, true_or, r1, Res.ok_bind]
  obtain ⟨t', u1, u2, u3⟩ := pathExtensionLoop_spec O hO.signSound hg cost prize h.nonneg a b (by omega) n false
    (some (averageUnitaryLoss O ((e0 :: rest).map fun e => (e.loss, e.feasible)))) t1 r2
  refine ⟨t', u1, u2, ?_⟩
  rcases u3 with rfl | ⟨u3, -⟩
  · exact r3
  · omega

/-- With step `b` and depth `a` nothing is found. -/
theorem Bridge.stays (O : FloatOps F) (hO : O.SignSound) {g : Graph} {r : Nat} {t : List Nat} {prize : Nat → Int} {a b x : Nat}
    (h : Bridge g r t prize a b x) (hg : g.WF) (ht : IsTour g r t) (cost : Nat → Int) (hab : a < b) :
    pathExtension O g t cost prize r b a = .ok t := by
  obtain ⟨t', h1, h2, h3⟩ := pathExtensionLoop_spec O hO hg cost prize h.nonneg b a (by omega) g.n true none t ht
  rcases h3 with rfl | ⟨-, ⟨A, u, Y, w, B, X, q1, q2, q3, q4, q5, q6, q7, q8⟩, -⟩
  · exact h1
  · have := h.segment ht hab q1 (Or.inr (by simpa using q2)) q3 q4 q6; omega

end Pctsp
