import Verif.Lemmas.BfsPath

/-! Helper lemmas: replacing a segment of a tour; the argmin loops. -/

namespace Pctsp

theorem isTour_iff' {g : Graph} {r : Nat} {t : List Nat} :
    IsTour g r t ↔ t.head? = some r ∧ t.getLast? = some r ∧ 2 ≤ t.length ∧ t.dropLast.Nodup ∧ IsWalk g t := by
  constructor
  · rintro ⟨⟨m, rfl⟩, h2, h3⟩
    refine ⟨rfl, ?_, by simp, h2, h3⟩
    rw [← List.cons_append, List.getLast?_concat]
  · rintro ⟨h1, h2, h3, h4, h5⟩
    refine ⟨?_, h4, h5⟩
    cases t with
    | nil => simp at h3
    | cons a t =>
      simp at h1; subst h1
      rcases List.eq_nil_or_concat t with rfl | ⟨m, b, rfl⟩
      · simp at h3
      · rw [List.concat_eq_append, ← List.cons_append, List.getLast?_concat] at h2
        simp at h2; subst h2
        exact ⟨m, by rw [List.concat_eq_append]⟩

theorem dropLast_mid (A : List Nat) (u : Nat) (Y : List Nat) (w : Nat) (B : List Nat) :
    (A ++ u :: (Y ++ w :: B)).dropLast = A ++ u :: (Y ++ (w :: B).dropLast) := by
  rw [List.dropLast_append_of_ne_nil (by simp), show u :: (Y ++ w :: B) = (u :: Y) ++ (w :: B) by simp,
    List.dropLast_append_of_ne_nil (by simp)]
  simp

theorem isWalk_mid {g : Graph} {A : List Nat} {u : Nat} {Y : List Nat} {w : Nat} {B : List Nat} :
    IsWalk g (A ++ u :: (Y ++ w :: B)) ↔ IsWalk g (A ++ [u]) ∧ IsWalk g (u :: (Y ++ [w])) ∧ IsWalk g (w :: B) := by
  have := isWalk_append (g := g) (l := u :: Y) (m := B) (a := w)
  simp only [List.cons_append] at this
  rw [isWalk_append, this]

theorem walkCost_mid (g : Graph) (cost : Nat → Int) (A : List Nat) (u : Nat) (Y : List Nat) (w : Nat) (B : List Nat) :
    walkCost g cost (A ++ u :: (Y ++ w :: B)) =
      walkCost g cost (A ++ [u]) + walkCost g cost (u :: (Y ++ [w])) + walkCost g cost (w :: B) := by
  have := walkCost_append g cost (u :: Y) B w
  simp only [List.cons_append] at this
  rw [walkCost_append, this]; omega

/-- Replacing the interior `Y` of a segment of a tour by a path `X` outside the tour. -/
theorem replace_tour {g : Graph} {r : Nat} {A : List Nat} {u : Nat} {Y : List Nat} {w : Nat} {B X : List Nat}
    (h : IsTour g r (A ++ u :: (Y ++ w :: B))) (hX : IsWalk g (u :: (X ++ [w]))) (hn : X.Nodup)
    (hd : ∀ y ∈ X, y ∉ A ++ u :: w :: B) : IsTour g r (A ++ u :: (X ++ w :: B)) := by
  rw [isTour_iff'] at h ⊢
  obtain ⟨h1, h2, h3, h4, h5⟩ := h
  refine ⟨?_, ?_, by simp; omega, ?_, ?_⟩
  · cases A <;> simpa using h1
  · have e : ∀ Z : List Nat, A ++ u :: (Z ++ w :: B) = (A ++ u :: Z) ++ w :: B := by simp
    rw [e, List.getLast?_append_of_ne_nil _ (by simp)] at h2 ⊢
    exact h2
  · rw [dropLast_mid] at h4 ⊢
    have hp : (A ++ u :: (X ++ (w :: B).dropLast)).Perm (X ++ (A ++ u :: (w :: B).dropLast)) := by
      rw [List.perm_iff_count]; intro a; simp [List.count_cons, List.count_append]; omega
    rw [hp.nodup_iff, List.nodup_append]
    refine ⟨hn, ?_, ?_⟩
    · refine h4.sublist ?_
      refine List.Sublist.append (List.Sublist.refl _) (List.Sublist.cons_cons _ ?_)
      exact List.sublist_append_right _ _
    · intro x hx y hy hxy
      subst hxy
      refine hd x hx ?_
      simp only [List.mem_append, List.mem_cons] at hy ⊢
      rcases hy with hy | hy | hy
      · exact Or.inl hy
      · exact Or.inr (Or.inl hy)
      · have := List.dropLast_subset _ hy
        simp only [List.mem_cons] at this
        exact Or.inr (Or.inr this)
  · rw [isWalk_mid] at h5 ⊢
    exact ⟨h5.1, hX, h5.2.2⟩

theorem tourPrize_mid (prize : Nat → Int) (A : List Nat) (u : Nat) (X Y : List Nat) (w : Nat) (B : List Nat) :
    tourPrize prize (A ++ u :: (X ++ w :: B)) - tourPrize prize (A ++ u :: (Y ++ w :: B)) =
      prizeSum prize X - prizeSum prize Y := by
  simp only [tourPrize, dropLast_mid, prizeSum, List.map_append, List.map_cons, List.sum_append, List.sum_cons]
  omega

/-! ### argmin -/

variable {F : Type}

/-- Where the argmin loop ends: either nothing changed, or at a feasible entry. -/
theorem smallestLossLoop_cases (O : FloatOps F) (i : Int) (l : List (F × Bool)) (st : ArgminState F) :
    (smallestLossLoop O i l st = st ∧ (st.found = true ∨ ∀ x ∈ l, x.2 = false)) ∨
    (∃ (k : Nat) (x : F), l[k]? = some (x, true) ∧ smallestLossLoop O i l st = { found := true, value := x, index := i + k }) := by
  induction l generalizing i st with
  | nil => left; simp [smallestLossLoop]
  | cons a l ih =>
    obtain ⟨x, b⟩ := a
    rw [smallestLossLoop]
    cases hb : (b && (O.lt x st.value || !st.found)) with
    | true =>
      have hbt : b = true := by cases b <;> simp_all
      simp only [if_true]
      rcases ih (i + 1) { found := true, value := x, index := i } with ⟨h1, -⟩ | ⟨k, y, h1, h2⟩
      · right; exact ⟨0, x, by simp [hbt], by rw [h1]; simp⟩
      · right; exact ⟨k + 1, y, by simpa using h1, by rw [h2]; congr 1; push_cast; omega⟩
    | false =>
      simp only [if_neg (Bool.false_ne_true)]
      rcases ih (i + 1) st with ⟨h1, h2⟩ | ⟨k, y, h1, h2⟩
      · left
        refine ⟨h1, ?_⟩
        rcases h2 with h2 | h2
        · exact Or.inl h2
        · cases hf : st.found with
          | true => exact Or.inl rfl
          | false =>
            right
            intro z hz
            rcases List.mem_cons.1 hz with rfl | hz
            · simpa [hf] using hb
            · exact h2 z hz
      · right; exact ⟨k + 1, y, by simpa using h1, by rw [h2]; congr 1; push_cast; omega⟩

/-- Not a NaN: it is below or above some number. -/
def FloatOps.Comparable (O : FloatOps F) (x : F) : Prop := ∃ y, O.lt x y = true ∨ O.lt y x = true

/-- Laws of the comparison: a strict weak order except for NaN, a converted integer is positive iff it was, and a quotient of converted integers
with a positive divisor is not a NaN. -/
structure FloatOps.Lawful (O : FloatOps F) : Prop where
  sign : ∀ d : Int, O.lt O.zero (O.ofInt d) = true ↔ 0 < d
  asymm : ∀ a b, O.lt a b = true → O.lt b a = false
  negTrans : ∀ a b c, O.Comparable b → O.lt a b = false → O.lt b c = false → O.lt a c = false
  loss : ∀ c d : Int, 0 < d → O.Comparable (O.div (O.ofInt c) (O.ofInt d))

theorem FloatOps.rounded_comparable (rnd : Rat → Rat) (x : Rat) : (FloatOps.rounded rnd).Comparable x :=
  ⟨x + 1, .inl (by
    simp only [FloatOps.rounded, decide_eq_true_eq]
    rw [Rat.lt_iff_sub_pos, show x + 1 - x = 1 by grind]
    decide)⟩

theorem FloatOps.rounded_lawful {rnd : Rat → Rat} (h : ∀ d : Int, 0 < rnd d ↔ 0 < d) : (FloatOps.rounded rnd).Lawful := by
  refine ⟨?_, ?_, ?_, fun c d _ => FloatOps.rounded_comparable rnd _⟩
  · intro d; simpa [FloatOps.rounded] using h d
  · intro a b; simp only [FloatOps.rounded, decide_eq_true_eq, decide_eq_false_iff_not, Rat.not_lt]
    exact fun h => Rat.le_of_lt h
  · intro a b c _; simp only [FloatOps.rounded, decide_eq_false_iff_not, Rat.not_lt]
    exact fun h1 h2 => Rat.le_trans h2 h1

theorem FloatOps.exact_lawful : FloatOps.exact.Lawful :=
  FloatOps.rounded_lawful (fun d => by rw [id, ← Rat.intCast_zero, Rat.intCast_lt_intCast])

/-- The argmin loop with a strict weak order. -/
theorem smallestLossLoop_min {O : FloatOps F} (hO : O.Lawful) (i : Int) (l : List (F × Bool)) (st : ArgminState F)
    (hst : st.found = true) (hv : O.Comparable st.value) (hl : ∀ x ∈ l, x.2 = true → O.Comparable x.1) :
    let res := smallestLossLoop O i l st
    res.found = true ∧ O.lt st.value res.value = false ∧ (∀ (j : Nat) y, l[j]? = some (y, true) → O.lt y res.value = false) ∧
      (res.index = st.index ∧ res.value = st.value ∨
        ∃ k : Nat, res.index = i + k ∧ O.lt res.value st.value = true ∧
          ∀ j y, j < k → l[j]? = some (y, true) → O.lt res.value y = true) := by
  have hirr : ∀ a, O.lt a a = false := fun a => by
    cases h : O.lt a a with
    | false => rfl
    | true => have := hO.asymm a a h; rw [h] at this; exact this
  have htr : ∀ a b c, O.Comparable a → O.lt a b = false → O.lt c b = true → O.lt c a = true := fun a b c ha h1 h2 => by
    cases h : O.lt c a with
    | true => rfl
    | false => have := hO.negTrans c a b ha h h1; rw [h2] at this; simp at this
  induction l generalizing i st with
  | nil => simp [smallestLossLoop, hst, hirr]
  | cons a l ih =>
    obtain ⟨x, b⟩ := a
    intro res
    have hres : res = smallestLossLoop O (i + 1) l
      (if b && (O.lt x st.value || !st.found) then { found := true, value := x, index := i } else st) := rfl
    cases hb : (b && (O.lt x st.value || !st.found)) with
    | true =>
      rw [hb, if_pos rfl] at hres
      have hx : O.lt x st.value = true := by simpa [hst] using (Bool.and_eq_true_iff.1 hb).2
      have hxc : O.Comparable x := ⟨_, .inl hx⟩
      obtain ⟨h1, h2, h3, h4⟩ := ih (i + 1) { found := true, value := x, index := i } rfl hxc (fun y hy => hl y (List.mem_cons_of_mem _ hy))
      rw [← hres] at h1 h2 h3 h4
      refine ⟨h1, hO.negTrans _ x _ hxc (hO.asymm _ _ hx) h2, ?_, Or.inr ?_⟩
      · intro j y hj
        cases j with
        | zero =>
          simp at hj
          rw [← hj.1]; exact h2
        | succ j => exact h3 j y (by simpa using hj)
      · rcases h4 with ⟨h5, h6⟩ | ⟨k, h5, h6, h7⟩
        · exact ⟨0, by rw [h5]; simp, by rw [h6]; exact hx, by intro j y hj; omega⟩
        · refine ⟨k + 1, by rw [h5]; push_cast; omega, ?_, ?_⟩
          · exact htr _ _ _ hv (hO.asymm _ _ hx) h6
          · intro j y hj hjy
            cases j with
            | zero => simp at hjy; rw [← hjy.1]; exact h6
            | succ j => exact h7 j y (by omega) (by simpa using hjy)
    | false =>
      rw [hb, if_neg (by simp)] at hres
      obtain ⟨h1, h2, h3, h4⟩ := ih (i + 1) st hst hv (fun y hy => hl y (List.mem_cons_of_mem _ hy))
      rw [← hres] at h1 h2 h3 h4
      have hx : b = true → O.lt x st.value = false := by
        intro hbt; simpa [hbt, hst] using hb
      refine ⟨h1, h2, ?_, ?_⟩
      · intro j y hj
        cases j with
        | zero => simp at hj; rw [← hj.1]; exact hO.negTrans _ _ _ hv (hx hj.2) h2
        | succ j => exact h3 j y (by simpa using hj)
      · rcases h4 with h4 | ⟨k, h5, h6, h7⟩
        · exact Or.inl h4
        · right
          refine ⟨k + 1, by rw [h5]; push_cast; omega, h6, ?_⟩
          intro j y hj hjy
          cases j with
          | zero => simp at hjy; rw [← hjy.1]; exact htr _ _ _ (hl (x, b) (by simp) hjy.2) (hx hjy.2) h6
          | succ j => exact h7 j y (by omega) (by simpa using hjy)

/-- An infeasible prefix does not change an empty state. -/
theorem smallestLossLoop_first {O : FloatOps F} (hO : O.Lawful) (i : Int) (l : List (F × Bool)) (st : ArgminState F)
    (hst : st.found = false) (hl : ∀ x ∈ l, x.2 = true → O.Comparable x.1) (hex : ∃ x ∈ l, x.2 = true) :
    ∃ (k : Nat) (x : F), l[k]? = some (x, true) ∧
      smallestLossLoop O i l st = { found := true, value := x, index := i + k } ∧
      (∀ (j : Nat) y, l[j]? = some (y, true) → O.lt y x = false) ∧
      (∀ (j : Nat) y, j < k → l[j]? = some (y, true) → O.lt x y = true) := by
  induction l generalizing i with
  | nil => simp at hex
  | cons a l ih =>
    obtain ⟨x, b⟩ := a
    cases b with
    | true =>
      have e : smallestLossLoop O i ((x, true) :: l) st =
          smallestLossLoop O (i + 1) l { found := true, value := x, index := i } := by
        rw [smallestLossLoop]; simp [hst]
      rw [e]
      obtain ⟨h1, h2, h3, h4⟩ := smallestLossLoop_min hO (i + 1) l { found := true, value := x, index := i } rfl
        (hl (x, true) (by simp) rfl) (fun y hy => hl y (List.mem_cons_of_mem _ hy))
      have hall : ∀ (j : Nat) y, ((x, true) :: l)[j]? = some (y, true) →
          O.lt y (smallestLossLoop O (i + 1) l { found := true, value := x, index := i }).value = false := by
        intro j y hj
        cases j with
        | zero => simp at hj; rw [← hj]; exact h2
        | succ j => exact h3 j y (by simpa using hj)
      rcases smallestLossLoop_cases O (i + 1) l { found := true, value := x, index := i } with ⟨hc, -⟩ | ⟨k, y, hk, hc⟩
      · rw [hc] at hall ⊢
        exact ⟨0, x, rfl, by simp, hall, by intro j y hj; omega⟩
      · rw [hc] at hall h4 ⊢
        refine ⟨k + 1, y, by simpa using hk, by congr 1; push_cast; omega, hall, ?_⟩
        rcases h4 with ⟨h4, -⟩ | ⟨k', h5, h6, h7⟩
        · simp at h4; omega
        · have : k' = k := by simp at h5; omega
          subst this
          intro j z hj hz
          cases j with
          | zero => simp at hz; rw [← hz]; exact h6
          | succ j => exact h7 j z (by omega) (by simpa using hz)
    | false =>
      have e : smallestLossLoop O i ((x, false) :: l) st = smallestLossLoop O (i + 1) l st := by
        rw [smallestLossLoop]; simp
      rw [e]
      obtain ⟨k, y, h1, h2, h3, h4⟩ := ih (i + 1) (fun y hy => hl y (List.mem_cons_of_mem _ hy)) (by simpa using hex)
      refine ⟨k + 1, y, by simpa using h1, by rw [h2]; congr 1; push_cast; omega, ?_, ?_⟩
      · intro j z hj
        cases j with
        | zero => simp at hj
        | succ j => exact h3 j z (by simpa using hj)
      · intro j z hj hz
        cases j with
        | zero => simp at hz
        | succ j => exact h4 j z (by omega) (by simpa using hz)

theorem numFeasible_pos_iff (l : List Bool) : numFeasibleExtensions l > 0 ↔ true ∈ l := by
  have : ∀ (l : List Bool) (n : Nat), l.foldl (fun n b => n + b.toNat) n = n + l.count true := by
    intro l
    induction l with
    | nil => simp
    | cons a l ih => intro n; rw [List.foldl_cons, ih]; cases a <;> simp; omega
  rw [numFeasibleExtensions, this]
  simp [List.count_pos_iff]

/-- The candidate loop is the argmin loop on the losses. -/
theorem chooseLoop_eq (O : FloatOps F) {g : Graph} (hg : g.WF) (cost prize : Nat → Int) {internal : List Nat}
    (hint : IsWalk g internal) (i : Int) (cands : List (List Nat)) (hc : ∀ p ∈ cands, IsWalk g p) (st : ArgminState F) :
    chooseLoop O g cost prize internal i cands st = .ok (smallestLossLoop O i (cands.map fun p =>
      (unitaryLoss O (prizeSum prize p) (prizeSum prize internal) (walkCost g cost p) (walkCost g cost internal),
        O.lt O.zero (O.ofInt (prizeSum prize p - prizeSum prize internal)))) st) := by
  induction cands generalizing i st with
  | nil => rfl
  | cons p cands ih =>
    have hc' : ∀ q ∈ cands, IsWalk g q := fun q hq => hc q (List.mem_cons_of_mem _ hq)
    rw [chooseLoop, List.map_cons, smallestLossLoop]
    simp only [totalPrize_eq, totalCost_of_isWalk hg cost (hc p (by simp)), totalCost_of_isWalk hg cost hint, Res.ok_bind]
    cases hb : O.lt O.zero (O.ofInt (prizeSum prize p - prizeSum prize internal)) with
    | true => simp only [if_true, Bool.true_and]; exact ih _ hc' _
    | false => simp only [Bool.false_and, if_neg (Bool.false_ne_true)]; exact ih _ hc' _

/-- The chosen candidate has more prize than the internal path. -/
theorem chooseExtensionPath_cases (O : FloatOps F) {g : Graph} (hg : g.WF) (cost prize : Nat → Int) {internal : List Nat}
    (hint : IsWalk g internal) (cands : List (List Nat)) (hc : ∀ p ∈ cands, IsWalk g p) :
    ∃ idx val, chooseExtensionPath O g cost prize cands internal = .ok (idx, val) ∧
      (idx = -1 ∧ (∀ p ∈ cands, O.lt O.zero (O.ofInt (prizeSum prize p - prizeSum prize internal)) = false) ∨
       ∃ (k : Nat) (p : List Nat), idx = k ∧ cands[k]? = some p ∧
        O.lt O.zero (O.ofInt (prizeSum prize p - prizeSum prize internal)) = true) := by
  refine ⟨_, _, by rw [chooseExtensionPath, chooseLoop_eq O hg cost prize hint 0 cands hc]; rfl, ?_⟩
  rcases smallestLossLoop_cases O 0 (cands.map fun p =>
      (unitaryLoss O (prizeSum prize p) (prizeSum prize internal) (walkCost g cost p) (walkCost g cost internal),
        O.lt O.zero (O.ofInt (prizeSum prize p - prizeSum prize internal))))
      { found := false, value := O.zero, index := -1 } with ⟨h1, h2⟩ | ⟨k, x, h1, h2⟩
  · left
    rw [h1]
    refine ⟨rfl, ?_⟩
    rcases h2 with h2 | h2
    · simp at h2
    · intro p hp
      exact h2 _ (List.mem_map.2 ⟨p, hp, rfl⟩)
  · right
    rw [h2]
    rw [List.getElem?_map] at h1
    cases hk : cands[k]? with
    | none => rw [hk] at h1; simp at h1
    | some p =>
      rw [hk] at h1
      simp only [Option.map_some, Option.some.injEq, Prod.mk.injEq] at h1
      exact ⟨k, p, by simp, hk, h1.2⟩

end Pctsp
