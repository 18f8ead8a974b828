import Mathlib.Tactic.Ring
import Mathlib.Tactic.Linarith
import Verif.Model.Logs

/-!
# Lemmas on the tables of statistics and the history of the bounds
-/

namespace Pctsp

variable {D : Type}

/-- A text cut at every occurrence of a separator. -/
def cutAt (sep : Char) : List Char → List (List Char)
  | [] => [[]]
  | c :: cs =>
    if c = sep then [] :: cutAt sep cs
    else match cutAt sep cs with
      | [] => [[c]]
      | x :: xs => (c :: x) :: xs

theorem cutAt_plain {sep : Char} : ∀ {x : List Char}, sep ∉ x → cutAt sep x = [x]
  | [], _ => rfl
  | c :: cs, h => by
    have h1 : c ≠ sep := fun e => h (e ▸ List.mem_cons_self)
    have h2 : sep ∉ cs := fun e => h (List.mem_cons_of_mem _ e)
    simp only [cutAt, if_neg h1, cutAt_plain h2]

theorem cutAt_append {sep : Char} : ∀ {x : List Char} (rest : List Char), sep ∉ x → cutAt sep (x ++ sep :: rest) = x :: cutAt sep rest
  | [], rest, _ => by simp [cutAt]
  | c :: cs, rest, h => by
    have h1 : c ≠ sep := fun e => h (e ▸ List.mem_cons_self)
    have h2 : sep ∉ cs := fun e => h (List.mem_cons_of_mem _ e)
    simp only [List.cons_append, cutAt, if_neg h1, cutAt_append rest h2]

/-- The cells of a table: every line ends with a line break, the cells of a line are separated by commas. -/
def readTable (text : List Char) : List (List (List Char)) := (cutAt '\n' text).dropLast.map (cutAt ',')

theorem cutAt_ne_nil (sep : Char) (x : List Char) : cutAt sep x ≠ [] := by
  cases x with
  | nil => simp [cutAt]
  | cons c cs => simp only [cutAt]; split <;> [simp; (split <;> simp)]

theorem readTable_cons {line : List Char} (rest : List Char) (h : '\n' ∉ line) :
    readTable (line ++ '\n' :: rest) = cutAt ',' line :: readTable rest := by
  unfold readTable
  rw [cutAt_append _ h, List.dropLast_cons_of_ne_nil (cutAt_ne_nil _ _)]
  rfl

theorem readTable_rows (lines : List (List Char)) (h : ∀ l ∈ lines, '\n' ∉ l) :
    readTable (lines.flatMap fun l => l ++ ['\n']) = lines.map (cutAt ',') := by
  induction lines with
  | nil => rfl
  | cons l ls ih =>
    rw [List.flatMap_cons, List.append_assoc, List.singleton_append, readTable_cons _ (h l List.mem_cons_self),
      ih fun x hx => h x (List.mem_cons_of_mem _ hx)]
    rfl

theorem foldl_append_flatMap {α : Type} (f : α → List Char) (xs : List α) (out : List Char) :
    xs.foldl (fun out x => out ++ f x) out = out ++ xs.flatMap f := by
  induction xs generalizing out with
  | nil => simp
  | cons x xs ih => simp [ih, List.flatMap_cons]

/-! ## The default precision -/

theorem divRound_err (n : Nat) {d : Nat} (hd : 0 < d) : 2 * (divRound n d * d) ≤ 2 * n + d ∧ 2 * n ≤ 2 * (divRound n d * d) + d := by
  have h1 := Nat.div_add_mod n d
  have h2 := Nat.mod_lt n hd
  have h3 : (n / d + 1) * d = d * (n / d) + d := by ring
  have h4 : n / d * d = d * (n / d) := by ring
  unfold divRound
  split_ifs <;> (simp only [h3, h4]; omega)

theorem divRound_ge (n d : Nat) : n / d ≤ divRound n d := by unfold divRound; split_ifs <;> omega

theorem divRound_le (n d : Nat) : divRound n d ≤ n / d + 1 := by unfold divRound; split_ifs <;> omega

theorem divRound_mono {m n d : Nat} (h : m ≤ n) : divRound m d ≤ divRound n d := by
  rcases Nat.lt_or_ge (m / d) (n / d) with hlt | hge
  · exact le_trans (divRound_le m d) (le_trans hlt (divRound_ge n d))
  · have he : m / d = n / d := le_antisymm (Nat.div_le_div_right h) hge
    have h1 := Nat.div_add_mod m d
    have h2 := Nat.div_add_mod n d
    rw [he] at h1
    have h3 : m % d ≤ n % d := by omega
    unfold divRound
    rw [he]
    split_ifs <;> omega

theorem lt_dropped {n : Nat} : n < 10 ^ (droppedDigits n + 6) := by
  refine lt_of_lt_of_le (Nat.lt_pow_succ_log_self (by decide) n) (Nat.pow_le_pow_right (by decide) ?_)
  unfold droppedDigits; omega

theorem dropped_le {n : Nat} (h : droppedDigits n ≠ 0) : 10 ^ (droppedDigits n + 5) ≤ n := by
  have h0 : n ≠ 0 := by rintro rfl; simp [droppedDigits] at h
  refine le_trans (Nat.pow_le_pow_right (by decide) ?_) (Nat.pow_log_le_self 10 h0)
  unfold droppedDigits at *; omega

theorem dropped_mono {m n : Nat} (h : m ≤ n) : droppedDigits m ≤ droppedDigits n := by
  unfold droppedDigits; have := Nat.log_mono_right (b := 10) h; omega

theorem print6_le (n : Nat) : print6 n ≤ 10 ^ (droppedDigits n + 6) := by
  unfold print6
  have hd : 0 < 10 ^ droppedDigits n := by positivity
  have h1 : n / 10 ^ droppedDigits n < 10 ^ 6 := by
    rw [Nat.div_lt_iff_lt_mul hd, ← pow_add, Nat.add_comm]; exact lt_dropped
  calc divRound n (10 ^ droppedDigits n) * 10 ^ droppedDigits n ≤ 10 ^ 6 * 10 ^ droppedDigits n :=
        Nat.mul_le_mul_right _ (le_trans (divRound_le _ _) h1)
    _ = 10 ^ (droppedDigits n + 6) := by rw [← pow_add, Nat.add_comm]

theorem le_print6 {n : Nat} (h : droppedDigits n ≠ 0) : 10 ^ (droppedDigits n + 5) ≤ print6 n := by
  unfold print6
  have hd : 0 < 10 ^ droppedDigits n := by positivity
  have h1 : 10 ^ 5 ≤ n / 10 ^ droppedDigits n := by
    rw [Nat.le_div_iff_mul_le hd, ← pow_add, Nat.add_comm]; exact dropped_le h
  calc 10 ^ (droppedDigits n + 5) = 10 ^ 5 * 10 ^ droppedDigits n := by rw [← pow_add, Nat.add_comm]
    _ ≤ _ := Nat.mul_le_mul_right _ (le_trans h1 (divRound_ge _ _))

theorem print6_mono {m n : Nat} (h : m ≤ n) : print6 m ≤ print6 n := by
  rcases Nat.eq_or_lt_of_le (dropped_mono h) with he | hlt
  · unfold print6; rw [he]; exact Nat.mul_le_mul_right _ (divRound_mono h)
  · refine le_trans (print6_le m) (le_trans (Nat.pow_le_pow_right (by decide) ?_) (le_print6 (by omega)))
    omega

theorem dropped_small {n : Nat} (h : n < 10 ^ 6) : droppedDigits n = 0 := by
  by_contra h'
  have := dropped_le h'
  have : 10 ^ 6 ≤ 10 ^ (droppedDigits n + 5) := Nat.pow_le_pow_right (by decide) (by omega)
  omega

/-! ## The history of the bounds -/

theorem boundsRun_ok (es : List (LpSolved D)) (s : BoundsState D) (h : ∀ e ∈ es, e.node.isSome) :
    ∃ s', boundsRun s es = .ok s' ∧ s'.records.length = s.records.length + es.length ∧ s.records <+: s'.records := by
  induction es generalizing s with
  | nil => exact ⟨s, rfl, rfl, List.prefix_rfl⟩
  | cons e es ih =>
    obtain ⟨node, hn⟩ := Option.isSome_iff_exists.1 (h e List.mem_cons_self)
    obtain ⟨s', h1, h2, h3⟩ := ih ⟨toMillis e.now₂, s.records ++ [⟨s.last, toMillis e.now₁, e.lower, e.upper, node % 2 ^ 32⟩]⟩
      fun x hx => h x (List.mem_cons_of_mem _ hx)
    refine ⟨s', ?_, ?_, (List.prefix_append _ _).trans h3⟩
    · simp only [boundsRun, boundsExec, hn, Res.ok_bind]; exact h1
    · simp only [List.length_append, List.length_cons, List.length_nil] at h2 ⊢; omega

theorem boundsRun_ub (es : List (LpSolved D)) (s : BoundsState D) (h : ∃ e ∈ es, e.node = none) : ∃ w, boundsRun s es = .ub w := by
  induction es generalizing s with
  | nil => obtain ⟨e, he, _⟩ := h; cases he
  | cons e es ih =>
    cases hn : e.node with
    | none => exact ⟨_, by simp only [boundsRun, boundsExec, hn]; rfl⟩
    | some node =>
      have h' : ∃ e ∈ es, e.node = none := by
        obtain ⟨x, hx, hx'⟩ := h
        rcases List.mem_cons.1 hx with rfl | hx
        · rw [hn] at hx'; cases hx'
        · exact ⟨x, hx, hx'⟩
      obtain ⟨w, hw⟩ := ih _ h'
      exact ⟨w, by simp only [boundsRun, boundsExec, hn, Res.ok_bind]; exact hw⟩

theorem boundsRun_record (es : List (LpSolved D)) (s s' : BoundsState D) (h : boundsRun s es = .ok s') :
    s'.records.length = s.records.length + es.length ∧ (∀ i, i < s.records.length → s'.records[i]? = s.records[i]?) ∧
    (s'.last = (es.getLast?.map fun e => toMillis e.now₂).getD s.last) ∧
    ∀ (i : Nat) (e : LpSolved D), es[i]? = some e → ∃ r, s'.records[s.records.length + i]? = some r ∧ r.stop = toMillis e.now₁ ∧
      r.lowerBound = e.lower ∧ r.upperBound = e.upper ∧ (∀ n, e.node = some n → r.nodeId = n % 2 ^ 32) ∧ (i = 0 → r.start = s.last) ∧
      ∀ (j : Nat) (e' : LpSolved D), i = j + 1 → es[j]? = some e' → r.start = toMillis e'.now₂ := by
  induction es generalizing s with
  | nil =>
    simp only [boundsRun, Res.ok.injEq] at h; subst h
    exact ⟨rfl, fun _ _ => rfl, rfl, fun i e he => by simp at he⟩
  | cons e es ih =>
    cases hn : e.node with
    | none => simp only [boundsRun, boundsExec, hn] at h; cases h
    | some node =>
      simp only [boundsRun, boundsExec, hn, Res.ok_bind] at h
      obtain ⟨h1, h2, h3, h4⟩ := ih _ h
      simp only [List.length_append, List.length_cons, List.length_nil, Nat.zero_add] at h1 h2 h4
      refine ⟨by simp only [List.length_cons]; omega, fun i hi => ?_, ?_, fun i x hx => ?_⟩
      · rw [h2 i (by omega), List.getElem?_append_left hi]
      · rw [h3]
        cases es with
        | nil => rfl
        | cons y ys => simp [List.getLast?_cons_cons, List.getLast?_cons]
      · cases i with
        | zero =>
          simp only [List.getElem?_cons_zero, Option.some.injEq] at hx; subst hx
          refine ⟨⟨s.last, toMillis e.now₁, e.lower, e.upper, node % 2 ^ 32⟩, ?_, rfl, rfl, rfl, ?_, fun _ => rfl, fun j _ hj => by omega⟩
          · rw [Nat.add_zero, h2 _ (by omega), List.getElem?_append_right (le_refl _)]; simp
          · intro n hn'; rw [hn, Option.some.injEq] at hn'; rw [hn']
        | succ i =>
          rw [List.getElem?_cons_succ] at hx
          obtain ⟨r, r1, r2, r3, r4, r5, r6, r7⟩ := h4 i x hx
          refine ⟨r, by rw [← r1]; congr 1; omega, r2, r3, r4, r5, fun h0 => by omega, fun j e' hj he' => ?_⟩
          obtain rfl : i = j := by omega
          cases i with
          | zero => simp only [List.getElem?_cons_zero, Option.some.injEq] at he'; subst he'; exact r6 rfl
          | succ i => rw [List.getElem?_cons_succ] at he'; exact r7 i e' rfl he'

/-- The readings of the clock by the events of a run. -/
def clockReadings (es : List (LpSolved D)) : List Nat := es.flatMap fun e => [e.now₁, e.now₂]

/-- The ends of the intervals of a history. -/
def intervalEnds (rs : List (BoundsRecord D)) : List Nat := rs.flatMap fun r => [r.start, r.stop]

/-- The time that the intervals of a history cover. -/
def covered (rs : List (BoundsRecord D)) : Nat := (rs.map fun r => r.stop - r.start).sum

theorem toMillis_mono {a b : Nat} (h : a ≤ b) : toMillis a ≤ toMillis b := Nat.div_le_div_right h

theorem boundsRun_intervals (es : List (LpSolved D)) (s s' : BoundsState D) (h : boundsRun s es = .ok s')
    (hs : ∀ x ∈ clockReadings es, s.last ≤ toMillis x) (hp : (clockReadings es).Pairwise (· ≤ ·)) :
    ∃ new, s'.records = s.records ++ new ∧ (intervalEnds new).Pairwise (· ≤ ·) ∧ (∀ x ∈ intervalEnds new, s.last ≤ x) ∧
      covered new + s.last ≤ s'.last := by
  induction es generalizing s with
  | nil =>
    simp only [boundsRun, Res.ok.injEq] at h; subst h
    exact ⟨[], by simp, by simp [intervalEnds], by simp [intervalEnds], by simp [covered]⟩
  | cons e es ih =>
    cases hn : e.node with
    | none => simp only [boundsRun, boundsExec, hn] at h; cases h
    | some node =>
      simp only [boundsRun, boundsExec, hn, Res.ok_bind] at h
      simp only [clockReadings, List.flatMap_cons, List.cons_append, List.nil_append, List.pairwise_cons, List.mem_cons] at hs hp
      obtain ⟨p1, p2, p3⟩ := hp
      have m1 := hs e.now₁ (Or.inl rfl)
      have m2 := toMillis_mono (p1 e.now₂ (Or.inl rfl))
      obtain ⟨new, n1, n2, n3, n4⟩ := ih _ h (fun x hx => toMillis_mono (p2 x hx)) p3
      refine ⟨⟨s.last, toMillis e.now₁, e.lower, e.upper, node % 2 ^ 32⟩ :: new, by rw [n1]; simp, ?_, ?_, ?_⟩
      · simp only [intervalEnds, List.flatMap_cons, List.cons_append, List.nil_append, List.pairwise_cons, List.mem_cons]
        refine ⟨?_, ?_, n2⟩
        · rintro x (rfl | hx)
          · exact m1
          · exact le_trans m1 (le_trans m2 (n3 x hx))
        · exact fun x hx => le_trans m2 (n3 x hx)
      · simp only [intervalEnds, List.flatMap_cons, List.cons_append, List.nil_append, List.mem_cons]
        rintro x (rfl | rfl | hx)
        · exact le_refl _
        · exact m1
        · exact le_trans m1 (le_trans m2 (n3 x hx))
      · simp only [covered, List.map_cons, List.sum_cons] at n4 ⊢; omega

end Pctsp
