import Verif.Lemmas.PyHeuristic
import Verif.Lemmas.BfsCycle

/-!
# Properties of the first tours found by the Python heuristics (C71 to C76)
-/

namespace Pctsp

variable {V : Type} [DecidableEq V]

/-! ## C71: a tour from two paths -/

/-- C71.  Two paths with the same ends, at least one edge each, become the closed walk along the first and back along the second; everything else
raises `ValueError`. -/
theorem C71_outcome (paths : List V × List V) :
    (∀ s x a b, paths = (s :: (a ++ [x]), s :: (b ++ [x])) → tourFromPaths paths = .ok (s :: (a ++ x :: (b.reverse ++ [s])))) ∧
    ((¬ ∃ s x a b, paths = (s :: (a ++ [x]), s :: (b ++ [x]))) → tourFromPaths paths = .throw .valueError) := by
  constructor
  · rintro s x a b rfl; exact tourFromPaths_pair s x a b
  · intro h
    rcases tourFromPaths_spec paths with ⟨t, ⟨s, x, a, b, h1, h2, -⟩, -⟩ | ⟨-, h2⟩
    · exact absurd ⟨s, x, a, b, Prod.ext h1 h2⟩ h
    · exact h2

/-- C71.  The steps of the tour are those of the two paths, the second ones backwards, so for every symmetric cost the cost of the tour is the
sum of the costs of the paths. -/
theorem C71_cost (p q t : List V) (h : tourFromPaths (p, q) = .ok t) (w : V → V → Int) (hw : ∀ u v, w u v = w v u) :
    ((consec t).map fun e => w e.1 e.2).sum = ((consec p).map fun e => w e.1 e.2).sum + ((consec q).map fun e => w e.1 e.2).sum := by
  obtain ⟨s, x, a, b, h1, h2, rfl⟩ := tourFromPaths_eq_ok.1 h
  simp only at h1 h2
  subst h1 h2
  rw [← List.cons_append, consec_append, List.map_append, List.sum_append]
  congr 1
  have : x :: (b.reverse ++ [s]) = (s :: (b ++ [x])).reverse := by simp
  rw [this, consec_reverse, List.map_reverse, List.sum_reverse, List.map_map]
  congr 1
  apply List.map_congr_left
  intro e _
  exact hw _ _

/-- C71.  The tour repeats no vertex but the first iff the paths are simple and share only their ends.  (Both may be the same single edge.) -/
theorem C71_simple (s x : V) (a b t : List V) (h : tourFromPaths (s :: (a ++ [x]), s :: (b ++ [x])) = .ok t) :
    t.dropLast.Nodup ↔ (s :: (a ++ [x])).Nodup ∧ (s :: (b ++ [x])).Nodup ∧ ∀ v ∈ a, v ∉ b := by
  rw [tourFromPaths_pair] at h
  injection h with h
  subst h
  have : (s :: (a ++ x :: (b.reverse ++ [s]))).dropLast = s :: (a ++ x :: b.reverse) := by
    have : s :: (a ++ x :: (b.reverse ++ [s])) = (s :: (a ++ x :: b.reverse)) ++ [s] := by simp
    rw [this, List.dropLast_concat]
  rw [this]
  simp only [List.nodup_cons, List.mem_append, List.mem_cons, List.mem_reverse, List.nodup_append, List.nodup_reverse,
    List.not_mem_nil, List.nodup_nil, or_false, not_false_eq_true]
  constructor
  · rintro ⟨h1, h2, ⟨h3, h4⟩, h5⟩
    refine ⟨⟨by tauto, h2, by simp, ?_⟩, ⟨by tauto, h4, by simp, ?_⟩, ?_⟩
    · intro v hv w hw; rw [hw]; exact h5 v hv x (.inl rfl)
    · intro v hv w hw; rw [hw]; rintro rfl; exact h3 hv
    · intro v hv hvb; exact h5 v hv v (.inr hvb) rfl
  · rintro ⟨⟨h1, h2, -, h3⟩, ⟨h4, h5, -, h6⟩, h7⟩
    refine ⟨by tauto, h2, ⟨fun hx => h6 x hx x rfl rfl, h5⟩, ?_⟩
    intro v hv w hw
    rcases hw with rfl | hw
    · exact h3 v hv w rfl
    · rintro rfl; exact h7 v hv hw

example : tourFromPaths ([0, 1, 2], [0, 3, 4, 2]) = .ok [0, 1, 2, 4, 3, 0] := rfl
example : tourFromPaths ([0, 1], [0, 1]) = .ok [0, 1, 0] := rfl
example : tourFromPaths ([0], ([] : List Nat)) = .throw .valueError := rfl

/-! ## C72: Suurballe's heuristic -/

/-- C72.  If every entry is a pair of paths with common ends and has a cost, the heuristic returns the tour of the first entry of least cost
among those that reach the quota without repeating a vertex (and cost less than `sys.maxsize`); it returns the empty list iff there is none. -/
theorem C72_heuristic (maxsize : Int) (prizeOf : List V → Int) (quota : Int) (costMap : V → Option Int) (m : List (V × (List V × List V)))
    (hm : ∀ e ∈ m, (∃ t, ClosesTo e.2 t) ∧ ∃ c, costMap e.1 = some c) :
    ∃ r, suurballesHeuristic maxsize prizeOf quota costMap m = .ok r ∧
      (r = [] ↔ ∀ e ∈ m, ∀ t c, ClosesTo e.2 t → costMap e.1 = some c → ¬ Qualifies prizeOf quota maxsize c t) ∧
      (r ≠ [] → ∃ A e B c, m = A ++ e :: B ∧ ClosesTo e.2 r ∧ costMap e.1 = some c ∧ Qualifies prizeOf quota maxsize c r ∧
        (∀ f ∈ A, ∀ t d, ClosesTo f.2 t → costMap f.1 = some d → Qualifies prizeOf quota maxsize d t → c < d) ∧
        (∀ f ∈ B, ∀ t d, ClosesTo f.2 t → costMap f.1 = some d → Qualifies prizeOf quota maxsize d t → c ≤ d)) := by
  obtain ⟨r, hr, h | h⟩ := suurballesLoop_spec prizeOf quota costMap m hm maxsize []
  · exact ⟨r, hr, ⟨fun _ => h.2, fun _ => h.1⟩, fun hne => absurd h.1 hne⟩
  · refine ⟨r, hr, ⟨fun h0 => ?_, fun h0 => ?_⟩, fun _ => h⟩
    · obtain ⟨A, e, B, c, -, h1, -⟩ := h
      exact absurd h0 (closesTo_ne_nil h1)
    · obtain ⟨A, e, B, c, rfl, h1, h2, h3, -⟩ := h
      exact absurd h3 (h0 e (by simp) r c h1 h2)

/-- C72.  An entry that is no such pair, for example `([root], [])`, makes the whole heuristic raise `ValueError` (unless a missing cost of an
earlier entry raises `KeyError` first). -/
theorem C72_errors (maxsize : Int) (prizeOf : List V → Int) (quota : Int) (costMap : V → Option Int) (A B : List (V × (List V × List V)))
    (e : V × (List V × List V)) (hA : ∀ f ∈ A, (∃ t, ClosesTo f.2 t) ∧ ∃ c, costMap f.1 = some c) :
    ((∀ t, ¬ ClosesTo e.2 t) → suurballesHeuristic maxsize prizeOf quota costMap (A ++ e :: B) = .throw .valueError) ∧
    ((∃ t, ClosesTo e.2 t) → costMap e.1 = none → suurballesHeuristic maxsize prizeOf quota costMap (A ++ e :: B) = .throw .keyError) := by
  simp only [suurballesHeuristic]
  generalize maxsize = least
  generalize ([] : List V) = best
  induction A generalizing least best with
  | nil =>
    obtain ⟨v, paths⟩ := e
    constructor
    · intro h
      rcases tourFromPaths_spec paths with ⟨t, h1, -⟩ | ⟨-, h2⟩
      · exact absurd h1 (h t)
      · simp only [List.nil_append, suurballesLoop, h2, Res.throw_bind]
    · rintro ⟨t, ht⟩ h
      simp only at h
      simp only [List.nil_append, suurballesLoop, tourFromPaths_eq_ok.2 ht, Res.ok_bind, h]
  | cons f A ih =>
    obtain ⟨⟨t, ht⟩, c, hc⟩ := hA f (by simp)
    have ih := ih (fun f hf => hA f (by simp [hf]))
    obtain ⟨v, paths⟩ := f
    simp only at hc
    simp only [List.cons_append, suurballesLoop, tourFromPaths_eq_ok.2 ht, Res.ok_bind, hc]
    split
    · exact ih _ _
    · exact ih _ _

/-- Two entries for a diamond 0-1-2-3 with the chord 1-3: the cheaper tour misses the quota. -/
def exPairs : List (Nat × (List Nat × List Nat)) := [(1, ([0, 1], [0, 3, 1])), (2, ([0, 1, 2], [0, 3, 2]))]
/-- Costs of the entries. -/
def exPairCost : Nat → Option Int := fun v => if v = 1 then some 5 else if v = 2 then some 8 else none

example : ∀ e ∈ exPairs, (∃ t, ClosesTo e.2 t) ∧ ∃ c, exPairCost e.1 = some c := by
  intro e he
  simp [exPairs] at he
  rcases he with rfl | rfl
  · exact ⟨⟨_, 0, 1, [], [3], rfl, rfl, rfl⟩, 5, rfl⟩
  · exact ⟨⟨_, 0, 2, [1], [3], rfl, rfl, rfl⟩, 8, rfl⟩
example : suurballesHeuristic 1000 (fun t => t.length - 1) 4 exPairCost exPairs = .ok [0, 1, 2, 3, 0] := by decide +kernel
example : suurballesHeuristic 1000 (fun t => t.length - 1) 3 exPairCost exPairs = .ok [0, 1, 3, 0] := by decide +kernel
example : suurballesHeuristic 1000 (fun t => t.length - 1) 5 exPairCost exPairs = .ok [] := by decide +kernel
example : suurballesHeuristic 1000 (fun t => t.length - 1) 4 exPairCost ((0, ([0], [])) :: exPairs) = .throw .valueError := by decide +kernel

/-! ## C73: the initial tour -/

/-- C73.  The initial tour is that of the heuristic if there is one; otherwise the first tour of greatest prize among all entries, and the empty
list iff no tour has a positive prize. -/
theorem C73_init (maxsize : Int) (prizeOf : List V → Int) (quota : Int) (costMap : V → Option Int) (m : List (V × (List V × List V)))
    (hm : ∀ e ∈ m, (∃ t, ClosesTo e.2 t) ∧ ∃ c, costMap e.1 = some c) :
    ∃ r, suurballesInit maxsize prizeOf quota costMap m = .ok r ∧
      ((∃ e ∈ m, ∃ t c, ClosesTo e.2 t ∧ costMap e.1 = some c ∧ Qualifies prizeOf quota maxsize c t) →
        suurballesHeuristic maxsize prizeOf quota costMap m = .ok r) ∧
      ((¬ ∃ e ∈ m, ∃ t c, ClosesTo e.2 t ∧ costMap e.1 = some c ∧ Qualifies prizeOf quota maxsize c t) →
        (r = [] ↔ ∀ e ∈ m, ∀ t, ClosesTo e.2 t → prizeOf t ≤ 0) ∧
        (r ≠ [] → ∃ A e B, m = A ++ e :: B ∧ ClosesTo e.2 r ∧ (∀ f ∈ A, ∀ t, ClosesTo f.2 t → prizeOf t < prizeOf r) ∧
          (∀ f ∈ B, ∀ t, ClosesTo f.2 t → prizeOf t ≤ prizeOf r))) := by
  obtain ⟨h, hh, h1, -⟩ := C72_heuristic maxsize prizeOf quota costMap m hm
  by_cases hq : ∃ e ∈ m, ∃ t c, ClosesTo e.2 t ∧ costMap e.1 = some c ∧ Qualifies prizeOf quota maxsize c t
  · have hne : h ≠ [] := by
      intro h0
      obtain ⟨e, he, t, c, h3, h4, h5⟩ := hq
      exact h1.1 h0 e he t c h3 h4 h5
    exact ⟨h, by simp [suurballesInit, hh, hne], fun _ => hh, fun hn => absurd hq hn⟩
  · have h0 : h = [] := h1.2 fun e he t c h3 h4 h5 => hq ⟨e, he, t, c, h3, h4, h5⟩
    obtain ⟨r, hr, hcase⟩ := biggestTourLoop_spec prizeOf m (fun e he => (hm e he).1) 0 []
    refine ⟨r, by simp [suurballesInit, hh, h0, hr], fun hn => absurd hn hq, fun _ => ?_⟩
    rcases hcase with ⟨rfl, hno⟩ | ⟨A, e, B, hm', h3, h4, h5, h6⟩
    · exact ⟨⟨fun _ => hno, fun _ => rfl⟩, fun hn => absurd rfl hn⟩
    · refine ⟨⟨fun hn => absurd hn (closesTo_ne_nil h3), fun hno => ?_⟩, fun _ => ⟨A, e, B, hm', h3, h5, h6⟩⟩
      have := hno e (by rw [hm']; simp) r h3
      omega

/-- C73.  The fallback does not test for repetitions: it can return a closed walk that visits the root three times, although a simple tour is among
the entries. -/
theorem C73_not_simple : ∃ (m : List (Nat × (List Nat × List Nat))) (costMap : Nat → Option Int) (r : List Nat),
    (∀ e ∈ m, (∃ t, ClosesTo e.2 t) ∧ ∃ c, costMap e.1 = some c) ∧
    suurballesInit 1000 (fun t => t.length - 1) 100 costMap m = .ok r ∧ ¬ r.dropLast.Nodup ∧
    ∃ e ∈ m, ∃ t, ClosesTo e.2 t ∧ t.dropLast.Nodup := by
  refine ⟨[(1, ([0, 1], [0, 2, 1])), (0, ([0, 1, 2, 0], [0, 3, 4, 0]))], fun _ => some 1, [0, 1, 2, 0, 4, 3, 0], ?_, by decide +kernel,
    by decide, ?_⟩
  · intro e he
    simp at he
    rcases he with rfl | rfl
    · exact ⟨⟨_, 0, 1, [], [2], rfl, rfl, rfl⟩, 1, rfl⟩
    · exact ⟨⟨_, 0, 0, [1, 2], [3, 4], rfl, rfl, rfl⟩, 1, rfl⟩
  · exact ⟨(1, ([0, 1], [0, 2, 1])), by simp, [0, 1, 2, 0], ⟨0, 1, [], [2], rfl, rfl, rfl⟩, by decide⟩

example : suurballesInit 1000 (fun t => t.length - 1) 5 exPairCost exPairs = .ok [0, 1, 2, 3, 0] := by decide +kernel
example : suurballesInit 1000 (fun t => t.length - 1) 3 exPairCost exPairs = .ok [0, 1, 3, 0] := by decide +kernel

/-! ## C74: a random tour of a complete graph -/

omit [DecidableEq V] in
theorem randomChoice_mem {r : Nat} {l : List V} (h : l ≠ []) : ∃ v ∈ l, randomChoice r l = .ok v := by
  have hlt : r % l.length < l.length := Nat.mod_lt _ (List.length_pos_iff.2 h)
  refine ⟨l[r % l.length], List.getElem_mem hlt, ?_⟩
  simp only [randomChoice, List.getElem?_eq_getElem hlt]

omit [DecidableEq V] in
theorem randomChoice_nil (r : Nat) : randomChoice r ([] : List V) = .throw .indexError := by simp [randomChoice]

theorem randomTourLoop_spec (rnd : Nat → Nat) (pr : V → Int) (quota : Int) :
    ∀ (fuel k : Nat) (tour : List V) (sum : Int) (left : List V), left.length < fuel → left.Nodup →
    ∃ picks, randomTourLoop rnd (fun v => some (pr v)) quota fuel k tour sum left = .ok (tour ++ picks) ∧ picks.Nodup ∧
      (∀ v ∈ picks, v ∈ left) ∧ (quota ≤ sum + (picks.map pr).sum ∧ 3 ≤ tour.length + picks.length ∨ picks.Perm left) ∧
      ∀ A v B, picks = A ++ v :: B → sum + (A.map pr).sum < quota ∨ tour.length + A.length < 3 := by
  intro fuel
  induction fuel with
  | zero => intro _ _ _ _ h; omega
  | succ fuel ih =>
    intro k tour sum left hlen hnd
    rw [randomTourLoop]
    split
    · rename_i hcond
      have hne : left ≠ [] := List.length_pos_iff.1 hcond.1
      obtain ⟨v, hv, hc⟩ := randomChoice_mem (r := rnd k) hne
      have hl : (left.erase v).length < fuel := by rw [List.length_erase_of_mem hv]; omega
      obtain ⟨picks, h1, h2, h3, h4, h5⟩ := ih (k + 1) (tour ++ [v]) (sum + pr v) (left.erase v) hl (hnd.erase v)
      refine ⟨v :: picks, ?_, ?_, ?_, ?_, ?_⟩
      · simp only [hc, Res.ok_bind, h1]; simp
      · rw [List.nodup_cons]
        refine ⟨fun hm => ?_, h2⟩
        have := h3 v hm
        exact absurd this (by rw [hnd.mem_erase_iff]; simp)
      · intro w hw
        rcases List.mem_cons.1 hw with rfl | hw
        · exact hv
        · exact List.mem_of_mem_erase (h3 w hw)
      · rcases h4 with h4 | h4
        · left
          simp only [List.map_cons, List.sum_cons, List.length_cons, List.length_append, List.length_nil] at h4 ⊢
          omega
        · right
          exact (h4.cons v).trans (List.perm_cons_erase hv).symm
      · intro A w B hA
        cases A with
        | nil => simpa using hcond.2
        | cons a A =>
          simp only [List.cons_append, List.cons.injEq] at hA
          obtain ⟨rfl, hA⟩ := hA
          have := h5 A w B hA
          simp only [List.map_cons, List.sum_cons, List.length_cons, List.length_append, List.length_nil] at this ⊢
          omega
    · rename_i hcond
      refine ⟨[], by simp, List.nodup_nil, by simp, ?_, by simp⟩
      by_cases hne : left = []
      · right; rw [hne]
      · left
        have : 0 < left.length := List.length_pos_iff.2 hne
        simp only [List.map_nil, List.sum_nil, List.length_nil]
        omega

/-- C74.  Whatever the random numbers, the result is a closed tour from the root through different vertices; it collects the quota and has at
least three vertices, or visits all vertices; without its last vertex it would not, so no vertex is visited in vain. -/
theorem C74_random_tour (rnd : Nat → Nat) (pr : V → Int) (nodes : List V) (root : V) (quota : Int) (hn : nodes.Nodup) (hr : root ∈ nodes) :
    ∃ picks, randomTourComplete rnd (fun v => some (pr v)) nodes root quota = .ok (root :: (picks ++ [root])) ∧
      (root :: picks).Nodup ∧ (∀ v ∈ picks, v ∈ nodes) ∧
      (quota ≤ ((root :: picks).map pr).sum ∧ 3 ≤ (root :: picks).length ∨ (root :: picks).Perm nodes) ∧
      (∀ A v B, picks = A ++ v :: B → ((root :: A).map pr).sum < quota ∨ (root :: A).length < 3) ∧
      (quota ≤ (nodes.map pr).sum → quota ≤ ((root :: picks).map pr).sum) ∧
      (3 ≤ nodes.length → 3 ≤ (root :: picks).length) := by
  obtain ⟨picks, h1, h2, h3, h4, h5⟩ := randomTourLoop_spec rnd pr quota ((nodes.erase root).length + 1) 0 [root] (pr root) (nodes.erase root)
    (Nat.lt_succ_self _) (hn.erase root)
  have hperm : picks.Perm (nodes.erase root) → (root :: picks).Perm nodes := fun h => (h.cons root).trans (List.perm_cons_erase hr).symm
  have h4' : quota ≤ ((root :: picks).map pr).sum ∧ 3 ≤ (root :: picks).length ∨ (root :: picks).Perm nodes := by
    rcases h4 with h4 | h4
    · left
      simp only [List.map_cons, List.sum_cons, List.length_cons, List.length_nil] at h4 ⊢
      omega
    · exact .inr (hperm h4)
  refine ⟨picks, ?_, ?_, fun v hv => List.mem_of_mem_erase (h3 v hv), h4', ?_, ?_, ?_⟩
  · simp only [randomTourComplete, hr, if_true, h1, Res.ok_bind]; simp
  · rw [List.nodup_cons]
    refine ⟨fun hm => ?_, h2⟩
    have := h3 root hm
    exact absurd this (by rw [hn.mem_erase_iff]; simp)
  · intro A v B hA
    have := h5 A v B hA
    simp only [List.map_cons, List.sum_cons, List.length_cons, List.length_nil] at this ⊢
    omega
  · intro hq
    rcases h4' with h | h
    · exact h.1
    · rw [sum_eq_of_perm (h.map pr)]; exact hq
  · intro hq
    rcases h4' with h | h
    · exact h.2
    · rw [h.length_eq]; exact hq

theorem randomTourLoop_outcome (rnd : Nat → Nat) (prize : V → Option Int) (quota : Int) : ∀ (fuel k : Nat) (tour : List V) (sum : Int) (left : List V),
    left.length < fuel → (∃ t, randomTourLoop rnd prize quota fuel k tour sum left = .ok t) ∨
      randomTourLoop rnd prize quota fuel k tour sum left = .throw .keyError ∧ ∃ v ∈ left, prize v = none := by
  intro fuel
  induction fuel with
  | zero => intro k tour sum left h; omega
  | succ fuel ih =>
    intro k tour sum left h
    rw [randomTourLoop]
    split
    · rename_i hc
      obtain ⟨v, hv, hvc⟩ := randomChoice_mem (r := rnd k) (List.length_pos_iff.1 hc.1)
      simp only [hvc, Res.ok_bind]
      cases hp : prize v with
      | none => exact .inr ⟨rfl, v, hv, hp⟩
      | some p =>
        rcases ih (k + 1) (tour ++ [v]) (sum + p) (left.erase v) (by rw [List.length_erase_of_mem hv]; omega) with h1 | ⟨h1, w, hw, h2⟩
        · exact .inl h1
        · exact .inr ⟨h1, w, List.mem_of_mem_erase hw, h2⟩
    · exact .inl ⟨_, rfl⟩

/-- C74.  The failures: a root without prize raises `KeyError`, a root that is no vertex `ValueError`; otherwise the only possible failure is a
`KeyError` for another vertex without prize. -/
theorem C74_errors (rnd : Nat → Nat) (prize : V → Option Int) (nodes : List V) (root : V) (quota : Int) :
    (prize root = none → randomTourComplete rnd prize nodes root quota = .throw .keyError) ∧
    (prize root ≠ none → root ∉ nodes → randomTourComplete rnd prize nodes root quota = .throw .valueError) ∧
    (prize root ≠ none → root ∈ nodes → (∃ t, randomTourComplete rnd prize nodes root quota = .ok t) ∨
      randomTourComplete rnd prize nodes root quota = .throw .keyError ∧ ∃ v ∈ nodes, prize v = none) := by
  refine ⟨fun h => by simp [randomTourComplete, h], fun h hr => ?_, fun h hr => ?_⟩
  · obtain ⟨p, hp⟩ := Option.ne_none_iff_exists'.1 h
    simp [randomTourComplete, hp, hr]
  · obtain ⟨p, hp⟩ := Option.ne_none_iff_exists'.1 h
    simp only [randomTourComplete, hp, hr, if_true]
    rcases randomTourLoop_outcome rnd prize quota ((nodes.erase root).length + 1) 0 [root] p (nodes.erase root) (Nat.lt_succ_self _) with
      ⟨t, h1⟩ | ⟨h1, v, hv, h2⟩
    · exact .inl ⟨t ++ [root], by rw [h1]; rfl⟩
    · exact .inr ⟨by rw [h1]; rfl, v, List.mem_of_mem_erase hv, h2⟩

example : randomTourComplete (fun _ => 0) (fun v : Nat => if v = 0 then some 1 else none) [0, 1, 2] 0 1 = .throw .keyError := by decide +kernel
example : randomTourComplete (fun k => 3 * k + 1) (fun v => some (v : Int)) [0, 1, 2, 3, 4] 0 5 = .ok [0, 2, 3, 0] := by decide +kernel

/-! ## C75: a random pair of paths -/

theorem randomDisjointLoop_spec (rnd : Nat → Nat) (pathsOf : V → List V × List V) :
    ∀ (fuel k : Nat) (vertex : V) (choices : List V), choices.length ≤ fuel → choices.Nodup → vertex ∈ choices →
    randomDisjointLoop rnd pathsOf fuel k vertex choices = .throw .indexError ∨
    ∃ w ∈ choices, ∃ v ∈ choices, v ≠ w ∧ 5 ≤ (pathsOf v).1.length + (pathsOf v).2.length ∧
      randomDisjointLoop rnd pathsOf fuel k vertex choices = .ok w := by
  intro fuel
  induction fuel with
  | zero => intro k vertex choices h _ hv; cases choices <;> simp at h hv
  | succ fuel ih =>
    intro k vertex choices hl hn hv
    rw [randomDisjointLoop]
    by_cases hne : choices.erase vertex = []
    · left; simp only [hne, randomChoice_nil, Res.throw_bind]
    · obtain ⟨w, hw, hc⟩ := randomChoice_mem (r := rnd k) hne
      simp only [hc, Res.ok_bind, decide_eq_true_eq]
      split
      · rename_i hlong
        have hle : (choices.erase vertex).length ≤ fuel := by rw [List.length_erase_of_mem hv]; omega
        rcases ih (k + 1) w _ hle (hn.erase vertex) hw with h | ⟨x, hx, v, hv', h1, h2, h3⟩
        · exact .inl h
        · exact .inr ⟨x, List.mem_of_mem_erase hx, v, List.mem_of_mem_erase hv', h1, h2, h3⟩
      · right
        refine ⟨w, List.mem_of_mem_erase hw, vertex, hv, ?_, by omega, rfl⟩
        rw [hn.mem_erase_iff] at hw
        exact Ne.symm hw.1

/-- The vertices that can be drawn. -/
theorem mem_choices {keys : List V} {root v : V} (hn : keys.Nodup) :
    v ∈ (if root ∈ keys then keys.erase root else keys) ↔ v ∈ keys ∧ v ≠ root := by
  split
  · rw [hn.mem_erase_iff]; tauto
  · rename_i h
    constructor
    · exact fun hv => ⟨hv, fun e => h (e ▸ hv)⟩
    · exact fun hv => hv.1

/-- C75.  A returned tour belongs to a vertex `w`, but the test of the lengths was passed by another vertex `v`: the vertex is redrawn after the
test.  So if only one vertex has long enough paths, its tour is never returned. -/
theorem C75_untested (rnd : Nat → Nat) (keys : List V) (pathsOf : V → List V × List V) (root : V) (t : List V) (hn : keys.Nodup)
    (h : randomTourDisjoint rnd keys pathsOf root = .ok t) :
    ∃ w ∈ keys, w ≠ root ∧ ClosesTo (pathsOf w) t ∧
      ∃ v ∈ keys, v ≠ root ∧ v ≠ w ∧ 5 ≤ (pathsOf v).1.length + (pathsOf v).2.length := by
  simp only [randomTourDisjoint] at h
  have hmem : ∀ v, v ∈ (if root ∈ keys then keys.erase root else keys) ↔ v ∈ keys ∧ v ≠ root := fun v => mem_choices hn
  have hnd : (if root ∈ keys then keys.erase root else keys).Nodup := by split; exacts [hn.erase root, hn]
  generalize (if root ∈ keys then keys.erase root else keys) = choices at *
  split at h
  · cases h
  · rename_i hl
    have hne : choices ≠ [] := fun e => hl (by rw [e]; rfl)
    obtain ⟨u, hu, hc⟩ := randomChoice_mem (r := rnd 0) hne
    simp only [hc, Res.ok_bind, Res.bind_eq_ok] at h
    obtain ⟨w, hw, ht⟩ := h
    rcases randomDisjointLoop_spec rnd pathsOf choices.length 1 u choices (le_refl _) hnd hu with h1 | ⟨w', hw', v, hv, h1, h2, h3⟩
    · rw [h1] at hw; cases hw
    · rw [hw] at h3; injection h3 with h3; subst h3
      exact ⟨w, ((hmem w).1 hw').1, ((hmem w).1 hw').2, tourFromPaths_eq_ok.1 ht, v, ((hmem v).1 hv).1, ((hmem v).1 hv).2, h1, h2⟩

/-- C75.  With a single candidate the function always fails with `IndexError`, with none it raises the documented `ValueError`. -/
theorem C75_single (rnd : Nat → Nat) (keys : List V) (pathsOf : V → List V × List V) (root : V) (hn : keys.Nodup) :
    ((∀ v ∈ keys, v = root) → randomTourDisjoint rnd keys pathsOf root = .throw .valueError) ∧
    (∀ u ∈ keys, u ≠ root → (∀ v ∈ keys, v = root ∨ v = u) → randomTourDisjoint rnd keys pathsOf root = .throw .indexError) := by
  simp only [randomTourDisjoint]
  have hmem : ∀ v, v ∈ (if root ∈ keys then keys.erase root else keys) ↔ v ∈ keys ∧ v ≠ root := fun v => mem_choices hn
  have hnd : (if root ∈ keys then keys.erase root else keys).Nodup := by split; exacts [hn.erase root, hn]
  generalize (if root ∈ keys then keys.erase root else keys) = choices at *
  constructor
  · intro h
    have : choices = [] := by
      rw [List.eq_nil_iff_forall_not_mem]; intro v hv; exact ((hmem v).1 hv).2 (h v ((hmem v).1 hv).1)
    simp [this]
  · intro u hu hur h
    have hall : ∀ v ∈ choices, v = u := fun v hv => ((h v ((hmem v).1 hv).1).resolve_left ((hmem v).1 hv).2)
    have hu' := (hmem u).2 ⟨hu, hur⟩
    have : choices = [u] := by
      match choices, hu', hall, hnd with
      | [x], hu', _, _ => simp at hu'; rw [hu']
      | x :: y :: l, _, hall, hnd =>
        have h1 := hall x (by simp)
        have h2 := hall y (by simp)
        subst h1; subst h2; simp at hnd
    subst this
    simp [randomChoice, randomDisjointLoop, Nat.mod_one]

/-- C75.  Two candidates: if the first one is drawn and passes the test, the tour of the other one is returned. -/
theorem C75_two (rnd : Nat → Nat) (pathsOf : V → List V × List V) (root u v : V) (t : List V) (hur : u ≠ root) (hvr : v ≠ root)
    (h1 : 5 ≤ (pathsOf u).1.length + (pathsOf u).2.length)
    (ht : ClosesTo (pathsOf v) t) (hr : rnd 0 % 2 = 0) : randomTourDisjoint rnd [u, v] pathsOf root = .ok t := by
  have h3 : ¬ (pathsOf u).1.length + (pathsOf u).2.length < 5 := by omega
  have e1 : root ∉ [u, v] := by simp [Ne.symm hur, Ne.symm hvr]
  simp only [randomTourDisjoint, e1, if_false, List.length_cons, List.length_nil, randomChoice, hr]
  simp [randomDisjointLoop, h3, randomChoice, Nat.mod_one, tourFromPaths_eq_ok.2 ht]

-- the only vertex with long paths is 1, the result is the degenerate tour of vertex 2
example : randomTourDisjoint (fun _ => 0) [0, 1, 2] (fun v => if v = 1 then ([0, 1], [0, 2, 1]) else ([0, 2], [0, 2])) 0 = .ok [0, 2, 0] := by
  decide +kernel
example : randomTourDisjoint (fun _ => 0) [0, 1] (fun _ => ([0, 1], [0, 2, 1])) 0 = .throw .indexError := by decide +kernel

/-! ## C76: a cycle through the root from a breadth first search -/

/-- C76.  For a vertex of an undirected graph (self-loops allowed), every breadth first search tree and every order in which sets are iterated
over, the function raises nothing.  It returns nothing iff the vertex is on no cycle; otherwise it returns a simple cycle through the vertex,
closed by repeating it. -/
theorem C76_bfs_cycle (setOrder : List V → List V) (hset : ∀ l, (setOrder l).Perm l) (g : NxGraph V) (hg : g.WF) (root : V)
    (hroot : root ∈ g.nodes) (tree : List (V × V)) (h : IsBfsTree g root tree) :
    ∃ r, findCycleFromBfs setOrder g tree root = .ok r ∧
      (r = [] ↔ ¬ ∃ vs, NxCycle g vs ∧ root ∈ vs) ∧
      (r ≠ [] → ∃ m, r = root :: (m ++ [root]) ∧ NxCycle g (root :: m)) := by
  rcases bfsCycleLoop_spec setOrder hset hg h hroot (tree.length + 1) [root] _ _ (cycleInv_init h) (by simp) with ⟨m, h1, h2, -⟩ | ⟨h1, h2⟩
  · refine ⟨_, h1, ⟨fun e => ?_, fun e => ?_⟩, fun _ => ⟨m, rfl, h2⟩⟩
    · cases e
    · exact absurd ⟨_, h2, List.mem_cons_self⟩ e
  · refine ⟨_, h1, ⟨fun _ => ?_, fun _ => rfl⟩, fun e => absurd rfl e⟩
    rintro ⟨vs, hvs, hr⟩
    exact no_cycle_of_same h hg h2 hvs hr

/-- C76.  The tree that networkx builds meets the hypothesis of the previous theorem, so the answer is right for every graph. -/
theorem C76_networkx (setOrder : List V → List V) (hset : ∀ l, (setOrder l).Perm l) (g : NxGraph V) (hg : g.WF) (root : V)
    (hroot : root ∈ g.nodes) :
    ∃ r, findCycleFromBfs setOrder g (nxBfsTree g root) root = .ok r ∧
      (r = [] ↔ ¬ ∃ vs, NxCycle g vs ∧ root ∈ vs) ∧
      (r ≠ [] → ∃ m, r = root :: (m ++ [root]) ∧ NxCycle g (root :: m)) :=
  C76_bfs_cycle setOrder hset g hg root hroot _ (nxBfsTree_isBfsTree hg hroot)

/-- C76.  The cycle has at most one edge more than a shortest cycle through the root: `r` lists one vertex more than the cycle has. -/
theorem C76_almost_shortest (setOrder : List V → List V) (hset : ∀ l, (setOrder l).Perm l) (g : NxGraph V) (hg : g.WF) (root : V)
    (hroot : root ∈ g.nodes) (tree : List (V × V)) (h : IsBfsTree g root tree) (r : List V)
    (hr : findCycleFromBfs setOrder g tree root = .ok r) (vs : List V) (hvs : NxCycle g vs) (hm : root ∈ vs) :
    r.length - 1 ≤ vs.length + 1 := by
  rcases bfsCycleLoop_spec setOrder hset hg h hroot (tree.length + 1) [root] _ _ (cycleInv_init h) (by simp) with
    ⟨m, h1, -, Q, v, R, u, lv, lu, k1, k2, k3, k4, k5, k6⟩ | ⟨h1, -⟩
  · have hr' := hr.symm.trans h1
    injection hr' with hr'
    obtain ⟨n, hn, hp⟩ := hvs.rotate hm
    have d1 := TreePath.hasDepth .root k4.last k4.edges
    have d2 := TreePath.hasDepth .root k5.last k5.edges
    have e1 := cycle_length_ge h hg k1 k2 d1 hn
    have e2 := h.depth_adj d1 d2 k3
    have e3 := hp.length_eq
    rw [hr']
    simp at e1 e2 e3 ⊢
    omega
  · have hr' := hr.symm.trans h1
    injection hr' with hr'
    rw [hr']; simp

/-- The neighbours in the graph of the following examples. -/
def nxBfsExampleAdj : Nat → List Nat
  | 0 => [1, 2, 3, 4]
  | 1 => [0, 5]
  | 2 => [0, 5]
  | 3 => [0, 4]
  | 4 => [0, 3]
  | 5 => [1, 2, 6]
  | 6 => [5, 6]
  | _ => []

/-- A triangle and a cycle of length four at vertex 0, and a vertex with a self-loop on no cycle. -/
def nxBfsExample : NxGraph Nat where
  nodes := List.range 7
  adj := nxBfsExampleAdj

theorem nxBfsExample_wf : nxBfsExample.WF := by
  have hin : ∀ u v, v ∈ nxBfsExample.adj u → u < 7 ∧ v < 7 := by
    intro u v h
    simp only [nxBfsExample, nxBfsExampleAdj] at h
    split at h <;> simp at h <;> omega
  refine ⟨by decide, ?_, ?_, ?_⟩
  · intro u; simp only [nxBfsExample, nxBfsExampleAdj]; split <;> decide
  · intro u v h
    have := hin u v h
    simp [nxBfsExample]; omega
  · intro u v h
    have hall : ∀ u < 7, ∀ v < 7, v ∈ nxBfsExample.adj u → u ∈ nxBfsExample.adj v := by decide
    exact hall u (hin u v h).1 v (hin u v h).2 h

/-- C76.  One edge more is possible: the cycle is not always a shortest one. -/
theorem C76_not_shortest : ∃ (g : NxGraph Nat) (root : Nat) (r vs : List Nat), g.WF ∧ root ∈ g.nodes ∧
    findCycleFromBfs id g (nxBfsTree g root) root = .ok r ∧ NxCycle g vs ∧ root ∈ vs ∧ vs.length < r.length - 1 := by
  refine ⟨nxBfsExample, 0, [0, 2, 5, 1, 0], [0, 3, 4], nxBfsExample_wf, by decide, by decide +kernel, ⟨by decide, by decide, by decide, ?_⟩,
    by decide, by decide⟩
  have : ∀ p ∈ consec ([0, 3, 4] ++ [0, 3, 4].take 1), p.2 ∈ nxBfsExample.adj p.1 := by decide
  exact this

-- a vertex of the example on no cycle, found by the theorem without a search of all cycles
example : ¬ ∃ vs, NxCycle nxBfsExample vs ∧ 6 ∈ vs := by
  obtain ⟨r, h1, h2, -⟩ := C76_networkx id (fun _ => .refl _) nxBfsExample nxBfsExample_wf 6 (by decide)
  have h3 : findCycleFromBfs id nxBfsExample (nxBfsTree nxBfsExample 6) 6 = .ok [] := by decide +kernel
  rw [h1] at h3
  injection h3 with h3
  exact h2.1 h3
-- the hypotheses of the theorems hold for it, the other case
example : IsBfsTree nxBfsExample 0 (nxBfsTree nxBfsExample 0) := nxBfsTree_isBfsTree nxBfsExample_wf (by decide)
example : nxBfsTree nxBfsExample 0 = [(0, 1), (0, 2), (0, 3), (0, 4), (1, 5), (5, 6)] := by decide +kernel

end Pctsp
