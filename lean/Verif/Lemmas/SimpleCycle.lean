import Verif.Model.SimpleCycle
import Verif.Spec.Cycle
import Verif.Lemmas.GraphUtil
import Mathlib.Data.List.Perm.Subperm

/-!
# Lemmas about the simple cycle test
-/

namespace Pctsp

theorem und_eq_iff {a b c d : Nat} : und (a, b) = und (c, d) ↔ (a = c ∧ b = d) ∨ (a = d ∧ b = c) := by
  simp only [und, Prod.mk.injEq]; omega

theorem und_swap (e : Nat × Nat) : und e.swap = und e := by
  obtain ⟨a, b⟩ := e; rw [Prod.swap, und_eq_iff]; simp

/-- The neighbours of `u` in a list of edges. -/
def adjOf (ps : List (Nat × Nat)) (u : Nat) : List Nat := ps.flatMap (Graph.nbrsOf u)

theorem adjOf_nil (u : Nat) : adjOf [] u = [] := rfl
theorem adjOf_cons (e : Nat × Nat) (ps : List (Nat × Nat)) (u : Nat) : adjOf (e :: ps) u = Graph.nbrsOf u e ++ adjOf ps u := rfl
theorem adjOf_append (ps qs : List (Nat × Nat)) (u : Nat) : adjOf (ps ++ qs) u = adjOf ps u ++ adjOf qs u := by
  simp [adjOf]

theorem adjOf_length (ps : List (Nat × Nat)) (u : Nat) : (adjOf ps u).length = degreeIn ps u := by
  induction ps with
  | nil => rfl
  | cons e ps ih =>
    rw [adjOf_cons, List.length_append, ih, degreeIn, degreeIn, List.map_cons, List.sum_cons]
    congr 1
    simp only [Graph.nbrsOf]
    split <;> split <;> rfl

theorem count_adjOf (ps : List (Nat × Nat)) {u v : Nat} (h : u ≠ v) : (adjOf ps u).count v = (ps.map und).count (und (u, v)) := by
  induction ps with
  | nil => rfl
  | cons e ps ih =>
    obtain ⟨a, b⟩ := e
    rw [adjOf_cons, List.count_append, ih, List.map_cons, List.count_cons, Nat.add_comm]
    congr 1
    simp only [Graph.nbrsOf, beq_iff_eq, und_eq_iff]
    split <;> split <;> simp only [List.count_cons, List.count_nil, List.nil_append, List.append_nil, List.cons_append, beq_iff_eq] <;>
      repeat' split
    all_goals omega

theorem count_adjOf_self (ps : List (Nat × Nat)) (u : Nat) : (adjOf ps u).count u = 2 * (ps.map und).count (und (u, u)) := by
  induction ps with
  | nil => rfl
  | cons e ps ih =>
    obtain ⟨a, b⟩ := e
    rw [adjOf_cons, List.count_append, ih, List.map_cons, List.count_cons, Nat.mul_add, Nat.add_comm]
    congr 1
    simp only [Graph.nbrsOf, beq_iff_eq, und_eq_iff]
    split <;> split <;> simp only [List.count_cons, List.count_nil, List.nil_append, List.append_nil, List.cons_append, beq_iff_eq] <;>
      repeat' split
    all_goals omega

theorem adjOf_perm {ps qs : List (Nat × Nat)} (h : (ps.map und).Perm (qs.map und)) (u : Nat) : (adjOf ps u).Perm (adjOf qs u) := by
  rw [List.perm_iff_count]
  intro v
  by_cases huv : u = v
  · subst huv; rw [count_adjOf_self, count_adjOf_self, h.count_eq]
  · rw [count_adjOf _ huv, count_adjOf _ huv, h.count_eq]

theorem count_adjOf_comm (ps : List (Nat × Nat)) (u v : Nat) : (adjOf ps u).count v = (adjOf ps v).count u := by
  by_cases h : u = v
  · rw [h]
  · rw [count_adjOf _ h, count_adjOf _ (Ne.symm h)]
    congr 1
    rw [und_eq_iff]; simp

theorem mem_adjOf_comm (ps : List (Nat × Nat)) (u v : Nat) : v ∈ adjOf ps u ↔ u ∈ adjOf ps v := by
  rw [← List.count_pos_iff, ← List.count_pos_iff, count_adjOf_comm]

theorem adjOf_self_iff (ps : List (Nat × Nat)) : (∀ u, u ∉ adjOf ps u) ↔ ∀ e ∈ ps, e.1 ≠ e.2 := by
  constructor
  · rintro h ⟨a, b⟩ he hab
    simp only at hab
    subst hab
    refine h a ?_
    simp only [adjOf, List.mem_flatMap]
    exact ⟨_, he, by simp [Graph.nbrsOf]⟩
  · intro h u hu
    simp only [adjOf, List.mem_flatMap] at hu
    obtain ⟨⟨a, b⟩, he, hm⟩ := hu
    have := h _ he
    simp only [Graph.nbrsOf, List.mem_append] at hm
    rcases hm with hm | hm <;> split at hm <;> simp at hm <;> simp only at this <;> omega

open Classical in
theorem cycleAdjLoop_spec (ps qs : List (Nat × Nat)) (h : ∀ u, (adjOf qs u).length ≤ 2) :
    cycleAdjLoop ps (adjOf qs) =
      if (∀ e ∈ ps, e.1 ≠ e.2) ∧ ∀ u, (adjOf (qs ++ ps) u).length ≤ 2 then some (adjOf (qs ++ ps)) else none := by
  induction ps generalizing qs with
  | nil => simp [cycleAdjLoop, h]
  | cons e ps ih =>
    obtain ⟨s, t⟩ := e
    rw [cycleAdjLoop]
    by_cases hst : s = t
    · rw [if_pos hst, if_neg]
      rintro ⟨h1, -⟩
      exact h1 (s, t) (by simp) hst
    · rw [if_neg hst]
      have hadj : upd (upd (adjOf qs) s (adjOf qs s ++ [t])) t (upd (adjOf qs) s (adjOf qs s ++ [t]) t ++ [s]) = adjOf (qs ++ [(s, t)]) := by
        funext u
        rw [adjOf_append, adjOf_cons, adjOf_nil, List.append_nil]
        simp only [upd, Graph.nbrsOf]
        by_cases hu : u = t
        · subst hu; simp [Ne.symm hst]; intro h; exact absurd h hst
        · by_cases hu' : u = s
          · subst hu'; simp [hst, Ne.symm hst]
          · simp [hu, hu', Ne.symm hu, Ne.symm hu']
      simp only [hadj]
      have happ : qs ++ (s, t) :: ps = (qs ++ [(s, t)]) ++ ps := by simp
      have hmono : ∀ u, (adjOf (qs ++ [(s, t)]) u).length ≤ (adjOf (qs ++ (s, t) :: ps) u).length := by
        intro u; rw [happ, adjOf_append _ ps]; simp
      by_cases hlen : (adjOf (qs ++ [(s, t)]) s).length > 2 ∨ (adjOf (qs ++ [(s, t)]) t).length > 2
      · rw [if_pos (by simpa using hlen), if_neg]
        rintro ⟨-, h2⟩
        have h3 := hmono s
        have h4 := hmono t
        have h5 := h2 s
        have h6 := h2 t
        omega
      · rw [if_neg (by simpa using hlen)]
        have hall : ∀ u, (adjOf (qs ++ [(s, t)]) u).length ≤ 2 := by
          intro u
          by_cases hu : u = t
          · subst hu; omega
          · by_cases hu' : u = s
            · subst hu'; omega
            · rw [adjOf_append, adjOf_cons, adjOf_nil]
              simp only [Graph.nbrsOf, Ne.symm hu, Ne.symm hu']
              simpa using h u
        rw [ih _ hall, ← happ]
        have : (∀ e ∈ (s, t) :: ps, e.1 ≠ e.2) ↔ ∀ e ∈ ps, e.1 ≠ e.2 := by
          simp [hst]
        simp only [this]

theorem mem_consec_getElem? {l : List Nat} {p : Nat × Nat} :
    p ∈ consec l ↔ ∃ i : Nat, l[i]? = some p.1 ∧ l[i + 1]? = some p.2 := by
  rw [consec_eq_getElem]
  constructor
  · rintro ⟨i, h, h1, h2⟩
    exact ⟨i, by rw [List.getElem?_eq_getElem (by omega), h1], by rw [List.getElem?_eq_getElem h, h2]⟩
  · rintro ⟨i, h1, h2⟩
    obtain ⟨h3, h4⟩ := List.getElem?_eq_some_iff.1 h2
    obtain ⟨h5, h6⟩ := List.getElem?_eq_some_iff.1 h1
    exact ⟨i, h3, h6, h4⟩

/-- The list `L` follows the adjacency lists: the neighbours of every inner entry are the entries around it. -/
def Follows (adj : Nat → List Nat) (L : List Nat) : Prop :=
  ∀ A p x n B, L = A ++ p :: x :: n :: B → (adj x).Perm [p, n]

theorem follows_cons {adj : Nat → List Nat} {p x n : Nat} {B : List Nat} :
    Follows adj (p :: x :: n :: B) ↔ (adj x).Perm [p, n] ∧ Follows adj (x :: n :: B) := by
  constructor
  · intro h
    refine ⟨h [] p x n B rfl, ?_⟩
    intro A p' x' n' B' heq
    exact h (p :: A) p' x' n' B' (by rw [heq]; rfl)
  · rintro ⟨h1, h2⟩ A p' x' n' B' heq
    cases A with
    | nil => simp only [List.nil_append, List.cons.injEq] at heq; obtain ⟨rfl, rfl, rfl, rfl⟩ := heq; exact h1
    | cons a A => simp only [List.cons_append, List.cons.injEq] at heq; exact h2 A p' x' n' B' heq.2

theorem follows_pair (adj : Nat → List Nat) (a b : Nat) : Follows adj [a, b] := by
  intro A p x n B h
  have := congrArg List.length h
  simp at this
  omega

theorem next_perm {a b prev : Nat} (h : prev ∈ [a, b]) : [a, b].Perm [prev, if a = prev then b else a] := by
  simp only [List.mem_cons, List.not_mem_nil, or_false] at h
  by_cases ha : a = prev
  · simp [ha]
  · rw [if_neg ha]
    have : prev = b := by rcases h with h | h; exact absurd h.symm ha; exact h
    subst this
    exact List.Perm.swap _ _ _

theorem cycleWalkLoop_sound {adj : Nat → List Nat} (hsym : ∀ u v, v ∈ adj u → u ∈ adj v) {source : Nat} {fuel prev cur i j : Nat}
    (hp : prev ∈ adj cur) (h : cycleWalkLoop adj source fuel prev cur i = some j) (hj : j < i + fuel) :
    ∃ m, i + m.length = j ∧ (∀ x ∈ m, x ≠ source) ∧ (m ++ [source]).head? = some cur ∧ Follows adj (prev :: (m ++ [source])) := by
  induction fuel generalizing prev cur i with
  | zero => simp [cycleWalkLoop] at h; omega
  | succ fuel ih =>
    rw [cycleWalkLoop] at h
    by_cases hc : cur = source
    · rw [if_pos hc] at h
      cases h
      exact ⟨[], by simp, by simp, by simp [hc], follows_pair _ _ _⟩
    · rw [if_neg hc] at h
      split at h
      · rename_i a b hab
        have hperm : (adj cur).Perm [prev, if a = prev then b else a] := by rw [hab] at hp ⊢; exact next_perm hp
        obtain ⟨m, h1, h2, h3, h4⟩ := ih (hsym _ _ (hperm.mem_iff.2 (by simp))) h (by omega)
        refine ⟨cur :: m, by simp; omega, by simpa using ⟨hc, h2⟩, by simp, ?_⟩
        cases hm : m ++ [source] with
        | nil => simp at hm
        | cons y l =>
          rw [hm] at h3 h4
          simp only [List.head?_cons, Option.some.injEq] at h3
          rw [List.cons_append, hm, follows_cons, h3]
          exact ⟨hperm, h3 ▸ h4⟩
      · cases h

theorem cycleWalkLoop_complete {adj : Nat → List Nat} {source : Nat} (m : List Nat) (prev cur fuel i : Nat)
    (hm : ∀ x ∈ m, x ≠ source) (hcur : (m ++ [source]).head? = some cur) (hf : Follows adj (prev :: (m ++ [source]))) (hfuel : m.length < fuel) :
    cycleWalkLoop adj source fuel prev cur i = some (i + m.length) := by
  induction m generalizing prev cur fuel i with
  | nil =>
    cases fuel with
    | zero => simp at hfuel
    | succ fuel => simp at hcur; simp [cycleWalkLoop, hcur]
  | cons x m ih =>
    simp only [List.cons_append, List.head?_cons, Option.some.injEq] at hcur
    subst hcur
    cases fuel with
    | zero => simp at hfuel
    | succ fuel =>
      rw [cycleWalkLoop, if_neg (hm x (by simp))]
      cases hml : m ++ [source] with
      | nil => simp at hml
      | cons y l =>
        rw [List.cons_append, hml, follows_cons] at hf
        obtain ⟨hperm, hf⟩ := hf
        obtain ⟨a, b, hab⟩ : ∃ a b, adj x = [a, b] := by
          have := hperm.length_eq
          match hadj : adj x, this with
          | [a, b], _ => exact ⟨a, b, rfl⟩
        rw [hab] at hperm ⊢
        simp only
        have hp2 := next_perm (hperm.mem_iff.2 (show prev ∈ [prev, y] by simp))
        have hy : (if a = prev then b else a) = y := by
          have h1 := (hperm.symm.trans hp2)
          rw [List.perm_cons] at h1
          simpa using h1.symm
        rw [hy, ih x y fuel (i + 1) (fun z hz => hm z (by simp [hz])) (by rw [hml]; rfl) (by rw [hml]; exact hf)
          (by simpa using hfuel)]
        simp; omega

theorem perm_pair {a b c d : Nat} (h : [a, b].Perm [c, d]) : (a = c ∧ b = d) ∨ (a = d ∧ b = c) := by
  have ha : a ∈ [c, d] := h.mem_iff.1 (by simp)
  simp only [List.mem_cons, List.not_mem_nil, or_false] at ha
  rcases ha with rfl | rfl
  · rw [List.perm_cons] at h; simp at h; exact Or.inl ⟨rfl, h⟩
  · have h2 := h.trans (List.Perm.swap a c [])
    rw [List.perm_cons] at h2; simp at h2; exact Or.inr ⟨rfl, h2⟩

theorem follows_getElem {adj : Nat → List Nat} {L : List Nat} (h : Follows adj L) {k : Nat} (hk : k + 2 < L.length) :
    (adj L[k + 1]).Perm [L[k], L[k + 2]] := by
  refine h (L.take k) L[k] L[k + 1] L[k + 2] (L.drop (k + 3)) ?_
  rw [← List.drop_eq_getElem_cons, ← List.drop_eq_getElem_cons, ← List.drop_eq_getElem_cons, List.take_append_drop]

theorem follows_nodup {ps : List (Nat × Nat)} (hl : ∀ u, u ∉ adjOf ps u) {s z : Nat} {m : List Nat} (hs : ∀ x ∈ m, x ≠ s)
    (h : Follows (adjOf ps) (s :: (m ++ [z]))) : (s :: m).Nodup := by
  have key : ∀ k (hk : k < (s :: m).length) j (hj : j < k), (s :: m)[j] ≠ (s :: m)[k] := by
    intro k
    induction k using Nat.strong_induction_on with
    | _ k ih =>
      intro hk j hj heq
      have hlen : (s :: (m ++ [z])).length = (s :: m).length + 1 := by simp
      have hget : ∀ i (hi : i < (s :: m).length), (s :: (m ++ [z]))[i]'(by omega) = (s :: m)[i] := by
        intro i hi
        cases i with
        | zero => rfl
        | succ i =>
          have hi' : i < m.length := by simpa using hi
          simp [List.getElem_append_left hi']
      obtain ⟨k, rfl⟩ : ∃ k', k = k' + 1 := ⟨k - 1, by omega⟩
      -- `j` is not the start
      have hj0 : j ≠ 0 := by
        rintro rfl
        simp only [List.getElem_cons_zero, List.getElem_cons_succ] at heq
        exact hs _ (List.getElem_mem _) heq.symm
      obtain ⟨j, rfl⟩ : ∃ j', j = j' + 1 := ⟨j - 1, by omega⟩
      have fk := follows_getElem h (k := k) (by omega)
      have fj := follows_getElem h (k := j) (by omega)
      rw [hget (k + 1) hk, hget k (by omega)] at fk
      rw [hget (j + 1) (by omega), hget j (by omega)] at fj
      rw [heq] at fj
      have hpair := perm_pair (fj.symm.trans fk)
      have h1 : (s :: m)[j] ≠ (s :: m)[k] := ih k (by omega) (by omega) j (by omega)
      have h2 : (s :: (m ++ [z]))[j + 2]'(by omega) = (s :: m)[k] := by
        rcases hpair with ⟨ha, -⟩ | ⟨-, hb⟩
        · exact absurd ha h1
        · exact hb
      rw [hget (j + 2) (by omega)] at h2
      rcases Nat.lt_trichotomy (j + 2) k with hlt | heq' | hgt
      · exact ih k (by omega) (by omega) (j + 2) hlt h2
      · -- two parallel edges
        subst heq'
        have fm := follows_getElem h (k := j + 1) (by omega)
        rw [hget (j + 2) (by omega), hget (j + 1) (by omega), hget (j + 3) (by omega)] at fm
        have hc : (adjOf ps (s :: m)[j + 2]).count (s :: m)[j + 3] = 2 := by
          rw [fm.count_eq, heq]; simp
        rw [count_adjOf_comm, fj.count_eq, hget (j + 2) (by omega), List.count_cons] at hc
        have hne : (s :: m)[j] ≠ (s :: m)[j + 2] := ih (j + 2) (by omega) (by omega) j (by omega)
        rw [if_neg (by simpa using hne)] at hc
        simp at hc
      · -- a self-loop
        have hkj : k = j + 1 := by omega
        subst hkj
        refine hl (s :: m)[j + 2] (fk.mem_iff.2 ?_)
        rw [heq]; simp
  rw [List.nodup_iff_pairwise_ne, List.pairwise_iff_getElem]
  intro i j hi hj hij
  exact key j hj i hij

theorem adjOf_of_not_mem {ps : List (Nat × Nat)} {x : Nat} (h : ∀ e ∈ ps, e.1 ≠ x ∧ e.2 ≠ x) : adjOf ps x = [] := by
  simp only [adjOf, List.flatMap_eq_nil_iff]
  intro e he
  simp [Graph.nbrsOf, (h e he).1, (h e he).2]

theorem adjOf_consec_of_not_mem {l : List Nat} {x : Nat} (h : x ∉ l) : adjOf (consec l) x = [] := by
  apply adjOf_of_not_mem
  intro e he
  have := mem_of_mem_consec he
  exact ⟨fun e => h (e ▸ this.1), fun e => h (e ▸ this.2)⟩

theorem consec_append_pair (A : List Nat) (p x : Nat) : consec (A ++ [p, x]) = consec (A ++ [p]) ++ [(p, x)] := by
  have := consec_append A p [x]
  simpa using this

/-- The neighbours of an inner vertex of a closed walk. -/
theorem adjOf_cycle_inner {A B : List Nat} {p x n : Nat} (hA : x ∉ A ++ [p]) (hB : x ∉ n :: B) :
    adjOf (consec (A ++ p :: x :: n :: B)) x = [p, n] := by
  rw [consec_append, consec_cons_cons, consec_cons_cons, adjOf_append, adjOf_consec_of_not_mem hA, adjOf_cons, adjOf_cons,
    adjOf_consec_of_not_mem hB]
  have hp : x ≠ p := fun e => hA (by simp [e])
  have hn : x ≠ n := fun e => hB (by simp [e])
  simp [Graph.nbrsOf, Ne.symm hp, Ne.symm hn]

theorem follows_cycle {s : Nat} {m : List Nat} (h : (s :: m).Nodup) : Follows (adjOf (consec (s :: (m ++ [s])))) (s :: (m ++ [s])) := by
  intro A p x n B heq
  rw [heq, adjOf_cycle_inner]
  · -- x is not before
    intro hx
    have h1 : (A ++ p :: x :: n :: B).dropLast = s :: m := by rw [← heq, dropLast_tour]
    rw [← h1] at h
    have h2 : (A ++ p :: x :: n :: B).dropLast = (A ++ [p]) ++ x :: (n :: B).dropLast := by
      rw [List.dropLast_append_cons]; simp
    rw [h2, List.nodup_append] at h
    exact h.2.2 x hx x (by simp) rfl
  · intro hx
    have h1 : (A ++ p :: x :: n :: B).tail = m ++ [s] := by rw [← heq]; rfl
    have hms : (m ++ [s]).Nodup := by
      rw [List.nodup_cons] at h
      rw [List.nodup_append]
      exact ⟨h.2, by simp, by rintro a ha b hb rfl; simp at hb; exact h.1 (hb ▸ ha)⟩
    rw [← h1] at hms
    have h2 : ∃ A', (A ++ p :: x :: n :: B).tail = A' ++ x :: n :: B := by
      cases A with
      | nil => exact ⟨[], rfl⟩
      | cons a A => exact ⟨A ++ [p], by simp⟩
    obtain ⟨A', h2⟩ := h2
    rw [h2] at hms
    have := (List.nodup_append.1 hms).2.1
    exact (List.nodup_cons.1 this).1 hx

/-- The neighbours of the start of a closed walk. -/
theorem adjOf_cycle_start {s a b : Nat} {m : List Nat} (h : (s :: a :: m).Nodup) (hb : b = (a :: m).getLast (by simp)) :
    (adjOf (consec (s :: (a :: m ++ [s]))) s) = [a, b] := by
  have hl : a :: m = (a :: m).dropLast ++ [b] := by rw [hb]; exact (List.dropLast_append_getLast (by simp)).symm
  have hs : s ∉ a :: m := (List.nodup_cons.1 h).1
  have h1 : a :: m ++ [s] = (a :: m).dropLast ++ [b, s] := by
    conv_lhs => rw [hl]
    simp
  have hc : consec (s :: (a :: m ++ [s])) = (s, a) :: consec (a :: m ++ [s]) := rfl
  rw [hc, adjOf_cons, h1, consec_append_pair, adjOf_append, ← hl, adjOf_consec_of_not_mem hs]
  have hsa : s ≠ a := fun e => hs (by simp [e])
  have hsb : s ≠ b := fun e => hs (by rw [e, hb]; exact List.getLast_mem _)
  simp [adjOf, Graph.nbrsOf, Ne.symm hsa, Ne.symm hsb]

theorem adjOf_cycle_length {s : Nat} {m : List Nat} (h : (s :: m).Nodup) (hm : m ≠ []) (u : Nat) :
    (adjOf (consec (s :: (m ++ [s]))) u).length = if u ∈ s :: m then 2 else 0 := by
  by_cases hu : u ∈ s :: m
  · rw [if_pos hu]
    rcases List.mem_cons.1 hu with rfl | hu
    · cases m with
      | nil => exact absurd rfl hm
      | cons a m => rw [adjOf_cycle_start h rfl]; rfl
    · obtain ⟨A, B, rfl⟩ := List.append_of_mem hu
      -- the entries around `u`
      obtain ⟨A', p, hA⟩ : ∃ A' p, s :: A = A' ++ [p] := by
        rcases List.eq_nil_or_concat (s :: A) with h | ⟨A', p, h⟩
        · simp at h
        · exact ⟨A', p, by simpa using h⟩
      obtain ⟨n, B', hB⟩ : ∃ n B', B ++ [s] = n :: B' := by
        cases hB : B ++ [s] with
        | nil => simp at hB
        | cons n B' => exact ⟨n, B', rfl⟩
      have := follows_cycle h A' p u n B' (by
        rw [← hB, List.append_assoc, List.cons_append, ← List.cons_append, hA]; simp)
      simpa using this.length_eq
  · rw [if_neg hu, adjOf_consec_of_not_mem]
    · rfl
    · simp only [List.mem_cons, List.mem_append, List.not_mem_nil, or_false, not_or] at hu ⊢
      exact ⟨hu.1, hu.2, hu.1⟩

theorem cycle_no_loop {s : Nat} {m : List Nat} (h : (s :: m).Nodup) (hm : m ≠ []) : ∀ e ∈ consec (s :: (m ++ [s])), e.1 ≠ e.2 := by
  intro e he heq
  rw [mem_consec_getElem?] at he
  obtain ⟨i, h1, h2⟩ := he
  cases i with
  | zero =>
    cases m with
    | nil => exact hm rfl
    | cons a m =>
      simp at h1 h2
      exact (List.nodup_cons.1 h).1 (by rw [h1, heq, ← h2]; simp)
  | succ i =>
    have hms : (m ++ [s]).Nodup := by
      rw [List.nodup_cons] at h
      rw [List.nodup_append]
      exact ⟨h.2, by simp, by rintro a ha b hb rfl; simp at hb; exact h.1 (hb ▸ ha)⟩
    have h1' : (m ++ [s])[i]? = some e.1 := h1
    have h2' : (m ++ [s])[i + 1]? = some e.2 := h2
    rw [← heq] at h2'
    have := nodup_getElem?_inj hms h1' h2'
    omega

theorem cycleEdges_cons (s : Nat) (m : List Nat) : cycleEdges (s :: m) = consec (s :: (m ++ [s])) := by
  simp [cycleEdges]

theorem isSimpleCyclePairs_sound {ps : List (Nat × Nat)} (h : isSimpleCyclePairs ps = true) : ∃ vs, FormCycle ps vs := by
  match ps, h with
  | (s, t) :: ps, h =>
    rw [isSimpleCyclePairs] at h
    have h0 := cycleAdjLoop_spec ((s, t) :: ps) [] (by simp [adjOf_nil])
    simp only [List.nil_append] at h0
    have hnil : adjOf [] = fun _ => [] := by funext u; rfl
    rw [hnil] at h0
    rw [h0] at h
    split at h
    · cases h
    · rename_i adj hadj
      split at hadj
      · rename_i hcond
        cases hadj
        obtain ⟨hno, hdeg⟩ := hcond
        split at h
        · cases h
        · rename_i j hj
          simp only [decide_eq_true_eq] at h
          have hts : s ∈ adjOf ((s, t) :: ps) t := by rw [adjOf_cons]; simp [Graph.nbrsOf]
          obtain ⟨m, h1, h2, h3, h4⟩ := cycleWalkLoop_sound (fun u v hv => (mem_adjOf_comm _ u v).1 hv) hts hj
            (by simp at h ⊢; omega)
          have hloop := (adjOf_self_iff ((s, t) :: ps)).2 hno
          have hnd := follows_nodup hloop h2 h4
          have hst : s ≠ t := hno (s, t) (by simp)
          have hm : m ≠ [] := by
            rintro rfl
            simp at h3
            exact hst h3
          have hlen : ((s, t) :: ps).length = m.length + 1 := by simp at h ⊢; omega
          refine ⟨s :: m, ?_, hnd, ?_⟩
          · have := List.length_pos_iff.2 hm; simp; omega
          · rw [cycleEdges_cons]
            symm
            refine List.Subperm.perm_of_length_le ?_ ?_
            · rw [List.subperm_ext_iff]
              intro e he
              obtain ⟨⟨a, b⟩, hab, rfl⟩ := List.mem_map.1 he
              have hne := cycle_no_loop hnd hm _ hab
              simp only at hne
              -- one of the two is not the start
              have main : ∀ x y, x ≠ y → x ∈ m → ((consec (s :: (m ++ [s]))).map und).count (und (x, y)) ≤
                  (((s, t) :: ps).map und).count (und (x, y)) := by
                intro x y hxy hx
                rw [← count_adjOf _ hxy, ← count_adjOf _ hxy]
                obtain ⟨A, B, rfl⟩ := List.append_of_mem hx
                obtain ⟨A', p, hA⟩ : ∃ A' p, s :: A = A' ++ [p] := by
                  rcases List.eq_nil_or_concat (s :: A) with h | ⟨A', p, h⟩
                  · simp at h
                  · exact ⟨A', p, by simpa using h⟩
                obtain ⟨n, B', hB⟩ : ∃ n B', B ++ [s] = n :: B' := by
                  cases hB : B ++ [s] with
                  | nil => simp at hB
                  | cons n B' => exact ⟨n, B', rfl⟩
                have heq : s :: (A ++ x :: B ++ [s]) = A' ++ p :: x :: n :: B' := by
                  rw [← hB, List.append_assoc, List.cons_append, ← List.cons_append, hA]; simp
                have f1 := follows_cycle hnd A' p x n B' heq
                have f2 := h4 A' p x n B' heq
                rw [f1.count_eq, f2.count_eq]
              have hmem := mem_of_mem_consec hab
              simp only [List.mem_cons, List.mem_append, List.not_mem_nil, or_false] at hmem
              by_cases has : a = s
              · have hb : b ∈ m := by
                  rcases hmem.2 with h | h | h
                  · omega
                  · exact h
                  · omega
                have := main b a (Ne.symm hne) hb
                have hsw : und (a, b) = und (b, a) := by rw [und_eq_iff]; simp
                rw [hsw]; exact this
              · have ha : a ∈ m := by
                  rcases hmem.1 with h | h | h
                  · exact absurd h has
                  · exact h
                  · exact absurd h has
                exact main a b hne ha
            · rw [List.length_map, List.length_map, consec_length, hlen]
              simp
      · cases hadj

theorem cycleEdges_rotate (A B : List Nat) : (cycleEdges (A ++ B)).Perm (cycleEdges (B ++ A)) := by
  cases A with
  | nil => simp
  | cons a A =>
    cases B with
    | nil => simp
    | cons b B =>
      have h1 : cycleEdges (a :: A ++ b :: B) = consec (a :: A ++ [b]) ++ consec (b :: B ++ [a]) := by
        rw [List.cons_append, cycleEdges_cons]
        have := consec_append (a :: A) b (B ++ [a])
        simpa using this
      have h2 : cycleEdges (b :: B ++ a :: A) = consec (b :: B ++ [a]) ++ consec (a :: A ++ [b]) := by
        rw [List.cons_append, cycleEdges_cons]
        have := consec_append (b :: B) a (A ++ [b])
        simpa using this
      rw [h1, h2]
      exact List.perm_append_comm

theorem cycleEdges_reverse (s : Nat) (m : List Nat) :
    ((cycleEdges (s :: m.reverse)).map und).Perm ((cycleEdges (s :: m)).map und) := by
  rw [cycleEdges_cons, cycleEdges_cons]
  have : s :: (m.reverse ++ [s]) = (s :: (m ++ [s])).reverse := by simp
  rw [this, consec_reverse, List.map_reverse, List.map_map]
  refine (List.reverse_perm _).trans ?_
  have : und ∘ Prod.swap = und := by funext e; exact und_swap e
  rw [this]

/-- A cycle that contains an edge can be written so that it starts with this edge. -/
theorem FormCycle.start {ps : List (Nat × Nat)} {vs : List Nat} (h : FormCycle ps vs) {s t : Nat} (hst : (s, t) ∈ ps) :
    ∃ m, FormCycle ps (s :: t :: m) := by
  obtain ⟨h1, h2, h3⟩ := h
  have hmem : und (s, t) ∈ (cycleEdges vs).map und := h3.mem_iff.1 (List.mem_map_of_mem hst)
  obtain ⟨⟨a, b⟩, hab, hund⟩ := List.mem_map.1 hmem
  -- first a cycle that starts with `a, b`
  obtain ⟨m, hm⟩ : ∃ m, FormCycle ps (a :: b :: m) := by
    cases vs with
    | nil => simp at h1
    | cons r m =>
      rw [cycleEdges_cons] at hab
      rw [mem_consec_getElem?] at hab
      obtain ⟨i, ha, hb⟩ := hab
      simp only at ha hb
      have hil : i < (r :: m).length := by
        have := (List.getElem?_eq_some_iff.1 hb).1
        simp at this ⊢; omega
      have ha' : (r :: m)[i]? = some a := by
        rw [← List.cons_append, List.getElem?_append_left hil] at ha; exact ha
      have hsplit : r :: m = (r :: m).take i ++ a :: (r :: m).drop (i + 1) := by
        have : (r :: m)[i] = a := by simpa using (List.getElem?_eq_some_iff.1 ha').2
        rw [← this, ← List.drop_eq_getElem_cons, List.take_append_drop]
      have hrot := cycleEdges_rotate ((r :: m).take i) (a :: (r :: m).drop (i + 1))
      rw [← hsplit] at hrot
      -- the vertex after `a`
      obtain ⟨m', hm'⟩ : ∃ m', a :: (r :: m).drop (i + 1) ++ (r :: m).take i = a :: b :: m' := by
        by_cases hi : i + 1 < (r :: m).length
        · have hb' : (r :: m)[i + 1]? = some b := by
            rw [← List.cons_append, List.getElem?_append_left hi] at hb; exact hb
          have : (r :: m)[i + 1] = b := by simpa using (List.getElem?_eq_some_iff.1 hb').2
          rw [List.drop_eq_getElem_cons hi, this]
          exact ⟨_, rfl⟩
        · have hieq : i + 1 = (r :: m).length := by omega
          have hb' : b = r := by
            rw [← List.cons_append, List.getElem?_append_right (by omega), hieq] at hb
            simpa using hb.symm
          rw [List.drop_of_length_le (by omega)]
          have hi0 : i ≠ 0 := by simp at h1 hieq; omega
          obtain ⟨i', rfl⟩ : ∃ i', i = i' + 1 := ⟨i - 1, by omega⟩
          rw [hb', List.take_succ_cons]
          exact ⟨m.take i', by simp⟩
      refine ⟨m', ?_, ?_, ?_⟩
      · simp
      · rw [← hm']
        have : (a :: (r :: m).drop (i + 1) ++ (r :: m).take i).Perm (r :: m) := by
          refine List.perm_append_comm.trans ?_
          rw [← hsplit]
        exact this.nodup_iff.2 h2
      · rw [← hm']
        exact h3.trans (hrot.map und)
  rw [und_eq_iff] at hund
  rcases hund with ⟨rfl, rfl⟩ | ⟨rfl, rfl⟩
  · exact ⟨m, hm⟩
  · -- `a = t`, `b = s`: reverse
    obtain ⟨g1, g2, g3⟩ := hm
    refine ⟨m.reverse, by simp, ?_, ?_⟩
    · have : (b :: a :: m.reverse).Perm (a :: b :: m) :=
        (List.Perm.swap a b _).trans (((List.reverse_perm m).cons b).cons a)
      exact this.nodup_iff.2 g2
    · refine g3.trans ?_
      refine (cycleEdges_reverse a (b :: m)).symm.trans ?_
      have h5 := cycleEdges_rotate (a :: m.reverse) [b]
      have h6 : a :: (b :: m).reverse = a :: m.reverse ++ [b] := by simp
      rw [h6]
      exact h5.map und

theorem isSimpleCyclePairs_complete {ps : List (Nat × Nat)} {vs : List Nat} (h : FormCycle ps vs) : isSimpleCyclePairs ps = true := by
  match ps, h with
  | [], h =>
    obtain ⟨h1, h2, h3⟩ := h
    have := h3.length_eq
    cases vs with
    | nil => simp at h1
    | cons r m => rw [cycleEdges_cons, List.length_map, List.length_map, consec_length] at this; simp at this
  | (s, t) :: ps, h =>
    obtain ⟨m, h1, hnd, hp⟩ := h.start (s := s) (t := t) (by simp)
    rw [cycleEdges_cons] at hp
    have hadjp := fun u => adjOf_perm hp u
    have hno : ∀ e ∈ (s, t) :: ps, e.1 ≠ e.2 := by
      rw [← adjOf_self_iff]
      intro u hu
      exact (adjOf_self_iff _).2 (cycle_no_loop hnd (by simp)) u ((hadjp u).mem_iff.1 hu)
    have hdeg : ∀ u, (adjOf ((s, t) :: ps) u).length ≤ 2 := by
      intro u
      rw [(hadjp u).length_eq, adjOf_cycle_length hnd (by simp)]
      split <;> omega
    have h0 := cycleAdjLoop_spec ((s, t) :: ps) [] (by simp [adjOf_nil])
    simp only [List.nil_append] at h0
    have hnil : adjOf [] = fun _ => [] := by funext u; rfl
    rw [hnil, if_pos ⟨hno, hdeg⟩] at h0
    have hlen : ((s, t) :: ps).length = (t :: m).length + 1 := by
      have := hp.length_eq
      rw [List.length_map, List.length_map, consec_length] at this
      simpa using this
    have hf : Follows (adjOf ((s, t) :: ps)) (s :: (t :: m ++ [s])) := by
      intro A p x n B heq
      exact (hadjp x).trans (follows_cycle hnd A p x n B heq)
    have hw := cycleWalkLoop_complete (adj := adjOf ((s, t) :: ps)) (source := s) (t :: m) s t ((s, t) :: ps).length 0
      (by
        intro x hx hxs
        exact (List.nodup_cons.1 hnd).1 (hxs ▸ hx)) (by simp) hf (by omega)
    rw [isSimpleCyclePairs, h0]
    simp only [hw, decide_eq_true_eq]
    omega

theorem isSimpleCyclePairs_iff (ps : List (Nat × Nat)) : isSimpleCyclePairs ps = true ↔ ∃ vs, FormCycle ps vs :=
  ⟨isSimpleCyclePairs_sound, fun ⟨_, h⟩ => isSimpleCyclePairs_complete h⟩

end Pctsp
