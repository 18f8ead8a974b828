import Verif.Lemmas.SimpleCycle
import Mathlib.Logic.Relation

/-! # A connected set of edges with degree two everywhere is a cycle -/

namespace Pctsp

theorem degreeIn_cons (e : Nat × Nat) (ps : List (Nat × Nat)) (v : Nat) :
    degreeIn (e :: ps) v = (if e.1 = v then 1 else 0) + (if e.2 = v then 1 else 0) + degreeIn ps v := by
  simp [degreeIn]

theorem sum_degreeIn_le (ps : List (Nat × Nat)) {vs : List Nat} (hnd : vs.Nodup) : (vs.map (degreeIn ps)).sum ≤ 2 * ps.length := by
  have hone : ∀ a, (vs.map fun v => if a = v then 1 else 0).sum ≤ 1 := by
    intro a
    induction vs with
    | nil => simp
    | cons v vs ih =>
      rw [List.nodup_cons] at hnd
      rw [List.map_cons, List.sum_cons]
      by_cases h : a = v
      · subst h
        have : (vs.map fun v => if a = v then 1 else 0).sum = 0 := by
          have : ∀ l : List Nat, a ∉ l → (l.map fun v => if a = v then 1 else 0).sum = 0 := by
            intro l hl
            induction l with
            | nil => rfl
            | cons w l ih =>
              simp only [List.mem_cons, not_or] at hl
              rw [List.map_cons, List.sum_cons, ih hl.2, if_neg hl.1]
          exact this vs hnd.1
        rw [this]; simp
      · rw [if_neg h]; have := ih hnd.2; omega
  have hadd : ∀ (f h : Nat → Nat), (vs.map fun v => f v + h v).sum = (vs.map f).sum + (vs.map h).sum := by
    intro f h
    clear hnd hone
    induction vs with
    | nil => rfl
    | cons v vs ih => simp only [List.map_cons, List.sum_cons, ih]; omega
  induction ps with
  | nil =>
    have : ∀ l : List Nat, (l.map (degreeIn [])).sum = 0 := by
      intro l
      induction l with
      | nil => rfl
      | cons v l ih => rw [List.map_cons, List.sum_cons, ih]; rfl
    rw [this]; simp
  | cons e ps ih =>
    have : vs.map (degreeIn (e :: ps)) = vs.map fun v => ((if e.1 = v then 1 else 0) + (if e.2 = v then 1 else 0)) + degreeIn ps v :=
      List.map_congr_left fun v _ => degreeIn_cons e ps v
    rw [this, hadd (fun v => (if e.1 = v then 1 else 0) + (if e.2 = v then 1 else 0)), hadd (fun v => if e.1 = v then 1 else 0),
      List.length_cons]
    have h1 := hone e.1
    have h2 := hone e.2
    omega

/-- The walk stops at the source or runs out of edges. -/
theorem cycleWalkLoop_total {adj : Nat → List Nat} (hsym : ∀ u v, v ∈ adj u → u ∈ adj v) (hdeg : ∀ u, adj u ≠ [] → (adj u).length = 2)
    {source : Nat} (fuel prev cur i : Nat) (hp : prev ∈ adj cur) :
    ∃ j, cycleWalkLoop adj source fuel prev cur i = some j ∧ (j < i + fuel ∨ (j = i + fuel ∧
      ∃ m z, m.length = fuel ∧ (∀ x ∈ m, x ≠ source) ∧ (m ++ [z]).head? = some cur ∧ Follows adj (prev :: (m ++ [z])))) := by
  induction fuel generalizing prev cur i with
  | zero => exact ⟨i, rfl, Or.inr ⟨rfl, [], cur, rfl, by simp, rfl, follows_pair _ _ _⟩⟩
  | succ fuel ih =>
    rw [cycleWalkLoop]
    by_cases hc : cur = source
    · rw [if_pos hc]; exact ⟨i, rfl, Or.inl (by omega)⟩
    · rw [if_neg hc]
      have hlen := hdeg cur (by intro h; rw [h] at hp; simp at hp)
      match hab : adj cur, hlen with
      | [a, b], _ =>
        simp only
        have hperm : (adj cur).Perm [prev, if a = prev then b else a] := by rw [hab] at hp ⊢; exact next_perm hp
        obtain ⟨j, h1, h2⟩ := ih cur (if a = prev then b else a) (i + 1) (hsym _ _ (hperm.mem_iff.2 (by simp)))
        refine ⟨j, h1, ?_⟩
        rcases h2 with h2 | ⟨h2, m, z, h3, h4, h5, h6⟩
        · exact Or.inl (by omega)
        · refine Or.inr ⟨by omega, cur :: m, z, by simp [h3], by simpa using ⟨hc, h4⟩, by simp, ?_⟩
          cases hm : m ++ [z] with
          | nil => simp at hm
          | cons y l =>
            rw [hm] at h5 h6
            simp only [List.head?_cons, Option.some.injEq] at h5
            rw [List.cons_append, hm, follows_cons, h5]
            exact ⟨hperm, h5 ▸ h6⟩

/-- The neighbours along a closed walk that follows the adjacency lists are all neighbours. -/
theorem follows_adjOf {ps : List (Nat × Nat)} (hdeg : ∀ u, adjOf ps u ≠ [] → (adjOf ps u).length = 2) {s : Nat} {m : List Nat}
    (hnd : (s :: m).Nodup) (hm : m ≠ []) (h : Follows (adjOf ps) (s :: (m ++ [s]))) :
    ∀ x ∈ s :: m, (adjOf (consec (s :: (m ++ [s]))) x).Perm (adjOf ps x) := by
  have inner : ∀ x ∈ m, (adjOf (consec (s :: (m ++ [s]))) x).Perm (adjOf ps x) := by
    intro x hx
    obtain ⟨A, B, rfl⟩ := List.append_of_mem hx
    obtain ⟨A', p, hA⟩ : ∃ A' p, s :: A = A' ++ [p] := by
      rcases List.eq_nil_or_concat (s :: A) with h | ⟨A', p, h⟩
      · simp at h
      · exact ⟨A', p, by simpa using h⟩
    obtain ⟨n, B', hB⟩ : ∃ n B', B ++ [s] = n :: B' := by
      cases hB : B ++ [s] with
      | nil => simp at hB
      | cons n B' => exact ⟨n, B', rfl⟩
    have heq : s :: (A ++ x :: B ++ [s]) = A' ++ p :: x :: n :: B' := by
      rw [← hB, List.append_assoc, List.cons_append, ← List.cons_append, hA]; simp
    exact (follows_cycle hnd A' p x n B' heq).trans (h A' p x n B' heq).symm
  intro x hx
  rcases List.mem_cons.1 hx with rfl | hx
  · have hsub : ∀ y ∈ adjOf (consec (x :: (m ++ [x]))) x, y ∈ m := by
      intro y hy
      simp only [adjOf, List.mem_flatMap] at hy
      obtain ⟨⟨a, b⟩, hab, hy⟩ := hy
      have hne := cycle_no_loop hnd hm _ hab
      have hmem := mem_of_mem_consec hab
      simp only [List.mem_cons, List.mem_append, List.not_mem_nil, or_false] at hmem
      simp only [Graph.nbrsOf, List.mem_append] at hy
      simp only at hne
      rcases hy with hy | hy <;> split at hy
      · rename_i h1
        simp at hy
        subst hy
        rcases hmem.2 with h | h | h
        · omega
        · exact h
        · omega
      · simp at hy
      · rename_i h1
        simp at hy
        subst hy
        rcases hmem.1 with h | h | h
        · omega
        · exact h
        · omega
      · simp at hy
    have hsp : (adjOf (consec (x :: (m ++ [x]))) x).Subperm (adjOf ps x) := by
      rw [List.subperm_ext_iff]
      intro y hy
      rw [count_adjOf_comm, (inner y (hsub y hy)).count_eq, count_adjOf_comm]
    refine hsp.perm_of_length_le ?_
    have hl := adjOf_cycle_length hnd hm x
    rw [if_pos (by simp)] at hl
    rw [hl, hdeg]
    intro h0
    rw [h0, List.subperm_nil] at hsp
    rw [hsp] at hl
    simp at hl
  · exact inner x hx

/-- A connected set of edges without self-loops in which every degree is zero or two forms a cycle. -/
theorem regular_connected_cycle {ps : List (Nat × Nat)} (hne : ps ≠ []) (hloop : ∀ e ∈ ps, e.1 ≠ e.2)
    (hdeg : ∀ u, degreeIn ps u = 0 ∨ degreeIn ps u = 2)
    (hconn : ∀ u v, degreeIn ps u ≠ 0 → degreeIn ps v ≠ 0 → Relation.ReflTransGen (fun a b => b ∈ adjOf ps a) u v) :
    ∃ vs, FormCycle ps vs := by
  have hdeg' : ∀ u, adjOf ps u ≠ [] → (adjOf ps u).length = 2 := by
    intro u hu
    rw [adjOf_length]
    rcases hdeg u with h | h
    · rw [← adjOf_length, List.length_eq_zero_iff] at h; exact absurd h hu
    · exact h
  have hsym : ∀ u v, v ∈ adjOf ps u → u ∈ adjOf ps v := fun u v hv => (mem_adjOf_comm _ u v).1 hv
  obtain ⟨⟨s, t⟩, ps', rfl⟩ : ∃ e ps', ps = e :: ps' := by
    cases ps with
    | nil => exact absurd rfl hne
    | cons e ps => exact ⟨e, ps, rfl⟩
  generalize hps : (s, t) :: ps' = ps at *
  have hts : s ∈ adjOf ps t := by rw [← hps, adjOf_cons]; simp [Graph.nbrsOf]
  have hst : s ≠ t := hloop (s, t) (by simp [← hps])
  have hl := (adjOf_self_iff ps).2 hloop
  obtain ⟨j, h1, h2⟩ := cycleWalkLoop_total hsym hdeg' (source := s) ps.length s t 0 hts
  rcases h2 with h2 | ⟨-, m, z, h3, h4, h5, h6⟩
  · obtain ⟨m, h3, h4, h5, h6⟩ := cycleWalkLoop_sound hsym hts h1 h2
    have hnd := follows_nodup hl h4 h6
    have hm : m ≠ [] := by
      rintro rfl
      simp at h5
      exact hst h5
    have hadj := follows_adjOf hdeg' hnd hm h6
    have hclosed : ∀ a b, b ∈ adjOf ps a → a ∈ s :: m → b ∈ s :: m := by
      intro a b hb ha
      rw [← (hadj a ha).mem_iff, mem_adjOf_comm] at hb
      have hlen := adjOf_cycle_length hnd hm b
      by_contra hcon
      rw [if_neg hcon, List.length_eq_zero_iff] at hlen
      rw [hlen] at hb
      simp at hb
    have hall : ∀ v, degreeIn ps v ≠ 0 → v ∈ s :: m := by
      intro v hv
      have hs0 : degreeIn ps s ≠ 0 := by
        rw [← adjOf_length]
        intro h0
        have := hsym _ _ hts
        rw [List.length_eq_zero_iff.1 h0] at this
        simp at this
      have hc := hconn s v hs0 hv
      induction hc with
      | refl => simp
      | @tail b c _ hbc ih =>
        refine hclosed b c hbc (ih ?_)
        intro h0
        rw [← adjOf_length] at h0
        rw [List.length_eq_zero_iff.1 h0] at hbc
        simp at hbc
    refine ⟨s :: m, ?_, hnd, ?_⟩
    · have := List.length_pos_iff.2 hm; simp; omega
    · rw [cycleEdges_cons, List.perm_iff_count]
      have hp : ∀ v, (adjOf ps v).Perm (adjOf (consec (s :: (m ++ [s]))) v) := by
        intro v
        by_cases hv : v ∈ s :: m
        · exact (hadj v hv).symm
        · have h7 : adjOf ps v = [] := by
            have : degreeIn ps v = 0 := by
              by_contra hcon
              exact hv (hall v hcon)
            rw [← adjOf_length] at this
            exact List.length_eq_zero_iff.1 this
          have h8 := adjOf_cycle_length hnd hm v
          rw [if_neg hv] at h8
          rw [h7, List.length_eq_zero_iff.1 h8]
      intro e
      have hself : ∀ qs : List (Nat × Nat), e ∈ qs.map und → e = und (e.1, e.2) := by
        intro qs he
        obtain ⟨q, -, rfl⟩ := List.mem_map.1 he
        simp only [und]
        ext <;> simp <;> omega
      by_cases he : e = und (e.1, e.2)
      · by_cases h12 : e.1 = e.2
        · have k1 := count_adjOf_self ps e.1
          have k2 := count_adjOf_self (consec (s :: (m ++ [s]))) e.1
          rw [(hp e.1).count_eq, k2] at k1
          rw [he, ← h12]
          omega
        · rw [he, ← count_adjOf _ h12, ← count_adjOf _ h12]
          exact (hp e.1).count_eq _
      · rw [List.count_eq_zero.2 (fun h => he (hself _ h)), List.count_eq_zero.2 (fun h => he (hself _ h))]
  · -- more vertices than edges
    exfalso
    have hnd := follows_nodup hl h4 h6
    have hle := sum_degreeIn_le ps hnd
    have h2 : ∀ v ∈ s :: m, degreeIn ps v = 2 := by
      intro v hv
      rcases hdeg v with h0 | h0
      · exfalso
        have h00 : adjOf ps v = [] := by rw [← adjOf_length] at h0; exact List.length_eq_zero_iff.1 h0
        rcases List.mem_cons.1 hv with rfl | hv
        · have := hsym _ _ hts
          rw [h00] at this
          simp at this
        · obtain ⟨A, B, rfl⟩ := List.append_of_mem hv
          obtain ⟨A', p, hA⟩ : ∃ A' p, s :: A = A' ++ [p] := by
            rcases List.eq_nil_or_concat (s :: A) with h | ⟨A', p, h⟩
            · simp at h
            · exact ⟨A', p, by simpa using h⟩
          obtain ⟨n, B', hB⟩ : ∃ n B', B ++ [z] = n :: B' := by
            cases hB : B ++ [z] with
            | nil => simp at hB
            | cons n B' => exact ⟨n, B', rfl⟩
          have heq : s :: (A ++ v :: B ++ [z]) = A' ++ p :: v :: n :: B' := by
            rw [← hB, List.append_assoc, List.cons_append, ← List.cons_append, hA]; simp
          have := (h6 A' p v n B' heq).length_eq
          rw [h00] at this
          simp at this
      · exact h0
    have hsum : ∀ l : List Nat, (∀ v ∈ l, degreeIn ps v = 2) → (l.map (degreeIn ps)).sum = 2 * l.length := by
      intro l hl
      induction l with
      | nil => rfl
      | cons v l ih =>
        rw [List.map_cons, List.sum_cons, hl v (by simp), ih fun w hw => hl w (by simp [hw]), List.length_cons]
        omega
    rw [hsum _ h2, List.length_cons, h3] at hle
    omega

end Pctsp
