import Verif.Model.GraphCycle
import Verif.Spec.GraphCycle
import Verif.Lemmas.Regular
import Verif.Lemmas.Cuts
import Verif.Lemmas.BasicSolve

/-!
# Lemmas: graphs that are one cycle
-/

namespace Pctsp

theorem adjacent_eq_adjOf (g : Graph) (v : Nat) : g.adjacent v = adjOf g.edges v := rfl

/-- Neighbours in a graph are joined by an edge. -/
theorem mem_adjOf_iff {g : Graph} {u v : Nat} : v ∈ adjOf g.edges u ↔ SupportAdj g (fun _ => 1) u v := by
  simp only [adjOf, List.mem_flatMap, Graph.nbrsOf, List.mem_append, SupportAdj, EdgeBetween]
  constructor
  · rintro ⟨⟨a, b⟩, he, h⟩
    obtain ⟨i, hi⟩ := List.mem_iff_getElem?.1 he
    refine ⟨i, ?_, by decide⟩
    rcases h with h | h
    · split at h
      · next ha => simp at h ha; subst h ha; exact .inl hi
      · simp at h
    · split at h
      · next ha => simp at h ha; subst h ha; exact .inr hi
      · simp at h
  · rintro ⟨i, h | h, -⟩
    · exact ⟨_, List.mem_of_getElem? h, .inl (by simp)⟩
    · exact ⟨_, List.mem_of_getElem? h, .inr (by simp)⟩

/-- The vertices of a closed walk are connected along it. -/
theorem cycle_connected {ps : List (Nat × Nat)} {s : Nat} {m : List Nat} (h : (ps.map und).Perm ((consec (s :: (m ++ [s]))).map und)) :
    ∀ v ∈ s :: m, Relation.ReflTransGen (fun a b => b ∈ adjOf ps a) s v := by
  have hstep : ∀ p ∈ consec (s :: (m ++ [s])), p.2 ∈ adjOf ps p.1 := by
    rintro ⟨a, b⟩ hp
    rw [(adjOf_perm h a).mem_iff]
    simp only [adjOf, List.mem_flatMap]
    exact ⟨(a, b), hp, by simp [Graph.nbrsOf]⟩
  have key : ∀ (l : List Nat) (a : Nat), (∀ p ∈ consec (a :: l), p.2 ∈ adjOf ps p.1) →
      ∀ v ∈ a :: l, Relation.ReflTransGen (fun a b => b ∈ adjOf ps a) a v := by
    intro l
    induction l with
    | nil => intro a _ v hv; simp at hv; rw [hv]
    | cons b l ih =>
      intro a hl v hv
      rw [consec_cons_cons] at hl
      rcases List.mem_cons.1 hv with rfl | hv
      · exact .refl
      · exact .head (hl (a, b) (by simp)) (ih b (fun p hp => hl p (by simp [hp])) v hv)
  intro v hv
  exact key (m ++ [s]) s hstep v (by rcases List.mem_cons.1 hv with h | h <;> simp [h])

theorem sum_ne_zero_of_mem {α : Type} {l : List α} {f : α → Nat} {a : α} (ha : a ∈ l) (hf : f a ≠ 0) : (l.map f).sum ≠ 0 := by
  induction l with
  | nil => simp at ha
  | cons b l ih =>
    rw [List.map_cons, List.sum_cons]
    rcases List.mem_cons.1 ha with rfl | h
    · omega
    · have := ih h; omega

theorem degreeIn_ne_zero {ps : List (Nat × Nat)} {e : Nat × Nat} (he : e ∈ ps) : degreeIn ps e.1 ≠ 0 ∧ degreeIn ps e.2 ≠ 0 := by
  constructor
  · exact sum_ne_zero_of_mem (f := fun e' : Nat × Nat => (if e'.1 = e.1 then 1 else 0) + (if e'.2 = e.1 then 1 else 0)) he (by simp)
  · exact sum_ne_zero_of_mem (f := fun e' : Nat × Nat => (if e'.1 = e.2 then 1 else 0) + (if e'.2 = e.2 then 1 else 0)) he (by simp)

/-- A connected graph in which every vertex has degree two is a cycle, and conversely. -/
theorem isCycleGraph_iff {g : Graph} (hwf : g.WF) :
    IsCycleGraph g ↔ g.n ≠ 0 ∧ (∀ u v, u < g.n → v < g.n → SupportConnected g (fun _ => 1) u v) ∧ ∀ v < g.n, (g.adjacent v).length = 2 := by
  constructor
  · rintro ⟨vs, hne, hnd, hmem, hperm⟩
    obtain ⟨s, m, rfl⟩ := List.exists_cons_of_ne_nil hne
    rw [cycleEdges_cons] at hperm
    have hs : s < g.n := (hmem s).1 (by simp)
    refine ⟨by omega, ?_, ?_⟩
    · have hc : ∀ v < g.n, SupportConnected g (fun _ => 1) s v := fun v hv =>
        Relation.ReflTransGen.mono (fun a b hab => mem_adjOf_iff.1 hab) _ _ (cycle_connected hperm v ((hmem v).2 hv))
      exact fun u v hu hv => (supportConnected_symm (hc u hu)).trans (hc v hv)
    · intro v hv
      rw [adjacent_eq_adjOf, (adjOf_perm hperm v).length_eq]
      by_cases hm : m = []
      · subst hm
        have : v = s := by simpa using (hmem v).2 hv
        subst this
        simp [consec, adjOf, Graph.nbrsOf]
      · rw [adjOf_cycle_length hnd hm, if_pos ((hmem v).2 hv)]
  · rintro ⟨hn, hconn, hdeg⟩
    by_cases hloop : ∃ e ∈ g.edges, e.1 = e.2
    · -- a self-loop uses up the degree of its vertex, which is then the only one
      obtain ⟨⟨a, b⟩, he, hab⟩ := hloop
      simp only at hab
      subst hab
      have ha : a < g.n := (hwf _ he).1
      have hadj : adjOf g.edges a = [a, a] := by
        have h2 := hdeg a ha
        rw [adjacent_eq_adjOf] at h2
        have hc := count_adjOf_self g.edges a
        have hpos : 0 < (g.edges.map und).count (und (a, a)) := List.count_pos_iff.2 (List.mem_map_of_mem he)
        have hle := List.count_le_length (a := a) (l := adjOf g.edges a)
        have : (adjOf g.edges a).count a = (adjOf g.edges a).length := by omega
        rw [List.count_eq_length] at this
        obtain ⟨x, y, hxy⟩ : ∃ x y, adjOf g.edges a = [x, y] := by
          match adjOf g.edges a, h2 with
          | [x, y], _ => exact ⟨x, y, rfl⟩
        rw [hxy] at this ⊢
        have h1 := this x (by simp)
        have h2 := this y (by simp)
        rw [← h1, ← h2]
      have honly : ∀ v < g.n, v = a := by
        intro v hv
        have := hconn a v ha hv
        unfold SupportConnected at this
        induction this with
        | refl => rfl
        | @tail b c _ hbc ih =>
          have hb : b < g.n := by
            obtain ⟨i, h | h, -⟩ := hbc
            · exact (hwf _ (List.mem_of_getElem? h)).1
            · exact (hwf _ (List.mem_of_getElem? h)).2
          have := ih hb
          subst this
          have := mem_adjOf_iff.2 hbc
          rw [hadj] at this
          simpa using this
      have hn1 : g.n = 1 ∧ a = 0 := by
        have h0 := honly 0 (by omega)
        subst h0
        refine ⟨?_, rfl⟩
        by_contra h
        have := honly 1 (by omega)
        omega
      obtain ⟨hn1, rfl⟩ := hn1
      have hall : ∀ e ∈ g.edges, e = (0, 0) := by
        rintro ⟨x, y⟩ hxy
        have := hwf _ hxy
        rw [hn1] at this
        simp only at this
        rw [show x = 0 by omega, show y = 0 by omega]
      refine ⟨[0], by simp, by simp, by intro v; rw [hn1]; simp, ?_⟩
      have hrep : g.edges = List.replicate g.edges.length (0, 0) := List.eq_replicate_iff.2 ⟨rfl, hall⟩
      have hlen : g.edges.length = 1 := by
        have h2 := hdeg 0 (by omega)
        rw [adjacent_eq_adjOf] at h2
        have hc := count_adjOf_self g.edges 0
        rw [hadj, hrep] at hc
        simp [und] at hc
        omega
      rw [hrep, hlen]
      simp [cycleEdges, consec, und]
    · simp only [not_exists, not_and] at hloop
      have hout : ∀ v, g.n ≤ v → degreeIn g.edges v = 0 := by
        intro v hv
        rw [← adjOf_length, adjOf_of_not_mem]; · rfl
        intro e he
        have := hwf e he
        omega
      have hin : ∀ v < g.n, degreeIn g.edges v = 2 := fun v hv => by rw [← adjOf_length]; exact hdeg v hv
      have hne : g.edges ≠ [] := by
        intro h
        have := hin 0 (by omega)
        rw [h] at this
        simp [degreeIn] at this
      obtain ⟨vs, h1, h2, h3⟩ := regular_connected_cycle hne hloop (fun u => by
          by_cases hu : u < g.n
          · exact .inr (hin u hu)
          · exact .inl (hout u (by omega)))
        (fun u v hu hv => by
          have hu' : u < g.n := by by_contra h; exact hu (hout u (by omega))
          have hv' : v < g.n := by by_contra h; exact hv (hout v (by omega))
          exact Relation.ReflTransGen.mono (fun a b hab => mem_adjOf_iff.2 hab) _ _ (hconn u v hu' hv'))
      match vs, h1, h2, h3 with
      | s :: a :: m, h1, h2, h3 =>
        refine ⟨s :: a :: m, by simp, h2, ?_, h3⟩
        intro v
        rw [cycleEdges_cons] at h3
        have hl := adjOf_cycle_length h2 (by simp) v
        rw [← (adjOf_perm h3 v).length_eq, adjOf_length] at hl
        by_cases hv : v < g.n
        · simp only [hv, iff_true]
          by_contra hc
          rw [if_neg hc, hin v hv] at hl
          omega
        · simp only [hv, iff_false]
          intro hc
          rw [if_pos hc, hout v (by omega)] at hl
          omega

/-- One component: all vertices are connected. -/
theorem components_one_iff {g : Graph} {m : Nat} {ids : List Nat} (hc : IsGraphComponents g m ids) (hn : g.n ≠ 0) :
    m = 1 ↔ ∀ u v, u < g.n → v < g.n → SupportConnected g (fun _ => 1) u v := by
  constructor
  · rintro rfl u v hu hv
    rw [← hc.same u v hu hv]
    have hu' : u < ids.length := by rw [hc.length]; exact hu
    have hv' : v < ids.length := by rw [hc.length]; exact hv
    rw [List.getElem?_eq_getElem hu', List.getElem?_eq_getElem hv']
    have h1 := hc.range _ (List.getElem_mem hu')
    have h2 := hc.range _ (List.getElem_mem hv')
    congr 1
    omega
  · intro h
    have h0 : 0 < ids.length := by rw [hc.length]; omega
    have hm := hc.range _ (List.getElem_mem h0)
    by_contra hne
    obtain ⟨i, hi⟩ := List.mem_iff_getElem?.1 (hc.used 0 (by omega))
    obtain ⟨j, hj⟩ := List.mem_iff_getElem?.1 (hc.used 1 (by omega))
    have hi' : i < g.n := by rw [← hc.length]; exact (List.getElem?_eq_some_iff.1 hi).1
    have hj' : j < g.n := by rw [← hc.length]; exact (List.getElem?_eq_some_iff.1 hj).1
    have := (hc.same i j hi' hj').2 (h i j hi' hj')
    rw [hi, hj] at this
    simp at this

theorem solutionGraphLoop_eq {g : Graph} {es : List Nat} {ps : List (Nat × Nat)} (h : List.Forall₂ (fun e p => g.edges[e]? = some p) es ps)
    (hloop : ∀ p ∈ ps, p.1 ≠ p.2) (sg : Graph) : solutionGraphLoop g es sg = .ok (sg.addEdges ps) := by
  induction h generalizing sg with
  | nil => rfl
  | @cons e p es ps hep _ ih =>
    rw [solutionGraphLoop, ends_ok.2 hep, Res.ok_bind, if_pos (hloop p (by simp)), ih fun q hq => hloop q (by simp [hq])]
    rfl

end Pctsp
