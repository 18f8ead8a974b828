import Verif.Props.Walk
import Verif.Props.Machine
import Verif.Lemmas.RowsTour

/-!
# Properties C04 and C106: the prize of a graph
-/

namespace Pctsp

/-- **C04.** The prize of the graph is the most that a tour can collect if no prize is negative, and what every tour through all vertices collects. -/
theorem C04_graph_prize {g : Graph} (hg : g.WF) (prize : Nat → Int) {r : Nat} {t : List Nat} (ht : IsTour g r t) (hlen : 2 ≤ t.length) :
    ((∀ v, 0 ≤ prize v) → totalPrizeOfTour prize t = .ok (tourPrize prize t) ∧ tourPrize prize t ≤ totalPrizeOfGraph g prize) ∧
    ((∀ v < g.n, v ∈ t) → totalPrizeOfTour prize t = .ok (totalPrizeOfGraph g prize)) := by
  have htot : totalPrizeOfGraph g prize = ((List.range g.n).map prize).sum := by simp [totalPrizeOfGraph, foldl_add_eq_sum]
  have hne : t ≠ [] := by rintro rfl; simp at hlen
  have h1 := (C04_tour_prize prize t).2 hne
  have hnd := ht.nodup
  obtain ⟨m, rfl⟩ := ht.shape
  have hr : ∀ v ∈ (r :: (m ++ [r])).dropLast, v ∈ List.range g.n := by
    intro v hv
    obtain ⟨w, hw⟩ : ∃ w, (v, w) ∈ consec (r :: (m ++ [r])) := by
      have : v ∈ (consec (r :: (m ++ [r]))).map Prod.fst := by rw [consec_fst]; exact hv
      obtain ⟨⟨a, b⟩, h, rfl⟩ := List.mem_map.1 this
      exact ⟨b, h⟩
    rw [List.mem_range]
    rcases ht.walk _ hw with h | h
    · exact (hg _ h).1
    · exact (hg _ h).2
  constructor
  · intro hp
    refine ⟨h1, ?_⟩
    obtain ⟨l, hl1, hl2⟩ := hnd.subperm hr
    rw [htot, tourPrize, prizeSum, ← sum_eq_of_perm (hl1.map prize)]
    clear hl1 h1 hr hlen ht htot hne
    generalize List.range g.n = k at hl2
    induction hl2 with
    | slnil => simp
    | cons a _ ih => simp only [List.map_cons, List.sum_cons]; have := hp a; omega
    | cons_cons a _ ih => simp only [List.map_cons, List.sum_cons]; omega
  · intro hall
    rw [h1, htot]
    congr 1
    refine sum_eq_of_perm (List.Perm.map _ ?_)
    rw [List.perm_ext_iff_of_nodup hnd List.nodup_range]
    intro v
    refine ⟨fun h => hr v h, fun h => ?_⟩
    have := hall v (List.mem_range.1 h)
    rw [dropLast_tour]
    simp at this ⊢
    tauto

/-- **C106.** As a 32-bit number it is defined exactly if it fits, for prizes that are not negative. -/
theorem C106_graph_prize (g : Graph) (prize : Nat → Int) (hp : ∀ v, 0 ≤ prize v) :
    (totalPrizeOfGraphM g prize = .ok (totalPrizeOfGraph g prize) ↔ totalPrizeOfGraph g prize ≤ 2147483647) ∧
    (¬ totalPrizeOfGraph g prize ≤ 2147483647 → (totalPrizeOfGraphM g prize).isUb = true) := by
  have htot : totalPrizeOfGraph g prize = prizeSum prize (List.range g.n) := by simp [totalPrizeOfGraph, foldl_add_eq_sum, prizeSum]
  rw [htot]
  exact (C106_prize prize (List.range g.n)).2.2 hp

example : let g : Graph := { n := 3, edges := [(0, 1), (1, 2), (0, 2)] }
    g.WF ∧ IsTour g 0 [0, 1, 2, 0] ∧ (∀ v < g.n, v ∈ [0, 1, 2, 0]) ∧ totalPrizeOfGraph g (fun v => v + 1) = 6 ∧
    totalPrizeOfTour (fun v => v + 1) [0, 1, 2, 0] = .ok 6 ∧ totalPrizeOfGraphM g (fun v => v + 1) = .ok 6 ∧
    (totalPrizeOfGraphM g fun _ => 1000000000).isUb = true :=
  ⟨by decide, ⟨⟨[1, 2], rfl⟩, by decide, by decide⟩, by decide, by decide, by decide, by decide +kernel, by decide +kernel⟩

example := C04_graph_prize (g := { n := 4, edges := [(0, 1), (1, 2), (0, 2), (2, 3)] }) (by decide) (fun v => v + 1) (r := 0) (t := [0, 1, 2, 0])
  ⟨⟨[1, 2], rfl⟩, by decide, by decide⟩ (by decide)

end Pctsp
