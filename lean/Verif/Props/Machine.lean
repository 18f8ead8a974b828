import Verif.Lemmas.MachineLoops
import Verif.Props.Compose
import Verif.Props.Gain
import Verif.Spec.Names
import Mathlib.Data.List.Dedup

/-!
# C106: machine numbers
-/

namespace Pctsp

variable {F : Type} {g : Graph} {cost prize : Nat → Int} {B : Int}

/-- A value of type `int`. -/
def FitsInt (x : Int) : Prop := -2147483648 ≤ x ∧ x ≤ 2147483647

instance (x : Int) : Decidable (FitsInt x) := inferInstanceAs (Decidable (_ ∧ _))

theorem int32_cases (x : Int) : (FitsInt x ∧ int32 x = .ok x) ∨ (¬ FitsInt x ∧ (int32 x).isUb = true) := by
  rw [int32]
  by_cases h : -2147483648 ≤ x ∧ x ≤ 2147483647
  · exact Or.inl ⟨h, if_pos h⟩
  · rw [if_neg h]; exact Or.inr ⟨h, rfl⟩

theorem sumM_cases (f : Nat → Int) (l : List Nat) (s : Int) (hs : FitsInt s) :
    ((∀ k ≤ l.length, FitsInt (s + ((l.take k).map f).sum)) ∧ sumM f l s = .ok (s + (l.map f).sum)) ∨
    ((∃ k ≤ l.length, ¬ FitsInt (s + ((l.take k).map f).sum)) ∧ (sumM f l s).isUb = true) := by
  induction l generalizing s with
  | nil => exact Or.inl ⟨fun k _ => by simpa using hs, by simp [sumM]⟩
  | cons x l ih =>
    rw [sumM]
    rcases int32_cases (s + f x) with ⟨h1, h2⟩ | ⟨h1, h2⟩
    · rw [h2, Res.ok_bind]
      rcases ih (s + f x) h1 with ⟨h3, h4⟩ | ⟨⟨k, hk, h3⟩, h4⟩
      · refine Or.inl ⟨fun k hk => ?_, by rw [h4]; simp [Int.add_assoc]⟩
        cases k with
        | zero => simpa using hs
        | succ k =>
          have := h3 k (by simpa using hk)
          simpa [Int.add_assoc] using this
      · exact Or.inr ⟨⟨k + 1, by simpa using hk, by simpa [Int.add_assoc] using h3⟩, h4⟩
    · refine Or.inr ⟨⟨1, by simp, by simpa using h1⟩, ?_⟩
      cases hx : int32 (s + f x) with
      | ok a => rw [hx] at h2; cases h2
      | throw a => rw [hx] at h2; cases h2
      | ub a => rfl

/-- **C106.** The prize of a path: the sum, provided that no prefix has a prize outside the type; otherwise undefined. -/
theorem C106_prize (prize : Nat → Int) (l : List Nat) :
    ((∀ k ≤ l.length, FitsInt (prizeSum prize (l.take k))) → totalPrizeM prize l = .ok (prizeSum prize l)) ∧
    ((∃ k ≤ l.length, ¬ FitsInt (prizeSum prize (l.take k))) → (totalPrizeM prize l).isUb = true) ∧
    ((∀ v, 0 ≤ prize v) → (totalPrizeM prize l = .ok (prizeSum prize l) ↔ prizeSum prize l ≤ 2147483647) ∧
      (¬ prizeSum prize l ≤ 2147483647 → (totalPrizeM prize l).isUb = true)) := by
  have h0 : FitsInt 0 := by decide
  have key := sumM_cases prize l 0 h0
  simp only [Int.zero_add] at key
  change ((∀ k ≤ l.length, FitsInt (prizeSum prize (l.take k))) ∧ totalPrizeM prize l = .ok (prizeSum prize l)) ∨
    ((∃ k ≤ l.length, ¬ FitsInt (prizeSum prize (l.take k))) ∧ (totalPrizeM prize l).isUb = true) at key
  refine ⟨fun h => ?_, fun ⟨k, hk, h⟩ => ?_, fun hp => ?_⟩
  · rcases key with key | ⟨⟨k, hk, h'⟩, -⟩
    · exact key.2
    · exact absurd (h k hk) h'
  · rcases key with ⟨h', -⟩ | key
    · exact absurd (h' k hk) h
    · exact key.2
  · have hnn := fun l => prizeSum_nonneg hp l
    have hle : ∀ k, prizeSum prize (l.take k) ≤ prizeSum prize l := by
      intro k
      have : prizeSum prize l = prizeSum prize (l.take k) + prizeSum prize (l.drop k) := by
        rw [prizeSum, prizeSum, prizeSum, ← List.sum_append, ← List.map_append, List.take_append_drop]
      have := hnn (l.drop k)
      omega
    rcases key with ⟨h1, h2⟩ | ⟨⟨k, hk, h1⟩, h2⟩
    · have h3 := (h1 l.length (Nat.le_refl _)).2
      rw [List.take_length] at h3
      exact ⟨⟨fun _ => h3, fun _ => h2⟩, fun h => absurd h3 h⟩
    · have h3 : ¬ prizeSum prize l ≤ 2147483647 := by
        intro h
        have := hle k
        have := hnn (l.take k)
        exact h1 ⟨by omega, by omega⟩
      refine ⟨⟨fun h => ?_, fun h => absurd h h3⟩, fun _ => h2⟩
      rw [h] at h2; cases h2

/-- Four prizes: the sum fits, but a sum on the way does not, so the order counts. -/
example : totalPrizeM (fun v => if v < 3 then 1000000000 else -1000000000) [0, 3, 1, 2] = .ok 2000000000 ∧
    (totalPrizeM (fun v => if v < 3 then 1000000000 else -1000000000) [0, 1, 2, 3]).isUb = true := by decide

theorem take_edges_walkCost (hg : g.WF) {l es : List Nat} (hw : IsWalk g l) (he : getEdgesInWalk g l = .ok es) (cost : Nat → Int) (k : Nat) :
    ((es.take k).map cost).sum = walkCost g cost (l.take (k + 1)) := by
  induction l generalizing es k with
  | nil => simp only [getEdgesInWalk, Res.ok.injEq] at he; subst he; simp
  | cons u l ih =>
    cases l with
    | nil => simp only [getEdgesInWalk, Res.ok.injEq] at he; subst he; simp
    | cons v l =>
      have hw' : IsWalk g (v :: l) := fun p hp => hw p (by rw [consec_cons_cons]; exact List.mem_cons_of_mem _ hp)
      have h1 := totalCost_of_isWalk hg cost hw
      have h2 := totalCost_of_isWalk hg cost hw'
      rw [getEdgesInWalk] at he
      obtain ⟨e, hE, he⟩ := Res.bind_eq_ok.1 he
      cases e with
      | none => cases he
      | some e =>
        obtain ⟨es', h3, he⟩ := Res.bind_eq_ok.1 he
        cases he
        cases k with
        | zero => simp
        | succ k =>
          have hpair : cost e = pairCost g cost u v := by
            simp only [totalCost, getEdgesInWalk, hE, Res.ok_bind, h3, Res.pure_eq, Res.ok.injEq, totalCostEdges_eq, List.map_cons, List.sum_cons,
              walkCost_cons_cons] at h1 h2
            omega
          rw [List.take_succ_cons, List.map_cons, List.sum_cons, ih hw' h3 k, hpair]
          simp

/-- **C106.** The cost of a walk: the sum over its edges, provided that no prefix has a cost outside the type; otherwise undefined. -/
theorem C106_cost (hg : g.WF) {l : List Nat} (hw : IsWalk g l) (cost : Nat → Int) :
    ((∀ k, FitsInt (walkCost g cost (l.take k))) → totalCostM g cost l = .ok (walkCost g cost l)) ∧
    ((∃ k, ¬ FitsInt (walkCost g cost (l.take k))) → (totalCostM g cost l).isUb = true) ∧
    ((∀ e, 0 ≤ cost e) → (totalCostM g cost l = .ok (walkCost g cost l) ↔ walkCost g cost l ≤ 2147483647) ∧
      (¬ walkCost g cost l ≤ 2147483647 → (totalCostM g cost l).isUb = true)) := by
  obtain ⟨es, he, -⟩ := getEdgesInWalk_of_isWalk hg hw
  have hlen := getEdgesInWalk_length he
  have htake := take_edges_walkCost hg hw he cost
  have key := sumM_cases cost es 0 (by decide)
  simp only [Int.zero_add, htake] at key
  have hall : (es.map cost).sum = walkCost g cost l := by
    have := htake es.length
    rw [List.take_length] at this
    rw [this, List.take_of_length_le (by omega)]
  have hM : totalCostM g cost l = sumM cost es 0 := by rw [totalCostM, he]; rfl
  rw [hall, ← hM] at key
  have hzero : FitsInt (walkCost g cost (l.take 0)) := by simp; decide
  have hto : (∀ k, FitsInt (walkCost g cost (l.take k))) ↔ ∀ k ≤ es.length, FitsInt (walkCost g cost (l.take (k + 1))) := by
    refine ⟨fun h k _ => h _, fun h k => ?_⟩
    cases k with
    | zero => exact hzero
    | succ k =>
      by_cases hk : k ≤ es.length
      · exact h k hk
      · have := h es.length (Nat.le_refl _)
        rw [List.take_of_length_le (by omega)] at this ⊢
        exact this
  have key2 : ((∀ k, FitsInt (walkCost g cost (l.take k))) ∧ totalCostM g cost l = .ok (walkCost g cost l)) ∨
      ((∃ k, ¬ FitsInt (walkCost g cost (l.take k))) ∧ (totalCostM g cost l).isUb = true) := by
    rcases key with ⟨h1, h2⟩ | ⟨⟨k, hk, h1⟩, h2⟩
    · exact Or.inl ⟨hto.2 h1, h2⟩
    · exact Or.inr ⟨⟨k + 1, h1⟩, h2⟩
  refine ⟨fun h => ?_, fun ⟨k, h⟩ => ?_, fun hc => ?_⟩
  · rcases key2 with key | ⟨⟨k, h'⟩, -⟩
    · exact key.2
    · exact absurd (h k) h'
  · rcases key2 with ⟨h', -⟩ | key
    · exact absurd (h' k) h
    · exact key.2
  · have hnn : ∀ es : List Nat, 0 ≤ (es.map cost).sum := by
      intro es
      induction es with
      | nil => simp
      | cons e es ih => have := hc e; simp only [List.map_cons, List.sum_cons]; omega
    have hle : ∀ k, 0 ≤ walkCost g cost (l.take k) ∧ walkCost g cost (l.take k) ≤ walkCost g cost l := by
      intro k
      cases k with
      | zero => rw [← hall]; exact ⟨by simp, by simpa using hnn es⟩
      | succ k =>
        rw [← htake k, ← hall]
        have : (es.map cost).sum = ((es.take k).map cost).sum + ((es.drop k).map cost).sum := by
          rw [← List.sum_append, ← List.map_append, List.take_append_drop]
        have := hnn (es.drop k)
        have := hnn (es.take k)
        omega
    rcases key2 with ⟨h1, h2⟩ | ⟨⟨k, h1⟩, h2⟩
    · have h3 := (h1 l.length).2
      rw [List.take_length] at h3
      exact ⟨⟨fun _ => h3, fun _ => h2⟩, fun h => absurd h3 h⟩
    · have h3 : ¬ walkCost g cost l ≤ 2147483647 := by
        intro h
        have := hle k
        exact h1 ⟨by omega, by omega⟩
      refine ⟨⟨fun h => ?_, fun h => absurd h h3⟩, fun _ => h2⟩
      rw [h] at h2; cases h2

/-- A tour of three edges of cost 10⁹ has no cost, one of two has. -/
example : (totalCostM { n := 3, edges := [(0, 1), (1, 2), (2, 0)] } (fun _ => 1000000000) [0, 1, 2, 0]).isUb = true ∧
    totalCostM { n := 3, edges := [(0, 1), (1, 2), (2, 0)] } (fun _ => 1000000000) [0, 1, 2] = .ok 2000000000 := by decide

/-- **C106.** If costs and prizes are at most `B` in absolute value and `2 (n + 3) B` fits the type, then no sum or difference that the extension of a tour
computes overflows: the machine computes what is computed with unbounded numbers. -/
theorem C106_extension (h : SmallValues g.n cost prize B) (O : FloatOps F) (hO : O.SignSound) (hg : g.WF) {r : Nat} {t : List Nat} (ht : IsTour g r t)
    (step depth : Int) (hs : 1 ≤ step) :
    ((∀ v, 0 ≤ prize v) → pathExtensionM O g t cost prize r step depth = pathExtension O g t cost prize r step depth) ∧
    ∀ quota, pathExtensionUntilPrizeFeasibleM O g t cost prize r quota step depth = pathExtensionUntilPrizeFeasible O g t cost prize r quota step depth :=
  ⟨fun hp => pathExtensionLoopM_eq h O hO hg hp step depth hs _ _ _ t ht, fun quota => pathExtensionUntilM_eq h O hO hg quota step depth hs ht⟩

/-- **C106.** The same for the extension by unitary gain, on any list of vertices that is no longer than a tour can be. -/
theorem C106_gain (h : SmallValues g.n cost prize B) (O : FloatOps F) (t : List Nat) :
    extensionUnitaryGainM O g t cost prize = extensionUnitaryGain O g t cost prize ∧
    (t.length ≤ g.n + 1 → ∀ quota, extensionUntilPrizeFeasibleM O g t cost prize quota = extensionUntilPrizeFeasible O g t cost prize quota) := by
  refine ⟨extensionUnitaryGainLoopM_eq h O _ _ _ _ _, fun ht quota => ?_⟩
  obtain ⟨h1, h2⟩ := totalPrizeOfTourM_eq h (t := t) (by omega)
  rw [extensionUntilPrizeFeasibleM, extensionUntilPrizeFeasible, h1]
  cases hp : totalPrizeOfTour prize t with
  | throw e => rfl
  | ub e => rfl
  | ok p => exact extensionUntilLoopM_eq h O quota _ 0 true p (g.n + 3) (h2 p hp) (by omega) _ _ _

/-- **C106.** The same for Dijkstra's algorithm, for the collapse, and for extension and collapse in alternation. -/
theorem C106_collapse (h : SmallValues g.n cost prize B) :
    (∀ mark target pick source, dijkstraM g cost mark target pick source = dijkstra g cost mark target pick source) ∧
    (∀ t, t.length ≤ g.n + 1 → ∀ quota root useShortest pick,
      collapseM g t cost prize quota root useShortest pick = collapse g t cost prize quota root useShortest pick) ∧
    ∀ (O : FloatOps F), O.SignSound → g.WF → (∀ v, 0 ≤ prize v) → ∀ r t, IsTour g r t → ∀ pick0 pick, (∀ i, Pick.Heap (pick0 i)) →
      (∀ j i, Pick.Heap (pick j i)) → ∀ quota useShortest depth stepSize,
      pathExtensionCollapseM O g t cost prize quota r useShortest pick0 pick depth stepSize =
        pathExtensionCollapse O g t cost prize quota r useShortest pick0 pick depth stepSize := by
  refine ⟨dijkstraM_eq h, fun t ht quota root useShortest pick => collapseM_eq h ht quota root useShortest pick, ?_⟩
  intro O hO hg hp r t ht pick0 pick hpick0 hpick quota useShortest depth stepSize
  have hrest : ∀ t', IsTour g r t' → (do
      let best ← collapseM g t' cost prize quota r useShortest pick0
      let bestCost ← totalCostM g cost best
      let best := reorderTourFromRoot best r
      let best ← pingPongLoopM O g cost prize quota r useShortest pick depth stepSize.toNat 1 (best, bestCost)
      pure (reorderTourFromRoot best r)) = (do
      let best ← collapse g t' cost prize quota r useShortest pick0
      let bestCost ← totalCost g cost best
      let best := reorderTourFromRoot best r
      let best ← pingPongLoop O g cost prize quota r useShortest pick depth stepSize.toNat 1 (best, bestCost)
      pure (reorderTourFromRoot best r)) := by
    intro t' ht'
    rw [collapseM_eq h (ht'.length_le hg)]
    rcases collapse_spec' hg ht' cost prize hp quota useShortest hpick0 with ⟨r1, -⟩ | ⟨t2, r1, r2, -⟩
    · simp only [r1]; rfl
    · have hl := r2.length_le hg
      simp only [r1, Res.ok_bind, (totalCostM_eq h (by omega : t2.length ≤ g.n + 3)).1, reorder_tour r2,
        pingPongLoopM_eq h O hO hg hp quota depth useShortest hpick stepSize.toNat 1 (by omega) t2 r2]
  have hl := ht.length_le hg
  rw [pathExtensionCollapseM, pathExtensionCollapse, (totalPrizeOfTourM_eq h (by omega : t.length ≤ g.n + 3)).1, totalPrizeOfTour_eq prize ht.ne_nil]
  simp only [Res.ok_bind]
  split
  · simp only [Res.pure_eq, Res.ok_bind, Bool.true_eq_false, if_false]
    exact hrest t ht
  · rw [extendUntilFeasibleLoopM_eq h O hO hg quota depth _ 1 (by omega) t ht]
    obtain ⟨t', b, k1, k2, -⟩ := extendUntilFeasibleLoop_spec O hO hg cost prize quota depth stepSize.toNat 1 (by omega) t ht
    rw [k1]
    simp only [Res.ok_bind]
    cases b with
    | false => rfl
    | true =>
      simp only [Bool.true_eq_false, if_false]
      exact hrest t' k2

/-- Values of up to a hundred million on a graph with seven vertices meet the hypothesis. -/
example : SmallValues 7 (fun e => if e = 2 then 100000000 else 1) (fun v => if v = 6 then 100000000 else 2) 100000000 :=
  ⟨fun e => by split <;> decide, fun v => by split <;> decide, by decide⟩

/-- Such a run, in which the tour is extended and then collapsed. -/
example : pathExtensionCollapseM FloatOps.exact { n := 7, edges := [(0, 1), (1, 2), (2, 3), (3, 4), (4, 5), (5, 0), (6, 0), (6, 1)] }
    [0, 1, 2, 3, 4, 5, 0] (fun e => if e = 2 then 100000000 else 1) (fun v => if v = 6 then 100000000 else 2) 6 0 false (fun _ => exPick) (fun _ _ => exPick) 2 2
    = .ok [0, 1, 6, 0] := by decide +kernel

/-- A walk to a vertex can be chosen without repeated vertices. -/
theorem exists_nodup_walk {V : Type} [DecidableEq V] (R : V → V → Prop) (root : V) (l : List V) (h : ∀ p ∈ consec (root :: l), R p.1 p.2) (x : V)
    (hx : (root :: l).getLast? = some x) :
    ∃ l', (root :: l').Nodup ∧ (∀ p ∈ consec (root :: l'), R p.1 p.2) ∧ (root :: l').getLast? = some x := by
  induction l using List.reverseRecOn generalizing x with
  | nil => exact ⟨[], by simp, h, hx⟩
  | append_singleton l y ih =>
    obtain rfl : y = x := by
      rw [← List.cons_append, List.getLast?_append] at hx
      simpa using hx
    obtain ⟨z, hz⟩ : ∃ z, (root :: l).getLast? = some z := ⟨(root :: l).getLast (by simp), List.getLast?_eq_some_getLast (by simp)⟩
    obtain ⟨A, hA⟩ := List.getLast?_eq_some_iff.1 hz
    have hc : consec (root :: (l ++ [y])) = consec (root :: l) ++ [(z, y)] := by
      rw [← List.cons_append, hA, List.append_assoc, List.singleton_append, consec_append]; simp
    rw [hc] at h
    obtain ⟨l', n1, n2, n3⟩ := ih (fun p hp => h p (List.mem_append_left _ hp)) z hz
    have hzy : R z y := h (z, y) (by simp)
    by_cases hm : y ∈ root :: l'
    · obtain ⟨P, Q, hPQ⟩ := List.append_of_mem hm
      have hsplit : ∃ P', P ++ [y] = root :: P' := by
        cases P with
        | nil => rw [List.nil_append, List.cons.injEq] at hPQ; exact ⟨[], by simp [hPQ.1]⟩
        | cons a P => rw [List.cons_append, List.cons.injEq] at hPQ; exact ⟨P ++ [y], by simp [hPQ.1]⟩
      obtain ⟨P', hP'⟩ := hsplit
      refine ⟨P', ?_, fun p hp => n2 p ?_, ?_⟩
      · rw [← hP']
        rw [hPQ] at n1
        exact n1.sublist (by simp)
      · rw [hPQ, consec_append, hP']; exact List.mem_append_left _ hp
      · rw [← hP']; simp
    · obtain ⟨A', hA'⟩ := List.getLast?_eq_some_iff.1 n3
      refine ⟨l' ++ [y], ?_, fun p hp => ?_, ?_⟩
      · rw [← List.cons_append, List.nodup_append]
        exact ⟨n1, by simp, fun a ha b hb => by
          obtain rfl := List.mem_singleton.1 hb
          rintro rfl
          exact hm ha⟩
      · rw [← List.cons_append, hA', List.append_assoc, List.singleton_append, consec_append, ← hA'] at hp
        rcases List.mem_append.1 hp with hp | hp
        · exact n2 p hp
        · simp at hp; subst hp; exact hzy
      · rw [← List.cons_append, List.getLast?_append]; rfl

theorem namedCost_le {V : Type} {w : V → V → Int} {B : Int} (l : List V) (h : ∀ p ∈ consec l, w p.1 p.2 ≤ B) :
    namedCost w l ≤ ((l.length - 1 : Nat) : Int) * B := by
  have : ∀ ps : List (V × V), (∀ p ∈ ps, w p.1 p.2 ≤ B) → (ps.map fun p => w p.1 p.2).sum ≤ (ps.length : Int) * B := by
    intro ps hps
    induction ps with
    | nil => simp
    | cons p ps ih =>
      have h1 := hps p (by simp)
      have h2 := ih fun q hq => hps q (List.mem_cons_of_mem _ hq)
      simp only [List.map_cons, List.sum_cons, List.length_cons]
      push_cast
      rw [Int.add_mul]
      omega
  have := this _ h
  rwa [consec_length] at this

/-- **C106.** The distances of the shortest path cost cover: if every vertex can be reached from the root and the costs are at most `B`, where `2 n B` fits the
type, then every vertex is at a distance whose double fits. -/
theorem C106_reach {V : Type} [DecidableEq V] {es : List (V × V)} {w : V → V → Int} {root : V} {B : Int} (hB : 0 ≤ B)
    (hw : ∀ x y, AdjIn es x y → w x y ≤ B) (hfit : 2 * ((endpoints es).dedup.length : Int) * B ≤ 2147483647)
    (hconn : ∀ x ∈ endpoints es, ∃ l, (root :: l).getLast? = some x ∧ ∀ p ∈ consec (root :: l), AdjIn es p.1 p.2) :
    ∀ x ∈ endpoints es, ∃ l, (root :: l).getLast? = some x ∧ (∀ p ∈ consec (root :: l), AdjIn es p.1 p.2) ∧ namedCost w (root :: l) ≤ 1073741823 := by
  intro x hx
  obtain ⟨l, h1, h2⟩ := hconn x hx
  obtain ⟨l', n1, n2, n3⟩ := exists_nodup_walk (AdjIn es) root l h2 x h1
  refine ⟨l', n3, n2, ?_⟩
  have h3 := namedCost_le (root :: l') (fun p hp => hw _ _ (n2 p hp))
  have hsub : l' ⊆ (endpoints es).dedup := by
    intro y hy
    obtain ⟨P, Q, rfl⟩ := List.append_of_mem hy
    have : ∃ z, (z, y) ∈ consec (root :: (P ++ y :: Q)) := by
      rw [← List.cons_append, consec_append]
      obtain ⟨A, hA⟩ := List.getLast?_eq_some_iff.1 (List.getLast?_eq_some_getLast (l := root :: P) (by simp))
      generalize (root :: P).getLast (by simp) = z at hA
      rw [hA]
      exact ⟨z, List.mem_append_left _ (by rw [List.append_assoc, List.singleton_append, consec_append]; simp)⟩
    obtain ⟨z, hz⟩ := this
    rw [List.mem_dedup]
    have := n2 _ hz
    revert this
    simp only [AdjIn, endpoints, List.mem_flatMap]
    rintro (h | h)
    · exact ⟨_, h, by simp⟩
    · exact ⟨_, h, by simp⟩
  have hl := (((List.nodup_cons.1 n1).2).subperm hsub).length_le
  have h4 : ((l'.length : Nat) : Int) * B ≤ ((endpoints es).dedup.length : Int) * B := Int.mul_le_mul_of_nonneg_right (by exact_mod_cast hl) hB
  have e : 2 * ((endpoints es).dedup.length : Int) * B = 2 * (((endpoints es).dedup.length : Int) * B) := by ring
  simp only [List.length_cons, Nat.add_sub_cancel] at h3
  omega

/-- The hypotheses of C106_reach for a path of three edges of cost 10⁸, with the root in the middle. -/
example : (∀ x y, AdjIn [((5 : Nat), (7 : Nat)), (7, 9), (9, 11)] x y → (100000000 : Int) ≤ 100000000) ∧
    2 * ((endpoints [((5 : Nat), (7 : Nat)), (7, 9), (9, 11)]).dedup.length : Int) * 100000000 ≤ 2147483647 ∧
    ∀ x ∈ endpoints [((5 : Nat), (7 : Nat)), (7, 9), (9, 11)], ∃ l, (7 :: l).getLast? = some x ∧
      ∀ p ∈ consec (7 :: l), AdjIn [((5 : Nat), (7 : Nat)), (7, 9), (9, 11)] p.1 p.2 := by
  refine ⟨fun _ _ _ => by decide, by decide, fun x hx => ⟨if x = 5 then [5] else if x = 9 then [9] else if x = 11 then [9, 11] else [], ?_⟩⟩
  revert x
  decide

/-- **C106.** The bound is needed: with prizes of 10⁹ on a triangle every heuristic that asks for the prize of the tour is undefined, and with costs of
10⁹ so is the collapse, although no single cost or prize is too large. -/
theorem C106_overflow : ∃ (g : Graph) (t : List Nat), g.WF ∧ IsTour g 0 t ∧ (∀ (O : FloatOps F) quota step depth,
      (pathExtensionUntilPrizeFeasibleM O g t (fun _ => 1) (fun _ => 1000000000) 0 quota step depth).isUb = true ∧
      (extensionUntilPrizeFeasibleM O g t (fun _ => 1) (fun _ => 1000000000) quota).isUb = true ∧
      ∀ b pick0 pick, (pathExtensionCollapseM O g t (fun _ => 1) (fun _ => 1000000000) quota 0 b pick0 pick depth step).isUb = true) ∧
    ∀ quota b pick, (collapseM g t (fun _ => 1000000000) (fun _ => 1) quota 0 b pick).isUb = true := by
  refine ⟨{ n := 3, edges := [(0, 1), (1, 2), (2, 0)] }, [0, 1, 2, 0], by decide, ⟨⟨[1, 2], rfl⟩, by decide, by decide⟩, fun O quota step depth => ?_,
    fun quota b pick => ?_⟩
  · have h : totalPrizeOfTourM (fun _ => 1000000000) [0, 1, 2, 0] = .ub "signed overflow" := by decide
    refine ⟨?_, ?_, fun b pick0 pick => ?_⟩
    · rw [pathExtensionUntilPrizeFeasibleM, h]; rfl
    · rw [extensionUntilPrizeFeasibleM, h]; rfl
    · rw [pathExtensionCollapseM, h]; rfl
  · have h : totalCostM { n := 3, edges := [(0, 1), (1, 2), (2, 0)] } (fun _ => 1000000000) [0, 1, 2, 0] = .ub "signed overflow" := by decide
    rw [collapseM, h]; rfl

/-- The numbers of the run above are small. -/
theorem exSmall : SmallValues 7 (fun e => if e = 2 then 100000000 else 1) (fun v => if v = 6 then 100000000 else 2) 100000000 :=
  ⟨fun e => by split <;> decide, fun v => by split <;> decide, by decide⟩
example := C106_extension (g := { n := 7, edges := [(0, 1), (1, 2), (2, 3), (3, 4), (4, 5), (5, 0), (6, 0), (6, 1)] }) exSmall FloatOps.exact
  FloatOps.exact_lawful.signSound (by decide) (r := 0) (t := [0, 1, 2, 3, 4, 5, 0]) ⟨⟨[1, 2, 3, 4, 5], rfl⟩, by decide, by decide⟩ 2 2 (by decide)
example := C106_gain (g := { n := 7, edges := [(0, 1), (1, 2), (2, 3), (3, 4), (4, 5), (5, 0), (6, 0), (6, 1)] }) exSmall FloatOps.exact
  [0, 1, 2, 3, 4, 5, 0]

end Pctsp
