import Verif.Lemmas.CollapseForm
import Verif.Props.Binding
import Verif.Spec.Units
import Mathlib.Order.Bounds.Basic

/-!
# Property C135: the cost of the tour that `collapse` returns
-/

set_option linter.unusedSectionVars false

namespace Pctsp

variable {α : Type} [DecidableEq α]

/-- **C135.** What `collapse` returns is the given tour from the root on, or a run of the tour closed along new vertices; just one new
vertex without the shortest path option. -/
theorem C135_form (g : Graph) (hg : g.WF) (a : Nat) (t : List Nat) (ht : IsTour g a t) (root : Nat)
    (cost prize : Nat → Int) (hp : ∀ v, 0 ≤ prize v) (quota : Int) (useShortest : Bool) (pick : Nat → Pick) (hpick : ∀ i, (pick i).Heap)
    (t' : List Nat) (h : collapse g t cost prize quota root useShortest pick = .ok t') :
    t' = reorderTourFromRoot t root ∨ ∃ P X, Shortcut (Adj g) prize quota root t P X ∧ (X.length = 1 ∨ useShortest = true) ∧
      t' = reorderTourFromRoot (closeRun P X) root :=
  collapse_form hg ht hp hpick h

theorem Shortcut.tour {g : Graph} {prize : Nat → Int} {quota : Int} {root a : Nat} {t P X : List Nat} (ht : IsTour g a t)
    (h : Shortcut (Adj g) prize quota root t P X) : ∃ x, IsTour g x (closeRun P X) ∧ root ∈ closeRun P X := by
  obtain ⟨w, ⟨hne, hlen, i, hi, hpre⟩, -⟩ := h.run
  obtain ⟨x, l, rfl⟩ := List.exists_cons_of_ne_nil hne
  have hnd : (x :: l).Nodup := by
    have hn := cyclic_nodup ht hi
    refine hn.sublist (List.IsPrefix.sublist ?_)
    have h1 : (x :: l) <+: (t.drop i ++ t.tail) := (List.prefix_append _ _).trans hpre
    rw [List.prefix_iff_eq_take] at h1
    rw [h1, ← Nat.min_eq_left (a := (x :: l).length) (b := t.length - 1) (by omega), ← List.take_take]
    exact List.take_prefix _ _
  refine ⟨x, ⟨⟨l ++ X, by simp [closeRun]⟩, ?_, h.walk⟩, List.mem_append_left _ h.root⟩
  have e : (closeRun (x :: l) X).dropLast = (x :: l) ++ X := by
    rw [closeRun, List.take_succ_cons, List.take_zero, ← List.append_assoc, List.dropLast_concat]
  rw [e, List.nodup_append]
  exact ⟨hnd, h.nodup, fun u hu v hv e => h.fresh v hv (e ▸ hu)⟩

theorem reorder_walkCost {g : Graph} (hg : g.WF) (cost : Nat → Int) {x root : Nat} {s : List Nat} (hs : IsTour g x s) (hr : root ∈ s) :
    walkCost g cost (reorderTourFromRoot s root) = walkCost g cost s := by
  have h1 := C01_reorder_isTour g s x root hs hr
  have hcl : s.head? = s.getLast? := by
    obtain ⟨m, hm⟩ := hs.shape
    rw [hm, ← List.cons_append, List.getLast?_concat]; rfl
  obtain ⟨h2, -⟩ := C01_reorder_cost_prize g hg cost (fun _ => 0) s root _ hcl hr (totalCost_of_isWalk hg cost hs.walk)
  rw [totalCost_of_isWalk hg cost h1.walk] at h2
  simpa using h2

theorem Shortcut.cost {g : Graph} {prize cost : Nat → Int} {quota : Int} {root : Nat} {t P : List Nat} {c : Nat}
    (h : Shortcut (Adj g) prize quota root t P [c]) : ∃ x y, P.head? = some x ∧ P.getLast? = some y ∧ Adj g y c ∧ Adj g c x ∧
      walkCost g cost (closeRun P [c]) = walkCost g cost P + (pairCost g cost y c + pairCost g cost c x) := by
  obtain ⟨w, ⟨hne, -⟩, -⟩ := h.run
  obtain ⟨x, hx⟩ : ∃ x, P.head? = some x := by
    cases h : P with
    | nil => exact absurd h hne
    | cons x l => exact ⟨x, rfl⟩
  obtain ⟨y, hy⟩ : ∃ y, P.getLast? = some y := by
    cases h : P.getLast? with
    | none => simp at h; exact absurd h hne
    | some x => exact ⟨x, rfl⟩
  have htake : P.take 1 = [x] := by
    cases hs : P with
    | nil => exact absurd hs hne
    | cons z l => rw [hs] at hx; simp at hx; subst hx; rfl
  obtain ⟨Y, hY⟩ := List.getLast?_eq_some_iff.1 hy
  have e : closeRun P [c] = Y ++ y :: [c, x] := by rw [closeRun, htake, hY]; simp
  have hw : IsWalk g (closeRun P [c]) := h.walk
  rw [e, isWalk_append] at hw
  simp only [isWalk_cons_cons, isWalk_singleton, and_true] at hw
  refine ⟨x, y, hx, hy, hw.2.1, hw.2.2, ?_⟩
  rw [e, walkCost_append, ← hY]
  simp

/-- **C135.** Without the shortest path option the cost of the result is the least of the cost of the tour and the costs of its runs closed
through one new vertex. -/
theorem C135_least (g : Graph) (hg : g.WF) (a : Nat) (t : List Nat) (ht : IsTour g a t) (root : Nat) (hroot : root ∈ t)
    (cost prize : Nat → Int) (hp : ∀ v, 0 ≤ prize v) (quota : Int) (pick : Nat → Pick) (hpick : ∀ i, (pick i).Heap) :
    ∃ t', collapse g t cost prize quota root false pick = .ok t' ∧
      IsLeast {c | c = walkCost g cost t ∨ ∃ P v, Shortcut (Adj g) prize quota root t P [v] ∧ c = walkCost g cost (closeRun P [v])}
        (walkCost g cost t') := by
  obtain ⟨t', h1, -, h2, -⟩ := C21_collapse_tour g hg a t ht root hroot cost prize hp quota false (by simp) pick hpick
  refine ⟨t', h1, ?_, ?_⟩
  · rcases C135_form g hg a t ht root cost prize hp quota false pick hpick t' h1 with rfl | ⟨P, X, hs, hX, rfl⟩
    · exact Or.inl (reorder_walkCost hg cost ht hroot)
    · rcases hX with hX | hX
      · obtain ⟨v, rfl⟩ := List.length_eq_one_iff.1 hX
        obtain ⟨x, hx, hr⟩ := hs.tour ht
        exact Or.inr ⟨P, v, hs, reorder_walkCost hg cost hx hr⟩
      · cases hX
  · rintro c (rfl | ⟨P, v, hs, rfl⟩)
    · exact h2
    · obtain ⟨x, y, hx, hy, hyv, hvx, hcost⟩ := hs.cost (cost := cost)
      obtain ⟨w, hrun, hreach⟩ := hs.run
      rw [hcost]
      refine C50_collapse_no_missed_shortcut g hg a t ht root cost prize hp quota false pick hpick t' h1 P w hrun hs.root hs.low hreach
        x y v hx hy ?_ hyv hvx (hs.fresh v (by simp)) (by have := hs.enough; simp at this; exact this)
      rintro rfl
      have h2 := hs.two
      obtain ⟨b, hb, -⟩ := hs.tour ht
      have hnd : P.Nodup := by
        have := hb.nodup
        refine this.sublist ?_
        obtain ⟨z, l, hl⟩ := List.exists_cons_of_ne_nil hrun.1
        subst hl
        rw [closeRun, List.take_succ_cons, List.take_zero, ← List.append_assoc, List.dropLast_concat]
        exact List.sublist_append_left _ _
      rcases P with _ | ⟨p, _ | ⟨q, P⟩⟩
      · simp at h2
      · simp at h2
      · simp at hx; subst hx
        rw [List.getLast?_cons_cons] at hy
        have := List.mem_of_getLast? hy
        rw [List.nodup_cons] at hnd
        exact hnd.1 this

/-- **C135.** The same for the Python binding, in the names of the caller. -/
theorem C135_names (es : List (α × α)) (costs : List ((α × α) × Int)) (prizes : List (α × Int)) (w : α → α → Int) (π : α → Int)
    (h : Describes es costs prizes w π) (hp : ∀ x, 0 ≤ π x) (r : α) (t : List α) (ht : IsTourIn es r t) (quota : Int) (pick : Nat → Pick)
    (hpick : ∀ i, (pick i).Heap) :
    ∃ t', collapseBind es t costs prizes quota r false pick = .ok t' ∧
      IsLeast {c | c = namedCost w t ∨ ∃ P v, Shortcut (AdjIn es) π quota r t P [v] ∧ c = namedCost w (closeRun P [v])} (namedCost w t') := by
  obtain ⟨p, r', h1, -, h2, h3, h4⟩ := prepareRoot_spec h ht
  have hr : r' ∈ p.tour := by obtain ⟨m, hm⟩ := h4.shape; rw [hm]; simp
  obtain ⟨s, q1, q2, -⟩ := C21_collapse_tour p.graph h2.wf r' p.tour h4 r' hr p.cost p.prize (h2.nonneg hp) quota false
    (by simp) pick hpick
  obtain ⟨s', q3, q4⟩ := C135_least p.graph h2.wf r' p.tour h4 r' hr p.cost p.prize (h2.nonneg hp) quota pick hpick
  rw [q1] at q3; cases q3
  obtain ⟨t', b1, -, b3, -⟩ := h2.back h3 q2
  have hl : ∀ x y k, NameOf (firstSeen es) x k → NameOf (firstSeen es) y k → x = y := by
    intro x y k hx hy
    rw [NameOf] at hx hy; rw [hx] at hy; cases hy; rfl
  have hri : ∀ x k j, NameOf (firstSeen es) x k → NameOf (firstSeen es) x j → k = j := by
    intro x k j hk hj
    rw [NameOf] at hk hj
    obtain ⟨hk1, hk2⟩ := List.getElem?_eq_some_iff.1 hk
    obtain ⟨hj1, hj2⟩ := List.getElem?_eq_some_iff.1 hj
    exact (List.Nodup.getElem_inj_iff h2.nodup).1 (hk2.trans hj2.symm)
  refine ⟨t', ?_, ?_⟩
  · rw [collapseBind, h1]
    simp only [Res.ok_bind, q1, b1]
  · rw [b3]
    have e0 := h2.cost h2.named h4.walk
    constructor
    · rcases q4.1 with e | ⟨P, v, hs, e⟩
      · left; rw [e, e0]
      · right
        obtain ⟨x, y, hx, hy, hyv, hvx, -⟩ := hs.cost (cost := p.cost)
        obtain ⟨l, hl1⟩ := h2.names (t' := [y, v]) (by simpa using hyv) (by simp)
        obtain ⟨v', hv'⟩ : ∃ v', NameOf (firstSeen es) v' v := by
          cases hl1 with
          | cons _ h => cases h with
            | cons h _ => exact ⟨_, h⟩
        obtain ⟨P', g1, g2⟩ := hs.transport (R := fun k x => NameOf (firstSeen es) x k) (adj' := AdjIn es) (π' := π)
          (fun x y k hx hy => hri k x y hx hy) (fun x k j hk hj => hl k j x hk hj)
          (fun x y k j hk hj ha => (h2.adj hk hj).1 ha) (fun k x hx => h2.prizeOf k x hx) h2.named.flip h3
          (X' := [v']) (List.Forall₂.cons hv' List.Forall₂.nil)
        refine ⟨P', v', g2, ?_⟩
        rw [e]
        exact h2.cost (forall₂_closeRun g1.flip (List.Forall₂.cons hv' List.Forall₂.nil)) hs.walk
    · rintro c (rfl | ⟨P, v, hs, rfl⟩)
      · rw [← e0]; exact q4.2 (Or.inl rfl)
      · have hv : v ∈ endpoints es := by
          have hmem : ∀ x y, AdjIn es x y → y ∈ endpoints es := by
            intro x y hxy
            simp only [endpoints, List.mem_flatMap]
            rcases hxy with h | h
            · exact ⟨_, h, by simp⟩
            · exact ⟨_, h, by simp⟩
          obtain ⟨z, l, rfl⟩ := List.exists_cons_of_ne_nil hs.run.choose_spec.1.1
          rcases List.eq_nil_or_concat (z :: l) with e | ⟨Y, y, e⟩
          · cases e
          · rw [List.concat_eq_append] at e
            refine hmem y v (hs.walk (y, v) ?_)
            rw [closeRun, e, List.append_assoc, List.singleton_append, List.singleton_append]
            rw [consec_append]
            refine List.mem_append_right _ ?_
            simp [consec]
        obtain ⟨k, hk⟩ := List.mem_iff_getElem?.1 ((h2.mem v).2 hv)
        obtain ⟨P', g1, g2⟩ := hs.transport (R := NameOf (firstSeen es)) (adj' := Adj p.graph) (π' := p.prize) hl hri
          (fun x y k j hk hj ha => (h2.adj hk hj).2 ha) (fun x k hx => (h2.prizeOf k x hx).symm) h2.named h3
          (X' := [k]) (List.Forall₂.cons hk List.Forall₂.nil)
        have := q4.2 (Or.inr ⟨P', k, g2, rfl⟩)
        rw [h2.cost (forall₂_closeRun g1 (List.Forall₂.cons hk List.Forall₂.nil)) g2.walk] at this
        exact this

/-- **C135.** So the cost does not depend on the order or the directions of the edges, nor on the order of the entries of the
dictionaries. -/
theorem C135_order (es es' : List (α × α)) (costs costs' : List ((α × α) × Int)) (prizes prizes' : List (α × Int)) (w : α → α → Int)
    (π : α → Int) (h : Describes es costs prizes w π) (h' : Describes es' costs' prizes' w π)
    (hadj : ∀ x y, AdjIn es x y ↔ AdjIn es' x y) (hp : ∀ x, 0 ≤ π x) (r : α) (t : List α) (ht : IsTourIn es r t) (quota : Int)
    (pick pick' : Nat → Pick) (hpick : ∀ i, (pick i).Heap) (hpick' : ∀ i, (pick' i).Heap) :
    ∃ s s', collapseBind es t costs prizes quota r false pick = .ok s ∧ collapseBind es' t costs' prizes' quota r false pick' = .ok s' ∧
      namedCost w s = namedCost w s' := by
  have e : AdjIn es = AdjIn es' := by
    funext x y; exact propext (hadj x y)
  obtain ⟨s, h1, h2⟩ := C135_names es costs prizes w π h hp r t ht quota pick hpick
  obtain ⟨s', h3, h4⟩ := C135_names es' costs' prizes' w π h' hp r t ⟨ht.shape, ht.nodup, fun p hp => (hadj _ _).1 (ht.walk p hp)⟩ quota
    pick' hpick'
  rw [← e] at h4
  exact ⟨s, s', h1, h3, h2.unique h4⟩

/-! ### The order of the edges -/

/-- A triangle `a, b, c` with three vertices that can be inserted; inserting `x` between `a` and `b` has the loss of inserting `y` there. -/
def rivalEdges : List (String × String) :=
  [("a", "b"), ("b", "c"), ("c", "a"), ("a", "x"), ("x", "b"), ("a", "y"), ("y", "b"), ("b", "z"), ("z", "c")]

/-- The same edges, those of `y` before those of `x`. -/
def rivalEdges' : List (String × String) :=
  [("a", "b"), ("b", "c"), ("c", "a"), ("a", "y"), ("y", "b"), ("a", "x"), ("x", "b"), ("b", "z"), ("z", "c")]

def rivalCost (u v : String) : Int :=
  if u = "z" ∨ v = "z" then 9 else if (u = "x" ∧ v = "b") ∨ (u = "b" ∧ v = "x") then 1 else 2

def rivalPrize (v : String) : Int := if v = "y" then 2 else 1

def rivalCosts : List ((String × String) × Int) := rivalEdges.map fun e => (e, rivalCost e.1 e.2)

def rivalPrizes : List (String × Int) := ["a", "b", "c", "x", "y", "z"].map fun v => (v, rivalPrize v)

/-- A square `a, b, c, d` of long edges with two ways from `b` to `a` of the same cost and of different prizes. -/
def waysEdges : List (String × String) :=
  [("a", "b"), ("b", "c"), ("c", "d"), ("d", "a"), ("b", "p"), ("p", "q"), ("q", "a"), ("b", "s"), ("s", "u"), ("u", "a")]

/-- The same edges, the two ways in the other order. -/
def waysEdges' : List (String × String) :=
  [("a", "b"), ("b", "c"), ("c", "d"), ("d", "a"), ("b", "s"), ("s", "u"), ("u", "a"), ("b", "p"), ("p", "q"), ("q", "a")]

def waysCost (u v : String) : Int := if u ∈ ["a", "b", "c", "d"] ∧ v ∈ ["a", "b", "c", "d"] then 10 else 1

def waysPrize (v : String) : Int := if v = "s" ∨ v = "u" then 0 else 1

def waysCosts : List ((String × String) × Int) := waysEdges.map fun e => (e, waysCost e.1 e.2)

def waysPrizes : List (String × Int) := ["a", "b", "c", "d", "p", "q", "s", "u"].map fun v => (v, waysPrize v)

theorem rivalCost_symm (u v : String) : rivalCost u v = rivalCost v u := by
  unfold rivalCost
  by_cases h1 : u = "z" <;> by_cases h2 : v = "z" <;> by_cases h3 : u = "x" <;> by_cases h4 : v = "b" <;> by_cases h5 : u = "b" <;>
    by_cases h6 : v = "x" <;> simp_all

theorem waysCost_symm (u v : String) : waysCost u v = waysCost v u := by
  unfold waysCost
  simp only [and_comm]

theorem rival_describes (es : List (String × String)) (h1 : es.Perm rivalEdges) (h2 : es.Pairwise fun p q => ¬ SameEdge p q) :
    Describes es rivalCosts rivalPrizes rivalCost rivalPrize where
  distinct := h2
  symm := rivalCost_symm
  costOk := by
    have : ∀ q ∈ rivalCosts, q.2 = rivalCost q.1.1 q.1.2 ∧ q.1 ∈ rivalEdges := by decide +kernel
    exact fun p c h => ⟨(this (p, c) h).1, Or.inl (h1.mem_iff.2 (this (p, c) h).2)⟩
  allCosts := fun e he => ⟨e, rivalCost e.1 e.2, List.mem_map.2 ⟨e, h1.mem_iff.1 he, rfl⟩, Or.inl rfl⟩
  prizeOk := by
    have h3 : ∀ q ∈ rivalPrizes, q.2 = rivalPrize q.1 ∧ q.1 ∈ endpoints rivalEdges := by decide +kernel
    exact fun x c h => ⟨(h3 (x, c) h).1, (List.Perm.flatMap_right _ h1).mem_iff.2 (h3 (x, c) h).2⟩
  allPrizes := by
    have h3 : ∀ x ∈ endpoints rivalEdges, (x, rivalPrize x) ∈ rivalPrizes := by decide +kernel
    exact fun x hx => ⟨_, h3 x ((List.Perm.flatMap_right _ h1).mem_iff.1 hx)⟩

theorem ways_describes (es : List (String × String)) (h1 : es.Perm waysEdges) (h2 : es.Pairwise fun p q => ¬ SameEdge p q) :
    Describes es waysCosts waysPrizes waysCost waysPrize where
  distinct := h2
  symm := waysCost_symm
  costOk := by
    have : ∀ q ∈ waysCosts, q.2 = waysCost q.1.1 q.1.2 ∧ q.1 ∈ waysEdges := by decide +kernel
    exact fun p c h => ⟨(this (p, c) h).1, Or.inl (h1.mem_iff.2 (this (p, c) h).2)⟩
  allCosts := fun e he => ⟨e, waysCost e.1 e.2, List.mem_map.2 ⟨e, h1.mem_iff.1 he, rfl⟩, Or.inl rfl⟩
  prizeOk := by
    have h3 : ∀ q ∈ waysPrizes, q.2 = waysPrize q.1 ∧ q.1 ∈ endpoints waysEdges := by decide +kernel
    exact fun x c h => ⟨(h3 (x, c) h).1, (List.Perm.flatMap_right _ h1).mem_iff.2 (h3 (x, c) h).2⟩
  allPrizes := by
    have h3 : ∀ x ∈ endpoints waysEdges, (x, waysPrize x) ∈ waysPrizes := by decide +kernel
    exact fun x hx => ⟨_, h3 x ((List.Perm.flatMap_right _ h1).mem_iff.1 hx)⟩

/-- `run es` returns tours of different costs for two descriptions of the same instance that differ in the order of the edges. -/
def DependsOnOrder (r : String) (t : List String) (run : List (String × String) → List ((String × String) × Int) → List (String × Int) →
    Res (List String)) : Prop :=
  ∃ es es' costs prizes w π, es.Perm es' ∧ Describes es costs prizes w π ∧ Describes es' costs prizes w π ∧ (∀ x y, 0 < w x y) ∧
    (∀ x, 0 ≤ π x) ∧ IsTourIn es r t ∧ ∃ s s', run es costs prizes = .ok s ∧ run es' costs prizes = .ok s' ∧ namedCost w s ≠ namedCost w s'

theorem rival_depends (run : List (String × String) → List ((String × String) × Int) → List (String × Int) → Res (List String))
    (s s' : List String) (h1 : run rivalEdges rivalCosts rivalPrizes = .ok s) (h2 : run rivalEdges' rivalCosts rivalPrizes = .ok s')
    (h3 : namedCost rivalCost s ≠ namedCost rivalCost s') : DependsOnOrder "a" ["a", "b", "c", "a"] run := by
  have hp : rivalEdges.Perm rivalEdges' := by decide +kernel
  refine ⟨rivalEdges, rivalEdges', rivalCosts, rivalPrizes, rivalCost, rivalPrize, hp, rival_describes _ (List.Perm.refl _) (by decide +kernel),
    rival_describes _ hp.symm (by decide +kernel), ?_, ?_, ⟨⟨["b", "c"], rfl⟩, by decide +kernel, by decide +kernel⟩, s, s', h1, h2, h3⟩
  · intro x y; unfold rivalCost; split_ifs <;> decide
  · intro x; unfold rivalPrize; split_ifs <;> decide

/-- **C135.** With the shortest path option the cost does depend on the order of the edges, and so do the costs of the tours of the five other
heuristics, in single precision. -/
theorem C135_depends :
    DependsOnOrder "a" ["a", "b", "c", "d", "a"] (fun es costs prizes =>
      collapseBind es ["a", "b", "c", "d", "a"] costs prizes 3 "a" true (fun _ => exPick)) ∧
    DependsOnOrder "a" ["a", "b", "c", "a"] (fun es costs prizes =>
      pathExtensionBind (.ieee single) es ["a", "b", "c", "a"] costs prizes "a" 1 2) ∧
    DependsOnOrder "a" ["a", "b", "c", "a"] (fun es costs prizes =>
      pathExtensionUntilPrizeFeasibleBind (.ieee single) es ["a", "b", "c", "a"] costs prizes "a" 4 1 2) ∧
    DependsOnOrder "a" ["a", "b", "c", "a"] (fun es costs prizes =>
      extensionUnitaryGainBind (.ieee single) es ["a", "b", "c", "a"] costs prizes) ∧
    DependsOnOrder "a" ["a", "b", "c", "a"] (fun es costs prizes =>
      extensionUntilPrizeFeasibleBind (.ieee single) es ["a", "b", "c", "a"] costs prizes 4) ∧
    DependsOnOrder "a" ["a", "b", "c", "a"] (fun es costs prizes =>
      pathExtensionCollapseBind (.ieee single) es ["a", "b", "c", "a"] costs prizes "a" 4 false (fun _ => exPick) (fun _ _ => exPick) 2 1) := by
  refine ⟨?_, ?_, ?_, ?_, ?_, ?_⟩
  · have hp : waysEdges.Perm waysEdges' := by decide +kernel
    refine ⟨waysEdges, waysEdges', waysCosts, waysPrizes, waysCost, waysPrize, hp, ways_describes _ (List.Perm.refl _) (by decide +kernel),
      ways_describes _ hp.symm (by decide +kernel), ?_, ?_, ⟨⟨["b", "c", "d"], rfl⟩, by decide +kernel, by decide +kernel⟩,
      ["a", "b", "p", "q", "a"], ["a", "b", "c", "d", "a"], by decide +kernel, by decide +kernel, by decide +kernel⟩
    · intro x y; unfold waysCost; split_ifs <;> decide
    · intro x; unfold waysPrize; split_ifs <;> decide
  · exact rival_depends _ ["a", "x", "b", "c", "a"] ["a", "y", "b", "c", "a"] (by decide +kernel) (by decide +kernel) (by decide +kernel)
  · exact rival_depends _ ["a", "x", "b", "z", "c", "a"] ["a", "y", "b", "z", "c", "a"] (by decide +kernel) (by decide +kernel) (by decide +kernel)
  · exact rival_depends _ ["a", "x", "b", "c", "a"] ["a", "y", "b", "c", "a"] (by decide +kernel) (by decide +kernel) (by decide +kernel)
  · exact rival_depends _ ["a", "x", "b", "c", "a"] ["a", "y", "b", "c", "a"] (by decide +kernel) (by decide +kernel) (by decide +kernel)
  · exact rival_depends _ ["a", "x", "b", "c", "a"] ["a", "y", "b", "a"] (by decide +kernel) (by decide +kernel) (by decide +kernel)

/-! ### Concrete instances -/

/-- The hexagon: the run `0, 1` closed through the vertex 6. -/
example : Shortcut (Adj collapseGraph) (fun v => if v = 6 then 9 else 2) 6 0 [0, 1, 2, 3, 4, 5, 0] [0, 1] [6] where
  run := ⟨2, ⟨by decide, by decide, 0, by decide, [3, 4, 5, 0, 1, 2, 3, 4, 5, 0], by decide⟩, by decide⟩
  two := by decide
  root := by decide
  low := by decide
  fresh := by decide
  nodup := by decide
  enough := by decide
  walk := by decide

example : collapse collapseGraph [0, 1, 2, 3, 4, 5, 0] collapseCost (fun v => if v = 6 then 9 else 2) 6 0 false (fun _ => exPick)
    = .ok (closeRun [0, 1] [6]) := by decide +kernel

/-- Closed along a shortest path with two new vertices. -/
example : collapse collapseGraph [0, 1, 2, 3, 4, 5, 0] collapseCost (fun v => if v = 6 then 1 else 2) 7 0 true (fun _ => exPick)
    = .ok (closeRun [0, 1, 2] [7, 6]) := by decide +kernel

/-- The square of long edges and the order of its edges, without shortest paths. -/
example : Describes waysEdges waysCosts waysPrizes waysCost waysPrize ∧ Describes waysEdges' waysCosts waysPrizes waysCost waysPrize :=
  ⟨ways_describes _ (List.Perm.refl _) (by decide +kernel), ways_describes _ (by decide +kernel) (by decide +kernel)⟩
example : collapseBind waysEdges ["a", "b", "c", "d", "a"] waysCosts waysPrizes 3 "a" false (fun _ => exPick) = .ok ["a", "b", "c", "d", "a"] := by
  decide +kernel

/-! The theorems applied to these graphs. -/

theorem waysPrize_nonneg (v : String) : 0 ≤ waysPrize v := by unfold waysPrize; split <;> decide

theorem ways_square : IsTourIn waysEdges "a" ["a", "b", "c", "d", "a"] := ⟨⟨["b", "c", "d"], rfl⟩, by decide +kernel, by decide +kernel⟩

example := C135_form collapseGraph (by decide) 0 _ collapseGraph_tour 0 collapseCost (fun v => if v = 6 then 1 else 2)
  (fun _ => by split <;> decide) 7 true (fun _ => exPick) (fun _ => exPick_heap) [0, 1, 2, 7, 6, 0] (by decide +kernel)
example := C135_least collapseGraph (by decide) 0 _ collapseGraph_tour 0 (by decide) collapseCost (fun v => if v = 6 then 9 else 2)
  (fun _ => by split <;> decide) 6 (fun _ => exPick) (fun _ => exPick_heap)
example := C135_names waysEdges waysCosts waysPrizes waysCost waysPrize (ways_describes _ (List.Perm.refl _) (by decide +kernel)) waysPrize_nonneg "a" _ ways_square 3
  (fun _ => exPick) (fun _ => exPick_heap)
example := C135_order waysEdges waysEdges' waysCosts waysCosts waysPrizes waysPrizes waysCost waysPrize (ways_describes _ (List.Perm.refl _) (by decide +kernel))
  (ways_describes _ (by decide +kernel) (by decide +kernel))
  (fun x y => by
    have hp : waysEdges.Perm waysEdges' := by decide +kernel
    simp only [AdjIn, hp.mem_iff]) waysPrize_nonneg "a" _ ways_square 3 (fun _ => exPick) (fun _ => exPick) (fun _ => exPick_heap) (fun _ => exPick_heap)

end Pctsp
