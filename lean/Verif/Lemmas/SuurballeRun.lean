import Verif.Lemmas.SuurballeOrder
import Verif.Lemmas.SuurballeResidual

/-!
# The main loop as a sequence of moves

Every part of the loop is a sequence of calls of `process` on edges that still are in the lists, with a vertex between the ends of the edge,
and of removals of children and parents.  No part raises an exception.
-/

set_option linter.unusedSectionVars false

namespace Pctsp

variable {V : Type} [LinearOrder V] {G : DiGraph V} {s : V} {dij : DijkstraOut V} {T : STree V}

/-- The tree is the tree of the answer of Dijkstra's algorithm, with its numbers. -/
structure TreeOK (G : DiGraph V) (s : V) (dij : DijkstraOut V) (T : STree V) : Prop where
  source : T.source = s
  succ : ∀ u v, v ∈ T.succ u ↔ IsChild s dij u v
  succNodup : ∀ u, (T.succ u).Nodup
  anc : ∀ a ∈ dij.distKeys, ∀ b ∈ dij.distKeys, isAncestor T.pre T.post a b = true ↔ a ∈ dij.path b
  cost : ∀ u v, T.cost u v = adjCost G dij u v
  dist : T.dist = dij.dist
  preds : ∀ v p, (T.predecessors v).head? = some p → v ∈ dij.distKeys → IsChild s dij p v
  predsSome : ∀ u v, IsChild s dij u v → (T.predecessors v).head? = some u
  preInj : ∀ a ∈ dij.distKeys, ∀ b ∈ dij.distKeys, T.pre a = T.pre b → a = b

/-- The lists are consistent. -/
structure Basic (G : DiGraph V) (s : V) (dij : DijkstraOut V) (st : SState V) : Prop where
  ends : ∀ x, ∀ e ∈ st.inc x, (e.1 = x ∨ e.2 = x) ∧ e ∈ st.inc e.1 ∧ e ∈ st.inc e.2
  edge : ∀ x, ∀ e ∈ st.inc x, e.1 ∈ dij.distKeys ∧ e.2 ∈ G.succ e.1 ∧ ¬ IsChild s dij e.1 e.2
  nodup : ∀ x, (st.inc x).Nodup
  childNodup : ∀ x, (st.children x).Nodup
  child : ∀ x, ∀ y ∈ st.children x, IsChild s dij x y
  parent : ∀ x p, st.parent x = some p → x ∈ dij.distKeys → IsChild s dij p x

/-- One move while `v` gets its label. -/
inductive Move (s : V) (dij : DijkstraOut V) (T : STree V) (v : V) : SState V → SState V → Prop
  | proc {st st' : SState V} {e : V × V} : e ∈ st.inc e.1 → Sep s dij v e.1 e.2 → st.tent v ≠ maxsize →
      process T e.1 e.2 v st = .ok st' → Move s dij T v st st'
  | links {st : SState V} {c : V → List V} {p : V → Option V} : (∀ x, (c x).Sublist (st.children x)) →
      (∀ x q, p x = some q → st.parent x = some q) → Move s dij T v st { st with children := c, parent := p }

abbrev Run (s : V) (dij : DijkstraOut V) (T : STree V) (v : V) : SState V → SState V → Prop := Relation.ReflTransGen (Move s dij T v)

theorem setAt_same {β : Type} (f : V → β) (k : V) (b : β) : setAt f k b k = b := by simp [setAt]
theorem setAt_other {β : Type} (f : V → β) {k v : V} (b : β) (h : v ≠ k) : setAt f k b v = f v := by simp [setAt, h]

/-- What a call of `process` does. -/
structure Processed (T : STree V) (v : V) (e : V × V) (st st' : SState V) : Prop where
  inc : ∀ x, st'.inc x = (st.inc x).erase e
  children : st'.children = st.children
  parent : st'.parent = st.parent
  labeled : st'.labeled = st.labeled
  upd : (st.tent v + T.cost e.1 e.2 < st.tent e.2 ∧ st'.tent = setAt st.tent e.2 (st.tent v + T.cost e.1 e.2) ∧
      st'.pred = setAt st.pred e.2 (some e.1) ∧ st'.cause = setAt st.cause e.2 (some v) ∧
      st'.heap = (st.tent v + T.cost e.1 e.2, e.2) :: st.heap) ∨
    (st.tent e.2 ≤ st.tent v + T.cost e.1 e.2 ∧ st'.tent = st.tent ∧ st'.pred = st.pred ∧ st'.cause = st.cause ∧ st'.heap = st.heap)

theorem erase_ends (hg : G.WF) {st : SState V} (hb : Basic G s dij st) {e : V × V} (he : e ∈ st.inc e.1) (x : V) :
    (setAt (setAt st.inc e.1 ((st.inc e.1).erase e)) e.2 ((setAt st.inc e.1 ((st.inc e.1).erase e) e.2).erase e)) x = (st.inc x).erase e := by
  have hne : e.1 ≠ e.2 := by
    intro h
    have := (hb.edge _ e he).2.1
    rw [← h] at this
    exact hg.noLoop _ this
  by_cases h2 : x = e.2
  · subst h2
    rw [setAt_same, setAt_other _ _ (Ne.symm hne)]
  · rw [setAt_other _ _ h2]
    by_cases h1 : x = e.1
    · subst h1; rw [setAt_same]
    · rw [setAt_other _ _ h1, List.erase_of_not_mem]
      intro hx
      rcases (hb.ends x e hx).1 with h | h
      · exact h1 h.symm
      · exact h2 h.symm

theorem process_spec (hg : G.WF) (hT : TreeOK G s dij T) {st st' : SState V} (hb : Basic G s dij st) {e : V × V} {v : V} (he : e ∈ st.inc e.1)
    (h : process T e.1 e.2 v st = .ok st') : Processed T v e st st' := by
  have hnt : e.2 ∉ T.succ e.1 := fun hm => (hb.edge _ e he).2.2 ((hT.succ _ _).1 hm)
  have hx := erase_ends hg hb he
  unfold process at h
  rw [if_neg hnt, if_neg (not_not.2 he)] at h
  simp only at h
  split at h
  · cases h
  split at h
  · cases h
  split at h
  · rename_i hlt
    injection h with h
    subst h
    exact ⟨hx, rfl, rfl, rfl, .inl ⟨hlt, rfl, rfl, rfl, rfl⟩⟩
  · rename_i hlt
    injection h with h
    subst h
    exact ⟨hx, rfl, rfl, rfl, .inr ⟨by omega, rfl, rfl, rfl, rfl⟩⟩

theorem process_ok (hg : G.WF) (hT : TreeOK G s dij T) {st : SState V} (hb : Basic G s dij st) {e : V × V} {v : V} (he : e ∈ st.inc e.1)
    (hv : st.tent v ≠ maxsize) : ∃ st', process T e.1 e.2 v st = .ok st' := by
  have hnt : e.2 ∉ T.succ e.1 := fun hm => (hb.edge _ e he).2.2 ((hT.succ _ _).1 hm)
  have hne : e.2 ≠ e.1 := by
    intro h
    have := (hb.edge _ e he).2.1
    rw [h] at this
    exact hg.noLoop _ this
  unfold process
  rw [if_neg hnt, if_neg (not_not.2 he)]
  simp only
  have h2 := (hb.ends _ e he).2.2
  rw [if_neg (by rw [setAt_other _ _ hne]; exact not_not.2 h2), if_neg hv]
  split
  · exact ⟨_, rfl⟩
  · exact ⟨_, rfl⟩

theorem Basic.erase (hb : Basic G s dij st) {st' : SState V} {e : V × V} (hi : ∀ x, st'.inc x = (st.inc x).erase e)
    (hc : st'.children = st.children) (hp : st'.parent = st.parent) : Basic G s dij st' := by
  refine ⟨?_, ?_, ?_, ?_, ?_, ?_⟩
  · intro x d hd
    rw [hi, (hb.nodup x).mem_erase_iff] at hd
    obtain ⟨h1, h2, h3⟩ := hb.ends x d hd.2
    refine ⟨h1, ?_, ?_⟩ <;> rw [hi, (hb.nodup _).mem_erase_iff]
    · exact ⟨hd.1, h2⟩
    · exact ⟨hd.1, h3⟩
  · intro x d hd
    rw [hi] at hd
    exact hb.edge x d (List.mem_of_mem_erase hd)
  · intro x; rw [hi]; exact (hb.nodup x).erase _
  · rw [hc]; exact hb.childNodup
  · rw [hc]; exact hb.child
  · rw [hp]; exact hb.parent

theorem Move.basic (hg : G.WF) (hT : TreeOK G s dij T) {v : V} {st st' : SState V} (hb : Basic G s dij st) (hm : Move s dij T v st st') :
    Basic G s dij st' := by
  cases hm with
  | proc he _ _ h =>
    have hp := process_spec hg hT hb he h
    exact hb.erase hp.inc hp.children hp.parent
  | links hc hp =>
    exact ⟨hb.ends, hb.edge, hb.nodup, fun x => (hb.childNodup x).sublist (hc x), fun x y hy => hb.child x y ((hc x).subset hy),
      fun x q hq => hb.parent x q (hp x q hq)⟩

theorem Run.basic (hg : G.WF) (hT : TreeOK G s dij T) {v : V} {st st' : SState V} (hb : Basic G s dij st) (hm : Run s dij T v st st') :
    Basic G s dij st' := by
  induction hm with
  | refl => exact hb
  | tail _ h ih => exact h.basic hg hT ih

/-- What no move changes, and what it can only make smaller. -/
structure Shrinks (st st' : SState V) : Prop where
  labeled : st'.labeled = st.labeled
  children : ∀ x, (st'.children x).Sublist (st.children x)
  inc : ∀ x, (st'.inc x).Sublist (st.inc x)
  tent : ∀ x, st'.tent x ≤ st.tent x
  parent : ∀ x q, st'.parent x = some q → st.parent x = some q

theorem Shrinks.refl (st : SState V) : Shrinks st st := ⟨rfl, fun _ => List.Sublist.refl _, fun _ => List.Sublist.refl _, fun _ => le_rfl, fun _ _ h => h⟩

theorem Shrinks.trans {a b c : SState V} (h1 : Shrinks a b) (h2 : Shrinks b c) : Shrinks a c :=
  ⟨h2.labeled.trans h1.labeled, fun x => (h2.children x).trans (h1.children x), fun x => (h2.inc x).trans (h1.inc x),
    fun x => (h2.tent x).trans (h1.tent x), fun x q h => h1.parent x q (h2.parent x q h)⟩

theorem Processed.shrinks {v : V} {e : V × V} {st st' : SState V} (hp : Processed T v e st st') : Shrinks st st' := by
  refine ⟨hp.labeled, fun x => by rw [hp.children], fun x => by rw [hp.inc]; exact List.erase_sublist, ?_, fun x q h => by rwa [hp.parent] at h⟩
  intro x
  rcases hp.upd with ⟨h1, h2, _⟩ | ⟨_, h2, _⟩
  · rw [h2]
    by_cases e1 : x = e.2
    · subst e1; rw [setAt_same]; omega
    · rw [setAt_other _ _ e1]
  · rw [h2]

theorem Run.shrinks (hg : G.WF) (hT : TreeOK G s dij T) {v : V} {st st' : SState V} (hb : Basic G s dij st) (hm : Run s dij T v st st') :
    Shrinks st st' := by
  induction hm with
  | refl => exact .refl _
  | tail h1 h ih =>
    refine ih.trans ?_
    cases h with
    | proc he _ _ h => exact (process_spec hg hT (Run.basic hg hT hb h1) he h).shrinks
    | links hc hp => exact ⟨rfl, hc, fun _ => List.Sublist.refl _, fun _ => le_rfl, hp⟩

/-- No tentative distance is larger than the initial one. -/
def Bounded (st : SState V) : Prop := ∀ x, st.tent x ≤ maxsize

theorem Shrinks.finite {st st' : SState V} (h : Shrinks st st') (hb : Bounded st) {v : V} (hv : st.tent v ≠ maxsize) : st'.tent v ≠ maxsize := by
  have := h.tent v; have := hb v; omega

theorem Shrinks.bounded {st st' : SState V} (h : Shrinks st st') (hb : Bounded st) : Bounded st' := fun x => (h.tent x).trans (hb x)

/-- What the parts of the loop may rely on. -/
structure Ready (G : DiGraph V) (s : V) (dij : DijkstraOut V) (v : V) (st : SState V) : Prop where
  basic : Basic G s dij st
  bounded : Bounded st
  finite : st.tent v ≠ maxsize

theorem Ready.run (hg : G.WF) (hT : TreeOK G s dij T) {v : V} {st st' : SState V} (hr : Ready G s dij v st) (hm : Run s dij T v st st') :
    Ready G s dij v st' :=
  ⟨hm.basic hg hT hr.basic, (Run.shrinks hg hT hr.basic hm).bounded hr.bounded, (Run.shrinks hg hT hr.basic hm).finite hr.bounded hr.finite⟩

theorem Ready.process (hg : G.WF) (hT : TreeOK G s dij T) {v x : V} {st : SState V} (hr : Ready G s dij v st) {e : V × V} (he : e ∈ st.inc x)
    (hs : Sep s dij v e.1 e.2) : ∃ st', process T e.1 e.2 v st = .ok st' ∧ Run s dij T v st st' ∧ (∀ y, st'.inc y = (st.inc y).erase e) := by
  have h1 := (hr.basic.ends x e he).2.1
  obtain ⟨st', h2⟩ := process_ok hg hT hr.basic h1 hr.finite
  exact ⟨st', h2, .single (.proc h1 hs hr.finite h2), (process_spec hg hT hr.basic h1 h2).inc⟩

theorem forIncident_ok (hg : G.WF) (hT : TreeOK G s dij T) {v x : V} {body : V × V → SState V → Res (SState V)}
    (hbody : ∀ st e, Ready G s dij v st → e ∈ st.inc x → ∃ st', body e st = .ok st' ∧ Run s dij T v st st') (N : Nat) :
    ∀ fuel i st, Ready G s dij v st → (st.inc x).length ≤ N → fuel + i = N + 1 → 1 ≤ fuel →
      ∃ st', forIncident x body fuel i st = .ok st' ∧ Run s dij T v st st' := by
  intro fuel
  induction fuel with
  | zero => intro i st _ _ _ h; omega
  | succ fuel ih =>
    intro i st hr hN hf _
    rw [forIncident]
    cases hc : (st.inc x)[i]? with
    | none => exact ⟨st, rfl, .refl⟩
    | some e =>
      obtain ⟨hi, hi2⟩ := List.getElem?_eq_some_iff.1 hc
      obtain ⟨st', h1, h2⟩ := hbody st e hr (hi2 ▸ List.getElem_mem hi)
      obtain ⟨st'', h3, h4⟩ := ih (i + 1) st' (hr.run hg hT h2)
        (((Run.shrinks hg hT hr.basic h2).inc x).length_le.trans hN) (by omega) (by omega)
      exact ⟨st'', by simp only [h1, Res.ok_bind, h3], h2.trans h4⟩

theorem forIncident_ok' (hg : G.WF) (hT : TreeOK G s dij T) {v x : V} {body : V × V → SState V → Res (SState V)}
    (hbody : ∀ st e, Ready G s dij v st → e ∈ st.inc x → ∃ st', body e st = .ok st' ∧ Run s dij T v st st') {st : SState V}
    (hr : Ready G s dij v st) : ∃ st', forIncident x body ((st.inc x).length + 1) 0 st = .ok st' ∧ Run s dij T v st st' :=
  forIncident_ok hg hT hbody _ _ _ st hr le_rfl rfl (by omega)

/-- Both ends of an edge in the lists are reached. -/
theorem Basic.keys (h : IsDijkstra G s dij) {st : SState V} (hb : Basic G s dij st) {x : V} {e : V × V} (he : e ∈ st.inc x) :
    e.1 ∈ dij.distKeys ∧ e.2 ∈ dij.distKeys :=
  ⟨(hb.edge x e he).1, (h.relaxed _ (hb.edge x e he).1 _ (hb.edge x e he).2.1).1⟩

theorem sep_own (h : IsDijkstra G s dij) {v : V} {e : V × V} (hv : v ∈ dij.distKeys) (he : e.1 = v ∨ e.2 = v) : Sep s dij v e.1 e.2 := by
  have hm := h.mem_path_self hv
  constructor
  · rcases he with he | he <;> rw [he]
    · exact .inl hm
    · exact .inr hm
  · intro y hy ⟨h1, h2⟩
    rcases he with he | he
    · rw [he] at h1; exact hy.not_mem h h1
    · rw [he] at h2; exact hy.not_mem h h2

theorem sep_scan (h : IsDijkstra G s dij) (hT : TreeOK G s dij T) {x y v : V} {st : SState V} (hg : G.WF) (hb : Basic G s dij st) {e : V × V}
    (he : e ∈ st.inc x) (hy : IsChild s dij v y) (hxk : x ∈ dij.distKeys) (hx : y ∈ dij.path x) (hw : wasted T x y e = false) :
    Sep s dij v e.1 e.2 := by
  obtain ⟨hk1, hk2⟩ := hb.keys h he
  have hvx : v ∈ dij.path x := h.path_trans hxk (hy.parent_mem h) hx
  have hne : e.1 ≠ e.2 := fun h' => hg.noLoop e.1 (by have := (hb.edge x e he).2.1; rwa [← h'] at this)
  simp only [wasted, Bool.or_eq_false_iff, Bool.and_eq_false_iff, decide_eq_false_iff_not, not_not] at hw
  have key : ∀ z, z ∈ dij.distKeys → y ∉ dij.path z → ∀ c, IsChild s dij v c → ¬ (c ∈ dij.path x ∧ c ∈ dij.path z) := by
    intro z hz hyz c hc ⟨h1, h2⟩
    have := hc.eq_of_mem h hy hxk h1 hx
    subst this
    exact hyz h2
  rcases (hb.ends x e he).1 with h1 | h1
  · have h2 : e.2 ≠ x := by rw [← h1]; exact fun h' => hne h'.symm
    have h3 : y ∉ dij.path e.2 := by
      rw [← hT.anc y hy.key e.2 hk2, (hw.2.resolve_left h2)]; simp
    refine ⟨.inl (by rw [h1]; exact hvx), fun c hc h4 => key e.2 hk2 h3 c hc ?_⟩
    rw [h1] at h4; exact h4
  · have h2 : e.1 ≠ x := by rw [← h1]; exact hne
    have h3 : y ∉ dij.path e.1 := by
      rw [← hT.anc y hy.key e.1 hk1, (hw.1.resolve_left h2)]; simp
    refine ⟨.inr (by rw [h1]; exact hvx), fun c hc h4 => key e.1 hk1 h3 c hc ?_⟩
    rw [h1] at h4; exact h4.symm

theorem sep_parent (h : IsDijkstra G s dij) {x v : V} {e : V × V} (hxk : x ∈ dij.distKeys) (hx : v ∉ dij.path x)
    (he : (e.2 = x ∧ v ∈ dij.path e.1) ∨ (e.1 = x ∧ v ∈ dij.path e.2)) : Sep s dij v e.1 e.2 := by
  rcases he with ⟨rfl, h1⟩ | ⟨rfl, h1⟩
  · exact ⟨.inl h1, fun y hy h2 => hx (h.path_trans hxk (hy.parent_mem h) h2.2)⟩
  · exact ⟨.inr h1, fun y hy h2 => hx (h.path_trans hxk (hy.parent_mem h) h2.1)⟩

theorem scanForward_ok (hg : G.WF) (h : IsDijkstra G s dij) (hT : TreeOK G s dij T) {x y v : V} (hy : IsChild s dij v y) (hxk : x ∈ dij.distKeys)
    (hx : y ∈ dij.path x) : ∀ fuel (size f b : Int) st, Ready G s dij v st → (st.inc x).length < fuel → 0 ≤ f → b = (st.inc x).length - 1 →
      size = (st.inc x).length → ∃ st' f' b', scanForward T x y v fuel size f b st = .ok (st', f', b') ∧ Run s dij T v st st' ∧ 0 ≤ f' ∧
        b' = (st'.inc x).length - 1 := by
  intro fuel
  induction fuel with
  | zero => intro size f b st _ hf; omega
  | succ fuel ih =>
    intro size f b st hr hf h0 hb hsz
    rw [scanForward]
    split
    · rename_i hlt
      have hi : f.toNat < (st.inc x).length := by omega
      rw [List.getElem?_eq_getElem hi]
      simp only
      have hmem := List.getElem_mem hi
      generalize (st.inc x)[f.toNat] = e at hmem
      split
      · exact ⟨st, f, b, rfl, .refl, h0, hb⟩
      · rename_i hw
        obtain ⟨st', h1, h2, h3⟩ := hr.process hg hT hmem (sep_scan h hT hg hr.basic hmem hy hxk hx (by simpa using hw))
        have hlen : (st'.inc x).length + 1 = (st.inc x).length := by
          rw [h3, List.length_erase_of_mem hmem]
          have := List.length_pos_of_mem hmem
          omega
        simp only [h1, Res.ok_bind]
        rw [if_pos (by omega)]
        obtain ⟨st'', f', b', h4, h5, h6⟩ := ih (st'.inc x).length (f - 1 + 1) (b - 1) st' (hr.run hg hT h2) (by omega) (by omega)
          (by omega) rfl
        exact ⟨st'', f', b', h4, h2.trans h5, h6⟩
    · exact ⟨st, f, b, rfl, .refl, h0, hb⟩

theorem scanBackward_ok (hg : G.WF) (h : IsDijkstra G s dij) (hT : TreeOK G s dij T) {x y v : V} (hy : IsChild s dij v y) (hxk : x ∈ dij.distKeys)
    (hx : y ∈ dij.path x) : ∀ fuel (f b : Int) st, Ready G s dij v st → (st.inc x).length < fuel → 0 ≤ f → b = (st.inc x).length - 1 →
      ∃ st', scanBackward T x y v fuel f b st = .ok st' ∧ Run s dij T v st st' := by
  intro fuel
  induction fuel with
  | zero => intro f b st _ hf; omega
  | succ fuel ih =>
    intro f b st hr hf h0 hb
    rw [scanBackward]
    split
    · rename_i hlt
      have hi : b.toNat < (st.inc x).length := by omega
      rw [List.getElem?_eq_getElem hi]
      simp only
      have hmem := List.getElem_mem hi
      generalize (st.inc x)[b.toNat] = e at hmem
      split
      · exact ⟨st, rfl, .refl⟩
      · rename_i hw
        obtain ⟨st', h1, h2, h3⟩ := hr.process hg hT hmem (sep_scan h hT hg hr.basic hmem hy hxk hx (by simpa using hw))
        have hlen : (st'.inc x).length + 1 = (st.inc x).length := by
          rw [h3, List.length_erase_of_mem hmem]
          have := List.length_pos_of_mem hmem
          omega
        obtain ⟨st'', h4, h5⟩ := ih f (b - 1) st' (hr.run hg hT h2) (by omega) h0 (by omega)
        exact ⟨st'', by simp only [h1, Res.ok_bind, h4], h2.trans h5⟩
    · exact ⟨st, rfl, .refl⟩

theorem scan_ok (hg : G.WF) (h : IsDijkstra G s dij) (hT : TreeOK G s dij T) {x y v : V} (hy : IsChild s dij v y) (hxk : x ∈ dij.distKeys)
    (hx : y ∈ dij.path x) {st : SState V} (hr : Ready G s dij v st) : ∃ st', scan T x y v st = .ok st' ∧ Run s dij T v st st' := by
  obtain ⟨st', f, b, h1, h2, h3, h4⟩ := scanForward_ok hg h hT hy hxk hx ((st.inc x).length + 1) (st.inc x).length 0 ((st.inc x).length - 1) st hr
    (by omega) (by omega) rfl rfl
  have hl := ((Run.shrinks hg hT hr.basic h2).inc x).length_le
  obtain ⟨st'', h5, h6⟩ := scanBackward_ok hg h hT hy hxk hx ((st.inc x).length + 1) f b st' (hr.run hg hT h2) (by omega) h3 h4
  exact ⟨st'', by simp only [scan, h1, Res.ok_bind, h5], h2.trans h6⟩

theorem scanParent_ok (hg : G.WF) (h : IsDijkstra G s dij) (hT : TreeOK G s dij T) {x v : V} (hv : v ∈ dij.distKeys) (hxk : x ∈ dij.distKeys)
    (hx : v ∉ dij.path x) {st : SState V} (hr : Ready G s dij v st) : ∃ st', scanParent T x v st = .ok st' ∧ Run s dij T v st st' := by
  refine forIncident_ok' hg hT ?_ hr
  intro st e hr he
  obtain ⟨hk1, hk2⟩ := hr.basic.keys h he
  have hends := (hr.basic.ends x e he).1
  split
  · rename_i hc
    rw [hT.anc v hv e.1 hk1] at hc
    obtain ⟨st', h1, h2, _⟩ := hr.process hg hT he (sep_parent h hxk hx (.inl ⟨hends.resolve_left hc.1, hc.2⟩))
    exact ⟨st', h1, h2⟩
  split
  · rename_i hc
    rw [hT.anc v hv e.2 hk2] at hc
    obtain ⟨st', h1, h2, _⟩ := hr.process hg hT he (sep_parent h hxk hx (.inr ⟨hends.resolve_right hc.1, hc.2⟩))
    exact ⟨st', h1, h2⟩
  · exact ⟨st, rfl, .refl⟩

/-- The number of vertices below. -/
def below (dij : DijkstraOut V) (q : V) : List V := dij.distKeys.filter fun z => decide (q ∈ dij.path z)

theorem below_children (h : IsDijkstra G s dij) {x : V} (hx : x ∈ dij.distKeys) {cs : List V} (hn : cs.Nodup) (hc : ∀ c ∈ cs, IsChild s dij x c) :
    (cs.map fun c => (below dij c).length).sum + 1 ≤ (below dij x).length := by
  have hmem : ∀ q z, z ∈ below dij q ↔ z ∈ dij.distKeys ∧ q ∈ dij.path z := by intro q z; simp [below]
  have h1 : (x :: cs.flatMap (below dij)).Nodup := by
    rw [List.nodup_cons, List.nodup_flatMap]
    refine ⟨?_, fun c _ => h.nodup.filter _, ?_⟩
    · rw [List.mem_flatMap]
      rintro ⟨c, hc1, hc2⟩
      exact (hc c hc1).not_mem h ((hmem c x).1 hc2).2
    · refine List.Nodup.pairwise_of_forall_ne hn ?_
      intro a ha b hb hab z hz1 hz2
      rw [hmem] at hz1 hz2
      exact hab ((hc a ha).eq_of_mem h (hc b hb) hz1.1 hz1.2 hz2.2)
  have h2 : (x :: cs.flatMap (below dij)) ⊆ below dij x := by
    intro z hz
    rw [hmem]
    rcases List.mem_cons.1 hz with rfl | hz
    · exact ⟨hx, h.mem_path_self hx⟩
    · obtain ⟨c, hc1, hc2⟩ := List.mem_flatMap.1 hz
      rw [hmem] at hc2
      exact ⟨hc2.1, h.path_trans hc2.1 ((hc c hc1).parent_mem h) hc2.2⟩
  have h3 := (List.subperm_of_subset h1 h2).length_le
  rw [List.length_cons, List.length_flatMap] at h3
  exact h3

theorem traverseSubtree_ok (hg : G.WF) (h : IsDijkstra G s dij) (hT : TreeOK G s dij T) {y v : V} {isParent : Bool} (hv : v ∈ dij.distKeys)
    (hy : isParent = false → IsChild s dij v y) (hp : isParent = true → IsChild s dij y v) : ∀ fuel (queue : List V) st, Ready G s dij v st →
      (queue.map fun c => (below dij c).length).sum < fuel →
      (∀ x ∈ queue, x ∈ dij.distKeys ∧ (if isParent then v ∉ dij.path x else y ∈ dij.path x)) →
      (isParent = true → v ∉ st.children y) →
      ∃ st', traverseSubtree T y v isParent fuel queue st = .ok st' ∧ Run s dij T v st st' := by
  intro fuel
  induction fuel with
  | zero => intro queue st _ hf; omega
  | succ fuel ih =>
    intro queue st hr hf hq hch
    cases queue with
    | nil => exact ⟨st, rfl, .refl⟩
    | cons x queue =>
      obtain ⟨hxk, hx⟩ := hq x List.mem_cons_self
      have hbelow := below_children h hxk (hr.basic.childNodup x) (hr.basic.child x)
      have hstep : ∃ st', (if isParent then scanParent T x v st else scan T x y v st) = .ok st' ∧ Run s dij T v st st' := by
        cases isParent with
        | true => simpa using scanParent_ok hg h hT hv hxk (by simpa using hx) hr
        | false => simpa using scan_ok hg h hT (hy rfl) hxk (by simpa using hx) hr
      obtain ⟨st', h1, h2⟩ := hstep
      have hq' : ∀ z ∈ queue ++ st.children x, z ∈ dij.distKeys ∧ (if isParent then v ∉ dij.path z else y ∈ dij.path z) := by
        intro z hz
        rcases List.mem_append.1 hz with hz | hz
        · exact hq z (List.mem_cons_of_mem _ hz)
        · have hc := hr.basic.child x z hz
          refine ⟨hc.key, ?_⟩
          cases isParent with
          | true =>
            simp only [if_true] at hx ⊢
            intro hm
            rcases hc.mem_path_iff.1 hm with hm | hm
            · exact hx hm
            · subst hm
              have := hc.unique h (hp rfl)
              subst this
              exact hch rfl hz
          | false =>
            simp only [Bool.false_eq_true, if_false] at hx ⊢
            exact hc.mem_path_iff.2 (.inl hx)
      have hsub := (Run.shrinks hg hT hr.basic h2).children y
      obtain ⟨st'', h3, h4⟩ := ih (queue ++ st.children x) st' (hr.run hg hT h2) (by
        simp only [List.map_cons, List.sum_cons] at hf
        rw [List.map_append, List.sum_append]
        omega) hq' (fun hip hm => hch hip (hsub.subset hm))
      refine ⟨st'', ?_, h2.trans h4⟩
      rw [traverseSubtree]
      simp only [h1, Res.ok_bind, h3]

theorem visitChildren_ok (hg : G.WF) (h : IsDijkstra G s dij) (hT : TreeOK G s dij T) {v : V} {n : Nat} (hn : dij.distKeys.length < n)
    (hv : v ∈ dij.distKeys) : ∀ (ws : List V) st, (∀ w ∈ ws, IsChild s dij v w) → Ready G s dij v st →
      ∃ st', visitChildren T n v ws st = .ok st' ∧ Run s dij T v st st' := by
  intro ws
  induction ws with
  | nil => intro st _ _; exact ⟨st, rfl, .refl⟩
  | cons w ws ih =>
    intro st hws hr
    have hw := hws w List.mem_cons_self
    let st0 : SState V := { st with parent := setAt st.parent w none, children := setAt st.children v ((st.children v).erase w) }
    have hmove : Run s dij T v st st0 := by
      refine .single (.links ?_ ?_)
      · intro x
        by_cases e : x = v
        · subst e; rw [setAt_same]; exact List.erase_sublist
        · rw [setAt_other _ _ e]
      · intro x q hq
        by_cases e : x = w
        · subst e; rw [setAt_same] at hq; cases hq
        · rwa [setAt_other _ _ e] at hq
    have hr0 := hr.run hg hT hmove
    have hstep : ∃ st', (if st0.labeled w then Res.ok st0 else traverseSubtree T w v false n [w] st0) = .ok st' ∧ Run s dij T v st0 st' := by
      split
      · exact ⟨st0, rfl, .refl⟩
      · refine traverseSubtree_ok hg h hT hv (fun _ => hw) (by simp) n [w] st0 hr0 ?_ ?_ (by simp)
        · have : (below dij w).length ≤ dij.distKeys.length := List.length_filter_le _ _
          simp; omega
        · intro x hx
          rw [List.mem_singleton] at hx
          subst hx
          exact ⟨hw.key, by simpa using h.mem_path_self hw.key⟩
    obtain ⟨st', h1, h2⟩ := hstep
    obtain ⟨st'', h3, h4⟩ := ih st' (fun z hz => hws z (List.mem_cons_of_mem _ hz)) (hr0.run hg hT h2)
    refine ⟨st'', ?_, (hmove.trans h2).trans h4⟩
    rw [visitChildren]
    simp only
    show (if st0.labeled w then Res.ok st0 else traverseSubtree T w v false n [w] st0) >>= _ = _
    rw [h1, Res.ok_bind, h3]

theorem labelVertex_ok (hg : G.WF) (h : IsDijkstra G s dij) (hT : TreeOK G s dij T) {v : V} {n : Nat} (hn : dij.distKeys.length < n)
    (hv : v ∈ dij.distKeys) {st : SState V} (hr : Ready G s dij v st) :
    ∃ st', labelVertex T n v st = .ok st' ∧ Run s dij T v { st with labeled := setAt st.labeled v true } st' := by
  let st0 : SState V := { st with labeled := setAt st.labeled v true }
  have hr0 : Ready G s dij v st0 := ⟨⟨hr.basic.ends, hr.basic.edge, hr.basic.nodup, hr.basic.childNodup, hr.basic.child, hr.basic.parent⟩,
    hr.bounded, hr.finite⟩
  obtain ⟨st1, h1, h2⟩ := forIncident_ok' (x := v) (body := fun e st => process T e.1 e.2 v st) hg hT (fun st e hr he => by
    obtain ⟨st', h1, h2, _⟩ := hr.process hg hT he (sep_own h hv (hr.basic.ends v e he).1)
    exact ⟨st', h1, h2⟩) hr0
  have hr1 := hr0.run hg hT h2
  have hstep : ∃ st', (match st1.parent v with
    | none => Res.ok st1
    | some p =>
      if st1.labeled p then Res.ok st1
      else traverseSubtree T p v true n [p] { st1 with children := setAt st1.children p ((st1.children p).erase v) }) = .ok st' ∧
      Run s dij T v st1 st' := by
    cases hp : st1.parent v with
    | none => exact ⟨st1, rfl, .refl⟩
    | some p =>
      have hc := hr1.basic.parent v p hp hv
      simp only
      split
      · exact ⟨st1, rfl, .refl⟩
      · have hmove : Run s dij T v st1 { st1 with children := setAt st1.children p ((st1.children p).erase v) } := by
          refine .single (.links (p := st1.parent) ?_ (fun _ _ h => h))
          intro x
          by_cases e : x = p
          · subst e; rw [setAt_same]; exact List.erase_sublist
          · rw [setAt_other _ _ e]
        obtain ⟨st2, h3, h4⟩ := traverseSubtree_ok hg h hT (y := p) (isParent := true) hv (by simp) (fun _ => hc) n [p] _ (hr1.run hg hT hmove) (by
            have : (below dij p).length ≤ dij.distKeys.length := List.length_filter_le _ _
            simp; omega) (by
            intro x hx
            rw [List.mem_singleton] at hx
            subst hx
            exact ⟨hc.parentKey, by simpa using hc.not_mem h⟩) (by
            intro _
            show v ∉ setAt st1.children p ((st1.children p).erase v) p
            rw [setAt_same, (hr1.basic.childNodup p).mem_erase_iff]
            exact fun hh => hh.1 rfl)
        exact ⟨st2, h3, hmove.trans h4⟩
  obtain ⟨st2, h3, h4⟩ := hstep
  have hr2 := hr1.run hg hT h4
  obtain ⟨st3, h5, h6⟩ := visitChildren_ok hg h hT hn hv (st2.children v) st2 (hr2.basic.child v) hr2
  refine ⟨st3, ?_, (h2.trans h4).trans h6⟩
  unfold labelVertex
  simp only
  have h1' : forIncident v (fun e st => process T e.1 e.2 v st) ((st.inc v).length + 1) 0 { st with labeled := setAt st.labeled v true } = .ok st1 := h1
  rw [h1', Res.ok_bind]
  exact (congrArg (· >>= _) h3).trans (by rw [Res.ok_bind]; exact h5)

/-! ## The loop -/

/-- One turn of the main loop. -/
inductive Turn (s : V) (dij : DijkstraOut V) (T : STree V) : SState V → SState V → Prop
  | stale {st : SState V} {x : Int × V} : heapMin st.heap = some x → ¬ (st.labeled x.2 = false ∧ st.tent x.2 < maxsize) →
      Turn s dij T st { st with heap := st.heap.erase x }
  | label {st st' : SState V} {x : Int × V} {n : Nat} : heapMin st.heap = some x → st.labeled x.2 = false → st.tent x.2 < maxsize →
      Run s dij T x.2 { st with heap := st.heap.erase x, labeled := setAt st.labeled x.2 true } st' →
      dij.distKeys.length < n → labelVertex T n x.2 { st with heap := st.heap.erase x } = .ok st' → Turn s dij T st st'

theorem heapMin_eq_none {l : List (Int × V)} : heapMin l = none ↔ l = [] := by
  cases l with
  | nil => simp [heapMin]
  | cons x xs =>
    simp only [heapMin, reduceCtorEq, iff_false]
    cases heapMin xs with
    | none => simp
    | some y => simp only; split <;> simp

theorem heapMin_mem {l : List (Int × V)} {x : Int × V} (h : heapMin l = some x) : x ∈ l ∧ ∀ y ∈ l, x.1 ≤ y.1 := by
  induction l generalizing x with
  | nil => simp [heapMin] at h
  | cons a xs ih =>
    simp only [heapMin] at h
    cases hm : heapMin xs with
    | none =>
      rw [hm] at h
      injection h with h
      subst h
      rw [heapMin_eq_none] at hm
      subst hm
      simp
    | some y =>
      rw [hm] at h
      obtain ⟨h1, h2⟩ := ih hm
      simp only at h
      split at h
      · rename_i hlt
        injection h with h
        subst h
        refine ⟨List.mem_cons_of_mem _ h1, ?_⟩
        intro z hz
        rcases List.mem_cons.1 hz with rfl | hz
        · omega
        · exact h2 z hz
      · rename_i hlt
        injection h with h
        subst h
        refine ⟨List.mem_cons_self, ?_⟩
        intro z hz
        rcases List.mem_cons.1 hz with rfl | hz
        · exact le_rfl
        · have := h2 z hz; omega

/-- The invariant of the loop. -/
structure LoopInv (G : DiGraph V) (s : V) (dij : DijkstraOut V) (st : SState V) : Prop where
  basic : Basic G s dij st
  bounded : Bounded st
  heapKey : ∀ x ∈ st.heap, x.2 ∈ dij.distKeys
  inc : ∀ x, ∀ e ∈ st.inc x, e ∈ reachedEdges G dij.distKeys

/-- The number of edges that still are in the lists. -/
def live (G : DiGraph V) (dij : DijkstraOut V) (st : SState V) : Nat :=
  ((reachedEdges G dij.distKeys).filter fun e => decide (e ∈ st.inc e.1)).length

theorem filter_length_le {α : Type} {p q : α → Bool} (l : List α) (hpq : ∀ x ∈ l, p x = true → q x = true) :
    (l.filter p).length ≤ (l.filter q).length := by
  induction l with
  | nil => simp
  | cons x l ih =>
    have h1 := ih fun y hy => hpq y (List.mem_cons_of_mem _ hy)
    have h2 := hpq x List.mem_cons_self
    cases hp : p x <;> cases hq : q x <;> simp_all
    omega

theorem filter_length_lt {α : Type} {p q : α → Bool} {l : List α} {a : α} (ha : a ∈ l) (hpq : ∀ x ∈ l, p x = true → q x = true)
    (h1 : p a = false) (h2 : q a = true) : (l.filter p).length < (l.filter q).length := by
  induction l with
  | nil => simp at ha
  | cons x l ih =>
    have h4 := filter_length_le l fun y hy => hpq y (List.mem_cons_of_mem _ hy)
    rcases List.mem_cons.1 ha with rfl | ha
    · simp [h1, h2]; omega
    · have h3 := ih ha fun y hy => hpq y (List.mem_cons_of_mem _ hy)
      have h5 := hpq x List.mem_cons_self
      cases hp : p x <;> cases hq : q x <;> simp_all
      omega

theorem Run.inv (hg : G.WF) (h : IsDijkstra G s dij) (hT : TreeOK G s dij T) {v : V} {st st' : SState V} (hi : LoopInv G s dij st)
    (hm : Run s dij T v st st') : LoopInv G s dij st' ∧ st'.heap.length + live G dij st' ≤ st.heap.length + live G dij st := by
  induction hm with
  | refl => exact ⟨hi, le_rfl⟩
  | @tail st1 st2 h1 h2 ih =>
    obtain ⟨hi1, hl1⟩ := ih
    have hb2 := h2.basic hg hT hi1.basic
    have hs2 := Run.shrinks hg hT hi1.basic (.single h2)
    have hinc : ∀ x, ∀ e ∈ st2.inc x, e ∈ reachedEdges G dij.distKeys := fun x e he => hi1.inc x e ((hs2.inc x).subset he)
    cases h2 with
    | @proc _ e he _ _ hp =>
      have hp := process_spec hg hT hi1.basic he hp
      have hlt : live G dij st2 < live G dij st1 := by
        refine filter_length_lt (a := e) (hi1.inc _ e he) ?_ ?_ (by simpa using he)
        · intro d _ hd
          simp only [decide_eq_true_eq] at hd ⊢
          exact (hs2.inc _).subset hd
        · simp only [decide_eq_false_iff_not]
          rw [hp.inc, (hi1.basic.nodup _).mem_erase_iff]
          exact fun hh => hh.1 rfl
      refine ⟨⟨hb2, hs2.bounded hi1.bounded, ?_, hinc⟩, ?_⟩
      · rcases hp.upd with ⟨_, _, _, _, h5⟩ | ⟨_, _, _, _, h5⟩
        · rw [h5]
          intro x hx
          rcases List.mem_cons.1 hx with rfl | hx
          · exact (hi1.basic.keys h he).2
          · exact hi1.heapKey x hx
        · rw [h5]; exact hi1.heapKey
      · rcases hp.upd with ⟨_, _, _, _, h5⟩ | ⟨_, _, _, _, h5⟩
        · rw [h5, List.length_cons]; omega
        · rw [h5]; omega
    | links hc hpar => exact ⟨⟨hb2, hs2.bounded hi1.bounded, hi1.heapKey, hinc⟩, hl1⟩

theorem suurballeLoop_ok (hg : G.WF) (h : IsDijkstra G s dij) (hT : TreeOK G s dij T) {n : Nat} (hn : dij.distKeys.length < n) :
    ∀ fuel st, LoopInv G s dij st → st.heap.length + live G dij st < fuel →
      ∃ st', suurballeLoop T n fuel st = .ok st' ∧ Relation.ReflTransGen (Turn s dij T) st st' ∧ st'.heap = [] := by
  intro fuel
  induction fuel with
  | zero => intro st _ hf; omega
  | succ fuel ih =>
    intro st hi hf
    rw [suurballeLoop]
    cases hm : heapMin st.heap with
    | none => exact ⟨st, rfl, .refl, heapMin_eq_none.1 hm⟩
    | some x =>
      obtain ⟨hx, _⟩ := heapMin_mem hm
      have hlen : (st.heap.erase x).length + 1 = st.heap.length := by
        rw [List.length_erase_of_mem hx]
        have := List.length_pos_of_mem hx
        omega
      let st0 : SState V := { st with heap := st.heap.erase x }
      have hi0 : LoopInv G s dij st0 := ⟨⟨hi.basic.ends, hi.basic.edge, hi.basic.nodup, hi.basic.childNodup, hi.basic.child, hi.basic.parent⟩,
        hi.bounded, fun y hy => hi.heapKey y (List.mem_of_mem_erase hy), hi.inc⟩
      have hstep : ∃ st', (if !st0.labeled x.2 && decide (st0.tent x.2 < maxsize) then labelVertex T n x.2 st0 else Res.ok st0) = .ok st' ∧
          Turn s dij T st st' ∧ LoopInv G s dij st' ∧ st'.heap.length + live G dij st' < fuel := by
        split
        · rename_i hc
          simp only [Bool.and_eq_true, Bool.not_eq_true', decide_eq_true_eq] at hc
          obtain ⟨st', h1, h2⟩ := labelVertex_ok hg h hT hn (hi.heapKey x hx) (st := st0) ⟨hi0.basic, hi0.bounded, by have := hc.2; omega⟩
          have hi1 : LoopInv G s dij { st0 with labeled := setAt st0.labeled x.2 true } :=
            ⟨⟨hi.basic.ends, hi.basic.edge, hi.basic.nodup, hi.basic.childNodup, hi.basic.child, hi.basic.parent⟩, hi.bounded, hi0.heapKey, hi.inc⟩
          obtain ⟨h3, h4⟩ := Run.inv hg h hT hi1 h2
          refine ⟨st', h1, .label hm hc.1 hc.2 h2 hn h1, h3, ?_⟩
          have h5 : ({ st0 with labeled := setAt st0.labeled x.2 true } : SState V).heap.length + live G dij { st0 with labeled := setAt st0.labeled x.2 true } =
            (st.heap.erase x).length + live G dij st := rfl
          omega
        · rename_i hc
          simp only [Bool.and_eq_true, Bool.not_eq_true', decide_eq_true_eq] at hc
          refine ⟨st0, rfl, .stale hm hc, hi0, ?_⟩
          have h5 : st0.heap.length + live G dij st0 = (st.heap.erase x).length + live G dij st := rfl
          omega
      obtain ⟨st', h1, h2, h3, h4⟩ := hstep
      obtain ⟨st'', h5, h6, h7⟩ := ih st' h3 h4
      refine ⟨st'', ?_, .head h2 h6, h7⟩
      simp only
      exact (congrArg (· >>= _) h1).trans (by rw [Res.ok_bind]; exact h5)

end Pctsp
