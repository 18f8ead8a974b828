import Verif.Lemmas.SuurballeRun

/-!
# The state before the main loop, and the invariants of the main loop
-/

set_option linter.unusedSectionVars false

namespace Pctsp

variable {V : Type} [LinearOrder V] {G : DiGraph V} {s : V} {dij : DijkstraOut V} {T : STree V}

/-- The end of the edge that is not `x`. -/
def otherEnd (x : V) (e : V × V) : V := if e.1 = x then e.2 else e.1

theorem insertIncident_perm (pre : V → Int) (x sh : V) (e : V × V) : ∀ l, (insertIncident pre x sh e l).Perm (e :: l) := by
  intro l
  induction l with
  | nil => exact List.Perm.refl _
  | cons d ds ih =>
    simp only [insertIncident]
    generalize (if d.1 = x then d.2 else d.1) = o
    split
    · exact List.Perm.refl _
    · exact (ih.cons d).trans (List.Perm.swap _ _ _)

theorem insertIncident_sorted (pre : V → Int) (x sh : V) (e : V × V) (he : otherEnd x e = sh) : ∀ l : List (V × V),
    l.Pairwise (fun a b => pre (otherEnd x a) ≤ pre (otherEnd x b)) →
    (insertIncident pre x sh e l).Pairwise (fun a b => pre (otherEnd x a) ≤ pre (otherEnd x b)) := by
  intro l
  induction l with
  | nil => intro _; simp [insertIncident]
  | cons d ds ih =>
    intro h
    rw [List.pairwise_cons] at h
    simp only [insertIncident]
    have hd : (if d.1 = x then d.2 else d.1) = otherEnd x d := rfl
    rw [hd]
    split
    · rename_i hgt
      rw [List.pairwise_cons, List.pairwise_cons]
      refine ⟨?_, h.1, h.2⟩
      intro a ha
      rw [he]
      rcases List.mem_cons.1 ha with rfl | ha
      · omega
      · have := h.1 a ha; omega
    · rename_i hgt
      rw [List.pairwise_cons]
      refine ⟨?_, ih h.2⟩
      intro a ha
      rcases List.mem_cons.1 ((insertIncident_perm pre x sh e ds).mem_iff.1 ha) with rfl | ha
      · rw [he]; omega
      · exact h.1 a ha

/-- What the loop that fills the lists keeps. -/
structure Filled (st0 st : SState V) (T : STree V) (L : List (V × V)) : Prop where
  perm : ∀ x, (st.inc x).Perm (L.filter fun e => decide (e.2 ∉ T.succ e.1 ∧ (e.1 = x ∨ e.2 = x)))
  sorted : ∀ x, (st.inc x).Pairwise (fun a b => T.pre (otherEnd x a) ≤ T.pre (otherEnd x b))
  rest : { st with inc := st0.inc } = st0

theorem addIncident_filled {st0 st : SState V} {L : List (V × V)} (h : Filled st0 st T L) {e : V × V} (hne : e.1 ≠ e.2) (hnt : e.2 ∉ T.succ e.1) :
    Filled st0 (addIncident T.pre st e.1 e.2) T (L ++ [e]) := by
  have key : ∀ x, (addIncident T.pre st e.1 e.2).inc x =
      if x = e.2 then insertIncident T.pre e.2 e.1 e (st.inc e.2) else if x = e.1 then insertIncident T.pre e.1 e.2 e (st.inc e.1) else st.inc x := by
    intro x
    simp only [addIncident, setAt]
    by_cases h2 : x = e.2
    · subst h2; simp [Ne.symm hne]
    · simp [h2]
  refine ⟨?_, ?_, ?_⟩
  · intro x
    rw [key, List.filter_append]
    by_cases h2 : x = e.2
    · subst h2
      rw [if_pos rfl]
      have : ([e].filter fun d => decide (d.2 ∉ T.succ d.1 ∧ (d.1 = e.2 ∨ d.2 = e.2))) = [e] := by simp [hnt]
      rw [this]
      exact (insertIncident_perm _ _ _ _ _).trans (((h.perm _).cons e).trans (List.perm_append_singleton _ _).symm)
    · rw [if_neg h2]
      by_cases h1 : x = e.1
      · subst h1
        rw [if_pos rfl]
        have : ([e].filter fun d => decide (d.2 ∉ T.succ d.1 ∧ (d.1 = e.1 ∨ d.2 = e.1))) = [e] := by simp [hnt]
        rw [this]
        exact (insertIncident_perm _ _ _ _ _).trans (((h.perm _).cons e).trans (List.perm_append_singleton _ _).symm)
      · rw [if_neg h1]
        have : ([e].filter fun d => decide (d.2 ∉ T.succ d.1 ∧ (d.1 = x ∨ d.2 = x))) = [] := by
          simp only [List.filter_cons, List.filter_nil, decide_eq_true_eq]
          rw [if_neg]
          rintro ⟨_, h3 | h3⟩
          · exact h1 h3.symm
          · exact h2 h3.symm
        rw [this, List.append_nil]
        exact h.perm x
  · intro x
    rw [key]
    by_cases h2 : x = e.2
    · subst h2
      rw [if_pos rfl]
      exact insertIncident_sorted _ _ _ _ (by rw [otherEnd, if_neg hne]) _ (h.sorted _)
    · rw [if_neg h2]
      by_cases h1 : x = e.1
      · subst h1
        rw [if_pos rfl]
        exact insertIncident_sorted _ _ _ _ (by rw [otherEnd, if_pos rfl]) _ (h.sorted _)
      · rw [if_neg h1]; exact h.sorted x
  · exact h.rest

theorem foldl_filled {st0 : SState V} : ∀ (M L : List (V × V)) (st : SState V), (∀ e ∈ M, e.1 ≠ e.2) → Filled st0 st T L →
    Filled st0 (M.foldl (fun st e => if e.2 ∈ T.succ e.1 then st else addIncident T.pre st e.1 e.2) st) T (L ++ M) := by
  intro M
  induction M with
  | nil => intro L st _ h; simpa using h
  | cons e M ih =>
    intro L st hM h
    rw [List.foldl_cons]
    have h2 := ih (L ++ [e]) (if e.2 ∈ T.succ e.1 then st else addIncident T.pre st e.1 e.2) (fun d hd => hM d (List.mem_cons_of_mem _ hd)) (by
      split
      · rename_i hin
        refine ⟨?_, h.sorted, h.rest⟩
        intro x
        rw [List.filter_append]
        have : ([e].filter fun d => decide (d.2 ∉ T.succ d.1 ∧ (d.1 = x ∨ d.2 = x))) = [] := by simp [hin]
        rw [this, List.append_nil]
        exact h.perm x
      · rename_i hin
        exact addIncident_filled h (hM e List.mem_cons_self) hin)
    rw [List.append_assoc, List.singleton_append] at h2
    exact h2

theorem mem_reachedEdges (hg : G.WF) (h : IsDijkstra G s dij) {e : V × V} :
    e ∈ reachedEdges G dij.distKeys ↔ e.1 ∈ dij.distKeys ∧ e.2 ∈ G.succ e.1 := by
  simp only [reachedEdges, List.mem_flatMap, List.mem_filter, List.mem_map, decide_eq_true_eq]
  constructor
  · rintro ⟨u, ⟨_, h2⟩, v, ⟨h3, _⟩, rfl⟩
    exact ⟨h2, h3⟩
  · rintro ⟨h1, h2⟩
    exact ⟨e.1, ⟨(hg.closed _ _ h2).1, h1⟩, e.2, ⟨h2, (h.relaxed _ h1 _ h2).1⟩, rfl⟩

theorem reachedEdges_nodup (hg : G.WF) : (reachedEdges G dij.distKeys).Nodup := by
  unfold reachedEdges
  rw [List.nodup_flatMap]
  refine ⟨fun u _ => ?_, ?_⟩
  · exact ((hg.succNodup u).filter _).map fun a b hab => by injection hab
  · refine List.Nodup.pairwise_of_forall_ne (hg.nodup.filter _) ?_
    intro a _ b _ hab e h1 h2
    rw [List.mem_map] at h1 h2
    obtain ⟨x, _, rfl⟩ := h1
    obtain ⟨y, _, h3⟩ := h2
    injection h3 with h3 _
    exact hab h3.symm

theorem initState_filled (hg : G.WF) (h : IsDijkstra G s dij) : Filled (emptyState dij T) (initState G dij T) T (reachedEdges G dij.distKeys) := by
  have := foldl_filled (T := T) (st0 := emptyState dij T) (reachedEdges G dij.distKeys) [] (emptyState dij T) (fun e he => by
    rw [mem_reachedEdges hg h] at he
    intro h'
    rw [← h'] at he
    exact hg.noLoop _ he.2) ⟨fun x => by simp [emptyState], fun x => by simp [emptyState], rfl⟩
  rwa [List.nil_append] at this

theorem buildTree_ok (h : IsDijkstra G s dij) {depth : Nat} (hd : ∀ x ∈ dij.distKeys, (dij.path x).length ≤ depth) :
    ∃ T, buildTree G dij depth s = .ok T ∧ TreeOK G s dij T := by
  obtain ⟨pre, post, A, B, h1, h2, hA, _, h4, h3⟩ := orders_ok h hd
  refine ⟨⟨s, kids s dij, fun v => if s ≠ v then (parentInTree dij.path v).toList else [], pre, post,
    fun u v => adjustEdgeCost (G.weight u v) (dij.dist u) (dij.dist v), dij.dist⟩, ?_, ?_⟩
  · unfold buildTree
    simp only
    rw [h1, Res.ok_bind, h2, Res.ok_bind]
  · refine ⟨rfl, fun u v => h.mem_treeSucc, h.treeSucc_nodup, h3, fun _ _ => rfl, rfl, ?_, ?_, ?_⟩
    · intro v p hp hv
      simp only at hp
      split at hp
      · rename_i hne
        obtain ⟨u, hu, _⟩ := h.exists_parent hv (Ne.symm hne)
        rw [h.parent_eq hu] at hp
        simp at hp
        subst hp
        exact hu
      · simp at hp
    · intro u v hu
      simp only
      rw [if_pos (Ne.symm hu.ne), h.parent_eq hu]
      rfl
    · intro a ha b hb hab
      simp only [(h4 a ha).1, (h4 b hb).1] at hab
      exact (List.idxOf_inj (hA.mem_iff.2 ha)).1 (by omega)

theorem LoopInv.init (hg : G.WF) (h : IsDijkstra G s dij) (hT : TreeOK G s dij T) : LoopInv G s dij (initState G dij T) := by
  have hf := initState_filled (T := T) hg h
  have hrest := hf.rest
  have e1 : (initState G dij T).children = T.succ := by have := congrArg SState.children hrest; exact this
  have e2 : (initState G dij T).parent = fun v => (T.predecessors v).head? := by have := congrArg SState.parent hrest; exact this
  have e3 : (initState G dij T).tent = fun v => if v = T.source then 0 else maxsize := by have := congrArg SState.tent hrest; exact this
  have e4 : (initState G dij T).heap = dij.distKeys.map fun v => ((if v = T.source then 0 else maxsize : Int), v) := by
    have := congrArg SState.heap hrest; exact this
  have hmem : ∀ x e, e ∈ (initState G dij T).inc x ↔ e ∈ reachedEdges G dij.distKeys ∧ e.2 ∉ T.succ e.1 ∧ (e.1 = x ∨ e.2 = x) := by
    intro x e
    rw [(hf.perm x).mem_iff, List.mem_filter, decide_eq_true_eq]
  refine ⟨⟨?_, ?_, ?_, ?_, ?_, ?_⟩, ?_, ?_, ?_⟩
  · intro x e he
    rw [hmem] at he
    exact ⟨he.2.2, (hmem _ _).2 ⟨he.1, he.2.1, .inl rfl⟩, (hmem _ _).2 ⟨he.1, he.2.1, .inr rfl⟩⟩
  · intro x e he
    rw [hmem, mem_reachedEdges hg h] at he
    exact ⟨he.1.1, he.1.2, fun hc => he.2.1 ((hT.succ _ _).2 hc)⟩
  · intro x
    exact (hf.perm x).nodup_iff.2 ((reachedEdges_nodup hg).filter _)
  · rw [e1]; exact hT.succNodup
  · rw [e1]; exact fun x y hy => (hT.succ x y).1 hy
  · rw [e2]; exact fun x p hp hx => hT.preds x p hp hx
  · intro x
    rw [e3]
    simp only [maxsize]
    split <;> omega
  · rw [e4]
    intro x hx
    obtain ⟨v, hv, rfl⟩ := List.mem_map.1 hx
    exact hv
  · intro x e he
    exact ((hmem x e).1 he).1

/-! ## Two-path certificates -/

/-- Every finite tentative distance is the cost of an augmenting walk. -/
def Certified (G : DiGraph V) (s : V) (dij : DijkstraOut V) (st : SState V) : Prop := ∀ x, st.tent x ≠ maxsize → RR G s dij x x (st.tent x)

theorem Run.certified (hg : G.WF) (h : IsDijkstra G s dij) (hT : TreeOK G s dij T) {v : V} {st st' : SState V} (hb : Basic G s dij st)
    (hc : Certified G s dij st) (hm : Run s dij T v st st') : Certified G s dij st' := by
  induction hm with
  | refl => exact hc
  | tail h1 h2 ih =>
    have hb1 := Run.basic hg hT hb h1
    cases h2 with
    | @proc _ e he hs hv hp =>
      have hp := process_spec hg hT hb1 he hp
      rcases hp.upd with ⟨_, h5, _⟩ | ⟨_, h5, _⟩
      · intro x hx
        rw [h5] at hx ⊢
        by_cases ex : x = e.2
        · subst ex
          rw [setAt_same, hT.cost]
          obtain ⟨h6, h7, h8⟩ := hb1.edge _ e he
          exact (ih v hv).extend h h6 h7 h8 hs
        · rw [setAt_other _ _ ex] at hx ⊢
          exact ih x hx
      · intro x hx
        rw [h5] at hx ⊢
        exact ih x hx
    | links _ _ => exact ih

theorem Turn.inv (hg : G.WF) (h : IsDijkstra G s dij) (hT : TreeOK G s dij T) {st st' : SState V} (hi : LoopInv G s dij st)
    (ht : Turn s dij T st st') : LoopInv G s dij st' := by
  cases ht with
  | @stale x hx _ => exact ⟨⟨hi.basic.ends, hi.basic.edge, hi.basic.nodup, hi.basic.childNodup, hi.basic.child, hi.basic.parent⟩, hi.bounded,
      fun y hy => hi.heapKey y (List.mem_of_mem_erase hy), hi.inc⟩
  | @label _ x _ hx h1 h2 hr _ _ =>
    exact (Run.inv hg h hT (st := { st with heap := st.heap.erase x, labeled := setAt st.labeled x.2 true })
      ⟨⟨hi.basic.ends, hi.basic.edge, hi.basic.nodup, hi.basic.childNodup, hi.basic.child, hi.basic.parent⟩, hi.bounded,
      fun y hy => hi.heapKey y (List.mem_of_mem_erase hy), hi.inc⟩ hr).1

theorem Turn.certified (hg : G.WF) (h : IsDijkstra G s dij) (hT : TreeOK G s dij T) {st st' : SState V} (hi : LoopInv G s dij st)
    (hc : Certified G s dij st) (ht : Turn s dij T st st') : Certified G s dij st' := by
  cases ht with
  | stale _ _ => exact hc
  | @label _ x _ hx h1 h2 hr _ _ =>
    exact Run.certified hg h hT (st := { st with heap := st.heap.erase x, labeled := setAt st.labeled x.2 true })
      ⟨hi.basic.ends, hi.basic.edge, hi.basic.nodup, hi.basic.childNodup, hi.basic.child, hi.basic.parent⟩ hc hr

theorem Certified.init (hg : G.WF) (h : IsDijkstra G s dij) (hT : TreeOK G s dij T) : Certified G s dij (initState G dij T) := by
  have hf := initState_filled (T := T) hg h
  have e3 : (initState G dij T).tent = fun v => if v = T.source then 0 else maxsize := by have := congrArg SState.tent hf.rest; exact this
  intro x hx
  rw [e3] at hx ⊢
  simp only at hx ⊢
  split at hx
  · rename_i e
    rw [if_pos e, e, hT.source]
    exact .start le_rfl
  · exact absurd rfl hx

/-- The program as a whole. -/
theorem suurballe_run (hg : G.WF) (h : IsDijkstra G s dij) {depth : Nat} (hd : ∀ x ∈ dij.distKeys, (dij.path x).length ≤ depth) :
    ∃ T st, suurballe G dij depth s = .ok (T, st) ∧ TreeOK G s dij T ∧ Relation.ReflTransGen (Turn s dij T) (initState G dij T) st ∧ st.heap = [] := by
  obtain ⟨T, h1, hT⟩ := buildTree_ok h hd
  have hi := LoopInv.init hg h hT
  have e4 : (initState G dij T).heap.length = dij.distKeys.length := by
    have := congrArg SState.heap (initState_filled (T := T) hg h).rest
    have e : (initState G dij T).heap = (emptyState dij T).heap := this
    rw [e]; simp [emptyState]
  have hlive : live G dij (initState G dij T) ≤ (reachedEdges G dij.distKeys).length := List.length_filter_le _ _
  obtain ⟨st, h2, h3, h4⟩ := suurballeLoop_ok hg h hT (n := dij.distKeys.length + 1) (by omega)
    (dij.distKeys.length + (reachedEdges G dij.distKeys).length + 1) (initState G dij T) hi (by omega)
  refine ⟨T, st, ?_, hT, h3, h4⟩
  unfold suurballe
  rw [h1, Res.ok_bind, h2, Res.ok_bind]

theorem suurballe_certified (hg : G.WF) (h : IsDijkstra G s dij) (hT : TreeOK G s dij T) {st : SState V}
    (hr : Relation.ReflTransGen (Turn s dij T) (initState G dij T) st) : LoopInv G s dij st ∧ Certified G s dij st := by
  induction hr with
  | refl => exact ⟨LoopInv.init hg h hT, Certified.init hg h hT⟩
  | tail _ h2 ih => exact ⟨h2.inv hg h hT ih.1, h2.certified hg h hT ih.1 ih.2⟩

end Pctsp
