import Verif.Lemmas.SuurballeComplete

/-!
# What a turn of the main loop removes from the lists

The scan of a vertex leaves only the edges whose other end is in the same subtree, because the lists are sorted by the number of the other
end and the numbers of a subtree are an interval.
-/

set_option linter.unusedSectionVars false

namespace Pctsp

variable {V : Type} [LinearOrder V] {G : DiGraph V} {s : V} {dij : DijkstraOut V} {T : STree V}

/-! ## The links are not changed -/

structure Keeps (st st' : SState V) : Prop where
  children : st'.children = st.children
  parent : st'.parent = st.parent
  labeled : st'.labeled = st.labeled

theorem Keeps.refl (st : SState V) : Keeps st st := ⟨rfl, rfl, rfl⟩

theorem Keeps.trans {a b c : SState V} (h1 : Keeps a b) (h2 : Keeps b c) : Keeps a c :=
  ⟨h2.children.trans h1.children, h2.parent.trans h1.parent, h2.labeled.trans h1.labeled⟩

theorem process_keeps {u w v : V} {st st' : SState V} (h : process T u w v st = .ok st') : Keeps st st' := by
  unfold process at h
  split at h
  · injection h with h; subst h; exact .refl _
  split at h
  · cases h
  simp only at h
  split at h
  · cases h
  split at h
  · cases h
  split at h
  · injection h with h; subst h; exact ⟨rfl, rfl, rfl⟩
  · injection h with h; subst h; exact ⟨rfl, rfl, rfl⟩

theorem forIncident_keeps {x : V} {body : V × V → SState V → Res (SState V)} (hb : ∀ e st st', body e st = .ok st' → Keeps st st') :
    ∀ fuel i st st', forIncident x body fuel i st = .ok st' → Keeps st st' := by
  intro fuel
  induction fuel with
  | zero => intro i st st' h; cases h
  | succ fuel ih =>
    intro i st st' h
    rw [forIncident] at h
    cases hc : (st.inc x)[i]? with
    | none => rw [hc] at h; injection h with h; subst h; exact .refl _
    | some e =>
      rw [hc] at h
      obtain ⟨st1, h1, h2⟩ := Res.bind_eq_ok.1 h
      exact (hb e st st1 h1).trans (ih _ _ _ h2)

theorem scanForward_keeps {x y v : V} : ∀ fuel size f b (st st' : SState V) f' b', scanForward T x y v fuel size f b st = .ok (st', f', b') →
    Keeps st st' := by
  intro fuel
  induction fuel with
  | zero => intro size f b st st' f' b' h; cases h
  | succ fuel ih =>
    intro size f b st st' f' b' h
    rw [scanForward] at h
    split at h
    · split at h
      · cases h
      split at h
      · injection h with h; injection h with h _; subst h; exact .refl _
      · obtain ⟨st1, h1, h2⟩ := Res.bind_eq_ok.1 h
        split at h2
        · exact (process_keeps h1).trans (ih _ _ _ _ _ _ _ h2)
        · exact (process_keeps h1).trans (ih _ _ _ _ _ _ _ h2)
    · injection h with h; injection h with h _; subst h; exact .refl _

theorem scanBackward_keeps {x y v : V} : ∀ fuel f b (st st' : SState V), scanBackward T x y v fuel f b st = .ok st' → Keeps st st' := by
  intro fuel
  induction fuel with
  | zero => intro f b st st' h; cases h
  | succ fuel ih =>
    intro f b st st' h
    rw [scanBackward] at h
    split at h
    · split at h
      · cases h
      split at h
      · injection h with h; subst h; exact .refl _
      · obtain ⟨st1, h1, h2⟩ := Res.bind_eq_ok.1 h
        exact (process_keeps h1).trans (ih _ _ _ _ h2)
    · injection h with h; subst h; exact .refl _

theorem scan_keeps {x y v : V} {st st' : SState V} (h : scan T x y v st = .ok st') : Keeps st st' := by
  unfold scan at h
  obtain ⟨⟨st1, f, b⟩, h1, h2⟩ := Res.bind_eq_ok.1 h
  exact (scanForward_keeps _ _ _ _ _ _ _ _ h1).trans (scanBackward_keeps _ _ _ _ _ h2)

theorem scanParent_keeps {x v : V} {st st' : SState V} (h : scanParent T x v st = .ok st') : Keeps st st' := by
  refine forIncident_keeps ?_ _ _ _ _ h
  intro e st st' h
  split at h
  · exact process_keeps h
  split at h
  · exact process_keeps h
  · injection h with h; subst h; exact .refl _

theorem traverseSubtree_keeps {y v : V} {isParent : Bool} : ∀ fuel queue (st st' : SState V), traverseSubtree T y v isParent fuel queue st = .ok st' →
    Keeps st st' := by
  intro fuel
  induction fuel with
  | zero => intro queue st st' h; cases h
  | succ fuel ih =>
    intro queue st st' h
    cases queue with
    | nil => rw [traverseSubtree] at h; injection h with h; subst h; exact .refl _
    | cons x queue =>
      rw [traverseSubtree] at h
      obtain ⟨st1, h1, h2⟩ := Res.bind_eq_ok.1 h
      refine Keeps.trans ?_ (ih _ _ _ h2)
      cases isParent with
      | true => exact scanParent_keeps h1
      | false => exact scan_keeps h1

/-! ## The scan -/

/-- The lists are sorted by the number of the other end. -/
def Sorted (T : STree V) (st : SState V) : Prop := ∀ x, (st.inc x).Pairwise (fun a b => T.pre (otherEnd x a) ≤ T.pre (otherEnd x b))

theorem Sorted.shrinks {st st' : SState V} (h : Sorted T st) (hs : Shrinks st st') : Sorted T st' := fun x => (h x).sublist (hs.inc x)

theorem otherEnd_left (x : V) {e : V × V} (h : e.1 = x) : otherEnd x e = e.2 := if_pos h
theorem otherEnd_right (x : V) {e : V × V} (h : e.1 ≠ x) : otherEnd x e = e.1 := if_neg h

theorem Basic.other_key (h : IsDijkstra G s dij) {st : SState V} (hb : Basic G s dij st) {x : V} {e : V × V} (he : e ∈ st.inc x) :
    otherEnd x e ∈ dij.distKeys := by
  unfold otherEnd
  split
  · exact (hb.keys h he).2
  · exact (hb.keys h he).1

theorem wasted_iff (hg : G.WF) (h : IsDijkstra G s dij) (hT : TreeOK G s dij T) {st : SState V} (hb : Basic G s dij st) {x y : V} {e : V × V}
    (hy : y ∈ dij.distKeys) (he : e ∈ st.inc x) : wasted T x y e = true ↔ y ∈ dij.path (otherEnd x e) := by
  have hne : e.1 ≠ e.2 := fun h' => hg.noLoop e.1 (by have := (hb.edge x e he).2.1; rwa [← h'] at this)
  obtain ⟨k1, k2⟩ := hb.keys h he
  rcases (hb.ends x e he).1 with h1 | h1
  · have h2 : e.2 ≠ x := fun h2 => hne (h1.trans h2.symm)
    rw [otherEnd_left x h1, ← hT.anc y hy e.2 k2]
    simp [wasted, h1, h2]
  · have h2 : e.1 ≠ x := fun h2 => hne (h2.trans h1.symm)
    rw [otherEnd_right x h2, ← hT.anc y hy e.1 k1]
    simp [wasted, h1, h2]

/-- The numbers of a subtree are an interval. -/
theorem pre_interval (h : IsDijkstra G s dij) (hT : TreeOK G s dij T) {y a b c : V} (ha : a ∈ dij.distKeys) (hb : b ∈ dij.distKeys)
    (hc : c ∈ dij.distKeys) (h1 : T.pre a ≤ T.pre b) (h2 : T.pre b ≤ T.pre c) (ya : y ∈ dij.path a) (yc : y ∈ dij.path c) : y ∈ dij.path b := by
  have hy := h.key_of_mem ha ya
  have e1 := (hT.anc y hy a ha).2 ya
  have e2 := (hT.anc y hy c hc).2 yc
  simp only [isAncestor, Bool.and_eq_true, decide_eq_true_eq] at e1 e2
  by_cases hbc : b ∈ dij.path c
  · rcases h.path_total hc yc hbc with h3 | h3
    · exact h3
    · have e3 := (hT.anc b hb y hy).2 h3
      simp only [isAncestor, Bool.and_eq_true, decide_eq_true_eq] at e3
      have := hT.preInj b hb y hy (by omega)
      subst this
      exact h.mem_path_self hb
  · rw [← hT.anc b hb c hc] at hbc
    simp only [isAncestor, Bool.and_eq_true, decide_eq_true_eq, not_and] at hbc
    have := hbc h2
    rw [← hT.anc y hy b hb]
    simp only [isAncestor, Bool.and_eq_true, decide_eq_true_eq]
    omega

theorem scanForward_removes (hg : G.WF) (h : IsDijkstra G s dij) (hT : TreeOK G s dij T) {x y v : V} (hy : IsChild s dij v y) (hxk : x ∈ dij.distKeys)
    (hx : y ∈ dij.path x) : ∀ fuel (st : SState V), Ready G s dij v st → (st.inc x).length < fuel →
      ∃ st', scanForward T x y v fuel (st.inc x).length 0 ((st.inc x).length - 1) st = .ok (st', 0, (st'.inc x).length - 1) ∧ Run s dij T v st st' ∧
        ∀ e, (st'.inc x).head? = some e → wasted T x y e = true := by
  intro fuel
  induction fuel with
  | zero => intro st _ hf; omega
  | succ fuel ih =>
    intro st hr hf
    rw [scanForward]
    cases hl : st.inc x with
    | nil =>
      rw [if_neg (by simp)]
      exact ⟨st, by rw [hl], .refl, by simp [hl]⟩
    | cons e rest =>
      rw [if_pos (by simp)]
      simp only [Int.toNat_zero, List.getElem?_cons_zero]
      split
      · rename_i hw
        refine ⟨st, by rw [hl], .refl, ?_⟩
        intro d hd
        rw [hl] at hd
        simp at hd; subst hd; exact hw
      · rename_i hw
        have hmem : e ∈ st.inc x := by rw [hl]; simp
        obtain ⟨st', h1, h2, h3⟩ := hr.process hg hT hmem (sep_scan h hT hg hr.basic hmem hy hxk hx (by simpa using hw))
        have hinc : st'.inc x = rest := by rw [h3, hl]; simp
        rw [hl] at hf
        simp only [List.length_cons] at hf
        obtain ⟨st'', h4, h5, h6⟩ := ih st' (hr.run hg hT h2) (by rw [hinc]; omega)
        refine ⟨st'', ?_, h2.trans h5, h6⟩
        simp only [h1, Res.ok_bind]
        rw [if_pos (by rw [hinc]; simp), ← h4]
        congr 1
        rw [hinc]; simp

theorem scanBackward_removes (hg : G.WF) (h : IsDijkstra G s dij) (hT : TreeOK G s dij T) {x y v : V} (hy : IsChild s dij v y) (hxk : x ∈ dij.distKeys)
    (hx : y ∈ dij.path x) : ∀ fuel (st : SState V), Ready G s dij v st → (st.inc x).length < fuel →
      (∀ e, (st.inc x).head? = some e → wasted T x y e = true) →
      ∃ st', scanBackward T x y v fuel 0 ((st.inc x).length - 1) st = .ok st' ∧ Run s dij T v st st' ∧
        (∀ e, (st'.inc x).head? = some e → wasted T x y e = true) ∧ ∀ e, (st'.inc x).getLast? = some e → wasted T x y e = true := by
  intro fuel
  induction fuel with
  | zero => intro st _ hf; omega
  | succ fuel ih =>
    intro st hr hf hhead
    rw [scanBackward]
    rcases List.eq_nil_or_concat (st.inc x) with hl | ⟨rest, e, hl⟩
    · rw [if_neg (by simp [hl])]
      exact ⟨st, rfl, .refl, hhead, by simp [hl]⟩
    · rw [List.concat_eq_append] at hl
      have hlen : (st.inc x).length = rest.length + 1 := by rw [hl]; simp
      split
      · rename_i hpos
        have hidx : (((st.inc x).length : Int) - 1).toNat = rest.length := by omega
        have hget : (st.inc x)[(((st.inc x).length : Int) - 1).toNat]? = some e := by rw [hidx, hl]; simp
        rw [hget]
        simp only
        split
        · rename_i hw
          refine ⟨st, rfl, .refl, hhead, ?_⟩
          intro d hd
          rw [hl] at hd
          simp at hd; subst hd; exact hw
        · rename_i hw
          have hmem : e ∈ st.inc x := by rw [hl]; simp
          obtain ⟨st', h1, h2, h3⟩ := hr.process hg hT hmem (sep_scan h hT hg hr.basic hmem hy hxk hx (by simpa using hw))
          have hnd := hr.basic.nodup x
          rw [hl, List.nodup_append] at hnd
          have hne : e ∉ rest := fun hm => hnd.2.2 e hm e (by simp) rfl
          have hinc : st'.inc x = rest := by
            rw [h3, hl, List.erase_append_right _ hne]; simp
          obtain ⟨st'', h4, h5, h6, h7⟩ := ih st' (hr.run hg hT h2) (by rw [hinc]; omega) (by
            intro d hd
            rw [hinc] at hd
            refine hhead d ?_
            rw [hl]
            cases rest with
            | nil => simp at hd
            | cons a r => simpa using hd)
          refine ⟨st'', ?_, h2.trans h5, h6, h7⟩
          simp only [h1, Res.ok_bind]
          rw [← h4]
          congr 1
          rw [hinc, hlen]; simp
      · rename_i hpos
        have : rest = [] := List.length_eq_zero_iff.1 (by omega)
        subst this
        refine ⟨st, rfl, .refl, hhead, ?_⟩
        intro d hd
        rw [hl] at hd
        exact hhead d (by rw [hl]; simpa using hd)

/-- After the scan of `x` only edges whose other end is in the subtree of `y` are left. -/
theorem scan_removes (hg : G.WF) (h : IsDijkstra G s dij) (hT : TreeOK G s dij T) {x y v : V} (hy : IsChild s dij v y) (hxk : x ∈ dij.distKeys)
    (hx : y ∈ dij.path x) {st : SState V} (hr : Ready G s dij v st) (hso : Sorted T st) :
    ∃ st', scan T x y v st = .ok st' ∧ Run s dij T v st st' ∧ ∀ e ∈ st'.inc x, y ∈ dij.path (otherEnd x e) := by
  obtain ⟨st1, h1, h2, h3⟩ := scanForward_removes hg h hT hy hxk hx ((st.inc x).length + 1) st hr (by omega)
  have hl := ((Run.shrinks hg hT hr.basic h2).inc x).length_le
  obtain ⟨st2, h4, h5, h6, h7⟩ := scanBackward_removes hg h hT hy hxk hx ((st.inc x).length + 1) st1 (hr.run hg hT h2) (by omega) h3
  have hrun : Run s dij T v st st2 := h2.trans h5
  refine ⟨st2, by simp only [scan, h1, Res.ok_bind, h4], hrun, ?_⟩
  have hb := Run.basic hg hT hr.basic hrun
  have hs2 := hso.shrinks (Run.shrinks hg hT hr.basic hrun) x
  intro e he
  obtain ⟨a, ha⟩ : ∃ a, (st2.inc x).head? = some a := by
    cases hc : st2.inc x with
    | nil => rw [hc] at he; simp at he
    | cons a l => exact ⟨a, rfl⟩
  obtain ⟨c, hc⟩ : ∃ c, (st2.inc x).getLast? = some c := by
    cases hc : (st2.inc x).getLast? with
    | none => rw [List.getLast?_eq_none_iff] at hc; rw [hc] at he; simp at he
    | some c => exact ⟨c, rfl⟩
  have ham : a ∈ st2.inc x := List.mem_of_head? ha
  have hcm : c ∈ st2.inc x := List.mem_of_getLast? hc
  have ya := (wasted_iff hg h hT hb hy.key ham).1 (h6 a ha)
  have yc := (wasted_iff hg h hT hb hy.key hcm).1 (h7 c hc)
  refine pre_interval h hT (hb.other_key h ham) (hb.other_key h he) (hb.other_key h hcm) ?_ ?_ ya yc
  · cases hl : st2.inc x with
    | nil => rw [hl] at he; simp at he
    | cons b l =>
      rw [hl] at ha he hs2
      simp at ha; subst ha
      rcases List.mem_cons.1 he with rfl | he
      · exact le_rfl
      · exact (List.pairwise_cons.1 hs2).1 e he
  · rcases List.eq_nil_or_concat (st2.inc x) with hl | ⟨l, b, hl⟩
    · rw [hl] at he; simp at he
    · rw [List.concat_eq_append] at hl
      rw [hl] at hc he hs2
      simp at hc; subst hc
      rcases List.mem_append.1 he with he | he
      · exact (List.pairwise_append.1 hs2).2.2 e he b (by simp)
      · rw [List.mem_singleton] at he; subst he; exact le_rfl

/-! ## The subtrees -/

theorem traverseSubtree_removes (hg : G.WF) (h : IsDijkstra G s dij) (hT : TreeOK G s dij T) {y v : V} (hy : IsChild s dij v y) :
    ∀ fuel (queue : List V) (st st' : SState V), Ready G s dij v st → Sorted T st → (∀ x ∈ queue, x ∈ dij.distKeys ∧ y ∈ dij.path x) →
      traverseSubtree T y v false fuel queue st = .ok st' →
      Run s dij T v st st' ∧ ∀ x0 ∈ queue, ∀ x, Relation.ReflTransGen (fun a b => b ∈ st.children a) x0 x → ∀ e ∈ st'.inc x, y ∈ dij.path (otherEnd x e) := by
  intro fuel
  induction fuel with
  | zero => intro queue st st' _ _ _ h; cases h
  | succ fuel ih =>
    intro queue st st' hr hso hq hok
    cases queue with
    | nil => rw [traverseSubtree] at hok; injection hok with hok; subst hok; exact ⟨.refl, by simp⟩
    | cons x queue =>
      rw [traverseSubtree] at hok
      simp only [Bool.false_eq_true, if_false] at hok
      obtain ⟨hxk, hx⟩ := hq x List.mem_cons_self
      obtain ⟨st1, h1, h2, h3⟩ := scan_removes hg h hT hy hxk hx hr hso
      rw [h1, Res.ok_bind] at hok
      have hk := scan_keeps h1
      have hr1 := hr.run hg hT h2
      obtain ⟨h4, h5⟩ := ih (queue ++ st.children x) st1 st' hr1 (hso.shrinks (Run.shrinks hg hT hr.basic h2)) (by
        intro z hz
        rcases List.mem_append.1 hz with hz | hz
        · exact hq z (List.mem_cons_of_mem _ hz)
        · have hc := hr.basic.child x z hz
          exact ⟨hc.key, hc.mem_path_iff.2 (.inl hx)⟩) hok
      refine ⟨h2.trans h4, ?_⟩
      intro x0 hx0 z hz e he
      rw [hk.children] at h5
      rcases List.mem_cons.1 hx0 with rfl | hx0
      · rcases Relation.ReflTransGen.cases_head hz with rfl | ⟨c, hc, hz⟩
        · exact h3 e (((Run.shrinks hg hT hr1.basic h4).inc _).subset he)
        · exact h5 c (List.mem_append_right _ hc) z hz e he
      · exact h5 x0 (List.mem_append_left _ hx0) z hz e he

/-- All edges of the tree on the way from `w` down to `x` are still in the lists of the children. -/
def Linked (s : V) (dij : DijkstraOut V) (children : V → List V) (w x : V) : Prop :=
  w ∈ dij.path x ∧ ∀ a b, IsChild s dij a b → w ∈ dij.path a → b ∈ dij.path x → b ∈ children a

theorem Linked.reach (h : IsDijkstra G s dij) {children : V → List V} {w x : V} (hx : x ∈ dij.distKeys) (hl : Linked s dij children w x) :
    Relation.ReflTransGen (fun a b => b ∈ children a) w x := by
  refine h.tree_induction (P := fun x => Linked s dij children w x → Relation.ReflTransGen (fun a b => b ∈ children a) w x) ?_ ?_ x hx hl
  · intro hl
    rw [h.path_source_only hl.1]
  · intro u x hux _ _ ih hl
    rcases hux.mem_path_iff.1 hl.1 with h1 | h1
    · exact (ih ⟨h1, fun a b hab h2 h3 => hl.2 a b hab h2 (hux.mem_path_iff.2 (.inl h3))⟩).tail (hl.2 u x hux h1 (h.mem_path_self hux.key))
    · rw [h1]

theorem visitChildren_removes (hg : G.WF) (h : IsDijkstra G s dij) (hT : TreeOK G s dij T) {v : V} {n : Nat} :
    ∀ (ws : List V) (st st' : SState V), (∀ w ∈ ws, IsChild s dij v w) → Ready G s dij v st → Sorted T st →
      visitChildren T n v ws st = .ok st' → Run s dij T v st st' ∧ (∀ a, a ≠ v → st'.children a = st.children a) ∧ st'.labeled = st.labeled ∧
        ∀ w ∈ ws, st.labeled w = false → ∀ x ∈ dij.distKeys, Linked s dij st.children w x → ∀ e ∈ st'.inc x, w ∈ dij.path (otherEnd x e) := by
  intro ws
  induction ws with
  | nil => intro st st' _ _ _ hok; rw [visitChildren] at hok; injection hok with hok; subst hok; exact ⟨.refl, fun _ _ => rfl, rfl, by simp⟩
  | cons w ws ih =>
    intro st st' hws hr hso hok
    have hw := hws w List.mem_cons_self
    let st0 : SState V := { st with parent := setAt st.parent w none, children := setAt st.children v ((st.children v).erase w) }
    have hmove : Run s dij T v st st0 := by
      refine .single (.links ?_ ?_)
      · intro x
        by_cases e : x = v
        · subst e; rw [setAt_same]; exact List.erase_sublist
        · rw [setAt_other _ _ e]
      · intro x q hq
        by_cases e : x = w
        · subst e; rw [setAt_same] at hq; cases hq
        · rwa [setAt_other _ _ e] at hq
    have hr0 := hr.run hg hT hmove
    have hso0 : Sorted T st0 := hso
    rw [visitChildren] at hok
    simp only at hok
    obtain ⟨st1, h1, h2⟩ := Res.bind_eq_ok.1 hok
    have h1 : (if st0.labeled w then Res.ok st0 else traverseSubtree T w v false n [w] st0) = .ok st1 := h1
    have hch0 : ∀ a, a ≠ v → st0.children a = st.children a := fun a ha => setAt_other _ _ ha
    have hlink : ∀ z, IsChild s dij v z → ∀ x ∈ dij.distKeys, Linked s dij st.children z x → Linked s dij st0.children z x := by
      intro z hz x _ hl
      refine ⟨hl.1, fun a b hab h3 h4 => ?_⟩
      rw [hch0 a]
      · exact hl.2 a b hab h3 h4
      · rintro rfl; exact hz.not_mem h h3
    have hstep : Run s dij T v st0 st1 ∧ Keeps st0 st1 ∧ (st.labeled w = false → ∀ x ∈ dij.distKeys, Linked s dij st.children w x →
        ∀ e ∈ st1.inc x, w ∈ dij.path (otherEnd x e)) := by
      split at h1
      · rename_i hlab
        injection h1 with h1; subst h1
        refine ⟨.refl, .refl _, fun hl => ?_⟩
        have hlab : st.labeled w = true := hlab
        rw [hl] at hlab; cases hlab
      · obtain ⟨h3, h4⟩ := traverseSubtree_removes hg h hT hw n [w] st0 st1 hr0 hso0 (by
          intro x hx
          rw [List.mem_singleton] at hx; subst hx
          exact ⟨hw.key, h.mem_path_self hw.key⟩) h1
        exact ⟨h3, traverseSubtree_keeps _ _ _ _ h1, fun _ x hx hl e he => h4 w (by simp) x ((hlink w hw x hx hl).reach h hx) e he⟩
    obtain ⟨h3, h4, h5⟩ := hstep
    have hr1 := hr0.run hg hT h3
    obtain ⟨h6, h7, h8, h9⟩ := ih st1 st' (fun z hz => hws z (List.mem_cons_of_mem _ hz)) hr1
      (hso0.shrinks (Run.shrinks hg hT hr0.basic h3)) h2
    refine ⟨(hmove.trans h3).trans h6, fun a ha => by rw [h7 a ha, h4.children, hch0 a ha], by rw [h8, h4.labeled], ?_⟩
    intro z hz hl x hx hli e he
    rcases List.mem_cons.1 hz with rfl | hz
    · exact h5 hl x hx hli e (((Run.shrinks hg hT hr1.basic h6).inc x).subset he)
    · refine h9 z hz (by rw [h4.labeled]; exact hl) x hx ?_ e he
      rw [h4.children]
      exact hlink z (hws z (List.mem_cons_of_mem _ hz)) x hx hli

/-- What the turn of a vertex removes. -/
theorem labelVertex_removes (hg : G.WF) (h : IsDijkstra G s dij) (hT : TreeOK G s dij T) {v : V} {n : Nat} (hn : dij.distKeys.length < n)
    (hv : v ∈ dij.distKeys) {st st' : SState V} (hr : Ready G s dij v st) (hso : Sorted T st) (hok : labelVertex T n v st = .ok st') :
    (∀ a, a ≠ v → ∀ b ∈ st.children a, b ≠ v → b ∈ st'.children a) ∧
      ∀ w ∈ st.children v, st.labeled w = false → ∀ x ∈ dij.distKeys, Linked s dij st.children w x → ∀ e ∈ st'.inc x, w ∈ dij.path (otherEnd x e) := by
  let st0 : SState V := { st with labeled := setAt st.labeled v true }
  have hr0 : Ready G s dij v st0 := ⟨⟨hr.basic.ends, hr.basic.edge, hr.basic.nodup, hr.basic.childNodup, hr.basic.child, hr.basic.parent⟩,
    hr.bounded, hr.finite⟩
  unfold labelVertex at hok
  simp only at hok
  obtain ⟨st1, h1, hok1⟩ := Res.bind_eq_ok.1 hok
  obtain ⟨st2, h2, hok2⟩ := Res.bind_eq_ok.1 hok1
  have hk1 : Keeps st0 st1 := forIncident_keeps (fun _ _ _ hp => process_keeps hp) _ _ _ _ h1
  obtain ⟨st1', h1', hrun1⟩ := forIncident_ok' (x := v) (body := fun e st => process T e.1 e.2 v st) hg hT (fun st e hr he => by
    obtain ⟨st', h1, h2, _⟩ := hr.process hg hT he (sep_own h hv (hr.basic.ends v e he).1)
    exact ⟨st', h1, h2⟩) hr0
  have e1 : st1' = st1 := by
    have h1'' : forIncident v (fun e st => process T e.1 e.2 v st) ((st.inc v).length + 1) 0 st0 = .ok st1' := h1'
    have := h1''.symm.trans h1
    injection this
  subst e1
  have hr1 := hr0.run hg hT hrun1
  have hso1 : Sorted T st1' := Sorted.shrinks (st := st0) hso (Run.shrinks hg hT hr0.basic hrun1)
  have hstep : Run s dij T v st1' st2 ∧ st2.labeled = st1'.labeled ∧ (∀ a, ¬ IsChild s dij a v → st2.children a = st1'.children a) ∧
      (∀ a, ∀ b ∈ st1'.children a, b ≠ v → b ∈ st2.children a) := by
    cases hp : st1'.parent v with
    | none =>
      rw [hp] at h2
      injection h2 with h2; subst h2
      exact ⟨.refl, rfl, fun _ _ => rfl, fun _ _ hb _ => hb⟩
    | some p =>
      rw [hp] at h2
      simp only at h2
      have hc := hr1.basic.parent v p hp hv
      split at h2
      · injection h2 with h2; subst h2
        exact ⟨.refl, rfl, fun _ _ => rfl, fun _ _ hb _ => hb⟩
      · have hmove : Run s dij T v st1' { st1' with children := setAt st1'.children p ((st1'.children p).erase v) } := by
          refine .single (.links (p := st1'.parent) ?_ (fun _ _ h => h))
          intro x
          by_cases e : x = p
          · subst e; rw [setAt_same]; exact List.erase_sublist
          · rw [setAt_other _ _ e]
        obtain ⟨st2', h3, h4⟩ := traverseSubtree_ok hg h hT (y := p) (isParent := true) hv (by simp) (fun _ => hc) n [p] _ (hr1.run hg hT hmove) (by
            have : (below dij p).length ≤ dij.distKeys.length := List.length_filter_le _ _
            simp; omega) (by
            intro x hx
            rw [List.mem_singleton] at hx
            subst hx
            exact ⟨hc.parentKey, by simpa using hc.not_mem h⟩) (by
            intro _
            show v ∉ setAt st1'.children p ((st1'.children p).erase v) p
            rw [setAt_same, (hr1.basic.childNodup p).mem_erase_iff]
            exact fun hh => hh.1 rfl)
        have e2 : st2' = st2 := by
          have := h3.symm.trans h2
          injection this
        subst e2
        have hk := traverseSubtree_keeps _ _ _ _ h2
        refine ⟨hmove.trans h4, hk.labeled, ?_, ?_⟩
        · intro a ha
          rw [hk.children]
          exact setAt_other _ _ (by rintro rfl; exact ha hc)
        · intro a b hb hbv
          rw [hk.children]
          show b ∈ setAt st1'.children p ((st1'.children p).erase v) a
          by_cases e : a = p
          · subst e; rw [setAt_same, List.mem_erase_of_ne hbv]; exact hb
          · rw [setAt_other _ _ e]; exact hb
  obtain ⟨hrun2, hl2, hch2, hch2'⟩ := hstep
  have hr2 := hr1.run hg hT hrun2
  obtain ⟨h6, h7, h8, h9⟩ := visitChildren_removes hg h hT (st2.children v) st2 st' (hr2.basic.child v) hr2
    (hso1.shrinks (Run.shrinks hg hT hr1.basic hrun2)) hok2
  have hch : ∀ a, ¬ IsChild s dij a v → st2.children a = st.children a := fun a ha => by rw [hch2 a ha, hk1.children]
  refine ⟨?_, ?_⟩
  · intro a ha b hb hbv
    rw [h7 a ha]
    exact hch2' a b (by rw [hk1.children]; exact hb) hbv
  · intro w hw hwl x hx hli e he
    have hcw := hr.basic.child v w hw
    refine h9 w (by rw [hch v (fun hc => hc.ne_parent h rfl)]; exact hw) ?_ x hx ⟨hli.1, fun a b hab h3 h4 => ?_⟩ e he
    · rw [hl2, hk1.labeled]
      show setAt st.labeled v true w = false
      rw [setAt_other _ _ (Ne.symm (hcw.ne_parent h))]; exact hwl
    · rw [hch a]
      · exact hli.2 a b hab h3 h4
      · intro hc
        have hwv : w ∈ dij.path v := hc.mem_path_iff.2 (.inl h3)
        exact hcw.not_mem h hwv

end Pctsp
