import Verif.Spec.DisjointPaths
import Verif.Lemmas.Preprocess
import Mathlib.Data.List.Perm.Subperm

/-! # Lemmas about the cycle found by a breadth first search -/

namespace Pctsp

variable {V : Type} [DecidableEq V]

section
variable {g : NxGraph V} {root : V} {tree : List (V × V)}

theorem mem_treeSuccessors {v u : V} : u ∈ treeSuccessors tree v ↔ (v, u) ∈ tree := by
  simp only [treeSuccessors, List.mem_map, List.mem_filter, decide_eq_true_eq, Prod.exists]
  constructor
  · rintro ⟨a, b, ⟨h1, h2⟩, h3⟩; subst h2; subst h3; exact h1
  · intro h; exact ⟨v, u, ⟨h, rfl⟩, rfl⟩

/-- The parent is unique. -/
theorem IsBfsTree.parent_unique (h : IsBfsTree g root tree) {p q v : V} (h1 : (p, v) ∈ tree) (h2 : (q, v) ∈ tree) : p = q := by
  have hn := (List.nodup_cons.1 h.nodup).2
  have := List.inj_on_of_nodup_map hn h1 h2 rfl
  exact (Prod.mk.inj this).1

theorem IsBfsTree.child_ne_root (h : IsBfsTree g root tree) {p v : V} (h1 : (p, v) ∈ tree) : v ≠ root := by
  rintro rfl
  exact (List.nodup_cons.1 h.nodup).1 (List.mem_map.2 ⟨_, h1, rfl⟩)

theorem treePredecessors_of_mem (h : IsBfsTree g root tree) {p v : V} (h1 : (p, v) ∈ tree) : treePredecessors tree v = [p] := by
  have hn := (List.nodup_cons.1 h.nodup).2
  obtain ⟨A, B, hAB⟩ := List.append_of_mem h1
  rw [hAB, List.map_append, List.map_cons, List.nodup_append, List.nodup_cons] at hn
  have hA : A.filter (fun e => e.2 = v) = [] := by
    rw [List.filter_eq_nil_iff]
    intro e he
    simp only [decide_eq_true_eq]
    exact hn.2.2 _ (List.mem_map.2 ⟨e, he, rfl⟩) _ List.mem_cons_self
  have hB : B.filter (fun e => e.2 = v) = [] := by
    rw [List.filter_eq_nil_iff]
    intro e he
    simp only [decide_eq_true_eq]
    intro hev
    exact hn.2.1.1 (List.mem_map.2 ⟨e, he, hev⟩)
  simp [treePredecessors, hAB, hA, hB]

theorem treePredecessors_root (h : IsBfsTree g root tree) : treePredecessors tree root = [] := by
  simp only [treePredecessors, List.map_eq_nil_iff, List.filter_eq_nil_iff, decide_eq_true_eq]
  intro e he hr
  exact h.child_ne_root (p := e.1) (v := e.2) he hr

/-- `v` belongs to the branch of the root's child number `c`. -/
inductive Branch (root : V) (tree : List (V × V)) : V → Nat → Prop
  | top {v : V} {c : Nat} (h : (treeSuccessors tree root)[c]? = some v) : Branch root tree v c
  | step {p v : V} {c : Nat} (h : (p, v) ∈ tree) (hp : p ≠ root) (hb : Branch root tree p c) : Branch root tree v c

theorem treeSuccessors_nodup (h : IsBfsTree g root tree) (v : V) : (treeSuccessors tree v).Nodup := by
  have hn := (List.nodup_cons.1 h.nodup).2
  exact List.Nodup.sublist ((List.filter_sublist (l := tree)).map _) hn

theorem Branch.mem {v : V} {c : Nat} (hb : Branch root tree v c) : ∃ p, (p, v) ∈ tree := by
  cases hb with
  | top h => exact ⟨root, mem_treeSuccessors.1 (List.mem_of_getElem? h)⟩
  | step h _ _ => exact ⟨_, h⟩

theorem Branch.unique (h : IsBfsTree g root tree) {v : V} {c d : Nat} (h1 : Branch root tree v c) (h2 : Branch root tree v d) : c = d := by
  induction h1 with
  | top hc =>
    cases h2 with
    | top hd =>
      obtain ⟨hc', e1⟩ := List.getElem?_eq_some_iff.1 hc
      obtain ⟨hd', e2⟩ := List.getElem?_eq_some_iff.1 hd
      exact (treeSuccessors_nodup h root).getElem_inj_iff.1 (e1.trans e2.symm)
    | step hp hne _ =>
      exact absurd (h.parent_unique hp (mem_treeSuccessors.1 (List.mem_of_getElem? hc))) hne
  | step hp hne _ ih =>
    cases h2 with
    | top hd => exact absurd (h.parent_unique hp (mem_treeSuccessors.1 (List.mem_of_getElem? hd))) hne
    | step hq _ hbq =>
      have := h.parent_unique hp hq
      subst this
      exact ih hbq

/-- A path from the root along tree edges. -/
structure TreePath (root : V) (tree : List (V × V)) (v : V) (l : List V) : Prop where
  last : (root :: l).getLast? = some v
  edges : ∀ e ∈ consec (root :: l), e ∈ tree

/-- The position of the parent is smaller. -/
theorem IsBfsTree.split_parent (h : IsBfsTree g root tree) {v : V} {A B : List V} (hO : root :: tree.map Prod.snd = A ++ v :: B) (hA : A ≠ []) :
    ∃ p A' B', (p, v) ∈ tree ∧ A = A' ++ p :: B' := by
  cases A with
  | nil => exact absurd rfl hA
  | cons r A =>
    simp only [List.cons_append, List.cons.injEq] at hO
    obtain ⟨rfl, hO⟩ := hO
    obtain ⟨T1, T2, hT, e1, e2⟩ := List.map_eq_append_iff.1 hO
    obtain ⟨e, T2', rfl, e3, e4⟩ := List.map_eq_cons_iff.1 e2
    have := h.parents T1 e T2' hT
    rw [e1] at this
    obtain ⟨A', B', hs⟩ := List.append_of_mem this
    refine ⟨e.1, A', B', ?_, hs⟩
    rw [hT, ← e3]; simp

theorem climbTree_spec (h : IsBfsTree g root tree) : ∀ (fuel : Nat) (A : List V) (v : V) (B : List V), root :: tree.map Prod.snd = A ++ v :: B →
    A.length < fuel → ∀ acc, ∃ l, climbTree tree fuel v acc = .ok (root :: l ++ acc) ∧ TreePath root tree v l ∧
      (root :: l).Sublist (A ++ [v]) ∧ ∀ c, Branch root tree v c → ∀ x ∈ l, Branch root tree x c := by
  intro fuel
  induction fuel with
  | zero => intro A v B _ hl; omega
  | succ fuel ih =>
    intro A v B hO hl acc
    by_cases hA : A = []
    · subst hA
      simp only [List.nil_append, List.cons.injEq] at hO
      obtain ⟨rfl, -⟩ := hO
      refine ⟨[], ?_, ⟨by simp, by simp⟩, by simp, by simp⟩
      rw [climbTree, treePredecessors_root h]
      simp
    · obtain ⟨p, A', B', hp, rfl⟩ := h.split_parent hO hA
      have hO' : root :: tree.map Prod.snd = A' ++ p :: (B' ++ v :: B) := by rw [hO]; simp
      have hl' : A'.length < fuel := by simp at hl; omega
      obtain ⟨l, h1, h2, h3, h4⟩ := ih A' p _ hO' hl' (v :: acc)
      refine ⟨l ++ [v], ?_, ⟨?_, ?_⟩, ?_, ?_⟩
      · rw [climbTree, treePredecessors_of_mem h hp]
        simp only [h1]; simp
      · rw [← List.cons_append, List.getLast?_append]; simp
      · intro e he
        have hlast := h2.last
        -- the last step is the edge from `p` to `v`
        rw [← List.cons_append] at he
        obtain ⟨m, hm⟩ : ∃ m, root :: l = m ++ [p] := by
          rcases List.eq_nil_or_concat (root :: l) with h0 | ⟨m, q, hq⟩
          · cases h0
          · rw [hq] at hlast
            simp at hlast
            exact ⟨m, by rw [hq, hlast]; simp⟩
        rw [hm] at he
        rw [show m ++ [p] ++ [v] = m ++ p :: [v] by simp, consec_append] at he
        rcases List.mem_append.1 he with he | he
        · exact h2.edges e (by rw [hm]; exact he)
        · simp at he; rw [he]; exact hp
      · rw [← List.cons_append]
        have : (A' ++ [p]).Sublist (A' ++ p :: B') := by simp
        exact (h3.trans this).append (List.Sublist.refl _)
      · intro c hc x hx
        rcases List.mem_append.1 hx with hx | hx
        · have hpr : p ≠ root := by
            rintro rfl
            have hnd : (p :: l).Nodup := by
              have hAn : (A' ++ p :: (B' ++ v :: B)).Nodup := hO' ▸ h.nodup
              exact List.Nodup.sublist (h3.trans (by simp)) hAn
            have hlast := h2.last
            cases l with
            | nil => simp at hx
            | cons y l =>
              simp only [List.getLast?_cons_cons] at hlast
              have := List.mem_of_getLast? hlast
              exact (List.nodup_cons.1 hnd).1 this
          refine h4 c ?_ x hx
          cases hc with
          | top ht =>
            exact absurd (h.parent_unique hp (mem_treeSuccessors.1 (List.mem_of_getElem? ht))) hpr
          | step hq _ hb =>
            have := h.parent_unique hp hq
            subst this; exact hb
        · simp at hx; rw [hx]; exact hc

theorem pathToVertexInTree_spec (h : IsBfsTree g root tree) {v : V} (hv : v ∈ root :: tree.map Prod.snd) :
    ∃ l, pathToVertexInTree tree v = .ok (root :: l) ∧ TreePath root tree v l ∧ (root :: l).Nodup ∧
      ∀ c, Branch root tree v c → ∀ x ∈ l, Branch root tree x c := by
  obtain ⟨A, B, hO⟩ := List.append_of_mem hv
  have hlen : A.length < tree.length + 1 := by
    have := congrArg List.length hO
    simp at this; omega
  obtain ⟨l, h1, h2, h3, h4⟩ := climbTree_spec h (tree.length + 1) A v B hO hlen []
  refine ⟨l, by simpa [pathToVertexInTree] using h1, h2, ?_, h4⟩
  have hn := h.nodup
  rw [hO] at hn
  exact List.Nodup.sublist (h3.trans (by simp)) hn

/-- Every vertex other than the root belongs to a branch. -/
theorem IsBfsTree.branch_exists (h : IsBfsTree g root tree) : ∀ (n : Nat) (A : List V) (v : V) (B : List V), A.length ≤ n →
    root :: tree.map Prod.snd = A ++ v :: B → A ≠ [] → ∃ c, Branch root tree v c := by
  intro n
  induction n with
  | zero => intro A v B hl _ hA; exact absurd (List.eq_nil_of_length_eq_zero (by omega)) hA
  | succ n ih =>
    intro A v B hl hO hA
    obtain ⟨p, A', B', hp, rfl⟩ := h.split_parent hO hA
    by_cases hpr : p = root
    · subst hpr
      obtain ⟨c, hc⟩ := List.mem_iff_getElem?.1 (mem_treeSuccessors.2 hp)
      exact ⟨c, .top hc⟩
    · have hA' : A' ≠ [] := by
        rintro rfl
        simp only [List.nil_append, List.cons_append, List.cons.injEq] at hO
        exact hpr hO.1.symm
      obtain ⟨c, hc⟩ := ih A' p (B' ++ v :: B) (by simp at hl; omega) (by rw [hO]; simp) hA'
      exact ⟨c, .step hp hpr hc⟩

theorem IsBfsTree.branch_of_child (h : IsBfsTree g root tree) {v : V} (hv : v ∈ tree.map Prod.snd) : ∃ c, Branch root tree v c := by
  obtain ⟨A, B, hAB⟩ := List.append_of_mem hv
  exact h.branch_exists _ (root :: A) v B le_rfl (by rw [hAB]; simp) (by simp)

omit [DecidableEq V] in
theorem NxWalk.join {A B : List V} {v u : V} (hg : g.WF) (hA : NxWalk g A) (hB : NxWalk g B) (h1 : A.getLast? = some v) (h2 : B.getLast? = some u)
    (hvu : u ∈ g.adj v) : NxWalk g (A ++ B.reverse) := by
  obtain ⟨A', rfl⟩ : ∃ A', A = A' ++ [v] := by
    rcases List.eq_nil_or_concat A with rfl | ⟨m, q, rfl⟩
    · simp at h1
    · simp at h1; exact ⟨m, by simp [h1]⟩
  obtain ⟨B', rfl⟩ : ∃ B', B = B' ++ [u] := by
    rcases List.eq_nil_or_concat B with rfl | ⟨m, q, rfl⟩
    · simp at h2
    · simp at h2; exact ⟨m, by simp [h2]⟩
  have e : A' ++ [v] ++ (B' ++ [u]).reverse = A' ++ v :: (u :: B'.reverse) := by simp
  have e' : u :: B'.reverse = (B' ++ [u]).reverse := by simp
  intro p hp
  rw [e, consec_append, List.mem_append, consec_cons_cons, List.mem_cons, e', consec_reverse] at hp
  rcases hp with hp | rfl | hp
  · exact hA p hp
  · exact hvu
  · simp only [List.mem_reverse, List.mem_map] at hp
    obtain ⟨q, hq, rfl⟩ := hp
    exact hg.symm _ _ (hB q hq)

/-- Two neighbours in different branches close a cycle through the root. -/
theorem cycle_of_branches (hg : g.WF) (h : IsBfsTree g root tree) (hroot : root ∈ g.nodes) {v u : V} {c d : Nat} (hv : Branch root tree v c)
    (hu : Branch root tree u d) (hcd : d ≠ c) (hvu : u ∈ g.adj v) :
    ∃ lv lu m, pathToVertexInTree tree v = .ok lv ∧ pathToVertexInTree tree u = .ok lu ∧
      lv ++ lu.reverse = root :: (m ++ [root]) ∧ NxCycle g (root :: m) ∧
      ∃ l1 l2, TreePath root tree v l1 ∧ TreePath root tree u l2 ∧ m.length = l1.length + l2.length := by
  have child : ∀ {x : V} {k : Nat}, Branch root tree x k → x ∈ root :: tree.map Prod.snd := by
    intro x k hx
    obtain ⟨p, hp⟩ := hx.mem
    exact List.mem_cons_of_mem _ (List.mem_map.2 ⟨_, hp, rfl⟩)
  obtain ⟨l1, h1, h2, h3, h4⟩ := pathToVertexInTree_spec h (child hv)
  obtain ⟨l2, k1, k2, k3, k4⟩ := pathToVertexInTree_spec h (child hu)
  have hne : ∀ {x : V} {k : Nat} {l : List V}, Branch root tree x k → TreePath root tree x l → l ≠ [] := by
    intro x k l hx hl
    rintro rfl
    have := hl.last
    simp at this
    obtain ⟨p, hp⟩ := hx.mem
    exact h.child_ne_root hp this.symm
  have hn1 := hne hv h2
  have hn2 := hne hu k2
  refine ⟨_, _, l1 ++ l2.reverse, h1, k1, by simp, ⟨?_, ?_, ?_, ?_⟩, l1, l2, h2, k2, by simp⟩
  · have a1 := List.length_pos_iff.2 hn1
    have a2 := List.length_pos_iff.2 hn2
    simp; omega
  · rw [List.nodup_cons] at h3 k3 ⊢
    refine ⟨?_, ?_⟩
    · simp [h3.1, k3.1]
    · rw [List.nodup_append]
      refine ⟨h3.2, List.nodup_reverse.2 k3.2, ?_⟩
      rintro a ha b hb rfl
      exact hcd ((k4 d hu a (List.mem_reverse.1 hb)).unique h (h4 c hv a ha))
  · intro x hx
    rcases List.mem_cons.1 hx with rfl | hx
    · exact hroot
    · have : ∃ k, Branch root tree x k := by
        rcases List.mem_append.1 hx with hx | hx
        · exact ⟨c, h4 c hv x hx⟩
        · exact ⟨d, k4 d hu x (List.mem_reverse.1 hx)⟩
      obtain ⟨k, hk⟩ := this
      obtain ⟨p, hp⟩ := hk.mem
      exact (hg.closed _ _ (h.adj _ hp)).2
  · have : root :: (l1 ++ l2.reverse) ++ List.take 1 (root :: (l1 ++ l2.reverse)) = (root :: l1) ++ (root :: l2).reverse := by simp
    rw [this]
    exact NxWalk.join hg (fun e he => h.adj _ (h2.edges e he)) (fun e he => h.adj _ (k2.edges e he)) h2.last k2.last hvu

theorem findOtherColour_spec (colour : V → Option Nat) (c : Nat) (v : V) : ∀ ns : List V, (∀ u ∈ ns, ∃ d, colour u = some d) →
    (∀ x ∈ ns, ∃ l, pathToVertexInTree tree x = .ok l) → (∃ l, pathToVertexInTree tree v = .ok l) →
    (findOtherColour tree colour c v ns = .ok none ∧ ∀ u ∈ ns, colour u = some c) ∨
    ∃ u ∈ ns, ∃ d lv lu, d ≠ c ∧ colour u = some d ∧ pathToVertexInTree tree v = .ok lv ∧ pathToVertexInTree tree u = .ok lu ∧
      findOtherColour tree colour c v ns = .ok (some (lv ++ lu.reverse)) := by
  intro ns
  induction ns with
  | nil => intro _ _ _; exact .inl ⟨rfl, by simp⟩
  | cons u ns ih =>
    intro h1 h2 h3
    obtain ⟨d, hd⟩ := h1 u List.mem_cons_self
    by_cases hdc : d = c
    · subst hdc
      rcases ih (fun x hx => h1 x (List.mem_cons_of_mem _ hx)) (fun x hx => h2 x (List.mem_cons_of_mem _ hx)) h3 with ⟨h4, h5⟩ | ⟨x, hx, h4⟩
      · refine .inl ⟨by simp [findOtherColour, hd, h4], ?_⟩
        intro x hx
        rcases List.mem_cons.1 hx with rfl | hx
        · exact hd
        · exact h5 x hx
      · refine .inr ⟨x, List.mem_cons_of_mem _ hx, ?_⟩
        obtain ⟨e, lv, lu, a1, a2, a3, a4, a5⟩ := h4
        exact ⟨e, lv, lu, a1, a2, a3, a4, by simp [findOtherColour, hd, a5]⟩
    · obtain ⟨lv, hlv⟩ := h3
      obtain ⟨lu, hlu⟩ := h2 u List.mem_cons_self
      exact .inr ⟨u, List.mem_cons_self, d, lv, lu, hdc, hd, hlv, hlu, by simp [findOtherColour, hd, hdc, hlv, hlu, Res.pure_eq]⟩

/-- The invariant of the loop: `P` are the root and the vertices that were taken from the queue `q`. -/
structure CycleInv (g : NxGraph V) (root : V) (tree : List (V × V)) (P q : List V) (colour : V → Option Nat) : Prop where
  nonempty : P ≠ []
  order : P ++ q = root :: P.flatMap (treeSuccessors tree)
  pre : P <+: root :: tree.map Prod.snd
  colour : ∀ v c, colour v = some c ↔ v ∈ P.flatMap (treeSuccessors tree) ∧ Branch root tree v c
  same : ∀ v ∈ P, v ≠ root → ∀ u ∈ g.adj v, u ≠ root → ∃ c, Branch root tree v c ∧ Branch root tree u c

theorem bfsCycleLoop_spec (setOrder : List V → List V) (hset : ∀ l, (setOrder l).Perm l) (hg : g.WF) (h : IsBfsTree g root tree)
    (hroot : root ∈ g.nodes) : ∀ (fuel : Nat) (P q : List V) (colour : V → Option Nat), CycleInv g root tree P q colour →
      tree.length + 2 ≤ fuel + P.length →
      (∃ m, bfsCycleLoop setOrder g tree fuel q colour = .ok (root :: (m ++ [root])) ∧ NxCycle g (root :: m) ∧
        ∃ Q v R u lv lu, root :: tree.map Prod.snd = Q ++ v :: R ∧
          (∀ w ∈ Q, w ≠ root → ∀ u ∈ g.adj w, u ≠ root → ∃ c, Branch root tree w c ∧ Branch root tree u c) ∧
          u ∈ g.adj v ∧ TreePath root tree v lv ∧ TreePath root tree u lu ∧ m.length = lv.length + lu.length) ∨
      (bfsCycleLoop setOrder g tree fuel q colour = .ok [] ∧
        ∀ v ∈ tree.map Prod.snd, ∀ u ∈ g.adj v, u ≠ root → ∃ c, Branch root tree v c ∧ Branch root tree u c) := by
  intro fuel
  induction fuel with
  | zero =>
    intro P q colour hi hf
    have := hi.pre.length_le
    simp at this; omega
  | succ fuel ih =>
    intro P q colour hi hf
    obtain ⟨R, hR⟩ := hi.pre
    have hR2 : R = q ++ R.flatMap (treeSuccessors tree) := by
      have e1 : P ++ R = P ++ (q ++ R.flatMap (treeSuccessors tree)) := by
        have e2 : tree.map Prod.snd = (P ++ R).flatMap (treeSuccessors tree) := by rw [hR]; exact h.grouped
        rw [← List.append_assoc, hi.order, hR, List.cons_append, ← List.flatMap_append, ← e2]
      exact List.append_cancel_left e1
    cases q with
    | nil =>
      right
      refine ⟨by rw [bfsCycleLoop], ?_⟩
      have hR3 : R = [] := by
        cases R with
        | nil => rfl
        | cons r R' =>
          exfalso
          obtain ⟨p, A', B', hp, hP⟩ := h.split_parent hR.symm hi.nonempty
          have hr : r ∈ (r :: R').flatMap (treeSuccessors tree) := by
            have e : r :: R' = (r :: R').flatMap (treeSuccessors tree) := by rw [List.nil_append] at hR2; exact hR2
            rw [← e]; simp
          obtain ⟨p', hp', hpr⟩ := List.mem_flatMap.1 hr
          have e := h.parent_unique hp (mem_treeSuccessors.1 hpr)
          subst e
          have hn := h.nodup
          rw [← hR] at hn
          exact (List.nodup_append.1 hn).2.2 p (by rw [hP]; simp) p hp' rfl
      intro v hv u hu hur
      have hvP : v ∈ P := by
        rw [hR3, List.append_nil] at hR
        rw [hR]; exact List.mem_cons_of_mem _ hv
      have hvr : v ≠ root := by
        obtain ⟨e, he, rfl⟩ := List.mem_map.1 hv
        exact h.child_ne_root (p := e.1) (v := e.2) he
      exact hi.same v hvP hvr u hu hur
    | cons v q =>
      have hO : root :: tree.map Prod.snd = P ++ v :: (q ++ R.flatMap (treeSuccessors tree)) := by
        rw [← hR]; congr 1
      have hvC : v ∈ P.flatMap (treeSuccessors tree) := by
        obtain ⟨r, P', hP⟩ := List.exists_cons_of_ne_nil hi.nonempty
        have e := hi.order
        conv at e => lhs; rw [hP]
        rw [List.cons_append, List.cons.injEq] at e
        rw [← e.2]; simp
      obtain ⟨p, hpP, hpv⟩ := List.mem_flatMap.1 hvC
      rw [mem_treeSuccessors] at hpv
      obtain ⟨c, hc⟩ := h.branch_of_child (List.mem_map.2 ⟨_, hpv, rfl⟩)
      have hvr := h.child_ne_root hpv
      have hcol : colour v = some c := (hi.colour v c).2 ⟨hvC, hc⟩
      have hcol' : ∀ w d, setColours colour (treeSuccessors tree v) c w = some d ↔
          w ∈ (P ++ [v]).flatMap (treeSuccessors tree) ∧ Branch root tree w d := by
        intro w d
        simp only [setColours, List.flatMap_append, List.flatMap_cons, List.flatMap_nil, List.append_nil, List.mem_append]
        by_cases hw : w ∈ treeSuccessors tree v
        · have hb : Branch root tree w c := .step (mem_treeSuccessors.1 hw) hvr hc
          simp only [hw, if_true, Option.some.injEq, or_true, true_and]
          exact ⟨fun e => e ▸ hb, fun e => hb.unique h e⟩
        · simp only [hw, if_false, or_false]
          exact hi.colour w d
      have hnb : ∀ u ∈ g.adj v, u ≠ root → ∃ d, setColours colour (treeSuccessors tree v) c u = some d := by
        intro u hu hur
        rcases h.reached P v _ hO u hu with e | ⟨p', hp', hpu⟩
        · exact absurd e hur
        · obtain ⟨d, hd⟩ := h.branch_of_child (List.mem_map.2 ⟨_, hpu, rfl⟩)
          exact ⟨d, (hcol' u d).2 ⟨List.mem_flatMap.2 ⟨p', hp', mem_treeSuccessors.2 hpu⟩, hd⟩⟩
      have hproot : root ∈ g.adj v → p = root := by
        intro hr
        rcases h.reached [] root (tree.map Prod.snd) rfl v (hg.symm _ _ hr) with e | ⟨p', hp', hpu⟩
        · exact absurd e hvr
        · simp at hp'; rw [← hp']; exact h.parent_unique hpv hpu
      have hns : ∀ u ∈ setOrder ((g.adj v).filter fun u => u ∉ p :: treeSuccessors tree v), u ∈ g.adj v ∧ u ≠ root := by
        intro u hu
        have := (hset _).subset hu
        simp only [List.mem_filter, decide_eq_true_eq, List.mem_cons, not_or] at this
        refine ⟨this.1, ?_⟩
        rintro rfl
        exact this.2.1 (hproot this.1).symm
      have hpath : ∀ x, (∃ d, Branch root tree x d) → ∃ l, pathToVertexInTree tree x = .ok l := by
        rintro x ⟨d, hd⟩
        obtain ⟨p, hp⟩ := hd.mem
        obtain ⟨l, hl, -⟩ := pathToVertexInTree_spec h (List.mem_cons_of_mem root (List.mem_map.2 ⟨_, hp, rfl⟩))
        exact ⟨_, hl⟩
      have hstep : ∀ found, findOtherColour tree (setColours colour (treeSuccessors tree v) c) c v
          (setOrder ((g.adj v).filter fun u => u ∉ p :: treeSuccessors tree v)) = .ok found →
          bfsCycleLoop setOrder g tree (fuel + 1) (v :: q) colour = (match found with
            | some cycle => .ok cycle
            | none => bfsCycleLoop setOrder g tree fuel (q ++ treeSuccessors tree v) (setColours colour (treeSuccessors tree v) c)) := by
        intro found hf
        rw [bfsCycleLoop, hcol, treePredecessors_of_mem h hpv]
        simp only [hf, Res.ok_bind]
        cases found <;> rfl
      rcases findOtherColour_spec (tree := tree) (setColours colour (treeSuccessors tree v) c) c v
        (setOrder ((g.adj v).filter fun u => u ∉ p :: treeSuccessors tree v)) (fun u hu => hnb u (hns u hu).1 (hns u hu).2)
        (fun u hu => by
          obtain ⟨d, hd⟩ := hnb u (hns u hu).1 (hns u hu).2
          exact hpath u ⟨d, ((hcol' u d).1 hd).2⟩) (hpath v ⟨c, hc⟩) with ⟨h1, h2⟩ | ⟨u, hu, d, lv, lu, h1, h2, h3, h4, h5⟩
      · rw [hstep none h1]
        refine ih (P ++ [v]) (q ++ treeSuccessors tree v) _ ⟨by simp, ?_, ⟨q ++ R.flatMap (treeSuccessors tree), by rw [hO]; simp⟩, hcol', ?_⟩ (by simp; omega)
        · have e := hi.order
          have : P ++ [v] ++ (q ++ treeSuccessors tree v) = (P ++ v :: q) ++ treeSuccessors tree v := by simp
          rw [this, e]; simp
        · intro w hw hwr u hu hur
          rcases List.mem_append.1 hw with hw | hw
          · exact hi.same w hw hwr u hu hur
          · simp only [List.mem_singleton] at hw
            subst hw
            refine ⟨c, hc, ?_⟩
            by_cases hmem : u ∈ p :: treeSuccessors tree w
            · rcases List.mem_cons.1 hmem with rfl | hmem
              · cases hc with
                | top ht => exact absurd (h.parent_unique hpv (mem_treeSuccessors.1 (List.mem_of_getElem? ht))) hur
                | step hq _ hb => rw [h.parent_unique hpv hq]; exact hb
              · exact .step (mem_treeSuccessors.1 hmem) hvr hc
            · have : u ∈ setOrder ((g.adj w).filter fun u => u ∉ p :: treeSuccessors tree w) :=
                (hset _).mem_iff.2 (by simp only [List.mem_filter, decide_eq_true_eq]; exact ⟨hu, hmem⟩)
              exact ((hcol' u c).1 (h2 u this)).2
      · left
        rw [hstep _ h5]
        obtain ⟨lv', lu', m, k1, k2, k3, k4, l1, l2, k5, k6, k7⟩ := cycle_of_branches hg h hroot hc ((hcol' u d).1 h2).2 h1 (hns u hu).1
        rw [h3] at k1; rw [h4] at k2
        injection k1 with k1; injection k2 with k2
        subst k1 k2
        exact ⟨m, by simp only [k3], k4, P, v, _, u, l1, l2, hO, hi.same, (hns u hu).1, k5, k6, k7⟩

omit [DecidableEq V] in
/-- A cycle can be started at any of its vertices. -/
theorem NxCycle.rotate {vs : List V} (h : NxCycle g vs) {u : V} (hu : u ∈ vs) : ∃ m, NxCycle g (u :: m) ∧ (u :: m).Perm vs := by
  obtain ⟨A, B, rfl⟩ := List.append_of_mem hu
  have hp : (u :: (B ++ A)).Perm (A ++ u :: B) := by
    rw [← List.cons_append]; exact List.perm_append_comm
  refine ⟨B ++ A, ⟨?_, hp.nodup_iff.2 h.nodup, fun v hv => h.inside v (hp.subset hv), ?_⟩, hp⟩
  · have := hp.length_eq
    have := h.long
    omega
  · cases A with
    | nil => simpa [NxWalk] using h.closed
    | cons a A =>
      have h1 := h.closed
      intro p hp
      apply h1
      have e1 : a :: A ++ u :: B ++ List.take 1 (a :: A ++ u :: B) = a :: A ++ u :: (B ++ [a]) := by simp
      have e2 : u :: (B ++ a :: A) ++ List.take 1 (u :: (B ++ a :: A)) = (u :: B) ++ a :: (A ++ [u]) := by simp
      rw [e1, consec_append]
      rw [e2, consec_append] at hp
      simp only [List.mem_append, List.cons_append] at hp ⊢
      tauto

/-- Without an edge between two branches the root is on no cycle. -/
theorem no_cycle_of_same (h : IsBfsTree g root tree) (hg : g.WF)
    (hs : ∀ v ∈ tree.map Prod.snd, ∀ u ∈ g.adj v, u ≠ root → ∃ c, Branch root tree v c ∧ Branch root tree u c) {vs : List V}
    (hv : NxCycle g vs) : root ∉ vs := by
  intro hr
  obtain ⟨m, hm, -⟩ := hv.rotate hr
  have hlong := hm.long
  have hnd := hm.nodup
  have hcl := hm.closed
  -- the second and the last vertex
  obtain ⟨a, k, b, rfl⟩ : ∃ a k b, m = a :: (k ++ [b]) := by
    cases m with
    | nil => simp at hlong
    | cons a m =>
      rcases List.eq_nil_or_concat m with rfl | ⟨k, b, rfl⟩
      · simp at hlong
      · exact ⟨a, k, b, by simp⟩
  have htop : ∀ x, x ∈ g.adj root → x ≠ root → ∃ c : Nat, (treeSuccessors tree root)[c]? = some x := by
    intro x hx hxr
    rcases h.reached [] root _ rfl x hx with e | ⟨p, hp, hpx⟩
    · exact absurd e hxr
    · simp at hp; subst hp
      exact List.mem_iff_getElem?.1 (mem_treeSuccessors.2 hpx)
  have hw : NxWalk g (a :: (k ++ [b])) := by
    intro p hp
    apply hcl
    have e : root :: a :: (k ++ [b]) ++ List.take 1 (root :: a :: (k ++ [b])) = (root :: a :: k) ++ b :: [root] := by simp
    have e' : root :: a :: k ++ [b] = root :: a :: (k ++ [b]) := by simp
    rw [e, consec_append, List.mem_append, e', consec_cons_cons]
    exact .inl (List.mem_cons_of_mem _ hp)
  have hra : a ∈ g.adj root := hcl (root, a) (by simp)
  have hbr : root ∈ g.adj b := by
    refine hcl (b, root) ?_
    have e : root :: a :: (k ++ [b]) ++ List.take 1 (root :: a :: (k ++ [b])) = (root :: a :: k) ++ b :: [root] := by simp
    rw [e, consec_append]; simp
  have hnr : ∀ x ∈ a :: (k ++ [b]), x ≠ root := by
    rintro x hx rfl
    exact (List.nodup_cons.1 hnd).1 hx
  obtain ⟨ca, hca⟩ := htop a hra (hnr a (by simp))
  obtain ⟨cb, hcb⟩ := htop b (hg.symm _ _ hbr) (hnr b (by simp))
  have hall : ∀ (l : List V) (x : V), NxWalk g (x :: l) → (∀ y ∈ x :: l, y ≠ root) → Branch root tree x ca → ∀ y ∈ x :: l, Branch root tree y ca := by
    intro l
    induction l with
    | nil => intro x _ _ hx y hy; simp at hy; rw [hy]; exact hx
    | cons z l ih =>
      intro x hw hne hx y hy
      rcases List.mem_cons.1 hy with rfl | hy
      · exact hx
      · obtain ⟨p, hp⟩ := hx.mem
        obtain ⟨c, h1, h2⟩ := hs x (List.mem_map.2 ⟨_, hp, rfl⟩) z (hw (x, z) (by simp)) (hne z (by simp))
        have : c = ca := h1.unique h hx
        subst this
        exact ih z (fun p hp => hw p (by rw [consec_cons_cons]; exact List.mem_cons_of_mem _ hp)) (fun w hw => hne w (List.mem_cons_of_mem _ hw)) h2 y hy
  have hb := hall _ a hw hnr (.top hca) b (by simp)
  have : cb = ca := (Branch.top hcb).unique h hb
  subst this
  rw [hca] at hcb
  injection hcb with hab
  subst hab
  simp at hnd

/-- The invariant holds at the start. -/
theorem cycleInv_init (h : IsBfsTree g root tree) :
    CycleInv g root tree [root] (treeSuccessors tree root) (rootColours (treeSuccessors tree root)) where
  nonempty := by simp
  order := by simp
  pre := ⟨tree.map Prod.snd, by simp⟩
  colour := by
    intro v c
    simp only [rootColours, List.flatMap_cons, List.flatMap_nil, List.append_nil]
    constructor
    · intro hc
      have hc' : (treeSuccessors tree root)[c]? = some v := by
        rw [List.idxOf?_eq_some_iff] at hc
        obtain ⟨h1, h2, -⟩ := hc
        rw [List.getElem?_eq_getElem h1, h2]
      exact ⟨List.mem_of_getElem? hc', .top hc'⟩
    · rintro ⟨hv, hb⟩
      cases hi : (treeSuccessors tree root).idxOf? v with
      | none => exact absurd hv (List.idxOf?_eq_none_iff.1 hi)
      | some d =>
        rw [List.idxOf?_eq_some_iff] at hi
        obtain ⟨h1, h2, -⟩ := hi
        have : (treeSuccessors tree root)[d]? = some v := by rw [List.getElem?_eq_getElem h1, h2]
        rw [(Branch.top this).unique h hb]
  same := by
    intro v hv hvr
    simp at hv
    exact absurd hv hvr

/-- `v` is `n` tree edges away from the root. -/
inductive HasDepth (root : V) (tree : List (V × V)) : V → Nat → Prop
  | root : HasDepth root tree root 0
  | step {p v : V} {n : Nat} (h : (p, v) ∈ tree) (hp : HasDepth root tree p n) : HasDepth root tree v (n + 1)

theorem HasDepth.unique (h : IsBfsTree g root tree) {v : V} {m n : Nat} (h1 : HasDepth root tree v m) (h2 : HasDepth root tree v n) : m = n := by
  induction h1 generalizing n with
  | root =>
    cases h2 with
    | root => rfl
    | step hp _ => exact absurd rfl (h.child_ne_root hp)
  | step hp _ ih =>
    cases h2 with
    | root => exact absurd rfl (h.child_ne_root hp)
    | step hq hd =>
      have := h.parent_unique hp hq
      subst this
      rw [ih hd]

omit [DecidableEq V] in
theorem TreePath.hasDepth : ∀ {l : List V} {x v : V} {n : Nat}, HasDepth root tree x n → (x :: l).getLast? = some v →
    (∀ e ∈ consec (x :: l), e ∈ tree) → HasDepth root tree v (n + l.length) := by
  intro l
  induction l with
  | nil => intro x v n hx hv _; simp at hv; subst hv; exact hx
  | cons y l ih =>
    intro x v n hx hv he
    rw [List.getLast?_cons_cons] at hv
    have := ih (.step (he (x, y) (by simp)) hx) hv (fun e hm => he e (by rw [consec_cons_cons]; exact List.mem_cons_of_mem _ hm))
    rw [List.length_cons]
    convert this using 1
    omega

theorem IsBfsTree.depth_exists (h : IsBfsTree g root tree) {v : V} (hv : v ∈ root :: tree.map Prod.snd) : ∃ n, HasDepth root tree v n := by
  obtain ⟨l, -, hl, -⟩ := pathToVertexInTree_spec h hv
  exact ⟨_, TreePath.hasDepth .root hl.last hl.edges⟩

/-- The parents of vertices reached one after the other were reached in the same order. -/
theorem IsBfsTree.parents_ordered (h : IsBfsTree g root tree) {A B C : List V} {x y p q : V}
    (hO : root :: tree.map Prod.snd = A ++ x :: (B ++ y :: C)) (hp : (p, x) ∈ tree) (hq : (q, y) ∈ tree) :
    p = q ∨ ∃ A' B' C', root :: tree.map Prod.snd = A' ++ p :: (B' ++ q :: C') := by
  have hcs : root :: tree.map Prod.snd = root :: (root :: tree.map Prod.snd).flatMap (treeSuccessors tree) := by
    congr 1; exact h.grouped
  have memO : ∀ {a b : V}, (a, b) ∈ tree → a ∈ root :: tree.map Prod.snd := by
    intro a b hab
    obtain ⟨T1, T2, hT⟩ := List.append_of_mem hab
    have := h.parents T1 _ T2 hT
    rw [hT, List.map_append]
    rcases List.mem_cons.1 this with e | e
    · exact List.mem_cons.2 (.inl e)
    · exact List.mem_cons_of_mem _ (List.mem_append_left _ e)
  by_cases hpq : p = q
  · exact .inl hpq
  · right
    obtain ⟨D, E, hDE⟩ := List.append_of_mem (memO hp)
    have hqD : q ∈ D ∨ q ∈ E := by
      have := memO hq
      rw [hDE] at this
      simp only [List.mem_append, List.mem_cons] at this
      rcases this with h1 | h1 | h1
      · exact .inl h1
      · exact absurd h1.symm hpq
      · exact .inr h1
    rcases hqD with hqD | hqE
    · -- then `y` would be reached before `x`
      exfalso
      obtain ⟨D1, D2, rfl⟩ := List.append_of_mem hqD
      have hn := h.nodup
      have hgr : tree.map Prod.snd = (root :: tree.map Prod.snd).flatMap (treeSuccessors tree) := h.grouped
      rw [hDE] at hgr
      simp only [List.append_assoc, List.cons_append, List.flatMap_append, List.flatMap_cons] at hgr
      obtain ⟨y1, y2, hy⟩ := List.append_of_mem (mem_treeSuccessors.2 hq)
      obtain ⟨x1, x2, hx⟩ := List.append_of_mem (mem_treeSuccessors.2 hp)
      rw [hy, hx] at hgr
      have hn2 := hn
      rw [hgr] at hn
      rw [hO] at hn2
      -- both orders of `x` and `y`
      have o1 : List.Sublist [x, y] (A ++ x :: (B ++ y :: C)) := by
        refine List.Sublist.trans ?_ (List.sublist_append_right A _)
        refine List.Sublist.cons_cons _ ?_
        refine List.Sublist.trans ?_ (List.sublist_append_right B _)
        exact List.Sublist.cons_cons _ (List.nil_sublist _)
      have o2 : List.Sublist [y, x] (root :: tree.map Prod.snd) := by
        refine List.Sublist.cons _ ?_
        rw [hgr]
        refine List.Sublist.trans ?_ (List.sublist_append_right _ _)
        simp only [List.append_assoc, List.cons_append]
        refine List.Sublist.trans ?_ (List.sublist_append_right _ _)
        refine List.Sublist.cons_cons _ ?_
        refine List.Sublist.trans ?_ (List.sublist_append_right _ _)
        refine List.Sublist.trans ?_ (List.sublist_append_right _ _)
        refine List.Sublist.trans ?_ (List.sublist_append_right _ _)
        exact List.Sublist.cons_cons _ (List.nil_sublist _)
      rw [hO] at o2
      have hxy : x ≠ y := by
        rintro rfl
        have := List.Nodup.sublist o1 hn2
        simp at this
      have key : ∀ (l : List V), l.Nodup → List.Sublist [x, y] l → List.Sublist [y, x] l → x = y := by
        intro l
        induction l with
        | nil => intro _ h; simp at h
        | cons z l ih =>
          intro hnd h1 h2
          have hnd' := List.nodup_cons.1 hnd
          cases h1 with
          | cons _ h1 =>
            cases h2 with
            | cons _ h2 => exact ih hnd'.2 h1 h2
            | cons_cons _ h2 => exact absurd (h1.subset (by simp)) hnd'.1
          | cons_cons _ h1 =>
            cases h2 with
            | cons _ h2 => exact absurd (h2.subset (by simp)) hnd'.1
            | cons_cons _ h2 => rfl
      exact hxy (key _ hn2 o1 o2)
    · obtain ⟨E1, E2, rfl⟩ := List.append_of_mem hqE
      exact ⟨D, E1, E2, hDE⟩

/-- Vertices are reached in the order of their distance from the root in the tree. -/
theorem IsBfsTree.depth_mono (h : IsBfsTree g root tree) : ∀ (n : Nat) {A B C : List V} {x y : V} {dx dy : Nat},
    A.length ≤ n → root :: tree.map Prod.snd = A ++ x :: (B ++ y :: C) → HasDepth root tree x dx → HasDepth root tree y dy → dx ≤ dy := by
  intro n
  induction n with
  | zero =>
    intro A B C x y dx dy hl hO hx _
    have : A = [] := List.eq_nil_of_length_eq_zero (by omega)
    subst this
    simp only [List.nil_append, List.cons.injEq] at hO
    obtain ⟨rfl, -⟩ := hO
    rw [hx.unique h .root]; exact Nat.zero_le _
  | succ n ih =>
    intro A B C x y dx dy hl hO hx hy
    cases hx with
    | root => exact Nat.zero_le _
    | @step p _ dp hp hdp =>
      cases hy with
      | root =>
        exfalso
        have hn := h.nodup
        have hO' := hO
        cases A with
        | nil =>
          simp only [List.nil_append, List.cons.injEq] at hO
          exact h.child_ne_root hp hO.1.symm
        | cons a A =>
          simp only [List.cons_append, List.cons.injEq] at hO
          obtain ⟨rfl, hO⟩ := hO
          rw [hO] at hn
          exact (List.nodup_cons.1 hn).1 (by simp)
      | @step q _ dq hq hdq =>
        rcases h.parents_ordered hO hp hq with rfl | ⟨A', B', C', hO'⟩
        · rw [hdp.unique h hdq]
        · have hne : A ≠ [] := by
            rintro rfl
            simp only [List.nil_append, List.cons.injEq] at hO
            exact h.child_ne_root hp hO.1.symm
          obtain ⟨p', A1, A2, hp', hA⟩ := h.split_parent hO hne
          have := h.parent_unique hp' hp
          subst this
          have hlen : A'.length ≤ n := by
            have hn := h.nodup
            have e : A' ++ p' :: (B' ++ q :: C') = A1 ++ p' :: (A2 ++ x :: (B ++ y :: C)) := by
              rw [← hO', hO, hA]; simp
            have : A' = A1 := by
              rw [hO'] at hn
              have hn' := hn
              rw [e] at hn'
              have h1 : p' ∉ A' := by
                intro hm
                exact (List.nodup_append.1 hn).2.2 p' hm p' (by simp) rfl
              have h2 : p' ∉ A1 := by
                intro hm
                exact (List.nodup_append.1 hn').2.2 p' hm p' (by simp) rfl
              have t1 : (A' ++ p' :: (B' ++ q :: C')).takeWhile (· ≠ p') = A' := by
                rw [List.takeWhile_append_of_pos (by intro z hz; simp; rintro rfl; exact h1 hz)]; simp
              have t2 : (A1 ++ p' :: (A2 ++ x :: (B ++ y :: C))).takeWhile (· ≠ p') = A1 := by
                rw [List.takeWhile_append_of_pos (by intro z hz; simp; rintro rfl; exact h2 hz)]; simp
              rw [← t1, e, t2]
            rw [this]
            rw [hA] at hl
            simp at hl; omega
          exact Nat.succ_le_succ (ih hlen hO' hdp hdq)

/-- Depths of neighbours differ by at most one. -/
theorem IsBfsTree.depth_adj (h : IsBfsTree g root tree) {v u : V} {dv du : Nat} (hv : HasDepth root tree v dv) (hu : HasDepth root tree u du)
    (hvu : u ∈ g.adj v) : du ≤ dv + 1 := by
  have hm : v ∈ root :: tree.map Prod.snd := by
    cases hv with
    | root => simp
    | step hp _ => exact List.mem_cons_of_mem _ (List.mem_map.2 ⟨_, hp, rfl⟩)
  obtain ⟨A, B, hO⟩ := List.append_of_mem hm
  rcases h.reached A v B hO u hvu with rfl | ⟨p, hp, hpu⟩
  · rw [hu.unique h .root]; omega
  · cases hu with
    | root => exact absurd rfl (h.child_ne_root hpu)
    | step hq hd =>
      have := h.parent_unique hq hpu
      subst this
      rcases List.mem_append.1 hp with hp | hp
      · obtain ⟨A1, A2, rfl⟩ := List.append_of_mem hp
        exact Nat.succ_le_succ (h.depth_mono (A := A1) (B := A2) (C := B) _ le_rfl (by rw [hO]; simp) hd hv)
      · simp at hp; subst hp
        rw [hd.unique h hv]

/-- A walk from a vertex to another one has at least as many steps as the difference of the depths. -/
theorem IsBfsTree.walk_depth (h : IsBfsTree g root tree) : ∀ {l : List V} {x v : V} {dx dv : Nat}, NxWalk g (x :: l) →
    (x :: l).getLast? = some v → HasDepth root tree x dx → HasDepth root tree v dv → dv ≤ dx + l.length := by
  intro l
  induction l with
  | nil => intro x v dx dv _ hv h1 h2; simp at hv; subst hv; rw [h1.unique h h2]; simp
  | cons y l ih =>
    intro x v dx dv hw hv h1 h2
    rw [List.getLast?_cons_cons] at hv
    have hy : y ∈ g.adj x := hw (x, y) (by simp)
    have hm : x ∈ root :: tree.map Prod.snd := by
      cases h1 with
      | root => simp
      | step hp _ => exact List.mem_cons_of_mem _ (List.mem_map.2 ⟨_, hp, rfl⟩)
    obtain ⟨A, B, hO⟩ := List.append_of_mem hm
    have hym : y ∈ root :: tree.map Prod.snd := by
      rcases h.reached A x B hO y hy with rfl | ⟨p, -, hp⟩
      · simp
      · exact List.mem_cons_of_mem _ (List.mem_map.2 ⟨_, hp, rfl⟩)
    obtain ⟨dy, hdy⟩ := h.depth_exists hym
    have e1 := ih (fun p hp => hw p (by rw [consec_cons_cons]; exact List.mem_cons_of_mem _ hp)) hv hdy h2
    have e2 := h.depth_adj h1 hdy hy
    simp; omega

/-- A cycle through the root has an edge between two branches. -/
theorem cycle_crosses (h : IsBfsTree g root tree) (hg : g.WF) {a b : V} {k : List V} (hm : NxCycle g (root :: a :: (k ++ [b]))) :
    ∃ A x y B, a :: (k ++ [b]) = A ++ x :: y :: B ∧ ¬ ∃ c, Branch root tree x c ∧ Branch root tree y c := by
  by_contra hno
  have hsame : ∀ A x y B, a :: (k ++ [b]) = A ++ x :: y :: B → ∃ c, Branch root tree x c ∧ Branch root tree y c := by
    intro A x y B e
    by_contra hc
    exact hno ⟨A, x, y, B, e, hc⟩
  have hcl := hm.closed
  have hnd := hm.nodup
  have htop : ∀ x, x ∈ g.adj root → x ≠ root → ∃ c : Nat, (treeSuccessors tree root)[c]? = some x := by
    intro x hx hxr
    rcases h.reached [] root _ rfl x hx with e | ⟨p, hp, hpx⟩
    · exact absurd e hxr
    · simp at hp; subst hp
      exact List.mem_iff_getElem?.1 (mem_treeSuccessors.2 hpx)
  have hra : a ∈ g.adj root := hcl (root, a) (by simp)
  have hbr : root ∈ g.adj b := by
    refine hcl (b, root) ?_
    have e : root :: a :: (k ++ [b]) ++ List.take 1 (root :: a :: (k ++ [b])) = (root :: a :: k) ++ b :: [root] := by simp
    rw [e, consec_append]; simp
  have hnr : ∀ x ∈ a :: (k ++ [b]), x ≠ root := by
    rintro x hx rfl
    exact (List.nodup_cons.1 hnd).1 hx
  obtain ⟨ca, hca⟩ := htop a hra (hnr a (by simp))
  obtain ⟨cb, hcb⟩ := htop b (hg.symm _ _ hbr) (hnr b (by simp))
  have hall : ∀ (B A : List V) (x : V), a :: (k ++ [b]) = A ++ x :: B → Branch root tree x ca → ∀ y ∈ x :: B, Branch root tree y ca := by
    intro B
    induction B with
    | nil => intro A x _ hx y hy; simp at hy; rw [hy]; exact hx
    | cons z B ih =>
      intro A x e hx y hy
      rcases List.mem_cons.1 hy with rfl | hy
      · exact hx
      · obtain ⟨c, h1, h2⟩ := hsame A x z B e
        have : c = ca := h1.unique h hx
        subst this
        exact ih (A ++ [x]) z (by rw [e]; simp) h2 y hy
  have hb := hall (k ++ [b]) [] a rfl (.top hca) b (by simp)
  have : cb = ca := (Branch.top hcb).unique h hb
  subst this
  rw [hca] at hcb
  injection hcb with hab
  subst hab
  simp at hnd

omit [DecidableEq V] in
theorem cycle_ends {m : List V} (hm : NxCycle g (root :: m)) : ∃ a k b, m = a :: (k ++ [b]) := by
  have hlong := hm.long
  cases m with
  | nil => simp at hlong
  | cons a m =>
    rcases List.eq_nil_or_concat m with rfl | ⟨k, b, rfl⟩
    · simp at hlong
    · exact ⟨a, k, b, by simp⟩

/-- Before the first edge between branches is met at `v`, the cycles through the root have at least `2 d + 1` vertices, `d` the depth of `v`. -/
theorem cycle_length_ge (h : IsBfsTree g root tree) (hg : g.WF) {Q R : List V} {v : V} {d : Nat} (hO : root :: tree.map Prod.snd = Q ++ v :: R)
    (hs : ∀ w ∈ Q, w ≠ root → ∀ u ∈ g.adj w, u ≠ root → ∃ c, Branch root tree w c ∧ Branch root tree u c)
    (hd : HasDepth root tree v d) {m : List V} (hm : NxCycle g (root :: m)) : 2 * d ≤ m.length := by
  obtain ⟨a, k, b, rfl⟩ := cycle_ends hm
  obtain ⟨A, x, y, B, hs', hno⟩ := cycle_crosses h hg hm
  have hnr : ∀ z ∈ a :: (k ++ [b]), z ≠ root := by
    rintro z hz rfl
    exact (List.nodup_cons.1 hm.nodup).1 hz
  have hclosed : root :: a :: (k ++ [b]) ++ List.take 1 (root :: a :: (k ++ [b])) = (root :: A) ++ x :: y :: (B ++ [root]) := by
    rw [hs']; simp
  have hw := hm.closed
  rw [hclosed] at hw
  have hxy : y ∈ g.adj x := hw (x, y) (by rw [consec_append]; simp)
  have hwx : NxWalk g (root :: (A ++ [x])) := by
    intro p hp
    apply hw
    rw [consec_append, List.mem_append]
    exact .inl (by simpa using hp)
  have hwy : NxWalk g (root :: (B.reverse ++ [y])) := by
    intro p hp
    have e : root :: (B.reverse ++ [y]) = (y :: (B ++ [root])).reverse := by simp
    rw [e, consec_reverse, List.mem_reverse, List.mem_map] at hp
    obtain ⟨q, hq, rfl⟩ := hp
    refine hg.symm _ _ (hw q ?_)
    rw [consec_append, List.mem_append, consec_cons_cons]
    exact .inr (List.mem_cons_of_mem _ hq)
  have reach : ∀ (l : List V) (z : V), z ∈ root :: tree.map Prod.snd → NxWalk g (z :: l) → ∀ w ∈ z :: l, w ∈ root :: tree.map Prod.snd := by
    intro l
    induction l with
    | nil => intro z hz _ w hw; simp at hw; rw [hw]; exact hz
    | cons z' l ih =>
      intro z hz hw w hm
      rcases List.mem_cons.1 hm with rfl | hm
      · exact hz
      · obtain ⟨A, B, hO⟩ := List.append_of_mem hz
        refine ih z' ?_ (fun p hp => hw p (by rw [consec_cons_cons]; exact List.mem_cons_of_mem _ hp)) w hm
        rcases h.reached A z B hO z' (hw (z, z') (by simp)) with rfl | ⟨p, -, hp⟩
        · simp
        · exact List.mem_cons_of_mem _ (List.mem_map.2 ⟨_, hp, rfl⟩)
  have hxm := reach _ root (by simp) hwx x (by simp)
  have hym := reach _ root (by simp) hwy y (by simp)
  obtain ⟨dx, hdx⟩ := h.depth_exists hxm
  obtain ⟨dy, hdy⟩ := h.depth_exists hym
  have hxr : x ≠ root := hnr x (by rw [hs']; simp)
  have hyr : y ≠ root := hnr y (by rw [hs']; simp)
  have late : ∀ z dz, z ∈ root :: tree.map Prod.snd → z ∉ Q → HasDepth root tree z dz → d ≤ dz := by
    intro z dz hz hzQ hdz
    rw [hO] at hz
    rcases List.mem_append.1 hz with hz | hz
    · exact absurd hz hzQ
    · rcases List.mem_cons.1 hz with rfl | hz
      · rw [hd.unique h hdz]
      · obtain ⟨R1, R2, rfl⟩ := List.append_of_mem hz
        exact h.depth_mono _ le_rfl hO hd hdz
  have hxQ : x ∉ Q := fun hx => hno (hs x hx hxr y hxy hyr)
  have hyQ : y ∉ Q := by
    intro hy
    obtain ⟨c, h1, h2⟩ := hs y hy hyr x (hg.symm _ _ hxy) hxr
    exact hno ⟨c, h2, h1⟩
  have e1 := late x dx hxm hxQ hdx
  have e2 := late y dy hym hyQ hdy
  have e3 := h.walk_depth hwx (by rw [← List.cons_append, List.getLast?_append]; simp) .root hdx
  have e4 := h.walk_depth hwy (by rw [← List.cons_append, List.getLast?_append]; simp) .root hdy
  rw [hs']
  simp at e3 e4 ⊢
  omega

/-- The invariant of networkx' search: `P` are the vertices taken from the queue `q`. -/
structure BfsInv (g : NxGraph V) (root : V) (tree : List (V × V)) (P q : List V) : Prop where
  order : P ++ q = root :: tree.map Prod.snd
  nodup : (root :: tree.map Prod.snd).Nodup
  adj : ∀ e ∈ tree, e.2 ∈ g.adj e.1
  fst : ∀ e ∈ tree, e.1 ∈ P
  grouped : tree.map Prod.snd = P.flatMap (treeSuccessors tree)
  parents : ∀ A e B, tree = A ++ e :: B → e.1 ∈ root :: A.map Prod.snd
  reached : ∀ A v B, P = A ++ v :: B → ∀ u ∈ g.adj v, u = root ∨ ∃ p ∈ A ++ [v], (p, u) ∈ tree

theorem nxBfsLoop_spec (hg : g.WF) (hroot : root ∈ g.nodes) : ∀ (fuel : Nat) (tree : List (V × V)) (P q : List V), BfsInv g root tree P q →
    g.nodes.length < fuel + P.length → IsBfsTree g root (nxBfsLoop g root fuel q tree) := by
  intro fuel
  induction fuel with
  | zero =>
    intro tree P q hi hf
    exfalso
    have hsub : (root :: tree.map Prod.snd) ⊆ g.nodes := by
      intro x hx
      rcases List.mem_cons.1 hx with rfl | hx
      · exact hroot
      · obtain ⟨e, he, rfl⟩ := List.mem_map.1 hx
        exact (hg.closed _ _ (hi.adj e he)).2
    have h1 := (List.subperm_of_subset hi.nodup hsub).length_le
    have h2 := congrArg List.length hi.order
    simp only [List.length_append] at h2
    omega
  | succ fuel ih =>
    intro tree P q hi hf
    cases q with
    | nil =>
      have ho := hi.order
      rw [List.append_nil] at ho
      rw [nxBfsLoop]
      exact ⟨hi.nodup, hi.adj, by conv_lhs => rw [hi.grouped, ho]
                                  rfl, hi.parents, fun A v B hs => hi.reached A v B (ho.trans hs)⟩
    | cons v q =>
      rw [nxBfsLoop]
      generalize hnew : (g.adj v).filter (fun u => u ∉ root :: tree.map Prod.snd) = new
      have hmem : ∀ u, u ∈ new ↔ u ∈ g.adj v ∧ u ∉ root :: tree.map Prod.snd := by
        intro u; rw [← hnew]; simp [List.mem_filter]
      have hnn : new.Nodup := by rw [← hnew]; exact (hg.adjNodup v).filter _
      have hsnd : (tree ++ new.map fun u => (v, u)).map Prod.snd = tree.map Prod.snd ++ new := by
        rw [List.map_append, List.map_map]
        congr 1
        exact List.map_id _
      have hvP : v ∉ P := by
        intro hv
        have := hi.nodup
        rw [← hi.order] at this
        exact (List.nodup_append.1 this).2.2 v hv v (by simp) rfl
      have hvt : v ∈ root :: tree.map Prod.snd := by rw [← hi.order]; simp
      have hsucc : ∀ x, treeSuccessors (tree ++ new.map fun u => (v, u)) x = treeSuccessors tree x ++ (if x = v then new else []) := by
        intro x
        simp only [treeSuccessors, List.filter_append, List.map_append, List.filter_map, List.map_map]
        congr 1
        by_cases hx : x = v
        · subst hx
          simp only [if_true]
          rw [List.filter_eq_self.2 (by simp)]
          exact List.map_id _
        · simp only [hx, if_false]
          rw [List.filter_eq_nil_iff.2 (by intro a _; simp [Ne.symm hx])]
          rfl
      have hsuccv : treeSuccessors tree v = [] := by
        simp only [treeSuccessors, List.map_eq_nil_iff, List.filter_eq_nil_iff, decide_eq_true_eq]
        intro e he hev
        exact hvP (hev ▸ hi.fst e he)
      refine ih _ (P ++ [v]) _ ⟨?_, ?_, ?_, ?_, ?_, ?_, ?_⟩ (by simp; omega)
      · rw [hsnd, ← List.cons_append, ← hi.order]; simp
      · rw [hsnd, ← List.cons_append, List.nodup_append]
        refine ⟨hi.nodup, hnn, ?_⟩
        rintro a ha b hb rfl
        exact ((hmem a).1 hb).2 ha
      · intro e he
        rcases List.mem_append.1 he with he | he
        · exact hi.adj e he
        · obtain ⟨u, hu, rfl⟩ := List.mem_map.1 he
          exact ((hmem u).1 hu).1
      · intro e he
        rcases List.mem_append.1 he with he | he
        · exact List.mem_append_left _ (hi.fst e he)
        · obtain ⟨u, hu, rfl⟩ := List.mem_map.1 he
          simp
      · rw [hsnd, List.flatMap_append, hi.grouped]
        congr 1
        · rw [← hi.grouped, hi.grouped]
          apply List.flatMap_congr
          intro x hx
          rw [hsucc, if_neg (by rintro rfl; exact hvP hx), List.append_nil]
        · simp [hsucc, hsuccv]
      · intro A e B hs
        rcases List.append_eq_append_iff.1 hs with ⟨C, h1, h2⟩ | ⟨C, h1, h2⟩
        · -- the edge is a new one
          have he : e ∈ new.map fun u => (v, u) := by rw [h2]; simp
          obtain ⟨u, hu, rfl⟩ := List.mem_map.1 he
          rw [h1, List.map_append]
          rcases List.mem_cons.1 hvt with h | h
          · rw [h]; simp
          · exact List.mem_cons_of_mem _ (List.mem_append_left _ h)
        · cases C with
          | nil =>
            simp only [List.append_nil, List.nil_append] at h1 h2
            have he : e ∈ new.map fun u => (v, u) := by rw [← h2]; simp
            obtain ⟨u, hu, rfl⟩ := List.mem_map.1 he
            rw [← h1]; exact hvt
          | cons d C =>
            simp only [List.cons_append, List.cons.injEq] at h2
            obtain ⟨rfl, -⟩ := h2
            exact hi.parents A e C h1
      · intro A w B hs u hu
        rcases List.append_eq_append_iff.1 hs with ⟨C, h1, h2⟩ | ⟨C, h1, h2⟩
        · -- the vertex is the new one
          have hC : C = [] ∧ w = v ∧ B = [] := by
            cases C with
            | nil => simp at h2; exact ⟨rfl, h2.1.symm, h2.2⟩
            | cons c C => simp at h2
          obtain ⟨rfl, rfl, rfl⟩ := hC
          by_cases hur : u ∈ root :: tree.map Prod.snd
          · rcases List.mem_cons.1 hur with h | h
            · exact .inl h
            · obtain ⟨e, he, rfl⟩ := List.mem_map.1 h
              refine .inr ⟨e.1, ?_, List.mem_append_left _ he⟩
              rw [h1]
              exact List.mem_append_left _ (by simpa using hi.fst e he)
          · exact .inr ⟨w, by simp, List.mem_append_right _ (List.mem_map.2 ⟨u, (hmem u).2 ⟨hu, hur⟩, rfl⟩)⟩
        · cases C with
          | nil =>
            simp only [List.append_nil, List.nil_append, List.cons.injEq] at h1 h2
            obtain ⟨rfl, rfl⟩ := h2
            by_cases hur : u ∈ root :: tree.map Prod.snd
            · rcases List.mem_cons.1 hur with h | h
              · exact .inl h
              · obtain ⟨e, he, rfl⟩ := List.mem_map.1 h
                refine .inr ⟨e.1, ?_, List.mem_append_left _ he⟩
                rw [← h1]
                exact List.mem_append_left _ (hi.fst e he)
            · exact .inr ⟨w, by simp, List.mem_append_right _ (List.mem_map.2 ⟨u, (hmem u).2 ⟨hu, hur⟩, rfl⟩)⟩
          | cons d C =>
            simp only [List.cons_append, List.cons.injEq] at h2
            obtain ⟨rfl, -⟩ := h2
            rcases hi.reached A w C h1 u hu with h | ⟨p, hp, hpu⟩
            · exact .inl h
            · exact .inr ⟨p, hp, List.mem_append_left _ hpu⟩

/-- The search of networkx satisfies the specification. -/
theorem nxBfsTree_isBfsTree (hg : g.WF) (hroot : root ∈ g.nodes) : IsBfsTree g root (nxBfsTree g root) := by
  refine nxBfsLoop_spec hg hroot _ [] [] [root] ⟨by simp, by simp, by simp, by simp, by simp, by simp, by simp⟩ (by simp)

end

end Pctsp
