import Verif.Spec.Split
import Verif.Lemmas.Walk
import Verif.Lemmas.Gain
import Verif.Lemmas.SuurballeResidual

/-!
# Paths in graphs with split vertices
-/

set_option linter.unusedSectionVars false

namespace Pctsp

variable {V W : Type} [LinearOrder W] {U : NxGraph V} {cost : V → V → Int} {A : DiGraph W} {tail head : V → W}

namespace SplitOf

theorem into_head (h : SplitOf U cost A tail head) {x : W} {v : V} (he : head v ∈ A.succ x) : x = tail v := by
  rcases h.edges _ _ he with ⟨u, h1, h2⟩ | ⟨a, b, -, h2, -⟩
  · rw [h1, h.headInj _ _ h2]
  · exact absurd h2.symm (h.disj b v)

theorem outof_tail (h : SplitOf U cost A tail head) {y : W} {v : V} (he : y ∈ A.succ (tail v)) : y = head v := by
  rcases h.edges _ _ he with ⟨u, h1, h2⟩ | ⟨a, b, h1, -, -⟩
  · rw [h2, h.tailInj _ _ h1]
  · exact absurd h1 (h.disj v a)

theorem outof_head (h : SplitOf U cost A tail head) {y : W} {v : V} (he : y ∈ A.succ (head v)) : ∃ b, y = tail b ∧ b ∈ U.adj v := by
  rcases h.edges _ _ he with ⟨u, h1, -⟩ | ⟨a, b, h1, h2, h3⟩
  · exact absurd h1.symm (h.disj u v)
  · rw [h.headInj _ _ h1]; exact ⟨b, h2, h3⟩

theorem splitLike (h : SplitOf U cost A tail head) (s : W) : A.SplitLike s := by
  intro u w huw _ _
  rcases h.edges _ _ huw with ⟨v, rfl, rfl⟩ | ⟨a, b, rfl, rfl, -⟩
  · exact .inl fun x hx => h.into_head hx
  · exact .inr fun x y hx hy => (h.into_head hx).trans (h.into_head hy).symm

theorem narrow (h : SplitOf U cost A tail head) (s : W) : A.Narrow s := by
  intro v _
  by_cases hv : ∃ u, v = head u
  · obtain ⟨u, rfl⟩ := hv
    exact .inl fun x y hx hy => (h.into_head hx).trans (h.into_head hy).symm
  · right
    intro a b ha hb
    rcases h.edges _ _ ha with ⟨u, rfl, rfl⟩ | ⟨x, y, h1, -, -⟩
    · exact (h.outof_tail hb).symm
    · exact absurd ⟨x, h1⟩ hv

end SplitOf

theorem expand_cons (a : V) {l : List V} (hl : l ≠ []) : expand tail head (a :: l) = tail a :: head a :: expand tail head l := by
  cases l with
  | nil => exact absurd rfl hl
  | cons b l => rfl

theorem expand_ne_nil {l : List V} (hl : l ≠ []) : expand tail head l ≠ [] := by
  rcases l with _ | ⟨a, _ | ⟨b, l⟩⟩
  · exact absurd rfl hl
  · simp [expand]
  · simp [expand]

theorem expand_head {a : V} {l : List V} : ∃ rest, expand tail head (a :: l) = tail a :: rest := by
  cases l with
  | nil => exact ⟨[], rfl⟩
  | cons b l => exact ⟨_, rfl⟩

theorem consec_expand (r a : V) {l : List V} (hl : l ≠ []) : consec (head r :: expand tail head (a :: l)) =
    (head r, tail a) :: (tail a, head a) :: consec (head a :: expand tail head l) := by
  rw [expand_cons a hl]; rfl

/-- Every path from a head to a tail comes from a walk of the undirected graph. -/
theorem SplitOf.walk_of_path (h : SplitOf U cost A tail head) : ∀ (n : Nat) (p : List W) (r v : V), p.length ≤ n →
    DWalkFrom A (head r) (tail v) p → ∃ l, l ≠ [] ∧ p = head r :: expand tail head l ∧ NxWalk U (r :: l) ∧ l.getLast? = some v := by
  intro n
  induction n with
  | zero =>
    intro p r v hn hp
    have : p = [] := List.length_eq_zero_iff.1 (by omega)
    have := hp.head
    simp_all
  | succ n ih =>
    intro p r v hn hp
    rcases p with _ | ⟨x, p⟩
    · have := hp.head; simp at this
    have hx : x = head r := by have := hp.head; simpa using this
    subst hx
    rcases p with _ | ⟨y, p⟩
    · have := hp.last
      simp only [List.getLast?_singleton, Option.some.injEq] at this
      exact absurd this.symm (h.disj v r)
    obtain ⟨b, rfl, hb⟩ := h.outof_head (hp.walk (head r, y) (by simp))
    rcases p with _ | ⟨z, p⟩
    · have := hp.last
      simp only [List.getLast?_cons_cons, List.getLast?_singleton, Option.some.injEq] at this
      have := h.tailInj _ _ this
      subst this
      exact ⟨[b], by simp, rfl, by intro e he; simp only [consec_cons_cons, consec_singleton, List.mem_singleton] at he; rw [he]; exact hb, rfl⟩
    · have hz := h.outof_tail (hp.walk (tail b, z) (by simp))
      subst hz
      obtain ⟨l, hl, h1, h2, h3⟩ := ih (head b :: p) b v (by simp only [List.length_cons] at hn ⊢; omega)
        ⟨rfl, by have := hp.last; simpa using this, fun e he => hp.walk e (by simp [he])⟩
      refine ⟨b :: l, by simp, ?_, ?_, ?_⟩
      · rw [expand_cons b hl, h1]
      · intro e he
        rcases List.mem_cons.1 (by simpa using he : e ∈ (r, b) :: consec (b :: l)) with rfl | he
        · exact hb
        · exact h2 e he
      · rcases l with _ | ⟨c, l⟩
        · exact absurd rfl hl
        · simpa using h3

/-- A walk of the undirected graph becomes a path of the split graph with the same cost. -/
theorem SplitOf.path_of_walk (h : SplitOf U cost A tail head) (hU : ∀ u v, v ∈ U.adj u → v ∈ U.nodes) : ∀ (l : List V) (r v : V), l ≠ [] → NxWalk U (r :: l) →
    l.getLast? = some v → DWalkFrom A (head r) (tail v) (head r :: expand tail head l) ∧
      walkWeight A.weight (head r :: expand tail head l) = walkWeight cost (r :: l) := by
  intro l
  induction l with
  | nil => intro _ _ h; exact absurd rfl h
  | cons a l ih =>
    intro r v _ hw hv
    have hra : a ∈ U.adj r := hw (r, a) (by simp)
    rcases l with _ | ⟨b, l⟩
    · simp only [List.getLast?_singleton, Option.some.injEq] at hv
      subst hv
      refine ⟨⟨rfl, rfl, ?_⟩, ?_⟩
      · intro e he
        have : e = (head r, tail a) := by simpa [expand] using he
        rw [this]; exact h.outer _ _ hra
      · simp [walkWeight, expand, h.outerCost _ _ hra]
    · obtain ⟨h1, h2⟩ := ih a v (by simp) (fun e he => hw e (List.mem_cons_of_mem _ he)) (by simpa using hv)
      have ha : a ∈ U.nodes := hU _ _ hra
      refine ⟨⟨rfl, ?_, ?_⟩, ?_⟩
      · have := h1.last
        rw [expand_cons a (by simp)]
        simpa using this
      · intro e he
        rw [consec_expand r a (by simp)] at he
        rcases List.mem_cons.1 he with rfl | he
        · exact h.outer _ _ hra
        rcases List.mem_cons.1 he with rfl | he
        · exact h.inner _ ha
        · exact h1.walk e he
      · rw [walkWeight, consec_expand r a (by simp), List.map_cons, List.map_cons, List.sum_cons, List.sum_cons]
        rw [walkWeight] at h2
        rw [h2, h.outerCost _ _ hra, h.innerCost _ ha]
        simp [walkWeight]

theorem SplitOf.tail_mem (h : SplitOf U cost A tail head) (x : V) : ∀ (l : List V) (r : V), tail x ∈ head r :: expand tail head l ↔ x ∈ l := by
  intro l
  induction l with
  | nil => intro r; simp [expand, h.disj]
  | cons a l ih =>
    intro r
    rcases l with _ | ⟨b, l⟩
    · simp only [expand, List.mem_cons, h.disj, false_or, List.not_mem_nil, or_false]
      exact ⟨fun e => h.tailInj _ _ e, fun e => by rw [e]⟩
    · rw [expand_cons a (by simp), List.mem_cons, List.mem_cons, ih a]
      simp only [h.disj, false_or]
      rw [List.mem_cons (a := x) (b := a)]
      exact or_congr_left ⟨fun e => h.tailInj _ _ e, fun e => by rw [e]⟩

theorem SplitOf.head_mem (h : SplitOf U cost A tail head) (x : V) : ∀ (l : List V) (r : V), l ≠ [] →
    (head x ∈ head r :: expand tail head l ↔ x ∈ r :: l.dropLast) := by
  intro l
  induction l with
  | nil => intro r h; exact absurd rfl h
  | cons a l ih =>
    intro r _
    have hh : ∀ y, head x = head y ↔ x = y := fun y => ⟨fun e => h.headInj _ _ e, fun e => by rw [e]⟩
    rcases l with _ | ⟨b, l⟩
    · simp only [expand, List.mem_cons, hh, List.not_mem_nil, or_false, List.dropLast_singleton]
      exact or_iff_left fun e => h.disj _ _ e.symm
    · rw [expand_cons a (by simp), List.mem_cons, List.mem_cons, ih a (by simp), hh, List.dropLast_cons_cons, List.mem_cons (a := x) (b := r)]
      refine or_congr_right ?_
      exact or_iff_right fun e => h.disj _ _ e.symm

theorem SplitOf.nodup_expand (h : SplitOf U cost A tail head) : ∀ (l : List V) (r : V), l ≠ [] →
    ((head r :: expand tail head l).Nodup ↔ l.Nodup ∧ (r :: l.dropLast).Nodup) := by
  intro l
  induction l with
  | nil => intro r h; exact absurd rfl h
  | cons a l ih =>
    intro r _
    rcases l with _ | ⟨b, l⟩
    · simp [expand, (h.disj _ _).symm]
    · have hr := (h.head_mem r (b :: l) a (by simp)).not
      have ha := (h.tail_mem a (b :: l) a).not
      rw [expand_cons a (by simp), List.nodup_cons, List.nodup_cons, ha, ih a (by simp), List.mem_cons, not_or, hr, List.dropLast_cons_cons,
        List.nodup_cons (a := r), List.nodup_cons (a := a) (l := b :: l), List.nodup_cons (a := a) (l := (b :: l).dropLast)]
      have := (h.disj a r).symm
      tauto

/-- The edges of the path. -/
theorem SplitOf.mem_edges (_ : SplitOf U cost A tail head) {e : W × W} : ∀ (l : List V) (r : V), e ∈ consec (head r :: expand tail head l) ↔
    (∃ x ∈ l.dropLast, e = (tail x, head x)) ∨ ∃ x y, (x, y) ∈ consec (r :: l) ∧ e = (head x, tail y) := by
  intro l
  induction l with
  | nil => intro r; simp [expand]
  | cons a l ih =>
    intro r
    rcases l with _ | ⟨b, l⟩
    · simp [expand]
    · rw [consec_expand r a (by simp), List.mem_cons, List.mem_cons, ih a]
      simp only [List.dropLast_cons_cons, List.mem_cons, consec_cons_cons, Prod.mk.injEq]
      constructor
      · rintro (rfl | rfl | ⟨x, h1, rfl⟩ | ⟨x, y, h1, rfl⟩)
        · exact .inr ⟨r, a, .inl ⟨rfl, rfl⟩, rfl⟩
        · exact .inl ⟨a, .inl rfl, rfl⟩
        · exact .inl ⟨x, .inr h1, rfl⟩
        · exact .inr ⟨x, y, .inr h1, rfl⟩
      · rintro (⟨x, rfl | h1, rfl⟩ | ⟨x, y, ⟨rfl, rfl⟩ | h1, rfl⟩)
        · exact .inr (.inl rfl)
        · exact .inr (.inr (.inl ⟨x, h1, rfl⟩))
        · exact .inl rfl
        · exact .inr (.inr (.inr ⟨x, y, h1, rfl⟩))

/-- Two walks from `r` to `v` that repeat no vertex between the ends and have no inner vertex in common; they are not both the edge from `r` to `v`. -/
def DisjointWalks (U : NxGraph V) (cost : V → V → Int) (r v : V) (a b : List V) (c : Int) : Prop :=
  (r :: (a ++ b)).Nodup ∧ (a ++ b ++ [v]).Nodup ∧ (a ≠ [] ∨ b ≠ []) ∧ NxWalk U (r :: (a ++ [v])) ∧ NxWalk U (r :: (b ++ [v])) ∧
    walkWeight cost (r :: (a ++ [v])) + walkWeight cost (r :: (b ++ [v])) = c

theorem SplitOf.disjoint_of_edges (h : SplitOf U cost A tail head) {r v : V} {a b : List V}
    (hnd : (consec (head r :: expand tail head (a ++ [v])) ++ consec (head r :: expand tail head (b ++ [v]))).Nodup) :
    (∀ x ∈ a, x ∉ b) ∧ (a ≠ [] ∨ b ≠ []) := by
  have hd := (List.nodup_append.1 hnd).2.2
  refine ⟨fun x hx hxb => ?_, ?_⟩
  · exact hd (tail x, head x) ((h.mem_edges _ _).2 (.inl ⟨x, by simpa using hx, rfl⟩)) _ ((h.mem_edges _ _).2 (.inl ⟨x, by simpa using hxb, rfl⟩)) rfl
  · by_contra hno
    rw [not_or, not_not, not_not] at hno
    obtain ⟨rfl, rfl⟩ := hno
    exact hd (head r, tail v) (by simp [expand]) (head r, tail v) (by simp [expand]) rfl

theorem SplitOf.disjointWalks (h : SplitOf U cost A tail head) (hU : ∀ u v, v ∈ U.adj u → v ∈ U.nodes) {r v : V} {a b : List V}
    (np : (head r :: expand tail head (a ++ [v])).Nodup) (nq : (head r :: expand tail head (b ++ [v])).Nodup)
    (hnd : (consec (head r :: expand tail head (a ++ [v])) ++ consec (head r :: expand tail head (b ++ [v]))).Nodup)
    (wl : NxWalk U (r :: (a ++ [v]))) (wm : NxWalk U (r :: (b ++ [v]))) :
    DisjointWalks U cost r v a b
      (walkWeight A.weight (head r :: expand tail head (a ++ [v])) + walkWeight A.weight (head r :: expand tail head (b ++ [v]))) := by
  rw [h.nodup_expand _ _ (by simp)] at np nq
  obtain ⟨h1, h2⟩ := h.disjoint_of_edges hnd
  simp only [List.dropLast_concat] at np nq
  have e1 := (h.path_of_walk hU _ r v (by simp) wl (by simp)).2
  have e2 := (h.path_of_walk hU _ r v (by simp) wm (by simp)).2
  refine ⟨?_, ?_, h2, wl, wm, by rw [e1, e2]⟩
  · have n1 := np.2; have n2 := nq.2
    simp only [List.nodup_cons, List.mem_append, not_or, List.nodup_append] at n1 n2 ⊢
    exact ⟨⟨n1.1, n2.1⟩, n1.2, n2.2, fun x hx y hy e => h1 x hx (e ▸ hy)⟩
  · have n1 := np.1; have n2 := nq.1
    simp only [List.nodup_append, List.mem_append, List.mem_singleton] at n1 n2 ⊢
    refine ⟨⟨n1.1, n2.1, fun x hx y hy e => h1 x hx (e ▸ hy)⟩, List.nodup_singleton v, ?_⟩
    rintro x (hx | hx)
    · exact n1.2.2 x hx
    · exact n2.2.2 x hx

theorem SplitOf.pair_iff (h : SplitOf U cost A tail head) (hU : ∀ u v, v ∈ U.adj u → v ∈ U.nodes) {r v : V} {c : Int} :
    EdgeDisjointPair A (head r) (tail v) c ↔ ∃ a b, DisjointWalks U cost r v a b c := by
  constructor
  · rintro ⟨p, q, hp, hq, np, nq, hnd, rfl⟩
    obtain ⟨l, hl, rfl, wl, ll⟩ := h.walk_of_path _ p r v le_rfl hp
    obtain ⟨m, hm, rfl, wm, lm⟩ := h.walk_of_path _ q r v le_rfl hq
    obtain ⟨a, rfl⟩ : ∃ a, l = a ++ [v] := ⟨l.dropLast, (List.dropLast_append_getLast? v (by simpa using ll)).symm⟩
    obtain ⟨b, rfl⟩ : ∃ b, m = b ++ [v] := ⟨m.dropLast, (List.dropLast_append_getLast? v (by simpa using lm)).symm⟩
    exact ⟨a, b, h.disjointWalks hU np nq hnd wl wm⟩
  · rintro ⟨a, b, n1, n2, hne, wa, wb, rfl⟩
    obtain ⟨p1, p2⟩ := h.path_of_walk hU (a ++ [v]) r v (by simp) wa (by simp)
    obtain ⟨q1, q2⟩ := h.path_of_walk hU (b ++ [v]) r v (by simp) wb (by simp)
    simp only [List.nodup_cons, List.mem_append, not_or, List.nodup_append, List.mem_singleton] at n1 n2
    have np : (head r :: expand tail head (a ++ [v])).Nodup := by
      rw [h.nodup_expand _ _ (by simp), List.dropLast_concat]
      simp only [List.nodup_cons, List.nodup_append, List.mem_singleton]
      exact ⟨⟨n1.2.1, ⟨by simp, by simp⟩, fun x hx => n2.2.2 x (.inl hx)⟩, n1.1.1, n1.2.1⟩
    have nq : (head r :: expand tail head (b ++ [v])).Nodup := by
      rw [h.nodup_expand _ _ (by simp), List.dropLast_concat]
      simp only [List.nodup_cons, List.nodup_append, List.mem_singleton]
      exact ⟨⟨n1.2.2.1, ⟨by simp, by simp⟩, fun x hx => n2.2.2 x (.inr hx)⟩, n1.1.2, n1.2.2.1⟩
    refine ⟨_, _, p1, q1, np, nq, ?_, by rw [p2, q2]⟩
    rw [List.nodup_append]
    refine ⟨consec_nodup np, consec_nodup nq, ?_⟩
    rintro e he f hf rfl
    rw [h.mem_edges, List.dropLast_concat] at he hf
    rcases he with ⟨x, hx, rfl⟩ | ⟨x, y, hx, rfl⟩
    · rcases hf with ⟨z, hz, e⟩ | ⟨z, w, hz, e⟩
      · have := h.tailInj _ _ (congrArg Prod.fst e)
        exact n1.2.2.2 x hx z hz this
      · exact h.disj _ _ (congrArg Prod.fst e)
    · rcases hf with ⟨z, hz, e⟩ | ⟨z, w, hz, e⟩
      · exact h.disj _ _ (congrArg Prod.fst e).symm
      · have e1 := h.headInj _ _ (congrArg Prod.fst e)
        have e2 := h.tailInj _ _ (congrArg Prod.snd e)
        subst e1 e2
        -- the edge is in both walks
        have key : ∀ l : List V, (x, y) ∈ consec (r :: (l ++ [v])) → x ∈ r :: l ∧ y ∈ l ++ [v] := by
          intro l hl
          obtain ⟨A, B, hAB⟩ := mem_consec_iff_split.1 hl
          have h1 : (r :: l) ++ [v] = (A ++ [x]) ++ (y :: B) := by simpa using hAB
          have h2 : (r :: l) = (A ++ [x]) ++ (y :: B).dropLast := by
            have := congrArg List.dropLast h1
            rwa [List.dropLast_concat, List.dropLast_append_of_ne_nil (by simp)] at this
          refine ⟨by rw [h2]; simp, ?_⟩
          cases A with
          | nil =>
            simp only [List.nil_append, List.cons.injEq] at hAB
            rw [hAB.2]; simp
          | cons z A =>
            simp only [List.cons_append, List.cons.injEq] at hAB
            rw [hAB.2]; simp
        obtain ⟨k1, k2⟩ := key a hx
        obtain ⟨k3, k4⟩ := key b hz
        have hxr : x = r := by
          rcases List.mem_cons.1 k1 with e | e
          · exact e
          rcases List.mem_cons.1 k3 with f | f
          · exact f
          exact absurd rfl (n1.2.2.2 x e x f)
        have hyv : y = v := by
          rcases List.mem_append.1 k2 with e | e
          · rcases List.mem_append.1 k4 with f | f
            · exact absurd rfl (n1.2.2.2 y e y f)
            · simpa using f
          · simpa using e
        subst hxr hyv
        -- such an edge is the first one, so the walk consists of it
        have last : ∀ l : List V, x ∉ l → (∀ z ∈ l, z ≠ y) → (x, y) ∈ consec (x :: (l ++ [y])) → l = [] := by
          intro l h1 h2 h3
          cases l with
          | nil => rfl
          | cons z l =>
            rcases List.mem_cons.1 (by simpa using h3 : (x, y) ∈ (x, z) :: consec (z :: (l ++ [y]))) with e | e
            · exact absurd (congrArg Prod.snd e).symm (h2 z (by simp))
            · obtain ⟨A, B, hAB⟩ := mem_consec_iff_split.1 e
              have h4 : (z :: l) ++ [y] = (A ++ [x]) ++ (y :: B) := by simpa using hAB
              have h5 : (z :: l) = (A ++ [x]) ++ (y :: B).dropLast := by
                have := congrArg List.dropLast h4
                rwa [List.dropLast_concat, List.dropLast_append_of_ne_nil (by simp)] at this
              exact absurd (by rw [h5]; simp) h1
        have ea := last a n1.1.1 (fun z hz => n2.2.2 z (.inl hz) y rfl) hx
        have eb := last b n1.1.2 (fun z hz => n2.2.2 z (.inr hz) y rfl) hz
        rcases hne with h1 | h1
        · exact h1 ea
        · exact h1 eb

theorem walk_back (hU : U.WF) (hc : ∀ u v, v ∈ U.adj u → cost u v = cost v u) {l : List V} (hw : NxWalk U l) :
    NxWalk U l.reverse ∧ walkWeight cost l.reverse = walkWeight cost l := by
  constructor
  · intro e he
    rw [consec_reverse, List.mem_reverse, List.mem_map] at he
    obtain ⟨f, hf, rfl⟩ := he
    exact hU.symm _ _ (hw f hf)
  · rw [walkWeight, consec_reverse, List.map_reverse, List.sum_reverse, List.map_map, walkWeight]
    congr 1
    apply List.map_congr_left
    intro e he
    exact (hc _ _ (hw e he)).symm

theorem nxWalk_append {l m : List V} {x : V} : NxWalk U (l ++ x :: m) ↔ NxWalk U (l ++ [x]) ∧ NxWalk U (x :: m) := by
  rw [NxWalk, consec_append]
  simp only [NxWalk, List.mem_append, or_imp, forall_and]

theorem walkWeight_append (l m : List V) (x : V) : walkWeight cost (l ++ x :: m) = walkWeight cost (l ++ [x]) + walkWeight cost (x :: m) := by
  rw [walkWeight, consec_append, List.map_append, List.sum_append]; rfl

/-- There along one walk and back along the other one. -/
theorem walk_round (hU : U.WF) (hc : ∀ u v, v ∈ U.adj u → cost u v = cost v u) {r v : V} {a b : List V} (ha : NxWalk U (r :: (a ++ [v])))
    (hb : NxWalk U (r :: (b ++ [v]))) : NxWalk U (r :: (a ++ v :: (b.reverse ++ [r]))) ∧
      walkWeight cost (r :: (a ++ v :: (b.reverse ++ [r]))) = walkWeight cost (r :: (a ++ [v])) + walkWeight cost (r :: (b ++ [v])) := by
  obtain ⟨h1, h2⟩ := walk_back hU hc hb
  have e : (r :: (b ++ [v])).reverse = v :: (b.reverse ++ [r]) := by simp
  rw [e] at h1 h2
  have e2 : r :: (a ++ v :: (b.reverse ++ [r])) = (r :: a) ++ v :: (b.reverse ++ [r]) := by simp
  rw [e2]
  exact ⟨nxWalk_append.2 ⟨ha, h1⟩, by rw [walkWeight_append, h2]; rfl⟩

/-- There along one walk and back along the other one is a simple cycle. -/
theorem disjointWalks_cycle (hU : U.WF) (hc : ∀ u v, v ∈ U.adj u → cost u v = cost v u) {r v : V} (hv : v ≠ r) {a b : List V} {c : Int}
    (h : DisjointWalks U cost r v a b c) : NxCycle U (r :: (a ++ v :: b.reverse)) ∧ v ∈ a ++ v :: b.reverse ∧
      walkWeight cost (r :: ((a ++ v :: b.reverse) ++ [r])) = c := by
  obtain ⟨n1, n2, hne, wa, wb, rfl⟩ := h
  obtain ⟨h1, h2⟩ := walk_round hU hc wa wb
  refine ⟨⟨?_, ?_, ?_, ?_⟩, by simp, ?_⟩
  · have : 0 < a.length ∨ 0 < b.length := hne.imp List.length_pos_iff.2 List.length_pos_iff.2
    simp only [List.length_cons, List.length_append, List.length_reverse]
    omega
  · simp only [List.nodup_cons, List.nodup_append, List.mem_append, List.mem_cons, not_or, List.nodup_reverse, List.mem_reverse, List.not_mem_nil, or_false] at n1 n2 ⊢
    refine ⟨⟨n1.1.1, fun e => hv e.symm, n1.1.2⟩, n1.2.1, ⟨fun hb => n2.2.2 v (.inr hb) v rfl rfl, n1.2.2.1⟩, ?_⟩
    rintro x hx y (rfl | hy)
    · exact n2.2.2 x (.inl hx) y rfl
    · exact n1.2.2.2 x hx y hy
  · have hin : ∀ l : List V, NxWalk U (r :: (l ++ [v])) → ∀ x ∈ r :: (l ++ [v]), x ∈ U.nodes := by
      intro l hl x hx
      have : ∃ y, (x, y) ∈ consec (r :: (l ++ [v])) ∨ (y, x) ∈ consec (r :: (l ++ [v])) := by
        obtain ⟨P, Q, hPQ⟩ := List.append_of_mem hx
        cases Q with
        | cons z Q => exact ⟨z, .inl (mem_consec_iff_split.2 ⟨P, Q, hPQ⟩)⟩
        | nil =>
          cases P using List.reverseRecOn with
          | nil => simp at hPQ
          | append_singleton P z => exact ⟨z, .inr (mem_consec_iff_split.2 ⟨P, [], by rw [hPQ]; simp⟩)⟩
      obtain ⟨y, h | h⟩ := this
      · exact (hU.closed _ _ (hl _ h)).1
      · exact (hU.closed _ _ (hl _ h)).2
    intro x hx
    simp only [List.mem_cons, List.mem_append, List.mem_reverse] at hx
    rcases hx with rfl | hx | rfl | hx
    · exact hin a wa _ (by simp)
    · exact hin a wa _ (by simp [hx])
    · exact hin a wa _ (by simp)
    · exact hin b wb _ (by simp [hx])
  · simpa using h1
  · rw [← h2]; simp

/-- To another vertex: a tour. -/
theorem disjointWalks_tour (hU : U.WF) (hc : ∀ u v, v ∈ U.adj u → cost u v = cost v u) {r v : V} (hv : v ≠ r) {c : Int} :
    (∃ a b, DisjointWalks U cost r v a b c) ↔ TourThrough U cost r v c := by
  constructor
  · rintro ⟨a, b, h⟩
    obtain ⟨h1, h2, h3⟩ := disjointWalks_cycle hU hc hv h
    exact ⟨_, h1, List.mem_cons_of_mem _ h2, h3⟩
  · rintro ⟨m, hcyc, hvm, rfl⟩
    have hvm : v ∈ m := by simpa [hv] using hvm
    obtain ⟨a, b, rfl⟩ := List.append_of_mem hvm
    have hw : NxWalk U ((r :: a) ++ v :: (b ++ [r])) := by simpa using hcyc.closed
    obtain ⟨h1, h2⟩ := nxWalk_append.1 hw
    obtain ⟨h3, h4⟩ := walk_back hU hc h2
    have e : (v :: (b ++ [r])).reverse = r :: (b.reverse ++ [v]) := by simp
    rw [e] at h3 h4
    refine ⟨a, b.reverse, ?_, ?_, ?_, h1, h3, ?_⟩
    · have hn := hcyc.nodup
      simp only [List.nodup_cons, List.nodup_append, List.mem_append, List.mem_cons, not_or, List.nodup_reverse, List.mem_reverse] at hn ⊢
      exact ⟨⟨hn.1.1, hn.1.2.2⟩, hn.2.1, hn.2.2.1.2, fun x hx y hy => hn.2.2.2 x hx y (.inr hy)⟩
    · have hn := hcyc.nodup
      simp only [List.nodup_cons, List.nodup_append, List.mem_append, List.mem_cons, not_or, List.nodup_reverse, List.mem_reverse, List.not_mem_nil, or_false] at hn ⊢
      refine ⟨⟨hn.2.1, hn.2.2.1.2, fun x hx y hy => hn.2.2.2 x hx y (.inr hy)⟩, ⟨by simp, by simp⟩, ?_⟩
      rintro x (hx | hx) y rfl
      · exact hn.2.2.2 x hx y (.inl rfl)
      · rintro rfl; exact hn.2.2.1.1 hx
    · have hlong := hcyc.long
      simp only [List.length_cons, List.length_append] at hlong
      by_contra hno
      rw [not_or, not_not, not_not, List.reverse_eq_nil_iff] at hno
      obtain ⟨rfl, rfl⟩ := hno
      simp at hlong
    · rw [h4]
      have e2 : r :: (a ++ v :: b ++ [r]) = (r :: a) ++ v :: (b ++ [r]) := by simp
      rw [e2, walkWeight_append]
      rfl

/-- To the root itself: two closed walks. -/
theorem disjointWalks_loops (hl : ∀ u, u ∉ U.adj u) {r : V} {c : Int} : (∃ a b, DisjointWalks U cost r r a b c) ↔ TwoLoops U cost r c := by
  have ne : ∀ l : List V, NxWalk U (r :: (l ++ [r])) → l ≠ [] := by
    rintro l hw rfl
    exact hl r (hw (r, r) (by simp))
  constructor
  · rintro ⟨a, b, n1, n2, hne, wa, wb, rfl⟩
    exact ⟨a, b, ne a wa, ne b wb, n1, wa, wb, rfl⟩
  · rintro ⟨a, b, ha, hb, n1, wa, wb, rfl⟩
    refine ⟨a, b, n1, ?_, .inl ha, wa, wb, rfl⟩
    rw [List.nodup_append]
    refine ⟨(List.nodup_cons.1 n1).2, List.nodup_singleton r, ?_⟩
    rintro x hx y hy rfl
    rw [List.mem_singleton] at hy
    subst hy
    exact (List.nodup_cons.1 n1).1 hx

end Pctsp
