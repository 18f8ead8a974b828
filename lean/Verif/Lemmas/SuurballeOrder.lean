import Verif.Lemmas.SuurballeTree
import Mathlib.Data.List.Nodup
import Mathlib.Data.List.Induction

/-!
# Preorder and postorder numbers of the tree
-/

set_option linter.unusedSectionVars false

namespace Pctsp

variable {V : Type} [LinearOrder V] {G : DiGraph V} {s : V} {dij : DijkstraOut V}

/-- The recursion from `v` needs at most `n` nested calls. -/
def HeightLE (succ : V → List V) : Nat → V → Prop
  | 0, _ => False
  | n + 1, v => ∀ u ∈ succ v, HeightLE succ n u

/-- The vertices below `v` in preorder. -/
def preBlock (succ : V → List V) : Nat → V → List V
  | 0, _ => []
  | n + 1, v => v :: (succ v).flatMap (preBlock succ n)

/-- The vertices below `v` in postorder. -/
def postBlock (succ : V → List V) : Nat → V → List V
  | 0, _ => []
  | n + 1, v => (succ v).flatMap (postBlock succ n) ++ [v]

/-- The numbers after the vertices of `L` were numbered from `n` on. -/
def numbered (f : V → Int) (n : Nat) (L : List V) : V → Int := fun x => if x ∈ L then ((n + L.idxOf x : Nat) : Int) else f x

theorem numbered_nil (f : V → Int) (n : Nat) : numbered f n [] = f := by funext x; simp [numbered]

theorem numbered_append {f : V → Int} {n : Nat} {L M : List V} (hd : ∀ x ∈ L, x ∉ M) :
    numbered (numbered f n L) (n + L.length) M = numbered f n (L ++ M) := by
  funext x
  simp only [numbered, List.mem_append]
  by_cases h1 : x ∈ L
  · rw [if_neg (hd x h1), if_pos h1, if_pos (.inl h1), List.idxOf_append_of_mem h1]
  · by_cases h2 : x ∈ M
    · rw [if_pos h2, if_pos (.inr h2), List.idxOf_append_of_notMem h1]; omega
    · rw [if_neg h2, if_neg h1, if_neg (by simp [h1, h2])]

theorem numbered_singleton (f : V → Int) (n : Nat) (v : V) : setAt f v n = numbered f n [v] := by
  funext x
  simp only [setAt, numbered, List.mem_singleton]
  by_cases h : x = v
  · subst h; simp
  · rw [if_neg h, if_neg h]

/-- A fold over children that append their blocks. -/
theorem foldl_blocks {rec_ : V → (V → Int) × List V → Res ((V → Int) × List V)} {B : V → List V} : ∀ (us : List V) (f : V → Int) (order : List V),
    (us.flatMap B).Nodup →
    (∀ u ∈ us, ∀ f order, rec_ u (f, order) = .ok (numbered f order.length (B u), order ++ B u)) →
    us.foldl (fun st u => st >>= rec_ u) (.ok (f, order)) = .ok (numbered f order.length (us.flatMap B), order ++ us.flatMap B) := by
  intro us
  induction us with
  | nil => intro f order _ _; simp [numbered_nil]
  | cons u us ih =>
    intro f order hn hr
    rw [List.flatMap_cons] at hn ⊢
    rw [List.foldl_cons, Res.ok_bind, hr u List.mem_cons_self, ih _ _ (List.nodup_append.1 hn).2.1 (fun v hv => hr v (List.mem_cons_of_mem _ hv)),
      List.length_append, numbered_append, List.append_assoc]
    intro x hx hx2
    exact (List.nodup_append.1 hn).2.2 x hx x hx2 rfl

theorem preorderRec_ok (succ : V → List V) : ∀ (n : Nat) (v : V) (f : V → Int) (order : List V), HeightLE succ n v → (preBlock succ n v).Nodup →
    preorderRec succ n v (f, order) = .ok (numbered f order.length (preBlock succ n v), order ++ preBlock succ n v) := by
  intro n
  induction n with
  | zero => intro v f order h; exact h.elim
  | succ n ih =>
    intro v f order h hn
    rw [preBlock] at hn
    have hn' := (List.nodup_cons.1 hn)
    rw [preorderRec, preBlock, foldl_blocks (B := preBlock succ n) _ _ _ hn'.2, numbered_singleton, List.length_append, List.length_singleton]
    · have e : (1 : Nat) = [v].length := rfl
      rw [e, numbered_append (by intro x hx; rw [List.mem_singleton.1 hx]; exact hn'.1)]
      simp
    · intro u hu f order
      exact ih u f order (h u hu) ((List.nodup_flatMap.1 hn'.2).1 u hu)

theorem postorderRec_ok (succ : V → List V) : ∀ (n : Nat) (v : V) (f : V → Int) (order : List V), HeightLE succ n v → (postBlock succ n v).Nodup →
    postorderRec succ n v (f, order) = .ok (numbered f order.length (postBlock succ n v), order ++ postBlock succ n v) := by
  intro n
  induction n with
  | zero => intro v f order h; exact h.elim
  | succ n ih =>
    intro v f order h hn
    rw [postBlock] at hn
    have hn' := (List.nodup_append.1 hn)
    rw [postorderRec, postBlock, foldl_blocks (B := postBlock succ n) _ _ _ hn'.1, Res.ok_bind]
    · simp only [numbered_singleton, List.length_append]
      rw [numbered_append (fun x hx hx2 => hn'.2.2 x hx x hx2 rfl), List.append_assoc]
    · intro u hu f order
      exact ih u f order (h u hu) ((List.nodup_flatMap.1 hn'.1).1 u hu)

/-- Without enough nested calls the recursion fails, and only in one way. -/
theorem foldl_fails {σ : Type} {rec_ : V → σ → Res σ} {P : V → Prop} (hr : ∀ u st, ((∃ st', rec_ u st = .ok st') ∧ P u) ∨ (rec_ u st = .throw .recursionError ∧ ¬ P u)) :
    ∀ (us : List V) (st : σ), ((∃ st', us.foldl (fun st u => st >>= rec_ u) (.ok st) = .ok st') ∧ ∀ u ∈ us, P u) ∨
      (us.foldl (fun st u => st >>= rec_ u) (.ok st) = .throw .recursionError ∧ ¬ ∀ u ∈ us, P u) := by
  have stuck : ∀ us : List V, us.foldl (fun st u => st >>= rec_ u) (.throw .recursionError : Res σ) = .throw .recursionError := by
    intro us
    induction us with
    | nil => rfl
    | cons u us ih => rw [List.foldl_cons, Res.throw_bind, ih]
  intro us
  induction us with
  | nil => intro st; left; exact ⟨⟨st, rfl⟩, by simp⟩
  | cons u us ih =>
    intro st
    rw [List.foldl_cons, Res.ok_bind]
    rcases hr u st with ⟨⟨st', e⟩, hu⟩ | ⟨e, hu⟩
    · rw [e]
      rcases ih st' with ⟨h1, h2⟩ | ⟨h1, h2⟩
      · left; exact ⟨h1, by simpa [hu] using h2⟩
      · right; refine ⟨h1, fun h3 => h2 fun v hv => h3 v (List.mem_cons_of_mem _ hv)⟩
    · right
      rw [e, stuck]
      exact ⟨rfl, fun h3 => hu (h3 u List.mem_cons_self)⟩

theorem preorderRec_outcome (succ : V → List V) : ∀ (n : Nat) (v : V) (st : (V → Int) × List V),
    ((∃ st', preorderRec succ n v st = .ok st') ∧ HeightLE succ n v) ∨ (preorderRec succ n v st = .throw .recursionError ∧ ¬ HeightLE succ n v) := by
  intro n
  induction n with
  | zero => intro v st; right; exact ⟨rfl, fun h => h⟩
  | succ n ih =>
    intro v st
    simp only [preorderRec, HeightLE]
    exact foldl_fails ih _ _

theorem postorderRec_outcome (succ : V → List V) : ∀ (n : Nat) (v : V) (st : (V → Int) × List V),
    ((∃ st', postorderRec succ n v st = .ok st') ∧ HeightLE succ n v) ∨ (postorderRec succ n v st = .throw .recursionError ∧ ¬ HeightLE succ n v) := by
  intro n
  induction n with
  | zero => intro v st; right; exact ⟨rfl, fun h => h⟩
  | succ n ih =>
    intro v st
    simp only [postorderRec, HeightLE]
    rcases foldl_fails ih (succ v) st with ⟨⟨st', e⟩, h⟩ | ⟨e, h⟩
    · left; rw [e]; exact ⟨⟨_, rfl⟩, h⟩
    · right; rw [e]; exact ⟨rfl, h⟩

/-! ## In the tree of shortest paths -/

/-- The successors in the tree. -/
abbrev kids (s : V) (dij : DijkstraOut V) : V → List V := treeSucc s dij.pathKeys dij.path

theorem heightLE_iff (h : IsDijkstra G s dij) : ∀ (n : Nat) (v : V), v ∈ dij.distKeys →
    (HeightLE (kids s dij) n v ↔ ∀ x ∈ dij.distKeys, v ∈ dij.path x → (dij.path x).length < (dij.path v).length + n) := by
  intro n
  induction n with
  | zero =>
    intro v hv
    simp only [HeightLE, false_iff]
    intro h1
    exact absurd (h1 v hv (h.mem_path_self hv)) (by omega)
  | succ n ih =>
    intro v hv
    simp only [HeightLE]
    constructor
    · intro h1 x hx hvx
      by_cases e : v = x
      · subst e; omega
      · obtain ⟨y, hy, hyx⟩ := h.exists_child hx hvx e
        have := (ih y hy.key).1 (h1 y (h.mem_treeSucc.2 hy)) x hx hyx
        have e2 := congrArg List.length hy.path
        simp at e2; omega
    · intro h1 u hu
      have hc := h.mem_treeSucc.1 hu
      rw [ih u hc.key]
      intro x hx hux
      have := h1 x hx (h.path_trans hx (hc.parent_mem h) hux)
      have e2 := congrArg List.length hc.path
      simp at e2; omega

theorem mem_preBlock (h : IsDijkstra G s dij) : ∀ (n : Nat) (v x : V), v ∈ dij.distKeys → HeightLE (kids s dij) n v →
    (x ∈ preBlock (kids s dij) n v ↔ x ∈ dij.distKeys ∧ v ∈ dij.path x) := by
  intro n
  induction n with
  | zero => intro v x _ h; exact h.elim
  | succ n ih =>
    intro v x hv hh
    rw [preBlock, List.mem_cons, List.mem_flatMap]
    constructor
    · rintro (rfl | ⟨u, hu, hx⟩)
      · exact ⟨hv, h.mem_path_self hv⟩
      · have hc := h.mem_treeSucc.1 hu
        obtain ⟨h1, h2⟩ := (ih u x hc.key (hh u hu)).1 hx
        exact ⟨h1, h.path_trans h1 (hc.parent_mem h) h2⟩
    · rintro ⟨h1, h2⟩
      by_cases e : v = x
      · exact .inl e.symm
      · obtain ⟨y, hy, hyx⟩ := h.exists_child h1 h2 e
        have hy' := h.mem_treeSucc.2 hy
        exact .inr ⟨y, hy', (ih y x hy.key (hh y hy')).2 ⟨h1, hyx⟩⟩

theorem mem_postBlock_iff (succ : V → List V) : ∀ (n : Nat) (v x : V), x ∈ postBlock succ n v ↔ x ∈ preBlock succ n v := by
  intro n
  induction n with
  | zero => intro v x; rfl
  | succ n ih =>
    intro v x
    simp only [postBlock, preBlock, List.mem_append, List.mem_cons, List.mem_flatMap, List.not_mem_nil, or_false, ih]
    exact or_comm

theorem blocks_disjoint (h : IsDijkstra G s dij) {n : Nat} {v : V} (hh : ∀ u ∈ kids s dij v, HeightLE (kids s dij) n u) {x y z : V}
    (hx : x ∈ kids s dij v) (hy : y ∈ kids s dij v) (h1 : z ∈ preBlock (kids s dij) n x) (h2 : z ∈ preBlock (kids s dij) n y) : x = y := by
  have cx := h.mem_treeSucc.1 hx
  have cy := h.mem_treeSucc.1 hy
  obtain ⟨k1, p1⟩ := (mem_preBlock h n x z cx.key (hh x hx)).1 h1
  obtain ⟨_, p2⟩ := (mem_preBlock h n y z cy.key (hh y hy)).1 h2
  exact cx.eq_of_mem h cy k1 p1 p2

theorem preBlock_nodup (h : IsDijkstra G s dij) : ∀ (n : Nat) (v : V), v ∈ dij.distKeys → HeightLE (kids s dij) n v → (preBlock (kids s dij) n v).Nodup := by
  intro n
  induction n with
  | zero => intro v _ h; exact h.elim
  | succ n ih =>
    intro v hv hh
    rw [preBlock, List.nodup_cons]
    constructor
    · rw [List.mem_flatMap]
      rintro ⟨u, hu, hx⟩
      have hc := h.mem_treeSucc.1 hu
      exact hc.not_mem h ((mem_preBlock h n u v hc.key (hh u hu)).1 hx).2
    · rw [List.nodup_flatMap]
      refine ⟨fun u hu => ih u (h.mem_treeSucc.1 hu).key (hh u hu), ?_⟩
      refine (h.treeSucc_nodup v).imp_of_mem ?_
      intro x y hx hy hne z hz1 hz2
      exact hne (blocks_disjoint h hh hx hy hz1 hz2)

theorem postBlock_nodup (h : IsDijkstra G s dij) : ∀ (n : Nat) (v : V), v ∈ dij.distKeys → HeightLE (kids s dij) n v → (postBlock (kids s dij) n v).Nodup := by
  intro n
  induction n with
  | zero => intro v _ h; exact h.elim
  | succ n ih =>
    intro v hv hh
    rw [postBlock, List.nodup_append]
    refine ⟨?_, by simp, ?_⟩
    · rw [List.nodup_flatMap]
      refine ⟨fun u hu => ih u (h.mem_treeSucc.1 hu).key (hh u hu), ?_⟩
      refine (h.treeSucc_nodup v).imp_of_mem ?_
      intro x y hx hy hne z hz1 hz2
      exact hne (blocks_disjoint h hh hx hy ((mem_postBlock_iff _ _ _ _).1 hz1) ((mem_postBlock_iff _ _ _ _).1 hz2))
    · rintro a ha b hb rfl
      rw [List.mem_singleton] at hb
      subst hb
      rw [List.mem_flatMap] at ha
      obtain ⟨u, hu, hx⟩ := ha
      have hc := h.mem_treeSucc.1 hu
      exact hc.not_mem h ((mem_preBlock h n u a hc.key (hh u hu)).1 ((mem_postBlock_iff _ _ _ _).1 hx)).2

/-- Positions in a concatenation of blocks: within one block they are shifted, otherwise they are in the order of the blocks. -/
theorem idxOf_flatMap {B C : V → List V} {R : V → V → Prop} : ∀ us : List V, (∀ u ∈ us, ∀ x, x ∈ C u ↔ x ∈ B u) →
    (∀ u ∈ us, ∀ w ∈ us, ∀ z, z ∈ B u → z ∈ B w → u = w) → us.Nodup →
    (∀ u ∈ us, ∀ w ∈ us, ∀ a b, a ∈ B u → b ∈ B w → u ≠ w → ¬ R a b) →
    (∀ u ∈ us, ∀ a b, a ∈ B u → b ∈ B u → (((B u).idxOf a ≤ (B u).idxOf b ∧ (C u).idxOf b ≤ (C u).idxOf a) ↔ R a b)) →
    ∀ a b, a ∈ us.flatMap B → b ∈ us.flatMap B →
      (((us.flatMap B).idxOf a ≤ (us.flatMap B).idxOf b ∧ (us.flatMap C).idxOf b ≤ (us.flatMap C).idxOf a) ↔ R a b) := by
  intro us
  induction us with
  | nil => intro _ _ _ _ _ a b ha; simp at ha
  | cons u us ih =>
    intro hBC hd hn hR hw a b ha hb
    simp only [List.flatMap_cons, List.mem_append] at ha hb ⊢
    have hCB : ∀ x, x ∈ us.flatMap C ↔ x ∈ us.flatMap B := by
      intro x
      simp only [List.mem_flatMap]
      exact exists_congr fun w => and_congr_right fun hw => hBC w (List.mem_cons_of_mem _ hw) x
    have hsep : ∀ z, z ∈ B u → z ∉ us.flatMap B := by
      intro z hz hz2
      rw [List.mem_flatMap] at hz2
      obtain ⟨w, hw, hz3⟩ := hz2
      have := hd u List.mem_cons_self w (List.mem_cons_of_mem _ hw) z hz hz3
      subst this
      exact (List.nodup_cons.1 hn).1 hw
    have hRd : ∀ x y, x ∈ B u → y ∈ us.flatMap B → ¬ R x y ∧ ¬ R y x := by
      intro x y hx hy
      rw [List.mem_flatMap] at hy
      obtain ⟨w, hw, hy⟩ := hy
      have hne : u ≠ w := by rintro rfl; exact (List.nodup_cons.1 hn).1 hw
      exact ⟨hR u List.mem_cons_self w (List.mem_cons_of_mem _ hw) x y hx hy hne,
        hR w (List.mem_cons_of_mem _ hw) u List.mem_cons_self y x hy hx hne.symm⟩
    have huC := hBC u List.mem_cons_self
    by_cases ha1 : a ∈ B u <;> by_cases hb1 : b ∈ B u
    · rw [List.idxOf_append_of_mem ha1, List.idxOf_append_of_mem hb1, List.idxOf_append_of_mem ((huC a).2 ha1), List.idxOf_append_of_mem ((huC b).2 hb1)]
      exact hw u List.mem_cons_self a b ha1 hb1
    · have hb2 := hb.resolve_left hb1
      refine iff_of_false ?_ (hRd a b ha1 hb2).1
      rintro ⟨-, h2⟩
      rw [List.idxOf_append_of_mem ((huC a).2 ha1), List.idxOf_append_of_notMem (fun h => hb1 ((huC b).1 h))] at h2
      have := List.idxOf_lt_length_of_mem ((huC a).2 ha1)
      omega
    · have ha2 := ha.resolve_left ha1
      refine iff_of_false ?_ (hRd b a hb1 ha2).2
      rintro ⟨h1, -⟩
      rw [List.idxOf_append_of_mem hb1, List.idxOf_append_of_notMem ha1] at h1
      have := List.idxOf_lt_length_of_mem hb1
      omega
    · have ha2 := ha.resolve_left ha1
      have hb2 := hb.resolve_left hb1
      rw [List.idxOf_append_of_notMem ha1, List.idxOf_append_of_notMem hb1, List.idxOf_append_of_notMem (fun h => ha1 ((huC a).1 h)),
        List.idxOf_append_of_notMem (fun h => hb1 ((huC b).1 h)), Nat.add_le_add_iff_left, Nat.add_le_add_iff_left]
      exact ih (fun w hw => hBC w (List.mem_cons_of_mem _ hw)) (fun w hw w' hw' => hd w (List.mem_cons_of_mem _ hw) w' (List.mem_cons_of_mem _ hw'))
        (List.nodup_cons.1 hn).2 (fun w hw w' hw' => hR w (List.mem_cons_of_mem _ hw) w' (List.mem_cons_of_mem _ hw'))
        (fun w hw' => hw w (List.mem_cons_of_mem _ hw')) a b ha2 hb2

theorem ancestor_blocks (h : IsDijkstra G s dij) : ∀ (n : Nat) (v : V), v ∈ dij.distKeys → HeightLE (kids s dij) n v →
    ∀ a b, a ∈ preBlock (kids s dij) n v → b ∈ preBlock (kids s dij) n v →
    (((preBlock (kids s dij) n v).idxOf a ≤ (preBlock (kids s dij) n v).idxOf b ∧
      (postBlock (kids s dij) n v).idxOf b ≤ (postBlock (kids s dij) n v).idxOf a) ↔ a ∈ dij.path b) := by
  intro n
  induction n with
  | zero => intro v _ h; exact h.elim
  | succ n ih =>
    intro v hv hh a b ha hb
    have hb' := (mem_preBlock h (n + 1) v b hv hh).1 hb
    have ha' := (mem_preBlock h (n + 1) v a hv hh).1 ha
    have hnd := preBlock_nodup h (n + 1) v hv hh
    simp only [preBlock, postBlock] at ha hb hnd ⊢
    have hvF := (List.nodup_cons.1 hnd).1
    have hvC : v ∉ (kids s dij v).flatMap (postBlock (kids s dij) n) := by
      intro hx
      apply hvF
      simp only [List.mem_flatMap] at hx ⊢
      obtain ⟨u, hu, hx⟩ := hx
      exact ⟨u, hu, (mem_postBlock_iff _ _ _ _).1 hx⟩
    have hmem : ∀ x, x ∈ (kids s dij v).flatMap (preBlock (kids s dij) n) → x ∈ (kids s dij v).flatMap (postBlock (kids s dij) n) := by
      intro x hx
      simp only [List.mem_flatMap] at hx ⊢
      obtain ⟨u, hu, hx⟩ := hx
      exact ⟨u, hu, (mem_postBlock_iff _ _ _ _).2 hx⟩
    by_cases hav : a = v
    · subst hav
      refine iff_of_true ⟨by simp, ?_⟩ hb'.2
      rw [List.idxOf_append_of_notMem hvC, List.idxOf_cons_self]
      rcases List.mem_cons.1 hb with rfl | hb
      · rw [List.idxOf_append_of_notMem hvC]; simp
      · rw [List.idxOf_append_of_mem (hmem b hb)]
        exact le_trans (le_of_lt (List.idxOf_lt_length_of_mem (hmem b hb))) (by simp)
    · by_cases hbv : b = v
      · subst hbv
        refine iff_of_false ?_ ?_
        · rintro ⟨h1, -⟩
          rw [List.idxOf_cons_self, List.idxOf_cons_ne _ (Ne.symm hav)] at h1
          omega
        · intro hm
          exact hav (h.path_antisymm ha'.1 hv hm ha'.2)
      · have ha1 := (List.mem_cons.1 ha).resolve_left hav
        have hb1 := (List.mem_cons.1 hb).resolve_left hbv
        rw [List.idxOf_cons_ne _ (Ne.symm hav), List.idxOf_cons_ne _ (Ne.symm hbv), List.idxOf_append_of_mem (hmem a ha1),
          List.idxOf_append_of_mem (hmem b hb1), Nat.succ_le_succ_iff]
        refine idxOf_flatMap (B := preBlock (kids s dij) n) (C := postBlock (kids s dij) n) (R := fun a b => a ∈ dij.path b) (kids s dij v)
          (fun u _ x => mem_postBlock_iff _ _ _ _) (fun u hu w hw z h1 h2 => blocks_disjoint h hh hu hw h1 h2) (h.treeSucc_nodup v) ?_ ?_ a b ha1 hb1
        · intro u hu w hw a b ha hb hne hab
          have cu := h.mem_treeSucc.1 hu
          have cw := h.mem_treeSucc.1 hw
          obtain ⟨ka, pa⟩ := (mem_preBlock h n u a cu.key (hh u hu)).1 ha
          obtain ⟨kb, pb⟩ := (mem_preBlock h n w b cw.key (hh w hw)).1 hb
          exact hne (cu.eq_of_mem h cw kb (h.path_trans kb pa hab) pb)
        · intro u hu a b ha hb
          exact ih u (h.mem_treeSucc.1 hu).key (hh u hu) a b ha hb

/-- The numbers of `preorder` and `postorder`, if there are enough nested calls. -/
theorem orders_ok (h : IsDijkstra G s dij) {n : Nat} (hn : ∀ x ∈ dij.distKeys, (dij.path x).length ≤ n) :
    ∃ pre post A B, preorder (kids s dij) n s = .ok (pre, A) ∧ postorder (kids s dij) n s = .ok (post, B) ∧
      A.Perm dij.distKeys ∧ B.Perm dij.distKeys ∧ (∀ x ∈ dij.distKeys, pre x = A.idxOf x ∧ post x = B.idxOf x) ∧
      ∀ a ∈ dij.distKeys, ∀ b ∈ dij.distKeys, (isAncestor pre post a b = true ↔ a ∈ dij.path b) := by
  have hh : HeightLE (kids s dij) n s := by
    rw [heightLE_iff h n s h.source]
    intro x hx _
    have := hn x hx
    rw [h.pathSource]; simp; omega
  have hpre := preorderRec_ok (kids s dij) n s (fun _ => maxsize) [] hh (preBlock_nodup h n s h.source hh)
  have hpost := postorderRec_ok (kids s dij) n s (fun _ => maxsize) [] hh (postBlock_nodup h n s h.source hh)
  have hmem : ∀ x, x ∈ preBlock (kids s dij) n s ↔ x ∈ dij.distKeys := by
    intro x
    rw [mem_preBlock h n s x h.source hh]
    exact ⟨fun h1 => h1.1, fun h1 => ⟨h1, h.source_mem_path h1⟩⟩
  have hmem2 : ∀ x, x ∈ postBlock (kids s dij) n s ↔ x ∈ dij.distKeys := fun x => (mem_postBlock_iff _ _ _ _).trans (hmem x)
  refine ⟨_, _, _, _, hpre, hpost, ?_, ?_, ?_, ?_⟩
  · simp only [List.nil_append]
    exact (List.perm_ext_iff_of_nodup (preBlock_nodup h n s h.source hh) h.nodup).2 hmem
  · simp only [List.nil_append]
    exact (List.perm_ext_iff_of_nodup (postBlock_nodup h n s h.source hh) h.nodup).2 hmem2
  · intro x hx
    simp [numbered, (hmem x).2 hx, (hmem2 x).2 hx]
  · intro a ha b hb
    rw [← ancestor_blocks h n s h.source hh a b ((hmem a).2 ha) ((hmem b).2 hb)]
    simp [isAncestor, numbered, (hmem a).2 ha, (hmem2 a).2 ha, (hmem b).2 hb, (hmem2 b).2 hb]

end Pctsp
