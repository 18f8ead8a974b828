import Verif.Spec.Shortcut
import Verif.Lemmas.Collapse

/-! Helper lemmas: where the result of `collapse` comes from. -/

namespace Pctsp

/-- A sub path that was cut below the quota is a run of the tour whose next vertex would reach the quota. -/
theorem subPathLoop_run (t : List Nat) (prize : Nat → Int) (quota : Int) (root : Nat) (h2 : 2 ≤ t.length)
    (m pos : Nat) (sp : SubPath) (hpos : pos ≤ t.length) (hm : m + pos ≤ t.length + (t.length - 1)) (hm' : m ≤ t.length - 1)
    (hprize : sp.prizeOfPath = prizeSum prize sp.path) (hff : sp.feasibleFound = false) (sp' : SubPath)
    (h : subPathLoop t prize quota root m pos sp = .ok sp') (hf : sp'.feasibleFound = true) :
    ∃ k w, k < m ∧ sp'.path = sp.path ++ (t.drop pos ++ t.tail).take k ∧ (t.drop pos ++ t.tail)[k]? = some w ∧
      prizeSum prize sp'.path < quota ∧ quota ≤ prizeSum prize sp'.path + prize w := by
  induction m generalizing pos sp with
  | zero => rw [subPathLoop] at h; cases h; rw [hff] at hf; cases hf
  | succ m ih =>
    rw [subPathLoop] at h
    by_cases hq : sp.prizeOfPath < quota
    · rw [if_pos hq] at h
      simp only at h
      have key : ∀ pos1, pos1 < t.length → m + 1 + pos1 ≤ t.length + (t.length - 1) →
          (∀ k ≤ m, (t.drop pos1 ++ t.tail)[k]? = (t.drop pos ++ t.tail)[k]?) →
          (∀ k ≤ m + 1, (t.drop pos1 ++ t.tail).take k = (t.drop pos ++ t.tail).take k) →
          (match t[pos1]? with
            | none => Res.ub "getSubPathOverTour: iterator out of range"
            | some c =>
              if sp.prizeOfPath + prize c ≥ quota then .ok { sp with feasibleFound := true }
              else subPathLoop t prize quota root m (pos1 + 1)
                { sp with path := sp.path ++ [c], prizeOfPath := sp.prizeOfPath + prize c, rootSeen := (sp.rootSeen || decide (c = root)) }) = .ok sp' →
          ∃ k w, k < m + 1 ∧ sp'.path = sp.path ++ (t.drop pos ++ t.tail).take k ∧ (t.drop pos ++ t.tail)[k]? = some w ∧
            prizeSum prize sp'.path < quota ∧ quota ≤ prizeSum prize sp'.path + prize w := by
        intro pos1 hp1 hm1 hget htake h
        rw [List.getElem?_eq_getElem hp1] at h
        simp only at h
        by_cases hf : sp.prizeOfPath + prize t[pos1] ≥ quota
        · rw [if_pos hf] at h
          cases h
          refine ⟨0, t[pos1], by omega, by simp, ?_, by simp only; omega, by simp only; omega⟩
          rw [← hget 0 (by omega), List.drop_eq_getElem_cons hp1]; rfl
        · rw [if_neg hf] at h
          obtain ⟨k, w, r1, r2, r3, r4, r5⟩ := ih (pos1 + 1) _ (by omega) (by omega) (by omega) (by simp only; rw [hprize]; simp) (by simpa using hff) h
          refine ⟨k + 1, w, by omega, ?_, ?_, r4, r5⟩
          · rw [r2, ← htake (k + 1) (by omega), List.drop_eq_getElem_cons hp1, List.cons_append, List.take_succ_cons, List.append_assoc]
            rfl
          · rw [← hget (k + 1) (by omega), List.drop_eq_getElem_cons hp1, List.cons_append, List.getElem?_cons_succ]; exact r3
      by_cases hp : pos = t.length
      · rw [if_pos hp] at h
        subst hp
        refine key 1 (by omega) (by omega) ?_ ?_ h
        · intro k hk
          rw [List.drop_one, List.drop_length, List.nil_append, List.getElem?_append_left (by simp; omega)]
        · intro k hk
          rw [List.drop_one, List.drop_length, List.nil_append, List.take_append_of_le_length (by simp; omega)]
      · rw [if_neg hp] at h
        exact key pos (by omega) hm (fun _ _ => rfl) (fun _ _ => rfl) h
    · rw [if_neg hq] at h
      cases h; rw [hff] at hf; cases hf

theorem getSubPathOverTour_run {g : Graph} {a : Nat} {t : List Nat} (ht : IsTour g a t) (prize : Nat → Int) (quota : Int) (root : Nat)
    {i : Nat} (hi : i < t.length) {sp : SubPath} (h : getSubPathOverTour t i prize quota root = .ok sp) (hf : sp.feasibleFound = true) :
    ∃ w, RunOf t sp.path w ∧ quota ≤ prizeSum prize sp.path + prize w := by
  have h2 : 2 ≤ t.length := by
    obtain ⟨m, hm⟩ := ht.shape
    rw [hm]; simp
  rw [getSubPathOverTour, List.getElem?_eq_getElem hi] at h
  obtain ⟨k, w, r1, r2, r3, -, r5⟩ := subPathLoop_run t prize quota root h2 (t.length - 2) (i + 1) _ (by omega) (by omega) (by omega)
    (by simp) rfl sp h hf
  refine ⟨w, ⟨by rw [r2]; simp, ?_, i, hi, ?_⟩, r5⟩
  · rw [r2]; simp; omega
  · have e : t.drop i ++ t.tail = t[i] :: (t.drop (i + 1) ++ t.tail) := by rw [List.drop_eq_getElem_cons hi]; rfl
    rw [e, r2, List.singleton_append, List.cons_append, List.cons_prefix_cons]
    refine ⟨rfl, ?_⟩
    have : (t.drop (i + 1) ++ t.tail).take k ++ [w] = (t.drop (i + 1) ++ t.tail).take (k + 1) := by
      rw [List.take_add_one, r3]; rfl
    rw [this]
    exact List.take_prefix _ _

/-- The candidates that pass through one vertex have three vertices. -/
theorem collapseVia_length {g : Graph} {prize : Nat → Int} {quota : Int} {P : List Nat} {s t : Nat} (cs : List Nat) (l : List (List Nat))
    (h : collapseVia g prize quota P s t cs = .ok l) : ∀ p ∈ l, p.length = 3 := by
  induction cs generalizing l with
  | nil => cases h; simp
  | cons x cs ih =>
    rw [collapseVia] at h
    obtain ⟨e, -, h⟩ := Res.bind_eq_ok.1 h
    obtain ⟨l', h1, h⟩ := Res.bind_eq_ok.1 h
    split at h
    · cases h
      intro p hp
      rcases List.mem_cons.1 hp with rfl | hp
      · rfl
      · exact ih l' h1 p hp
    · cases h; exact ih l h1

/-- The current best tour of `collapse` is the given one or a sub path closed by one of its candidates. -/
def CollapseMade (g : Graph) (t : List Nat) (cost prize : Nat → Int) (quota : Int) (root : Nat) (useShortest : Bool) (pick : Nat → Pick)
    (best : List Nat) : Prop :=
  best = t ∨ ∃ i, i < t.length ∧ ∃ sp l ext, getSubPathOverTour t i prize quota root = .ok sp ∧ sp.rootSeen = true ∧ sp.feasibleFound = true ∧
    findCollapsePaths g cost prize quota sp.path useShortest (pick i) = .ok l ∧ ext ∈ l ∧ best = sp.path ++ ext.tail

theorem collapseStep_made {g : Graph} {t : List Nat} {cost prize : Nat → Int} {quota : Int} {root : Nat} {useShortest : Bool}
    {pick : Nat → Pick} {i : Nat} (hi : i < t.length) {st st' : List Nat × Int}
    (hm : CollapseMade g t cost prize quota root useShortest pick st.1)
    (h : collapseStep g t cost prize quota root useShortest (pick i) i st = .ok st') :
    CollapseMade g t cost prize quota root useShortest pick st'.1 := by
  rw [collapseStep] at h
  obtain ⟨sp, h1, h⟩ := Res.bind_eq_ok.1 h
  split at h
  · rename_i hc
    simp at hc
    obtain ⟨l, h2, h⟩ := Res.bind_eq_ok.1 h
    obtain ⟨ic, h3, h⟩ := Res.bind_eq_ok.1 h
    obtain ⟨⟨b, bc⟩, h4, h⟩ := Res.bind_eq_ok.1 h
    simp only at h
    cases b with
    | none => cases h; exact hm
    | some b =>
      simp only at h
      cases he : l[b]? with
      | none => rw [he] at h; cases h
      | some ext =>
        rw [he] at h
        cases h
        exact Or.inr ⟨i, hi, sp, l, ext, h1, hc.1, hc.2, h2, List.mem_of_getElem? he, rfl⟩
  · cases h; exact hm

theorem collapseLoop_made {g : Graph} {t : List Nat} {cost prize : Nat → Int} {quota : Int} {root : Nat} {useShortest : Bool}
    {pick : Nat → Pick} (i : Nat) (hi : i ≤ t.length) {st st' : List Nat × Int}
    (hm : CollapseMade g t cost prize quota root useShortest pick st.1)
    (h : collapseLoop g t cost prize quota root useShortest pick i st = .ok st') :
    CollapseMade g t cost prize quota root useShortest pick st'.1 := by
  induction i generalizing st with
  | zero => rw [collapseLoop] at h; cases h; exact hm
  | succ i ih =>
    rw [collapseLoop] at h
    obtain ⟨s, h1, h⟩ := Res.bind_eq_ok.1 h
    exact ih (by omega) (collapseStep_made (by omega) hm h1) h

/-- The result of `collapse` is the given tour, or a run of it closed by a path. -/
theorem collapse_form {g : Graph} (hg : g.WF) {a : Nat} {t : List Nat} (ht : IsTour g a t) {root : Nat} {cost prize : Nat → Int}
    (hp : ∀ v, 0 ≤ prize v) {quota : Int} {useShortest : Bool} {pick : Nat → Pick} (hpick : ∀ i, (pick i).Heap) {t' : List Nat}
    (h : collapse g t cost prize quota root useShortest pick = .ok t') :
    t' = reorderTourFromRoot t root ∨ ∃ P X, Shortcut (Adj g) prize quota root t P X ∧ (X.length = 1 ∨ useShortest = true) ∧
      t' = reorderTourFromRoot (closeRun P X) root := by
  rw [collapse] at h
  obtain ⟨c, -, h⟩ := Res.bind_eq_ok.1 h
  obtain ⟨⟨best, bc⟩, h1, h⟩ := Res.bind_eq_ok.1 h
  cases h
  rcases collapseLoop_made t.length (Nat.le_refl _) (st := (t, c)) (Or.inl rfl) h1 with h2 | ⟨i, hi, sp, l, ext, e1, e2, e3, e4, e5, e6⟩
  · left
    simp only at h2
    rw [h2]
  · right
    obtain ⟨sp', e1', hne, hseen, hlow, hnd, hw, hmem⟩ := getSubPathOverTour_spec ht prize quota root hi
    rw [e1] at e1'; cases e1'
    have hroot : root ∈ sp.path := by rw [hseen] at e2; simpa using e2
    have hlow := hlow e3
    obtain ⟨w, hrun, hreach⟩ := getSubPathOverTour_run ht prize quota root hi e1 e3
    obtain ⟨x, hx⟩ : ∃ x, sp.path.head? = some x := by
      cases h : sp.path with
      | nil => exact absurd h hne
      | cons x l => exact ⟨x, rfl⟩
    obtain ⟨y, hy⟩ : ∃ y, sp.path.getLast? = some y := by
      cases h : sp.path.getLast? with
      | none => simp at h; exact absurd h hne
      | some x => exact ⟨x, rfl⟩
    have hyn : y < g.n := by
      have : y ∈ t := hmem y (List.mem_of_getLast? hy)
      obtain ⟨m, hm⟩ := ht.shape
      exact ht.walk.lt hg (by rw [hm]; simp) y this
    obtain ⟨via, v1, v2⟩ := collapseVia_spec hg prize quota hy hx (g.adjacent y) (fun c hc => mem_adjacent.1 hc)
    rw [findCollapsePaths, hx, hy] at e4
    simp only [Graph.adjacentVertices, if_pos hyn, Res.ok_bind, v1] at e4
    have hcl : Closes g prize quota sp.path ext ∧ (ext.length = 3 ∨ useShortest = true) := by
      cases useShortest with
      | false => cases e4; exact ⟨v2 ext e5, Or.inl (collapseVia_length _ _ v1 ext e5)⟩
      | true =>
        simp only [if_true] at e4
        rcases collapseShortest_spec hg cost prize quota hnd hy hx hyn (hpick i) with ⟨r1, r2⟩ | ⟨l3, r1, r2⟩
        · rw [r1] at e4; cases e4
        · rw [r1] at e4; cases e4
          refine ⟨?_, Or.inr rfl⟩
          rcases List.mem_append.1 e5 with h | h
          · exact v2 ext h
          · exact r2 ext h
    obtain ⟨hcl, hlen⟩ := hcl
    have hpos : 0 ≤ prizeSum prize sp.path := prizeSum_nonneg hp _
    have hclose := hcl.tour (cost := cost) hnd hw
    rcases hcl.cases with ⟨f, -, -, hq⟩ | ⟨s, u, X, rfl, hX, hfresh, hq, hsu⟩
    · omega
    · have hhead := hcl.head
      have hlast := hcl.last
      simp at hhead
      rw [← List.cons_append, List.getLast?_concat] at hlast
      rw [hx] at hlast; cases hlast
      rw [hy] at hhead; cases hhead
      have htake : sp.path.take 1 = [x] := by
        cases hs : sp.path with
        | nil => exact absurd hs hne
        | cons z l => rw [hs] at hx; simp at hx; subst hx; rfl
      have hclosed : closeRun sp.path X = sp.path ++ (y :: (X ++ [x])).tail := by rw [closeRun, htake]; rfl
      rcases hclose with ⟨f, -, -, hq0⟩ | ⟨b, c1, -⟩
      · omega
      · refine ⟨sp.path, X, ⟨⟨w, hrun, hreach⟩, ?_, hroot, hlow, hfresh, hX, hq, ?_⟩, ?_, ?_⟩
        · rcases hs : sp.path with _ | ⟨p, _ | ⟨q, P⟩⟩
          · exact absurd hs hne
          · rw [hs] at hx hy; simp at hx hy; exact absurd (hy.symm.trans hx) hsu
          · simp
        · rw [hclosed]; exact c1.walk
        · rcases hlen with h | h
          · left; simpa using h
          · exact Or.inr h
        · rw [hclosed]; simp only at e6; rw [e6]

end Pctsp

namespace Pctsp

/-! ### Short cuts under a renaming -/

variable {α β : Type}

theorem RunOf.transport {R : α → β → Prop} {t : List α} {T : List β} (ht : List.Forall₂ R t T) {P : List α} {w : α} (h : RunOf t P w) :
    ∃ P' w', List.Forall₂ R P P' ∧ R w w' ∧ RunOf T P' w' := by
  obtain ⟨hne, hlen, i, hi, hpre⟩ := h
  have htail : List.Forall₂ R t.tail T.tail := by
    rw [← List.drop_one, ← List.drop_one]; exact List.forall₂_drop 1 ht
  have hall : List.Forall₂ R (t.drop i ++ t.tail) (T.drop i ++ T.tail) := List.rel_append (List.forall₂_drop i ht) htail
  have htake := List.forall₂_take (P.length + 1) hall
  have e : (t.drop i ++ t.tail).take (P.length + 1) = P ++ [w] := by
    have := List.prefix_iff_eq_take.1 hpre
    rw [List.length_append, List.length_singleton] at this
    exact this.symm
  rw [e] at htake
  obtain ⟨P', W, h1, h2, h3⟩ : ∃ P' W, List.Forall₂ R P P' ∧ List.Forall₂ R [w] W ∧ (T.drop i ++ T.tail).take (P.length + 1) = P' ++ W := by
    refine ⟨_, _, (List.forall₂_take_append _ P [w] htake.flip).flip, (List.forall₂_drop_append _ P [w] htake.flip).flip, ?_⟩
    rw [List.take_append_drop]
  cases h2 with
  | cons hw hnil =>
    cases hnil
    refine ⟨P', _, h1, hw, ?_, ?_, i, ?_, ?_⟩
    · rintro rfl
      cases h1
      exact hne rfl
    · rw [← h1.length_eq, ← ht.length_eq]; exact hlen
    · rw [← ht.length_eq]; exact hi
    · rw [← h3]; exact List.take_prefix _ _

theorem forall₂_mem {R : α → β → Prop} {l : List α} {L : List β} (h : List.Forall₂ R l L) {x : α} (hx : x ∈ l) : ∃ y ∈ L, R x y := by
  induction h with
  | nil => simp at hx
  | cons hab _ ih =>
    rcases List.mem_cons.1 hx with rfl | hx
    · exact ⟨_, by simp, hab⟩
    · obtain ⟨y, hy, hr⟩ := ih hx
      exact ⟨y, by simp [hy], hr⟩

theorem forall₂_sum {R : α → β → Prop} {π : α → Int} {π' : β → Int} (hπ : ∀ x k, R x k → π x = π' k) {l : List α} {L : List β}
    (h : List.Forall₂ R l L) : (l.map π).sum = (L.map π').sum := by
  induction h with
  | nil => rfl
  | cons hab _ ih => rw [List.map_cons, List.map_cons, List.sum_cons, List.sum_cons, hπ _ _ hab, ih]

theorem forall₂_nodup_of {R : α → β → Prop} (hl : ∀ x y k, R x k → R y k → x = y) {l : List α} {L : List β} (h : List.Forall₂ R l L)
    (hn : l.Nodup) : L.Nodup := by
  induction h with
  | nil => simp
  | @cons a b l L hab hrest ih =>
    rw [List.nodup_cons] at hn ⊢
    refine ⟨fun hb => ?_, ih hn.2⟩
    obtain ⟨y, hy, hr⟩ := forall₂_mem hrest.flip hb
    exact hn.1 (hl _ _ _ hab hr ▸ hy)

theorem forall₂_closeRun {R : α → β → Prop} {P X : List α} {P' X' : List β} (h1 : List.Forall₂ R P P') (h2 : List.Forall₂ R X X') :
    List.Forall₂ R (closeRun P X) (closeRun P' X') :=
  List.rel_append h1 (List.rel_append h2 (List.forall₂_take 1 h1))

theorem forall₂_consec {R : α → β → Prop} {l : List α} {L : List β} (h : List.Forall₂ R l L) :
    List.Forall₂ (fun p q => R p.1 q.1 ∧ R p.2 q.2) (consec l) (consec L) := by
  induction h with
  | nil => exact List.Forall₂.nil
  | cons hab hrest ih =>
    cases hrest with
    | nil => exact List.Forall₂.nil
    | cons hcd hrest => exact List.Forall₂.cons ⟨hab, hcd⟩ ih

theorem Shortcut.transport {R : α → β → Prop} (hl : ∀ x y k, R x k → R y k → x = y) (hr : ∀ x k j, R x k → R x j → k = j)
    {adj : α → α → Prop} {adj' : β → β → Prop} (hadj : ∀ x y k j, R x k → R y j → adj x y → adj' k j)
    {π : α → Int} {π' : β → Int} (hπ : ∀ x k, R x k → π x = π' k) {t : List α} {T : List β} (ht : List.Forall₂ R t T)
    {root : α} {root' : β} (hroot : R root root') {quota : Int} {P X : List α} {X' : List β} (hX : List.Forall₂ R X X')
    (h : Shortcut adj π quota root t P X) : ∃ P', List.Forall₂ R P P' ∧ Shortcut adj' π' quota root' T P' X' := by
  obtain ⟨w, hrun, hreach⟩ := h.run
  obtain ⟨P', w', h1, h2, h3⟩ := hrun.transport ht
  have hs := forall₂_sum hπ h1
  refine ⟨P', h1, ⟨w', h3, ?_⟩, ?_, ?_, ?_, ?_, forall₂_nodup_of hl hX h.nodup, ?_, ?_⟩
  · rw [← hs, ← hπ _ _ h2]; exact hreach
  · rw [← h1.length_eq]; exact h.two
  · obtain ⟨k, hk, hk'⟩ := forall₂_mem h1 h.root
    rw [hr _ _ _ hroot hk']; exact hk
  · rw [← hs]; exact h.low
  · intro v hv hvP
    obtain ⟨x, hx, e1⟩ := forall₂_mem hX.flip hv
    obtain ⟨y, hy, e2⟩ := forall₂_mem h1.flip hvP
    have : x = y := hl _ _ _ e1 e2
    exact h.fresh x hx (this ▸ hy)
  · rw [← hs, ← forall₂_sum hπ hX]; exact h.enough
  · intro q hq
    obtain ⟨p, hp, e⟩ := forall₂_mem (forall₂_consec (forall₂_closeRun h1 hX)).flip hq
    exact hadj _ _ _ _ e.1 e.2 (h.walk p hp)

end Pctsp
