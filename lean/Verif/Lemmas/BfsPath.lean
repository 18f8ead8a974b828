import Verif.Lemmas.Bfs
import Mathlib.Data.List.Perm.Subperm

/-! Helper lemmas: parent chains of the searches; the depth first search. -/

namespace Pctsp

theorem nodup_length_le {n : Nat} {l : List Nat} (h : l.Nodup) (h2 : ∀ x ∈ l, x < n) : l.length ≤ n := by
  have := (h.subperm (l₂ := List.range n) (by intro x hx; simp [h2 x hx])).length_le
  simpa using this

theorem BfsRes.chain {g : Graph} {m0 m : Nat → Bool} {s D : Nat} {p lev : Nat → Nat} (hs : s < g.n)
    (h : BfsRes g m0 s D m p lev) (k : Nat) (v : Nat) (hk : lev v = k) (hv : m v = true) (hv0 : m0 v = false ∨ v = s) :
    ∃ l, (s :: l).getLast? = some v ∧ IsWalk g (s :: l) ∧ (s :: l).Nodup ∧ l.length = k ∧
      (∀ x ∈ l, m0 x = false ∧ m x = true) ∧ (∀ x ∈ s :: l, x < g.n ∧ lev x ≤ k) ∧
      (∀ fuel, k ≤ fuel → ∀ path, climb p fuel v (v :: path) = s :: l ++ path) := by
  induction k generalizing v with
  | zero =>
    have hvs : v = s := by
      by_contra hne
      have := h.new v hv hne (hv0.resolve_right hne)
      omega
    subst hvs
    refine ⟨[], rfl, by simp, by simp, rfl, by simp, by simp [hs, hk], ?_⟩
    intro fuel _ path
    cases fuel with
    | zero => rfl
    | succ fuel => simp [climb, h.src_p]
  | succ k ih =>
    have hvs : v ≠ s := by
      rintro rfl
      rw [h.src_lev] at hk; omega
    have hv0' := hv0.resolve_right hvs
    obtain ⟨a1, a2, a3, a4, a5, a6⟩ := h.new v hv hvs hv0'
    obtain ⟨l, b1, b2, b3, b4, b5, b6, b7⟩ := ih (p v) (by omega) a2 a3
    have hnot : v ∉ s :: l := by
      intro hm; have := (b6 v hm).2; omega
    refine ⟨l ++ [v], ?_, ?_, ?_, by simp [b4], ?_, ?_, ?_⟩
    · rw [← List.cons_append, List.getLast?_concat]
    · have : ∃ l', s :: l = l' ++ [p v] := by
        have := List.getLast?_eq_some_iff.1 b1
        exact this
      obtain ⟨l', hl'⟩ := this
      have e : s :: (l ++ [v]) = l' ++ p v :: [v] := by
        rw [← List.cons_append, hl']; simp
      rw [e, isWalk_append, ← hl']
      exact ⟨b2, by simpa [IsWalk, consec] using a4⟩
    · rw [← List.cons_append, List.nodup_append]
      refine ⟨b3, by simp, ?_⟩
      intro x hx y hy
      simp at hy; subst hy
      rintro rfl; exact hnot hx
    · intro x hx
      rcases List.mem_append.1 hx with hx | hx
      · exact b5 x hx
      · simp at hx; subst hx; exact ⟨hv0', hv⟩
    · intro x hx
      rw [← List.cons_append] at hx
      rcases List.mem_append.1 hx with hx | hx
      · have := b6 x hx; exact ⟨this.1, by omega⟩
      · simp at hx; subst hx; exact ⟨a1, by omega⟩
    · intro fuel hf path
      cases fuel with
      | zero => omega
      | succ fuel =>
        have : p v ≠ v := by intro e; rw [e] at a5; omega
        rw [climb, if_neg this, b7 fuel (by omega)]
        simp

/-- The path read off the parent table after a search. -/
theorem BfsRes.path {g : Graph} {m0 m : Nat → Bool} {s D : Nat} {p lev : Nat → Nat} (hs : s < g.n)
    (h : BfsRes g m0 s D m p lev) (v : Nat) (hv : m v = true) (hv0 : m0 v = false ∨ v = s) :
    ∃ l, pathInTreeFromParents p g.n v = s :: l ∧ (s :: l).getLast? = some v ∧ IsWalk g (s :: l) ∧ (s :: l).Nodup ∧
      l.length = lev v ∧ l.length ≤ D ∧ (∀ x ∈ l, m0 x = false ∧ m x = true) ∧ (∀ x ∈ s :: l, x < g.n) := by
  obtain ⟨l, b1, b2, b3, b4, b5, b6, b7⟩ := h.chain hs (lev v) v rfl hv hv0
  have hlen : (s :: l).length ≤ g.n := nodup_length_le b3 (fun x hx => (b6 x hx).1)
  simp only [List.length_cons] at hlen
  refine ⟨l, ?_, b1, b2, b3, b4, ?_, b5, fun x hx => (b6 x hx).1⟩
  · have := b7 (g.n + 1) (by omega) []
    simpa [pathInTreeFromParents] using this
  · by_cases hvs : v = s
    · subst hvs; rw [b4, h.src_lev]; omega
    · have := h.new v hv hvs (hv0.resolve_right hvs); omega

/-- Completeness of the breadth first search. -/
theorem bfs_complete {g : Graph} {m0 m : Nat → Bool} {s D : Nat} {p lev : Nat → Nat}
    (h : BfsRes g m0 s D m p lev) (hc : BfsClosed g m0 s m lev (fun u => lev u < D))
    (l : List Nat) (v : Nat) (hw : IsWalk g (s :: l)) (hl : (s :: l).getLast? = some v)
    (hm : ∀ x ∈ l, m0 x = false) (hlen : l.length ≤ D) : m v = true ∧ lev v ≤ l.length := by
  induction l using List.reverseRecOn generalizing v with
  | nil => simp at hl; subst hl; simp [h.src_m, h.src_lev]
  | append_singleton l w ih =>
    have : w = v := by
      rw [← List.cons_append, List.getLast?_concat] at hl; exact Option.some.inj hl
    subst this
    obtain ⟨l', u, hl'⟩ : ∃ l' u, s :: l = l' ++ [u] := by
      rcases List.eq_nil_or_concat (s :: l) with h | ⟨a, b, h⟩
      · simp at h
      · exact ⟨a, b, by rw [h, List.concat_eq_append]⟩
    have e : s :: (l ++ [w]) = l' ++ u :: [w] := by
      rw [← List.cons_append, hl']; simp
    rw [e, isWalk_append, ← hl'] at hw
    simp only [List.length_append, List.length_singleton] at hlen ⊢
    obtain ⟨i1, i2⟩ := ih u hw.1 (by rw [hl']; simp) (fun x hx => hm x (by simp [hx])) (by omega)
    have hun : m0 u = false ∨ u = s := by
      have : u ∈ s :: l := by rw [hl']; simp
      rcases List.mem_cons.1 this with h | h
      · exact Or.inr h
      · exact Or.inl (hm u (by simp [h]))
    have hadj : Adj g u w := by simpa [IsWalk, consec] using hw.2
    obtain ⟨j1, j2⟩ := hc u i1 hun (by omega) w hadj
    exact ⟨j1, by have := j2 (Or.inl (hm w (by simp))); omega⟩

/-- Adding a neighbour to a search tree. -/
theorem BfsRes.extend {g : Graph} (hg : g.WF) {m0 m : Nat → Bool} {s D : Nat} {p lev : Nat → Nat}
    (h : BfsRes g m0 s D m p lev) {u w : Nat} (hu : m u = true) (hun : m0 u = false ∨ u = s) (hw : m w = false)
    (hadj : Adj g u w) (hD : lev u + 1 ≤ D) :
    BfsRes g m0 s D (upd m w true) (upd p w u) (upd lev w (lev u + 1)) := by
  have hne : ∀ v, m v = true → v ≠ w := by rintro v hv rfl; rw [hw] at hv; simp at hv
  have hmk : ∀ v, m v = true → upd m w true v = true := fun v hv => (upd_ne _ _ (hne v hv)).trans hv
  refine ⟨fun v hv => hmk v (h.old v hv), hmk _ h.src_m, (upd_ne _ _ (hne _ h.src_m)).trans h.src_p,
    (upd_ne _ _ (hne _ h.src_m)).trans h.src_lev, ?_⟩
  intro v hv hvs hv0
  by_cases e : v = w
  · subst e
    rw [upd_self, upd_self, upd_ne lev _ (hne u hu)]
    exact ⟨hadj.lt_right hg, hmk u hu, hun, hadj, rfl, hD⟩
  · rw [upd_ne _ _ e] at hv
    obtain ⟨a1, a2, a3, a4, a5, a6⟩ := h.new v hv hvs hv0
    rw [upd_ne p _ e, upd_ne lev _ e, upd_ne lev _ (hne _ a2)]
    exact ⟨a1, hmk _ a2, a3, a4, a5, a6⟩

theorem dfsList_spec {g : Graph} (hg : g.WF) {m0 : Nat → Bool} {s D d : Nat}
    (hdfs : ∀ (u : Nat) (m : Nat → Bool) (p lev : Nat → Nat), BfsRes g m0 s D (upd m u true) p lev →
      (m0 u = false ∨ u = s) → lev u + d ≤ D →
      ∃ lev', BfsRes g m0 s D (dfs g u d (m, p)).1 (dfs g u d (m, p)).2 lev' ∧
        ∀ x, upd m u true x = true → (dfs g u d (m, p)).1 x = true ∧ lev' x = lev x)
    (u : Nat) (nbrs : List Nat) (hn : ∀ v ∈ nbrs, Adj g u v) (m : Nat → Bool) (p lev : Nat → Nat)
    (h : BfsRes g m0 s D m p lev) (hu : m u = true) (hun : m0 u = false ∨ u = s) (hlev : lev u + (d + 1) ≤ D) :
    ∃ lev', BfsRes g m0 s D (dfsList g u d nbrs (m, p)).1 (dfsList g u d nbrs (m, p)).2 lev' ∧
        (∀ x, m x = true → (dfsList g u d nbrs (m, p)).1 x = true ∧ lev' x = lev x) ∧
        ∀ x ∈ nbrs, (dfsList g u d nbrs (m, p)).1 x = true := by
  induction nbrs generalizing m p lev with
  | nil => refine ⟨lev, by simpa [dfsList] using h, by simp [dfsList], by simp⟩
  | cons w nbrs ih =>
    have hn' : ∀ v ∈ nbrs, Adj g u v := fun v hv => hn v (List.mem_cons_of_mem _ hv)
    cases hw : m w with
    | true =>
      have e : dfsList g u d (w :: nbrs) (m, p) = dfsList g u d nbrs (m, p) := by rw [dfsList]; simp [hw]
      rw [e]
      obtain ⟨lev', a, b, c⟩ := ih hn' m p lev h hu hlev
      refine ⟨lev', a, b, ?_⟩
      intro x hx
      rcases List.mem_cons.1 hx with rfl | hx
      · exact (b _ hw).1
      · exact c x hx
    | false =>
      have e : dfsList g u d (w :: nbrs) (m, p) = dfsList g u d nbrs (dfs g w d (m, upd p w u)) := by
        rw [dfsList]; simp [hw]
      rw [e]
      have hw0 : m0 w = false := by
        cases hh : m0 w with
        | false => rfl
        | true => have := h.old w hh; rw [hw] at this; simp at this
      have hne : ∀ v, m v = true → v ≠ w := by rintro v hv rfl; rw [hw] at hv; simp at hv
      obtain ⟨lev1, a1, b1⟩ := hdfs w m (upd p w u) (upd lev w (lev u + 1))
        (h.extend hg hu hun hw (hn w (by simp)) (by omega)) (Or.inl hw0) (by rw [upd_self]; omega)
      have hmk : ∀ v, m v = true → (dfs g w d (m, upd p w u)).1 v = true ∧ lev1 v = lev v := by
        intro v hv
        obtain ⟨c1, c2⟩ := b1 v ((upd_ne _ _ (hne v hv)).trans hv)
        exact ⟨c1, c2.trans (upd_ne _ _ (hne v hv))⟩
      obtain ⟨lev2, a2, b2, c2⟩ := ih hn' _ _ lev1 a1 (hmk u hu).1 (by rw [(hmk u hu).2]; omega)
      refine ⟨lev2, a2, ?_, ?_⟩
      · intro v hv
        obtain ⟨d1, d2⟩ := b2 v (hmk v hv).1
        exact ⟨d1, d2.trans (hmk v hv).2⟩
      · intro x hx
        rcases List.mem_cons.1 hx with rfl | hx
        · exact (b2 _ (b1 _ (upd_self _ _ _)).1).1
        · exact c2 x hx

theorem dfs_spec {g : Graph} (hg : g.WF) {m0 : Nat → Bool} {s D : Nat} (d : Nat)
    (u : Nat) (m : Nat → Bool) (p lev : Nat → Nat) (h : BfsRes g m0 s D (upd m u true) p lev)
    (hun : m0 u = false ∨ u = s) (hlev : lev u + d ≤ D) :
    ∃ lev', BfsRes g m0 s D (dfs g u d (m, p)).1 (dfs g u d (m, p)).2 lev' ∧
      ∀ x, upd m u true x = true → (dfs g u d (m, p)).1 x = true ∧ lev' x = lev x := by
  induction d generalizing u m p lev with
  | zero => exact ⟨lev, by rw [dfs]; exact h, by rw [dfs]; exact fun x hx => ⟨hx, rfl⟩⟩
  | succ d ih =>
    have e : dfs g u (d + 1) (m, p) = dfsList g u d (g.adjacent u) (upd m u true, p) := by rw [dfs]
    rw [e]
    obtain ⟨lev', a, b, -⟩ := dfsList_spec hg (fun u m p lev h1 h2 h3 => ih u m p lev h1 h2 h3) u (g.adjacent u)
      (fun v hv => mem_adjacent.1 hv) (upd m u true) p lev h (upd_self _ _ _) hun hlev
    exact ⟨lev', a, b⟩

theorem BfsRes.init {g : Graph} (m0 : Nat → Bool) (s D : Nat) (p : Nat → Nat) (hp : p s = s) :
    BfsRes g m0 s D (upd m0 s true) p (fun _ => 0) := by
  refine ⟨?_, upd_self _ _ _, hp, rfl, ?_⟩
  · intro v hv
    by_cases h : v = s
    · subst h; exact upd_self _ _ _
    · exact (upd_ne _ _ h).trans hv
  · intro v hv hvs hv0
    rw [upd_ne _ _ hvs, hv0] at hv; simp at hv

end Pctsp
