import Verif.Lemmas.Sort
import Verif.Lemmas.Subpath

/-! Helper lemmas: the breadth first search. -/

namespace Pctsp

/-- What the search from `s` with depth limit `D` leaves in the tables `m` (marked) and `p` (parent), when `m0` was
marked before; `lev` is a level function. -/
structure BfsRes (g : Graph) (m0 : Nat → Bool) (s : Nat) (D : Nat) (m : Nat → Bool) (p : Nat → Nat)
    (lev : Nat → Nat) : Prop where
  old : ∀ v, m0 v = true → m v = true
  src_m : m s = true
  src_p : p s = s
  src_lev : lev s = 0
  new : ∀ v, m v = true → v ≠ s → m0 v = false → v < g.n ∧ m (p v) = true ∧ (m0 (p v) = false ∨ p v = s) ∧
    Adj g (p v) v ∧ lev v = lev (p v) + 1 ∧ lev v ≤ D

structure BfsCore (g : Graph) (m0 : Nat → Bool) (s : Nat) (D : Nat) (lev : Nat → Nat) (st : BfsState) (depth : Nat)
    (A B : List Nat) : Prop extends BfsRes g m0 s D st.marked st.parent lev where
  q : st.queue = A ++ B
  next : st.next = B.length
  levA : ∀ v ∈ A, lev v = depth
  levB : ∀ v ∈ B, lev v = depth + 1
  qnew : ∀ v ∈ A ++ B, st.marked v = true ∧ (m0 v = false ∨ v = s)
  bound : ∀ v, st.marked v = true → (m0 v = false ∨ v = s) → lev v ≤ depth + 1

def unmarkedCount (n : Nat) (m : Nat → Bool) : Nat := (List.range n).countP (fun v => !m v)

theorem countP_upd {l : List Nat} (hl : l.Nodup) {m : Nat → Bool} {v : Nat} (hv : v ∈ l) (hm : m v = false) :
    l.countP (fun w => !upd m v true w) + 1 = l.countP (fun w => !m w) := by
  induction l with
  | nil => simp at hv
  | cons a l ih =>
    rw [List.nodup_cons] at hl
    by_cases hav : a = v
    · subst hav
      have : l.countP (fun w => !upd m a true w) = l.countP (fun w => !m w) := by
        apply List.countP_congr
        intro w hw
        have : w ≠ a := by rintro rfl; exact hl.1 hw
        simp [upd, this]
      rw [List.countP_cons, List.countP_cons, this]
      simp [upd, hm]
    · have hv' : v ∈ l := by
        rcases List.mem_cons.1 hv with h | h
        · exact absurd h.symm hav
        · exact h
      have := ih hl.2 hv'
      rw [List.countP_cons, List.countP_cons, ← this]
      simp only [upd, hav, if_false]
      omega

theorem unmarkedCount_upd {n : Nat} {m : Nat → Bool} {v : Nat} (hv : v < n) (hm : m v = false) :
    unmarkedCount n (upd m v true) + 1 = unmarkedCount n m :=
  countP_upd List.nodup_range (by simpa using hv) hm

theorem upd_self {β : Type} (f : Nat → β) (i : Nat) (b : β) : upd f i b i = b := by simp [upd]
theorem upd_ne {β : Type} (f : Nat → β) {i j : Nat} (b : β) (h : j ≠ i) : upd f i b j = f j := by simp [upd, h]

theorem bfsVisit_spec {g : Graph} (hg : g.WF) {m0 : Nat → Bool} {s D : Nat} {u depth : Nat} (hD : depth + 1 ≤ D)
    (vs : List Nat) (hvs : ∀ v ∈ vs, Adj g u v) (lev : Nat → Nat) (st : BfsState) (A B : List Nat)
    (hc : BfsCore g m0 s D lev st depth A B) (hu : st.marked u = true) (hun : m0 u = false ∨ u = s)
    (hlev : lev u = depth) :
    ∃ lev' B', BfsCore g m0 s D lev' (bfsVisit u vs st) depth A B' ∧
      (∀ v, st.marked v = true → (bfsVisit u vs st).marked v = true ∧ lev' v = lev v) ∧
      (∀ v, (bfsVisit u vs st).marked v = true → st.marked v = false → v ∈ B') ∧
      (∀ v ∈ B, v ∈ B') ∧
      (∀ v ∈ vs, (bfsVisit u vs st).marked v = true) ∧
      B'.length + unmarkedCount g.n (bfsVisit u vs st).marked = B.length + unmarkedCount g.n st.marked := by
  induction vs generalizing lev st B with
  | nil =>
    refine ⟨lev, B, hc, fun v hv => ⟨hv, rfl⟩, ?_, fun v hv => hv, by simp, rfl⟩
    intro v h1 h2; simp [bfsVisit, h2] at h1
  | cons w vs ih =>
    have hvs' : ∀ v ∈ vs, Adj g u v := fun v hv => hvs v (List.mem_cons_of_mem _ hv)
    by_cases hw : st.marked w = true
    · obtain ⟨lev', B', h1, h2, h3, h4, h5, h6⟩ := ih hvs' lev st B hc hu hlev
      have e : bfsVisit u (w :: vs) st = bfsVisit u vs st := by simp [bfsVisit, hw]
      rw [e]
      refine ⟨lev', B', h1, h2, h3, h4, ?_, h6⟩
      intro v hv
      rcases List.mem_cons.1 hv with rfl | hv
      · exact (h2 _ hw).1
      · exact h5 v hv
    · have hwf : st.marked w = false := by simpa using hw
      have hwu : w ≠ u := by rintro rfl; exact hw hu
      have hws : w ≠ s := by rintro rfl; exact hw hc.src_m
      have hw0 : m0 w = false := by
        cases h : m0 w with
        | false => rfl
        | true => exact absurd (hc.old w h) hw
      have hadj : Adj g u w := hvs w (by simp)
      have hwn : w < g.n := hadj.lt_right hg
      let st1 : BfsState := { marked := upd st.marked w true, parent := upd st.parent w u, queue := st.queue ++ [w],
                              next := st.next + 1 }
      have hmk : ∀ v, st.marked v = true → st1.marked v = true := by
        intro v hv
        by_cases h : v = w
        · subst h; exact upd_self _ _ _
        · exact (upd_ne _ _ h).trans hv
      have hmk' : ∀ v, v ≠ w → st1.marked v = true → st.marked v = true := by
        intro v h hv; rwa [show st1.marked v = st.marked v from upd_ne _ _ h] at hv
      have hne : ∀ v, st.marked v = true → v ≠ w := by rintro v hv rfl; exact hw hv
      have hc1 : BfsCore g m0 s D (upd lev w (depth + 1)) st1 depth A (B ++ [w]) := by
        refine ⟨⟨?_, ?_, ?_, ?_, ?_⟩, ?_, ?_, ?_, ?_, ?_, ?_⟩
        · intro v hv; exact hmk v (hc.old v hv)
        · exact hmk _ hc.src_m
        · exact (upd_ne _ _ (Ne.symm hws)).trans hc.src_p
        · rw [upd_ne _ _ (Ne.symm hws)]; exact hc.src_lev
        · intro v hv hvs hv0
          by_cases h : v = w
          · subst h
            have hp : st1.parent v = u := upd_self _ _ _
            rw [hp, upd_self, upd_ne _ _ (Ne.symm hwu), hlev]
            exact ⟨hwn, hmk u hu, hun, hadj, rfl, hD⟩
          · have hp : st1.parent v = st.parent v := upd_ne _ _ h
            obtain ⟨a1, a2, a3, a4, a5, a6⟩ := hc.new v (hmk' v h hv) hvs hv0
            rw [hp, upd_ne _ _ h, upd_ne _ _ (hne _ a2)]
            exact ⟨a1, hmk _ a2, a3, a4, a5, a6⟩
        · simp [st1, hc.q]
        · simp [st1, hc.next]
        · intro v hv
          rw [upd_ne _ _ (hne v (hc.qnew v (by simp [hv])).1)]; exact hc.levA v hv
        · intro v hv
          rcases List.mem_append.1 hv with hv | hv
          · rw [upd_ne _ _ (hne v (hc.qnew v (by simp [hv])).1)]; exact hc.levB v hv
          · simp at hv; subst hv; exact upd_self _ _ _
        · intro v hv
          rw [← List.append_assoc] at hv
          rcases List.mem_append.1 hv with hv | hv
          · exact ⟨hmk _ (hc.qnew v hv).1, (hc.qnew v hv).2⟩
          · simp at hv; subst hv; exact ⟨upd_self _ _ _, Or.inl hw0⟩
        · intro v hv hvn
          by_cases h : v = w
          · subst h; rw [upd_self]
          · rw [upd_ne _ _ h]; exact hc.bound v (hmk' v h hv) hvn
      obtain ⟨lev', B', h1, h2, h3, h4, h5, h6⟩ := ih hvs' (upd lev w (depth + 1)) st1 (B ++ [w]) hc1 (hmk u hu)
        ((upd_ne _ _ (Ne.symm hwu)).trans hlev)
      have e : bfsVisit u (w :: vs) st = bfsVisit u vs st1 := by
        rw [bfsVisit]; simp only [hwf]; rfl
      rw [e]
      refine ⟨lev', B', h1, ?_, ?_, ?_, ?_, ?_⟩
      · intro v hv
        obtain ⟨a, b⟩ := h2 v (hmk v hv)
        exact ⟨a, by rw [b, upd_ne _ _ (hne v hv)]⟩
      · intro v hv hv'
        by_cases h : v = w
        · subst h; exact h4 v (by simp)
        · refine h3 v hv ?_
          rw [show st1.marked v = st.marked v from upd_ne _ _ h]; exact hv'
      · intro v hv; exact h4 v (by simp [hv])
      · intro v hv
        rcases List.mem_cons.1 hv with rfl | hv
        · exact (h2 _ (upd_self _ _ _)).1
        · exact h5 v hv
      · rw [h6]
        have := unmarkedCount_upd hwn hwf
        simp only [List.length_append, List.length_singleton]
        show B.length + 1 + unmarkedCount g.n (upd st.marked w true) = _
        omega

/-- The vertices that left the queue have all their neighbours marked, one level further at most. -/
def BfsClosed (g : Graph) (m0 : Nat → Bool) (s : Nat) (m : Nat → Bool) (lev : Nat → Nat) (P : Nat → Prop) : Prop :=
  ∀ u, m u = true → (m0 u = false ∨ u = s) → P u → ∀ v, Adj g u v →
    m v = true ∧ ((m0 v = false ∨ v = s) → lev v ≤ lev u + 1)

theorem bfsLoop_spec {g : Graph} (hg : g.WF) {m0 : Nat → Bool} {s : Nat} {limit : Int} (fuel : Nat)
    (lev : Nat → Nat) (st : BfsState) (depth : Nat) (A B : List Nat)
    (hc : BfsCore g m0 s limit.toNat lev st depth A B)
    (hcl : BfsClosed g m0 s st.marked lev (fun u => u ∉ A ++ B))
    (hAB : A = [] → B = []) (hdep : depth ≤ limit.toNat)
    (hfuel : (A ++ B).length + unmarkedCount g.n st.marked + 1 ≤ fuel) :
    ∃ st' lev', bfsLoop g limit fuel A.length depth st = .ok st' ∧
      BfsRes g m0 s limit.toNat st'.marked st'.parent lev' ∧
      BfsClosed g m0 s st'.marked lev' (fun u => lev' u < limit.toNat) := by
  induction fuel generalizing lev st depth A B with
  | zero => omega
  | succ fuel ih =>
    have hnotq : ∀ u, lev u < depth → u ∉ A ++ B := by
      intro u hu hm
      rcases List.mem_append.1 hm with h | h
      · have := hc.levA u h; omega
      · have := hc.levB u h; omega
    cases A with
    | nil =>
      have hB := hAB rfl
      subst hB
      have hq : st.queue = [] := by simpa using hc.q
      refine ⟨st, lev, by simp [bfsLoop, hq], hc.toBfsRes, ?_⟩
      intro u h1 h2 _ v hv
      exact hcl u h1 h2 (by simp) v hv
    | cons u A =>
      have hq : st.queue = u :: (A ++ B) := by simpa using hc.q
      by_cases hlim : (depth : Int) < limit
      · have hD : depth + 1 ≤ limit.toNat := by omega
        have hun := hc.qnew u (by simp)
        have hlev := hc.levA u (by simp)
        let st0 : BfsState := { st with queue := A ++ B }
        have hc0 : BfsCore g m0 s limit.toNat lev st0 depth A B := by
          refine ⟨hc.toBfsRes, rfl, hc.next, fun v hv => hc.levA v (by simp [hv]), hc.levB, ?_, hc.bound⟩
          intro v hv; exact hc.qnew v (List.mem_cons_of_mem _ hv)
        obtain ⟨lev', B', h1, h2, h3, h4, h5, h6⟩ := bfsVisit_spec hg hD (g.adjacent u)
          (fun v hv => mem_adjacent.1 hv) lev st0 A B hc0 hun.1 hun.2 hlev
        let st1 := bfsVisit u (g.adjacent u) st0
        have hclosed1 : BfsClosed g m0 s st1.marked lev' (fun w => w ∉ A ++ B') := by
          intro w hw1 hw2 hw3 v hv
          have hw4 : st.marked w = true := by
            cases h : st.marked w with
            | true => rfl
            | false => exact absurd (List.mem_append_right A (h3 w hw1 h)) hw3
          have hlw : lev' w = lev w := (h2 w hw4).2
          by_cases hwu : w = u
          · subst hwu
            refine ⟨h5 v (mem_adjacent.2 hv), fun hvn => ?_⟩
            have := h1.bound v (h5 v (mem_adjacent.2 hv)) hvn
            omega
          · have hwq : w ∉ (u :: A) ++ B := by
              intro hm
              rcases List.mem_append.1 hm with hm | hm
              · rcases List.mem_cons.1 hm with hm | hm
                · exact hwu hm
                · exact hw3 (List.mem_append_left _ hm)
              · exact hw3 (List.mem_append_right _ (h4 w hm))
            obtain ⟨a, b⟩ := hcl w hw4 hw2 hwq v hv
            refine ⟨(h2 v a).1, fun hvn => ?_⟩
            rw [(h2 v a).2, hlw]; exact b hvn
        have e : bfsLoop g limit (fuel + 1) ((u :: A).length : Nat) depth st =
            if ((A.length : Int)) = 0 then bfsLoop g limit fuel st1.next ((depth : Int) + 1) { st1 with next := 0 }
            else bfsLoop g limit fuel A.length depth st1 := by
          rw [bfsLoop, hq]
          simp only [hlim, if_true, List.length_cons]
          have : ((A.length + 1 : Nat) : Int) - 1 = A.length := by omega
          rw [this]
        have hfuel' : (A ++ B').length + unmarkedCount g.n st1.marked + 1 ≤ fuel := by
          have h6' : B'.length + unmarkedCount g.n st1.marked = B.length + unmarkedCount g.n st.marked := h6
          simp only [List.length_append, List.length_cons] at hfuel ⊢
          omega
        cases hA : A with
        | nil =>
          subst hA
          have hnext : st1.next = B'.length := h1.next
          have hc2 : BfsCore g m0 s limit.toNat lev' { st1 with next := 0 } (depth + 1) B' [] := by
            refine ⟨h1.toBfsRes, ?_, rfl, h1.levB, by simp, ?_, ?_⟩
            · show st1.queue = _
              rw [h1.q]; simp
            · intro v hv; exact h1.qnew v (by simpa using hv)
            · intro v hv hvn; have := h1.bound v hv hvn; omega
          obtain ⟨st', lev'', r1, r2, r3⟩ := ih lev' { st1 with next := 0 } (depth + 1) B' [] hc2
            (by simpa using hclosed1) (fun _ => rfl) hD (by simpa using hfuel')
          refine ⟨st', lev'', ?_, r2, r3⟩
          rw [e]
          simp only [List.length_nil, Int.natCast_zero, if_true, hnext]
          rw [← r1]; rfl
        | cons a A' =>
          rw [← hA]
          obtain ⟨st', lev'', r1, r2, r3⟩ := ih lev' st1 depth A B' h1 hclosed1 (by simp [hA]) hdep hfuel'
          refine ⟨st', lev'', ?_, r2, r3⟩
          rw [e, if_neg (by simp [hA]; omega)]; exact r1
      · refine ⟨st, lev, by simp [bfsLoop, hq, hlim], hc.toBfsRes, ?_⟩
        intro u h1 h2 h3 v hv
        exact hcl u h1 h2 (hnotq u (by omega)) v hv

theorem bfs_spec {g : Graph} (hg : g.WF) {s : Nat} (hs : s < g.n) (m0 : Nat → Bool) (p0 : Nat → Nat) (limit : Int) :
    ∃ m p lev, breadthFirstSearch g s m0 p0 limit = .ok (m, p) ∧ BfsRes g m0 s limit.toNat m p lev ∧
      BfsClosed g m0 s m lev (fun u => lev u < limit.toNat) := by
  let st : BfsState := { marked := upd m0 s true, parent := upd p0 s s, queue := [s], next := 0 }
  have hc : BfsCore g m0 s limit.toNat (fun _ => 0) st 0 [s] [] := by
    refine ⟨⟨?_, upd_self _ _ _, upd_self _ _ _, rfl, ?_⟩, rfl, rfl, by simp, by simp, ?_, by simp⟩
    · intro v hv
      by_cases h : v = s
      · subst h; exact upd_self _ _ _
      · exact (upd_ne _ _ h).trans hv
    · intro v hv hvs hv0
      rw [show st.marked v = m0 v from upd_ne _ _ hvs, hv0] at hv; simp at hv
    · intro v hv; simp at hv; subst hv; exact ⟨upd_self _ _ _, Or.inr rfl⟩
  obtain ⟨st', lev', h1, h2, h3⟩ := bfsLoop_spec hg (g.n + 2) (fun _ => 0) st 0 [s] [] hc
    (by
      intro u hu hun hq v _
      simp only [List.append_nil, List.mem_singleton] at hq
      rw [show st.marked u = m0 u from upd_ne _ _ hq] at hu
      rcases hun with h | h
      · rw [h] at hu; simp at hu
      · exact absurd h hq)
    (by simp) (by omega)
    (by
      have : unmarkedCount g.n st.marked ≤ g.n := by
        have := List.countP_le_length (p := fun v => !st.marked v) (l := List.range g.n)
        simpa [unmarkedCount] using this
      simp; omega)
  refine ⟨st'.marked, st'.parent, lev', ?_, h2, h3⟩
  have h1' : bfsLoop g limit (g.n + 2) 1 0 st = .ok st' := h1
  simp [breadthFirstSearch, hs, st] at h1' ⊢
  simp [h1']

end Pctsp
