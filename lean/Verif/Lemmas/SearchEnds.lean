import Verif.Lemmas.SearchSound
import Mathlib.Data.Finset.Option
import Mathlib.Data.Finset.Prod
import Mathlib.Data.Finset.Powerset

/-! # The search goes on until it ends, and it ends -/

namespace Pctsp

variable {P : Problem} {order : List Nat} {scale ub : Int} {s t : Search} {mode : SearchMode}

/-! ### Nodes -/

/-- A node fixes different variables of the problem. -/
structure NodeOk (P : Problem) (n : List (Nat × Bool)) : Prop where
  nodup : (n.map Prod.fst).Nodup
  lt : ∀ p ∈ n, p.1 < P.graph.edges.length

theorem NodeOk.length_le {n : List (Nat × Bool)} (h : NodeOk P n) : n.length ≤ P.graph.edges.length := by
  have h1 : (n.map Prod.fst).toFinset ⊆ Finset.range P.graph.edges.length := by
    intro e he
    obtain ⟨p, hp, rfl⟩ := List.mem_map.1 (List.mem_toFinset.1 he)
    exact Finset.mem_range.2 (h.lt p hp)
  have h2 := Finset.card_le_card h1
  rw [List.toFinset_card_of_nodup h.nodup, Finset.card_range, List.length_map] at h2
  exact h2

theorem NodeOk.cons {n : List (Nat × Bool)} (h : NodeOk P n) {e : Nat} (he : e < P.graph.edges.length) (hfree : e ∉ n.map Prod.fst) (b : Bool) :
    NodeOk P ((e, b) :: n) := by
  refine ⟨List.nodup_cons.2 ⟨hfree, h.nodup⟩, fun p hp => ?_⟩
  rcases List.mem_cons.1 hp with rfl | hp
  · exact he
  · exact h.lt p hp

theorem Step.nodesOk (h : Step mode scale P order s t) (hn : ∀ n ∈ s.nodes, NodeOk P n) : ∀ n ∈ t.nodes, NodeOk P n := by
  have hdrop : ∀ {l r : List (List (Nat × Bool))} {n : List (Nat × Bool)}, s.nodes = l ++ n :: r → ∀ n' ∈ l ++ r, NodeOk P n' := by
    intro l r n hs n' hn'
    refine hn n' ?_
    rw [hs]
    rcases List.mem_append.1 hn' with h | h <;> simp [h]
  have hsep : ∀ {l r : List (List (Nat × Bool))} {n : List (Nat × Bool)} {st : SepState}, s.nodes = l ++ n :: r →
      ∀ n' ∈ (s.separated l r n st).nodes, NodeOk P n' := by
    intro l r n st hs n' hn'
    simp only [Search.separated] at hn'
    split at hn'
    · exact hdrop hs n' hn'
    · exact hn n' (by rw [hs]; exact hn')
  cases h with
  | checked => exact hn
  | enforced => exact hn
  | infeasible hs => exact hdrop hs
  | bound hs => exact hdrop hs
  | subtour hs => exact hsep hs
  | cycle hs => exact hsep hs
  | @branch l r n e hs he hfree =>
    intro n' hn'
    have hok := hn n (by rw [hs]; simp)
    simp only [List.mem_append, List.mem_cons] at hn'
    rcases hn' with h | rfl | rfl | h
    · exact hdrop hs n' (by simp [h])
    · exact hok.cons he hfree false
    · exact hok.cons he hfree true
    · exact hdrop hs n' (by simp [h])
  | @tighten l r n e b _ hs he hfree =>
    intro n' hn'
    have hok := hn n (by rw [hs]; simp)
    simp only [List.mem_append, List.mem_cons] at hn'
    rcases hn' with h | rfl | h
    · exact hdrop hs n' (by simp [h])
    · exact hok.cons he hfree b
    · exact hdrop hs n' (by simp [h])
  | rejected hs => exact hdrop hs

theorem Steps.nodesOk {k : Nat} (h : Steps mode scale P order k s t) (hn : ∀ n ∈ s.nodes, NodeOk P n) : ∀ n ∈ t.nodes, NodeOk P n := by
  induction h with
  | zero => exact hn
  | next _ h' ih => exact h'.nodesOk (ih hn)

theorem Search.Start.nodesOk (h : s.Start scale P order) : ∀ n ∈ s.nodes, NodeOk P n := by
  have : s.nodes = [[]] := by cases h <;> rfl
  rw [this]
  intro n hn
  rw [List.mem_singleton] at hn
  subst hn
  exact ⟨by simp, by simp⟩

/-! ### Progress -/

theorem Sound.eventRows_ok (h : Sound P ub) (b : Int) : ∃ all, eventRows P b = .ok all := by
  obtain ⟨bs, h1, -⟩ := mapRes_spec (fun dist => separateThenAddCostCover P.graph P.graph.hasVar P.root dist b) P.covers fun dist _ => by
    obtain ⟨rows, h1, -⟩ := costCover_rows h.simple.loops h.root dist b
    exact ⟨rows, h1⟩
  exact ⟨bs.flatten, by rw [eventRows, h1]; rfl⟩

/-- Every problem of the library has a state in which the search starts. -/
theorem Sound.start (h : Sound P ub) (scale : Int) (order : List Nat) : ∃ s, Search.Start scale P order s := by
  by_cases hw : ∃ vars, P.warm = some vars ∧ Accepted P order (heuristicSol vars)
  · obtain ⟨vars, h1, h2⟩ := hw
    obtain ⟨all, hall⟩ := h.eventRows_ok (objective P.graph P.cost (heuristicSol vars) / scale)
    exact ⟨_, .warm h1 h2 hall (fun _ h => h)⟩
  · exact ⟨_, .plain fun vars h1 h2 => hw ⟨vars, h1, h2⟩⟩

theorem Sound.adds_local (h : Sound P ub) (ho : order.Perm (List.range P.graph.edges.length)) {found : List (Nat → Int)} {row : Row}
    (hr : Adds scale P order found row) : LocalRow P.graph row := by
  cases hr with
  | subtour hvisit hx hc hs hrow =>
    obtain ⟨rows, rfl, h2⟩ := h.sepalp_rows ho hvisit hx hc hs
    rw [offerAll_added, List.nil_append] at hrow
    obtain ⟨p, hp, hsec⟩ := h2 row (List.mem_filter.1 hrow).1
    exact hsec.isLocal h.simple.loops hp
  | cycle hon hx hc hs hrow =>
    obtain ⟨rows, rfl, h2⟩ := h.cycle_rows hc hs
    rw [offerAll_added, List.nil_append] at hrow
    obtain ⟨vs, hv⟩ := h2 row (List.mem_filter.1 hrow).1
    exact hv.isLocal h.simple.loops
  | cover hd hy hs hrow => exact coverRows_local h.simple.loops h.root hs row hrow

/-- The vector of a node that fixes every variable. -/
def nodeVector (n : List (Nat × Bool)) : Nat → Int := fun e => bit (decide ((e, true) ∈ n))

theorem nodeVector_eq {n : List (Nat × Bool)} (hn : (n.map Prod.fst).Nodup) {p : Nat × Bool} (hp : p ∈ n) : nodeVector n p.1 = bit p.2 := by
  obtain ⟨e, b⟩ := p
  cases b with
  | true => simp [nodeVector, hp]
  | false =>
    have : (e, true) ∉ n := fun h => by
      have := List.inj_on_of_nodup_map hn hp h rfl
      simp at this
    simp [nodeVector, this]

/-- While there is an open node, a step is possible that needs neither heuristics nor facts that SCIP finds. -/
theorem Search.Inv.progress (hsnd : Sound P ub) (ho : order.Perm (List.range P.graph.edges.length)) (hscale : 0 < scale) (h : s.Inv scale P order)
    (hn : ∀ n ∈ s.nodes, NodeOk P n) (hopen : s.nodes ≠ []) : ∃ t, Step mode scale P order s t := by
  obtain ⟨n, r, hs⟩ := List.exists_cons_of_ne_nil hopen
  have hs' : s.nodes = [] ++ n :: r := by rw [hs]; rfl
  have hok := hn n (by rw [hs]; simp)
  by_cases hfree : ∃ e < P.graph.edges.length, e ∉ n.map Prod.fst
  · obtain ⟨e, he, hfree⟩ := hfree
    exact ⟨_, .branch hs' he hfree⟩
  have hfix : ∀ e < P.graph.edges.length, e ∈ n.map Prod.fst := by
    intro e he
    by_contra hc
    exact hfree ⟨e, he, hc⟩
  have hvec : ∀ q x, InNode n q x → ∀ e < P.graph.edges.length, x e = q * nodeVector n e := by
    intro q x hx e he
    obtain ⟨p, hp, rfl⟩ := List.mem_map.1 (hfix e he)
    rw [hx p hp, nodeVector_eq hok.nodup hp]
  have hval : s.Valid P order n [] := fun z _ _ row hr => by simp at hr
  by_cases hlp : NodeLp P s.rows n 1 (nodeVector n)
  · obtain ⟨ps, b, -, hb, -⟩ := C30_isSimpleCycle_iff P.graph (getSolutionEdges P.graph order fun e => decide (0 < nodeVector n e)) (by
      intro e he
      simp only [getSolutionEdges, List.mem_filter] at he
      obtain ⟨-, he⟩ := he
      split at he
      · rename_i p hp
        exact (List.getElem?_eq_some_iff.1 hp).1
      · simp at he)
    have henf : enforceSubtour (fun _ _ => ()) (fun _ _ => false) () 0 [] P.graph order (fun e => decide (0 < nodeVector n e)) 0 () false =
        .ok (enfolp (fun _ _ => ()) (fun _ _ => false) () 0 [] b 0 () false) := by
      rw [enforceSubtour, hb]; rfl
    cases b with
    | false => exact ⟨_, .rejected hs' (fun _ h => h) hlp hfix henf rfl⟩
    | true =>
      by_cases hbet : s.Better P (nodeVector n)
      · obtain ⟨all, hall⟩ := hsnd.eventRows_ok (objective P.graph P.cost (nodeVector n) / scale)
        exact ⟨_, .enforced hs' (fun _ h => h) (fun _ => rfl) hlp (fun e _ => (Int.one_mul _).symm) henf (enforced_iff.2 rfl) hbet hall (fun _ h => h)⟩
      · unfold Search.Better at hbet
        push Not at hbet
        obtain ⟨b, hb, hle⟩ := hbet
        refine ⟨_, .bound hs' (kept := s.rows) (own := []) (fun _ h => h) (fun _ => rfl) hval hb fun q x hx => ?_⟩
        rw [objective_scaled (hvec q x hx.node)]
        exact Int.mul_lt_mul_of_pos_left (by omega) hx.lp.pos
  · refine ⟨_, .infeasible hs' (kept := s.rows) (own := []) (fun _ h => h) (fun _ => rfl) hval fun q x hx => hlp ?_⟩
    have hq := hx.lp.pos
    have hx' := hvec q x hx.node
    refine ⟨⟨by omega, fun e _ => ?_, fun row hr => ?_⟩, fun row hr => ?_, fun p hp => by rw [nodeVector_eq hok.nodup hp, Int.one_mul]⟩
    · unfold nodeVector bit
      split <;> omega
    · exact satScaled_one.2 (((hsnd.rows_local row hr).sat hq hx').1 (hx.lp.rows row hr))
    · exact satScaled_one.2 (((hsnd.adds_local ho (h.rows row hr)).sat hq hx').1 (hx.rows row (by simp [hr])))

/-! ### The search ends -/

/-- The set and the vertex that a row of the separators belongs to. -/
def RowKey (P : Problem) (key : Finset Nat × Option Nat) (row : Row) : Prop :=
  match key.2 with
  | some v => ∃ vs, vs.toFinset = key.1 ∧ GoodPair P.graph P.root (vs, v) ∧ SecRow P.graph vs v row
  | none => ∃ vs, vs.toFinset = key.1 ∧ CycRow P.graph vs row

/-- The sets and vertices of a graph. -/
def rowKeys (P : Problem) : Finset (Finset Nat × Option Nat) := (Finset.range P.graph.n).powerset ×ˢ Finset.insertNone (Finset.range P.graph.n)

theorem rowKeys_card : (rowKeys P).card = 2 ^ P.graph.n * (P.graph.n + 1) := by
  rw [rowKeys, Finset.card_product, Finset.card_powerset, Finset.card_insertNone, Finset.card_range]

theorem toFinset_subset_range {n : Nat} {vs : List Nat} (h : ∀ v ∈ vs, v < n) : vs.toFinset ∈ (Finset.range n).powerset :=
  Finset.mem_powerset.2 fun v hv => Finset.mem_range.2 (h v (List.mem_toFinset.1 hv))

theorem sec_key {p : List Nat × Nat} (hp : GoodPair P.graph P.root p) {row : Row} (h : SecRow P.graph p.1 p.2 row) :
    ∃ key ∈ rowKeys P, RowKey P key row :=
  ⟨(p.1.toFinset, some p.2), Finset.mem_product.2 ⟨toFinset_subset_range hp.lt, Finset.some_mem_insertNone.2 (Finset.mem_range.2 hp.target)⟩,
    p.1, rfl, hp, h⟩

theorem cyc_key {vs : List Nat} {row : Row} (h : CycRow P.graph vs row) : ∃ key ∈ rowKeys P, RowKey P key row :=
  ⟨(vs.toFinset, none), Finset.mem_product.2 ⟨toFinset_subset_range h.lt, Finset.none_mem_insertNone⟩, vs, rfl, h⟩

theorem parts_congr {g : Graph} (hg : SimpleWithLoops g) {vs ws es fs : List Nat} (hv : ∀ v ∈ vs, v < g.n) (hw : ∀ v ∈ ws, v < g.n) (hvn : vs.Nodup)
    (hwn : ws.Nodup) (hvw : vs.toFinset = ws.toFinset) (hes : getEdgesInducedByVertices g vs = .ok es) (hfs : getEdgesInducedByVertices g ws = .ok fs)
    (x : Nat → Int) : (es.map x).sum - (vs.map (loopVal g x)).sum = (fs.map x).sum - (ws.map (loopVal g x)).sum := by
  have hmem : ∀ v, v ∈ vs ↔ v ∈ ws := fun v => by rw [← List.mem_toFinset, hvw, List.mem_toFinset]
  have hperm : vs.Perm ws := (List.perm_ext_iff_of_nodup hvn hwn).2 hmem
  rw [induced_sum hg hv hvn hes, induced_sum hg hw hwn hfs, sum_eq_of_perm (hperm.map _)]
  simp only [hmem]

/-- Rows of the same set and vertex say the same. -/
theorem RowKey.sat_iff (hg : SimpleWithLoops P.graph) {key : Finset Nat × Option Nat} {row row' : Row} (h : RowKey P key row) (h' : RowKey P key row')
    (q : Int) (x : Nat → Int) : row.SatScaled q x ↔ row'.SatScaled q x := by
  obtain ⟨S, o⟩ := key
  cases o with
  | some v =>
    obtain ⟨vs, hvs, hp, h1, h2, es, hes, hact⟩ := h
    obtain ⟨ws, hws, hp', h1', h2', fs, hfs, hact'⟩ := h'
    unfold Row.SatScaled
    rw [h1, h2, h1', h2', hact, hact', parts_congr hg hp.lt hp'.lt hp.nodup hp'.nodup (hvs.trans hws.symm) hes hfs]
  | none =>
    obtain ⟨vs, hvs, hl, hn, h1, h2, es, hes, hact⟩ := h
    obtain ⟨ws, hws, hl', hn', h1', h2', fs, hfs, hact'⟩ := h'
    unfold Row.SatScaled
    rw [h1, h2, h1', h2', hact, hact', parts_congr hg hl hl' hn hn' (hvs.trans hws.symm) hes hfs]

/-- How much of the tree below a node is left. -/
def nodeWeight (m : Nat) (n : List (Nat × Bool)) : Nat := 2 ^ (m + 1 - n.length) - 1

def treeWeight (m : Nat) (nodes : List (List (Nat × Bool))) : Nat := (nodes.map (nodeWeight m)).sum

theorem nodeWeight_pos {m : Nat} {n : List (Nat × Bool)} (h : n.length ≤ m) : 1 ≤ nodeWeight m n := by
  unfold nodeWeight
  rw [show m + 1 - n.length = (m - n.length) + 1 by omega, Nat.pow_succ]
  have := Nat.two_pow_pos (m - n.length)
  omega

theorem nodeWeight_cons {m : Nat} {n : List (Nat × Bool)} (h : n.length < m) (p : Nat × Bool) : nodeWeight m n = 2 * nodeWeight m (p :: n) + 1 := by
  unfold nodeWeight
  rw [List.length_cons, show m + 1 - n.length = (m - n.length) + 1 by omega, show m + 1 - (n.length + 1) = m - n.length by omega, Nat.pow_succ]
  have := Nat.two_pow_pos (m - n.length)
  omega

theorem treeWeight_append (m : Nat) (l r : List (List (Nat × Bool))) : treeWeight m (l ++ r) = treeWeight m l + treeWeight m r := by simp [treeWeight]

theorem treeWeight_cons (m : Nat) (n : List (Nat × Bool)) (r : List (List (Nat × Bool))) : treeWeight m (n :: r) = nodeWeight m n + treeWeight m r := by
  simp [treeWeight]

/-- A separation round adds a row that says something new. -/
theorem new_key (hg : SimpleWithLoops P.graph) {n : List (Nat × Bool)} {q : Int} {x : Nat → Int} (hx : NodeLp P s.rows n q x) {used : Finset (Finset Nat × Option Nat)}
    (hused : ∀ key ∈ used, ∃ row ∈ s.rows, RowKey P key row) {key : Finset Nat × Option Nat} {row : Row} (hk : RowKey P key row) (hno : ¬ row.SatScaled q x) :
    key ∉ used := fun h => by
  obtain ⟨row', h1, h2⟩ := hused key h
  exact hno ((hk.sat_iff hg h2 q x).2 (hx.rows row' h1))

theorem separated_count (hg : SimpleWithLoops P.graph) {l r : List (List (Nat × Bool))} {n : List (Nat × Bool)} {q : Int} {x : Nat → Int} {st : SepState}
    (hs : s.nodes = l ++ n :: r) (hx : NodeLp P s.rows n q x) (hadd : ∃ row ∈ st.added, ¬ row.SatScaled q x ∧ ∃ key ∈ rowKeys P, RowKey P key row)
    {used : Finset (Finset Nat × Option Nat)} (hsub : used ⊆ rowKeys P) (hused : ∀ key ∈ used, ∃ row ∈ s.rows, RowKey P key row) :
    ∃ used' ⊆ rowKeys P, (∀ key ∈ used', ∃ row ∈ (s.separated l r n st).rows, RowKey P key row) ∧
      treeWeight P.graph.edges.length (s.separated l r n st).nodes + 1 + used.card ≤ treeWeight P.graph.edges.length s.nodes + used'.card := by
  obtain ⟨row, hrow, hno, key, hkey, hk⟩ := hadd
  have hnew := new_key hg hx hused hk hno
  refine ⟨insert key used, Finset.insert_subset hkey hsub, fun key' h' => ?_, ?_⟩
  · rcases Finset.mem_insert.1 h' with rfl | h'
    · exact ⟨row, by simp [Search.separated, hrow], hk⟩
    · obtain ⟨row', h1, h2⟩ := hused key' h'
      exact ⟨row', by simp [Search.separated, h1], h2⟩
  · rw [Finset.card_insert_of_notMem hnew, hs]
    simp only [Search.separated]
    split
    · rw [treeWeight_append, treeWeight_append, treeWeight_cons]; omega
    · omega

/-- A step finds a better solution, adds a row that says something new, or makes the tree smaller. -/
theorem Step.count (hsnd : Sound P ub) (ho : order.Perm (List.range P.graph.edges.length)) (hkeep : mode.keep = true) (h : Step mode scale P order s t)
    (hn : ∀ n ∈ s.nodes, NodeOk P n) {used : Finset (Finset Nat × Option Nat)} (hsub : used ⊆ rowKeys P)
    (hused : ∀ key ∈ used, ∃ row ∈ s.rows, RowKey P key row) :
    ∃ used' ⊆ rowKeys P, (∀ key ∈ used', ∃ row ∈ t.rows, RowKey P key row) ∧
      treeWeight P.graph.edges.length t.nodes + 1 + used.card + s.found.length ≤ treeWeight P.graph.edges.length s.nodes + used'.card + t.found.length := by
  have hdrop : ∀ {l r : List (List (Nat × Bool))} {n : List (Nat × Bool)}, s.nodes = l ++ n :: r →
      treeWeight P.graph.edges.length (l ++ r) + 1 ≤ treeWeight P.graph.edges.length s.nodes := by
    intro l r n hs
    have := nodeWeight_pos (hn n (by rw [hs]; simp)).length_le
    rw [hs, treeWeight_append, treeWeight_append, treeWeight_cons]
    omega
  have himp : ∀ (y : Nat → Int) (rows : List Row), (∀ key ∈ used, ∃ row ∈ (s.improved y rows).rows, RowKey P key row) := by
    intro y rows key hkey
    obtain ⟨row, h1, h2⟩ := hused key hkey
    exact ⟨row, by simp [Search.improved, h1], h2⟩
  cases h with
  | @checked y _ rows =>
    refine ⟨used, hsub, himp y rows, ?_⟩
    simp only [Search.improved, List.length_cons]
    omega
  | @enforced _ _ _ _ _ rows _ _ y =>
    refine ⟨used, hsub, himp y rows, ?_⟩
    simp only [Search.improved, List.length_cons]
    omega
  | infeasible hs =>
    refine ⟨used, hsub, hused, ?_⟩
    have := hdrop hs
    simp only
    omega
  | bound hs =>
    refine ⟨used, hsub, hused, ?_⟩
    have := hdrop hs
    simp only
    omega
  | @subtour l r n kept q x sv flow visit m k i ids st hs hk hke hx hsv hvisit hc h hne =>
    rw [hke hkeep] at hx
    obtain ⟨rows, rfl, h2⟩ := hsnd.sepalp_rows ho hvisit hx.lp hc h
    obtain ⟨row, hrow⟩ := List.exists_mem_of_ne_nil _ hne
    have hrow' := hrow
    rw [offerAll_added, List.nil_append, List.mem_filter] at hrow'
    obtain ⟨p, hp, hsec⟩ := h2 row hrow'.1
    obtain ⟨used', h3, h4, h5⟩ := separated_count hsnd.simple hs hx ⟨row, hrow, hsv.efficacious row hrow'.2, sec_key hp hsec⟩ hsub hused
    refine ⟨used', h3, h4, ?_⟩
    simp only [Search.separated] at h5 ⊢
    omega
  | @cycle l r n kept q x sv m ids st hs hk hke hon hx hsv hc h hne =>
    rw [hke hkeep] at hx
    obtain ⟨rows, rfl, h2⟩ := hsnd.cycle_rows hc h
    obtain ⟨row, hrow⟩ := List.exists_mem_of_ne_nil _ hne
    have hrow' := hrow
    rw [offerAll_added, List.nil_append, List.mem_filter] at hrow'
    obtain ⟨vs, hcyc⟩ := h2 row hrow'.1
    obtain ⟨used', h3, h4, h5⟩ := separated_count hsnd.simple hs hx ⟨row, hrow, hsv.efficacious row hrow'.2, cyc_key hcyc⟩ hsub hused
    refine ⟨used', h3, h4, ?_⟩
    simp only [Search.separated] at h5 ⊢
    omega
  | @branch l r n e hs he hfree =>
    refine ⟨used, hsub, hused, ?_⟩
    have h1 := ((hn n (by rw [hs]; simp)).cons he hfree true).length_le
    rw [List.length_cons] at h1
    have h2 := nodeWeight_cons (m := P.graph.edges.length) (n := n) (by omega) (e, true)
    have h3 := nodeWeight_cons (m := P.graph.edges.length) (n := n) (by omega) (e, false)
    rw [hs]
    simp only [treeWeight_append, treeWeight_cons]
    omega
  | @tighten l r n e b _ hs he hfree =>
    refine ⟨used, hsub, hused, ?_⟩
    have h1 := ((hn n (by rw [hs]; simp)).cons he hfree true).length_le
    rw [List.length_cons] at h1
    have h2 := nodeWeight_cons (m := P.graph.edges.length) (n := n) (by omega) (e, b)
    rw [hs]
    simp only [treeWeight_append, treeWeight_cons]
    omega
  | rejected hs =>
    refine ⟨used, hsub, hused, ?_⟩
    have := hdrop hs
    simp only
    omega

theorem Steps.count (hsnd : Sound P ub) (ho : order.Perm (List.range P.graph.edges.length)) (hkeep : mode.keep = true) {k : Nat}
    (h : Steps mode scale P order k s t) (hn : ∀ n ∈ s.nodes, NodeOk P n) :
    ∃ used ⊆ rowKeys P, (∀ key ∈ used, ∃ row ∈ t.rows, RowKey P key row) ∧
      treeWeight P.graph.edges.length t.nodes + k + s.found.length ≤ treeWeight P.graph.edges.length s.nodes + used.card + t.found.length := by
  induction h with
  | zero => exact ⟨∅, by simp, by simp, by simp⟩
  | next h h' ih =>
    obtain ⟨used, h1, h2, h3⟩ := ih hn
    obtain ⟨used', h4, h5, h6⟩ := h'.count hsnd ho hkeep (h.nodesOk hn) h1 h2
    exact ⟨used', h4, h5, by omega⟩

/-- The best solutions are different, so there are no more of them than there are sets of edges. -/
theorem Search.Inv.found_length (h : s.Inv scale P order) : s.found.length ≤ 2 ^ P.graph.edges.length := by
  classical
  have hnd : (s.found.map fun y => (Finset.range P.graph.edges.length).filter fun e => y e = 1).Nodup := by
    rw [List.Nodup, List.pairwise_map]
    refine List.Pairwise.imp_of_mem (fun {a b} ha hb hlt heq => ?_) h.sorted
    have : objective P.graph P.cost a = objective P.graph P.cost b := by
      rw [objective_scaled (q := 1) (y := b) fun e he => ?_, Int.one_mul]
      have h1 := Finset.ext_iff.1 heq e
      simp only [Finset.mem_filter, Finset.mem_range, he, true_and] at h1
      rcases (h.found a ha).binary e he with h2 | h2 <;> rcases (h.found b hb).binary e he with h3 | h3 <;> rw [h2, h3] at h1 ⊢ <;> simp at h1 ⊢
    omega
  have h1 := List.toFinset_card_of_nodup hnd
  rw [List.length_map] at h1
  rw [← h1, ← Finset.card_range P.graph.edges.length, ← Finset.card_powerset, Finset.card_range]
  refine Finset.card_le_card fun S hS => ?_
  obtain ⟨y, -, rfl⟩ := List.mem_map.1 (List.mem_toFinset.1 hS)
  exact Finset.mem_powerset.2 (Finset.filter_subset _ _)

/-- The number of steps of a search that keeps its rows. -/
theorem Steps.bounded (hsnd : Sound P ub) (ho : order.Perm (List.range P.graph.edges.length)) (hscale : 0 < scale)
    (hdvd : ∀ e < P.graph.edges.length, scale ∣ P.cost e) (hkeep : mode.keep = true) {k : Nat} (hs : s.Start scale P order)
    (h : Steps mode scale P order k s t) : k < 3 * 2 ^ P.graph.edges.length + (P.graph.n + 1) * 2 ^ P.graph.n := by
  obtain ⟨used, h1, -, h3⟩ := h.count hsnd ho hkeep hs.nodesOk
  have h4 := Finset.card_le_card h1
  rw [rowKeys_card] at h4
  have h5 := (Steps.inv hsnd ho hscale hdvd hs.inv h).found_length
  have h6 : treeWeight P.graph.edges.length s.nodes = 2 ^ (P.graph.edges.length + 1) - 1 := by
    have : s.nodes = [[]] := by cases hs <;> rfl
    rw [this]
    simp [treeWeight, nodeWeight]
  have h7 := Nat.two_pow_pos P.graph.edges.length
  rw [h6, Nat.pow_succ] at h3
  rw [Nat.mul_comm] at h4
  omega

/-- A search that was started can be brought to its end. -/
theorem Steps.finish (hsnd : Sound P ub) (ho : order.Perm (List.range P.graph.edges.length)) (hscale : 0 < scale)
    (hdvd : ∀ e < P.graph.edges.length, scale ∣ P.cost e) (hkeep : mode.keep = true) {k : Nat} (hs : s.Start scale P order)
    (h : Steps mode scale P order k s t) : ∃ k' u, Steps mode scale P order (k + k') s u ∧ u.nodes = [] ∧ Steps mode scale P order k' t u := by
  suffices ∀ m k' u, Steps mode scale P order (k + k') s u → Steps mode scale P order k' t u →
      3 * 2 ^ P.graph.edges.length + (P.graph.n + 1) * 2 ^ P.graph.n ≤ k + k' + m →
      ∃ k' u, Steps mode scale P order (k + k') s u ∧ u.nodes = [] ∧ Steps mode scale P order k' t u from
    this _ 0 t h .zero (Nat.le_add_left _ _)
  intro m
  induction m with
  | zero =>
    intro k' u h1 _ h2
    have := h1.bounded hsnd ho hscale hdvd hkeep hs
    omega
  | succ m ih =>
    intro k' u h1 h2 h3
    by_cases hu : u.nodes = []
    · exact ⟨k', u, h1, hu, h2⟩
    · obtain ⟨v, hv⟩ := (Steps.inv hsnd ho hscale hdvd hs.inv h1).progress hsnd ho hscale (h1.nodesOk hs.nodesOk) hu
      exact ih (k' + 1) v (.next h1 hv) (.next h2 hv) (by omega)

end Pctsp
