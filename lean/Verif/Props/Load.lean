import Verif.Lemmas.Load

/-!
# Property C122: the instance that a vial is run on
-/

namespace Pctsp

variable {N U V P : Type} [DecidableEq V]

/-- Every vertex of the londonaq file of the vial has a demand. -/
def DemandsGiven (env : LoadEnv N V) (c : DataConf N) : Prop :=
  c.dataset = .londonaq → ∀ g, env.londonaq c.name = some g → ∀ x ∈ g.nodes, (g.demand x).isSome

/-- The attempt at a vial that is run on its own. -/
def attemptAlone (env : LoadEnv N V) (conf : LabVial U P → DataConf N) (attempt : LabVial U P → AttrGraph V → Attempt U V) (v : LabVial U P) :
    Attempt U V :=
  match loadVial env none (conf v) with
  | none => .abort
  | some i => attempt v i.1

/-- **C122.** If the londonaq files have demands, every vial of a list is run on the instance it is run on when it is alone. -/
theorem C122_independent [DecidableEq U] (env : LoadEnv N V) (conf : LabVial U P → DataConf N) (attempt : LabVial U P → AttrGraph V → Attempt U V)
    (vials : List (LabVial U P)) (h : ∀ v ∈ vials, DemandsGiven env (conf v)) (problem : Option (V → Option Int)) (s : Store U V) :
    runVialsLoading env conf attempt vials problem s = runVials (attemptAlone env conf attempt) vials s := by
  induction vials generalizing problem s with
  | nil => rfl
  | cons v vs ih =>
    have ih := ih fun v hv => h v (by simp [hv])
    have key : ((loadVial env problem (conf v)).map Prod.fst) = ((loadVial env none (conf v)).map Prod.fst) := by
      unfold loadVial
      cases hd : (conf v).dataset with
      | tspwplib => rfl
      | londonaq =>
        by_cases hr : env.londonaqRoot = true
        · simp only [hr, if_true]
          cases hg : env.londonaq (conf v).name with
          | none => rfl
          | some g =>
            have := h v (by simp) hd g hg
            simp only [Option.bind_eq_bind, Option.bind_some]
            rw [instanceOf_all (problem' := none) this]
            cases instanceOf env none (conf v) g <;> rfl
        · simp [hr]
    rw [runVialsLoading, runVials]
    cases h1 : loadVial env problem (conf v) with
    | none =>
      rw [h1] at key
      have h2 : loadVial env none (conf v) = none := by simpa using key.symm
      simp only [attemptAlone, h2]
    | some i =>
      rw [h1] at key
      cases h2 : loadVial env none (conf v) with
      | none => rw [h2] at key; cases key
      | some j =>
        rw [h2] at key
        have hij : i.1 = j.1 := by simpa using key
        obtain ⟨i1, i2⟩ := i
        dsimp only at hij
        subst hij
        simp only [attemptAlone, h2]
        cases attempt v j.1 with
        | abort => rfl
        | died => rfl
        | failed => exact ih _ _
        | unwritten r f => simp only [ih]
        | done r => simp only [ih]

/-- **C122.** The instance of a londonaq vial: prizes are the demands. -/
theorem C122_londonaq (env : LoadEnv N V) (c : DataConf N) (hd : c.dataset = .londonaq) (hr : env.londonaqRoot = true) (hk : c.kappa = none ∨ c.kappa = some 0)
    (hc : c.costFunction = .other) (g : RawGraph V) (hg : env.londonaq c.name = some g) (hdem : ∀ x ∈ g.nodes, (g.demand x).isSome)
    (hw : ∀ e ∈ g.edges, (g.weight e).isSome) (problem : Option (V → Option Int)) :
    ∃ i, loadVial env problem c = some (i, problem) ∧ i.nodes = g.nodes ∧ i.edges = g.edges ∧ (∀ x ∈ g.nodes, i.prize x = g.demand x) ∧
      ∀ e ∈ g.edges, i.cost e = g.weight e := by
  have hall : (g.edges.all fun e => (g.weight e).isSome) = true := List.all_eq_true.2 hw
  refine ⟨⟨g.nodes, fun x => if x ∈ g.nodes then g.demand x else none, g.edges, g.weight⟩, ?_, rfl, rfl, fun x hx => if_pos hx, fun _ _ => rfl⟩
  rw [loadVial, hd]
  simp only [hr, if_true, hg, Option.bind_eq_bind, Option.bind_some, instanceOf, hall, loadPrizes_all hdem, hc, changeCosts]
  rcases hk with hk | hk <;> rw [hk] <;> rfl

/-- **C122.** The instance of a tspwplib vial: prizes are the scores of its own problem, unless the problem has demands everywhere. -/
theorem C122_tspwplib (env : LoadEnv N V) (c : DataConf N) (hd : c.dataset = .tspwplib) (hr : env.oplibRoot = true) (hk : c.kappa = none ∨ c.kappa = some 0)
    (hc : c.costFunction = .other) (g : RawGraph V) (score : V → Option Int) (hg : env.oplib c.name = some (g, score))
    (hs : ∀ x ∈ g.nodes, (score x).isSome) (hw : ∀ e ∈ g.edges, (g.weight e).isSome) (problem : Option (V → Option Int)) :
    ∃ i, loadVial env problem c = some (i, some score) ∧ i.nodes = g.nodes ∧ i.edges = g.edges ∧ (∀ e ∈ g.edges, i.cost e = g.weight e) ∧
      ((∃ x ∈ g.nodes, g.demand x = none) → ∀ x ∈ g.nodes, i.prize x = score x) ∧
      ((∀ x ∈ g.nodes, (g.demand x).isSome) → ∀ x ∈ g.nodes, i.prize x = g.demand x) ∧ ∀ x ∉ g.nodes, i.prize x = none := by
  have hall : (g.edges.all fun e => (g.weight e).isSome) = true := List.all_eq_true.2 hw
  by_cases hdem : ∀ x ∈ g.nodes, (g.demand x).isSome
  · refine ⟨⟨g.nodes, fun x => if x ∈ g.nodes then g.demand x else none, g.edges, g.weight⟩, ?_, rfl, rfl, fun _ _ => rfl, ?_, fun _ x hx => if_pos hx,
      fun x hx => if_neg hx⟩
    · rw [loadVial, hd]
      simp only [hr, if_true, hg, Option.bind_eq_bind, Option.bind_some, instanceOf, hall, loadPrizes_all hdem, hc, changeCosts]
      rcases hk with hk | hk <;> rw [hk] <;> rfl
    · rintro ⟨x, hx, hx'⟩
      have := hdem x hx
      rw [hx'] at this
      cases this
  · have hmiss : ∃ x ∈ g.nodes, g.demand x = none := by
      push Not at hdem
      obtain ⟨x, hx, h⟩ := hdem
      exact ⟨x, hx, by simpa using h⟩
    obtain ⟨prize, hp, hp', hn⟩ := (loadPrizes_missing hmiss).2 score
    refine ⟨⟨g.nodes, prize, g.edges, g.weight⟩, ?_, rfl, rfl, fun _ _ => rfl, fun _ x hx => ?_, fun h => absurd h hdem, hn⟩
    · rw [loadVial, hd]
      simp only [hr, if_true, hg, Option.bind_eq_bind, Option.bind_some, instanceOf, hall, hp, hc, changeCosts]
      rcases hk with hk | hk <;> rw [hk] <;> rfl
    · obtain ⟨p, hsp⟩ := Option.isSome_iff_exists.1 (hs x hx)
      rw [hsp]
      exact hp' x hx p hsp

/-- **C122.** A londonaq file with a vertex without a demand: if no tspwplib vial came before, the exception ends the whole list, and neither this vial nor
any later one is run; else it is run with the scores of the last tspwplib problem before it, which has nothing to do with it. -/
theorem C122_stale [DecidableEq U] (env : LoadEnv N V) (conf : LabVial U P → DataConf N) (attempt : LabVial U P → AttrGraph V → Attempt U V)
    (v : LabVial U P) (hd : (conf v).dataset = .londonaq) (hr : env.londonaqRoot = true) (hk : (conf v).kappa = none) (hc : (conf v).costFunction = .other)
    (g : RawGraph V) (hg : env.londonaq (conf v).name = some g) (hmiss : ∃ x ∈ g.nodes, g.demand x = none) (hw : ∀ e ∈ g.edges, (g.weight e).isSome) :
    (∀ rest s, runVialsLoading env conf attempt (v :: rest) none s = (s, .error .load)) ∧
    ∀ (u : LabVial U P) (i : AttrGraph V) (score : V → Option Int) (r : LabResult V) (s : Store U V), (conf u).dataset = .tspwplib →
      loadVial env none (conf u) = some (i, some score) → attempt u i = .done r →
      ∃ j : AttrGraph V, j.nodes = g.nodes ∧ (∀ x ∈ g.nodes, ∀ p, score x = some p → j.prize x = some p) ∧
        ∀ r', attempt v j = .done r' → runVialsLoading env conf attempt [u, v] none s =
          (setFile (setFile s u.uuid (.good ⟨u.uuid, r⟩)) v.uuid (.good ⟨v.uuid, r'⟩), .ok [⟨u.uuid, r⟩, ⟨v.uuid, r'⟩]) := by
  have hall : (g.edges.all fun e => (g.weight e).isSome) = true := List.all_eq_true.2 hw
  obtain ⟨h0, h1⟩ := loadPrizes_missing hmiss
  constructor
  · intro rest s
    have : loadVial env none (conf v) = none := by
      rw [loadVial, hd]
      simp only [hr, if_true, hg, Option.bind_eq_bind, Option.bind_some, instanceOf, hall, h0, Option.bind_none]
    rw [runVialsLoading, this]
  · intro u i score r s hu hload hr1
    obtain ⟨prize, hp, hp', _⟩ := h1 score
    refine ⟨⟨g.nodes, prize, g.edges, g.weight⟩, rfl, hp', fun r' hr' => ?_⟩
    have : loadVial env (some score) (conf v) = some (⟨g.nodes, prize, g.edges, g.weight⟩, some score) := by
      rw [loadVial, hd]
      simp only [hr, if_true, hg, Option.bind_eq_bind, Option.bind_some, instanceOf, hall, hp, hc, changeCosts, hk, removeEdges]
      rfl
    simp only [runVialsLoading, hload, hr1, this, hr', consResult]
    rfl

/-- **C122.** It does not matter for that whether the tspwplib vial before it was run successfully: the scores are also taken from one that failed. -/
theorem C122_stale_failed [DecidableEq U] (env : LoadEnv N V) (conf : LabVial U P → DataConf N) (attempt : LabVial U P → AttrGraph V → Attempt U V)
    (v : LabVial U P) (hd : (conf v).dataset = .londonaq) (hr : env.londonaqRoot = true) (hk : (conf v).kappa = none) (hc : (conf v).costFunction = .other)
    (g : RawGraph V) (hg : env.londonaq (conf v).name = some g) (hmiss : ∃ x ∈ g.nodes, g.demand x = none) (hw : ∀ e ∈ g.edges, (g.weight e).isSome)
    (u : LabVial U P) (i : AttrGraph V) (score : V → Option Int) (s : Store U V) (hload : loadVial env none (conf u) = some (i, some score))
    (hu : attempt u i = .failed) :
    ∃ j : AttrGraph V, j.nodes = g.nodes ∧ (∀ x ∈ g.nodes, ∀ p, score x = some p → j.prize x = some p) ∧
      ∀ r', attempt v j = .done r' → runVialsLoading env conf attempt [u, v] none s =
        (setFile s v.uuid (.good ⟨v.uuid, r'⟩), .ok [⟨v.uuid, r'⟩]) := by
  have hall : (g.edges.all fun e => (g.weight e).isSome) = true := List.all_eq_true.2 hw
  obtain ⟨-, h1⟩ := loadPrizes_missing hmiss
  obtain ⟨prize, hp, hp', _⟩ := h1 score
  refine ⟨⟨g.nodes, prize, g.edges, g.weight⟩, rfl, hp', fun r' hr' => ?_⟩
  have : loadVial env (some score) (conf v) = some (⟨g.nodes, prize, g.edges, g.weight⟩, some score) := by
    rw [loadVial, hd]
    simp only [hr, if_true, hg, Option.bind_eq_bind, Option.bind_some, instanceOf, hall, hp, hc, changeCosts, hk, removeEdges]
    rfl
  simp only [runVialsLoading, hload, hu, this, hr', consResult]
  rfl

/-- **C122.** A vial whose directory is not given, whose file cannot be read, or whose graph has an edge without a weight ends the whole list, whatever came
before. -/
theorem C122_raises [DecidableEq U] (env : LoadEnv N V) (conf : LabVial U P → DataConf N) (attempt : LabVial U P → AttrGraph V → Attempt U V)
    (v : LabVial U P) (h : match (conf v).dataset with
      | .tspwplib => env.oplibRoot = false ∨ env.oplib (conf v).name = none ∨ ∃ g score, env.oplib (conf v).name = some (g, score) ∧ ∃ e ∈ g.edges, g.weight e = none
      | .londonaq => env.londonaqRoot = false ∨ env.londonaq (conf v).name = none ∨ ∃ g, env.londonaq (conf v).name = some g ∧ ∃ e ∈ g.edges, g.weight e = none)
    (rest : List (LabVial U P)) (problem : Option (V → Option Int)) (s : Store U V) :
    runVialsLoading env conf attempt (v :: rest) problem s = (s, .error .load) := by
  have aux : ∀ (p : Option (V → Option Int)) (g : RawGraph V), (∃ e ∈ g.edges, g.weight e = none) → instanceOf env p (conf v) g = none := by
    rintro p g ⟨e, he, hw⟩
    rw [instanceOf, if_neg]
    intro hall
    have := List.all_eq_true.1 hall e he
    rw [hw] at this
    cases this
  have key : loadVial env problem (conf v) = none := by
    rw [loadVial]
    cases hd : (conf v).dataset with
    | tspwplib =>
      rw [hd] at h
      dsimp only at h ⊢
      rcases h with h | h | ⟨g, score, h, hw⟩
      · rw [h]; rfl
      · rw [h]; split <;> rfl
      · rw [h]
        split
        · simp only [Option.bind_eq_bind, Option.bind_some, aux _ g hw, Option.bind_none]
        · rfl
    | londonaq =>
      rw [hd] at h
      dsimp only at h ⊢
      rcases h with h | h | ⟨g, h, hw⟩
      · rw [h]; rfl
      · rw [h]; split <;> rfl
      · rw [h]
        split
        · simp only [Option.bind_eq_bind, Option.bind_some, aux _ g hw, Option.bind_none]
        · rfl
  rw [runVialsLoading, key]

/-- **C122.** The other cost functions replace exactly the costs that they name, in either direction; `kappa` zero removes no edges. -/
theorem C122_costs (env : LoadEnv N V) (f : CostKind) (g : AttrGraph V) (new : List ((V × V) × Int))
    (hf : f = .uniformRandom ∧ env.uniformRandom g.edges = some new ∨ f = .mst ∧ env.mst g = some new ∨ f = .semiMst ∧ env.semiMst g = some new) :
    ∃ i, changeCosts env f g = some i ∧ i.nodes = g.nodes ∧ i.edges = g.edges ∧ i.prize = g.prize ∧
      (∀ e c, ((e, c) ∈ new ∨ ((e.2, e.1), c) ∈ new) → (∀ c', ((e, c') ∈ new ∨ ((e.2, e.1), c') ∈ new) → c' = c) → i.cost e = some c) ∧
      (∀ e, (∀ c, (e, c) ∉ new ∧ ((e.2, e.1), c) ∉ new) → i.cost e = g.cost e) ∧ removeEdges env (some 0) i = some i := by
  refine ⟨setEdgeCosts g new, ?_, rfl, rfl, rfl, fun e c h1 h2 => setEdgeCosts_cost h1 h2, fun e h => setEdgeCosts_keep h, rfl⟩
  rcases hf with ⟨rfl, h⟩ | ⟨rfl, h⟩ | ⟨rfl, h⟩ <;> rw [changeCosts, h] <;> rfl

/-- **C122.** Edges are removed first and costs are changed afterwards, on the graph without them; if either raises, the exception ends the list. -/
theorem C122_sparse (env : LoadEnv N V) (problem q : Option (V → Option Int)) (c : DataConf N) (k : Int) (hk : k ≠ 0) (i : AttrGraph V)
    (h : loadVial env problem { c with kappa := none, costFunction := .other } = some (i, q)) :
    (∀ j l, env.sparsify i k = some j → changeCosts env c.costFunction j = some l → loadVial env problem { c with kappa := some k } = some (l, q)) ∧
    (env.sparsify i k = none → loadVial env problem { c with kappa := some k } = none) ∧
    (∀ j, env.sparsify i k = some j → changeCosts env c.costFunction j = none → loadVial env problem { c with kappa := some k } = none) := by
  have key : loadVial env problem { c with kappa := some k } =
      ((env.sparsify i k).bind (changeCosts env c.costFunction)).map fun l => (l, q) := by
    have aux : ∀ (p : Option (V → Option Int)) (g : RawGraph V) (i : AttrGraph V), instanceOf env p { c with kappa := none, costFunction := .other } g = some i →
        instanceOf env p { c with kappa := some k } g = (env.sparsify i k).bind (changeCosts env c.costFunction) := by
      intro p g i hi
      unfold instanceOf at hi ⊢
      split at hi
      · rename_i hall
        rw [if_pos hall]
        cases hp : loadPrizes g p with
        | none => rw [hp] at hi; cases hi
        | some prize =>
          rw [hp] at hi
          cases hi
          simp only [Option.bind_eq_bind, Option.bind_some, removeEdges, if_neg hk]
      · cases hi
    unfold loadVial at h ⊢
    cases hd : c.dataset with
    | tspwplib =>
      simp only [hd] at h ⊢
      split at h
      · rename_i hr
        rw [if_pos hr]
        cases hg : env.oplib c.name with
        | none => rw [hg] at h; cases h
        | some g =>
          simp only [hg, Option.bind_eq_bind, Option.bind_some] at h ⊢
          cases hi : instanceOf env (some g.2) { c with kappa := none, costFunction := .other } g.1 with
          | none => rw [hd] at hi; simp only [hi] at h; cases h
          | some i' =>
            have ha := aux _ _ _ hi
            rw [hd] at hi ha
            simp only [hi] at h
            cases h
            simp only [ha]
            cases (env.sparsify i k).bind (changeCosts env c.costFunction) <;> rfl
      · cases h
    | londonaq =>
      simp only [hd] at h ⊢
      split at h
      · rename_i hr
        rw [if_pos hr]
        cases hg : env.londonaq c.name with
        | none => rw [hg] at h; cases h
        | some g =>
          simp only [hg, Option.bind_eq_bind, Option.bind_some] at h ⊢
          cases hi : instanceOf env problem { c with kappa := none, costFunction := .other } g with
          | none => rw [hd] at hi; simp only [hi] at h; cases h
          | some i' =>
            have ha := aux _ _ _ hi
            rw [hd] at hi ha
            simp only [hi] at h
            cases h
            simp only [ha]
            cases (env.sparsify i k).bind (changeCosts env c.costFunction) <;> rfl
      · cases h
  rw [key]
  refine ⟨fun j l h1 h2 => by rw [h1, Option.bind_some, h2]; rfl, fun h1 => by rw [h1]; rfl, fun j h1 h2 => by rw [h1, Option.bind_some, h2]; rfl⟩

/-! ## Examples -/

/-- Two files: a tspwplib triangle with scores 5 and a londonaq triangle; `d` is the demand of its last vertex. -/
def exLoadEnv (d : Option Int) : LoadEnv String Nat where
  oplibRoot := true
  londonaqRoot := true
  oplib := fun _ => some (⟨[0, 1, 2], fun _ => none, [(0, 1), (1, 2), (2, 0)], fun _ => some 1⟩, fun _ => some 5)
  londonaq := fun _ => some ⟨[0, 1, 2], fun v => if v = 2 then d else some 1, [(0, 1), (1, 2), (2, 0)], fun _ => some 1⟩
  sparsify := fun g _ => some g
  uniformRandom := fun es => some (es.map fun e => (e, 7))
  mst := fun _ => some [((1, 0), 3)]
  semiMst := fun _ => none

/-- The settings of the two vials: number 0 is from tspwplib, the others are from londonaq. -/
def exConf (v : LabVial Nat Unit) : DataConf String := ⟨if v.uuid = 0 then .tspwplib else .londonaq, "name", none, .other⟩

/-- An attempt that reports the sum of the prizes. -/
def exAttempt (_ : LabVial Nat Unit) (g : AttrGraph Nat) : Attempt Nat Nat := .done ⟨0, (g.nodes.map fun v => (g.prize v).getD 0).sum, []⟩

/-- The prizes that are returned. -/
def prizesOf (x : Store Nat Nat × Except LabError (List (StoredResult Nat Nat))) : Except LabError (List Int) := x.2.map fun l => l.map fun r => r.result.prize

example : ∀ v, DemandsGiven (exLoadEnv (some 1)) (exConf v) := by
  intro v _ g hg x _
  cases hg
  show (if x = 2 then some 1 else some 1 : Option Int).isSome
  split <;> rfl
example : (exConf ⟨1, 0, ()⟩).dataset = .londonaq ∧ (exConf ⟨0, 0, ()⟩).dataset = .tspwplib := by decide
/-- With all demands the londonaq vial collects 3, in every order. -/
example : ((prizesOf (runVialsLoading (exLoadEnv (some 1)) exConf exAttempt [⟨0, 0, ()⟩, ⟨1, 0, ()⟩] none fun _ => .absent)).toOption,
    (prizesOf (runVialsLoading (exLoadEnv (some 1)) exConf exAttempt [⟨1, 0, ()⟩, ⟨0, 0, ()⟩] none fun _ => .absent)).toOption) =
    (some [15, 3], some [3, 15]) := by decide +kernel
/-- With a demand missing it collects 15 after the other vial, and before it stops both. -/
example : ((prizesOf (runVialsLoading (exLoadEnv none) exConf exAttempt [⟨0, 0, ()⟩, ⟨1, 0, ()⟩] none fun _ => .absent)).toOption,
    (prizesOf (runVialsLoading (exLoadEnv none) exConf exAttempt [⟨1, 0, ()⟩, ⟨0, 0, ()⟩] none fun _ => .absent)).toOption) =
    (some [15, 15], none) := by decide +kernel
/-- It also collects 15 after the other vial has failed. -/
example : (prizesOf (runVialsLoading (exLoadEnv none) exConf (fun v g => if v.uuid = 0 then .failed else exAttempt v g) [⟨0, 0, ()⟩, ⟨1, 0, ()⟩] none
    fun _ => .absent)).toOption = some [15] := by decide +kernel
example : ∀ g, (exLoadEnv none).londonaq "name" = some g → ∃ x ∈ g.nodes, g.demand x = none := by
  intro g hg; cases hg; exact ⟨2, by decide, rfl⟩
/-- A vial with edges removed and new costs, and one whose costs cannot be computed. -/
example : ((loadVial (exLoadEnv none) none ⟨.tspwplib, "name", some 5, .mst⟩).map fun i => i.1.cost (0, 1)) = some (some 3) ∧
    (loadVial (exLoadEnv none) none ⟨.tspwplib, "name", some 5, .semiMst⟩).isNone := by decide +kernel
example : ((changeCosts (exLoadEnv none) .mst ⟨[0, 1, 2], fun _ => none, [(0, 1), (1, 2)], fun _ => some 1⟩).map fun i => (i.cost (0, 1), i.cost (1, 2))) =
    some (some 3, some 1) := by decide +kernel

/-- An edge without a weight ends the list. -/
example : (prizesOf (runVialsLoading { exLoadEnv (some 1) with londonaq := fun _ => some ⟨[0, 1], fun _ => some 1, [(0, 1)], fun _ => none⟩ } exConf exAttempt
    [⟨1, 0, ()⟩, ⟨0, 0, ()⟩] none fun _ => .absent)).toOption = none := by decide +kernel

end Pctsp
