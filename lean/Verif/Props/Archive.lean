import Verif.Model.Archive
import Mathlib.Data.List.Basic
import Mathlib.Tactic.Common

/-!
# C132: archives of experiments
-/

namespace Pctsp

variable {E F C : Type} [DecidableEq E]

theorem zipOne_dirs (e : E) (r : DatasetRoot E F C) : (zipOne e r).1.dirs = r.dirs := by
  unfold zipOne; split <;> rfl

theorem unzipOne_zips (e : E) (r : DatasetRoot E F C) : (unzipOne e r).1.zips = r.zips := by
  unfold unzipOne; split <;> rfl

/-- The archive of exactly one directory. -/
def onlyDir (e : E) (fs : F → Option C) : ZipFile E F C := .archive fun e' => if e' = e then some fs else none

/-- **C132.** `zip` changes no experiment.  It succeeds exactly if all the experiments exist, and then the archive of each has exactly the files of this experiment. -/
theorem C132_zip (es : List E) (r : DatasetRoot E F C) :
    (zipCmd es r).1.dirs = r.dirs ∧ ((zipCmd es r).2 = .ok () ↔ ∀ e ∈ es, r.dirs e ≠ none) ∧
    ((zipCmd es r).2 = .ok () → (∀ e ∈ es, ∀ fs, r.dirs e = some fs → (zipCmd es r).1.zips e = some (onlyDir e fs)) ∧
      ∀ e, e ∉ es → (zipCmd es r).1.zips e = r.zips e) := by
  induction es generalizing r with
  | nil => simp [zipCmd, forEach]
  | cons e es ih =>
    cases hd : r.dirs e with
    | none =>
      have h1 : zipCmd (e :: es) r = ({ r with zips := putAt r.zips e (some (.archive fun _ => none)) }, .error .fileNotFound) := by
        simp [zipCmd, forEach, zipOne, hd]
      rw [h1]
      simp [hd]
    | some fs =>
      have h1 : zipCmd (e :: es) r = zipCmd es { r with zips := putAt r.zips e (some (.archive (putAt (fun _ => none) e (some fs)))) } := by
        simp [zipCmd, forEach, zipOne, hd]
      rw [h1]
      obtain ⟨i1, i2, i3⟩ := ih { r with zips := putAt r.zips e (some (.archive (putAt (fun _ => none) e (some fs)))) }
      refine ⟨i1, i2.trans (by simp [hd]), fun hok => ?_⟩
      obtain ⟨i4, i5⟩ := i3 hok
      refine ⟨fun e' he' fs' hfs' => ?_, fun e' he' => ?_⟩
      · by_cases hin : e' ∈ es
        · exact i4 e' hin fs' hfs'
        · rw [i5 e' hin]
          obtain rfl : e' = e := by simpa [hin] using he'
          rw [hd] at hfs'; cases hfs'
          simp [putAt, onlyDir]
          funext e''; simp [putAt]
      · rw [i5 e' (fun h => he' (List.mem_cons_of_mem _ h))]
        have : e' ≠ e := fun h => he' (h ▸ List.mem_cons_self)
        simp [putAt, this]

/-- **C132.** `zip` stops at the first experiment that does not exist: those before it have their archives, those after it keep theirs, but **the archive of the
missing experiment itself, if there was one, is replaced by one with nothing in it**; `unzip` of it then succeeds and restores nothing. -/
theorem C132_zip_missing {pre post : List E} {e : E} {r : DatasetRoot E F C} (hpre : ∀ x ∈ pre, r.dirs x ≠ none) (he : r.dirs e = none) :
    (zipCmd (pre ++ e :: post) r).2 = .error .fileNotFound ∧
    (∀ x ∈ pre, ∀ fs, r.dirs x = some fs → (zipCmd (pre ++ e :: post) r).1.zips x = some (onlyDir x fs)) ∧
    (∀ x, x ∉ pre → x ≠ e → (zipCmd (pre ++ e :: post) r).1.zips x = r.zips x) ∧
    (zipCmd (pre ++ e :: post) r).1.zips e = some (.archive fun _ => none) ∧
    unzipCmd [e] (zipCmd (pre ++ e :: post) r).1 = ((zipCmd (pre ++ e :: post) r).1, .ok ()) := by
  have key : ∀ (pre : List E) (r : DatasetRoot E F C), (∀ x ∈ pre, r.dirs x ≠ none) → r.dirs e = none →
      zipCmd (pre ++ e :: post) r = ({ (zipCmd pre r).1 with zips := putAt (zipCmd pre r).1.zips e (some (.archive fun _ => none)) }, .error .fileNotFound) := by
    intro pre
    induction pre with
    | nil => intro r _ he; simp [zipCmd, forEach, zipOne, he]
    | cons x xs ih =>
      intro r hpre he
      obtain ⟨fs, hfs⟩ := Option.ne_none_iff_exists'.1 (hpre x List.mem_cons_self)
      have h1 : ∀ l, zipCmd (x :: l) r = zipCmd l { r with zips := putAt r.zips x (some (.archive (putAt (fun _ => none) x (some fs)))) } := by
        intro l; simp [zipCmd, forEach, zipOne, hfs]
      rw [List.cons_append, h1, h1]
      exact ih _ (fun y hy => hpre y (List.mem_cons_of_mem _ hy)) he
  have hne : ∀ x ∈ pre, x ≠ e := fun x hx h => hpre x hx (h ▸ he)
  obtain ⟨i1, i2, i3⟩ := C132_zip pre r
  obtain ⟨i4, i5⟩ := i3 (i2.2 hpre)
  rw [key pre r hpre he]
  refine ⟨rfl, fun x hx fs hfs => ?_, fun x hx hxe => ?_, by simp [putAt], ?_⟩
  · simp [putAt, hne x hx, i4 x hx fs hfs]
  · simp [putAt, hxe, i5 x hx]
  · simp [unzipCmd, forEach, unzipOne, putAt, unpackDir]

/-- The files of the experiment `e'` after the archives of `es` were unpacked one after the other. -/
theorem unzip_forEach {es : List E} {r : DatasetRoot E F C} {fs : E → F → Option C} (h : ∀ e ∈ es, r.zips e = some (onlyDir e (fs e))) :
    (unzipCmd es r).2 = .ok () ∧ (unzipCmd es r).1.zips = r.zips ∧
    ∀ e, (unzipCmd es r).1.dirs e = if e ∈ es then unpackDir (r.dirs e) (some (fs e)) else r.dirs e := by
  induction es generalizing r with
  | nil => simp [unzipCmd, forEach]
  | cons x xs ih =>
    have hx := h x List.mem_cons_self
    have h1 : unzipCmd (x :: xs) r = unzipCmd xs { r with dirs := fun e => unpackDir (r.dirs e) (if e = x then some (fs x) else none) } := by
      simp [unzipCmd, forEach, unzipOne, hx, onlyDir]
    rw [h1]
    obtain ⟨i1, i2, i3⟩ := ih (r := { r with dirs := fun e => unpackDir (r.dirs e) (if e = x then some (fs x) else none) })
      (fun e he => h e (List.mem_cons_of_mem _ he))
    refine ⟨i1, i2, fun e => ?_⟩
    rw [i3]
    by_cases hex : e = x
    · subst hex
      simp only [if_true, List.mem_cons, true_or]
      split
      · cases hd : r.dirs e with
        | none =>
          simp only [unpackDir]
          congr 1; funext f; cases fs e f <;> rfl
        | some o =>
          simp only [unpackDir]
          congr 1; funext f; cases fs e f <;> rfl
      · rfl
    · simp [hex, unpackDir]

/-- **C132.** Archives bring back what was there: after a successful `zip` of experiments, whatever then happens to the experiments, `unzip` of them succeeds.
A file that was in an experiment has its content of that time again, also if it is newer by now; a file that was not keeps its content; nothing else changes. -/
theorem C132_unzip {es : List E} {r : DatasetRoot E F C} (hz : (zipCmd es r).2 = .ok ()) {r' : DatasetRoot E F C} (hr : r'.zips = (zipCmd es r).1.zips) :
    (unzipCmd es r').2 = .ok () ∧ (unzipCmd es r').1.zips = r'.zips ∧ (∀ e, e ∉ es → (unzipCmd es r').1.dirs e = r'.dirs e) ∧
    ∀ e ∈ es, ∀ fs, r.dirs e = some fs → ∃ new, (unzipCmd es r').1.dirs e = some new ∧
      (∀ f c, fs f = some c → new f = some c) ∧
      (∀ f, fs f = none → new f = (r'.dirs e).elim none (· f)) ∧
      (r'.dirs e = none → new = fs) := by
  obtain ⟨-, i2, i3⟩ := C132_zip es r
  have hd := i2.1 hz
  obtain ⟨i4, -⟩ := i3 hz
  have hfs : ∃ fs : E → F → Option C, ∀ e ∈ es, r.dirs e = some (fs e) := by
    refine ⟨fun e => (r.dirs e).getD fun _ => none, fun e he => ?_⟩
    obtain ⟨fs, hfs⟩ := Option.ne_none_iff_exists'.1 (hd e he)
    simp [hfs]
  obtain ⟨fs, hfs⟩ := hfs
  obtain ⟨j1, j2, j3⟩ := unzip_forEach (es := es) (r := r') (fs := fs) (fun e he => by rw [hr, i4 e he _ (hfs e he)])
  refine ⟨j1, j2, fun e he => by rw [j3, if_neg he], fun e he fs' hfs' => ?_⟩
  rw [j3, if_pos he]
  rw [hfs e he] at hfs'
  cases hfs'
  cases hd' : r'.dirs e with
  | none => exact ⟨_, rfl, fun _ _ h => h, fun _ h => h, fun _ => rfl⟩
  | some o =>
    refine ⟨_, rfl, fun f c hc => by simp [hc], fun f hf => by simp [hf], fun h => by cases h⟩

/-- **C132.** `unzip` stops at the first experiment without an archive: the ones before it have been unpacked, nothing else has changed. -/
theorem C132_unzip_missing {pre post : List E} {e : E} {r : DatasetRoot E F C} {fs : E → F → Option C} (hpre : ∀ x ∈ pre, r.zips x = some (onlyDir x (fs x)))
    (he : r.zips e = none ∨ r.zips e = some .broken) :
    unzipCmd (pre ++ e :: post) r = ((unzipCmd pre r).1, .error .readError) := by
  induction pre generalizing r with
  | nil => rcases he with he | he <;> simp [unzipCmd, forEach, unzipOne, he]
  | cons x xs ih =>
    have hx := hpre x List.mem_cons_self
    have h1 : ∀ l, unzipCmd (x :: l) r = unzipCmd l { r with dirs := fun e => unpackDir (r.dirs e) (if e = x then some (fs x) else none) } := by
      intro l; simp [unzipCmd, forEach, unzipOne, hx, onlyDir]
    rw [List.cons_append, h1, h1]
    exact ih (fun y hy => hpre y (List.mem_cons_of_mem _ hy)) he

/-- **C132.** Results from two places: after `unzip`, the results of an experiment are those of the archive where it has a file, and the local ones elsewhere.
So a file of the archive that cannot be parsed takes the place of a good local result, and `missing` then lists its vial. -/
theorem C132_results {U V P : Type} {name : U → F} {parse : C → ResultFile U V} {es : List E} {r : DatasetRoot E F C} (hz : (zipCmd es r).2 = .ok ())
    {r' : DatasetRoot E F C} (hr : r'.zips = (zipCmd es r).1.zips) {e : E} (he : e ∈ es) {fs : F → Option C} (hfs : r.dirs e = some fs) (v : LabVial U P) :
    (∀ c, fs (name v.uuid) = some c → dirStore name parse ((unzipCmd es r').1.dirs e) v.uuid = parse c) ∧
    (fs (name v.uuid) = none → dirStore name parse ((unzipCmd es r').1.dirs e) v.uuid = dirStore name parse (r'.dirs e) v.uuid) ∧
    (∀ c, fs (name v.uuid) = some c → parse c = .corrupt → missingVials (dirStore name parse ((unzipCmd es r').1.dirs e)) [v] = .ok [v]) := by
  obtain ⟨-, -, -, h⟩ := C132_unzip hz hr
  obtain ⟨new, h1, h2, h3, -⟩ := h e he fs hfs
  have hc : ∀ c, fs (name v.uuid) = some c → dirStore name parse ((unzipCmd es r').1.dirs e) v.uuid = parse c := by
    intro c hc; simp [dirStore, h1, h2 _ c hc]
  refine ⟨hc, fun hn => ?_, fun c hfc hp => ?_⟩
  · have := h3 _ hn
    rw [h1]
    cases hd : r'.dirs e with
    | none => rw [hd] at this; simp [dirStore, this]
    | some o =>
      rw [hd] at this
      simp only [Option.elim_some] at this
      simp [dirStore, this]
  · have := hc c hfc
    rw [hp] at this
    simp [missingVials, this]; rfl

/-! Examples: three experiments (0, 1, 2); a file name is a number, a content a string. -/

/-- Experiments 0 and 1 exist, each with two files. -/
def exRoot : DatasetRoot Nat Nat String :=
  ⟨fun e => if e < 2 then some fun f => if f < 2 then some "old" else none else none, fun e => if e = 2 then some (onlyDir 2 fun _ => some "kept") else none⟩

/-- Later: the first file of experiment 0 is newer, the second was deleted, and there is a third; experiment 1 was deleted. -/
def exLater : DatasetRoot Nat Nat String :=
  ⟨fun e => if e = 0 then some fun f => if f = 0 ∨ f = 2 then some "new" else none else none, (zipCmd [0, 1] exRoot).1.zips⟩

example : (zipCmd [0, 1] exRoot).2 = .ok () ∧ (unzipCmd [0, 1] exLater).2 = .ok () ∧
    ∃ new, (unzipCmd [0, 1] exLater).1.dirs 0 = some new ∧ new 0 = some "old" ∧ new 1 = some "old" ∧ new 2 = some "new" := by
  have hz : (zipCmd [0, 1] exRoot).2 = .ok () := (C132_zip [0, 1] exRoot).2.1.2 (by simp [exRoot])
  obtain ⟨h1, -, -, h⟩ := C132_unzip hz (r' := exLater) rfl
  obtain ⟨new, h2, h3, h4, -⟩ := h 0 (by simp) _ rfl
  exact ⟨hz, h1, new, h2, h3 0 _ rfl, h3 1 _ rfl, (h4 2 rfl).trans rfl⟩

-- the archive of experiment 2, whose directory does not exist, is lost
example : exRoot.zips 2 = some (onlyDir 2 fun _ => some "kept") ∧ (zipCmd [0, 2, 1] exRoot).1.zips 2 = some (.archive fun _ => none) ∧
    (zipCmd [0, 2, 1] exRoot).1.zips 1 = none :=
  have h := C132_zip_missing (pre := [0]) (post := [1]) (e := 2) (r := exRoot) (by simp [exRoot]) rfl
  ⟨rfl, h.2.2.2.1, (h.2.2.1 1 (by decide) (by decide)).trans rfl⟩

example : unzipCmd [2, 0] exRoot = ((unzipCmd [2] exRoot).1, .error .readError) :=
  C132_unzip_missing (pre := [2]) (post := []) (e := 0) (fs := fun _ _ => some "kept") (by simp [exRoot]) (.inl rfl)

-- an archived file that cannot be parsed takes the place of a good one
example : missingVials (dirStore (U := Nat) (V := Nat) id (fun c => if c = "old" then .corrupt else .good ⟨0, ⟨3, 12, []⟩⟩) ((unzipCmd [0, 1] exLater).1.dirs 0))
    [(⟨0, 10, ()⟩ : LabVial Nat Unit)] = .ok [⟨0, 10, ()⟩] :=
  (C132_results ((C132_zip [0, 1] exRoot).2.1.2 (by simp [exRoot])) (r' := exLater) rfl (by simp) rfl ⟨0, 10, ()⟩).2.2 "old" rfl (by simp)

end Pctsp
