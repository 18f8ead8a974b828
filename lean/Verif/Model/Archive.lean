import Verif.Model.Batch

/-!
# Python: archives of experiments

pctsp/apps/utils_app.py 13-39: the commands `zip` and `unzip`, and what `shutil.make_archive` and `shutil.unpack_archive` do for the format `zip`.
-/

namespace Pctsp

/-- A file with the name of an archive: not a zip file, or the directories and files that it has. -/
inductive ZipFile (E F C : Type) where
  | broken
  | archive (dirs : E → Option (F → Option C))

/-- The directory of a dataset: for each experiment its directory, if it exists, with its files, and its archive, if it exists. -/
structure DatasetRoot (E F C : Type) where
  dirs : E → Option (F → Option C)
  zips : E → Option (ZipFile E F C)

/-- The exceptions of the two library functions. -/
inductive ArchiveExn where
  | fileNotFound
  | readError
deriving DecidableEq

variable {E F C : Type} [DecidableEq E]

/-- One value of a function changes. -/
def putAt {β : Type} (f : E → β) (e : E) (b : β) : E → β := fun e' => if e' = e then b else f e'

/-- `make_archive(root/e, "zip", root_dir=root, base_dir=e)`, utils_app.py 24-26: opens `root/e.zip` for writing, which empties it, then adds the directory and all
files in it; a directory that does not exist raises, and the archive is closed with nothing in it. -/
def zipOne (e : E) (r : DatasetRoot E F C) : DatasetRoot E F C × Except ArchiveExn Unit :=
  match r.dirs e with
  | none => ({ r with zips := putAt r.zips e (some (.archive fun _ => none)) }, .error .fileNotFound)
  | some fs => ({ r with zips := putAt r.zips e (some (.archive (putAt (fun _ => none) e (some fs)))) }, .ok ())

/-- The files of a directory after files of an archive were unpacked into it. -/
def unpackDir (old new : Option (F → Option C)) : Option (F → Option C) :=
  match old, new with
  | old, none => old
  | none, some n => some n
  | some o, some n => some fun f => match n f with
    | none => o f
    | some c => some c

/-- `unpack_archive(root/e.zip, extract_dir=root, format="zip")`, utils_app.py 38-39: raises unless the file is a zip file, else writes every file of the archive. -/
def unzipOne (e : E) (r : DatasetRoot E F C) : DatasetRoot E F C × Except ArchiveExn Unit :=
  match r.zips e with
  | none => (r, .error .readError)
  | some .broken => (r, .error .readError)
  | some (.archive a) => ({ r with dirs := fun e' => unpackDir (r.dirs e') (a e') }, .ok ())

/-- A loop over experiments that an exception ends. -/
def forEach (step : E → DatasetRoot E F C → DatasetRoot E F C × Except ArchiveExn Unit) : List E → DatasetRoot E F C → DatasetRoot E F C × Except ArchiveExn Unit
  | [], r => (r, .ok ())
  | e :: es, r =>
    match step e r with
    | (r', .error x) => (r', .error x)
    | (r', .ok ()) => forEach step es r'

/-- `zip_experiments`, utils_app.py 13-26. -/
def zipCmd (es : List E) (r : DatasetRoot E F C) : DatasetRoot E F C × Except ArchiveExn Unit := forEach zipOne es r

/-- `unzip_experiments`, utils_app.py 29-39. -/
def unzipCmd (es : List E) (r : DatasetRoot E F C) : DatasetRoot E F C × Except ArchiveExn Unit := forEach unzipOne es r

/-- The result files of an experiment, as lab.py 215-256 reads them: file names are `name u`, `parse` says what a content is. -/
def dirStore {U V : Type} (name : U → F) (parse : C → ResultFile U V) (d : Option (F → Option C)) : Store U V := fun u =>
  match d with
  | none => .absent
  | some fs => match fs (name u) with
    | none => .absent
    | some c => parse c

end Pctsp
