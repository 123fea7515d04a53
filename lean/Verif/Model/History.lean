import Verif.Model.Program

/-!
# Model of several runs of `driver.py` in one directory

Every file is opened with mode `'w'` (truncations.py 162, latex_full_cc.py 1580, code_full_cc.py 1301, latex_zhz.py 1866, latex_eT_zhz.py 2281, code_eT_zhz.py 2051), so a run replaces the whole
content of the files it writes.
Simplifications: files are identified by the name as it is written (no two names of one file; the working directory stays the same); the runs do not overlap; nobody else changes the files.
-/

namespace TF.Program

open TF.Trunc TF.Glue

/-- the files: name and content -/
abbrev Disk := String → Option Content

/-- `with open(path, 'w')`: the old content is replaced -/
def put (disk : Disk) (w : String × Content) : Disk := fun p => if p = w.1 then some w.2 else disk p

/-- the texts that `--path` can read -/
def readable (disk : Disk) (p : String) : Option (List Char) :=
  match disk p with
  | some (.text t) => some t
  | _ => none

/-- A run of the driver (driver.py 69-148) in a directory.  `none`: not described (`--path` with a file of equations, or as in `main`). -/
def runOn (o : Orders) (memStr : String → Except PyErr Bool) (f : JVal → String) (disk : Disk) (a : Parsed) : Option Run :=
  match a.path.bind disk with
  | some (.equations _) => none
  | _ => main o memStr f (readable disk) a

/-- Runs one after the other.  Every run is a new process, so the iteration orders of sets may differ from run to run. -/
def session (memStr : String → Except PyErr Bool) (f : JVal → String) : Disk → List (Orders × Parsed) → Option (Disk × List Run)
  | disk, [] => some (disk, [])
  | disk, a :: l =>
    match runOn a.1 memStr f disk a.2 with
    | none => none
    | some r =>
      match session memStr f (r.writes.foldl put disk) l with
      | none => none
      | some (d, rs) => some (d, r :: rs)

end TF.Program
