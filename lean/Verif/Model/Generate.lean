import Verif.Model.GoPath
import Verif.Model.Overwrite
import Verif.Util.Assoc
/-!
# Model of the commands `protols/generate` and `protols/generateWorkspace`

/repo/pkg/lsprpc/handler.go:122-191 (`doGenerate`) on top of `OverwriteFile` (Model/Overwrite.lean). The plugin, the closure of
the imports and the generators are a parameter: a function from the documents to generate to the files of the response, or to
an error (handler.go:148-166). The disk maps clean absolute paths to files and directories; there are no symbolic links. Every
system call may fail. The URIs are those of files: `uri.Path()` is an absolute path. The permissions of files and the texts of
errors are left out.
-/
namespace Verif.Generate

open Verif.Assoc Verif.GoPath

/-- A compiled document: its package, whether it has the pragma `nogen`, and its option `go_package`. -/
structure Doc where
  package : Str
  noGenerate : Bool
  goPkg : Option Str
deriving DecidableEq, Repr

/-- What the command asks the cache: the result of `FindResultByURI` (`none` is an error), the entry of `FilePathsByURI` (the
empty string if there is none), and `uri.Path()`. -/
structure World (Uri : Type) where
  result : Uri → Option Doc
  path : Uri → Str
  file : Uri → Str

/-- handler.go:131-136. -/
def kept (d : Doc) : Bool := !decide (d.package = []) && !d.noGenerate

/-- The assignments to `outputDirs` for a document, handler.go:138-146. -/
def addDirs {Uri : Type} (w : World Uri) (u : Uri) (d : Doc) (m : List (Str × Str)) : List (Str × Str) :=
  let dir := dirOf (w.file u)
  let m1 := set m (dirOf (w.path u)) dir
  match d.goPkg with
  | some g => set m1 ((splitOn ';' g).headD []) dir
  | none => m1

/-- The loop over the URIs, handler.go:126-147: the documents to generate and `outputDirs`; `none` if a document is not found. -/
def collect {Uri : Type} (w : World Uri) : List Uri → List Uri → List (Str × Str) → Option (List Uri × List (Str × Str))
  | [], roots, m => some (roots, m)
  | u :: us, roots, m =>
    match w.result u with
    | none => none
    | some d => if kept d then collect w us (roots ++ [u]) (addDirs w u d m) else collect w us roots m

/-- What is at a path. -/
inductive Entry
  | dir
  | file (t : Str)
deriving DecidableEq, Repr

/-- The disk: what is at each clean absolute path, and the backups that were left (the file they belong to, which is in the
same directory, and the content). -/
structure Disk where
  at_ : Str → Option Entry
  backups : List (Str × Str)

def Disk.put (d : Disk) (p t : Str) : Disk := { d with at_ := fun q => if q = p then some (.file t) else d.at_ q }

/-- What the system does for one file: failure of `os.Stat`, of `os.ReadFile`, the calls of `OverwriteFile`, failure of
`os.WriteFile` to open the file, and to write more than some bytes. -/
structure Call where
  statFails : Bool := false
  readFails : Bool := false
  os : Overwrite.Os := {}
  openFails : Bool := false
  written : Option Nat := none
deriving DecidableEq, Repr

/-- `OverwriteFile` of an existing file, handler.go:177-184: the new disk, and whether it succeeds. -/
def overwrite (c : Call) (d : Disk) (p orig new : Str) : Disk × Bool :=
  let t := Overwrite.overwrite c.os orig new orig.length orig
  match t.1.getLast? with
  | none => (d, t.2)
  | some s =>
    let d1 := d.put p s.file
    match s.backup with
    | none => (d1, t.2)
    | some b => ({ d1 with backups := d1.backups ++ [(p, b)] }, t.2)

/-- `os.WriteFile`, handler.go:186-188: a directory cannot be opened for writing; an existing file is truncated. -/
def create (c : Call) (d : Disk) (p new : Str) : Disk × Bool :=
  if d.at_ p = some .dir ∨ c.openFails = true then (d, false)
  else
    match c.written with
    | none => (d.put p new, true)
    | some n => (d.put p (new.take n), false)

/-- Writing one file, handler.go:176-189. -/
def writeFile (c : Call) (d : Disk) (p new : Str) : Disk × Bool :=
  match (if c.statFails then none else d.at_ p) with
  | some .dir => (d, false)
  | some (.file orig) => if c.readFails then (d, false) else overwrite c d p orig new
  | none => create c d p new

/-- The result of the command: success, success except that files are outside of the workspace, or another error. -/
inductive Result
  | ok | outside | failed
deriving DecidableEq, Repr

/-- The loop over the files of the response, handler.go:168-190. `n` counts the system's reactions, `r` is `ok` or `outside`. -/
def writeAll (calls : Nat → Call) (dirs : List (Str × Str)) : Nat → Disk → Result → List (Str × Str) → Disk × Result
  | _, d, r, [] => (d, r)
  | n, d, r, (name, content) :: rest =>
    match get dirs (dirOf name) with
    | none => writeAll calls dirs n d .outside rest
    | some dir =>
      let w := writeFile (calls n) d (join dir (baseOf name)) content
      if w.2 then writeAll calls dirs (n + 1) w.1 r rest else (w.1, .failed)

/-- `doGenerate`, handler.go:122-191. -/
def run {Uri : Type} (w : World Uri) (gen : List Uri → Option (List (Str × Str))) (calls : Nat → Call) (uris : List Uri)
    (d : Disk) : Disk × Result :=
  match collect w uris [] [] with
  | none => (d, .failed)
  | some (roots, dirs) =>
    match gen roots with
    | none => (d, .failed)
    | some files => writeAll calls dirs 0 d .ok files

end Verif.Generate
