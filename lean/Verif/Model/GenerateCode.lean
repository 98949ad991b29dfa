import Verif.Model.GoPath
import Verif.Util.Assoc
/-!
# Model of `GenerateCode`

/repo/sdk/codegen/generator.go:84-190, up to the call of the plugin (which with the generators is a parameter). A descriptor
has its path, the path of its document (`none` if its URI is not that of a file), its package, and whether it is local to the
workspace. `wd` is the working directory. The driver and the search for sources (`SearchDirs`, C40) are a parameter: a function
from the absolute search directories to the descriptors, or to an error. Paths are those of systems with `/` as separator.
-/
namespace Verif.GenerateCode

open Verif.Assoc Verif.GoPath

structure Desc where
  path : Str
  file : Option Str
  package : Str
  local_ : Bool
deriving DecidableEq, Repr

/-- `GenerateStrategy`, generator.go:50-57. -/
inductive Strategy
  | localOnly | allButGoogle
deriving DecidableEq, Repr

/-- The search directories after the loop that makes them absolute, generator.go:94-98. It assigns to the elements of the
slice that the caller passed. -/
def absolute (wd : Str) (dirs : List Str) : List Str := dirs.map fun d => if d.head? = some '/' then d else join wd d

/-- `sourcePkgDirs`, generator.go:109-115. -/
def pkgDirs (ds : List Desc) : List (Str × Str) :=
  ds.foldl (fun m d => match d.file with | some f => set m (dirOf d.path) (dirOf f) | none => m) []

def googleProtobuf : Str := "google.protobuf".toList

/-- The files to generate, generator.go:117-137. -/
def selected (strategy : Strategy) (dirs : List Str) (ds : List Desc) : List Str :=
  match strategy with
  | .localOnly =>
    ((ds.filter (·.local_)).filter fun d => dirs.any fun s => s.isPrefixOf ((get (pkgDirs ds) (dirOf d.path)).getD [])).map (·.path)
  | .allButGoogle => (ds.filter fun d => !decide (d.package = googleProtobuf)).map (·.path)

/-- The option `go_package` of a descriptor with `WithFixInvalidGoPackages`, generator.go:139-146. -/
def fixGoPackage (name : Str) (g : Str) : Str := if g ≠ [] ∧ '.' ∉ g ∧ '/' ∉ g then dirOf name else g

def google : Str := "google/".toList

/-- A file of the result: its base name, its package, and the path it is written to. -/
structure Output where
  name : Str
  package : Str
  path : Str
  content : Str
deriving DecidableEq, Repr

/-- The files of the result, generator.go:169-188. -/
def output (m : List (Str × Str)) (f : Str × Str) : Output :=
  let pkg := (split f.1).1
  let pkg := if pkg.getLast? = some '/' then pkg.dropLast else pkg
  let name := (split f.1).2
  let dir :=
    match get m pkg with
    | some d => d
    | none => match indexSub google pkg with | some i => pkg.drop i | none => pkg
  ⟨name, pkg, join dir name, f.2⟩

/-- `GenerateCode`: the slice of the caller after the call, and the result (`none` is an error). -/
def run (wd : Str) (compile : List Str → Option (List Desc)) (gen : List Str → Option (List (Str × Str))) (strategy : Strategy)
    (dirs : List Str) : List Str × Option (List Output) :=
  let dirs := absolute wd dirs
  (dirs,
    match compile dirs with
    | none => none
    | some ds =>
      match gen (selected strategy dirs ds) with
      | none => none
      | some files => some (files.map (output (pkgDirs ds))))

end Verif.GenerateCode
