import Verif.Spec.GenerateCode
/-!
# Generating a workspace

`GenerateWorkspace` (/repo/sdk/codegen/generator.go:202-217) with `GenerateCode` (Model/GenerateCode) and `WriteToDisk` (generator.go:44-46).
-/
namespace Verif.GenerateWorkspace

open GenerateCode (Desc Output)

/-- The files of the disk by their places (the names of the directories and of the file); links are not modelled. -/
abbrev Disk := List Str → Option Str

/-- Where the operating system finds a path: relative paths begin at the working directory. -/
def locate (wd path : Str) : List Str := GenerateCode.root wd path

/-- The state of the disk after a file got a content (`none`: there is no such file). -/
def put (disk : Disk) (place : List Str) (content : Option Str) : Disk := fun q => if q = place then content else disk q

/-- The loop of generator.go:211-215 with `os.WriteFile`. `fails k` is `none` if the call number `k` succeeds; if it fails it leaves any content.
The second component is false if an error is returned. -/
def writeAll (wd : Str) (fails : Nat → Option (Option Str)) : Nat → List Output → Disk → Disk × Bool
  | _, [], disk => (disk, true)
  | k, o :: os, disk =>
    match fails k with
    | some left => (put disk (locate wd o.path) left, false)
    | none => writeAll wd fails (k + 1) os (put disk (locate wd o.path) (some o.content))

/-- `GenerateWorkspace`, generator.go:202-217. -/
def generateWorkspace (wd : Str) (compile : List Str → Option (List Desc)) (gen : List Str → Option (List (Str × Str)))
    (fails : Nat → Option (Option Str)) (disk : Disk) : Disk × Bool :=
  match (GenerateCode.run wd compile gen .localOnly [['.']]).2 with
  | none => (disk, false)
  | some files => writeAll wd fails 0 files disk

end Verif.GenerateWorkspace
