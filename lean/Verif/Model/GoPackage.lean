import Verif.Util.Assoc
import Verif.Util.Str
/-!
# Model of the inference of Go packages for the plugin

/repo/sdk/plugin/protogen.go:29-109 (`New`, up to the errors). A file has a path, its directory (`path.Dir`), its
proto package and its go_package option; pointer equality of files is equality of paths. The texts of the errors
are left out: an error is the fact that there is one.
-/
namespace Verif.GoPackage

open Verif.Assoc

structure File where
  path : Str
  dir : Str
  pkg : Str
  goPkg : Option Str
deriving DecidableEq, Repr

/-- `sanitizePkg`, protogen.go:38-49. -/
def sanitize (dir g : Str) : Str :=
  if '.' ∉ g ∧ '/' ∉ g then
    if g.isSuffixOf dir then dir else dir ++ ';' :: g
  else g

/-- What the loop over the other files finds, protogen.go:69-97. -/
inductive Look where
  /-- A sibling of the same package with an option. -/
  | sibling (g : Str)
  /-- An inconsistent sibling: an error. -/
  | conflict
  /-- Neither. -/
  | nothing
deriving DecidableEq, Repr

/-- The loop over the other files, protogen.go:69-97. -/
def look (f : File) : List File → Look
  | [] => .nothing
  | o :: os =>
    if o.path = f.path then look f os
    else if o.dir ≠ f.dir then look f os
    else match o.goPkg with
      | some g => if f.pkg = o.pkg then .sibling (sanitize f.dir g) else .conflict
      | none => if f.pkg ≠ o.pkg then .conflict else look f os

/-- A file without option: the new table and the Go package, protogen.go:66-106; `none` is an error. -/
def inferFile (closure : List File) (m : List (Str × Str)) (f : File) : Option (List (Str × Str) × Str) :=
  match get m f.dir with
  | some g => some (m, g)
  | none =>
    match look f closure with
    | .sibling g => some (set m f.dir g, g)
    | .nothing => some (set m f.dir f.dir, f.dir)
    | .conflict => none

/-- The loop over the files, protogen.go:34-109: the Go packages, and whether there was an error. -/
def loop (closure : List File) (m : List (Str × Str)) : List File → List (File × Str) × Bool
  | [] => ([], false)
  | f :: fs =>
    match f.goPkg with
    | some g =>
      let r := loop closure m fs
      ((f, sanitize f.dir g) :: r.1, r.2)
    | none =>
      match inferFile closure m f with
      | some (m', g) =>
        let r := loop closure m' fs
        ((f, g) :: r.1, r.2)
      | none => ((loop closure m fs).1, true)

/-- The Go packages of all files; `none` is an error, protogen.go:110-114. -/
def infer (closure : List File) : Option (List (File × Str)) :=
  let r := loop closure [] closure
  if r.2 then none else some r.1

end Verif.GoPackage
