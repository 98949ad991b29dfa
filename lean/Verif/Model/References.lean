import Verif.Util.Str
/-!
# Model of the references request

/repo/pkg/lsp/references.go:40-73 (`FindReferences`) and /repo/pkg/lsp/packages.go:68-136
(`FindPackageNameRefs`). What is at the position (a type, a package name, nothing), the definition and the
references of a type (the fan-in of C25) and the files that `RangeFilesByPackage` or `RangeFilesByPackagePrefix` select
are parameters. A range is the number of a declaration in its file and the number of the parts of the package
name that it covers.
-/
namespace Verif.References

structure Loc where
  uri : Str
  decl : Nat
  parts : Nat
deriving DecidableEq, Repr

/-- A file: its URI (if it has one), whether it is a placeholder or has no syntax tree, and the package
statements: the number of the declaration and the parts of the name. -/
structure File where
  uri : Option Str
  usable : Bool
  pkgs : List (Nat × List Str)
deriving Repr

/-- The shortest prefix of the parts that joined with dots is the name, packages.go:108-123. -/
def prefixLen (name : Str) (parts : List Str) : Option Nat :=
  ((List.range parts.length).find? fun i => decide (joinWith '.' (parts.take (i + 1)) = name)).map (· + 1)

/-- The range for a package statement, packages.go:96-125; `none` is the empty range. -/
def pkgRange (name : Str) (prefixMatch : Bool) (parts : List Str) : Option Nat :=
  if parts.length ≤ 1 ∨ prefixMatch = false then some parts.length else prefixLen name parts

/-- The package statements of a file, packages.go:90-133: a statement without range ends the loop. -/
def fileLocs (uri name : Str) (prefixMatch : Bool) : List (Nat × List Str) → List Loc
  | [] => []
  | d :: ds =>
    match pkgRange name prefixMatch d.2 with
    | none => []
    | some n => ⟨uri, d.1, n⟩ :: fileLocs uri name prefixMatch ds

/-- `FindPackageNameRefs`, packages.go:68-136, for the selected files. -/
def packageRefs (files : List File) (name : Str) (prefixMatch : Bool) : List Loc :=
  files.flatMap fun f =>
    if f.usable then
      match f.uri with
      | some u => fileLocs u name prefixMatch f.pkgs
      | none => []
    else []

/-- What is at the position of the request. -/
inductive Target where
  /-- The search fails. -/
  | error
  /-- A type, with its definition (or an error) and its references. -/
  | type (definition : Option Loc) (refs : List Loc)
  /-- A package name, with the selected files. -/
  | package (files : List File) (name : Str) (prefixMatch : Bool)
  /-- Nothing. -/
  | nothing

/-- `FindReferences`, references.go:40-73; `none` is an error. A nil slice is the empty list. -/
def findReferences (doc : Str) (includeDeclaration : Bool) : Target → Option (List Loc)
  | .error => none
  | .nothing => some []
  | .package files name pm =>
    let locs := packageRefs files name pm
    if includeDeclaration then some locs else some (locs.filter fun l => ¬ l.uri = doc)
  | .type definition refs =>
    if includeDeclaration then
      match definition with
      | some d => some (d :: refs)
      | none => none
    else some refs

end Verif.References
