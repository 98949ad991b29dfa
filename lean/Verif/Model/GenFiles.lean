import Verif.Util.Trim
/-!
# Model of the lookup of generated Go files

/repo/pkg/lsp/golang.go:94-163 (`FindGeneratedFiles`) and 395-455 (`ParseGeneratedPreamble`). The regular
expressions are parameters: `gen` stands for `doNotEditRegex` (the generator, `none` if there is no match) and
`entry` for `versionEntryRegex`. The parsed files of the package directory are given; finding the directory is left
out, and `base` stands for `filepath.Base`.
-/
namespace Verif.GenFiles

/-- A comment: whether it is before the package clause, and its text. -/
structure Comment where
  before : Bool
  text : Str
deriving DecidableEq, Repr

structure Info where
  generatedBy : Str
  versions : List (Str × Str)
  source : Str
deriving DecidableEq, Repr

def versionsMark : Str := ['/', '/', ' ', 'v', 'e', 'r', 's', 'i', 'o', 'n', 's', ':']
def sourceMark : Str := ['/', '/', ' ', 's', 'o', 'u', 'r', 'c', 'e', ':']

/-- The first matching comment of a group before the package clause, golang.go:416-430. -/
def matchGroup (gen : Str → Option Str) : List Comment → Option Str
  | [] => none
  | c :: cs =>
    if c.before = false then none
    else match gen c.text with
      | some g => some g
      | none => matchGroup gen cs

/-- The first group with a matching comment, golang.go:414-432. -/
def findGroup (gen : Str → Option Str) : List (List Comment) → Option (Str × List Comment)
  | [] => none
  | g :: gs =>
    match matchGroup gen g with
    | some by_ => some (by_, g)
    | none => findGroup gen gs

/-- The inner loop over the version entries, golang.go:440-449, over the comments from index `j`. -/
def versionLoop (entry : Str → Option (Str × Str)) (vs : List (Str × Str)) : List Comment → List (Str × Str)
  | [] => vs
  | c :: cs =>
    match entry c.text with
    | some e => versionLoop entry (vs ++ [e]) cs
    | none => vs

/-- The loop over the comments after the first one, golang.go:437-453; `i` is the index in `group.List[1:]`. The
inner loop starts at index `i + 1` of the whole group, golang.go:440. -/
def scan (entry : Str → Option (Str × Str)) (group : List Comment) (i : Nat) (info : Info) : List Comment → Info
  | [] => info
  | c :: cs =>
    if versionsMark.isPrefixOf c.text then
      scan entry group (i + 1) { info with versions := versionLoop entry info.versions (group.drop (i + 1)) } cs
    else if sourceMark.isPrefixOf c.text then
      scan entry group (i + 1) { info with source := trimSpace (c.text.drop sourceMark.length) } cs
    else scan entry group (i + 1) info cs

/-- `ParseGeneratedPreamble`, golang.go:411-455; `none` is the result `false`. -/
def parsePreamble (gen : Str → Option Str) (entry : Str → Option (Str × Str)) (comments : List (List Comment)) : Option Info :=
  match findGroup gen comments with
  | none => none
  | some (g, group) => some (scan entry group 0 ⟨g, [], []⟩ (group.drop 1))

/-- A parsed file: the name of its Go package, its file name and its comments. -/
structure GoFile where
  pkg : Str
  filename : Str
  comments : List (List Comment)

/-- The test of a file, golang.go:131-156. Without a preamble the source is empty. -/
def keep (gen : Str → Option Str) (entry : Str → Option (Str × Str)) (base : Str → Str) (source uriPath : Str) (f : GoFile) : Bool :=
  match parsePreamble gen entry f.comments with
  | some _ => true
  | none => if source ≠ [] then decide (source = []) else decide (base f.filename = base uriPath)

/-- `FindGeneratedFiles`, golang.go:125-163. -/
def findGenerated (gen : Str → Option Str) (entry : Str → Option (Str × Str)) (base : Str → Str) (alias source uriPath : Str) (files : List GoFile) :
    List GoFile :=
  (files.filter fun f => alias = [] ∨ f.pkg = alias).filter (keep gen entry base source uriPath)

end Verif.GenFiles
