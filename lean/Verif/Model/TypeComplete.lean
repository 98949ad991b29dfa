import Verif.Model.FindTypes
import Verif.Model.ImportComplete
/-!
# The items that complete the name of a type

`/repo/pkg/lsp/completion.go:1057-1100` (`completeTypeNamesFromList`) and 1537-1552 (`maybeResolveImport`). The search for the candidates
is modelled in `Model/FindTypes.lean`, the order of the candidates in `Model/Completion.lean`, the edit that adds an import in
`Model/QuickFix.lean`.
-/
namespace Verif.TypeComplete
open Verif.Documents (Pos)
open Verif.QuickFix (Edit SourcePos editAddImport)
open Verif.ImportComplete (adjustColumn trimPrefix quoted)

/-- A candidate (`protoreflect.Descriptor`): full name, kind, path and package of its file. -/
structure Cand where
  fullName : Str
  kind : FindTypes.Kind
  path : Str
  pkg : Str
deriving DecidableEq, Repr

/-- What is used of the `linker.Result` of the document: its package, the external `ImportInsertionPoint`, and whether the external
`linker.ResolverFromFile(linkRes).FindDescriptorByName` finds a name. -/
structure Doc where
  pkg : Str
  point : SourcePos
  resolves : Str → Bool

/-- `protocol.CompletionItemKind`: the two that are used. -/
inductive ItemKind
  | cls
  | enum
deriving DecidableEq, Repr

/-- `protocol.CompletionItem`: label, kind, detail, text edit and additional edits. -/
structure Item where
  label : Str
  kind : ItemKind
  detail : Str
  edit : Edit
  more : List Edit
deriving DecidableEq, Repr

/-- `fmt.Sprintf("from %q", importPath)`, completion.go:1542. -/
def fromPath (path : Str) : Str := ['f', 'r', 'o', 'm', ' '] ++ quoted path

/-- `fmt.Sprintf("%s (from %q)", item.Detail, path)`, completion.go:1544 and 1549. -/
def withPath (detail path : Str) : Str := detail ++ [' ', '('] ++ fromPath path ++ [')']

/-- `maybeResolveImport`, completion.go:1537-1552: the detail and the additional edits of an item with the given label and detail. -/
def maybeResolveImport (doc : Doc) (c : Cand) (label detail : Str) : Str × List Edit :=
  if doc.resolves c.fullName = false then
    (if label = detail then fromPath c.path else withPath detail c.path, [editAddImport doc.point c.path])
  else if c.pkg ≠ doc.pkg then (withPath detail c.path, [])
  else (detail, [])

/-- The text that is cut off in front of a name, completion.go:1058-1062. -/
def trimmed (doc : Doc) (partialName : Str) : Str := if partialName.contains '.' then [] else doc.pkg ++ ['.']

/-- `labelPrefix`, completion.go:1064-1067. -/
def labelPrefix (partialName : Str) : Str := if ['.'].isPrefixOf partialName then ['.'] else []

/-- The label of a candidate, completion.go:1074 and 1080. -/
def label (doc : Doc) (partialName : Str) (c : Cand) : Str := trimPrefix (labelPrefix partialName ++ c.fullName) (trimmed doc partialName)

/-- One round of the loop, completion.go:1069-1098; `none`: `continue`. -/
def item (doc : Doc) (partialName sfx : Str) (pos : Pos) (c : Cand) : Option Item :=
  let mk (k : ItemKind) : Item :=
    let l := label doc partialName c
    let r := maybeResolveImport doc c l c.fullName
    ⟨l, k, r.1, ⟨adjustColumn pos (-(partialName.length : Int)), adjustColumn pos sfx.length, l⟩, r.2⟩
  match c.kind with
  | .message _ _ => some (mk .cls)
  | .enum => some (mk .enum)
  | _ => none

/-- The entry of a candidate for the sort, completion.go:1381-1392. -/
def entry (doc : Doc) (scope : Str) (c : Cand) : Completion.Entry := Completion.mkEntry doc.pkg scope ⟨c.fullName, c.pkg⟩

/-- `completeTypeNamesFromList`, completion.go:1057-1100: `items` is a possible result. -/
def FromList (doc : Doc) (scope partialName sfx : Str) (pos : Pos) (cands : List Cand) (items : List Item) : Prop :=
  ∃ out, SortSlice (fun a b => Completion.less (entry doc scope a) (entry doc scope b)) cands out ∧
    items = out.filterMap (item doc partialName sfx pos)

end Verif.TypeComplete
