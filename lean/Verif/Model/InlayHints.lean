import Verif.Model.Links
import Verif.Model.ImportComplete
/-!
# Inlay hints and document links

`ComputeInlayHints`, `computeMessageLiteralHints` and `computeImportHints` of `/repo/pkg/lsp/inlayhints.go:12-186`, `ComputeDocumentLinks` of
`/repo/pkg/lsp/links.go:12-84`, and the settings of `/repo/pkg/lsp/settings.go:8-25`. Locks are in `Model/RWLock.lean`, the slice of
dependencies is in `Model/Links.lean`. The kind of a hint is always `protocol.Type`; it is left out, as is the right padding, which is never set.
-/
namespace Verif.InlayHints
open Verif.QuickFix (SourcePos toPosition Edit)
open Verif.ImportComplete (adjustColumn mapperOffset)
open Verif.TokenCells (u32)
open Verif.Documents (Pos)

/-- An import statement of the syntax tree: `Name.AsString()`, the place of the name, and whether it is complete (not `IsIncomplete()`). -/
structure Import where
  path : Str
  start : SourcePos
  stop : SourcePos
  complete : Bool
deriving DecidableEq, Repr

/-- `protocol.InlayHint` with its only label part. -/
structure Hint (L : Type) where
  pos : Pos
  label : Str
  paddingLeft : Bool
  tooltip : Option Str
  edits : List Edit
  location : Option L
deriving DecidableEq, Repr

/-- Results, errors and panics. -/
inductive Out (α : Type)
  | ok (a : α)
  | error
  | panic
deriving DecidableEq, Repr

variable {L M : Type}

/-- The beginning of the tooltip, inlayhints.go:176. -/
def resolvesTo : Str := "Import resolves to ".toList

/-- The edit of a hint, inlayhints.go:167-172; `adjustColumns`, `/repo/pkg/lsp/range.go:44-49`. -/
def importEdit (i : Import) (resolved : Str) : Edit :=
  ⟨adjustColumn (toPosition i.start) 1, adjustColumn (toPosition i.stop) (-1), resolved⟩

/-- The body of the loop over the imports, inlayhints.go:138-182. -/
def importHint (i : Import) (resolved : Str) : Option (Hint L) :=
  if resolved ≠ i.path then
    if i.path.isSuffixOf resolved then
      some ⟨⟨u32 ((i.start.line : Int) - 1), u32 i.start.col⟩, resolved.take (resolved.length - i.path.length), false,
        some (resolvesTo ++ resolved), [importEdit i resolved], none⟩
    else
      some ⟨⟨u32 ((i.start.line : Int) - 1), u32 ((i.stop.col : Int) + 2)⟩, resolved, true,
        some (resolvesTo ++ resolved), [importEdit i resolved], none⟩
  else none

/-- The complete imports with their dependency paths, inlayhints.go:107-139 and links.go:26-57; `none` is a panic (index out of range). -/
def withPaths (descriptor : Str) (imports : List Import) (deps : List Str) : Option (List (Import × Str)) :=
  let complete := imports.filter (·.complete)
  (Links.request descriptor (complete.map (·.path)) deps).1.map complete.zip

/-- `computeImportHints`, inlayhints.go:93-186; `parsed` has the imports of the syntax tree and the dependencies of the descriptor, it is
`none` if there is no parse result or no syntax tree. -/
def computeImportHints (descriptor : Str) (parsed : Option (List Import × List Str)) : Out (List (Hint L)) :=
  match parsed with
  | none => .ok []
  | some (imports, deps) =>
    match withPaths descriptor imports deps with
    | none => .panic
    | some l => .ok (l.filterMap fun x => importHint x.1 x.2)

/-- A node with the descriptor of a field, as `RangeFieldReferenceNodesWithDescriptors` visits them. -/
structure Ref (M : Type) where
  /-- Is the node an `*ast.FieldReferenceNode`? -/
  reference : Bool
  /-- The first and the last token. -/
  first : Int
  last : Int
  /-- `IsAnyTypeReference()`. -/
  anyType : Bool
  /-- The place of `Close`; `none` is nil. -/
  close : Option SourcePos
  /-- `Kind() == MessageKind`, `IsMap()`, `IsList()`. -/
  isMessage : Bool
  isMap : Bool
  isList : Bool
  /-- `Message()`. -/
  message : M

/-- What is asked of messages: `Name()`, and `FindDefinitionForTypeDescriptor` (`Model/Definition.lean`), `none` is an error. -/
structure Messages (M L : Type) where
  name : M → Str
  definition : M → Option L

/-- The function given to `RangeFieldReferenceNodesWithDescriptors`, inlayhints.go:49-89. -/
def extensionHint (W : Messages M L) (startToken endToken : Int) (r : Ref M) : Option (Hint L) :=
  if r.reference then
    if r.first > endToken ∨ r.last < startToken then none
    else if r.anyType then none
    else match r.close with
      | none => none
      | some p =>
        if r.isMessage && !r.isMap && !r.isList then
          some ⟨⟨u32 ((p.line : Int) - 1), u32 ((p.col : Int) - 1)⟩, W.name r.message, true, none, [], W.definition r.message⟩
        else none
  else none

/-- Dependency `protocol.Mapper.RangeOffsets` (gopls), whose error is ignored, inlayhints.go:46: both offsets are 0 then. -/
def rangeOffsets (content : Str) (rng : Pos × Pos) : Nat × Nat :=
  match mapperOffset content rng.1, mapperOffset content rng.2 with
  | some a, some b => (a, b)
  | _, _ => (0, 0)

/-- Dependency `ast.FileNode.TokenAtOffset`: the number of the token at an offset, or `TokenError`, which is -1; a token is the offset of
its first character and the offset behind its last. -/
def tokenAt (toks : List (Nat × Nat)) (o : Nat) : Int :=
  match toks.findIdx? (fun t => decide (t.1 ≤ o ∧ o < t.2)) with
  | some i => i
  | none => -1

/-- What a compiled document consists of here: the text of the mapper, the tokens and the references in the order of the visits. -/
structure Linked (M : Type) where
  content : Str
  toks : List (Nat × Nat)
  refs : List (Ref M)

/-- `computeMessageLiteralHints`, inlayhints.go:32-91; `linked` is `none` if there is no result, no mapper or no syntax tree. -/
def computeMessageLiteralHints (W : Messages M L) (linked : Option (Linked M)) (rng : Pos × Pos) : List (Hint L) :=
  match linked with
  | none => []
  | some d =>
    let o := rangeOffsets d.content rng
    d.refs.filterMap (extensionHint W (tokenAt d.toks o.1) (tokenAt d.toks o.2))

/-- `InlayHintsSettings`; `none` is nil. -/
structure Settings where
  extensionTypes : Option Bool
  imports : Option Bool

/-- `GetExtensionTypes`, settings.go:13-18. -/
def Settings.getExtensionTypes (s : Settings) : Bool :=
  match s.extensionTypes with
  | none => true
  | some b => b

/-- `GetImports`, settings.go:20-25. -/
def Settings.getImports (s : Settings) : Bool :=
  match s.imports with
  | none => true
  | some b => b

/-- `ComputeInlayHints`, inlayhints.go:12-30; `wellFormed` is the answer of `latestDocumentContentsWellFormedLocked`, `none` is an error. -/
def computeInlayHints (W : Messages M L) (descriptor : Str) (wellFormed : Option Bool) (s : Settings) (linked : Option (Linked M))
    (parsed : Option (List Import × List Str)) (rng : Pos × Pos) : Out (List (Hint L)) :=
  if wellFormed = some true then
    let ext := if s.getExtensionTypes then computeMessageLiteralHints W linked rng else []
    if s.getImports then
      match computeImportHints descriptor parsed with
      | .ok l => .ok (ext ++ l)
      | .error => .error
      | .panic => .panic
    else .ok ext
  else .error

/-- `protocol.DocumentLink`. -/
structure Link where
  start : Pos
  stop : Pos
  target : Str
deriving DecidableEq, Repr

/-- The body of the loop, links.go:56-81; `find` is `FindFileByPath` (`Model/FindFile.lean`) with its resolved path, `uri` is `PathToURI`. -/
def link (find : Str → Option Str) (uri : Str → Option Str) (i : Import) (path : Str) : Option Link :=
  match find path with
  | none => none
  | some resolved =>
    match uri resolved with
    | none => none
    | some u => some ⟨toPosition i.start, toPosition i.stop, u⟩

/-- `ComputeDocumentLinks`, links.go:12-84; without parse result or syntax tree an error. -/
def computeDocumentLinks (descriptor : Str) (find : Str → Option Str) (uri : Str → Option Str)
    (parsed : Option (List Import × List Str)) : Out (List Link) :=
  match parsed with
  | none => .error
  | some (imports, deps) =>
    match withPaths descriptor imports deps with
    | none => .panic
    | some l => .ok (l.filterMap fun x => link find uri x.1 x.2)

end Verif.InlayHints
