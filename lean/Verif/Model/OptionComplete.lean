import Verif.Model.Completion
import Verif.Model.ImportComplete
/-!
# Completion of the names of options and of fields in message literals

`completeOptionOrExtensionName`, `findCompletionScope`, `deepCompleteOptionNames`, `newExtensionFieldCompletionItem`,
`/repo/pkg/lsp/completion.go:524-586, 836-856, 875-989, 1216-1234`, and the cases of `GetCompletions` that call them, 243-294.
Kinds and details of items are left out.
-/
namespace Verif.OptionComplete
open Verif.Documents (Pos)
open Verif.QuickFix (Edit)
open Verif.ImportComplete (adjustColumn)

/-- `protoreflect.FieldDescriptor` of a field that is not an extension. -/
structure Field where
  name : Str
  fullName : Str
  repeated : Bool
deriving DecidableEq, Repr

/-- `protoreflect.MessageDescriptor`; `hasRanges`: it has extension ranges. -/
structure Msg where
  fullName : Str
  fields : List Field
  mapEntry : Bool
  hasRanges : Bool
deriving DecidableEq, Repr

/-- The descriptor whose fields are completed: a message, a field (with its message if it has one), or another or no descriptor. -/
inductive Prev
  | message (m : Msg)
  | field (m : Option Msg)
  | other
deriving DecidableEq, Repr

/-- An extension: its full name, its name relative to the package of the file (`relativeFullName`, modelled in `Model/Completion.lean`),
and the edit that `maybeResolveImport` adds (1537-1552), if the file does not see the extension. -/
structure Ext where
  fullName : Str
  rel : Str
  imp : Option Edit
deriving DecidableEq, Repr

/-- `ast.FieldReferenceNode`: `IsExtension()`, and the columns, counted from 0, of the parenthesis or bracket at either side. -/
structure Ref where
  isExt : Bool
  opn : Option Nat
  cls : Option Nat
deriving DecidableEq, Repr

/-- `protocol.CompletionItem` with its text edit. -/
structure Item where
  label : Str
  edit : Edit
  preselect : Bool
  more : List Edit
deriving DecidableEq, Repr

def gogoproto : Str := ['g', 'o', 'g', 'o', 'p', 'r', 'o', 't', 'o', '.']
def gogo : Str := ['g', 'o', 'g', 'o']

/-- Is a field offered, completion.go:918-926. -/
def offered (partialName sfx : Str) (existing : List Str) (f : Field) : Bool :=
  partialName.isPrefixOf f.name &&
    (!((decide (sfx = []) && decide (f.name ≠ partialName)) || decide (f.name ≠ partialName ++ sfx)) ||
      !(existing.contains f.fullName && !f.repeated))

/-- The item of a field, completion.go:911-940. -/
def fieldItem (partialName sfx : Str) (pos : Pos) (f : Field) : Item :=
  ⟨f.name, ⟨adjustColumn pos (-(partialName.length : Int)), adjustColumn pos sfx.length, f.name⟩, decide (f.name = partialName ++ sfx), []⟩

/-- The range is extended by one column on the side on which a parenthesis stands, completion.go:955-972. -/
def widen (pos : Pos) (col : Option Nat) (r : Pos × Pos) : Pos × Pos :=
  match col with
  | none => r
  | some c => if c < pos.char then (adjustColumn r.1 (-1), r.2) else (r.1, adjustColumn r.2 1)

/-- The item of an extension, completion.go:951-985. -/
def extItem (partialName sfx : Str) (ref : Option Ref) (pos : Pos) (x : Ext) : Item :=
  let r : Pos × Pos := (adjustColumn pos (-(partialName.length : Int)), adjustColumn pos sfx.length)
  let parts : Str × Str × (Pos × Pos) := match ref with
    | none => (['('], [')'], r)
    | some n => (if n.opn.isSome then ['('] else [], if n.cls.isSome then [')'] else [], widen pos n.cls (widen pos n.opn r))
  ⟨'(' :: (x.rel ++ [')']), ⟨parts.2.2.1, parts.2.2.2, parts.1 ++ x.rel ++ parts.2.1⟩, false, x.imp.toList⟩

/-- `deepCompleteOptionNames`, completion.go:875-989; `exts` is `FindExtensionsByMessage`. -/
def deepComplete (exts : Str → List Ext) (prev : Prev) (partialName sfx : Str) (existing : List Str) (ref : Option Ref) (pos : Pos) : List Item :=
  let found : Option (Msg × Bool) := match prev with
    | .message m => some (m, true)
    | .field (some m) => some (m, m.hasRanges)
    | _ => none
  match found with
  | none => []
  | some (m, withExts) =>
    if m.mapEntry then []
    else
      let onlyExts : Bool := match ref with
        | some n => withExts && n.isExt
        | none => false
      (if onlyExts then [] else (m.fields.filter (offered partialName sfx existing)).map (fieldItem partialName sfx pos)) ++
      (if withExts then
        ((exts m.fullName).filter fun x => !(gogoproto.isPrefixOf x.fullName && !gogo.isPrefixOf partialName)).map (extItem partialName sfx ref pos)
      else [])

/-- The field reference under the cursor, with the offsets of its name, and whether the name starts behind the parenthesis. -/
structure Node where
  ref : Ref
  name : Option (Nat × Nat)
  behind : Bool
deriving DecidableEq, Repr

/-- The parts of the name before and behind the cursor, completion.go:540-551 and 558-565 (errors of positions are left out). -/
def partialNames (content : Str) (offset : Nat) (first : Bool) : Option Node → Str × Str
  | none => ([], [])
  | some n =>
    match n.name with
    | none => ([], [])
    | some (a, b) => if !first || (!n.ref.isExt || n.behind) then Completion.findPartialNames content a b offset else ([], [])

/-- `completeOptionOrExtensionName`, completion.go:524-586; `before` is the field that the part two places before refers to. -/
def completeName (exts : Str → List Ext) (scope : Prev) (before : Option Prev) (content : Str) (offset : Nat) (pos : Pos)
    (existing : List Str) (node : Option Node) (idx : Int) : List Item :=
  if idx = -1 then []
  else if idx = 0 then
    let names := partialNames content offset true node
    deepComplete exts scope names.1 names.2 existing (node.map (·.ref)) pos
  else
    let names := partialNames content offset false node
    if idx < 2 then []
    else
      match before with
      | none => []
      | some p => deepComplete exts p names.1 names.2 existing (node.map (·.ref)) pos

/-- The declaration whose options are completed: itself, the message type of its options, and the full names of the options that are set
(`findExistingOptions`, completion.go:858-865). -/
structure Scope where
  self : Prev
  options : Msg
  set : List Str
deriving DecidableEq, Repr

/-- Kinds of nodes of the syntax tree that matter for the scope. -/
inductive NodeKind
  | file | message | field | enum | service | messageField | rpc | oneof | enumValue | extend | other
deriving DecidableEq, Repr

/-- `findCompletionScope`, completion.go:836-856. The path runs from the innermost node to the file, each node with the descriptor that
`deepPathSearch` finds for it; `file` is the descriptor of the file. -/
def findScope {δ : Type} (file : δ) : List (NodeKind × Option δ) → Option δ
  | [] => none
  | (k, d) :: rest =>
    match k with
    | .message | .field | .enum | .service | .messageField =>
      match d with
      | some d => some d
      | none => findScope file rest
    | .file | .rpc => some file
    | _ => findScope file rest

/-- A place in a text: its offset and its position. -/
structure Cursor where
  content : Str
  offset : Nat
  pos : Pos
deriving DecidableEq, Repr

/-- `option <cursor>`, completion.go:256-259. -/
def caseOption (exts : Str → List Ext) (sc : Scope) (c : Cursor) : List Item :=
  completeName exts (.message sc.options) none c.content c.offset c.pos sc.set none 0

/-- The cursor in the brackets of compact options, completion.go:243-245. -/
def caseCompact (exts : Str → List Ext) (sc : Scope) (c : Cursor) : List Item :=
  completeName exts sc.self none c.content c.offset c.pos sc.set none 0

/-- The cursor at a part of the name of an option, completion.go:265-267 and 284-294. The node two above is the option, so that
no option counts as existing. -/
def caseRef (exts : Str → List Ext) (sc : Scope) (before : Option Prev) (node : Node) (idx : Nat) (c : Cursor) : List Item :=
  completeName exts (.message sc.options) before c.content c.offset c.pos [] (some node) idx

/-- The cursor at the name of a field in a literal of the message `m`, completion.go:268-294; `elems` are the names of the complete
fields of the literal. -/
def caseLiteral (exts : Str → List Ext) (m : Msg) (elems : List Str) (node : Node) (c : Cursor) : List Item :=
  completeName exts (.message m) none c.content c.offset c.pos (elems.map fun e => Completion.append m.fullName e) (some node) 0

end Verif.OptionComplete
