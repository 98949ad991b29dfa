import Verif.Model.OptionComplete
import Verif.Model.PathSearch
/-!
# Completion of values, of fields at an empty place of a message literal, and of keywords

`fieldCompletion`, `fieldTypeDetail`, `completeFieldLiteralValues`, `completeEnumValues`, `completeKeywords`, `isProto2`,
`messageKeywordCompletions`, `fileKeywordCompletions`, `syntaxSnippets`, `/repo/pkg/lsp/completion.go:661-713, 744-828, 991-1013,
1170-1193, 1308-1366`, and the cases of `GetCompletions` that call them: 103-117, 136-207, 209-242, 247-255, 352-423, 502-516.
The kinds of items, `LabelDetails` and `InsertTextMode` are left out.
-/
namespace Verif.ValueComplete
open Verif.Documents (Pos)
open Verif.QuickFix (Edit)
open Verif.ImportComplete (adjustColumn)

/-- `protoreflect.Kind`, as far as the functions tell kinds apart; `other` carries the name of the kind. -/
inductive Kind
  | message | group | enum | bool
  | other (name : Str)
deriving DecidableEq, Repr

/-- `Kind.String()`. -/
def Kind.name : Kind → Str
  | .message => ['m', 'e', 's', 's', 'a', 'g', 'e']
  | .group => ['g', 'r', 'o', 'u', 'p']
  | .enum => ['e', 'n', 'u', 'm']
  | .bool => ['b', 'o', 'o', 'l']
  | .other n => n

/-- `protoreflect.FieldDescriptor`. `type` is the full name of the message or enum; `mapEntry`: the message is a map entry, and
`mapKey`, `mapValue` are the full names of its fields `key` and `value`, `keyType`, `valueType` their types (which the code does not read);
`values` are the names of the values of the enum; `oneof` is the name of the oneof around the field (not read by the code). -/
structure Field where
  name : Str
  fullName : Str
  kind : Kind
  repeated : Bool
  isExtension : Bool
  type : Str
  mapEntry : Bool
  mapKey : Str
  mapValue : Str
  keyType : Str
  valueType : Str
  values : List Str
  oneof : Option Str
  comments : Str
  deprecated : Bool
deriving DecidableEq, Repr

/-- `protocol.CompletionItem`; `insert` is `InsertText`, `snippet`: `InsertTextFormat` is that of snippets. -/
structure Item where
  label : Str
  detail : Str
  docs : Option Str
  deprecated : Bool
  edit : Option Edit
  insert : Option Str
  snippet : Bool
  preselect : Bool
deriving DecidableEq, Repr

/-- `fieldTypeDetail`, completion.go:813-828. -/
def typeDetail (f : Field) : Str :=
  if f.isExtension then
    Completion.append (Completion.parent f.fullName) ('(' :: (Completion.name f.fullName ++ [')', ':', ' '] ++ f.kind.name))
  else
    match f.kind with
    | .message => if f.mapEntry then ['m', 'a', 'p', '<'] ++ f.mapKey ++ [',', ' '] ++ f.mapValue ++ ['>'] else f.type
    | k => k.name

/-- `fieldCompletionStyle`, completion.go:737-742. -/
inductive Style
  | literal | compact
deriving DecidableEq, Repr

/-- The operator of a style, completion.go:764-770. -/
def Style.operator : Style → Str
  | .literal => [':', ' ']
  | .compact => [' ', '=', ' ']

def repeatedText : Str := ['r', 'e', 'p', 'e', 'a', 't', 'e', 'd', ' ']

/-- `fieldCompletion`, completion.go:744-811, with an empty range at `pos` (166-169, 186-189). -/
def fieldItem (style : Style) (pos : Pos) (f : Field) : Item :=
  let it (edit : Option Str) (snippet : Bool) (detail : Str) : Item :=
    ⟨f.name, detail, some f.comments, f.deprecated, edit.map fun t => ⟨pos, pos, t⟩, none, snippet, false⟩
  if f.repeated then it (some (f.name ++ style.operator ++ ['[', '$', '{', '0', '}', ']'])) true (repeatedText ++ typeDetail f)
  else
    match f.kind with
    | .message =>
      if !f.mapEntry then it (some (f.name ++ style.operator ++ ['{', '\n', ' ', ' ', '$', '{', '0', '}', '\n', '}'])) true (typeDetail f)
      else it none false (typeDetail f)
    | _ => it (some (f.name ++ style.operator)) false (typeDetail f)

/-- The names of the fields that are set and may be set only once, completion.go:155-162; `elems` are the names of the elements of the
literal, extensions without brackets. -/
def existing (fields : List Field) (elems : List Str) : List Str :=
  elems.filter fun e =>
    match fields.find? fun f => f.name == e with
    | some f => !f.repeated
    | none => false

/-- The items for a message, completion.go:163-172. -/
def bodyItems (fields : List Field) (elems : List Str) (pos : Pos) : List Item :=
  (fields.filter fun f => !(existing fields elems).contains f.name).map (fieldItem .literal pos)

/-- The case `*ast.MessageLiteralNode`, completion.go:148-194, with the descriptor from `deepPathSearch` (123), whose errors are
ignored; `none` if it panics. `path` are the nodes below the file node; `fieldsOf` are the fields of a message. -/
def caseBody {D : Type} (S : PathSearch.Schema D) (fieldsOf : D → List Field) (file : PathSearch.Node) (path : List PathSearch.Node)
    (elems : List Str) (pos : Pos) : Option (List Item) :=
  match PathSearch.search S file path with
  | .panic => none
  | .found d _ =>
    match S.sort d with
    | .message => some (bodyItems (fieldsOf d) elems pos)
    | .extension =>
      match path.reverse with
      | _ :: ⟨_, _, _, .extend _ _ _ _⟩ :: _ => some []
      | _ =>
        match S.kind d, S.message d with
        | .message, some m => some ((fieldsOf m).map (fieldItem .compact pos))
        | _, _ => some []
    | _ => some []
  | _ => some []

/-- The item of a word, completion.go:991-1013 and 1177-1190. -/
def wordItem (l r : Str) (pos : Pos) (w : Str) : Item :=
  ⟨w, [], none, false, some ⟨adjustColumn pos (-(l.length : Int)), adjustColumn pos r.length, w⟩, none, false, false⟩

/-- `completeEnumValues`, completion.go:1170-1193. -/
def enumItems (values : List Str) (l r : Str) (pos : Pos) : List Item :=
  (values.filter fun v => l.isPrefixOf v).map (wordItem l r pos)

/-- `completeKeywords`, completion.go:991-1013. -/
def keywords (kws : List Str) (l r : Str) (pos : Pos) : List Item :=
  (kws.filter fun k => l.isPrefixOf k).map (wordItem l r pos)

def trueText : Str := ['t', 'r', 'u', 'e']
def falseText : Str := ['f', 'a', 'l', 's', 'e']

/-- The parts of a node before and behind the cursor, `none`: there is no node. -/
def namesAt (content : Str) (offset : Nat) : Option (Nat × Nat) → Str × Str
  | none => ([], [])
  | some (a, b) => Completion.findPartialNames content a b offset

/-- `completeFieldLiteralValues`, completion.go:661-713. `val` are the offsets of the value, `none` if there is none (a nil node or one
without value, whose `NodeInfo` is not valid). Errors of positions are left out. -/
def values (f : Field) (val : Option (Nat × Nat)) (content : Str) (offset : Nat) (pos : Pos) : List Item :=
  let names := namesAt content offset val
  match f.kind with
  | .message =>
    if !f.mapEntry then
      if val.isNone then
        [⟨['{', '.', '.', '.', '}'], [], none, false, some ⟨pos, pos, ['{', '\n', ' ', ' ', '$', '{', '0', '}', '\n', '}']⟩, none, true, false⟩]
      else []
    else []
  | .enum => enumItems f.values names.1 names.2 pos
  | .bool => keywords [trueText, falseText] names.1 names.2 pos
  | _ => []

/-- The value of a field or an option: its first and last token and its offsets. -/
structure Val where
  first : Int
  last : Int
  start : Nat
  stop : Nat
deriving DecidableEq, Repr

/-- The case `*ast.MessageFieldNode`, completion.go:195-208. `fd` is the field that the linker has found, `last` the last token of the
node, `tok` the token at the cursor. A complete field has a value. -/
def caseField (fd : Option Field) (incomplete : Bool) (last : Int) (val : Option Val) (tok : Int) (content : Str) (offset : Nat) (pos : Pos) :
    List Item :=
  match fd with
  | none => []
  | some f =>
    let vs := values f (val.map fun v => (v.start, v.stop)) content offset pos
    (if incomplete && decide (tok = last) then vs else []) ++
    (match val with
      | some v => if !incomplete && decide (v.first ≤ tok) && decide (tok ≤ v.last) then vs else []
      | none => [])

/-- The first case for `*ast.OptionNode`, completion.go:247-255; `equals` is the token `=`. `none`: the other cases (see
`Model/OptionComplete.lean`). -/
def caseOption (fd : Option Field) (nameIncomplete : Bool) (equals : Option Int) (val : Option (Nat × Nat)) (tok : Int) (content : Str)
    (offset : Nat) (pos : Pos) : Option (List Item) :=
  match equals with
  | some e =>
    if !nameIncomplete && decide (tok > e) then
      some (match fd with
        | some f => values f val content offset pos
        | none => [])
    else none
  | none => none

/-! ## Keywords -/

/-- `ast.FileNode`: the version of the syntax statement; is there an edition statement (not read by the code), a package statement; is
there nothing but the end of the file. -/
structure File where
  syn : Option Str
  edition : Bool
  package : Bool
  empty : Bool
deriving DecidableEq, Repr

def kwSyntax : Str := ['s', 'y', 'n', 't', 'a', 'x']
def kwPackage : Str := ['p', 'a', 'c', 'k', 'a', 'g', 'e']
def kwImport : Str := ['i', 'm', 'p', 'o', 'r', 't']
def kwOption : Str := ['o', 'p', 't', 'i', 'o', 'n']
def kwMessage : Str := ['m', 'e', 's', 's', 'a', 'g', 'e']
def kwEnum : Str := ['e', 'n', 'u', 'm']
def kwService : Str := ['s', 'e', 'r', 'v', 'i', 'c', 'e']
def kwExtend : Str := ['e', 'x', 't', 'e', 'n', 'd']
def kwOptional : Str := ['o', 'p', 't', 'i', 'o', 'n', 'a', 'l']
def kwRepeated : Str := ['r', 'e', 'p', 'e', 'a', 't', 'e', 'd']
def kwReserved : Str := ['r', 'e', 's', 'e', 'r', 'v', 'e', 'd']
def kwRequired : Str := ['r', 'e', 'q', 'u', 'i', 'r', 'e', 'd']
def kwGroup : Str := ['g', 'r', 'o', 'u', 'p']
def kwStream : Str := ['s', 't', 'r', 'e', 'a', 'm']
def proto2 : Str := ['p', 'r', 'o', 't', 'o', '2']
def proto3 : Str := ['p', 'r', 'o', 't', 'o', '3']

/-- `isProto2`, completion.go:1308-1313. -/
def isProto2 (f : File) : Bool :=
  match f.syn with
  | none => true
  | some v => v == proto2

/-- One of the items of `syntaxSnippets`. -/
def snippet (version : Str) (preselect : Bool) : Item :=
  ⟨kwSyntax ++ [':', ' '] ++ version, [], none, false, none, some (kwSyntax ++ [' ', '=', ' ', '"'] ++ version ++ ['"', ';', '\n']), true, preselect⟩

/-- `syntaxSnippets`, completion.go:1349-1366. -/
def syntaxSnippets : List Item := [snippet proto3 true, snippet proto2 false]

/-- `messageKeywordCompletions`, completion.go:1315-1322. -/
def messageKeywords (f : File) (l r : Str) (pos : Pos) : List Item :=
  keywords ([kwOption, kwOptional, kwRepeated, kwEnum, kwMessage, kwReserved] ++ if isProto2 f then [kwRequired, kwExtend, kwGroup] else []) l r pos

/-- `fileKeywordCompletions`, completion.go:1324-1347. -/
def fileKeywords (f : File) (l r : Str) (pos : Pos) : List Item :=
  (if f.syn.isNone && l.isPrefixOf kwSyntax then syntaxSnippets else []) ++
  keywords ((if f.syn.isNone then [kwSyntax] else []) ++ (if !f.package then [kwPackage] else []) ++
    [kwImport, kwOption, kwMessage, kwEnum, kwService, kwExtend]) l r pos

/-- No node at the cursor, completion.go:104-117. -/
def caseNothing (f : File) (pos : Pos) : List Item :=
  if f.empty then syntaxSnippets else fileKeywords f [] [] pos

/-- The case `*ast.ErrorNode` at the top level, completion.go:502-516; `err` are the offsets of the node in error. -/
def caseError (f : File) (err : Option (Nat × Nat)) (content : Str) (offset : Nat) (pos : Pos) : List Item :=
  let names := namesAt content offset err
  fileKeywords f names.1 names.2 pos

/-- What is completed in a message: types for the words at the cursor (`completeTypeNames`, modelled in `Model/FindTypes.lean`), and
keywords. -/
structure Offer where
  types : Option (Str × Str)
  keywords : List Item
deriving DecidableEq, Repr

/-- The parts of a node at the cursor, completion.go:137-144. -/
def namesIn (tok : Int) (content : Str) (offset : Nat) : Option Val → Str × Str
  | some v => if v.first ≤ tok ∧ tok ≤ v.last then Completion.findPartialNames content v.start v.stop offset else ([], [])
  | none => ([], [])

/-- The case `*ast.MessageNode`, completion.go:136-147; `name` are the tokens and offsets of the name. `desc`: `deepPathSearch` has found the
message; otherwise `desc.FullName()` panics (`none`). -/
def caseMessage (f : File) (name : Option Val) (desc : Bool) (tok : Int) (content : Str) (offset : Nat) (pos : Pos) : Option Offer :=
  let names := namesIn tok content offset name
  if !isProto2 f then
    if desc then some ⟨some names, messageKeywords f names.1 names.2 pos⟩ else none
  else some ⟨none, messageKeywords f names.1 names.2 pos⟩

/-- `ast.FieldNode`: label (first token, position of its end), type (tokens, text, offset and line of its start), name (tokens). -/
structure FieldNode where
  label : Option (Int × Pos)
  type : Option (Int × Int × Str × Nat × Nat)
  name : Option (Int × Int)
  incomplete : Bool
deriving DecidableEq, Repr

/-- `ast.TokenError`. -/
def tokenError : Int := -1

/-- Is the token in the name, completion.go:370. -/
def inName (tok : Int) : Option (Int × Int) → Bool
  | some (a, b) => decide (a ≤ tok) && decide (tok ≤ b)
  | none => false

/-- Does the type begin with the token of the label, as it does if there is no type, completion.go:387. -/
def noType (first : Int) : Option (Int × Pos) → Bool
  | some (lf, _) => decide (lf = first)
  | none => false

/-- The case `*ast.FieldNode`, completion.go:352-423; `none`: the request panics (a slice with a negative index). -/
def caseFieldDecl (f : File) (n : FieldNode) (tok : Int) (offset : Nat) (pos : Pos) : Option Offer :=
  match n.type with
  | none => some ⟨some ([], []), []⟩
  | some (first, last, text, start, line) =>
    if inName tok n.name then some ⟨none, []⟩
    else if first ≤ tok ∧ tok ≤ last then
      let idx : Int := (offset : Int) - start
      let empty := noType first n.label
      if idx ≤ text.length then
        if idx < 0 then none
        else
          let l := text.take idx.toNat
          let r := text.drop idx.toNat
          if empty then some ⟨some ([], r), []⟩
          else some ⟨some (l, r), messageKeywords f l r pos⟩
      else if empty then some ⟨some ([], []), []⟩
      else some ⟨none, messageKeywords f text [] pos⟩
    else
      match n.label with
      | some (_, e) =>
        if tok = tokenError ∧ n.incomplete = false ∧ e.line = pos.line ∧ pos.char > e.char ∧ pos.line < line then some ⟨some ([], []), []⟩
        else some ⟨none, []⟩
      | none => some ⟨none, []⟩

/-- `ast.RPCTypeNode`: the token `stream`, the type, the token `)` with its offset. -/
structure RpcType where
  stream : Option Int
  incomplete : Bool
  type : Option Val
  close : Int × Nat
deriving DecidableEq, Repr

/-- The case `*ast.RPCTypeNode`, completion.go:209-242. -/
def caseRpc (n : RpcType) (tok : Int) (content : Str) (offset : Nat) (pos : Pos) : Offer :=
  if n.stream = some tok then ⟨none, []⟩
  else
    let within : Bool :=
      (match n.type with | some v => decide (v.first ≤ tok) && decide (tok ≤ v.last) | none => false) ||
      (decide (tok = n.close.1) && decide (n.close.2 = offset))
    let names : Str × Str :=
      if !n.incomplete && within then
        match n.type with
        | some v => Completion.findPartialNames content v.start v.stop offset
        | none => ([], [])
      else ([], [])
    ⟨some names, if n.stream.isNone then keywords [kwStream] names.1 names.2 pos else []⟩

end Verif.ValueComplete
